import Verif.Solve.Props

/-! # Linear systems need two steps (C107), and where the stopping rule fails -/

set_option linter.unusedSectionVars false

namespace Solve
open Py Inject

section linear
variable {P K F D : Type} [DecidableEq P] [DecidableEq K] [Field F] [DecidableEq F] [Field D] [LinearOrder D] [IsStrictOrderedRing D]
variable [Fintype P] [Fintype K]
variable {cs : List (Coupling P K F)} {ports : Dict P (List K)} {m : Algo P K F}

theorem edge_const {c : Coupling P K F} (hc : c.factors = []) {e : (P × K) × (P × K)} {f : Func P K F} (hf : (e, f) ∈ c.inj.edges)
    (s s' : SolVec P K F) : f s = f s' := by
  cases c with
  | edge a b g =>
    simp only [Coupling.inj, ConstantEdgeCoupling, Dict.ofList, Dict.update, List.foldl_cons, List.foldl_nil, Dict.set, List.mem_cons, List.not_mem_nil,
      or_false, Prod.mk.injEq] at hf
    rw [hf.2]
  | source a g => simp [Coupling.inj, ConstantSourceCoupling] at hf
  | multEdge a b g l =>
    simp only [Coupling.factors] at hc
    subst hc
    simp only [Coupling.inj, MultiplicativeEdgeCoupling, Dict.ofList, Dict.update, List.foldl_cons, List.foldl_nil, Dict.set, List.mem_cons,
      List.not_mem_nil, or_false, Prod.mk.injEq] at hf
    rw [hf.2]
    rfl
  | multSource a g l => simp [Coupling.inj, MultiplicativeSourceCoupling] at hf
  | triplet p q t g => cases hc
  | tripletNorm p q t n g N => cases hc
  | tripletNorms p q t ns g N => cases hc

theorem source_const {c : Coupling P K F} (hc : c.factors = []) {e : P × K} {f : Func P K F} (hf : (e, f) ∈ c.inj.sources)
    (s s' : SolVec P K F) : f s = f s' := by
  cases c with
  | edge a b g => simp [Coupling.inj, ConstantEdgeCoupling] at hf
  | source a g =>
    simp only [Coupling.inj, ConstantSourceCoupling, Dict.ofList, Dict.update, List.foldl_cons, List.foldl_nil, Dict.set, List.mem_cons, List.not_mem_nil,
      or_false, Prod.mk.injEq] at hf
    rw [hf.2]
  | multEdge a b g l => simp [Coupling.inj, MultiplicativeEdgeCoupling] at hf
  | multSource a g l =>
    simp only [Coupling.factors] at hc
    subst hc
    simp only [Coupling.inj, MultiplicativeSourceCoupling, Dict.ofList, Dict.update, List.foldl_cons, List.foldl_nil, Dict.set, List.mem_cons,
      List.not_mem_nil, or_false, Prod.mk.injEq] at hf
    rw [hf.2]
    rfl
  | triplet p q t g => cases hc
  | tripletNorm p q t n g N => cases hc
  | tripletNorms p q t ns g N => cases hc

theorem sum_const {s s' : SolVec P K F} {fl : List (Func P K F)} (h : ∀ f ∈ fl, f s = f s') : sum_funcs s fl = sum_funcs s' fl := by
  cases fl with
  | nil => rfl
  | cons f fl =>
    unfold sum_funcs
    dsimp only
    rw [h f (by simp)]
    congr 1
    funext v
    have : ∀ (fl : List (Func P K F)) (v : F), (∀ f ∈ fl, f s = f s') →
        fl.foldlM (fun val g => do let w ← g s; pure (val + w)) v =
          (fl.foldlM (fun val g => do let w ← g s'; pure (val + w)) v : Except Err F) := by
      intro fl
      induction fl with
      | nil => intro v _; rfl
      | cons g fl ih =>
        intro v hh
        rw [List.foldlM_cons, List.foldlM_cons, hh g (by simp)]
        congr 1
        funext w
        exact ih w (fun f hf => hh f (List.mem_cons_of_mem _ hf))
    exact this fl v (fun f hf => h f (List.mem_cons_of_mem _ hf))

theorem lst_of_get {A B : Type} [DecidableEq A] {d : Dict A (List B)} {e : A} {fl : List B} (h : Dict.get? d e = some fl) : lst d e = fl := by
  unfold lst
  rw [h]
  rfl

/-- Every key occurs once in what a solve returns. -/
theorem linear_solve_wf {o : Graph.Opts (P × K) F} {bonds seq req : SetDict P K} {inputs outs : List (P × K)} {s s' : SolVec P K F}
    (h : linear_solve o m bonds seq req inputs outs s = .ok s') : Dict.WF s' := by
  unfold linear_solve at h
  obtain ⟨g, _, h⟩ := bind_ok_inv h
  obtain ⟨sv, _, h⟩ := bind_ok_inv h
  obtain ⟨rr, hr, h⟩ := bind_ok_inv h
  unfold Graph.inverse_solve at hr
  obtain ⟨g1, _, hr⟩ := bind_ok_inv hr
  obtain ⟨g2, _, hr⟩ := bind_ok_inv hr
  obtain ⟨em, _, hr⟩ := bind_ok_inv hr
  injection h with h
  injection hr with hr
  subst hr
  subst h
  show Dict.WF (Graph.unwrapOutputs outs g2)
  unfold Graph.unwrapOutputs
  have : ∀ (l : List (P × K)) (d : Dict (P × K) F), Dict.WF d → Dict.WF (l.foldl (Graph.outStep g2) d) := by
    intro l
    induction l with
    | nil => intro d hd; exact hd
    | cons a l ih =>
      intro d hd
      refine ih _ ?_
      unfold Graph.outStep
      split
      · exact Dict.WF_set hd _ _
      · exact hd
  exact this _ _ Dict.WF_nil

variable (hm : insert_all ports (cs.map Coupling.inj) = .ok m) (hc : ∀ c ∈ cs, c.factors = [])
include hm hc

theorem edge_step_const (bonds : SetDict P K) (s s' : SolVec P K F) : edge_step m bonds s = edge_step m bonds s' := by
  funext st e
  unfold edge_step
  cases hg : Dict.get? m.edgeFunc e with
  | none => rfl
  | some fl =>
    dsimp only
    rw [sum_const (s := s) (s' := s') (fun f hf => by
      obtain ⟨c, h1, h2⟩ := of_edgeFunc hm (e := e) (f := f) (by rw [lst_of_get hg]; exact hf)
      exact edge_const (hc c h1) h2 s s')]

theorem linear_solve_const (o : Graph.Opts (P × K) F) (bonds seq req : SetDict P K) (inputs outs : List (P × K)) (s s' : SolVec P K F) :
    linear_solve o m bonds seq req inputs outs s = linear_solve o m bonds seq req inputs outs s' := by
  have e2 : source_step m s = source_step m s' := by
    funext sv e
    unfold source_step
    cases hg : Dict.get? m.srcFunc e with
    | none => unfold Dict.get; rw [hg]; rfl
    | some fl =>
      unfold Dict.get
      rw [hg]
      show (sum_funcs s fl >>= _) = (sum_funcs s' fl >>= _)
      rw [sum_const (s := s) (s' := s') (fun f hf => by
        obtain ⟨c, h1, h2⟩ := of_srcFunc hm (e := e) (f := f) (by rw [lst_of_get hg]; exact hf)
        exact source_const (hc c h1) h2 s s')]
  unfold linear_solve edge_matrix_generate source_vector_generate
  rw [edge_step_const hm hc bonds s s', e2]

variable {Q C : Type} [DecidableEq Q] {ab : F → D} {o : Graph.Opts (P × K) F} {pick pick' : List (P × K) → P × K} {bonds : SR (P × K)}
  {st : SG (P × K)} {sets : Q → List (P × K)} {couple : Q × Q → SolVec P K F → Except Err C} {inf eps : D} {max_N warning_N : Nat}

/-- **C107, linear systems.**  If no coupling reads the fields, `solve` takes at most two steps, and the readouts asked for then are fields
which obey the equations at every readout and upstream of it. -/
theorem C107_linear (he : 0 < eps) (hN : 0 < max_N) (hab : ab 0 = 0) (hpick : ∀ l, l ≠ [] → pick l ∈ l) (hpick' : ∀ l, l ≠ [] → pick' l ∈ l)
    {fuel : Nat} (hbw : bonds.WF) (hbal : ∀ a b, mem bonds.seq a b ↔ mem bonds.req b a)
    (hst : coherent_sparsity_graph pick fuel bonds m = .ok (some st)) (ho : ∀ l, l ≠ [] → o.pick l ∈ l) (hneg : o.negative = false) {bs}
    (hr : solve (object ab o pick' m bonds.seq st sets couple inf eps max_N warning_N none) none
      (object ab o pick' m bonds.seq st sets couple inf eps max_N warning_N none).start.orders = .ok bs) :
    bs.length ≤ 4 ∧ ∀ q r b', driven (object ab o pick' m bonds.seq st sets couple inf eps max_N warning_N none) q none ⟨bs, []⟩ = .ok (r, b') →
      ∃ x : P × K → F, (∀ n, Dict.get? r n = if n ∈ sets q then some (x n) else none) ∧ (∀ n, ¬ Live bonds cs n → x n = 0) ∧
        ∃ g, edge_matrix_generate m bonds.seq st.g.seq st.g.req [] = .ok g ∧
          ∀ t, Graph.Seen ⟨g.seq, g.req, g.mat⟩ (sets q) t →
            x t = (∑ a, if mem bonds.seq a t then x a else 0) + (cs.map (fun c => c.into x t)).sum := by
  have hit : ∀ s s', Inject.perturbation_iterate o pick' m bonds.seq st s = Inject.perturbation_iterate o pick' m bonds.seq st s' := by
    intro s s'
    unfold Inject.perturbation_iterate
    congr 1
    funext g
    exact linear_solve_const hm hc o _ _ _ _ _ s s'
  have hread : ∀ outs s s', Inject.driven_solution_get o m bonds.seq st outs s = Inject.driven_solution_get o m bonds.seq st outs s' := by
    intro outs s s'
    unfold Inject.driven_solution_get
    rw [linear_solve_const hm hc o _ _ _ _ _ s s']
  obtain ⟨n, x, h1, h2, hl, h3, h4, h5, h6, h7, -⟩ := C107_stop_partial he hN hr
  have hn : n ≤ 2 := by
    by_contra hh
    obtain ⟨kv, hkv, hnear⟩ := h6 2 (by omega) (by omega)
    have e1 := h4 0 h1
    have e2 := h4 1 (by omega)
    rw [hit (x 1) (x 0), e1] at e2
    injection e2 with e2
    apply hnear
    intro hpos
    rw [← e2] at hkv
    have hw : Dict.WF (x 1) := by
      obtain ⟨g, _, e1⟩ := bind_ok_inv (show (perturb_graph (F := F) pick' st >>= _) = _ from e1)
      exact linear_solve_wf e1
    have hv : getd (x 1) kv.1 0 = kv.2 := by
      unfold getd
      rw [Dict.get?_of_mem hw hkv]
      rfl
    show ab (kv.2 - getd (x 1) kv.1 0) < _
    rw [show 2 - 1 = 1 from rfl, hv] at hpos
    rw [hv, sub_self, hab]
    exact mul_pos he (lt_trans (by positivity) hpos)
  constructor
  · rw [hl]
    split_ifs <;> omega
  · intro q r b' hd
    have hd' := h7 q r b' hd
    rw [hread _ _ (x 1)] at hd'
    have e1 : Inject.perturbation_iterate o pick' m bonds.seq st (x 1) = .ok (x 1) := by rw [hit (x 1) (x 0), h4 0 h1]
    obtain ⟨z, z1, z2, z3, g, hg, z4⟩ := C53_converged hm hpick hpick' hbw hbal hst ho ho hneg hneg e1 (fun _ => rfl) hd'
      (fun c hc' hex n hn => by
        obtain ⟨p, hp, _⟩ := hex
        rw [hc c hc'] at hp
        cases hp)
      (fun c hc' => by
        have := hc c hc'
        cases c <;> first | trivial | cases this)
      (fun c hc' => by
        have := hc c hc'
        cases c <;> first | trivial | cases this)
    refine ⟨z, z1, z3, g, ?_, fun t ht => z4 t ?_⟩
    · rw [← hg]
      unfold edge_matrix_generate
      rw [edge_step_const hm hc bonds.seq [] (x 1)]
    · obtain ⟨u, hu, hr⟩ := ht
      exact ⟨u, List.mem_append_left _ hu, hr⟩

end linear

end Solve
