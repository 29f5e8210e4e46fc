import Mathlib.LinearAlgebra.Matrix.NonsingularInverse
import Mathlib.LinearAlgebra.Matrix.ToLin
import Verif.Inject.IterateProps

/-!
# The response of the linearised system (C87)

Source: `/repo/phasor/system/solver_algorithm.py` l.532-602, `coupling_solution_get`.
-/

set_option linter.unusedSectionVars false

namespace Inject
open Py

variable {P K F : Type} [DecidableEq P] [DecidableEq K] [Field F] [DecidableEq F] [Fintype P] [Fintype K]

/-- `solver_algorithm.py` l.549-597, `coupling_solution_get`: the linear system is generated from the previous solution on
the full graph and inverted from the drives `ins` to the readouts `outs`; the result is `coupling_matrix_inv`.  The store of
earlier results by the two sets is not modelled. -/
def coupling_solution_get (o : Graph.Opts (P × K) F) (m : Algo P K F) (bonds : SetDict P K) (csgb : SG (P × K))
    (ins outs : List (P × K)) (sol : SolVec P K F) : Except Err (Dict ((P × K) × (P × K)) F) := do
  let g ← edge_matrix_generate m bonds csgb.g.seq csgb.g.req sol
  let r ← Graph.inverse_solve o outs ins none ⟨g.seq, g.req, g.mat⟩
  pure r.2

/-- The generated graph is valid and has the gains of the bonds and of the edges of the couplings. -/
theorem generated {cs : List (Coupling P K F)} {ports : Dict P (List K)} {m : Algo P K F}
    (hm : insert_all ports (cs.map Coupling.inj) = .ok m) {bonds : SR (P × K)} {st : SG (P × K)}
    (ha : Analysed bonds cs st) {sol : SolVec P K F} (hlive : ∀ n, ¬ Live bonds cs n → getd sol n 0 = 0) {g : Gen P K F}
    (hg : edge_matrix_generate m bonds.seq st.g.seq st.g.req sol = .ok g) :
    Graph.Valid (⟨g.seq, g.req, g.mat⟩ : Graph.G (P × K) F) ∧
    ∀ d t, Graph.gain (⟨g.seq, g.req, g.mat⟩ : Graph.G (P × K) F) d t = (if mem bonds.seq d t then 1 else 0) +
      (cs.map (fun c => (c.inj.edges.map (fun e => if e.1 = (d, t) then evalD sol e.2 else 0)).sum)).sum := by
  obtain ⟨g1, g2, g3, g4, g5, g6⟩ := generate_spec ha.wfs hg
  have hmat : ∀ e v, Dict.get? g.mat e = some v ↔ mem st.g.seq e.1 e.2 ∧ v ≠ 0 ∧ v = edgeVal m sol e := by
    intro e v
    rw [g2, get?_kept, ← mem_pairs ha.wfs.1]
  have hnd : ∀ (d : SetDict P K), SetWF d → ∀ a, ((Dict.get? d a).getD []).Nodup := by
    intro d hd a
    cases hh : Dict.get? d a with
    | none => simp
    | some l => exact hd.2 (a, l) (Dict.mem_of_get? hh)
  refine ⟨⟨g5.1, (g6 ha.wfr).1, hnd _ g5, hnd _ (g6 ha.wfr), ?_⟩, ?_⟩
  · intro a b hab
    obtain ⟨v, hv⟩ := Option.isSome_iff_exists.1 hab
    obtain ⟨k1, k2, k3⟩ := (hmat _ _).1 hv
    refine ⟨(g3 a b).2 ⟨k1, by rw [← k3]; exact k2⟩, (g4 a b).2 ⟨(ha.bal a b).1 k1, ?_⟩⟩
    rintro ⟨_, h0⟩
    exact k2 (k3.trans h0)
  · intro d t
    have hlst := (insert_lists _ hm).edgeFunc (d, t)
    have hl0 : lst ({ ports := ports } : Algo P K F).edgeFunc (d, t) = [] := rfl
    rw [hl0, List.nil_append, List.flatMap_map] at hlst
    have hsum : ((lst m.edgeFunc (d, t)).map (evalD sol)).sum =
        (cs.map (fun c => (c.inj.edges.map (fun e => if e.1 = (d, t) then evalD sol e.2 else 0)).sum)).sum := by
      rw [hlst]
      clear hlst ha hlive hm
      induction cs with
      | nil => rfl
      | cons c cs ih =>
        rw [List.flatMap_cons, List.map_append, List.sum_append, ih, List.map_cons, List.sum_cons]
        congr 1
        generalize c.inj.edges = l
        induction l with
        | nil => rfl
        | cons e l ih =>
          rw [List.map_cons, List.sum_cons, ← ih, List.filter_cons]
          by_cases h : e.1 = (d, t)
          · rw [if_pos (decide_eq_true h), if_pos h]
            rfl
          · rw [if_neg (by simpa using h), if_neg h, zero_add]
    rw [← hsum]
    unfold Graph.gain
    dsimp only
    have hget : Dict.get? g.mat (d, t) = if mem st.g.seq d t ∧ edgeVal m sol (d, t) ≠ 0 then some (edgeVal m sol (d, t)) else none := by
      split_ifs with h
      · exact (hmat _ _).2 ⟨h.1, h.2, rfl⟩
      · cases hh : Dict.get? g.mat (d, t) with
        | none => rfl
        | some v =>
          obtain ⟨k1, k2, k3⟩ := (hmat _ _).1 hh
          exact absurd ⟨k1, k3 ▸ k2⟩ h
    have hgain : (Dict.get? g.mat (d, t)).getD 0 = if mem st.g.seq d t then edgeVal m sol (d, t) else 0 := by
      rw [hget]
      by_cases h1 : mem st.g.seq d t
      · by_cases h2 : edgeVal m sol (d, t) = 0
        · simp [h1, h2]
        · simp [h1, h2]
      · simp [h1]
    rw [hgain]
    cases hf : Dict.get? m.edgeFunc (d, t) with
    | none =>
      have hl : lst m.edgeFunc (d, t) = [] := by
        unfold lst
        rw [hf]
        rfl
      have hv : edgeVal m sol (d, t) = 1 := by
        unfold edgeVal
        rw [hf]
      rw [hl, hv, List.map_nil, List.sum_nil, add_zero]
      have hiff : mem st.g.seq d t ↔ mem bonds.seq d t := by
        constructor
        · intro h
          have := g1 (d, t) ((mem_pairs ha.wfs.1 d t).2 h)
          unfold EdgeOk at this
          rw [hf] at this
          exact this.2
        · exact fun h => (ha.seq d t).2 (Or.inl h)
      simp only [hiff]
    | some fl =>
      have hl : lst m.edgeFunc (d, t) = fl := by
        unfold lst
        rw [hf]
        rfl
      have hv : edgeVal m sol (d, t) = (fl.map (evalD sol)).sum := by
        unfold edgeVal
        rw [hf]
      rw [hl, hv]
      by_cases h : mem st.g.seq d t
      · have := g1 (d, t) ((mem_pairs ha.wfs.1 d t).2 h)
        unfold EdgeOk at this
        rw [hf] at this
        rw [if_pos h, if_neg this.1, zero_add]
      · have hnb : ¬ mem bonds.seq d t := fun hb => h ((ha.seq d t).2 (Or.inl hb))
        rw [if_neg h, if_neg hnb, zero_add]
        symm
        apply List.sum_eq_zero
        intro z hz
        obtain ⟨f, hf', rfl⟩ := List.mem_map.1 hz
        obtain ⟨c, hc, hcf⟩ := of_edgeFunc hm (e := (d, t)) (f := f) (by rw [hl]; exact hf')
        obtain ⟨r, hr, hidle⟩ := edge_idle c hcf
        by_contra hne0
        apply h
        refine (ha.seq d t).2 (Or.inr ⟨c, hc, f, r, hcf, hr, ?_⟩)
        intro w hw
        by_contra hlw
        exact hne0 (hidle sol w hw (hlive w hlw))

/-- What `_perturbation_iterate` returns is zero at the nodes which cannot carry a field. -/
theorem iterate_live {cs : List (Coupling P K F)} {pick : List (P × K) → P × K} (hpick : ∀ l, l ≠ [] → pick l ∈ l)
    {m : Algo P K F} {bonds : SR (P × K)} {st : SG (P × K)} (ha : Analysed bonds cs st)
    {o : Graph.Opts (P × K) F} (ho : ∀ l, l ≠ [] → o.pick l ∈ l) (hneg : o.negative = false) {sol sol' : SolVec P K F}
    (hit : perturbation_iterate o pick m bonds.seq st sol = .ok sol') (n : P × K) (hn : ¬ Live bonds cs n) :
    getd sol' n 0 = 0 := by
  obtain ⟨gp, hgp, wp1, wp2, balp, lep, gep⟩ := perturb_graph_spec (F := F) hpick ha.wfs ha.wfr ha.bal
  unfold perturbation_iterate at hit
  rw [hgp, bind_ok] at hit
  obtain ⟨g1, sv1, hg1, hsv1, hw1, hmat1, hk1, hout1, z, hz, hzs, _⟩ := linear_solve_spec ho hneg wp1 wp2 balp hit
  by_cases hno : n ∈ st.outs
  · rw [hzs n hno]
    refine hz.rest n (fun hd => hn (live_of_driven ha (fun n hn => hk1 n ((Dict.mem_keys_iff _ _).1 hn)) ?_ hd))
    intro a b hab
    obtain ⟨v, hv⟩ := Option.isSome_iff_exists.1 hab
    exact lep _ _ ((hmat1 _ _).1 hv).1
  · unfold getd
    cases hh : Dict.get? sol' n with
    | none => rfl
    | some v => exact absurd (hout1 n (by rw [hh]; rfl)) hno

theorem edge_fields (l : List (((P × K) × (P × K)) × Func P K F)) (sol : SolVec P K F) (y : P × K → F) (n : P × K) :
    ∑ a, (l.map (fun e => if e.1 = (a, n) then evalD sol e.2 else 0)).sum * y a =
      (l.map (fun e => if e.1.2 = n then evalD sol e.2 * y e.1.1 else 0)).sum := by
  induction l with
  | nil => simp
  | cons e l ih =>
    simp only [List.map_cons, List.sum_cons, add_mul, Finset.sum_add_distrib]
    rw [ih]
    congr 1
    rw [Finset.sum_eq_single e.1.1]
    · by_cases h : e.1.2 = n
      · rw [if_pos h, if_pos (show e.1 = (e.1.1, n) from Prod.ext rfl h)]
      · rw [if_neg h, if_neg (fun h' => h (by rw [h'])), zero_mul]
    · intro a _ ha
      rw [if_neg (fun h' => ha (by rw [h'])), zero_mul]
    · intro h
      exact absurd (Finset.mem_univ _) h

/-- the sum over the fields weighted with the gains -/
theorem gain_fields {cs : List (Coupling P K F)} {bonds : SetDict P K} {sol : SolVec P K F} {g : Graph.G (P × K) F}
    (hg : ∀ d t, Graph.gain g d t = (if mem bonds d t then 1 else 0) +
      (cs.map (fun c => (c.inj.edges.map (fun e => if e.1 = (d, t) then evalD sol e.2 else 0)).sum)).sum)
    (y : P × K → F) (n : P × K) : ∑ a, Graph.gain g a n * y a = (∑ a, if mem bonds a n then y a else 0) +
      (cs.map (fun c => (c.inj.edges.map (fun e => if e.1.2 = n then evalD sol e.2 * y e.1.1 else 0)).sum)).sum := by
  simp only [hg, add_mul, Finset.sum_add_distrib]
  congr 1
  · apply Finset.sum_congr rfl
    intro a _
    split_ifs <;> simp
  · clear hg
    induction cs with
    | nil => simp
    | cons c cs ih =>
      simp only [List.map_cons, List.sum_cons, add_mul, Finset.sum_add_distrib]
      rw [ih, edge_fields]

/-- **C87.**  Let `sol` be a solution which `_perturbation_iterate` returned, and let `x` be fields which obey the system
linearised at it with the drives `s`: the field at a node is the drive, the fields bonded to it and, for every edge of every
coupling, the value of the edge for `sol` times the field at its start.  If these equations determine the fields, the
couplings which `coupling_solution_get` returns give the fields at the readouts: they are the response. -/
theorem C87_response {cs : List (Coupling P K F)} {ports : Dict P (List K)} {m : Algo P K F}
    (hm : insert_all ports (cs.map Coupling.inj) = .ok m)
    {pick pick' : List (P × K) → P × K} (hpick : ∀ l, l ≠ [] → pick l ∈ l) (hpick' : ∀ l, l ≠ [] → pick' l ∈ l)
    {fuel : Nat} {bonds : SR (P × K)} (hbw : bonds.WF) (hbal : ∀ a b, mem bonds.seq a b ↔ mem bonds.req b a)
    {st : SG (P × K)} (hst : coherent_sparsity_graph pick fuel bonds m = .ok (some st))
    {o o' : Graph.Opts (P × K) F} (ho : ∀ l, l ≠ [] → o.pick l ∈ l) (ho' : ∀ l, l ≠ [] → o'.pick l ∈ l)
    (hneg : o.negative = false) (hneg' : o'.negative = false) {sol sol0 : SolVec P K F}
    (hit : perturbation_iterate o pick' m bonds.seq st sol0 = .ok sol)
    {ins outs : List (P × K)} {em : Dict ((P × K) × (P × K)) F}
    (hrun : coupling_solution_get o' m bonds.seq st ins outs sol = .ok em)
    (huniq : ∀ y : P × K → F, (∀ n, y n = (∑ a, if mem bonds.seq a n then y a else 0) +
      (cs.map (fun c => (c.inj.edges.map (fun e => if e.1.2 = n then evalD sol e.2 * y e.1.1 else 0)).sum)).sum) → ∀ n, y n = 0)
    {s x : P × K → F} (hs : ∀ n, n ∉ ins → s n = 0)
    (hx : ∀ n, x n = s n + (∑ a, if mem bonds.seq a n then x a else 0) +
      (cs.map (fun c => (c.inj.edges.map (fun e => if e.1.2 = n then evalD sol e.2 * x e.1.1 else 0)).sum)).sum)
    {t : P × K} (ht : t ∈ outs) : x t = ∑ d, getd em (d, t) 0 * s d := by
  have ha := analysed hm hpick hbw hbal hst
  unfold coupling_solution_get at hrun
  obtain ⟨g, hg, h1⟩ := bind_ok_inv hrun
  obtain ⟨⟨r, em'⟩, hr, h2⟩ := bind_ok_inv h1
  injection h2 with h2
  dsimp only at h2
  subst h2
  obtain ⟨hv, hgain⟩ := generated hm ha (fun n hn => iterate_live hpick' ha ho hneg hit n hn) hg
  have hsum := fun y n => gain_fields hgain y n
  have hmul : ∀ y : P × K → F, (Graph.mat ⟨g.seq, g.req, g.mat⟩).mulVec y =
      fun n => (∑ a, if mem bonds.seq a n then y a else 0) +
      (cs.map (fun c => (c.inj.edges.map (fun e => if e.1.2 = n then evalD sol e.2 * y e.1.1 else 0)).sum)).sum := by
    intro y
    funext n
    exact hsum y n
  have hinv : IsUnit (1 - Graph.mat (⟨g.seq, g.req, g.mat⟩ : Graph.G (P × K) F)) := by
    rw [← Matrix.mulVec_injective_iff_isUnit]
    intro y z hyz
    have h0 := huniq (y - z) ?_
    · funext n
      exact sub_eq_zero.1 (h0 n)
    · intro n
      have e1 : (1 - Graph.mat (⟨g.seq, g.req, g.mat⟩ : Graph.G (P × K) F)).mulVec (y - z) = 0 := by
        rw [Matrix.mulVec_sub, sub_eq_zero]
        exact hyz
      rw [Matrix.sub_mulVec, Matrix.one_mulVec, hmul, sub_eq_zero] at e1
      exact congrFun e1 n
  have hxv : (1 - Graph.mat (⟨g.seq, g.req, g.mat⟩ : Graph.G (P × K) F)).mulVec x = s := by
    rw [Matrix.sub_mulVec, Matrix.one_mulVec, hmul]
    funext n
    rw [Pi.sub_apply, hx n]
    ring
  have hsol : x = (1 - Graph.mat (⟨g.seq, g.req, g.mat⟩ : Graph.G (P × K) F))⁻¹.mulVec s := by
    rw [← hxv, Matrix.mulVec_mulVec, Matrix.nonsing_inv_mul _ ((Matrix.isUnit_iff_isUnit_det _).1 hinv), Matrix.one_mulVec]
  rw [hsol]
  unfold Matrix.mulVec dotProduct
  apply Finset.sum_congr rfl
  intro d _
  by_cases hd : d ∈ ins
  · have := Graph.C13_inverse ho' hv (fun _ h => by cases h) hinv hr hd ht
    rw [hneg'] at this
    unfold getd
    rw [this]
    unfold Graph.sgn
    simp
  · rw [hs d hd, mul_zero, mul_zero]

end Inject
