import Mathlib.Analysis.Calculus.Deriv.Mul
import Mathlib.Analysis.Calculus.Deriv.Add
import Mathlib.Analysis.Normed.Field.Lemmas
import Verif.Inject.Response

/-!
# The response is the derivative of the operating point (C88)

Source: `/repo/phasor/system/solver_algorithm.py` l.532-602, `coupling_solution_get`.
-/

set_option linter.unusedSectionVars false

namespace Inject
open Py

variable {P K : Type} [DecidableEq P] [DecidableEq K] [Fintype P] [Fintype K]

/-- Linear couplings, sources and products of two different fields. -/
def Coupling.Smooth {F : Type} : Coupling P K F → Prop
  | .edge _ _ _ | .source _ _ => True
  | .triplet p q _ _ => p ≠ q
  | _ => False

section
variable {F : Type} [NontriviallyNormedField F] [DecidableEq F]

/-- the edges of a coupling hold the derivative of what it adds -/
theorem into_deriv {c : Coupling P K F} (hc : c.Smooth) {X : F → P × K → F} {x : P × K → F} {sol : SolVec P K F}
    (h0 : ∀ n ∈ c.factors, X 0 n = getd sol n 0) (hX : ∀ n, HasDerivAt (fun ε => X ε n) (x n) 0) (n : P × K) :
    HasDerivAt (fun ε => c.into (X ε) n)
      ((c.inj.edges.map (fun e => if e.1.2 = n then evalD sol e.2 * x e.1.1 else 0)).sum) 0 := by
  cases c with
  | edge f t v =>
    have he : (Coupling.edge f t v).inj.edges = [((f, t), fun _ => .ok v)] := rfl
    rw [he, List.map_singleton, List.sum_singleton]
    unfold Coupling.into Coupling.target Coupling.term
    dsimp only
    by_cases h : t = n
    · simp only [if_pos h]
      exact (hX f).const_mul v
    · simp only [if_neg h]
      exact hasDerivAt_const (0 : F) (0 : F)
  | source t v =>
    have he : (Coupling.source t v).inj.edges = [] := rfl
    rw [he, List.map_nil, List.sum_nil]
    unfold Coupling.into Coupling.target Coupling.term
    dsimp only
    by_cases h : t = n
    · simp only [if_pos h]
      exact hasDerivAt_const (0 : F) v
    · simp only [if_neg h]
      exact hasDerivAt_const (0 : F) (0 : F)
  | triplet p q t v =>
    have hpq : p ≠ q := hc
    have h' : (p, t) ≠ (q, t) := fun hh => hpq (Prod.ext_iff.1 hh).1
    have he : (Coupling.triplet p q t v).inj.edges = [((p, t), triplet_edge v q), ((q, t), triplet_edge v p)] := by
      show (TripletCoupling p q t v).edges = _
      unfold TripletCoupling
      rw [if_pos hpq]
      unfold Dict.ofList Dict.update
      simp only [List.foldl_cons, List.foldl_nil, Dict.set, if_neg h']
    rw [he, List.map_cons, List.map_singleton, List.sum_cons, List.sum_singleton]
    unfold Coupling.into Coupling.target Coupling.term
    dsimp only
    by_cases h : t = n
    · have hd := ((hX p).const_mul v).mul (hX q)
      rw [h0 p (by simp [Coupling.factors]), h0 q (by simp [Coupling.factors])] at hd
      simp only [if_pos h]
      refine hd.congr_deriv ?_
      unfold triplet_edge evalD
      dsimp only
      ring
    · simp only [if_neg h, add_zero]
      exact hasDerivAt_const (0 : F) (0 : F)
  | _ => exact hc.elim

theorem sum_into_deriv {cs : List (Coupling P K F)} (hc : ∀ c ∈ cs, c.Smooth) {X : F → P × K → F} {x : P × K → F}
    {sol : SolVec P K F} (h0 : ∀ c ∈ cs, ∀ n ∈ c.factors, X 0 n = getd sol n 0) (hX : ∀ n, HasDerivAt (fun ε => X ε n) (x n) 0) (n : P × K) :
    HasDerivAt (fun ε => (cs.map (fun c => c.into (X ε) n)).sum)
      ((cs.map (fun c => (c.inj.edges.map (fun e => if e.1.2 = n then evalD sol e.2 * x e.1.1 else 0)).sum)).sum) 0 := by
  induction cs with
  | nil => exact hasDerivAt_const (0 : F) (0 : F)
  | cons c cs ih =>
    simp only [List.map_cons, List.sum_cons]
    exact (into_deriv (hc c List.mem_cons_self) (h0 c List.mem_cons_self) hX n).add
      (ih (fun c' h => hc c' (List.mem_cons_of_mem _ h)) (fun c' h => h0 c' (List.mem_cons_of_mem _ h)))

/-- **C88, for linear couplings, sources and products of two different fields.**  Let `X ε` be fields which obey the
nonlinear equations of the couplings and the bonds when the sources `ε s` are added at the drives, which for `ε = 0` agree
with the solution `sol` that `_perturbation_iterate` returned where the couplings read it (it holds no others), and which are
differentiable at zero.  If the linear equations
determine the fields, the derivative of the field at a readout is the sum of the couplings `coupling_solution_get` returns
times the drives.
Not covered: products of a field with itself, the multiplicative couplings and the normalised ones, for which it fails
(`C88_square_refuted`, `C88_photodiode_refuted`). -/
theorem C88_derivative_partial {cs : List (Coupling P K F)} (hc : ∀ c ∈ cs, c.Smooth) {ports : Dict P (List K)}
    {m : Algo P K F} (hm : insert_all ports (cs.map Coupling.inj) = .ok m)
    {pick pick' : List (P × K) → P × K} (hpick : ∀ l, l ≠ [] → pick l ∈ l) (hpick' : ∀ l, l ≠ [] → pick' l ∈ l)
    {fuel : Nat} {bonds : SR (P × K)} (hbw : bonds.WF) (hbal : ∀ a b, mem bonds.seq a b ↔ mem bonds.req b a)
    {st : SG (P × K)} (hst : coherent_sparsity_graph pick fuel bonds m = .ok (some st))
    {o o' : Graph.Opts (P × K) F} (ho : ∀ l, l ≠ [] → o.pick l ∈ l) (ho' : ∀ l, l ≠ [] → o'.pick l ∈ l)
    (hneg : o.negative = false) (hneg' : o'.negative = false) {sol sol0 : SolVec P K F}
    (hit : perturbation_iterate o pick' m bonds.seq st sol0 = .ok sol)
    {ins outs : List (P × K)} {em : Dict ((P × K) × (P × K)) F}
    (hrun : coupling_solution_get o' m bonds.seq st ins outs sol = .ok em)
    (huniq : ∀ y : P × K → F, (∀ n, y n = (∑ a, if mem bonds.seq a n then y a else 0) +
      (cs.map (fun c => (c.inj.edges.map (fun e => if e.1.2 = n then evalD sol e.2 * y e.1.1 else 0)).sum)).sum) → ∀ n, y n = 0)
    {s x : P × K → F} (hs : ∀ n, n ∉ ins → s n = 0) {X : F → P × K → F}
    (h0 : ∀ c ∈ cs, ∀ n ∈ c.factors, X 0 n = getd sol n 0)
    (hX : ∀ ε n, X ε n = ε * s n + (∑ a, if mem bonds.seq a n then X ε a else 0) +
      (cs.map (fun c => c.into (X ε) n)).sum)
    (hd : ∀ n, HasDerivAt (fun ε => X ε n) (x n) 0) {t : P × K} (ht : t ∈ outs) :
    x t = ∑ d, getd em (d, t) 0 * s d := by
  refine C87_response hm hpick hpick' hbw hbal hst ho ho' hneg hneg' hit hrun huniq hs (fun n => ?_) ht
  have h1 : HasDerivAt (fun ε => ∑ a, if mem bonds.seq a n then X ε a else 0)
      (∑ a, if mem bonds.seq a n then x a else 0) 0 := by
    apply HasDerivAt.fun_sum
    intro a _
    by_cases h : mem bonds.seq a n
    · simp only [if_pos h]
      exact hd a
    · simp only [if_neg h]
      exact hasDerivAt_const (0 : F) (0 : F)
  have h2 := (((hasDerivAt_id (0 : F)).mul_const (s n)).add h1).add (sum_into_deriv hc h0 hd n)
  have h3 : (fun ε => X ε n) = fun ε => ε * s n + (∑ a, if mem bonds.seq a n then X ε a else 0) +
      (cs.map (fun c => c.into (X ε) n)).sum := funext (fun ε => hX ε n)
  have h4 := hd n
  rw [h3] at h4
  rw [h4.unique h2, one_mul]

end

/-! ## examples -/

section Examples

/-- run everything up to the couplings from the drives to the readouts -/
def respRun {N : Nat} (cs : List (Coupling (Fin (N + 1)) Unit ℚ)) (ports : Dict (Fin (N + 1)) (List Unit)) (bonds : SR (Fin (N + 1) × Unit))
    (o : Graph.Opts (Fin (N + 1) × Unit) ℚ) (ins outs : List (Fin (N + 1) × Unit)) (sol : SolVec (Fin (N + 1)) Unit ℚ) :
    Except Err (Algo (Fin (N + 1)) Unit ℚ × Option (SG (Fin (N + 1) × Unit) × SolVec (Fin (N + 1)) Unit ℚ ×
      Dict ((Fin (N + 1) × Unit) × (Fin (N + 1) × Unit)) ℚ)) := do
  let m ← insert_all ports (cs.map Coupling.inj)
  let st ← coherent_sparsity_graph (fun l => l.headD (0, ())) 60 bonds m
  match st with
  | none => pure (m, none)
  | some st => do
    let sol' ← perturbation_iterate o (fun l => l.headD (0, ())) m bonds.seq st sol
    let r ← coupling_solution_get o m bonds.seq st ins outs sol'
    pure (m, some (st, sol', r))

theorem respRun_inv {N : Nat} {cs : List (Coupling (Fin (N + 1)) Unit ℚ)} {ports : Dict (Fin (N + 1)) (List Unit)}
    {bonds : SR (Fin (N + 1) × Unit)} {o : Graph.Opts (Fin (N + 1) × Unit) ℚ} {ins outs : List (Fin (N + 1) × Unit)}
    {sol sol2 : SolVec (Fin (N + 1)) Unit ℚ} {em : Dict ((Fin (N + 1) × Unit) × (Fin (N + 1) × Unit)) ℚ}
    (h : (match respRun cs ports bonds o ins outs sol with
      | .ok (_, some (_, sol', r)) => decide (sol' = sol2 ∧ r = em)
      | _ => false) = true) :
    ∃ m st, insert_all ports (cs.map Coupling.inj) = .ok m ∧
      coherent_sparsity_graph (fun l => l.headD (0, ())) 60 bonds m = .ok (some st) ∧
      perturbation_iterate o (fun l => l.headD (0, ())) m bonds.seq st sol = .ok sol2 ∧
      coupling_solution_get o m bonds.seq st ins outs sol2 = .ok em := by
  cases hr : respRun cs ports bonds o ins outs sol with
  | error e => rw [hr] at h; cases h
  | ok q =>
    rw [hr] at h
    unfold respRun at hr
    obtain ⟨m, hm, hr1⟩ := bind_ok_inv hr
    obtain ⟨st, hst, hr2⟩ := bind_ok_inv hr1
    cases st with
    | none => injection hr2 with hr2; subst hr2; cases h
    | some st =>
      obtain ⟨sol', hs, hr3⟩ := bind_ok_inv hr2
      obtain ⟨r, hd, hr4⟩ := bind_ok_inv hr3
      injection hr4 with hr4
      subst hr4
      obtain ⟨h1, h2⟩ := of_decide_eq_true h
      subst h1 h2
      exact ⟨m, st, hm, hst, hs, hd⟩

theorem headD_mem {A : Type} (a : A) (l : List A) (hl : l ≠ []) : l.headD a ∈ l := by
  cases l with
  | nil => exact absurd rfl hl
  | cons a l => exact List.mem_cons_self

theorem square_deriv (a b c : ℚ) : HasDerivAt (fun ε : ℚ => a + b * ε + c * (ε * ε)) b 0 := by
  have h := (((hasDerivAt_id (0 : ℚ)).const_mul b).const_add a).add
    (((hasDerivAt_id (0 : ℚ)).mul (hasDerivAt_id (0 : ℚ))).const_mul c)
  refine h.congr_deriv ?_
  simp

/-- sources into 0 and 1, their product into 2, bonded to 3, in a loop with 4; the product of 3 and 0 goes to 5 -/
def resCouplings : List (Coupling (Fin 6) Unit ℚ) :=
  [.source (0, ()) 2, .source (1, ()) 3, .triplet (0, ()) (1, ()) (2, ()) 5, .edge (3, ()) (4, ()) (1 / 2),
    .edge (4, ()) (3, ()) 1, .triplet (3, ()) (0, ()) (5, ()) 1]

def resPorts : Dict (Fin 6) (List Unit) := [(0, [()]), (1, [()]), (2, [()]), (3, [()]), (4, [()]), (5, [()])]

def resBonds : SR (Fin 6 × Unit) := ⟨[((2, ()), [(3, ())])], [((3, ()), [(2, ())])]⟩

def resSol : SolVec (Fin 6) Unit ℚ := [((0, ()), 2), ((1, ()), 3), ((3, ()), 60), ((5, ()), 120)]

def resOpts : Graph.Opts (Fin 6 × Unit) ℚ where
  lt := fun a b => decide (a.1 < b.1)
  pick := fun l => l.headD (.node (0, ()))
  size := fun _ => 1

/-- the fields with the source `ε` added at 0 -/
def resX (ε : ℚ) (n : Fin 6 × Unit) : ℚ :=
  ![2 + ε, 3, 15 * (2 + ε), 30 * (2 + ε), 15 * (2 + ε), 30 * (2 + ε) * (2 + ε)] n.1

def resx (n : Fin 6 × Unit) : ℚ := ![1, 0, 15, 30, 15, 120] n.1

def resDrive (n : Fin 6 × Unit) : ℚ := if n = (0, ()) then 1 else 0

/-- the hypotheses of `C88_derivative_partial` and of `C87_response` are met: the fields are those of the nonlinear system with `ε` added to the
source at 0, and the couplings returned are the derivatives 120 and 15 -/
example : ∃ m st sol em, insert_all resPorts (resCouplings.map Coupling.inj) = .ok m ∧
    coherent_sparsity_graph (fun l => l.headD (0, ())) 60 resBonds m = .ok (some st) ∧
    perturbation_iterate resOpts (fun l => l.headD (0, ())) m resBonds.seq st resSol = .ok sol ∧
    coupling_solution_get resOpts m resBonds.seq st [(0, ())] [(5, ()), (4, ())] sol = .ok em ∧
    em = [(((0, ()), (5, ())), 120), (((0, ()), (4, ())), 15)] ∧ (∀ c ∈ resCouplings, c.Smooth) ∧
    (∀ a b, mem resBonds.seq a b ↔ mem resBonds.req b a) ∧
    (∀ y : Fin 6 × Unit → ℚ, (∀ n, y n = (∑ a, if mem resBonds.seq a n then y a else 0) +
      (resCouplings.map (fun c => (c.inj.edges.map (fun e => if e.1.2 = n then evalD sol e.2 * y e.1.1 else 0)).sum)).sum) →
      ∀ n, y n = 0) ∧
    (∀ n, n ∉ [((0 : Fin 6), ())] → resDrive n = 0) ∧ (∀ c ∈ resCouplings, ∀ n ∈ c.factors, resX 0 n = getd sol n 0) ∧
    (∀ ε n, resX ε n = ε * resDrive n + (∑ a, if mem resBonds.seq a n then resX ε a else 0) +
      (resCouplings.map (fun c => c.into (resX ε) n)).sum) ∧
    (∀ n, HasDerivAt (fun ε => resX ε n) (resx n) 0) ∧
    ∀ n, resx n = resDrive n + (∑ a, if mem resBonds.seq a n then resx a else 0) +
      (resCouplings.map (fun c => (c.inj.edges.map (fun e => if e.1.2 = n then evalD sol e.2 * resx e.1.1 else 0)).sum)).sum := by
  obtain ⟨m, st, hm, hst, hit, hrun⟩ := respRun_inv (cs := resCouplings) (ports := resPorts) (bonds := resBonds) (o := resOpts)
    (ins := [(0, ())]) (outs := [(5, ()), (4, ())]) (sol := resSol) (sol2 := [((0, ()), 2), ((1, ()), 3), ((3, ()), 60)])
    (em := [(((0, ()), (5, ())), 120), (((0, ()), (4, ())), 15)]) (by decide +kernel)
  refine ⟨m, st, _, _, hm, hst, hit, hrun, rfl, ?_, by decide, ?_, ?_, ?_, ?_, ?_, by decide +kernel⟩
  · intro c hc
    simp only [resCouplings, List.mem_cons, List.not_mem_nil, or_false] at hc
    rcases hc with rfl | rfl | rfl | rfl | rfl | rfl <;> simp [Coupling.Smooth]
  · intro y hy
    have h0 := hy (0, ())
    have h1 := hy (1, ())
    have h2 := hy (2, ())
    have h3 := hy (3, ())
    have h4 := hy (4, ())
    have h5 := hy (5, ())
    simp [Fintype.sum_prod_type, Fin.sum_univ_succ, resCouplings, Coupling.inj, ConstantEdgeCoupling, ConstantSourceCoupling,
      TripletCoupling, evalD, triplet_edge, getd, Dict.get?, Dict.ofList, Dict.update, Dict.set, resBonds, mem] at h0 h1 h2 h3 h4 h5
    have e3 : y (3, ()) = 0 := by linarith
    rintro ⟨n, -⟩
    fin_cases n
    · exact h0
    · exact h1
    · show y (2, ()) = 0
      linarith
    · exact e3
    · show y (4, ()) = 0
      linarith
    · show y (5, ()) = 0
      linarith
  · intro n hn
    exact if_neg (fun h => hn (by rw [h]; exact List.mem_singleton_self _))
  · decide +kernel
  · intro ε n
    obtain ⟨n, -⟩ := n
    fin_cases n <;> simp [Fintype.sum_prod_type, Fin.sum_univ_succ, resCouplings, Coupling.into, Coupling.target, Coupling.term, resX, resDrive, resBonds, mem, Dict.get?] <;> ring
  · rintro ⟨n, -⟩
    have h := fun a b c => square_deriv a b c
    fin_cases n
    · exact (h 2 1 0).congr_deriv rfl |>.congr_of_eventuallyEq (.of_forall (fun ε => by simp [resX]))
    · exact (h 3 0 0).congr_of_eventuallyEq (.of_forall (fun ε => by simp [resX]))
    · exact (h 30 15 0).congr_of_eventuallyEq (.of_forall (fun ε => by simp [resX]; ring))
    · exact (h 60 30 0).congr_of_eventuallyEq (.of_forall (fun ε => by simp [resX]; ring))
    · exact (h 30 15 0).congr_of_eventuallyEq (.of_forall (fun ε => by simp [resX]; ring))
    · exact (h 120 120 30).congr_of_eventuallyEq (.of_forall (fun ε => by simp [resX]; ring))

/-- **C88 fails for the product of a field with itself**: the source 1 goes to the node 0 and its square to the node 1.  With
`ε` added at the node 0 the square is `(1 + ε)²`, whose derivative is two; the coupling returned is one. -/
theorem C88_square_refuted : ∃ (cs : List (Coupling (Fin 2) Unit ℚ)) (ports : Dict (Fin 2) (List Unit)) (m : Algo (Fin 2) Unit ℚ)
    (bonds : SR (Fin 2 × Unit)) (st : SG (Fin 2 × Unit)) (o : Graph.Opts (Fin 2 × Unit) ℚ)
    (pick : List (Fin 2 × Unit) → Fin 2 × Unit) (sol : SolVec (Fin 2) Unit ℚ) (X : ℚ → Fin 2 × Unit → ℚ)
    (em : Dict ((Fin 2 × Unit) × (Fin 2 × Unit)) ℚ),
    insert_all ports (cs.map Coupling.inj) = .ok m ∧ (∀ l, l ≠ [] → pick l ∈ l) ∧ (∀ l, l ≠ [] → o.pick l ∈ l) ∧
    o.negative = false ∧ coherent_sparsity_graph pick 60 bonds m = .ok (some st) ∧
    perturbation_iterate o pick m bonds.seq st sol = .ok sol ∧ (∀ a b, ¬ mem bonds.seq a b) ∧
    (∀ ε n, X ε n = (if n = (0, ()) then ε else 0) + (cs.map (fun c => c.into (X ε) n)).sum) ∧
    (∀ c ∈ cs, ∀ n ∈ c.factors, X 0 n = getd sol n 0) ∧
    HasDerivAt (fun ε => X ε (1, ())) 2 0 ∧
    coupling_solution_get o m bonds.seq st [(0, ())] [(1, ())] sol = .ok em ∧ getd em ((0, ()), (1, ())) 0 = 1 := by
  obtain ⟨m, st, hm, hst, hit, hrun⟩ := respRun_inv (N := 1)
    (cs := [.source (0, ()) 1, .triplet (0, ()) (0, ()) (1, ()) 1]) (ports := [(0, [()]), (1, [()])]) (bonds := ⟨[], []⟩)
    (o := { lt := fun a b => decide (a.1 < b.1), pick := fun l => l.headD (.node (0, ())), size := fun _ => 1 })
    (ins := [(0, ())]) (outs := [(1, ())]) (sol := [((0, ()), 1)]) (sol2 := [((0, ()), 1)])
    (em := [(((0, ()), (1, ())), 1)]) (by decide +kernel)
  refine ⟨_, _, m, _, st, _, _, _, fun ε n => ![1 + ε, (1 + ε) * (1 + ε)] n.1, _, hm, fun l hl => headD_mem _ l hl,
    fun l hl => headD_mem _ l hl, rfl, hst, hit, by decide, ?_, ?_, ?_, hrun, by decide +kernel⟩
  · rintro ε ⟨n, -⟩
    fin_cases n <;> simp [Coupling.into, Coupling.target, Coupling.term] <;> ring
  · decide +kernel
  · exact (square_deriv 1 2 1).congr_of_eventuallyEq (.of_forall (fun ε => by simp; ring))

end Examples

end Inject
