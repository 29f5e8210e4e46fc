import Verif.Dag.HouseCol
import Mathlib.LinearAlgebra.UnitaryGroup

/-!
# C18, C19, C20: the single steps of the default solver

`Sol` and `Behav` (in `Spec`) say what a system means: which values of all nodes solve it, and which
values of its sources and sinks belong to a solution.
-/

set_option linter.unusedSectionVars false

namespace Dag
open Py Graph

section field
variable {M : Type} {V : Type} [DecidableEq M] [Field V] [DecidableEq V] [Fintype M]
variable {kind : M → Kind} {K : M → Prop} {d : D M V}

/-- **C18.**  Reducing a present node with nonzero diagonal succeeds, leaves a consistent system without
the node, every solution stays a solution, and every solution of the new system comes from exactly one
value of the removed node. -/
theorem C18_reduceLU (h : Sound kind K d) {n : M} (hn : K n) {v : V} (hv : Dict.get? d.em (n, n) = some v)
    (hv0 : v ≠ 0) :
    ∃ d', reduceLU n d = .ok d' ∧ Sound kind (fun a => K a ∧ a ≠ n) d' ∧
      (∀ a, ¬ Listed d' n a ∧ ¬ Listed d' a n) ∧
      (∀ x, Sol kind K d x → Sol kind (fun a => K a ∧ a ≠ n) d' x) ∧
      (∀ x, Sol kind (fun a => K a ∧ a ≠ n) d' x → ∃! y, Sol kind K d (Function.update x n y)) ∧
      (∀ p, Behav kind K d p ↔ Behav kind (fun a => K a ∧ a ≠ n) d' p) := by
  obtain ⟨d', h1, e⟩ := reduceLU_eff h hn hv hv0
  have hs := sound_lu h hn e
  refine ⟨d', h1, hs, fun a => ⟨fun q => ?_, fun q => ?_⟩, fun x => (sol_lu h hn hv hv0 e x).1,
    fun x => (sol_lu h hn hv hv0 e x).2, behav_lu h hn hv hv0 e⟩
  · exact ((hs.alive q).1 (h.ki n hn)).2 rfl
  · exact ((hs.alive q).2 (h.ki n hn)).2 rfl

/-- **C18.**  A zero diagonal raises before anything is changed. -/
theorem C18_zero_diagonal {n : M} (hv : Dict.get? d.em (n, n) = some 0) : reduceLU n d = .error .zeroDivision := by
  unfold reduceLU luSelf
  rw [get_ok hv]
  simp [bind, Except.bind]

/-- **C19.**  The column pivot succeeds, keeps the system consistent, and exchanges the values of the two
nodes in every solution; sources and sinks see nothing. -/
theorem C19_column (h : Sound kind K d) {n1 n2 : M} (hne : n1 ≠ n2) (h1 : K n1) (h2 : K n2) :
    ∃ d', pivotCOL n1 n2 d = .ok d' ∧ Sound kind K d' ∧
      (∀ a b, Cw d' a b = Cw d (Equiv.swap n1 n2 a) b) ∧
      (∀ x, Sol kind K d' x ↔ Sol kind K d (fun m => x (Equiv.swap n1 n2 m))) ∧
      (∀ p, Behav kind K d p ↔ Behav kind K d' p) := by
  obtain ⟨d', q, e⟩ := pivotCOL_eff h hne h1 h2
  exact ⟨d', q, sound_swap h h1 h2 e, cw_swap h h1 h2 e, sol_swap h h1 h2 e, behav_swap h h1 h2 e⟩

/-- **C19.**  The row pivot succeeds, keeps the system consistent, and keeps exactly the same solutions. -/
theorem C19_row (h : Sound kind K d) {n1 n2 : M} (hne : n1 ≠ n2) (h1 : K n1) (h2 : K n2) :
    ∃ d', pivotROW n1 n2 d = .ok d' ∧ Sound kind K d' ∧
      (∀ a b, Cw d' a b = Cw d a (Equiv.swap n1 n2 b)) ∧
      (∀ x, Sol kind K d' x ↔ Sol kind K d x) ∧
      (∀ p, Behav kind K d p ↔ Behav kind K d' p) := by
  have hf := sound_flip h
  obtain ⟨d', q, e⟩ := pivotCOL_eff hf hne h1 h2
  have hs := sound_swap hf h1 h2 e
  refine ⟨flip d', by unfold pivotROW; rw [q]; rfl, sound_unflip hs, ?_, sol_swap_row h h1 h2 e, ?_⟩
  · intro a b
    rw [cw_flip hs, cw_swap hf h1 h2 e, cw_flip h]
  · intro p
    unfold Behav
    simp only [sol_swap_row h h1 h2 e]

/-- **C19.**  Pivoting twice restores the listings and the stored values. -/
theorem C19_twice (h : Sound kind K d) {n1 n2 : M} (hne : n1 ≠ n2) (h1 : K n1) (h2 : K n2) :
    (∃ d'', (pivotCOL n1 n2 d >>= pivotCOL n1 n2) = .ok d'' ∧ Same d d'') ∧
    (∃ d'', (pivotROW n1 n2 d >>= pivotROW n1 n2) = .ok d'' ∧ Same d d'') := by
  have key : ∀ {kind : M → Kind} {d : D M V}, Sound kind K d →
      ∃ d1 d2, pivotCOL n1 n2 d = .ok d1 ∧ pivotCOL n1 n2 d1 = .ok d2 ∧ Same d d2 := by
    intro kind d h
    obtain ⟨d1, q1, e1⟩ := pivotCOL_eff h hne h1 h2
    obtain ⟨d2, q2, e2⟩ := pivotCOL_eff (sound_swap h h1 h2 e1) hne h1 h2
    exact ⟨d1, d2, q1, q2, swap_twice h h1 h2 e1 e2⟩
  constructor
  · obtain ⟨d1, d2, q1, q2, s⟩ := key h
    exact ⟨d2, by rw [q1]; exact q2, s⟩
  · obtain ⟨d1, d2, q1, q2, s⟩ := key (sound_flip h)
    refine ⟨flip d2, ?_, ?_⟩
    · unfold pivotROW
      rw [q1]
      show (pivotCOL n1 n2 (flip (flip d1))).map flip = _
      rw [flip_flip, q2]
      rfl
    · refine ⟨s.req, s.seq, s.beta, s.alpha, fun a b => ?_⟩
      rw [flip_em, s.em, flip_em]

end field

/-! ## C20 -/

section complex
variable {M : Type} [DecidableEq M] [Fintype M] {kind : M → Kind} {K : M → Prop} {d : D M ℂ}

/-- The reflection matrix `1 - 2 u u†` of a vector. -/
noncomputable def reflector (u : M → ℂ) : Matrix M M ℂ := fun a b => (if a = b then 1 else 0) - 2 * u a * starRingEnd ℂ (u b)

/-- The matrix of the weights. -/
def weights (d : D M ℂ) : Matrix M M ℂ := fun a b => Cw d a b

theorem reflector_hermitian (u : M → ℂ) : (reflector u).conjTranspose = reflector u := by
  ext a b
  rw [Matrix.conjTranspose_apply]
  unfold reflector
  by_cases hab : b = a
  · subst hab
    simp
    ring
  · have : ¬ a = b := fun e => hab e.symm
    simp [hab, this]
    ring

theorem reflector_sq {u : M → ℂ} (hu : ∑ k, starRingEnd ℂ (u k) * u k = 1) : reflector u * reflector u = 1 := by
  ext a b
  rw [Matrix.mul_apply]
  unfold reflector
  have : ∀ k, ((if a = k then (1 : ℂ) else 0) - 2 * u a * starRingEnd ℂ (u k)) *
      ((if k = b then 1 else 0) - 2 * u k * starRingEnd ℂ (u b)) =
      (if a = k then (if k = b then 1 else 0) - 2 * u k * starRingEnd ℂ (u b) else 0)
      - (if k = b then 2 * u a * starRingEnd ℂ (u k) else 0)
      + (starRingEnd ℂ (u k) * u k) * (4 * u a * starRingEnd ℂ (u b)) := by
    intro k
    split <;> split <;> ring
  simp only [this, Finset.sum_add_distrib, Finset.sum_sub_distrib, ← Finset.sum_mul, hu,
    Finset.sum_ite_eq, Finset.sum_ite_eq', Finset.mem_univ, if_true, Matrix.one_apply]
  ring

/-- A reflector of a unit vector is unitary. -/
theorem reflector_unitary {u : M → ℂ} (hu : ∑ k, starRingEnd ℂ (u k) * u k = 1) :
    reflector u ∈ Matrix.unitaryGroup M ℂ := by
  rw [Matrix.mem_unitaryGroup_iff]
  show reflector u * (reflector u).conjTranspose = 1
  rw [reflector_hermitian, reflector_sq hu]

/-- The entry on the diagonal of the target. -/
def diag (d : D M ℂ) (n : M) : ℂ := (Dict.get? d.em (n, n)).getD 0

/-- **C20.**  The row reflection succeeds exactly when the diagonal entry is not zero.  It multiplies the
weights (towards internal nodes and sinks) by a unitary, self-inverse reflector of a vector on the listed
nodes, removes every listed off-diagonal entry of the target, keeps the system consistent, and leaves what
sources and sinks see unchanged. -/
theorem C20_row (h : Sound kind K d) {into : M} {F : List M} (hF : F.Nodup) (hi : into ∉ F)
    (hl : ∀ k ∈ F ++ [into], into ∈ at' d.seq k) :
    (diag d into = 0 → householderROW algC into F d = .error .zeroDivision) ∧
    (diag d into ≠ 0 → ∃ d', householderROW algC into F d = .ok d' ∧ Sound kind K d' ∧
      (∀ k ∈ F, into ∉ at' d'.seq k ∧ k ∉ at' d'.req into ∧ Dict.get? d'.em (k, into) = none) ∧
      (∃ u : M → ℂ, (∀ k, k ∉ F ++ [into] → u k = 0) ∧ reflector u ∈ Matrix.unitaryGroup M ℂ ∧
        reflector u * reflector u = 1 ∧
        ∀ a b, K b ∨ kind b = .snk → weights d' a b = (reflector u * weights d) a b) ∧
      (∀ p, Behav kind K d p ↔ Behav kind K d' p)) := by
  have iL : into ∈ F ++ [into] := by simp
  have hval := h.val _ _ (Or.inl (hl into iL))
  constructor
  · intro h0
    have hvec := hhVec_spec algC into F hF hi (fun k hk => h.val _ _ (Or.inl (hl k (by simp [hk])))) hval
    have : algC.abs (ev d into into) = 0 := by
      by_contra q
      exact algC_abs_ne.mp q h0
    rw [if_pos this] at hvec
    unfold householderROW
    rw [check_ok h.mir, hvec]
    rfl
  · intro h0
    have hz : algC.abs (ev d into into) ≠ 0 := algC_abs_ne.mpr h0
    have hn : hhN algC d into F ≠ 0 := hhN_C_ne h0
    obtain ⟨d', q, e⟩ := householderROW_eff algC h hF hi hl hz hn
    have hs := sound_hh h hl hi e
    refine ⟨d', q, hs, ?_, ⟨hhU algC d into F, fun k hk => hhU_out algC d hk,
      reflector_unitary (hh_unit algC_lawful hF hi hz hn), reflector_sq (hh_unit algC_lawful hF hi hz hn), ?_⟩,
      fun p => (behav_hh algC_lawful h hF hl hi hz hn e p).symm⟩
    · intro k hk
      have : into ∉ at' d'.seq k := by rw [e.seq]; exact fun q => q.2 ⟨hk, rfl⟩
      exact ⟨this, fun q => this ((hs.mir _ _).mpr q), e.emF k hk⟩
    · intro a b hb
      show Cw d' a b = _
      rw [cw_hh algC_lawful h hl hi hz hn e a b hb, Matrix.mul_apply,
        lsum_eq_sum (hh_nodup algC_lawful hF hi hz hn algC_lawful) _
          (fun k hk => by rw [hh_conj_out algC_lawful hF hi k hk, zero_mul])]
      unfold reflector weights
      have : ∀ k, ((if a = k then (1 : ℂ) else 0) - 2 * hhU algC d into F a * starRingEnd ℂ (hhU algC d into F k)) * Cw d k b
          = (if a = k then Cw d k b else 0) - 2 * hhU algC d into F a * (algC.conj (hhU algC d into F k) * Cw d k b) := by
        intro k
        show _ = _ - 2 * hhU algC d into F a * (starRingEnd ℂ (hhU algC d into F k) * Cw d k b)
        split <;> ring
      simp only [this, Finset.sum_sub_distrib, ← Finset.mul_sum, Finset.sum_ite_eq, Finset.mem_univ, if_true]

/-- **C20.**  The same for the column reflection; it keeps exactly the same solutions. -/
theorem C20_col (h : Sound kind K d) {into : M} {F : List M} (hF : F.Nodup) (hi : into ∉ F)
    (hl : ∀ k ∈ F ++ [into], k ∈ at' d.seq into) :
    (diag d into = 0 → householderCOL algC into F d = .error .zeroDivision) ∧
    (diag d into ≠ 0 → ∃ d', householderCOL algC into F d = .ok d' ∧ Sound kind K d' ∧
      (∀ k ∈ F, k ∉ at' d'.seq into ∧ into ∉ at' d'.req k ∧ Dict.get? d'.em (into, k) = none) ∧
      (∃ u : M → ℂ, (∀ k, k ∉ F ++ [into] → u k = 0) ∧ reflector u ∈ Matrix.unitaryGroup M ℂ ∧
        reflector u * reflector u = 1 ∧
        ∀ a b, weights d' a b = (weights d * (reflector u).transpose) a b) ∧
      (∀ x, Sol kind K d' x ↔ Sol kind K d x)) := by
  have hf := sound_flip h
  have hlf : ∀ k ∈ F ++ [into], into ∈ at' (flip d).seq k := fun k hk => (h.mir _ _).mp (hl k hk)
  have hdiag : diag (flip d) into = diag d into := by unfold diag; rw [flip_em]
  obtain ⟨r0, r1⟩ := C20_row hf hF hi hlf
  rw [hdiag] at r0 r1
  constructor
  · intro h0
    unfold householderCOL
    rw [r0 h0]
    rfl
  · intro h0
    have hzc : algC.abs (ev d into into) ≠ 0 := algC_abs_ne.mpr h0
    have hz : algC.abs (ev (flip d) into into) ≠ 0 := by
      apply algC_abs_ne.mpr
      have : ev (flip d) into into = diag (flip d) into := rfl
      rw [this, hdiag]; exact h0
    have hn : hhN algC (flip d) into F ≠ 0 := hhN_C_ne (algC_abs_ne.mp hz)
    obtain ⟨d', q, e⟩ := householderROW_eff algC hf hF hi hlf hz hn
    have hs := sound_hh hf hlf hi e
    refine ⟨flip d', by unfold householderCOL; rw [q]; rfl, sound_unflip hs, ?_,
      ⟨hhU algC (flip d) into F, fun k hk => hhU_out algC _ hk,
      reflector_unitary (hh_unit algC_lawful hF hi hz hn), reflector_sq (hh_unit algC_lawful hF hi hz hn), ?_⟩,
      sol_hh_col algC_lawful h hF hl hi hzc hn e⟩
    · intro k hk
      have : into ∉ at' d'.seq k := by rw [e.seq]; exact fun q => q.2 ⟨hk, rfl⟩
      refine ⟨fun q => this ((hs.mir _ _).mpr q), this, ?_⟩
      rw [flip_em]
      exact e.emF k hk
    · intro a b
      show Cw (flip d') a b = _
      rw [cw_hh_col algC_lawful h hF hl hi hzc hn e a b, Matrix.mul_apply,
        lsum_eq_sum (hh_nodup algC_lawful hF hi hz hn algC_lawful) _
          (fun k hk => by rw [hh_conj_out algC_lawful hF hi k hk, zero_mul])]
      unfold weights
      simp only [Matrix.transpose_apply]
      unfold reflector
      have : ∀ k, Cw d a k * ((if b = k then (1 : ℂ) else 0) - 2 * hhU algC (flip d) into F b * starRingEnd ℂ (hhU algC (flip d) into F k))
          = (if b = k then Cw d a k else 0) - 2 * hhU algC (flip d) into F b * (algC.conj (hhU algC (flip d) into F k) * Cw d a k) := by
        intro k
        show _ = _ - 2 * hhU algC (flip d) into F b * (starRingEnd ℂ (hhU algC (flip d) into F k) * Cw d a k)
        split <;> ring
      simp only [this, Finset.sum_sub_distrib, ← Finset.mul_sum, Finset.sum_ite_eq, Finset.mem_univ, if_true]

end complex

/-! ## A concrete system: two coupled internal nodes 0 and 1, a source 2 and a sink 3 -/

/-- Kinds of the example. -/
def exKind : Fin 4 → Kind := fun m => if m = 2 then .src else if m = 3 then .snk else .int

/-- Internal nodes of the example. -/
def exK : Fin 4 → Prop := fun m => m = 0 ∨ m = 1

instance : DecidablePred exK := fun m => by unfold exK; infer_instance

/-- The example: `4 x0 + 3 x1 = 0`, `2 x0 + 5 x1 + x2 = 0`, `x3 = x0`. -/
def exD (V : Type) [Field V] : D (Fin 4) V where
  seq := [(0, [0, 1]), (1, [0, 1])]
  req := [(0, [0, 1]), (1, [0, 1])]
  alpha := [(1, [2])]
  beta := [(0, [3])]
  em := [((0, 0), 4), ((1, 0), 3), ((0, 1), 2), ((1, 1), 5), ((2, 1), 1), ((0, 3), 1)]

theorem exD_sound_rat : Sound exKind exK (exD ℚ) := by
  refine ⟨by decide, by decide, by decide, by decide, by decide, by decide, by decide, ⟨by decide, by decide⟩,
    ⟨by decide, by decide⟩, ⟨by decide, by decide⟩, ⟨by decide, by decide⟩⟩

theorem exD_sound_complex : Sound exKind exK (exD ℂ) := by
  refine ⟨by decide, by decide, by decide, by decide, by decide, by decide, by decide, ⟨by decide, by decide⟩,
    ⟨by decide, by decide⟩, ⟨by decide, by decide⟩, ⟨by decide, by decide⟩⟩

example : ∃ d', reduceLU 0 (exD ℚ) = .ok d' := by
  obtain ⟨d', h, _⟩ := C18_reduceLU (exD_sound_rat) (n := 0) (Or.inl rfl) (v := 4) rfl (by decide)
  exact ⟨d', h⟩

/-- The reduced example is the Schur complement `5 - 2·3/4`. -/
example : ((reduceLU 0 (exD ℚ)).toOption.map (fun d => Dict.get? d.em (1, 1))) = some (some (7 / 2)) := by decide +kernel

example : ∃ d', pivotCOL 0 1 (exD ℚ) = .ok d' := by
  obtain ⟨d', h, _⟩ := C19_column (exD_sound_rat) (n1 := 0) (n2 := 1) (by decide) (Or.inl rfl) (Or.inr rfl)
  exact ⟨d', h⟩

example : ∃ d', householderROW algC 0 [1] (exD ℂ) = .ok d' := by
  obtain ⟨d', h, _⟩ := (C20_row (exD_sound_complex) (into := 0) (F := [1]) (by decide) (by decide) (by decide)).2
    (by show (4 : ℂ) ≠ 0; norm_num)
  exact ⟨d', h⟩

example : ∃ d', householderCOL algC 0 [1] (exD ℂ) = .ok d' := by
  obtain ⟨d', h, _⟩ := (C20_col (exD_sound_complex) (into := 0) (F := [1]) (by decide) (by decide) (by decide)).2
    (by show (4 : ℂ) ≠ 0; norm_num)
  exact ⟨d', h⟩

end Dag
