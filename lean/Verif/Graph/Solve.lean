import Verif.Graph.Prepare
import Mathlib.LinearAlgebra.FiniteDimensional.Lemmas
import Mathlib.LinearAlgebra.FiniteDimensional.Basic
import Mathlib.LinearAlgebra.Pi

set_option linter.unusedSectionVars false

namespace Graph
open Py
variable {N : Type} {V : Type} [DecidableEq N] [Field V] [DecidableEq V]

section
variable [Fintype N]

/-- If `1 - M` is injective and `M` maps vectors supported on `Q` to such vectors, then so does the
inverse of `1 - M`. -/
theorem supp_of_injective (M : (N → V) →ₗ[V] (N → V)) (hinj : ∀ f, f = M f → f = 0) (Q : N → Prop)
    (hQ : ∀ f : N → V, (∀ t, ¬ Q t → f t = 0) → ∀ t, ¬ Q t → M f t = 0)
    (f : N → V) (hf : ∀ t, ¬ Q t → f t = M f t) : ∀ t, ¬ Q t → f t = 0 := by
  classical
  let U : Submodule V (N → V) :=
    { carrier := {f | ∀ t, ¬ Q t → f t = 0}
      add_mem' := by
        intro a b ha hb t ht
        simp only [Set.mem_setOf_eq] at ha hb
        rw [Pi.add_apply, ha t ht, hb t ht, add_zero]
      zero_mem' := by intro t _; rfl
      smul_mem' := by
        intro c a ha t ht
        simp only [Set.mem_setOf_eq] at ha
        rw [Pi.smul_apply, ha t ht, smul_zero] }
  let D : (N → V) →ₗ[V] (N → V) := LinearMap.id - M
  have hD : ∀ f ∈ U, D f ∈ U := by
    intro f hf t ht
    show f t - M f t = 0
    rw [hf t ht, hQ f hf t ht, sub_zero]
  let D' : U →ₗ[V] U := D.restrict hD
  have hD' : Function.Injective D' := by
    rw [← LinearMap.ker_eq_bot, LinearMap.ker_eq_bot']
    rintro ⟨f, hfU⟩ h
    have h1 : D f = 0 := congrArg Subtype.val h
    have h2 : f = M f := by
      have : f - M f = 0 := h1
      exact sub_eq_zero.1 this
    exact Subtype.ext (hinj f h2)
  have hsurj := LinearMap.injective_iff_surjective.1 hD'
  have hDf : D f ∈ U := by
    intro t ht
    show f t - M f t = 0
    rw [← hf t ht, sub_self]
  obtain ⟨⟨k, hk⟩, hkD⟩ := hsurj ⟨D f, hDf⟩
  have h3 : D k = D f := congrArg Subtype.val hkD
  have h4 : f - k = M (f - k) := by
    have e1 : k - M k = f - M f := h3
    rw [map_sub]
    funext t
    have := congrFun e1 t
    simp only [Pi.sub_apply] at this ⊢
    linear_combination -this
  have h5 : f = k := sub_eq_zero.1 (hinj _ h4)
  rw [h5]
  exact hk

theorem elimW_congr {w : N → N → V} {n : N} {x y : N → V} (h : ∀ r, r ≠ n → x r = y r) (t : N) :
    ∑ r, elimW w n r t * x r = ∑ r, elimW w n r t * y r := by
  apply Finset.sum_congr rfl
  intro r _
  by_cases hr : r = n
  · unfold elimW; simp [hr]
  · rw [h r hr]

/-- With nonzero pivots a solution that vanishes off the eliminated nodes vanishes. -/
theorem elimAll_unique : ∀ (L : List N) {w : N → N → V} {T : Set N} {y : N → V}, Pivots w L → L.Nodup →
    (∀ n ∈ L, n ∈ T) → Sol w T y → (∀ t, t ∉ L → y t = 0) → y = 0 := by
  intro L
  induction L with
  | nil => intro w T y _ _ _ _ h; funext t; exact h t (by simp)
  | cons n L ih =>
    intro w T y hp hnd hT hy h0
    obtain ⟨h1, h2⟩ := hp
    obtain ⟨hnL, hnd'⟩ := List.nodup_cons.1 hnd
    have hS := elim_forward h1 (hT n (by simp)) hy
    have hy' : Sol (elimW w n) (T \ {n}) (Function.update y n 0) := by
      rintro t ⟨htT, htn⟩
      have htn : t ≠ n := htn
      rw [Function.update_of_ne htn, hS t ⟨htT, htn⟩]
      apply elimW_congr
      intro r hr
      rw [Function.update_of_ne hr]
    have hz := ih h2 hnd' (T := T \ {n})
      (fun m hm => ⟨hT m (List.mem_cons_of_mem _ hm), fun h => hnL (h ▸ hm)⟩) hy' (by
        intro t ht
        by_cases htn : t = n
        · subst htn; simp
        · rw [Function.update_of_ne htn]
          exact h0 t (by simp [ht, htn]))
    have hz' : ∀ t, t ≠ n → y t = 0 := by
      intro t ht
      have := congrFun hz t
      rw [Function.update_of_ne ht] at this
      exact this
    funext t
    by_cases htn : t = n
    · subst htn
      rw [elim_unique h1 (hT t (by simp)) hy]
      unfold backValue
      rw [Finset.sum_eq_zero, mul_zero]; · rfl
      intro r _
      split
      · rfl
      · rename_i hr; rw [hz' r hr, mul_zero]
    · exact hz' t htn

/-- What the simplification establishes, seen from the gains `w` it started from: boundary nodes `B` have
no predecessors, every node with both successors and predecessors was eliminated. -/
structure Simplified (g : G N V) (L : List N) (B : Set N) (w' : N → N → V) : Prop where
  nodup : L.Nodup
  mem : ∀ n, n ∈ L ↔ g.succ n ≠ [] ∧ g.pred n ≠ []
  piv : Pivots (W g) L
  gains : ∀ a b, w' a b = elimAll (W g) L a b
  mirror : ∀ a b, b ∈ g.succ a ↔ a ∈ g.pred b
  adj : ∀ a b, w' a b ≠ 0 → a ∉ L ∧ b ∉ L ∧ Via (fun a b => b ∈ g.succ a) (· ∈ L) a b
  bnd : ∀ b ∈ B, g.pred b = []

variable {g : G N V} {L : List N} {B : Set N} {w' : N → N → V}

/-- A remaining edge leaves a node without predecessors. -/
theorem Simplified.source (h : Simplified g L B w') {a b : N} (hab : w' a b ≠ 0) : g.pred a = [] := by
  obtain ⟨ha, _, hv⟩ := h.adj a b hab
  obtain ⟨⟨c, hc⟩, _⟩ := via_reach hv
  by_contra hp
  exact ha ((h.mem a).2 ⟨fun hs => by rw [hs] at hc; simp at hc, hp⟩)

theorem Simplified.target (h : Simplified g L B w') {a b : N} (hab : w' a b ≠ 0) : g.succ b = [] ∧ g.pred b ≠ [] := by
  obtain ⟨_, hb, hv⟩ := h.adj a b hab
  obtain ⟨_, ⟨c, hc⟩⟩ := via_reach hv
  have hc' := (h.mirror c b).1 hc
  have hp : g.pred b ≠ [] := fun hs => by rw [hs] at hc'; simp at hc'
  refine ⟨?_, hp⟩
  by_contra hs
  exact hb ((h.mem b).2 ⟨hs, hp⟩)

theorem Simplified.notB (h : Simplified g L B w') : ∀ n ∈ L, n ∈ Bᶜ := by
  intro n hn hB
  exact ((h.mem n).1 hn).2 (h.bnd n hB)

/-- A remaining node off the boundary takes the sum over the boundary. -/
theorem Simplified.value (h : Simplified g L B w') {y : N → V} (hy : Sol (W g) Bᶜ y) {t : N} (ht : t ∉ L)
    (htB : t ∉ B) [DecidablePred (· ∈ B)] : y t = ∑ r, if r ∈ B then w' r t * y r else 0 := by
  have hS := elimAll_forward L h.piv h.nodup h.notB hy
  have hw : elimAll (W g) L = w' := by funext a b; exact (h.gains a b).symm
  rw [hw] at hS
  have key : ∀ t, t ∉ L → t ∉ B → g.pred t = [] → y t = 0 := by
    intro t ht htB hp
    rw [hS t ⟨htB, ht⟩]
    apply Finset.sum_eq_zero
    intro r _
    by_cases hr : w' r t = 0
    · rw [hr, zero_mul]
    · exact absurd hp (h.target hr).2
  rw [hS t ⟨htB, ht⟩]
  apply Finset.sum_congr rfl
  intro r _
  split
  · rfl
  · rename_i hrB
    by_cases hr : w' r t = 0
    · rw [hr, zero_mul]
    · rw [key r (h.adj r t hr).1 hrB (h.source hr), mul_zero]

theorem Simplified.unique (h : Simplified g L B w') {y : N → V} (hy : Sol (W g) Bᶜ y)
    (h0 : ∀ b ∈ B, y b = 0) : y = 0 := by
  classical
  apply elimAll_unique L h.piv h.nodup h.notB hy
  intro t ht
  by_cases htB : t ∈ B
  · exact h0 t htB
  · rw [h.value hy ht htB]
    apply Finset.sum_eq_zero
    intro r _
    split
    · rename_i hr; rw [h0 r hr, mul_zero]
    · rfl

theorem Simplified.exists (h : Simplified g L B w') (c : N → V) :
    ∃ y, Sol (W g) Bᶜ y ∧ ∀ b ∈ B, y b = c b := by
  classical
  have hw : elimAll (W g) L = w' := by funext a b; exact (h.gains a b).symm
  let x : N → V := fun t => if t ∈ B then c t else ∑ r, if r ∈ B then w' r t * c r else 0
  have hx : Sol (elimAll (W g) L) (Bᶜ \ {n | n ∈ L}) x := by
    rintro t ⟨htB, htL⟩
    have htB : t ∉ B := htB
    rw [hw]
    have : x t = ∑ r, if r ∈ B then w' r t * c r else 0 := by simp only [x, htB, if_false]
    rw [this]
    apply Finset.sum_congr rfl
    intro r _
    by_cases hrB : r ∈ B
    · simp [x, hrB]
    · rw [if_neg hrB]
      by_cases hr : w' r t = 0
      · rw [hr, zero_mul]
      · have hxr : x r = 0 := by
          simp only [x, hrB, if_false]
          apply Finset.sum_eq_zero
          intro q _
          split
          · by_cases hq : w' q r = 0
            · rw [hq, zero_mul]
            · exact absurd (h.source hr) (h.target hq).2
          · rfl
        rw [hxr, mul_zero]
  obtain ⟨y, hy1, hy2⟩ := elimAll_back L h.piv hx
  refine ⟨y, hy2, ?_⟩
  intro b hb
  rw [hy1 b (fun hL => h.notB b hL hb)]
  simp only [x, hb, if_true]

end

end Graph
