import Mathlib.LinearAlgebra.Matrix.Block
import Mathlib.LinearAlgebra.Matrix.NonsingularInverse
import Mathlib.Tactic.NoncommRing

/-!
# Networks which keep the commutators keep the vacuum

`M t d` is the coupling from the node `d` to the node `t`, `(1 - M)⁻¹` the response of the network; `σ` exchanges the
lowering and the raising field.
-/

namespace Shot
open Matrix

variable {N F : Type} [Fintype N] [DecidableEq N] [Field F]

/-- Nodes driven by nodes of `V` only are reached from `V` only. -/
theorem closed_inv {M : Matrix N N F} (hinv : IsUnit (1 - M)) {V : N → Prop} [DecidablePred V]
    (hV : ∀ t d, V t → ¬V d → M t d = 0) {t d : N} (ht : V t) (hd : ¬V d) : (1 - M)⁻¹ t d = 0 := by
  obtain ⟨u, hu⟩ := hinv
  have : Invertible (1 - M) := by
    rw [← hu]
    exact u.invertible
  let b : N → ℕ := fun n => if V n then 1 else 0
  have hb : (1 - M).BlockTriangular b := by
    intro i j hij
    by_cases hi : V i
    · by_cases hj : V j
      · simp [b, hi, hj] at hij
      · have hne : i ≠ j := fun h => hj (h ▸ hi)
        rw [Matrix.sub_apply, one_apply_ne hne, hV i j hi hj, sub_zero]
    · simp [b, hi] at hij
  have := blockTriangular_inv_of_blockTriangular hb
  exact this (by simp [b, ht, hd])

/-- What the sources `D` put out together: the correlations of all nodes of `V`. -/
theorem correlation {M : Matrix N N F} (hinv : IsUnit (1 - M)) {σ : N → N} (hσ : ∀ n, σ (σ n) = n)
    {V D : N → Prop} [DecidablePred V] [DecidablePred D]
    (hV : ∀ t d, V t → ¬V d → M t d = 0) (hVσ : ∀ t, V t → V (σ t)) (hDV : ∀ t, D t → V t) (hDσ : ∀ t, D t → D (σ t))
    (hD : ∀ t d, D t → M t d = 0)
    (hrow : ∀ t t', V t → V t' → ¬D t → ¬D t' → ∑ d, M t d * M (σ t') (σ d) = if t = t' then 1 else 0)
    {t t' : N} (ht : V t) (ht' : V t') :
    ∑ d, (if D d then (1 - M)⁻¹ t d * (1 - M)⁻¹ (σ t') (σ d) else 0) =
      (1 - M)⁻¹ t t' + (1 - M)⁻¹ (σ t') (σ t) - if t = t' then 1 else 0 := by
  have hG0 : ∀ t d, V t → ¬V d → (1 - M)⁻¹ t d = 0 := fun t d h1 h2 => closed_inv hinv hV h1 h2
  have hdet := (Matrix.isUnit_iff_isUnit_det _).1 hinv
  have hG : (1 - M)⁻¹ * (1 - M) = 1 := nonsing_inv_mul _ hdet
  generalize (1 - M)⁻¹ = G at *
  let e : N ≃ N := ⟨σ, σ, hσ, hσ⟩
  have hGM : G * M = G - 1 := by
    rw [Matrix.mul_sub, Matrix.mul_one] at hG
    rw [← hG]
    abel
  have hGMe : G.submatrix e e * M.submatrix e e = G.submatrix e e - 1 := by
    rw [Matrix.submatrix_mul_equiv, hGM, Matrix.submatrix_sub, Pi.sub_apply, Pi.sub_apply, Matrix.submatrix_one_equiv]
  have key : G * (1 - M * (M.submatrix e e)ᵀ) * (G.submatrix e e)ᵀ = G + (G.submatrix e e)ᵀ - 1 := by
    have e1 : G * (1 - M * (M.submatrix e e)ᵀ) * (G.submatrix e e)ᵀ =
        G * (G.submatrix e e)ᵀ - (G * M) * (G.submatrix e e * M.submatrix e e)ᵀ := by
      rw [transpose_mul]
      noncomm_ring
    rw [e1, hGM, hGMe, transpose_sub, transpose_one]
    noncomm_ring
  have hMM : ∀ u v, V u → V v → (1 - M * (M.submatrix e e)ᵀ) u v = if u = v ∧ D u then 1 else 0 := by
    intro u v hu hv
    have hm : (M * (M.submatrix e e)ᵀ) u v = ∑ d, M u d * M (σ v) (σ d) := by
      rw [mul_apply]
      rfl
    rw [Matrix.sub_apply, hm]
    by_cases h1 : D u
    · simp only [hD u _ h1, zero_mul, Finset.sum_const_zero, sub_zero, one_apply, h1, and_true]
    · by_cases h2 : D v
      · simp only [hD _ _ (hDσ v h2), mul_zero, Finset.sum_const_zero, sub_zero, one_apply, h1, and_false, if_false]
        rw [if_neg (fun h : u = v => h1 (h ▸ h2))]
      · rw [hrow u v hu hv h1 h2, one_apply, sub_self]
        simp [h1]
  have hl : (G * (1 - M * (M.submatrix e e)ᵀ) * (G.submatrix e e)ᵀ) t t' =
      ∑ d, (if D d then G t d * G (σ t') (σ d) else 0) := by
    rw [mul_apply]
    apply Finset.sum_congr rfl
    intro d _
    have hgt : (G.submatrix e e)ᵀ d t' = G (σ t') (σ d) := rfl
    rw [mul_apply, hgt]
    by_cases hd : V d
    · have : ∀ u, G t u * (1 - M * (M.submatrix e e)ᵀ) u d = if u = d then (if D d then G t d else 0) else 0 := by
        intro u
        by_cases hu : V u
        · rw [hMM u d hu hd]
          by_cases h : u = d
          · subst h
            simp
          · simp [h]
        · rw [hG0 t u ht hu, zero_mul]
          split_ifs with h
          · exact absurd (h ▸ hd) hu
          · exact absurd (h ▸ hd) hu
          · rfl
      rw [Finset.sum_congr rfl (fun u _ => this u), Finset.sum_ite_eq' Finset.univ d, if_pos (Finset.mem_univ _)]
      split_ifs
      · rfl
      · rw [zero_mul]
    · rw [hG0 (σ t') (σ d) (hVσ t' ht') (fun h => hd (hσ d ▸ hVσ _ h)), mul_zero, if_neg (fun h => hd (hDV d h))]
  rw [← hl, key, Matrix.sub_apply, Matrix.add_apply, one_apply]
  rfl

/-- At nodes which drive no node of `V`, the light has the correlations of the vacuum. -/
theorem vacuum {M : Matrix N N F} (hinv : IsUnit (1 - M)) {σ : N → N} (hσ : ∀ n, σ (σ n) = n)
    {V D Y : N → Prop} [DecidablePred V] [DecidablePred D]
    (hV : ∀ t d, V t → ¬V d → M t d = 0) (hVσ : ∀ t, V t → V (σ t)) (hDV : ∀ t, D t → V t) (hDσ : ∀ t, D t → D (σ t))
    (hD : ∀ t d, D t → M t d = 0)
    (hrow : ∀ t t', V t → V t' → ¬D t → ¬D t' → ∑ d, M t d * M (σ t') (σ d) = if t = t' then 1 else 0)
    (hYV : ∀ y, Y y → V y) (hYσ : ∀ y, Y y → Y (σ y)) (hY : ∀ t y, V t → Y y → M t y = 0) {t t' : N} (ht : Y t)
    (ht' : Y t') :
    ∑ d, (if D d then (1 - M)⁻¹ t d * (1 - M)⁻¹ (σ t') (σ d) else 0) = if t = t' then 1 else 0 := by
  rw [correlation hinv hσ hV hVσ hDV hDσ hD hrow (hYV t ht) (hYV t' ht')]
  have hG0 : ∀ t d, V t → ¬V d → (1 - M)⁻¹ t d = 0 := fun t d h1 h2 => closed_inv hinv hV h1 h2
  have hG : (1 - M)⁻¹ * (1 - M) = 1 := nonsing_inv_mul _ ((Matrix.isUnit_iff_isUnit_det _).1 hinv)
  have h1 : ∀ t y, V t → Y y → (1 - M)⁻¹ t y = if t = y then 1 else 0 := by
    intro t y hVt hYy
    have e : (1 - M)⁻¹ t y = ((1 - M)⁻¹ * (1 - M)) t y + ((1 - M)⁻¹ * M) t y := by
      rw [← Matrix.add_apply, ← Matrix.mul_add, sub_add_cancel, Matrix.mul_one]
    rw [e, hG, one_apply, mul_apply, Finset.sum_eq_zero, add_zero]
    intro u _
    by_cases hu : V u
    · rw [hY u y hu hYy, mul_zero]
    · rw [hG0 t u hVt hu, zero_mul]
  rw [h1 t t' (hYV t ht) ht', h1 _ _ (hVσ t' (hYV t' ht')) (hYσ t ht)]
  by_cases h : t = t'
  · subst h
    simp
  · rw [if_neg h, if_neg (fun h' => h (by rw [← hσ t, ← h', hσ]))]
    simp

/-- The noise of two nodes which read the nodes `Y`: every node of `Y` contributes as if it were driven by a vacuum of its
own.  `S` is the strength of the vacuum, the same at coupled nodes. -/
theorem shot {M : Matrix N N F} (hinv : IsUnit (1 - M)) {σ : N → N} (hσ : ∀ n, σ (σ n) = n)
    {V D Y : N → Prop} [DecidablePred V] [DecidablePred D]
    (hV : ∀ t d, V t → ¬V d → M t d = 0) (hVσ : ∀ t, V t → V (σ t)) (hDV : ∀ t, D t → V t) (hDσ : ∀ t, D t → D (σ t))
    (hD : ∀ t d, D t → M t d = 0)
    (hrow : ∀ t t', V t → V t' → ¬D t → ¬D t' → ∑ d, M t d * M (σ t') (σ d) = if t = t' then 1 else 0)
    (hYV : ∀ y, Y y → V y) (hYσ : ∀ y, Y y → Y (σ y)) (hY : ∀ t y, V t → Y y → M t y = 0)
    {S : N → F} (hS : ∀ t d, V t → V d → M t d ≠ 0 → S d = S t) {w w' : N} (hw : ¬V w) (hw' : ¬V w')
    (hwY : ∀ d, M w d ≠ 0 → Y d) (hwY' : ∀ d, M w' d ≠ 0 → Y d) :
    ∑ d, (if D d then S d * (1 - M)⁻¹ w d * (1 - M)⁻¹ w' (σ d) else 0) = ∑ y, S y * M w y * M w' (σ y) := by
  have hI : (1 - M)⁻¹ = 1 + M * (1 - M)⁻¹ := by
    have h : (1 - M) * (1 - M)⁻¹ = 1 := mul_nonsing_inv _ ((Matrix.isUnit_iff_isUnit_det _).1 hinv)
    rw [Matrix.sub_mul, Matrix.one_mul] at h
    exact sub_eq_iff_eq_add.1 h
  have hread : ∀ u d, ¬V u → D d → (1 - M)⁻¹ u d = ∑ y, M u y * (1 - M)⁻¹ y d := by
    intro u d hu hd
    have : (1 - M)⁻¹ u d = (1 + M * (1 - M)⁻¹) u d := by rw [← hI]
    rw [this, Matrix.add_apply, one_apply_ne (fun h : u = d => hu (h ▸ hDV d hd)), zero_add, mul_apply]
  have hone : ∀ y y', Y y → Y y' → ∑ d, (if D d then S d * ((1 - M)⁻¹ y d * (1 - M)⁻¹ (σ y') (σ d)) else 0) =
      if y = y' then S y else 0 := by
    classical
    intro y y' hy hy'
    have hc : ∀ d, D d → S d * ((1 - M)⁻¹ y d * (1 - M)⁻¹ (σ y') (σ d)) =
        S y * ((1 - M)⁻¹ y d * (1 - M)⁻¹ (σ y') (σ d)) := by
      intro d hd
      by_cases hs : S d = S y
      · rw [hs]
      · have : (1 - M)⁻¹ y d = 0 := by
          refine closed_inv hinv (V := fun n => V n ∧ S n = S y) ?_ ⟨hYV y hy, rfl⟩ (fun h => hs h.2)
          intro t d ht hd
          by_contra hne
          by_cases hVd : V d
          · exact hd ⟨hVd, (hS t d ht.1 hVd hne).trans ht.2⟩
          · exact hne (hV t d ht.1 hVd)
        rw [this]
        ring
    have : ∀ d, (if D d then S d * ((1 - M)⁻¹ y d * (1 - M)⁻¹ (σ y') (σ d)) else 0) =
        S y * (if D d then (1 - M)⁻¹ y d * (1 - M)⁻¹ (σ y') (σ d) else 0) := by
      intro d
      split_ifs with hd
      · exact hc d hd
      · rw [mul_zero]
    rw [Finset.sum_congr rfl (fun d _ => this d), ← Finset.mul_sum,
      vacuum hinv hσ hV hVσ hDV hDσ hD hrow hYV hYσ hY hy hy']
    split_ifs
    · rw [mul_one]
    · rw [mul_zero]
  have hσsum : ∀ f : N → F, ∑ y, f y = ∑ y, f (σ y) := fun f => (Equiv.sum_comp ⟨σ, σ, hσ, hσ⟩ f).symm
  have h1 : ∀ d, (if D d then S d * (1 - M)⁻¹ w d * (1 - M)⁻¹ w' (σ d) else 0) =
      ∑ y, ∑ y', M w y * M w' (σ y') * (if D d then S d * ((1 - M)⁻¹ y d * (1 - M)⁻¹ (σ y') (σ d)) else 0) := by
    intro d
    split_ifs with hd
    · rw [hread w d hw hd, hread w' (σ d) hw' (hDσ d hd), hσsum (fun y => M w' y * (1 - M)⁻¹ y (σ d)),
        mul_assoc, Finset.sum_mul_sum, Finset.mul_sum]
      apply Finset.sum_congr rfl
      intro y _
      rw [Finset.mul_sum]
      apply Finset.sum_congr rfl
      intro y' _
      ring
    · simp
  rw [Finset.sum_congr rfl (fun d _ => h1 d), Finset.sum_comm]
  apply Finset.sum_congr rfl
  intro y _
  rw [Finset.sum_comm, Finset.sum_eq_single y]
  · rw [← Finset.mul_sum]
    by_cases h0 : M w y = 0
    · rw [h0]
      ring
    · rw [hone y y (hwY y h0) (hwY y h0), if_pos rfl]
      ring
  · intro y' _ hne
    rw [← Finset.mul_sum]
    by_cases h0 : M w y = 0
    · rw [h0]
      ring
    · by_cases h1 : M w' (σ y') = 0
      · rw [h1]
        ring
      · rw [hone y y' (hwY y h0) (hσ y' ▸ hYσ _ (hwY' _ h1)), if_neg (Ne.symm hne), mul_zero]
  · intro h
    exact absurd (Finset.mem_univ _) h

end Shot
