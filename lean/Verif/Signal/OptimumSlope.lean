import Verif.Signal.OptimumProps
import Mathlib.Analysis.Complex.Polynomial.Basic
import Mathlib.Algebra.Polynomial.FieldDivision

/-!
# C121: no filter with a monotonic passband falls off more steeply at its cut-off

A derivative that is not negative on [0, 1] is a sum of squares with the weights 1, t, 1 - t and t (1 - t) (`Cone`); each of them is bounded
at 1 by its integral, with the polynomials of the filter as reproducing kernels.
-/

namespace Lgd
open Polynomial

/-! ## The integral over [0, 1] -/

/-- The integral over [0, 1]. -/
noncomputable def integral : ℝ[X] →ₗ[ℝ] ℝ := Polynomial.lsum fun j => (1 / ((j : ℝ) + 1)) • LinearMap.id

theorem integral_monomial (j : ℕ) (c : ℝ) : integral (monomial j c) = c / (j + 1) := by
  unfold integral
  rw [lsum_apply, sum_monomial_index]
  · simp; ring
  · simp

theorem integral_C_mul (c : ℝ) (p : ℝ[X]) : integral (C c * p) = c * integral p := by
  rw [← smul_eq_C_mul, map_smul, smul_eq_mul]

theorem integral_derivative (f : ℝ[X]) : integral (derivative f) = f.eval 1 - f.eval 0 := by
  induction f using Polynomial.induction_on' with
  | add p q hp hq =>
    rw [derivative_add, map_add, hp, hq, eval_add, eval_add]
    ring
  | monomial n a =>
    rw [derivative_monomial, integral_monomial, eval_monomial, eval_monomial]
    rcases n with - | n
    · simp
    · have : ((n : ℝ) + 1) ≠ 0 := by positivity
      simp
      field_simp

theorem exists_primitive (f : ℝ[X]) : ∃ F, derivative F = f := by
  induction f using Polynomial.induction_on' with
  | add p q hp hq =>
    obtain ⟨P, rfl⟩ := hp
    obtain ⟨Q, rfl⟩ := hq
    exact ⟨P + Q, derivative_add⟩
  | monomial n a =>
    refine ⟨monomial (n + 1) (a / (n + 1)), ?_⟩
    rw [derivative_monomial]
    have : ((n : ℝ) + 1) ≠ 0 := by positivity
    simp
    field_simp

theorem monotone_of_derivative {F : ℝ[X]} (h : ∀ t ∈ Set.Icc (0 : ℝ) 1, 0 ≤ (derivative F).eval t) : F.eval 0 ≤ F.eval 1 := by
  have hm : MonotoneOn (fun t : ℝ => F.eval t) (Set.Icc 0 1) := by
    apply monotoneOn_of_deriv_nonneg (convex_Icc 0 1) F.continuous.continuousOn
    · exact F.differentiable.differentiableOn
    · intro t ht
      rw [F.deriv]
      exact h t (interior_subset ht)
  exact hm (by norm_num) (by norm_num) zero_le_one

theorem integral_nonneg {f : ℝ[X]} (h : ∀ t ∈ Set.Icc (0 : ℝ) 1, 0 ≤ f.eval t) : 0 ≤ integral f := by
  obtain ⟨F, rfl⟩ := exists_primitive f
  rw [integral_derivative]
  exact sub_nonneg.mpr (monotone_of_derivative h)

theorem integral_parts (f g : ℝ[X]) : integral (f * derivative g) = f.eval 1 * g.eval 1 - f.eval 0 * g.eval 0 - integral (derivative f * g) := by
  have := integral_derivative (f * g)
  rw [derivative_mul, map_add, eval_mul, eval_mul] at this
  linarith

theorem integral_mul_eq_zero {a : ℝ[X]} {k : ℕ} (h : ∀ j, j < k → integral (X ^ j * a) = 0) {g : ℝ[X]} (hg : g = 0 ∨ g.natDegree < k) :
    integral (g * a) = 0 := by
  rcases hg with rfl | hg
  · simp
  · rw [g.as_sum_range' k hg, Finset.sum_mul, map_sum]
    apply Finset.sum_eq_zero
    intro j hj
    rw [← C_mul_X_pow_eq_monomial, mul_assoc, ← smul_eq_C_mul, map_smul, h j (Finset.mem_range.mp hj), smul_zero]

/-- A polynomial is its value at 1 and a multiple of `1 - t`. -/
theorem split_one {f : ℝ[X]} {k : ℕ} (hf : f.natDegree ≤ k) : ∃ g : ℝ[X], f = C (f.eval 1) + (1 - X) * g ∧ (g = 0 ∨ g.natDegree < k) := by
  obtain ⟨g, hg⟩ : X - C 1 ∣ f - C (f.eval 1) := by
    rw [dvd_iff_isRoot]
    simp [IsRoot]
  refine ⟨-g, ?_, ?_⟩
  · rw [sub_eq_iff_eq_add] at hg
    conv_lhs => rw [hg]
    rw [C_1]
    ring
  · by_cases h0 : g = 0
    · left; rw [h0, neg_zero]
    · right
      have h1 : (f - C (f.eval 1)).natDegree = g.natDegree + 1 := by
        rw [hg, natDegree_mul (X_sub_C_ne_zero 1) h0, natDegree_X_sub_C]
        ring
      have h2 : (f - C (f.eval 1)).natDegree ≤ k := by
        rw [natDegree_sub_C]
        exact hf
      rw [natDegree_neg]
      omega

/-! ## Reproducing kernels -/

noncomputable def toR (p : ℤ[X]) : ℝ[X] := p.map (Int.castRingHom ℝ)

theorem toR_mul (p q : ℤ[X]) : toR (p * q) = toR p * toR q := Polynomial.map_mul _
theorem toR_add (p q : ℤ[X]) : toR (p + q) = toR p + toR q := Polynomial.map_add _
theorem toR_sub (p q : ℤ[X]) : toR (p - q) = toR p - toR q := Polynomial.map_sub _
theorem toR_neg (p : ℤ[X]) : toR (-p) = -toR p := Polynomial.map_neg _
theorem toR_nat (n : ℕ) : toR (n : ℤ[X]) = C (n : ℝ) := by
  unfold toR; rw [Polynomial.map_natCast]; simp
theorem toR_ofNat (n : ℕ) [n.AtLeastTwo] : toR (ofNat(n) : ℤ[X]) = C (ofNat(n) : ℝ) := by
  unfold toR; rw [Polynomial.map_ofNat]; exact (map_ofNat C n).symm
theorem toR_one : toR (1 : ℤ[X]) = 1 := Polynomial.map_one _
theorem toR_X : toR (X : ℤ[X]) = X := Polynomial.map_X _
theorem toR_derivative (p : ℤ[X]) : toR (derivative p) = derivative (toR p) := (derivative_map p _).symm
theorem toR_natDegree (p : ℤ[X]) : (toR p).natDegree = p.natDegree := natDegree_map_eq_of_injective (RingHom.injective_int _) p
theorem toR_eval (p : ℤ[X]) (n : ℤ) : (toR p).eval (n : ℝ) = ((p.eval n : ℤ) : ℝ) := by
  have := eval_intCast_map (Int.castRingHom ℝ) p n
  unfold toR
  rw [this]
  simp
theorem toR_eval_one (p : ℤ[X]) : (toR p).eval 1 = ((p.eval 1 : ℤ) : ℝ) := by simpa using toR_eval p 1

theorem pa_moments (k : ℕ) : ∀ j, j < k → integral (X ^ j * ((1 - X) * toR (pa k))) = 0 := by
  have hA := congrArg toR (pb_deriv k)
  have hB := congrArg toR (pa_deriv k)
  simp only [toR_mul, toR_add, toR_sub, toR_neg, toR_nat, toR_one, toR_X, toR_derivative] at hA hB
  generalize toR (pa k) = A at hA hB ⊢
  generalize toR (pb k) = B at hA hB
  have step : ∀ j : ℕ, (((j : ℝ) + 1) ^ 2 - ((k : ℝ) + 1) ^ 2) * integral (X ^ j * ((1 - X) * A)) =
      (j : ℝ) ^ 2 * integral (X ^ (j - 1) * ((1 - X) * A)) := by
    intro j
    have p1 := integral_parts (X ^ j * (1 - X)) (X * B)
    have p2 := integral_parts (C (j : ℝ) * X ^ j - C ((j : ℝ) + 1) * X ^ (j + 1)) ((1 - X) * A)
    rw [hA] at p1
    rw [hB] at p2
    have e1 : derivative (X ^ j * (1 - X) : ℝ[X]) * (X * B) = (C (j : ℝ) * X ^ j - C ((j : ℝ) + 1) * X ^ (j + 1)) * B := by
      rcases j with - | j
      · simp
      · simp only [derivative_mul, derivative_X_pow, derivative_sub, derivative_one, derivative_X, Nat.add_sub_cancel]
        simp only [map_add, map_one]
        ring
    have e2 : derivative (C (j : ℝ) * X ^ j - C ((j : ℝ) + 1) * X ^ (j + 1) : ℝ[X]) * ((1 - X) * A) =
        C ((j : ℝ) ^ 2) * (X ^ (j - 1) * ((1 - X) * A)) - C (((j : ℝ) + 1) ^ 2) * (X ^ j * ((1 - X) * A)) := by
      simp only [derivative_sub, derivative_C_mul, derivative_X_pow, Nat.add_sub_cancel]
      simp only [map_add, map_one, map_pow, Nat.cast_add, Nat.cast_one]
      ring
    have e3 : X ^ j * (1 - X) * ((C (k : ℝ) + 1) * A) = C ((k : ℝ) + 1) * (X ^ j * ((1 - X) * A)) := by
      simp only [map_add, map_one]; ring
    have e4 : (C (j : ℝ) * X ^ j - C ((j : ℝ) + 1) * X ^ (j + 1)) * (-(C (k : ℝ) + 1) * B) =
        C (-((k : ℝ) + 1)) * ((C (j : ℝ) * X ^ j - C ((j : ℝ) + 1) * X ^ (j + 1)) * B) := by
      simp only [map_add, map_neg, map_one]; ring
    rw [e1, e3, integral_C_mul] at p1
    rw [e2, e4, integral_C_mul, map_sub, integral_C_mul, integral_C_mul] at p2
    have z1 : (X * B).eval (0 : ℝ) = 0 := by simp
    have z2 : (X ^ j * (1 - X) : ℝ[X]).eval 1 = 0 := by simp
    have z3 : ((1 - X) * A).eval (1 : ℝ) = 0 := by simp
    have z4 : (C (j : ℝ) * X ^ j - C ((j : ℝ) + 1) * X ^ (j + 1) : ℝ[X]).eval 0 = 0 := by
      rcases j with - | j <;> simp
    rw [z1, z2] at p1
    rw [z3, z4] at p2
    linear_combination -((k : ℝ) + 1) * p1 - p2
  intro j
  induction j with
  | zero =>
    intro hj
    have := step 0
    have h1 : (((0 : ℕ) : ℝ) + 1) ^ 2 - ((k : ℝ) + 1) ^ 2 ≠ 0 := by
      have : (0 : ℝ) < k := by exact_mod_cast hj
      push_cast
      nlinarith
    rw [Nat.cast_zero] at this h1
    simp only [ne_eq, OfNat.ofNat_ne_zero, not_false_eq_true, zero_pow, zero_mul] at this
    exact (mul_eq_zero.mp this).resolve_left h1
  | succ j ih =>
    intro hj
    have := step (j + 1)
    rw [Nat.add_sub_cancel, ih (by omega), mul_zero] at this
    have h1 : (((j + 1 : ℕ) : ℝ) + 1) ^ 2 - ((k : ℝ) + 1) ^ 2 ≠ 0 := by
      have : ((j + 1 : ℕ) : ℝ) < k := by exact_mod_cast hj
      have h0 : (0 : ℝ) ≤ ((j + 1 : ℕ) : ℝ) := Nat.cast_nonneg _
      nlinarith
    exact (mul_eq_zero.mp this).resolve_left h1

theorem pp_moments (n : ℕ) : ∀ j, j < n → integral (X ^ j * toR (pp n)) = 0 := by
  have hO := congrArg toR (pp_ode n)
  simp only [toR_mul, toR_add, toR_sub, toR_neg, toR_nat, toR_one, toR_X, toR_derivative] at hO
  generalize toR (pp n) = P at hO ⊢
  have step : ∀ j : ℕ, ((j : ℝ) * (j + 1) - (n : ℝ) * (n + 1)) * integral (X ^ j * P) = (j : ℝ) ^ 2 * integral (X ^ (j - 1) * P) := by
    intro j
    have p1 := integral_parts (X ^ j) (X * (1 - X) * derivative P)
    have p2 := integral_parts (C (j : ℝ) * (X ^ j * (1 - X))) P
    rw [hO] at p1
    have e1 : derivative (X ^ j : ℝ[X]) * (X * (1 - X) * derivative P) = C (j : ℝ) * (X ^ j * (1 - X)) * derivative P := by
      rcases j with - | j
      · simp
      · simp only [derivative_X_pow, Nat.add_sub_cancel]
        ring
    have e2 : derivative (C (j : ℝ) * (X ^ j * (1 - X)) : ℝ[X]) * P = C ((j : ℝ) ^ 2) * (X ^ (j - 1) * P) - C ((j : ℝ) * (j + 1)) * (X ^ j * P) := by
      rcases j with - | j
      · simp
      · rw [derivative_C_mul]
        simp only [derivative_mul, derivative_X_pow, derivative_sub, derivative_one, derivative_X, Nat.add_sub_cancel]
        simp only [map_add, map_one, map_pow, map_mul, Nat.cast_add, Nat.cast_one]
        ring
    have e3 : X ^ j * (-(C (n : ℝ) * (C (n : ℝ) + 1)) * P) = C (-((n : ℝ) * (n + 1))) * (X ^ j * P) := by
      simp only [map_neg, map_mul, map_add, map_one]; ring
    rw [e1, e3, integral_C_mul] at p1
    rw [e2, map_sub, integral_C_mul, integral_C_mul] at p2
    have z1 : (X * (1 - X) * derivative P).eval (0 : ℝ) = 0 := by simp
    have z2 : (X * (1 - X) * derivative P).eval (1 : ℝ) = 0 := by simp
    have z3 : (C (j : ℝ) * (X ^ j * (1 - X)) : ℝ[X]).eval 1 = 0 := by simp
    have z4 : (C (j : ℝ) * (X ^ j * (1 - X)) : ℝ[X]).eval 0 = 0 := by
      rcases j with - | j <;> simp
    rw [z1, z2] at p1
    rw [z3, z4] at p2
    linear_combination p1 - p2
  intro j
  induction j with
  | zero =>
    intro hj
    have := step 0
    have h1 : ((0 : ℝ) * (0 + 1) - (n : ℝ) * (n + 1)) ≠ 0 := by
      have : (0 : ℝ) < n := by exact_mod_cast hj
      nlinarith
    rw [Nat.cast_zero] at this
    simp only [ne_eq, OfNat.ofNat_ne_zero, not_false_eq_true, zero_pow, zero_mul] at this h1
    exact (mul_eq_zero.mp this).resolve_left h1
  | succ j ih =>
    intro hj
    have := step (j + 1)
    rw [Nat.add_sub_cancel, ih (by omega), mul_zero] at this
    have h1 : (((j + 1 : ℕ) : ℝ) * ((j + 1 : ℕ) + 1) - (n : ℝ) * (n + 1)) ≠ 0 := by
      have : ((j + 1 : ℕ) : ℝ) < n := by exact_mod_cast hj
      have h0 : (0 : ℝ) ≤ ((j + 1 : ℕ) : ℝ) := Nat.cast_nonneg _
      nlinarith
    exact (mul_eq_zero.mp this).resolve_left h1

/-- The bound at 1 from a reproducing kernel `K` for the weight `W`. -/
theorem kernel_bound {W K : ℝ[X]} {k : ℕ} (hW : ∀ t ∈ Set.Icc (0 : ℝ) 1, 0 ≤ W.eval t) (hK : K.natDegree ≤ k) (hpos : 0 < K.eval 1)
    (hrep : ∀ f : ℝ[X], f.natDegree ≤ k → integral (W * (f * K)) = f.eval 1) {f : ℝ[X]} (hf : f.natDegree ≤ k) :
    f.eval 1 ^ 2 ≤ K.eval 1 * integral (W * f ^ 2) := by
  have h1 := hrep f hf
  have h2 := hrep K hK
  obtain ⟨l, hl⟩ : ∃ l, l = f.eval 1 / K.eval 1 := ⟨_, rfl⟩
  have h3 : 0 ≤ integral (W * (f - C l * K) ^ 2) := by
    apply integral_nonneg
    intro t ht
    rw [eval_mul, eval_pow]
    exact mul_nonneg (hW t ht) (sq_nonneg _)
  have e : W * (f - C l * K) ^ 2 = W * f ^ 2 - C (2 * l) * (W * (f * K)) + C (l ^ 2) * (W * (K * K)) := by
    simp only [map_mul, map_pow, map_ofNat]; ring
  rw [e, map_add, map_sub, ← smul_eq_C_mul, ← smul_eq_C_mul, map_smul, map_smul, h1, h2, smul_eq_mul, smul_eq_mul] at h3
  have h4 : l * K.eval 1 = f.eval 1 := by rw [hl]; field_simp
  generalize K.eval 1 = κ at *
  generalize f.eval 1 = y at *
  generalize integral (W * f ^ 2) = J at *
  subst h4
  nlinarith

theorem odd_bound (k : ℕ) {f : ℝ[X]} (hf : f.natDegree ≤ k) : f.eval 1 ^ 2 ≤ ((k : ℝ) + 1) ^ 2 * integral (f ^ 2) := by
  have hA := congrArg toR (pb_deriv k)
  simp only [toR_mul, toR_add, toR_nat, toR_one, toR_X, toR_derivative] at hA
  have hK1 : (C ((k : ℝ) + 1) * toR (pa k)).eval 1 = ((k : ℝ) + 1) ^ 2 := by
    rw [eval_mul, eval_C, toR_eval_one, pa_eval_one]
    push_cast
    ring
  have := kernel_bound (W := 1) (K := C ((k : ℝ) + 1) * toR (pa k)) (k := k) (by simp) ?_ ?_ ?_ hf
  · rwa [hK1, one_mul] at this
  · refine (natDegree_C_mul_le _ _).trans ?_
    rw [toR_natDegree, pa_natDegree]
  · rw [hK1]; positivity
  · intro f hf
    obtain ⟨g, h1, h2⟩ := split_one hf
    have h3 := integral_mul_eq_zero (pa_moments k) h2
    have h4 := integral_derivative (X * toR (pb k))
    rw [hA] at h4
    simp only [eval_mul, eval_X, toR_eval_one, pb_eval_one, zero_mul, one_mul, sub_zero, Int.cast_one] at h4
    have e : 1 * (f * (C ((k : ℝ) + 1) * toR (pa k))) =
        C (f.eval 1) * ((C (k : ℝ) + 1) * toR (pa k)) + C ((k : ℝ) + 1) * (g * ((1 - X) * toR (pa k))) := by
      conv_lhs => rw [h1]
      simp only [map_add, map_one]
      ring
    rw [e, map_add, ← smul_eq_C_mul, ← smul_eq_C_mul, map_smul, map_smul, h3, h4]
    simp

theorem even_bound (k : ℕ) {f : ℝ[X]} (hf : f.natDegree ≤ k) :
    f.eval 1 ^ 2 ≤ ((k : ℝ) + 1) * (k + 2) * integral (X * f ^ 2) := by
  have hO := congrArg toR (pp_ode (k + 1))
  simp only [toR_mul, toR_add, toR_sub, toR_neg, toR_nat, toR_one, toR_X, toR_derivative] at hO
  have hP1 : (toR (pp (k + 1))).eval 1 = 1 := by rw [toR_eval_one, pp_eval_one]; simp
  have hK1 : (derivative (toR (pp (k + 1)))).eval 1 = ((k : ℝ) + 1) * (k + 2) := by
    have := congrArg (eval 1) hO
    simp only [derivative_mul, derivative_X, derivative_sub, derivative_one, eval_mul, eval_add, eval_sub, eval_neg, eval_C, eval_X, eval_one,
      eval_zero, hP1] at this
    push_cast at this
    linear_combination -this
  have := kernel_bound (W := X) (K := derivative (toR (pp (k + 1)))) (k := k) (fun t ht => by simpa using ht.1) ?_ ?_ ?_ hf
  · rwa [hK1] at this
  · rw [← toR_derivative, pd_deriv, toR_natDegree, show ((k : ℤ[X]) + 1) * ((k : ℤ[X]) + 2) = C (((k : ℤ) + 1) * (k + 2)) by simp]
    exact (natDegree_C_mul_le _ _).trans (pd_natDegree k).le
  · rw [hK1]; positivity
  · intro f hf
    obtain ⟨g, h1, h2⟩ := split_one hf
    have hm : ∀ j, j < k → integral (X ^ j * ((1 - X) * (X * derivative (toR (pp (k + 1)))))) = 0 := by
      intro j hj
      have p1 := integral_parts (C (1 / ((j : ℝ) + 1)) * X ^ (j + 1)) (X * (1 - X) * derivative (toR (pp (k + 1))))
      rw [hO] at p1
      have hj1 : ((j : ℝ) + 1) ≠ 0 := by positivity
      have e1 : derivative (C (1 / ((j : ℝ) + 1)) * X ^ (j + 1) : ℝ[X]) = X ^ j := by
        rw [derivative_C_mul, derivative_X_pow, Nat.add_sub_cancel, ← mul_assoc, ← C_mul]
        push_cast
        rw [one_div_mul_cancel hj1, C_1, one_mul]
      have e2 : C (1 / ((j : ℝ) + 1)) * X ^ (j + 1) * (-(C ((k + 1 : ℕ) : ℝ) * (C ((k + 1 : ℕ) : ℝ) + 1)) * toR (pp (k + 1))) =
          C (1 / ((j : ℝ) + 1) * (-(((k + 1 : ℕ) : ℝ) * (((k + 1 : ℕ) : ℝ) + 1)))) * (X ^ (j + 1) * toR (pp (k + 1))) := by
        simp only [map_mul, map_neg, map_add, map_one]; ring
      rw [e1, e2, ← smul_eq_C_mul, map_smul, pp_moments (k + 1) (j + 1) (by omega), smul_zero] at p1
      simp only [eval_mul, eval_X, eval_sub, eval_one, sub_self, mul_zero, zero_mul, sub_zero] at p1
      have e3 : X ^ j * ((1 - X) * (X * derivative (toR (pp (k + 1))))) = X ^ j * (X * (1 - X) * derivative (toR (pp (k + 1)))) := by ring
      rw [e3]
      linarith
    have h3 := integral_mul_eq_zero hm h2
    have h4 := integral_parts X (toR (pp (k + 1)))
    have h5 := pp_moments (k + 1) 0 (by omega)
    rw [pow_zero] at h5
    rw [derivative_X, h5] at h4
    simp only [eval_X, hP1, zero_mul, one_mul, sub_zero] at h4
    have e : X * (f * derivative (toR (pp (k + 1)))) =
        C (f.eval 1) * (X * derivative (toR (pp (k + 1)))) + g * ((1 - X) * (X * derivative (toR (pp (k + 1))))) := by
      conv_lhs => rw [h1]
      ring
    rw [e, map_add, ← smul_eq_C_mul, map_smul, h3, h4]
    simp

/-! ## Polynomials that are not negative on [0, 1] -/

/-- Sums of squares with the weights 1, t, 1 - t, t (1 - t), of degree at most `d`. -/
inductive Cone : ℕ → ℝ[X] → Prop
  | zero (d : ℕ) : Cone d 0
  | cons {d : ℕ} (a b : ℕ) (f : ℝ[X]) {q : ℝ[X]} (ha : a ≤ 1) (hb : b ≤ 1) (hd : a + b + 2 * f.natDegree ≤ d) (hq : Cone d q) :
      Cone d (X ^ a * (1 - X) ^ b * f ^ 2 + q)

theorem Cone.add {d : ℕ} {p q : ℝ[X]} (hp : Cone d p) (hq : Cone d q) : Cone d (p + q) := by
  induction hp with
  | zero => rwa [zero_add]
  | cons a b f ha hb hd _ ih => rw [add_assoc]; exact Cone.cons a b f ha hb hd ih

theorem Cone.mono {d e : ℕ} {p : ℝ[X]} (h : d ≤ e) (hp : Cone d p) : Cone e p := by
  induction hp with
  | zero => exact .zero _
  | cons a b f ha hb hd _ ih => exact Cone.cons a b f ha hb (hd.trans h) ih

theorem Cone.square {d e : ℕ} {p : ℝ[X]} (g : ℝ[X]) (hg : 2 * g.natDegree + d ≤ e) (hp : Cone d p) : Cone e (g ^ 2 * p) := by
  induction hp with
  | zero => rw [mul_zero]; exact .zero _
  | cons a b f ha hb hd _ ih =>
    rw [show ∀ q, g ^ 2 * (X ^ a * (1 - X) ^ b * f ^ 2 + q) = X ^ a * (1 - X) ^ b * (g * f) ^ 2 + g ^ 2 * q from fun q => by ring]
    refine Cone.cons a b (g * f) ha hb ?_ ih
    have := natDegree_mul_le (p := g) (q := f)
    omega

theorem Cone.const {d : ℕ} {p : ℝ[X]} {c : ℝ} (hc : 0 ≤ c) (hp : Cone d p) : Cone d (C c * p) := by
  have := Cone.square (C (Real.sqrt c)) (e := d) (by simp) hp
  rwa [← C_pow, Real.sq_sqrt hc] at this

theorem Cone.mul_X {d : ℕ} {p : ℝ[X]} (hp : Cone d p) : Cone (d + 1) (X * p) := by
  induction hp with
  | zero => rw [mul_zero]; exact .zero _
  | cons a b f ha hb hd _ ih =>
    rcases Nat.le_one_iff_eq_zero_or_eq_one.mp ha with rfl | rfl
    · rw [show ∀ q, X * (X ^ 0 * (1 - X) ^ b * f ^ 2 + q) = X ^ 1 * (1 - X) ^ b * f ^ 2 + X * q from fun q => by ring]
      exact Cone.cons 1 b f le_rfl hb (by omega) ih
    · rw [show ∀ q, X * (X ^ 1 * (1 - X) ^ b * f ^ 2 + q) = X ^ 0 * (1 - X) ^ b * (X * f) ^ 2 + X * q from fun q => by ring]
      refine Cone.cons 0 b (X * f) (by omega) hb ?_ ih
      have := natDegree_mul_le (p := (X : ℝ[X])) (q := f)
      rw [natDegree_X] at this
      omega

theorem Cone.mul_one_sub_X {d : ℕ} {p : ℝ[X]} (hp : Cone d p) : Cone (d + 1) ((1 - X) * p) := by
  induction hp with
  | zero => rw [mul_zero]; exact .zero _
  | cons a b f ha hb hd _ ih =>
    rcases Nat.le_one_iff_eq_zero_or_eq_one.mp hb with rfl | rfl
    · rw [show ∀ q, (1 - X) * (X ^ a * (1 - X) ^ 0 * f ^ 2 + q) = X ^ a * (1 - X) ^ 1 * f ^ 2 + (1 - X) * q from fun q => by ring]
      exact Cone.cons a 1 f ha le_rfl (by omega) ih
    · rw [show ∀ q, (1 - X) * (X ^ a * (1 - X) ^ 1 * f ^ 2 + q) = X ^ a * (1 - X) ^ 0 * ((1 - X) * f) ^ 2 + (1 - X) * q from fun q => by ring]
      refine Cone.cons a 0 ((1 - X) * f) ha (by omega) ?_ ih
      have := natDegree_mul_le (p := (1 - X : ℝ[X])) (q := f)
      have h2 : (1 - X : ℝ[X]).natDegree ≤ 1 := by
        refine (natDegree_sub_le _ _).trans ?_
        simp
      omega

/-- A polynomial that is not negative on (0, 1) with at most one exception is not negative on [0, 1]. -/
theorem nonneg_closure {p : ℝ[X]} {r : ℝ} (h : ∀ t ∈ Set.Ioo (0 : ℝ) 1, t ≠ r → 0 ≤ p.eval t) : ∀ t ∈ Set.Icc (0 : ℝ) 1, 0 ≤ p.eval t := by
  intro t ht
  by_contra hneg
  rw [not_le] at hneg
  have hopen : IsOpen {x : ℝ | p.eval x < 0} := isOpen_lt p.continuous continuous_const
  obtain ⟨ε, hε, hball⟩ := Metric.isOpen_iff.mp hopen t hneg
  -- an interval next to t
  obtain ⟨a, b, hab, hsub⟩ : ∃ a b : ℝ, a < b ∧ Set.Ioo a b ⊆ Metric.ball t ε ∩ Set.Ioo 0 1 := by
    refine ⟨max 0 (t - ε), min 1 (t + ε), ?_, ?_⟩
    · rw [max_lt_iff, lt_min_iff, lt_min_iff]
      refine ⟨⟨one_pos, by linarith [ht.1]⟩, by linarith [ht.2], by linarith⟩
    · intro x hx
      rw [Set.mem_Ioo, max_lt_iff, lt_min_iff] at hx
      refine ⟨?_, hx.1.1, hx.2.1⟩
      rw [Metric.mem_ball, Real.dist_eq, abs_lt]
      constructor <;> linarith [hx.1.2, hx.2.2]
  obtain ⟨x, hx, hxr⟩ : ∃ x ∈ Set.Ioo a b, x ≠ r := by
    by_cases h1 : (a + b) / 2 = r
    · exact ⟨(3 * a + b) / 4, ⟨by linarith, by linarith⟩, fun h2 => by linarith⟩
    · exact ⟨(a + b) / 2, ⟨by linarith, by linarith⟩, h1⟩
  have h1 := hsub hx
  have h2 : p.eval x < 0 := hball h1.1
  exact absurd (h x h1.2 hxr) (not_le.mpr h2)

theorem cone_of_nonneg : ∀ (d : ℕ) (q : ℝ[X]), q.natDegree ≤ d → (∀ t ∈ Set.Icc (0 : ℝ) 1, 0 ≤ q.eval t) → Cone d q := by
  intro d
  induction d using Nat.strong_induction_on with
  | _ d ih =>
  intro q hd hq
  by_cases h0 : q.natDegree = 0
  · rw [eq_C_of_natDegree_eq_zero h0] at hq ⊢
    have hc : 0 ≤ q.coeff 0 := by simpa using hq 0 (by norm_num)
    have := Cone.cons (d := d) 0 0 (C (Real.sqrt (q.coeff 0))) (by omega) (by omega) (by simp) (.zero d)
    rw [← C_pow, Real.sq_sqrt hc] at this
    simpa using this
  have hqne : q ≠ 0 := fun h => h0 (by rw [h, natDegree_zero])
  obtain ⟨z, hz⟩ : ∃ z : ℂ, aeval z q = 0 := by
    apply IsAlgClosed.exists_aeval_eq_zero
    rw [degree_eq_natDegree hqne]
    exact_mod_cast h0
  by_cases hzi : z.im = 0
  · -- a real root
    have hr : q.IsRoot z.re := by
      have hz' : z = ((z.re : ℝ) : ℂ) := Complex.ext (by simp) (by simp [hzi])
      rw [hz'] at hz
      have : aeval ((z.re : ℝ) : ℂ) q = ((q.eval z.re : ℝ) : ℂ) := aeval_algebraMap_apply_eq_algebraMap_eval (A := ℂ) z.re q
      rw [this] at hz
      exact_mod_cast hz
    generalize z.re = r at hr
    obtain ⟨s, hs⟩ := dvd_iff_isRoot.mpr hr
    have hsne : s ≠ 0 := fun h => hqne (by rw [hs, h, mul_zero])
    have hsd : s.natDegree + 1 = q.natDegree := by
      rw [hs, natDegree_mul (X_sub_C_ne_zero r) hsne, natDegree_X_sub_C]
      ring
    have hval : ∀ t, q.eval t = (t - r) * s.eval t := by
      intro t
      rw [hs]
      simp
    by_cases hr0 : r ≤ 0
    · have hsn : ∀ t ∈ Set.Icc (0 : ℝ) 1, 0 ≤ s.eval t := by
        apply nonneg_closure (r := 0)
        intro t ht _
        have h1 := hq t ⟨ht.1.le, ht.2.le⟩
        rw [hval] at h1
        exact nonneg_of_mul_nonneg_right h1 (by linarith [ht.1])
      have hc := ih (d - 1) (by omega) s (by omega) hsn
      have h1 := hc.mul_X
      have h2 := Cone.const (neg_nonneg.mpr hr0) (hc.mono (e := d - 1 + 1) (by omega))
      have h3 := h1.add h2
      rw [show d - 1 + 1 = d by omega] at h3
      rw [hs, show (X - C r) * s = X * s + C (-r) * s by rw [C_neg]; ring]
      exact h3
    by_cases hr1 : 1 ≤ r
    · have hsn : ∀ t ∈ Set.Icc (0 : ℝ) 1, 0 ≤ (-s).eval t := by
        apply nonneg_closure (r := 0)
        intro t ht _
        have h1 := hq t ⟨ht.1.le, ht.2.le⟩
        rw [hval] at h1
        rw [eval_neg]
        have h2 : 0 ≤ (r - t) * (-s.eval t) := by linarith
        exact nonneg_of_mul_nonneg_right h2 (by linarith [ht.2])
      have hc := ih (d - 1) (by omega) (-s) (by rw [natDegree_neg]; omega) hsn
      have h1 := hc.mul_one_sub_X
      have h2 := Cone.const (sub_nonneg.mpr hr1) (hc.mono (e := d - 1 + 1) (by omega))
      have h3 := h1.add h2
      rw [show d - 1 + 1 = d by omega] at h3
      rw [hs, show (X - C r) * s = (1 - X) * -s + C (r - 1) * -s by rw [C_sub, C_1]; ring]
      exact h3
    · rw [not_le] at hr0 hr1
      -- a double root inside
      have hs0 : s.eval r = 0 := by
        have hpos : 0 ≤ s.eval r := by
          by_contra hneg
          rw [not_le] at hneg
          have hopen : IsOpen {x : ℝ | s.eval x < 0} := isOpen_lt s.continuous continuous_const
          obtain ⟨ε, hε, hball⟩ := Metric.isOpen_iff.mp hopen r hneg
          obtain ⟨x, hx1, hx2, hx3⟩ : ∃ x, r < x ∧ x < r + ε ∧ x < 1 := by
            obtain ⟨x, h1, h2⟩ := exists_between (show r < min (r + ε) 1 from lt_min (by linarith) hr1)
            exact ⟨x, h1, (lt_min_iff.mp h2).1, (lt_min_iff.mp h2).2⟩
          have h1 : s.eval x < 0 := hball (by rw [Metric.mem_ball, Real.dist_eq, abs_lt]; constructor <;> linarith)
          have h2 := hq x ⟨by linarith, hx3.le⟩
          rw [hval] at h2
          nlinarith
        have hneg : s.eval r ≤ 0 := by
          by_contra hpos
          rw [not_le] at hpos
          have hopen : IsOpen {x : ℝ | 0 < s.eval x} := isOpen_lt continuous_const s.continuous
          obtain ⟨ε, hε, hball⟩ := Metric.isOpen_iff.mp hopen r hpos
          obtain ⟨x, hx1, hx2, hx3⟩ : ∃ x, x < r ∧ r - ε < x ∧ 0 < x := by
            obtain ⟨x, h1, h2⟩ := exists_between (show max (r - ε) 0 < r from max_lt (by linarith) hr0)
            exact ⟨x, h2, (max_lt_iff.mp h1).1, (max_lt_iff.mp h1).2⟩
          have h1 : 0 < s.eval x := hball (by rw [Metric.mem_ball, Real.dist_eq, abs_lt]; constructor <;> linarith)
          have h2 := hq x ⟨hx3.le, by linarith⟩
          rw [hval] at h2
          nlinarith
        exact le_antisymm hneg hpos
      obtain ⟨u, hu⟩ := dvd_iff_isRoot.mpr (show s.IsRoot r from hs0)
      have hune : u ≠ 0 := fun h => hsne (by rw [hu, h, mul_zero])
      have hud : u.natDegree + 1 = s.natDegree := by
        rw [hu, natDegree_mul (X_sub_C_ne_zero r) hune, natDegree_X_sub_C]
        ring
      have hun : ∀ t ∈ Set.Icc (0 : ℝ) 1, 0 ≤ u.eval t := by
        apply nonneg_closure (r := r)
        intro t ht htr
        have h1 := hq t ⟨ht.1.le, ht.2.le⟩
        rw [hval, hu] at h1
        simp only [eval_mul, eval_sub, eval_X, eval_C] at h1
        have h2 : 0 < (t - r) ^ 2 := by
          have := sub_ne_zero.mpr htr
          positivity
        have h3 : 0 ≤ (t - r) ^ 2 * u.eval t := by linarith
        exact nonneg_of_mul_nonneg_right h3 h2
      have hc := ih (d - 2) (by omega) u (by omega) hun
      have := Cone.square (X - C r) (e := d) (by rw [natDegree_X_sub_C]; omega) hc
      rw [hs, hu, ← mul_assoc, ← sq]
      exact this
  · -- a pair of complex roots
    obtain ⟨s, hs⟩ := quadratic_dvd_of_aeval_eq_zero_im_ne_zero q hz hzi
    have hquad : X ^ 2 - C (2 * z.re) * X + C (‖z‖ ^ 2) = (X - C z.re) ^ 2 + C (z.im ^ 2) := by
      have : ‖z‖ ^ 2 = z.re ^ 2 + z.im ^ 2 := by
        rw [← Complex.normSq_eq_norm_sq, Complex.normSq_apply]
        ring
      rw [this]
      simp only [map_mul, map_add, map_pow, map_ofNat]
      ring
    rw [hquad] at hs
    have hsne : s ≠ 0 := fun h => hqne (by rw [hs, h, mul_zero])
    have hdeg : ((X - C z.re) ^ 2 + C (z.im ^ 2)).natDegree = 2 := by
      rw [natDegree_add_C, natDegree_pow, natDegree_X_sub_C]
    have hne : ((X - C z.re) ^ 2 + C (z.im ^ 2)) ≠ 0 := by
      intro h
      rw [h, natDegree_zero] at hdeg
      omega
    have hsd : s.natDegree + 2 = q.natDegree := by
      rw [hs, natDegree_mul hne hsne, hdeg]
      ring
    have hsn : ∀ t ∈ Set.Icc (0 : ℝ) 1, 0 ≤ s.eval t := by
      intro t ht
      have h1 := hq t ht
      rw [hs] at h1
      simp only [eval_mul, eval_add, eval_pow, eval_sub, eval_X, eval_C] at h1
      exact nonneg_of_mul_nonneg_right h1 (by positivity)
    have hc := ih (d - 2) (by omega) s (by omega) hsn
    have h1 := Cone.square (X - C z.re) (e := d) (by rw [natDegree_X_sub_C]; omega) hc
    have h2 := Cone.square (C z.im) (e := d) (by rw [natDegree_C]; omega) hc
    rw [hs, add_mul, C_pow]
    exact h1.add h2

/-- The value at 1 is bounded by the integral. -/
theorem cone_bound {N : ℕ} (hN : N ≠ 0) {q : ℝ[X]} (hq : Cone (N - 1) q) : q.eval 1 ≤ ((slope N).eval 1 : ℤ) * integral q := by
  -- less weight, less integral
  have less : ∀ f : ℝ[X], integral (X * f ^ 2) ≤ integral (f ^ 2) ∧ integral ((X * f) ^ 2) ≤ integral (X * f ^ 2) := by
    intro f
    constructor
    · have := integral_nonneg (f := f ^ 2 - X * f ^ 2) (fun t ht => by
        simp only [eval_sub, eval_pow, eval_mul, eval_X]
        nlinarith [ht.2, sq_nonneg (f.eval t)])
      rw [map_sub] at this
      linarith
    · have := integral_nonneg (f := X * f ^ 2 - (X * f) ^ 2) (fun t ht => by
        simp only [eval_sub, eval_pow, eval_mul, eval_X]
        have h1 : 0 ≤ t * (1 - t) := mul_nonneg ht.1 (by linarith [ht.2])
        nlinarith [mul_nonneg h1 (sq_nonneg (f.eval t))])
      rw [map_sub] at this
      linarith
  have hs : (0 : ℝ) ≤ ((slope N).eval 1 : ℤ) := by
    have := aeval_slope_nonneg N zero_le_one
    rwa [aeval_def, eval₂_eq_eval_map, show ((slope N).map (algebraMap ℤ ℝ)) = toR (slope N) from rfl, toR_eval_one] at this
  induction hq with
  | zero => simp
  | @cons a b f q ha hb hd _ ih =>
    rw [eval_add, map_add, mul_add]
    refine add_le_add ?_ ih
    rcases Nat.le_one_iff_eq_zero_or_eq_one.mp hb with rfl | rfl
    · rw [pow_zero, mul_one]
      have hv : (X ^ a * f ^ 2 : ℝ[X]).eval 1 = f.eval 1 ^ 2 := by simp
      rw [hv]
      unfold slope order
      split
      · rename_i hodd
        rw [eval_pow, pa_eval_one]
        generalize hk : (N - 1) / 2 = k
        push_cast
        rcases Nat.le_one_iff_eq_zero_or_eq_one.mp ha with rfl | rfl
        · rw [pow_zero, one_mul]
          exact odd_bound k (by omega)
        · rw [pow_one]
          have h1 := odd_bound k (f := X * f) (by
            have := natDegree_mul_le (p := (X : ℝ[X])) (q := f)
            rw [natDegree_X] at this
            omega)
          rw [eval_mul, eval_X, one_mul] at h1
          exact h1.trans (mul_le_mul_of_nonneg_left (less f).2 (by positivity))
      · rename_i heven
        have hpd : ∀ m, (pd m).eval 1 = 1 := by
          intro m
          have h1 := congrArg (eval 1) (pp_ode (m + 1))
          have h2 := congrArg (eval 1) (pd_deriv m)
          simp only [derivative_mul, derivative_X, derivative_sub, derivative_one, eval_mul, eval_add, eval_sub, eval_neg, eval_X, eval_one,
            eval_zero, eval_natCast, eval_ofNat, pp_eval_one] at h1 h2
          have h3 : ((m : ℤ) + 1) * (m + 2) ≠ 0 := by positivity
          apply mul_left_cancel₀ h3
          push_cast at h1
          linear_combination -h1 - h2
        simp only [eval_mul, eval_add, eval_natCast, eval_ofNat, eval_one, eval_X, eval_pow, hpd]
        generalize hk : (N - 2) / 2 = k
        push_cast
        simp only [mul_one, one_pow]
        have h1 := even_bound k (f := f) (by omega)
        rcases Nat.le_one_iff_eq_zero_or_eq_one.mp ha with rfl | rfl
        · rw [pow_zero, one_mul]
          exact h1.trans (mul_le_mul_of_nonneg_left (less f).1 (by positivity))
        · rwa [pow_one]
    · have hv : (X ^ a * (1 - X) ^ 1 * f ^ 2 : ℝ[X]).eval 1 = 0 := by simp
      rw [hv]
      apply mul_nonneg hs
      apply integral_nonneg
      intro t ht
      simp only [eval_mul, eval_pow, eval_X, eval_sub, eval_one]
      have h1 := ht.1
      have h2 : 0 ≤ 1 - t := by linarith [ht.2]
      positivity

/-- C121.  Of all polynomials in the square of the frequency, of degree at most `N`, that vanish at 0, are 1 at the cut-off 1 and grow
from 0 to 1, that of `optimum_poly(N)` is the steepest at the cut-off. -/
theorem C121_steepest {N : ℕ} (hN : N ≠ 0) {Q : ℝ[X]} (hd : Q.natDegree ≤ N) (h0 : Q.eval 0 = 0) (h1 : Q.eval 1 = 1)
    (hm : MonotoneOn (fun w : ℝ => Q.eval (w ^ 2)) (Set.Icc 0 1)) :
    deriv (fun w : ℝ => Q.eval (w ^ 2)) 1 ≤ deriv (fun w : ℝ => polyval (optimum_poly N) w) 1 := by
  have hsq : ∀ w : ℝ, HasDerivAt (fun w : ℝ => w ^ 2) (2 * w) w := by
    intro w
    simpa using hasDerivAt_pow 2 w
  have hQ : HasDerivAt (fun w : ℝ => Q.eval (w ^ 2)) ((derivative Q).eval 1 * 2) 1 := by
    have h := (Q.hasDerivAt ((1 : ℝ) ^ 2)).comp (1 : ℝ) (hsq 1)
    rw [one_pow, mul_one] at h
    exact h
  have hL : HasDerivAt (fun w : ℝ => polyval (optimum_poly N) w) (((slope N).eval 1 : ℤ) * 2) 1 := by
    have h := (closed_hasDeriv N ((1 : ℝ) ^ 2)).comp (1 : ℝ) (hsq 1)
    have e : (fun w : ℝ => polyval (optimum_poly N) w) = (fun t : ℝ => aeval t (closed N)) ∘ fun w : ℝ => w ^ 2 := by
      funext w
      exact polyval_optimum hN w
    rw [e]
    rw [one_pow, mul_one, aeval_def, eval₂_eq_eval_map, show ((slope N).map (algebraMap ℤ ℝ)) = toR (slope N) from rfl, toR_eval_one] at h
    exact h
  rw [hQ.deriv, hL.deriv]
  have hmono : MonotoneOn (fun t : ℝ => Q.eval t) (Set.Icc 0 1) := by
    intro a ha b hb hab
    have h := hm (a := Real.sqrt a) ⟨Real.sqrt_nonneg a, Real.sqrt_le_one.mpr ha.2⟩ (b := Real.sqrt b)
      ⟨Real.sqrt_nonneg b, Real.sqrt_le_one.mpr hb.2⟩ (Real.sqrt_le_sqrt hab)
    simpa only [Real.sq_sqrt ha.1, Real.sq_sqrt hb.1] using h
  have hpos : ∀ t ∈ Set.Icc (0 : ℝ) 1, 0 ≤ (derivative Q).eval t := by
    apply nonneg_closure (r := 2)
    intro t ht _
    have hnhds : Set.Icc (0 : ℝ) 1 ∈ nhds t := Icc_mem_nhds ht.1 ht.2
    have h := hmono.derivWithin_nonneg (x := t)
    rw [derivWithin_of_mem_nhds hnhds, Q.deriv] at h
    exact h
  have hc := cone_of_nonneg (N - 1) (derivative Q) ((natDegree_derivative_le Q).trans (by omega)) hpos
  have hb := cone_bound hN hc
  rw [integral_derivative, h0, h1, sub_zero, mul_one] at hb
  linarith

/-- The polynomials `w^(2 N)` of the Butterworth filters are among them. -/
example : (X ^ 4 : ℝ[X]).natDegree ≤ 4 ∧ (X ^ 4 : ℝ[X]).eval 0 = 0 ∧ (X ^ 4 : ℝ[X]).eval 1 = 1 ∧
    MonotoneOn (fun w : ℝ => (X ^ 4 : ℝ[X]).eval (w ^ 2)) (Set.Icc 0 1) := by
  refine ⟨by simp, by simp, by simp, ?_⟩
  intro a ha b hb hab
  simp only [eval_pow, eval_X]
  have := ha.1
  gcongr

end Lgd
