import Mathlib.Algebra.Polynomial.Derivative
import Mathlib.Algebra.Polynomial.Degree.Lemmas
import Mathlib.Algebra.Polynomial.AlgebraMap
import Mathlib.Data.Nat.Choose.Sum
import Mathlib.Data.Nat.Choose.Cast
import Mathlib.Tactic.FieldSimp
import Mathlib.Tactic.Ring
import Mathlib.Tactic.LinearCombination

/-!
# Legendre polynomials on [0, 1] and the sums of the "optimum" filter in closed form

`pp n` is the Legendre polynomial of degree `n` at `2 t - 1`, `pa k` and `pb k` are the Jacobi polynomials with the parameters (1, 0) and
(0, 1), `pd m` is the derivative of `pp (m + 1)` over `(m + 1) (m + 2)`.  All have integer coefficients.
-/

namespace Lgd
open Polynomial Nat

/-- The polynomial with the coefficients `f 0, …, f n`. -/
noncomputable def ofFun (n : ℕ) (f : ℕ → ℤ) : ℤ[X] := ∑ j ∈ Finset.range (n + 1), monomial j (f j)

theorem coeff_ofFun {n : ℕ} {f : ℕ → ℤ} (h : ∀ j, n < j → f j = 0) (j : ℕ) : (ofFun n f).coeff j = f j := by
  unfold ofFun
  rw [finset_sum_coeff]
  simp only [coeff_monomial, Finset.sum_ite_eq', Finset.mem_range]
  by_cases hj : j < n + 1
  · rw [if_pos hj]
  · rw [if_neg hj, h j (by omega)]

def cp (n j : ℕ) : ℤ := (-1) ^ (n + j) * (n.choose j * (n + j).choose j : ℕ)
def ca (k j : ℕ) : ℤ := (-1) ^ (k + j) * (k.choose j * (k + 1 + j).choose j : ℕ)
def cb (k j : ℕ) : ℤ := (-1) ^ (k + j) * ((k + 1).choose (j + 1) * (k + 1 + j).choose j : ℕ)
/-- The coefficients of the derivative of `pp (m + 1)` over `(m + 1) (m + 2)`. -/
def cd (m j : ℕ) : ℤ := (-1) ^ (m + j) * ((m.choose j * (m + 2 + j).choose (j + 1) : ℕ) - ((m + 1).choose (j + 1) * (m + 2 + j).choose j : ℕ))

noncomputable def pp (n : ℕ) : ℤ[X] := ofFun n (cp n)
noncomputable def pa (k : ℕ) : ℤ[X] := ofFun k (ca k)
noncomputable def pb (k : ℕ) : ℤ[X] := ofFun k (cb k)
noncomputable def pd (m : ℕ) : ℤ[X] := ofFun m (cd m)

theorem coeff_pp (n j : ℕ) : (pp n).coeff j = cp n j :=
  coeff_ofFun (fun j h => by unfold cp; rw [choose_eq_zero_of_lt h]; simp) j

theorem coeff_pa (n j : ℕ) : (pa n).coeff j = ca n j :=
  coeff_ofFun (fun j h => by unfold ca; rw [choose_eq_zero_of_lt h]; simp) j

theorem coeff_pb (n j : ℕ) : (pb n).coeff j = cb n j :=
  coeff_ofFun (fun j h => by unfold cb; rw [choose_eq_zero_of_lt (by omega : n + 1 < j + 1)]; simp) j

/-! ## Values of the coefficients -/

theorem cp_of_lt {n j : ℕ} (h : n < j) : cp n j = 0 := by unfold cp; rw [choose_eq_zero_of_lt h]; simp
theorem ca_of_lt {n j : ℕ} (h : n < j) : ca n j = 0 := by unfold ca; rw [choose_eq_zero_of_lt h]; simp
theorem cb_of_lt {n j : ℕ} (h : n < j) : cb n j = 0 := by
  unfold cb; rw [choose_eq_zero_of_lt (by omega : n + 1 < j + 1)]; simp

theorem sign_eq (m j : ℕ) : ((-1 : ℤ)) ^ (j + m + j) = (-1) ^ m := by
  rw [show j + m + j = m + 2 * j by ring, pow_add, pow_mul]; simp

theorem cp_eq (m j : ℕ) : (cp (j + m) j : ℚ) = (-1) ^ m * ((2 * j + m)! / (m ! * j ! * j !)) := by
  unfold cp
  rw [sign_eq]
  push_cast
  rw [cast_add_choose, show j + m + j = j + (j + m) by ring, cast_add_choose, show j + (j + m) = 2 * j + m by ring]
  have h1 : ((j + m)! : ℚ) ≠ 0 := by positivity
  have h2 : (j ! : ℚ) ≠ 0 := by positivity
  have h3 : (m ! : ℚ) ≠ 0 := by positivity
  field_simp

theorem ca_eq (m j : ℕ) : (ca (j + m) j : ℚ) = (-1) ^ m * ((2 * j + m + 1)! / (m ! * j ! * j !) / (j + m + 1)) := by
  unfold ca
  rw [sign_eq]
  push_cast
  rw [cast_add_choose, show j + m + 1 + j = j + (j + m + 1) by ring, cast_add_choose, show j + (j + m + 1) = 2 * j + m + 1 by ring,
    factorial_succ (j + m)]
  have h1 : ((j + m)! : ℚ) ≠ 0 := by positivity
  have h2 : (j ! : ℚ) ≠ 0 := by positivity
  have h3 : (m ! : ℚ) ≠ 0 := by positivity
  have h4 : (j + m + 1 : ℚ) ≠ 0 := by positivity
  push_cast
  field_simp

theorem cb_mul (k j : ℕ) : ((j : ℤ) + 1) * cb k j = (k + 1) * ca k j := by
  unfold cb ca
  have := add_one_mul_choose_eq k j
  have h : (((k + 1).choose (j + 1) * (k + 1 + j).choose j : ℕ) : ℤ) * (j + 1) = (k + 1) * (k.choose j * (k + 1 + j).choose j : ℕ) := by
    have : ((k + 1).choose (j + 1) * (k + 1 + j).choose j) * (j + 1) = (k + 1) * (k.choose j * (k + 1 + j).choose j) := by
      rw [← mul_assoc, this]
      ring
    exact_mod_cast this
  linear_combination (-1) ^ (k + j) * h

/-- The step of the coefficients of `pa`. -/
theorem ca_step (k j : ℕ) : ((j : ℤ) + 1) ^ 2 * ca k (j + 1) = ((j + 1) ^ 2 - (k + 1) ^ 2) * ca k j := by
  rcases lt_trichotomy k j with h | h | h
  · rw [ca_of_lt h, ca_of_lt (by omega)]; simp
  · subst h
    rw [ca_of_lt (by omega : k < k + 1)]; ring
  · obtain ⟨m, rfl⟩ : ∃ m, k = j + 1 + m := ⟨k - (j + 1), by omega⟩
    have e1 := ca_eq m (j + 1)
    have e2 := ca_eq (m + 1) j
    rw [show j + (m + 1) = j + 1 + m by ring] at e2
    have : ((((j : ℤ) + 1) ^ 2 * ca (j + 1 + m) (j + 1) : ℤ) : ℚ) = (((j + 1) ^ 2 - ((j + 1 + m : ℕ) + 1) ^ 2) * ca (j + 1 + m) j : ℤ) := by
      push_cast
      rw [e1, e2, show 2 * (j + 1) + m + 1 = (2 * j + (m + 1) + 1) + 1 by ring, factorial_succ (2 * j + (m + 1) + 1), factorial_succ m,
        factorial_succ j]
      have h2 : (j ! : ℚ) ≠ 0 := by positivity
      have h3 : (m ! : ℚ) ≠ 0 := by positivity
      have h4 : (j + 1 + m + 1 : ℚ) ≠ 0 := by positivity
      have h5 : (j + (m + 1) + 1 : ℚ) ≠ 0 := by positivity
      have h6 : (j + 1 : ℚ) ≠ 0 := by positivity
      have h7 : (m + 1 : ℚ) ≠ 0 := by positivity
      push_cast
      generalize ((2 * j + (m + 1) + 1)! : ℚ) = F
      field_simp
      ring
    exact_mod_cast this

/-- The step of the coefficients of `pp`: Legendre's differential equation. -/
theorem cp_step (n j : ℕ) : ((j : ℤ) + 1) ^ 2 * cp n (j + 1) = (j * (j + 1) - n * (n + 1)) * cp n j := by
  rcases lt_trichotomy n j with h | h | h
  · rw [cp_of_lt h, cp_of_lt (by omega)]; simp
  · subst h
    rw [cp_of_lt (by omega : n < n + 1)]; ring
  · obtain ⟨m, rfl⟩ : ∃ m, n = j + 1 + m := ⟨n - (j + 1), by omega⟩
    have e1 := cp_eq m (j + 1)
    have e2 := cp_eq (m + 1) j
    rw [show j + (m + 1) = j + 1 + m by ring] at e2
    have : ((((j : ℤ) + 1) ^ 2 * cp (j + 1 + m) (j + 1) : ℤ) : ℚ) =
        (((j : ℤ) * (j + 1) - (j + 1 + m : ℕ) * ((j + 1 + m : ℕ) + 1)) * cp (j + 1 + m) j : ℤ) := by
      push_cast
      rw [e1, e2, show 2 * (j + 1) + m = (2 * j + (m + 1)) + 1 by ring, factorial_succ (2 * j + (m + 1)), factorial_succ m,
        factorial_succ j]
      have h2 : (j ! : ℚ) ≠ 0 := by positivity
      have h3 : (m ! : ℚ) ≠ 0 := by positivity
      have h6 : (j + 1 : ℚ) ≠ 0 := by positivity
      have h7 : (m + 1 : ℚ) ≠ 0 := by positivity
      push_cast
      generalize ((2 * j + (m + 1))! : ℚ) = F
      field_simp
      ring
    exact_mod_cast this

/-- The sums of `(2 i + 1) P_i`. -/
theorem ca_sum (k j : ℕ) : ((k : ℤ) + 2) * ca (k + 1) j - (k + 1) * ca k j = (2 * k + 3) * cp (k + 1) j := by
  have h1 : ((k + 2) * (k + 1 + 1 + j).choose j : ℤ) = (k + 2 + j) * (k + 1 + j).choose j := by
    have := add_one_mul_choose_eq (k + 1 + j) (k + 1)
    have e1 : (k + 1 + j).choose (k + 1) = (k + 1 + j).choose j := by
      rw [← choose_symm (by omega : k + 1 ≤ k + 1 + j)]; congr 1; omega
    have e2 : (k + 1 + j + 1).choose (k + 1 + 1) = (k + 1 + 1 + j).choose j := by
      rw [← choose_symm (by omega : k + 1 + 1 ≤ k + 1 + j + 1)]
      congr 1 <;> omega
    rw [e1, e2] at this
    have h : ((k + 1 + j + 1) * (k + 1 + j).choose j : ℤ) = (k + 1 + 1 + j).choose j * (k + 1 + 1) := by exact_mod_cast this
    push_cast at h
    linear_combination -h
  have h2 : ((k + 1) * k.choose j : ℤ) = (k + 1 - j) * (k + 1).choose j := by
    have := choose_mul_succ_eq k j
    by_cases hj : j ≤ k + 1
    · have h : (k.choose j * (k + 1) : ℤ) = (k + 1).choose j * ((k + 1 - j : ℕ) : ℤ) := by exact_mod_cast this
      rw [Nat.cast_sub hj] at h
      push_cast at h
      linear_combination h
    · rw [choose_eq_zero_of_lt (by omega), choose_eq_zero_of_lt (by omega)]; simp
  unfold ca cp
  push_cast
  rw [show k + 1 + j = (k + j) + 1 by ring, pow_succ]
  rw [show k + 1 + j = (k + j) + 1 by ring] at h1
  generalize ((-1 : ℤ) ^ (k + j)) = s
  generalize ((k + j + 1).choose j : ℤ) = y at *
  generalize ((k + 1 + 1 + j).choose j : ℤ) = w at *
  linear_combination (-s * (k + 1).choose j) * h1 - s * y * h2

/-- The derivative of `P_(n + 2) - P_n` is `(2 n + 3) P_(n + 1)`, doubled in `t`. -/
theorem cp_diff (n j : ℕ) : ((j : ℤ) + 1) * (cp (n + 2) (j + 1) - cp n (j + 1)) = 2 * (2 * n + 3) * cp (n + 1) j := by
  rcases lt_trichotomy (n + 1) j with h | h | h
  · rw [cp_of_lt h, cp_of_lt (by omega), cp_of_lt (by omega)]; simp
  · subst h
    rw [cp_of_lt (by omega : n < n + 1 + 1)]
    have e1 := cp_eq 0 (n + 2)
    have e2 := cp_eq 0 (n + 1)
    have : ((((n + 1 : ℕ) : ℤ) + 1) * (cp (n + 2) (n + 1 + 1) - 0) : ℤ) = ((2 * (2 * n + 3) * cp (n + 1) (n + 1) : ℤ) : ℚ) := by
      push_cast
      rw [show n + 2 + 0 = n + 2 by ring] at e1
      rw [show n + 1 + 0 = n + 1 by ring] at e2
      rw [show n + 1 + 1 = n + 2 by ring, e1, e2, show 2 * (n + 2) + 0 = 2 * (n + 1) + 0 + 1 + 1 by ring,
        factorial_succ (2 * (n + 1) + 0 + 1), factorial_succ (2 * (n + 1) + 0), factorial_succ (n + 1)]
      have h2 : ((n + 1)! : ℚ) ≠ 0 := by positivity
      have h6 : (n + 1 + 1 : ℚ) ≠ 0 := by positivity
      push_cast
      generalize ((2 * (n + 1) + 0)! : ℚ) = F
      field_simp
      simp only [factorial]
      push_cast
      ring
    exact_mod_cast this
  · by_cases hj : j = n
    · subst hj
      rw [cp_of_lt (by omega : j < j + 1)]
      have e1 := cp_eq 1 (j + 1)
      have e2 := cp_eq 1 j
      have : (((j : ℤ) + 1) * (cp (j + 2) (j + 1) - 0) : ℤ) = ((2 * (2 * j + 3) * cp (j + 1) j : ℤ) : ℚ) := by
        push_cast
        rw [show j + 2 = j + 1 + 1 by ring, e1, e2, show 2 * (j + 1) + 1 = 2 * j + 1 + 1 + 1 by ring,
          factorial_succ (2 * j + 1 + 1), factorial_succ (2 * j + 1), factorial_succ j]
        have h2 : (j ! : ℚ) ≠ 0 := by positivity
        have h6 : (j + 1 : ℚ) ≠ 0 := by positivity
        push_cast
        generalize ((2 * j + 1)! : ℚ) = F
        field_simp
        ring
      exact_mod_cast this
    · obtain ⟨m, rfl⟩ : ∃ m, n = j + 1 + m := ⟨n - (j + 1), by omega⟩
      have e1 := cp_eq (m + 2) (j + 1)
      have e2 := cp_eq m (j + 1)
      have e3 := cp_eq (m + 2) j
      have : ((((j : ℤ) + 1) * (cp (j + 1 + m + 2) (j + 1) - cp (j + 1 + m) (j + 1)) : ℤ) : ℚ) =
          ((2 * (2 * (j + 1 + m : ℕ) + 3) * cp (j + 1 + m + 1) j : ℤ) : ℚ) := by
        push_cast
        rw [show j + 1 + m + 2 = j + 1 + (m + 2) by ring, show j + 1 + m + 1 = j + (m + 2) by ring, e1, e2, e3,
          show 2 * (j + 1) + (m + 2) = 2 * j + (m + 2) + 1 + 1 by ring, show 2 * (j + 1) + m = 2 * j + (m + 2) by ring,
          factorial_succ (2 * j + (m + 2) + 1), factorial_succ (2 * j + (m + 2)), factorial_succ j, factorial_succ (m + 1), factorial_succ m]
        have h2 : (j ! : ℚ) ≠ 0 := by positivity
        have h3 : (m ! : ℚ) ≠ 0 := by positivity
        have h6 : (j + 1 : ℚ) ≠ 0 := by positivity
        have h7 : (m + 1 : ℚ) ≠ 0 := by positivity
        have h8 : (m + 1 + 1 : ℚ) ≠ 0 := by positivity
        push_cast
        generalize ((2 * j + (m + 2))! : ℚ) = F
        field_simp
        ring
      exact_mod_cast this

/-- Bonnet's recursion at `2 t - 1`. -/
theorem cp_bonnet (n j : ℕ) :
    ((n : ℤ) + 2) * cp (n + 2) (j + 1) = (2 * n + 3) * (2 * cp (n + 1) j - cp (n + 1) (j + 1)) - (n + 1) * cp n (j + 1) := by
  rcases lt_trichotomy (n + 1) j with h | h | h
  · rw [cp_of_lt (by omega : n + 2 < j + 1), cp_of_lt h, cp_of_lt (by omega : n + 1 < j + 1), cp_of_lt (by omega : n < j + 1)]; simp
  · subst h
    rw [cp_of_lt (by omega : n < n + 1 + 1), cp_of_lt (by omega : n + 1 < n + 1 + 1)]
    have := cp_diff n (n + 1)
    rw [cp_of_lt (by omega : n < n + 1 + 1)] at this
    push_cast at this
    linear_combination this
  · by_cases hj : j = n
    · subst hj
      rw [cp_of_lt (by omega : j < j + 1)]
      have e1 := cp_eq 1 (j + 1)
      have e2 := cp_eq 1 j
      have e3 := cp_eq 0 (j + 1)
      have : (((j : ℤ) + 2) * cp (j + 2) (j + 1) : ℤ) =
          (((2 * j + 3) * (2 * cp (j + 1) j - cp (j + 1) (j + 1)) - (j + 1) * 0 : ℤ) : ℚ) := by
        push_cast
        rw [show j + 1 + 0 = j + 1 by ring] at e3
        rw [show j + 2 = j + 1 + 1 by ring, e1, e2, e3, show 2 * (j + 1) + 1 = 2 * j + 1 + 1 + 1 by ring,
          show 2 * (j + 1) + 0 = 2 * j + 1 + 1 by ring,
          factorial_succ (2 * j + 1 + 1), factorial_succ (2 * j + 1), factorial_succ j]
        have h2 : (j ! : ℚ) ≠ 0 := by positivity
        have h6 : (j + 1 : ℚ) ≠ 0 := by positivity
        push_cast
        generalize ((2 * j + 1)! : ℚ) = F
        simp only [factorial]
        push_cast
        field_simp
        ring
      exact_mod_cast this
    · obtain ⟨m, rfl⟩ : ∃ m, n = j + 1 + m := ⟨n - (j + 1), by omega⟩
      have e1 := cp_eq (m + 2) (j + 1)
      have e2 := cp_eq m (j + 1)
      have e3 := cp_eq (m + 2) j
      have e4 := cp_eq (m + 1) (j + 1)
      have : ((((j + 1 + m : ℕ) : ℤ) + 2) * cp (j + 1 + m + 2) (j + 1) : ℤ) =
          (((2 * (j + 1 + m : ℕ) + 3) * (2 * cp (j + 1 + m + 1) j - cp (j + 1 + m + 1) (j + 1)) -
            ((j + 1 + m : ℕ) + 1) * cp (j + 1 + m) (j + 1) : ℤ) : ℚ) := by
        push_cast
        rw [show j + 1 + m + 1 = j + 1 + (m + 1) by ring, e4, show j + 1 + m + 2 = j + 1 + (m + 2) by ring,
          show j + 1 + (m + 1) = j + (m + 2) by ring, e1, e2, e3,
          show 2 * (j + 1) + (m + 2) = 2 * j + (m + 2) + 1 + 1 by ring, show 2 * (j + 1) + (m + 1) = 2 * j + (m + 2) + 1 by ring,
          show 2 * (j + 1) + m = 2 * j + (m + 2) by ring,
          factorial_succ (2 * j + (m + 2) + 1), factorial_succ (2 * j + (m + 2)), factorial_succ j, factorial_succ (m + 1), factorial_succ m]
        have h2 : (j ! : ℚ) ≠ 0 := by positivity
        have h3 : (m ! : ℚ) ≠ 0 := by positivity
        have h6 : (j + 1 : ℚ) ≠ 0 := by positivity
        have h7 : (m + 1 : ℚ) ≠ 0 := by positivity
        have h8 : (m + 1 + 1 : ℚ) ≠ 0 := by positivity
        push_cast
        generalize ((2 * j + (m + 2))! : ℚ) = F
        field_simp
        ring
      exact_mod_cast this

theorem cp_zero (n : ℕ) : cp n 0 = (-1) ^ n := by simp [cp]

theorem cd_mul (m j : ℕ) : ((m : ℤ) + 1) * (m + 2) * cd m j = (j + 1) * cp (m + 1) (j + 1) := by
  have h1 : ((m : ℤ) + 1) * m.choose j = (m + 1).choose (j + 1) * (j + 1) := by exact_mod_cast add_one_mul_choose_eq m j
  have h2 : ((m + 2 + j).choose (j + 1) : ℤ) * (j + 1) = (m + 2 + j).choose j * (m + 2) := by
    have := choose_succ_right_eq (m + 2 + j) j
    rw [show m + 2 + j - j = m + 2 by omega] at this
    exact_mod_cast this
  unfold cd cp
  rw [show m + 1 + (j + 1) = m + 2 + j by ring, show (-1 : ℤ) ^ (m + 2 + j) = (-1) ^ (m + j) by
    rw [show m + 2 + j = m + j + 2 by ring, pow_add]; simp]
  push_cast
  generalize ((-1 : ℤ) ^ (m + j)) = s
  generalize ((m + 2 + j).choose (j + 1) : ℤ) = y at *
  generalize ((m + 2 + j).choose j : ℤ) = w at *
  generalize ((m + 1).choose (j + 1) : ℤ) = c at *
  linear_combination s * (m + 2) * y * h1 + s * (m + 1) * c * h2

theorem coeff_pd (m j : ℕ) : (pd m).coeff j = cd m j :=
  coeff_ofFun (fun j h => by
    unfold cd; rw [choose_eq_zero_of_lt h, choose_eq_zero_of_lt (by omega : m + 1 < j + 1)]; simp) j

/-! ## The polynomials -/

theorem pb_deriv (k : ℕ) : derivative (X * pb k) = ((k : ℤ[X]) + 1) * pa k := by
  ext j
  rw [coeff_derivative, coeff_X_mul, coeff_pb, show ((k : ℤ[X]) + 1) = C ((k : ℤ) + 1) by simp, coeff_C_mul, coeff_pa]
  linear_combination cb_mul k j

theorem pa_deriv (k : ℕ) : derivative ((1 - X) * pa k) = -((k : ℤ[X]) + 1) * pb k := by
  ext j
  rw [coeff_derivative, sub_mul, one_mul, coeff_sub, coeff_X_mul, show -((k : ℤ[X]) + 1) = C (-((k : ℤ) + 1)) by simp, coeff_C_mul,
    coeff_pa, coeff_pa, coeff_pb]
  have h1 := cb_mul k j
  have h2 := ca_step k j
  have h3 : ((j : ℤ) + 1) ≠ 0 := by positivity
  apply mul_left_cancel₀ h3
  linear_combination h2 + (k + 1) * h1

/-- The square of `pa` has an integral with integer coefficients. -/
theorem pa_square (k : ℕ) : derivative (X * (1 - X) * pa k ^ 2 + X ^ 2 * pb k ^ 2) = pa k ^ 2 := by
  have h1 := pb_deriv k
  have h2 := pa_deriv k
  have e : X * (1 - X) * pa k ^ 2 + X ^ 2 * pb k ^ 2 = X * pa k * ((1 - X) * pa k) + (X * pb k) ^ 2 := by ring
  simp only [derivative_mul, derivative_X, derivative_sub, derivative_one, derivative_add, derivative_pow] at *
  simp only [Nat.cast_ofNat, map_ofNat, Nat.add_one_sub_one, pow_one] at *
  generalize derivative (pa k) = a' at *
  generalize derivative (pb k) = b' at *
  linear_combination 2 * X * pb k * h1 + 2 * X * pa k * h2

theorem pp_ode (n : ℕ) : derivative (X * (1 - X) * derivative (pp n)) = -((n : ℤ[X]) * ((n : ℤ[X]) + 1)) * pp n := by
  ext j
  rw [coeff_derivative, mul_assoc, coeff_X_mul, sub_mul, one_mul, coeff_sub,
    show -((n : ℤ[X]) * ((n : ℤ[X]) + 1)) = C (-((n : ℤ) * (n + 1))) by simp, coeff_C_mul, coeff_pp]
  rcases j with - | j
  · rw [coeff_derivative, coeff_pp]
    have := cp_step n 0
    simp only [coeff_zero_eq_eval_zero, eval_mul, eval_X, zero_mul]
    push_cast at *
    linear_combination this
  · rw [coeff_X_mul, coeff_derivative, coeff_derivative, coeff_pp, coeff_pp]
    have := cp_step n (j + 1)
    push_cast at *
    linear_combination this

theorem pd_deriv (m : ℕ) : derivative (pp (m + 1)) = ((m : ℤ[X]) + 1) * ((m : ℤ[X]) + 2) * pd m := by
  ext j
  rw [coeff_derivative, coeff_pp, show ((m : ℤ[X]) + 1) * ((m : ℤ[X]) + 2) = C (((m : ℤ) + 1) * (m + 2)) by simp, coeff_C_mul, coeff_pd]
  linear_combination -cd_mul m j

/-- The square of the derivative of `pp`, with the weight `t`, has an integral with integer coefficients. -/
theorem pd_square (m : ℕ) :
    derivative (X * pp (m + 1) ^ 2 + X * (1 - X) * pd m * (pp (m + 1) + X * derivative (pp (m + 1)))) =
      ((m : ℤ[X]) + 1) * ((m : ℤ[X]) + 2) * X * pd m ^ 2 := by
  have hk : ((m : ℤ[X]) + 1) * ((m : ℤ[X]) + 2) ≠ 0 := by
    have : ((m : ℤ[X]) + 1) * ((m : ℤ[X]) + 2) = C (((m : ℤ) + 1) * (m + 2)) := by simp
    rw [this]
    exact C_ne_zero.mpr (by positivity)
  have h1 := pp_ode (m + 1)
  have h2 := pd_deriv m
  rw [h2] at h1 ⊢
  have h3 : derivative (X * (1 - X) * pd m) = -pp (m + 1) := by
    apply mul_left_cancel₀ hk
    rw [show X * (1 - X) * (((m : ℤ[X]) + 1) * ((m : ℤ[X]) + 2) * pd m) = C (((m : ℤ) + 1) * (m + 2)) * (X * (1 - X) * pd m) by
      simp only [map_mul, map_add, map_natCast, map_one, map_ofNat]; ring,
      derivative_C_mul] at h1
    simp only [map_mul, map_add, map_natCast, map_one, map_ofNat] at h1
    push_cast at h1
    linear_combination h1
  rw [derivative_add, derivative_mul (f := X * (1 - X) * pd m), h3]
  simp only [derivative_mul, derivative_X, derivative_add, derivative_pow, h2, derivative_natCast, derivative_one, derivative_ofNat]
  simp only [derivative_mul, derivative_X, derivative_sub, derivative_one] at h3
  simp only [Nat.cast_ofNat, map_ofNat, Nat.add_one_sub_one, pow_one]
  generalize derivative (pd m) = d' at *
  linear_combination (((m : ℤ[X]) + 1) * ((m : ℤ[X]) + 2) * X * pd m) * h3

theorem pp_bonnet (n : ℕ) :
    ((n : ℤ[X]) + 2) * pp (n + 2) = (2 * (n : ℤ[X]) + 3) * ((2 * X - 1) * pp (n + 1)) - ((n : ℤ[X]) + 1) * pp n := by
  ext j
  have e1 : ((n : ℤ[X]) + 2) = C ((n : ℤ) + 2) := by simp
  have e2 : (2 * (n : ℤ[X]) + 3) * ((2 * X - 1) * pp (n + 1)) = C (2 * (n : ℤ) + 3) * (C 2 * (X * pp (n + 1)) - pp (n + 1)) := by
    simp only [map_add, map_mul, map_ofNat, map_natCast]; ring
  have e3 : ((n : ℤ[X]) + 1) = C ((n : ℤ) + 1) := by simp
  rw [e1, e2, e3, coeff_C_mul, coeff_sub, coeff_C_mul, coeff_sub, coeff_C_mul, coeff_C_mul, coeff_pp, coeff_pp, coeff_pp]
  rcases j with - | j
  · rw [cp_zero, cp_zero, cp_zero, mul_coeff_zero, coeff_X_zero]
    ring
  · rw [coeff_X_mul, coeff_pp]
    linear_combination cp_bonnet n j

theorem pa_sum (k : ℕ) : ((k : ℤ[X]) + 2) * pa (k + 1) = ((k : ℤ[X]) + 1) * pa k + (2 * (k : ℤ[X]) + 3) * pp (k + 1) := by
  ext j
  rw [show ((k : ℤ[X]) + 2) = C ((k : ℤ) + 2) by simp, show ((k : ℤ[X]) + 1) = C ((k : ℤ) + 1) by simp,
    show (2 * (k : ℤ[X]) + 3) = C (2 * (k : ℤ) + 3) by simp, coeff_add, coeff_C_mul, coeff_C_mul, coeff_C_mul, coeff_pp, coeff_pa, coeff_pa]
  linear_combination ca_sum k j

theorem pp_diff (n : ℕ) : derivative (pp (n + 2)) = derivative (pp n) + 2 * (2 * (n : ℤ[X]) + 3) * pp (n + 1) := by
  ext j
  rw [show (2 * (2 * (n : ℤ[X]) + 3)) = C (2 * (2 * (n : ℤ) + 3)) by simp, coeff_add, coeff_C_mul, coeff_derivative, coeff_derivative,
    coeff_pp, coeff_pp, coeff_pp]
  linear_combination cp_diff n j

end Lgd
