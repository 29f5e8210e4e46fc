import Verif.Signal.OptimumLists
import Mathlib.Analysis.Calculus.Deriv.Polynomial
import Mathlib.Analysis.Calculus.Deriv.MeanValue
import Mathlib.Order.Interval.Set.Infinite
import Mathlib.Algebra.Polynomial.Roots
import Mathlib.Algebra.Polynomial.Expand

/-!
# C119: the polynomial of the "optimum" filter
-/

namespace Lgd
open Polynomial

/-- The value of a list of coefficients, highest power first, at `w` (`np.polyval`). -/
def polyval {R : Type*} [CommRing R] (l : List ℤ) (w : R) : R := l.foldl (fun (acc : R) (c : ℤ) => acc * w + (c : R)) 0

theorem toInt_intCast (n : ℤ) : toInt (n : ℚ) = n := by
  unfold toInt
  simp

/-! ## Degrees -/

theorem pa_natDegree (k : ℕ) : (pa k).natDegree = k := by
  apply le_antisymm
  · rw [natDegree_le_iff_coeff_eq_zero]
    intro j hj
    rw [coeff_pa, ca_of_lt hj]
  · apply le_natDegree_of_ne_zero
    rw [coeff_pa]
    unfold ca
    have : 0 < (k + 1 + k).choose k := Nat.choose_pos (by omega)
    have h : ((-1 : ℤ)) ^ (k + k) = 1 := by rw [← two_mul, pow_mul]; simp
    rw [h, Nat.choose_self, one_mul, one_mul]
    exact_mod_cast this.ne'

theorem cp_self (n : ℕ) : 0 < cp n n := by
  unfold cp
  have : 0 < (n + n).choose n := Nat.choose_pos (by omega)
  have h : ((-1 : ℤ)) ^ (n + n) = 1 := by rw [← two_mul, pow_mul]; simp
  rw [h, Nat.choose_self, one_mul, one_mul]
  exact_mod_cast this

theorem pd_natDegree (m : ℕ) : (pd m).natDegree = m := by
  apply le_antisymm
  · rw [natDegree_le_iff_coeff_eq_zero]
    intro j hj
    rw [coeff_pd]
    unfold cd
    rw [Nat.choose_eq_zero_of_lt hj, Nat.choose_eq_zero_of_lt (by omega : m + 1 < j + 1)]
    simp
  · apply le_natDegree_of_ne_zero
    rw [coeff_pd]
    intro h0
    have := cd_mul m m
    rw [h0, mul_zero] at this
    have h1 := cp_self (m + 1)
    have h2 : (0 : ℤ) < (m + 1) * cp (m + 1) (m + 1) := by positivity
    omega

theorem slope_natDegree {N : ℕ} (hN : N ≠ 0) : (slope N).natDegree = N - 1 := by
  unfold slope order
  split
  · rename_i h
    rw [natDegree_pow, pa_natDegree]
    omega
  · rename_i h
    have hk : ∀ k : ℕ, ((k : ℤ[X]) + 1) * ((k : ℤ[X]) + 2) = C (((k : ℤ) + 1) * (k + 2)) := by
      intro k
      simp
    rw [hk, mul_assoc, natDegree_C_mul (by positivity), natDegree_X_mul, natDegree_pow, pd_natDegree]
    · omega
    · intro h0
      have h1 := pow_eq_zero_iff (two_ne_zero) |>.mp h0
      have := coeff_pd ((N - 2) / 2) ((N - 2) / 2)
      rw [h1, coeff_zero] at this
      have h3 := cd_mul ((N - 2) / 2) ((N - 2) / 2)
      rw [← this, mul_zero] at h3
      have h4 := cp_self ((N - 2) / 2 + 1)
      have h5 : (0 : ℤ) < (((N - 2) / 2 : ℕ) + 1) * cp ((N - 2) / 2 + 1) ((N - 2) / 2 + 1) := by positivity
      omega

theorem slope_ne (N : ℕ) : slope N ≠ 0 := by
  by_cases hN : N = 0
  · subst hN
    unfold slope order
    norm_num
    intro h
    have := coeff_pd 0 0
    rw [h] at this
    simp [cd] at this
  · unfold slope
    split
    · intro h0
      have h1 := pow_eq_zero_iff (two_ne_zero) |>.mp h0
      have h2 := coeff_pa (order N) 0
      rw [h1] at h2
      simp [ca] at h2
      have := pow_ne_zero (order N) (show (-1 : ℤ) ≠ 0 by norm_num)
      exact this h2.symm
    · intro h0
      rename_i h
      have h1 := slope_natDegree hN
      unfold slope at h1
      rw [if_neg h, h0, natDegree_zero] at h1
      omega

theorem closed_natDegree {N : ℕ} (hN : N ≠ 0) : (closed N).natDegree = N := by
  have h1 := slope_natDegree hN
  have h2 := slope_ne N
  rw [← closed_deriv] at h1 h2
  have h3 : (closed N).natDegree ≠ 0 := by
    intro h0
    rw [eq_C_of_natDegree_eq_zero h0, derivative_C] at h2
    exact h2 rfl
  rw [natDegree_derivative] at h1
  omega

/-! ## Values at 1 -/

theorem pp_eval_one (n : ℕ) : (pp n).eval 1 = 1 := by
  have key : ∀ n, (pp n).eval 1 = 1 ∧ (pp (n + 1)).eval 1 = 1 := by
    intro n
    induction n with
    | zero => rw [pp_zero, pp_one]; norm_num
    | succ n ih =>
      refine ⟨ih.2, ?_⟩
      have h := congrArg (eval 1) (pp_bonnet n)
      simp only [eval_mul, eval_add, eval_sub, eval_natCast, eval_ofNat, eval_one, eval_X, ih.1, ih.2] at h
      have h2 : ((n : ℤ) + 2) ≠ 0 := by positivity
      apply mul_left_cancel₀ h2
      linear_combination h
  exact (key n).1

theorem pa_eval_one (k : ℕ) : (pa k).eval 1 = k + 1 := by
  induction k with
  | zero =>
    have : pa 0 = 1 := by
      ext j
      rw [coeff_pa, coeff_one]
      rcases j with - | j
      · simp [ca]
      · rw [ca_of_lt (by omega)]; simp
    rw [this]; simp
  | succ k ih =>
    have h := congrArg (eval 1) (pa_sum k)
    simp only [eval_mul, eval_add, eval_natCast, eval_ofNat, eval_one, ih, pp_eval_one] at h
    have h2 : ((k : ℤ) + 2) ≠ 0 := by positivity
    apply mul_left_cancel₀ h2
    push_cast
    linear_combination h

theorem pb_eval_one (k : ℕ) : (pb k).eval 1 = 1 := by
  have h := congrArg (eval 1) (pa_deriv k)
  simp only [derivative_mul, derivative_sub, derivative_one, derivative_X, eval_mul, eval_add, eval_sub, eval_natCast, eval_neg, eval_one,
    eval_X, eval_zero, pa_eval_one] at h
  have h2 : ((k : ℤ) + 1) ≠ 0 := by positivity
  apply mul_left_cancel₀ h2
  linear_combination h

theorem closed_one (N : ℕ) : (closed N).eval 1 = 1 := by
  unfold closed
  split
  · simp [pb_eval_one]
  · simp [pp_eval_one]

/-! ## The list of integers -/

theorem toQ_natDegree (p : ℤ[X]) : (toQ p).natDegree = p.natDegree :=
  natDegree_map_eq_of_injective (RingHom.injective_int _) p

theorem toP_defint_coeff (N i : ℕ) : (toP (defint N)).coeff i = if 2 ∣ i then (((closed N).coeff (i / 2) : ℤ) : ℚ) else 0 := by
  rw [defint_eq, ← expand_eq_comp_X_pow, coeff_expand (by norm_num)]
  unfold toQ
  simp only [coeff_map, eq_intCast]

theorem defint_length {N : ℕ} (hN : N ≠ 0) : (defint N).length = 2 * N + 1 := by
  have h : (toP (defint N)).natDegree = 2 * N := by
    rw [defint_eq, natDegree_comp, toQ_natDegree, closed_natDegree hN, natDegree_X_pow]
    ring
  have hne : toP (defint N) ≠ 0 := by
    intro h0
    rw [h0, natDegree_zero] at h
    omega
  unfold defint at hne h ⊢
  dsimp only at hne h ⊢
  rw [toP_trim] at hne h
  rw [trim_length hne, h]

theorem defint_get {N : ℕ} {i : ℕ} (h : i < (defint N).length) :
    (defint N)[i] = if 2 ∣ i then (((closed N).coeff (i / 2) : ℤ) : ℚ) else 0 := by
  rw [← toP_defint_coeff, toP_coeff, List.getD_eq_getElem?_getD, List.getElem?_eq_getElem h]
  rfl

theorem defint_int {N : ℕ} {x : ℚ} (h : x ∈ defint N) : ∃ n : ℤ, x = n := by
  obtain ⟨i, hi, rfl⟩ := List.mem_iff_getElem.mp h
  rw [defint_get]
  split
  · exact ⟨_, rfl⟩
  · exact ⟨0, by simp⟩

/-- C119.  The coefficients are integers: `int` drops nothing. -/
theorem C119_integers {N : ℕ} (hN : N ≠ 0) : (optimum_poly N).map (Int.cast : ℤ → ℚ) = (defint N).reverse := by
  unfold optimum_poly
  rw [if_neg hN, List.map_map]
  conv_rhs => rw [← List.map_id (defint N).reverse]
  apply List.map_congr_left
  intro x hx
  obtain ⟨n, rfl⟩ := defint_int (List.mem_reverse.mp hx)
  simp [toInt_intCast]

theorem optimum_get {N i : ℕ} (hN : N ≠ 0) (h : i < (optimum_poly N).length) (hi : i ≤ 2 * N) :
    (optimum_poly N)[i] = if 2 ∣ i then (closed N).coeff (N - i / 2) else 0 := by
  have hl := defint_length hN
  have e : (optimum_poly N)[i] = toInt ((defint N)[2 * N - i]'(by omega)) := by
    unfold optimum_poly at *
    simp only [if_neg hN] at *
    rw [List.getElem_map, List.getElem_reverse]
    congr 2
    omega
  rw [e, defint_get]
  by_cases h2 : 2 ∣ i
  · rw [if_pos (by omega), if_pos h2, toInt_intCast]
    congr 1
    omega
  · rw [if_neg (by omega), if_neg h2]
    rfl

/-- C119.  `optimum_poly(N)` lists `2 N + 1` integers, the first of which is not zero; those of odd powers vanish, as does the last one. -/
theorem C119_shape {N : ℕ} (hN : N ≠ 0) :
    (optimum_poly N).length = 2 * N + 1 ∧ (optimum_poly N).head? ≠ some 0 ∧ (∀ i, i % 2 = 1 → (optimum_poly N).getD i 0 = 0) ∧
      (optimum_poly N).getLast? = some 0 := by
  have hl : (optimum_poly N).length = 2 * N + 1 := by
    unfold optimum_poly
    rw [if_neg hN, List.length_map, List.length_reverse, defint_length hN]
  refine ⟨hl, ?_, ?_, ?_⟩
  · rw [List.head?_eq_getElem?, List.getElem?_eq_getElem (by omega), optimum_get hN _ (by omega)]
    simp only [dvd_zero, if_true, Nat.zero_div, Nat.sub_zero, ne_eq, Option.some.injEq]
    intro h0
    have := closed_natDegree hN
    have h1 : closed N = 0 := by
      apply leadingCoeff_eq_zero.mp
      rw [leadingCoeff, this, h0]
    rw [h1, natDegree_zero] at this
    exact hN this.symm
  · intro i hi
    rw [List.getD_eq_getElem?_getD]
    by_cases h : i < (optimum_poly N).length
    · rw [List.getElem?_eq_getElem h, optimum_get hN h (by omega), if_neg (by omega)]
      rfl
    · rw [List.getElem?_eq_none (by omega)]
      rfl
  · rw [List.getLast?_eq_getElem?, hl, List.getElem?_eq_getElem (by omega), optimum_get hN _ (by omega)]
    rw [if_pos (by omega), show N - (2 * N + 1 - 1) / 2 = 0 by omega, coeff_zero_eq_eval_zero, closed_zero]

/-! ## Values -/

theorem foldl_polyval {R : Type*} [CommRing R] (l : List ℤ) (w acc : R) :
    l.foldl (fun (acc : R) (c : ℤ) => acc * w + (c : R)) acc = acc * w ^ l.length + polyval l w := by
  unfold polyval
  induction l generalizing acc with
  | nil => simp
  | cons a l ih =>
    rw [List.foldl_cons, List.foldl_cons, ih, ih ((0 : R) * w + a), List.length_cons]
    ring

theorem polyval_cons {R : Type*} [CommRing R] (a : ℤ) (l : List ℤ) (w : R) : polyval (a :: l) w = a * w ^ l.length + polyval l w := by
  conv_lhs => unfold polyval
  rw [List.foldl_cons, foldl_polyval]
  simp

/-- `polyval` is the sum of the coefficients times the powers. -/
theorem polyval_eq_sum {R : Type*} [CommRing R] (l : List ℤ) (w : R) :
    polyval l w = ∑ i ∈ Finset.range l.length, (l.getD (l.length - 1 - i) 0 : R) * w ^ i := by
  induction l with
  | nil => simp [polyval]
  | cons a l ih =>
    rw [polyval_cons, ih, List.length_cons, Finset.sum_range_succ]
    rw [add_comm]
    congr 1
    · apply Finset.sum_congr rfl
      intro i hi
      have := Finset.mem_range.mp hi
      rw [show l.length + 1 - 1 - i = (l.length - 1 - i) + 1 by omega, List.getD_cons_succ]
    · simp

theorem polyval_optimum {R : Type*} [CommRing R] {N : ℕ} (hN : N ≠ 0) (w : R) : polyval (optimum_poly N) w = aeval (w ^ 2) (closed N) := by
  have hl := (C119_shape hN).1
  rw [polyval_eq_sum, hl]
  have h1 : aeval (w ^ 2) (closed N) = aeval w ((closed N).comp (X ^ 2)) := by
    rw [aeval_comp]
    simp
  rw [h1, ← expand_eq_comp_X_pow, aeval_eq_sum_range' (n := 2 * N + 1)]
  · apply Finset.sum_congr rfl
    intro i hi
    have hi' := Finset.mem_range.mp hi
    rw [coeff_expand (by norm_num), zsmul_eq_mul, List.getD_eq_getElem?_getD, List.getElem?_eq_getElem (by omega),
      Option.getD_some, optimum_get hN _ (by omega)]
    congr 2
    by_cases h : 2 ∣ i
    · rw [if_pos (by omega), if_pos h]
      congr 1
      omega
    · rw [if_neg (by omega), if_neg h]
  · rw [natDegree_expand, closed_natDegree hN]
    omega

theorem aeval_slope_nonneg (N : ℕ) {t : ℝ} (ht : 0 ≤ t) : 0 ≤ aeval t (slope N) := by
  unfold slope
  split
  · rw [map_pow]
    positivity
  · simp only [map_mul, map_add, map_natCast, map_ofNat, map_one, aeval_X, map_pow]
    positivity

theorem closed_hasDeriv (N : ℕ) (t : ℝ) : HasDerivAt (fun t : ℝ => aeval t (closed N)) (aeval t (slope N)) t := by
  rw [← closed_deriv]
  exact (closed N).hasDerivAt_aeval t

theorem closed_strictMono {N : ℕ} (hN : N ≠ 0) : StrictMonoOn (fun t : ℝ => aeval t (closed N)) (Set.Ici 0) := by
  have hc : Continuous fun t : ℝ => aeval t (closed N) := continuous_iff_continuousAt.mpr fun t => (closed_hasDeriv N t).continuousAt
  have hm : MonotoneOn (fun t : ℝ => aeval t (closed N)) (Set.Ici 0) := by
    apply monotoneOn_of_deriv_nonneg (convex_Ici 0) hc.continuousOn
    · exact fun t _ => (closed_hasDeriv N t).differentiableAt.differentiableWithinAt
    · intro t ht
      rw [(closed_hasDeriv N t).deriv]
      exact aeval_slope_nonneg N (le_of_lt (by simpa using ht))
  intro a ha b hb hab
  rcases (hm ha hb hab.le).lt_or_eq with h | h
  · exact h
  · exfalso
    have hinf : (Set.Icc a b).Infinite := Set.Icc_infinite hab
    have hconst : (closed N).map (Int.castRingHom ℝ) = C (aeval a (closed N)) := by
      apply eq_of_infinite_eval_eq
      refine hinf.mono fun x hx => ?_
      have h1 := hm ha (le_trans ha hx.1 : (0 : ℝ) ≤ x) hx.1
      have h2 := hm (le_trans ha hx.1 : (0 : ℝ) ≤ x) hb hx.2
      simp only [Set.mem_setOf_eq, eval_C]
      have h3 : eval x ((closed N).map (Int.castRingHom ℝ)) = aeval x (closed N) := by
        rw [eval_map, aeval_def]
        rfl
      rw [h3]
      dsimp only at h h1 h2
      linarith
    have := natDegree_map_eq_of_injective (RingHom.injective_int (Int.castRingHom ℝ)) (closed N)
    rw [hconst, natDegree_C, closed_natDegree hN] at this
    exact hN this.symm

/-- C119.  The polynomial vanishes at zero frequency, is 1 at the cut-off frequency 1, grows strictly with the frequency and is even. -/
theorem C119_monotone {N : ℕ} (hN : N ≠ 0) :
    polyval (optimum_poly N) (0 : ℝ) = 0 ∧ polyval (optimum_poly N) (1 : ℝ) = 1 ∧
      StrictMonoOn (polyval (R := ℝ) (optimum_poly N)) (Set.Ici 0) ∧ ∀ w : ℝ, polyval (optimum_poly N) (-w) = polyval (optimum_poly N) w := by
  have e : ∀ n : ℤ, aeval (n : ℝ) (closed N) = (((closed N).eval n : ℤ) : ℝ) := by
    intro n
    rw [aeval_def, eval₂_eq_eval_map]
    have := eval_intCast_map (Int.castRingHom ℝ) (closed N) n
    simpa using this
  refine ⟨?_, ?_, ?_, ?_⟩
  · rw [polyval_optimum hN]
    have := e 0
    rw [closed_zero] at this
    simpa using this
  · rw [polyval_optimum hN]
    have := e 1
    rw [closed_one] at this
    simpa using this
  · intro a ha b hb hab
    rw [polyval_optimum hN, polyval_optimum hN]
    have ha' : (0 : ℝ) ≤ a := ha
    exact closed_strictMono hN (sq_nonneg a) (sq_nonneg b) (by nlinarith)
  · intro w
    rw [polyval_optimum hN, polyval_optimum hN]
    simp

/-- C119.  The filter of order 0 does nothing. -/
theorem C119_none (w : ℝ) : polyval (optimum_poly 0) w = 0 := by
  simp [optimum_poly, polyval]

end Lgd
