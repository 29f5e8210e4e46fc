import Verif.Signal.Optimum
import Verif.Signal.OptimumPoly

/-!
# The coefficient arrays of `optimum_poly` as polynomials
-/

namespace Lgd
open Polynomial

theorem C_two : (C 2 : ℚ[X]) = 2 := map_ofNat C 2

noncomputable def toP : Poly → ℚ[X]
  | [] => 0
  | a :: p => C a + X * toP p

theorem toP_coeff (p : Poly) (i : ℕ) : (toP p).coeff i = p.getD i 0 := by
  induction p generalizing i with
  | nil => simp [toP]
  | cons a p ih =>
    rw [toP, coeff_add]
    rcases i with - | i
    · simp [mul_coeff_zero]
    · rw [coeff_X_mul, ih]
      simp [coeff_C]

theorem toP_add (p q : Poly) : toP (p.add q) = toP p + toP q := by
  induction p generalizing q with
  | nil => simp [Poly.add, toP]
  | cons a p ih =>
    cases q with
    | nil => simp [Poly.add, toP]
    | cons b q =>
      simp only [Poly.add, toP, ih, map_add]
      ring

theorem toP_smul (c : ℚ) (p : Poly) : toP (Poly.smul c p) = C c * toP p := by
  induction p with
  | nil => simp [Poly.smul, toP]
  | cons a p ih =>
    simp only [Poly.smul, List.map_cons, toP, map_mul] at *
    rw [ih]
    ring

theorem toP_mul (p q : Poly) : toP (p.mul q) = toP p * toP q := by
  induction p with
  | nil => simp [Poly.mul, toP]
  | cons a p ih =>
    simp only [Poly.mul, toP, toP_add, toP_smul, ih, map_zero]
    ring

theorem toP_eval (p : Poly) (x : ℚ) : p.eval x = (toP p).eval x := by
  induction p with
  | nil => simp [Poly.eval, toP]
  | cons a p ih => simp [Poly.eval, toP, ih]

theorem toP_comp (p q : Poly) : toP (p.comp q) = (toP p).comp (toP q) := by
  induction p with
  | nil => simp [Poly.comp, toP]
  | cons a p ih =>
    simp only [Poly.comp, toP, toP_add, toP_mul, ih]
    simp

theorem toP_integ (p : Poly) : derivative (toP p.integ) = toP p := by
  ext i
  rw [coeff_derivative, toP_coeff, toP_coeff]
  unfold Poly.integ
  rw [List.getD_cons_succ, List.getD_eq_getElem?_getD, List.getD_eq_getElem?_getD, List.getElem?_mapIdx]
  cases p[i]? with
  | none => simp
  | some c =>
    have : (i + 1 : ℚ) ≠ 0 := by positivity
    simp only [Option.map_some, Option.getD_some]
    field_simp

theorem toP_append (p q : Poly) : toP (p ++ q) = toP p + X ^ p.length * toP q := by
  induction p with
  | nil => simp [toP]
  | cons a p ih =>
    simp only [List.cons_append, toP, ih, List.length_cons, pow_succ]
    ring

theorem toP_trim (p : Poly) : toP p.trim = toP p := by
  unfold Poly.trim
  have key : ∀ l : Poly, toP (l.dropWhile (· = 0)).reverse = toP l.reverse := by
    intro l
    induction l with
    | nil => rfl
    | cons a l ih =>
      rw [List.dropWhile_cons]
      split
      · rename_i h
        have : a = 0 := by simpa using h
        rw [ih, this, List.reverse_cons, toP_append]
        simp [toP]
      · rfl
  have h := key p.reverse
  rw [List.reverse_reverse] at h
  split
  · rename_i h'
    rw [h'] at h
    rw [← h]
    simp [toP]
  · exact h

/-- A trimmed array has as many entries as its degree asks for. -/
theorem trim_length {p : Poly} (h : toP p ≠ 0) : p.trim.length = (toP p).natDegree + 1 := by
  have h1 := toP_trim p
  have hlast : ∃ (l : Poly) (a : ℚ), p.trim = l ++ [a] ∧ a ≠ 0 := by
    unfold Poly.trim at h1 ⊢
    generalize hd : p.reverse.dropWhile (· = 0) = d at h1 ⊢
    cases d with
    | nil =>
      exfalso
      apply h
      rw [← h1]
      simp [toP]
    | cons a d =>
      refine ⟨d.reverse, a, ?_, ?_⟩
      · have : (a :: d).reverse ≠ [] := by simp
        split
        · rename_i h'
          exact absurd h' this
        · simp
      · have := List.head_dropWhile_not (p := fun x : ℚ => decide (x = 0)) (l := p.reverse) (by rw [hd]; simp)
        simp only [hd, List.head_cons] at this
        simpa using this
  obtain ⟨l, a, e, ha⟩ := hlast
  rw [← h1, e]
  have hc : (toP (l ++ [a])).coeff l.length = a := by
    rw [toP_coeff, List.getD_eq_getElem?_getD]
    simp
  have : (toP (l ++ [a])).natDegree = l.length := by
    apply le_antisymm
    · rw [natDegree_le_iff_coeff_eq_zero]
      intro i hi
      rw [toP_coeff, List.getD_eq_getElem?_getD, List.getElem?_eq_none (by simp; omega)]
      rfl
    · exact le_natDegree_of_ne_zero (by rw [hc]; exact ha)
  rw [this]
  simp

/-! ## Legendre polynomials -/

/-- Integer polynomials as rational ones. -/
noncomputable def toQ (p : ℤ[X]) : ℚ[X] := p.map (Int.castRingHom ℚ)

theorem toQ_mul (p q : ℤ[X]) : toQ (p * q) = toQ p * toQ q := Polynomial.map_mul _
theorem toQ_add (p q : ℤ[X]) : toQ (p + q) = toQ p + toQ q := Polynomial.map_add _
theorem toQ_sub (p q : ℤ[X]) : toQ (p - q) = toQ p - toQ q := Polynomial.map_sub _
theorem toQ_nat (n : ℕ) : toQ (n : ℤ[X]) = (n : ℚ[X]) := Polynomial.map_natCast _ n
theorem toQ_ofNat (n : ℕ) [n.AtLeastTwo] : toQ (ofNat(n) : ℤ[X]) = ofNat(n) := Polynomial.map_ofNat _ n
theorem toQ_one : toQ (1 : ℤ[X]) = 1 := Polynomial.map_one _
theorem toQ_X : toQ (X : ℤ[X]) = X := Polynomial.map_X _
theorem toQ_pow (p : ℤ[X]) (n : ℕ) : toQ (p ^ n) = toQ p ^ n := Polynomial.map_pow _ n
theorem toQ_derivative (p : ℤ[X]) : toQ (derivative p) = derivative (toQ p) := (derivative_map p _).symm

theorem pp_zero : pp 0 = 1 := by
  ext j
  rw [coeff_pp, coeff_one]
  rcases j with - | j
  · simp [cp]
  · rw [cp_of_lt (by omega)]; simp

theorem pp_one : pp 1 = 2 * X - 1 := by
  ext j
  rw [coeff_pp, coeff_sub, coeff_one, show (2 * X : ℤ[X]) = C 2 * X by simp, coeff_C_mul, coeff_X]
  rcases j with - | - | j
  · simp [cp]
  · simp [cp]
  · rw [cp_of_lt (by omega)]; simp

/-- The Legendre polynomials at `2 t - 1`. -/
theorem legendre_comp : ∀ n, (toP (Poly.legendre n)).comp (2 * X - 1) = toQ (pp n)
  | 0 => by
    rw [pp_zero, toQ_one]
    simp [Poly.legendre, toP]
  | 1 => by
    rw [pp_one, toQ_sub, toQ_mul, toQ_ofNat, toQ_X, toQ_one]
    simp [Poly.legendre, toP]
  | n + 2 => by
    have h := congrArg toQ (pp_bonnet n)
    simp only [toQ_mul, toQ_add, toQ_sub, toQ_nat, toQ_ofNat, toQ_one, toQ_X] at h
    have hk : ((n : ℚ[X]) + 2) ≠ 0 := by
      rw [show ((n : ℚ[X]) + 2) = C ((n : ℚ) + 2) by simp [C_two]]
      exact C_ne_zero.mpr (by positivity)
    apply mul_left_cancel₀ hk
    have hc : ((n : ℚ[X]) + 2) * C (1 / ((n : ℚ) + 2)) = 1 := by
      rw [show ((n : ℚ[X]) + 2) = C ((n : ℚ) + 2) by simp [C_two], ← C_mul]
      have : ((n : ℚ) + 2) ≠ 0 := by positivity
      rw [mul_one_div_cancel this, C_1]
    rw [h, ← legendre_comp n, ← legendre_comp (n + 1)]
    simp only [Poly.legendre, toP_smul, toP_add, toP, map_zero, zero_add, mul_comp, add_comp, C_comp, X_comp]
    rw [← mul_assoc, hc, one_mul]
    simp only [map_add, map_mul, map_neg, map_ofNat, map_natCast, map_one]
    ring

theorem toP_series_snoc (l : List ℚ) (a : ℚ) (i : ℕ) :
    toP (Poly.series i (l ++ [a])) = toP (Poly.series i l) + C a * toP (Poly.legendre (i + l.length)) := by
  induction l generalizing i with
  | nil => simp [Poly.series, toP_add, toP_smul, toP]
  | cons b l ih =>
    simp only [List.cons_append, Poly.series, toP_add, ih, List.length_cons]
    rw [show i + 1 + l.length = i + (l.length + 1) by ring]
    ring

theorem odds_succ (k : ℕ) : odds (k + 1) = odds k ++ [2 * ((k : ℚ) + 1) + 1] := by
  unfold odds
  rw [List.range_succ, List.map_append]
  simp

theorem odds_length (k : ℕ) : (odds k).length = k + 1 := by simp [odds]

/-- The sum of `(2 i + 1) P_i`. -/
theorem odd_series (k : ℕ) : (toP (Poly.series 0 (odds k))).comp (2 * X - 1) = ((k : ℚ[X]) + 1) * toQ (pa k) := by
  induction k with
  | zero =>
    have : pa 0 = 1 := by
      ext j
      rw [coeff_pa, coeff_one]
      rcases j with - | j
      · simp [ca]
      · rw [ca_of_lt (by omega)]; simp
    rw [this, toQ_one]
    simp [odds, Poly.series, Poly.legendre, Poly.add, Poly.smul, toP]
  | succ k ih =>
    rw [odds_succ, toP_series_snoc, add_comp, ih, mul_comp, legendre_comp, odds_length, C_comp, zero_add]
    have h := congrArg toQ (pa_sum k)
    simp only [toQ_mul, toQ_add, toQ_nat, toQ_ofNat, toQ_one] at h
    simp only [map_add, map_mul, map_ofNat, map_natCast, map_one]
    push_cast
    linear_combination -h

/-- Every second of the numbers. -/
def half (b k : ℕ) : List ℚ := (odds k).mapIdx fun i x => if i % 2 = b then x else 0

theorem half_succ (b k : ℕ) : half b (k + 1) = half b k ++ [if (k + 1) % 2 = b then 2 * ((k : ℚ) + 1) + 1 else 0] := by
  unfold half
  rw [odds_succ, List.mapIdx_append]
  simp [odds_length]

theorem half_length (b k : ℕ) : (half b k).length = k + 1 := by simp [half, odds_length]

/-- The sum of every second `(2 i + 1) P_i` is the derivative of a Legendre polynomial. -/
theorem half_series (k : ℕ) :
    2 * (toP (Poly.series 0 (half (k % 2) k))).comp (2 * X - 1) = toQ (derivative (pp (k + 1))) ∧
      2 * (toP (Poly.series 0 (half ((k + 1) % 2) k))).comp (2 * X - 1) = toQ (derivative (pp k)) := by
  induction k with
  | zero =>
    rw [pp_one, pp_zero]
    simp [half, odds, Poly.series, Poly.legendre, Poly.add, Poly.smul, toP, toQ]
  | succ k ih =>
    have h := congrArg toQ (pp_diff k)
    simp only [toQ_mul, toQ_add, toQ_nat, toQ_ofNat] at h
    constructor
    · rw [half_succ, if_pos rfl, toP_series_snoc, add_comp, mul_comp, legendre_comp, half_length, C_comp, zero_add, mul_add, ih.2, h]
      simp only [map_add, map_mul, map_ofNat, map_natCast, map_one]
      ring
    · have hb : (k + 1 + 1) % 2 = k % 2 := by omega
      rw [hb, half_succ, if_neg (by omega), toP_series_snoc, add_comp, mul_comp, C_comp, mul_add, ih.1]
      simp

/-! ## The closed form -/

/-- The polynomial of the filter of order `N` in `t = ω²`. -/
noncomputable def closed (N : ℕ) : ℤ[X] :=
  if N % 2 = 1 then X * (1 - X) * pa (order N) ^ 2 + X ^ 2 * pb (order N) ^ 2
  else X * pp (order N + 1) ^ 2 + X * (1 - X) * pd (order N) * (pp (order N + 1) + X * derivative (pp (order N + 1)))

/-- Its derivative. -/
noncomputable def slope (N : ℕ) : ℤ[X] :=
  if N % 2 = 1 then pa (order N) ^ 2 else ((order N : ℤ[X]) + 1) * ((order N : ℤ[X]) + 2) * X * pd (order N) ^ 2

theorem closed_deriv (N : ℕ) : derivative (closed N) = slope N := by
  unfold closed slope
  split
  · exact pa_square _
  · exact pd_square _

theorem closed_zero (N : ℕ) : (closed N).eval 0 = 0 := by
  unfold closed
  split <;> simp

theorem coefs_even {N : ℕ} (h : ¬N % 2 = 1) : coefs N = half (order N % 2) (order N) := by
  unfold coefs half
  rw [if_neg h]
  split
  · rename_i hk
    rw [hk]
    apply List.ext_getElem (by simp)
    intro i h1 h2
    simp only [List.getElem_mapIdx]
    by_cases hi : i % 2 = 0
    · rw [if_pos hi, if_neg (by omega)]
    · rw [if_neg hi, if_pos (by omega)]
  · rename_i hk
    rw [show order N % 2 = 0 by omega]
    apply List.ext_getElem (by simp)
    intro i h1 h2
    simp only [List.getElem_mapIdx]
    by_cases hi : i % 2 = 0
    · rw [if_pos hi, if_neg (by omega)]
    · rw [if_neg hi, if_pos (by omega)]

theorem integrand_comp (N : ℕ) : 2 * (toP (integrand N)).comp (2 * X - 1) = toQ (slope N) := by
  unfold integrand slope
  dsimp only
  split
  · rename_i h
    have hv : coefs N = odds (order N) := by unfold coefs; rw [if_pos h]
    rw [hv, toP_smul, toP_mul, mul_comp, mul_comp, C_comp, odd_series, toQ_pow]
    generalize order N = k
    have : (2 : ℚ[X]) * C (1 / (2 * ((k : ℚ) + 1) ^ 2)) * ((k : ℚ[X]) + 1) ^ 2 = 1 := by
      rw [show ((k : ℚ[X]) + 1) = C ((k : ℚ) + 1) by simp, ← C_two, ← C_pow, ← C_mul, ← C_mul]
      have : ((k : ℚ) + 1) ≠ 0 := by positivity
      rw [show (2 * (1 / (2 * ((k : ℚ) + 1) ^ 2)) * ((k : ℚ) + 1) ^ 2) = 1 by field_simp, C_1]
    linear_combination toQ (pa k) ^ 2 * this
  · rename_i h
    rw [coefs_even h, toP_smul, toP_mul, toP_mul, mul_comp, mul_comp, mul_comp, C_comp]
    have hs := (half_series (order N)).1
    rw [pd_deriv] at hs
    generalize (toP (Poly.series 0 (half (order N % 2) (order N)))).comp (2 * X - 1) = v at hs ⊢
    generalize order N = k at hs ⊢
    simp only [toQ_mul, toQ_add, toQ_nat, toQ_ofNat, toQ_one, toQ_X, toQ_pow] at hs ⊢
    have hx : (toP [1, 1]).comp (2 * X - 1) = 2 * X := by
      simp [toP]
    rw [hx]
    have : C (1 / (((k : ℚ) + 1) * (k + 2))) * (((k : ℚ[X]) + 1) * ((k : ℚ[X]) + 2)) = 1 := by
      rw [show ((k : ℚ[X]) + 1) * ((k : ℚ[X]) + 2) = C (((k : ℚ) + 1) * (k + 2)) by simp [C_two], ← C_mul]
      have : (((k : ℚ) + 1) * (k + 2)) ≠ 0 := by positivity
      rw [one_div_mul_cancel this, C_1]
    generalize C (1 / (((k : ℚ) + 1) * (k + 2))) = c at this ⊢
    linear_combination (c * X) * (2 * v + ((k : ℚ[X]) + 1) * ((k : ℚ[X]) + 2) * toQ (pd k)) * hs +
      ((k : ℚ[X]) + 1) * ((k : ℚ[X]) + 2) * toQ (pd k) ^ 2 * X * this

theorem eq_of_derivative {p q : ℚ[X]} (h : derivative p = derivative q) (h0 : p.eval 0 = q.eval 0) : p = q := by
  have h1 : derivative (p - q) = 0 := by rw [derivative_sub, h, sub_self]
  have h2 := eq_C_of_derivative_eq_zero h1
  have h3 : (p - q).eval 0 = 0 := by rw [eval_sub, h0, sub_self]
  rw [h2, eval_C] at h3
  rw [h3, C_0] at h2
  exact sub_eq_zero.mp h2

theorem defint_eq (N : ℕ) : toP (defint N) = (toQ (closed N)).comp (X ^ 2) := by
  unfold defint
  dsimp only
  rw [toP_trim, toP_add, toP_comp, toP_eval]
  generalize hI : toP (integrand N).integ = I
  have hd : derivative I = toP (integrand N) := by rw [← hI, toP_integ]
  have h1 : I.comp (2 * X - 1) - C (I.eval (-1)) = toQ (closed N) := by
    apply eq_of_derivative
    · rw [derivative_sub, derivative_C, sub_zero, derivative_comp, hd, ← toQ_derivative, closed_deriv, ← integrand_comp]
      simp
    · rw [eval_sub, eval_comp, eval_C]
      have : (toQ (closed N)).eval 0 = 0 := by
        have := congrArg (Int.cast : ℤ → ℚ) (closed_zero N)
        unfold toQ
        rw [← coeff_zero_eq_eval_zero] at this ⊢
        rw [coeff_map]
        simpa using this
      rw [this]
      norm_num
  rw [← h1, sub_comp, C_comp, comp_assoc]
  have h2 : toP [-1, 0, 2] = (2 * X - 1 : ℚ[X]).comp (X ^ 2) := by
    simp [toP, C_two]
    ring
  have h3 : toP [-(I.eval (-1))] = -C (I.eval (-1)) := by simp [toP]
  rw [h2, h3]
  ring

end Lgd
