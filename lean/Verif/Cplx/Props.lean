import Verif.Cplx.Model
import Mathlib.Analysis.SpecialFunctions.Complex.Arg
import Mathlib.Analysis.SpecialFunctions.Trigonometric.Arctan
import Mathlib.Analysis.Complex.Norm
import Mathlib.Analysis.Real.Sqrt
import Mathlib.Tactic.Ring
import Mathlib.Tactic.Linarith
import Mathlib.Tactic.FieldSimp
import Mathlib.Algebra.Order.Ring.Rat

/-!
# C32, C33: the class `Complex` and the complex numbers
-/

namespace Cplx
open Py

/-- The complex number that a `Complex` stands for. -/
def toC (z : Cx ℝ) : ℂ := ⟨z.re, z.im⟩

/-- The complex number that an operand stands for. -/
def argC : Arg ℝ → ℂ
  | .cx z => toC z
  | .num x => x
  | .bare x => x

theorem argC_parts (o : Arg ℝ) : argC o = ⟨o.parts.1, o.parts.2⟩ := by
  cases o <;> rfl

/-- **C32.** `Complex(x)` is `x`. -/
theorem C32_init (o : Arg ℝ) : toC (ofArg o) = argC o := by cases o <;> rfl

/-- **C32.** Sums, on either side. -/
theorem C32_add (z : Cx ℝ) (o : Arg ℝ) : toC (add z o) = toC z + argC o ∧ toC (radd z o) = argC o + toC z := by
  rw [argC_parts]
  exact ⟨rfl, rfl⟩

/-- **C32.** Differences, on either side. -/
theorem C32_sub (z : Cx ℝ) (o : Arg ℝ) : toC (sub z o) = toC z - argC o ∧ toC (rsub z o) = argC o - toC z := by
  rw [argC_parts]
  exact ⟨rfl, rfl⟩

/-- **C32.** Products, on either side. -/
theorem C32_mul (z : Cx ℝ) (o : Arg ℝ) : toC (mul z o) = toC z * argC o ∧ toC (rmul z o) = argC o * toC z := by
  rw [argC_parts]
  constructor <;> apply Complex.ext <;> simp [toC, mul, rmul, Complex.mul_re, Complex.mul_im]

theorem normSq_toC (z : Cx ℝ) : z.re * z.re + z.im * z.im = Complex.normSq (toC z) := rfl

theorem den_zero {a b : ℝ} : a * a + b * b = 0 ↔ (⟨a, b⟩ : ℂ) = 0 := by
  have : a * a + b * b = Complex.normSq ⟨a, b⟩ := rfl
  rw [this]
  exact Complex.normSq_eq_zero

/-- **C32.** Quotients, on either side; dividing by zero is refused. -/
theorem C32_div (z : Cx ℝ) (o : Arg ℝ) :
    (argC o ≠ 0 → ∃ q, div z o = .ok q ∧ toC q = toC z / argC o) ∧ (argC o = 0 → div z o = .error .zeroDivision) ∧
    (toC z ≠ 0 → ∃ q, rdiv z o = .ok q ∧ toC q = argC o / toC z) ∧ (toC z = 0 → rdiv z o = .error .zeroDivision) := by
  have key : ∀ a b c d : ℝ, c * c + d * d ≠ 0 →
      (⟨(a * c + b * d) / (c * c + d * d), (b * c - a * d) / (c * c + d * d)⟩ : ℂ) = ⟨a, b⟩ / ⟨c, d⟩ := by
    intro a b c d h
    have hne : (⟨c, d⟩ : ℂ) ≠ 0 := fun h0 => h (den_zero.mpr h0)
    rw [eq_div_iff hne]
    apply Complex.ext
    · show (a * c + b * d) / (c * c + d * d) * c - (b * c - a * d) / (c * c + d * d) * d = a
      rw [div_mul_eq_mul_div, div_mul_eq_mul_div, ← sub_div, div_eq_iff h]
      ring
    · show (a * c + b * d) / (c * c + d * d) * d + (b * c - a * d) / (c * c + d * d) * c = b
      rw [div_mul_eq_mul_div, div_mul_eq_mul_div, ← add_div, div_eq_iff h]
      ring
  rw [argC_parts]
  refine ⟨?_, ?_, ?_, ?_⟩
  · intro h
    have hd : o.parts.1 * o.parts.1 + o.parts.2 * o.parts.2 ≠ 0 := fun h0 => h (den_zero.mp h0)
    unfold div
    dsimp only
    rw [if_neg hd]
    exact ⟨_, rfl, key z.re z.im o.parts.1 o.parts.2 hd⟩
  · intro h
    unfold div
    dsimp only
    rw [if_pos (den_zero.mpr h)]
  · intro h
    have hd : z.re * z.re + z.im * z.im ≠ 0 := fun h0 => h (den_zero.mp h0)
    unfold rdiv
    dsimp only
    rw [if_neg hd]
    exact ⟨_, rfl, key o.parts.1 o.parts.2 z.re z.im hd⟩
  · intro h
    unfold rdiv
    dsimp only
    rw [if_pos (den_zero.mpr h)]

/-- **C32.** Negation, conjugate, absolute square and absolute value. -/
theorem C32_unary (z : Cx ℝ) : toC (neg z) = -toC z ∧ toC (pos z) = toC z ∧ toC (conjugate z) = (starRingEnd ℂ) (toC z) ∧
    absSq z = ‖toC z‖ ^ 2 ∧ abs Real.sqrt z = ‖toC z‖ := by
  refine ⟨rfl, rfl, rfl, ?_, ?_⟩
  · rw [← Complex.normSq_eq_norm_sq]; rfl
  · rfl

theorem toC_inj {z w : Cx ℝ} : toC z = toC w ↔ z.re = w.re ∧ z.im = w.im := Complex.ext_iff

/-- **C32.** Equality and inequality with everything that has `.real` and `.imag`. -/
theorem C32_eq (z : Cx ℝ) (o : Arg ℝ) (ho : ∀ x, o ≠ .bare x) :
    ∃ b, eq z o = .ok b ∧ ne z o = .ok (!b) ∧ (b = true ↔ toC z = argC o) := by
  cases o with
  | cx w =>
    refine ⟨_, rfl, ?_, ?_⟩
    · unfold ne
      rw [Bool.not_and]
      simp
    · show _ ↔ toC z = toC w
      rw [toC_inj]
      simp
  | num x =>
    refine ⟨_, rfl, ?_, ?_⟩
    · unfold ne
      rw [Bool.not_and]
      simp
    · show _ ↔ toC z = (x : ℂ)
      rw [Complex.ext_iff]
      show _ ↔ z.re = x ∧ z.im = 0
      simp
  | bare x => exact absurd rfl (ho x)

/-- **C32 (disagreement).** Comparing with an object without `.real` fails, although the code prepares for it (l.184-189). -/
theorem C32_eq_bare (z : Cx ℝ) (x : ℝ) : eq z (.bare x) = .error .attributeError ∧ ne z (.bare x) = .error .attributeError := ⟨rfl, rfl⟩

/-- **C32.** Equal objects have equal hashes, also a `Complex` and the number it equals (python's hash of zero is zero). -/
theorem C32_hash (h : ℝ → Nat) (h0 : h 0 = 0) (z w : Cx ℝ) (x : ℝ) :
    (eq z (.cx w) = .ok true → hash h z = hash h w) ∧ (eq z (.num x) = .ok true → hash h z = h x) := by
  constructor
  · intro he
    obtain ⟨b, h1, _, h2⟩ := C32_eq z (.cx w) (fun _ h => by cases h)
    rw [h1] at he
    cases he
    have := toC_inj.mp (h2.mp rfl)
    unfold hash
    rw [this.1, this.2]
  · intro he
    obtain ⟨b, h1, _, h2⟩ := C32_eq z (.num x) (fun _ h => by cases h)
    rw [h1] at he
    cases he
    have h3 : z.re = x ∧ z.im = 0 := Complex.ext_iff.mp (h2.mp rfl)
    unfold hash
    rw [h3.1, h3.2, h0, Nat.xor_zero]

/-- **C32.** `exp` is the exponential. -/
theorem C32_exp (z : Cx ℝ) : toC (exp Real.exp Real.cos Real.sin z) = Complex.exp (toC z) := by
  apply Complex.ext
  · rw [Complex.exp_re]; rfl
  · rw [Complex.exp_im]; rfl

example : div (⟨1, 2⟩ : Cx Rat) (.cx ⟨3, 4⟩) = .ok ⟨11 / 25, 2 / 25⟩ := by decide +kernel
example : rdiv (⟨0, 2⟩ : Cx Rat) (.num 1) = .ok ⟨0, -1 / 2⟩ := by decide +kernel
example : mul (⟨1, 2⟩ : Cx Rat) (.cx ⟨3, 4⟩) = ⟨-5, 10⟩ := by decide +kernel

/-! ### The argument -/

theorem polar (z : Cx ℝ) (t : ℝ) (hre : z.re = ‖toC z‖ * Real.cos t) (him : z.im = ‖toC z‖ * Real.sin t) (hz : toC z ≠ 0)
    (ht : t ∈ Set.Ioc (-Real.pi) Real.pi) : t = Complex.arg (toC z) := by
  have h : toC z = (‖toC z‖ : ℂ) * (Complex.cos t + Complex.sin t * Complex.I) := by
    apply Complex.ext
    · rw [Complex.re_ofReal_mul]
      simp only [Complex.add_re, Complex.mul_re, Complex.I_re, Complex.I_im, mul_zero, mul_one]
      rw [Complex.cos_ofReal_re, Complex.sin_ofReal_im, sub_zero, add_zero]
      exact hre
    · rw [Complex.im_ofReal_mul]
      simp only [Complex.add_im, Complex.mul_im, Complex.I_re, Complex.I_im, mul_zero, mul_one]
      rw [Complex.cos_ofReal_im, Complex.sin_ofReal_re, add_zero, zero_add]
      exact him
  rw [h, Complex.arg_mul_cos_add_sin_mul_I (norm_pos_iff.mpr hz) ht]

theorem norm_eq (z : Cx ℝ) (h : z.re ≠ 0) : ‖toC z‖ = |z.re| * Real.sqrt (1 + (z.im / z.re) ^ 2) := by
  have h1 : ‖toC z‖ = Real.sqrt (z.re * z.re + z.im * z.im) := rfl
  rw [h1, ← Real.sqrt_sq_eq_abs, ← Real.sqrt_mul (sq_nonneg _)]
  congr 1
  field_simp

/-- **C32.** Away from zero `angle` is the principal argument (in degrees if so asked). -/
theorem C32_angle (z : Cx ℝ) (hz : toC z ≠ 0) :
    angle Real.pi Real.arctan false z = Complex.arg (toC z) ∧
      angle Real.pi Real.arctan true z = Complex.arg (toC z) * 180 / Real.pi := by
  have key : angle Real.pi Real.arctan false z = Complex.arg (toC z) := by
    have hpi := Real.pi_pos
    unfold angle
    dsimp only
    rw [if_neg Bool.false_ne_true]
    by_cases h0 : z.re = 0
    · rw [if_pos h0, if_neg (by rw [h0]; exact lt_irrefl 0)]
      have hn : ‖toC z‖ = |z.im| := by
        have h1 : ‖toC z‖ = Real.sqrt (z.re * z.re + z.im * z.im) := rfl
        rw [h1, h0, ← Real.sqrt_sq_eq_abs]
        congr 1
        ring
      by_cases hi : z.im ≥ 0
      · rw [if_pos hi]
        apply polar z _ _ _ hz ⟨by linarith, by linarith⟩
        · rw [Real.cos_pi_div_two, mul_zero]; exact h0
        · rw [Real.sin_pi_div_two, mul_one, hn, abs_of_nonneg hi]
      · rw [if_neg hi]
        apply polar z _ _ _ hz ⟨by linarith, by linarith⟩
        · rw [neg_div, Real.cos_neg, Real.cos_pi_div_two, mul_zero]; exact h0
        · rw [neg_div, Real.sin_neg, Real.sin_pi_div_two, hn, abs_of_neg (not_le.mp hi)]
          ring
    · rw [if_neg h0]
      have hlo := Real.neg_pi_div_two_lt_arctan (z.im / z.re)
      have hhi := Real.arctan_lt_pi_div_two (z.im / z.re)
      have hsq : Real.sqrt (1 + (z.im / z.re) ^ 2) ≠ 0 := by
        apply ne_of_gt
        apply Real.sqrt_pos.mpr
        have := sq_nonneg (z.im / z.re)
        linarith
      have hn := norm_eq z h0
      have hc := Real.cos_arctan (z.im / z.re)
      have hs := Real.sin_arctan (z.im / z.re)
      set S := Real.sqrt (1 + (z.im / z.re) ^ 2) with hS
      by_cases hneg : z.re < 0
      · rw [if_pos hneg]
        rw [abs_of_neg hneg] at hn
        by_cases hi : z.im ≥ 0
        · rw [if_pos hi]
          have hq : z.im / z.re ≤ 0 := div_nonpos_of_nonneg_of_nonpos hi hneg.le
          have hq2 : Real.arctan (z.im / z.re) ≤ 0 := by
            rw [← Real.arctan_zero]
            exact Real.arctan_mono hq
          apply polar z _ _ _ hz ⟨by linarith, by linarith⟩
          · rw [Real.cos_add_pi, hc, hn]; field_simp
          · rw [Real.sin_add_pi, hs, hn]; field_simp
        · rw [if_neg hi]
          have hi' := not_le.mp hi
          have hq : 0 < z.im / z.re := div_pos_of_neg_of_neg hi' hneg
          have hq2 : 0 < Real.arctan (z.im / z.re) := by
            rw [← Real.arctan_zero]
            exact Real.arctan_strictMono hq
          apply polar z _ _ _ hz ⟨by linarith, by linarith⟩
          · rw [Real.cos_sub_pi, hc, hn]; field_simp
          · rw [Real.sin_sub_pi, hs, hn]; field_simp
      · rw [if_neg hneg]
        rw [abs_of_nonneg (not_lt.mp hneg)] at hn
        apply polar z _ _ _ hz ⟨by linarith, by linarith⟩
        · rw [hc, hn]; field_simp
        · rw [hs, hn]; field_simp
  refine ⟨key, ?_⟩
  have : angle Real.pi Real.arctan true z = angle Real.pi Real.arctan false z * 180 / Real.pi := rfl
  rw [this, key]

/-- **C32 (disagreement).** At zero the angle is π/2. -/
theorem C32_angle_zero : angle Real.pi Real.arctan false ⟨0, 0⟩ = Real.pi / 2 := by
  unfold angle
  dsimp only
  rw [if_neg Bool.false_ne_true, if_neg (lt_irrefl _), if_pos rfl, if_pos (le_refl _)]

/-! ### Powers -/

theorem times_toC (z : Cx ℝ) : ∀ (k : Nat) (v : Cx ℝ), toC (times z k v) = toC v * toC z ^ k
  | 0, v => by rw [pow_zero, mul_one]; rfl
  | k + 1, v => by
    unfold times
    rw [times_toC z k, (C32_mul v (.cx z)).1, pow_succ']
    show toC v * toC z * _ = _
    ring

/-- **C33 (part).** Powers with a positive odd exponent (`int`, or `float` with integer value) are powers.
(Missing: all other integers, where it is false: `C33_even`, `C33_zero`, `C33_negative`.) -/
theorem C33_odd_partial (sqrt : ℝ → ℝ) (fuel : Nat) (z : Cx ℝ) (n : Nat) (hn : n % 2 = 1) (e : Expo)
    (he : e = .int n ∨ e = .float n) : ∃ w, pow sqrt fuel z e = .val w ∧ toC w = toC z ^ n := by
  have hp : pow sqrt fuel z e = intPow z fuel n false z := by rcases he with rfl | rfl <;> rfl
  have h2 : ¬ ((n : Int) % 2 = 0) := by omega
  refine ⟨times z ((n : Int) - 1).toNat z, ?_, ?_⟩
  · rw [hp, intPow.eq_def, if_neg h2]
    rfl
  · rw [times_toC]
    have : ((n : Int) - 1).toNat = n - 1 := by omega
    rw [this, ← pow_succ']
    congr 1
    omega

theorem intPow_float_even {V : Type} [Field V] (z : Cx V) : ∀ (k fuel : Nat) (n : Int) (b : Bool) (v : Cx V), n.natAbs < 2 ^ k →
    n ≠ 0 → (b = true ∨ n % 2 = 0) → k ≤ fuel → intPow z fuel n b v = .typeError
  | 0, fuel, n, b, v, hk, h0, _, _ => by
    rw [pow_zero] at hk
    omega
  | k + 1, fuel, n, b, v, hk, h0, hb, hf => by
    rw [intPow.eq_def]
    by_cases h2 : n % 2 = 0
    · cases fuel with
      | zero => omega
      | succ fuel =>
        rw [if_pos h2]
        refine intPow_float_even z k fuel (n / 2) true _ ?_ ?_ (Or.inl rfl) (by omega)
        · rw [pow_succ] at hk
          omega
        · omega
    · rw [if_neg h2]
      have : b = true := by
        rcases hb with h | h
        · exact h
        · exact absurd h h2
      rw [this]
      rfl

/-- **C33 (disagreement).** Every even exponent other than zero is a `TypeError`: `o_real / 2` makes a float, which `range`
refuses. -/
theorem C33_even (sqrt : ℝ → ℝ) (z : Cx ℝ) (n : Int) (h0 : n ≠ 0) (h2 : n % 2 = 0) (fuel : Nat) (hf : n.natAbs ≤ fuel) (e : Expo)
    (he : e = .int n ∨ e = .float n) : pow sqrt fuel z e = .typeError := by
  have hp : pow sqrt fuel z e = intPow z fuel n false z := by rcases he with rfl | rfl <;> rfl
  rw [hp]
  exact intPow_float_even z n.natAbs fuel n false z Nat.lt_two_pow_self h0 (Or.inr h2) hf

/-- **C33 (disagreement).** The exponent zero never returns, however many turns are allowed. -/
theorem C33_zero (sqrt : ℝ → ℝ) (z : Cx ℝ) (fuel : Nat) : pow sqrt fuel z (.int 0) = .running := by
  have key : ∀ (fuel : Nat) (b : Bool) (v : Cx ℝ), intPow z fuel 0 b v = .running := by
    intro fuel
    induction fuel with
    | zero => intro b v; rw [intPow.eq_def, if_pos (by decide)]
    | succ fuel ih =>
      intro b v
      rw [intPow.eq_def, if_pos (by decide)]
      exact ih true _
  exact key fuel false z

/-- **C33 (disagreement).** A negative odd exponent gives the number itself. -/
theorem C33_negative (sqrt : ℝ → ℝ) (fuel : Nat) (z : Cx ℝ) (n : Int) (hn : n < 0) (h2 : n % 2 = 1) :
    pow sqrt fuel z (.int n) = .val z := by
  show intPow z fuel n false z = _
  rw [intPow.eq_def, if_neg (by omega)]
  have : (n - 1).toNat = 0 := by omega
  rw [if_neg Bool.false_ne_true, this]
  rfl

/-- so `2 ** -1` is 2 -/
theorem C33_refuted : pow Real.sqrt 0 ⟨2, 0⟩ (.int (-1)) = .val ⟨2, 0⟩ ∧ toC ⟨2, 0⟩ ≠ toC ⟨2, 0⟩ ^ (-1 : ℤ) := by
  refine ⟨C33_negative _ _ _ _ (by decide) (by decide), ?_⟩
  have : toC ⟨2, 0⟩ = 2 := rfl
  rw [this]
  norm_num

/-- **C33.** The power 0.5 is the principal square root: its square is the number, its real part is not negative, and on the
imaginary axis its imaginary part is not negative. -/
theorem C33_half (fuel : Nat) (z : Cx ℝ) : ∃ w, pow Real.sqrt fuel z .half = .val w ∧ toC w ^ 2 = toC z ∧ 0 ≤ w.re ∧
    (w.re = 0 → 0 ≤ w.im) := by
  set a := abs Real.sqrt z with ha
  have hsq : a ^ 2 = z.re ^ 2 + z.im ^ 2 := by
    have : a = Real.sqrt (z.re * z.re + z.im * z.im) := rfl
    rw [this, Real.sq_sqrt (by nlinarith [mul_self_nonneg z.re, mul_self_nonneg z.im])]
    ring
  have ha0 : 0 ≤ a := Real.sqrt_nonneg _
  have hle : |z.re| ≤ a := abs_le_of_sq_le_sq (by nlinarith [sq_nonneg z.im]) ha0
  have hr : 0 ≤ (a + z.re) / 2 := by
    have := neg_abs_le z.re
    linarith
  have hi : 0 ≤ (a - z.re) / 2 := by
    have := le_abs_self z.re
    linarith
  have hrr := Real.mul_self_sqrt hr
  have hii := Real.mul_self_sqrt hi
  have hri : Real.sqrt ((a + z.re) / 2) * Real.sqrt ((a - z.re) / 2) = |z.im| / 2 := by
    rw [← Real.sqrt_mul hr]
    have : (a + z.re) / 2 * ((a - z.re) / 2) = (|z.im| / 2) ^ 2 := by
      rw [div_pow, sq_abs]
      nlinarith
    rw [this, Real.sqrt_sq (by have := abs_nonneg z.im; linarith)]
  by_cases him : z.im ≥ 0
  · refine ⟨⟨Real.sqrt ((a + z.re) / 2), Real.sqrt ((a - z.re) / 2)⟩, ?_, ?_, Real.sqrt_nonneg _, fun _ => Real.sqrt_nonneg _⟩
    · unfold pow
      dsimp only
      rw [if_pos him]
    · rw [abs_of_nonneg him] at hri
      rw [pow_two]
      apply Complex.ext
      · show Real.sqrt _ * Real.sqrt _ - Real.sqrt _ * Real.sqrt _ = z.re
        rw [hrr, hii]; ring
      · show Real.sqrt _ * Real.sqrt _ + Real.sqrt _ * Real.sqrt _ = z.im
        rw [mul_comm (Real.sqrt ((a - z.re) / 2)), hri]; ring
  · have him' := not_le.mp him
    refine ⟨⟨Real.sqrt ((a + z.re) / 2), -Real.sqrt ((a - z.re) / 2)⟩, ?_, ?_, Real.sqrt_nonneg _, ?_⟩
    · unfold pow
      dsimp only
      rw [if_neg him]
    · rw [abs_of_neg him'] at hri
      rw [pow_two]
      apply Complex.ext
      · show Real.sqrt _ * Real.sqrt _ - -Real.sqrt _ * -Real.sqrt _ = z.re
        rw [neg_mul_neg, hrr, hii]; ring
      · show Real.sqrt _ * -Real.sqrt _ + -Real.sqrt _ * Real.sqrt _ = z.im
        rw [neg_mul, mul_neg, mul_comm (Real.sqrt ((a - z.re) / 2)), hri]; ring
    · intro h0
      exfalso
      replace h0 : Real.sqrt ((a + z.re) / 2) = 0 := h0
      rw [h0, zero_mul, abs_of_neg him'] at hri
      linarith

/-- other exponents are not supported -/
theorem C33_other (sqrt : ℝ → ℝ) (fuel : Nat) (z : Cx ℝ) : pow sqrt fuel z .other = .notImplemented ∧
    pow sqrt fuel z .imag = .notImplemented := ⟨rfl, rfl⟩

example : pow (fun x => x) 5 (⟨1, 2⟩ : Cx Rat) (.int 3) = .val ⟨-11, -2⟩ := by decide +kernel
example : pow (fun x => x) 5 (⟨1, 2⟩ : Cx Rat) (.int 2) = .typeError := by decide +kernel

end Cplx
