import Mathlib.Analysis.Real.Pi.Bounds
import Mathlib.Analysis.SpecialFunctions.Complex.Log
import Mathlib.Analysis.SpecialFunctions.Pow.Real
import Verif.Signal.FilterComplex

/-!
# C141: amplifiers of vendors

Source: `electronics/models/vendor_opamps.py`.  Frequencies are real numbers.
-/

namespace Vendor
open Py Inject Signal Complex

noncomputable section

/-! ## model -/

/-- The classes, l.14-108. -/
inductive Amp
  | ope_27 | ope_827 | ope_209 | tle2027 | ad8675 | lmh6609 | ad743 | ad8429

/-- `d ** 2 * abs(c * 1j / F + 1)`. -/
def corner (d c F : ℝ) : Except Err ℝ := do
  let q ← pdiv ((c : ℂ) * I) F
  return d ^ 2 * ‖q + 1‖

/-- `V_spectrum_one_sided`, l.16, 28, 40, 52, 64, 75, 87, 98. -/
def Amp.V_spectrum_one_sided (F : ℝ) : Amp → Except Err ℝ
  | ope_27 => corner (3 / 10 ^ 9) 2.7 F
  | ope_827 => corner (3.8 / 10 ^ 9) ((20 / 3.8) ^ 2 - 1) F
  | ope_209 => corner (2.2 / 10 ^ 9) ((3.3 / 2.2) ^ 2 - 1) F
  | tle2027 => corner (2.5 / 10 ^ 9) (((3.3 / 2.5) ^ 2 - 1) * 10) F
  | ad8675 => corner (2.8 / 10 ^ 9) ((6.5 / 2.8) ^ 2 - 1) F
  | lmh6609 => corner (3.2 / 10 ^ 9) (10 ^ 3) F
  | ad743 => .ok ((2.9 / 10 ^ 9) ^ 2)
  | ad8429 => .ok ((1 / 10 ^ 9) ^ 2)

/-- `I_spectrum_one_sided`, l.19, 31, 43, 55, 67, 78, 90, 104. -/
def Amp.I_spectrum_one_sided (F : ℝ) : Amp → Except Err ℝ
  | ope_27 => corner (0.4 / 10 ^ 12) 140 F
  | ope_827 => corner (2.2 / 10 ^ 15) (10 ^ 3) F
  | ope_209 => corner (0.5 / 10 ^ 12) ((1.5 / 0.5) ^ 2 - 1) F
  | tle2027 => corner (0.8 / 10 ^ 12) (((10 / 0.8) ^ 2 - 1) * 10) F
  | ad8675 => corner (0.3 / 10 ^ 12) 10 F
  | lmh6609 => corner (1.5 / 10 ^ 12) (10 * 10 ^ 3) F
  | ad743 => .ok ((6.9 / 10 ^ 15) ^ 2)
  | ad8429 => corner (1.8 / 10 ^ 12) (15 ^ 2) F

/-- `A * (1 / (1 - F / (Fc * 1j))) * exp(-i2pi * F / D)`. -/
def pole (A Fc D F : ℝ) : Except Err ℂ := do
  let q ← pdiv (F : ℂ) (Fc * I)
  let r ← pdiv 1 (1 - q)
  return A * r * Complex.exp (-(2 * Real.pi * I) * F / D)

/-- `gain_by_freq`, l.22, 34, 46, 58, 70, 81, 93, 107. -/
def Amp.gain_by_freq (F : ℝ) : Amp → Except Err ℂ
  | ope_27 => pole (10 ^ 6) 8 (4 * (10 * 10 ^ 6)) F
  | ope_827 => pole (10 ^ 6) 20 (360 / 90 * (100 * 10 ^ 6)) F
  | ope_209 => pole ((10 : ℝ) ^ (130 / 20 : ℝ)) 10 (360 / 90 * (100 * 10 ^ 6)) F
  | tle2027 => pole (10 ^ 6) 8 (4 * (10 * 10 ^ 6)) F
  | ad8675 => pole (10 ^ 6) 10 (360 / 90 * (30 * 10 ^ 6)) F
  | lmh6609 => pole ((10 : ℝ) ^ (70 / 20 : ℝ)) (100 * 10 ^ 3) (360 / 90 * (300 * 10 ^ 6)) F
  | ad743 => pole ((10 : ℝ) ^ (90 / 20 : ℝ)) (100 * 10 ^ 3) (360 / 90 * (20 * 10 ^ 6)) F
  | ad8429 => .error .notImplemented

/-! ## noise -/

theorem corner_value {d c F : ℝ} (hF : F ≠ 0) : corner d c F = .ok (d ^ 2 * Real.sqrt (1 + (c / F) ^ 2)) := by
  have hFc : (F : ℂ) ≠ 0 := by exact_mod_cast hF
  unfold corner
  rw [pdiv_ne hFc]
  show Except.ok (d ^ 2 * ‖(c : ℂ) * I / F + 1‖) = _
  have e : (c : ℂ) * I / F + 1 = ((1 : ℝ) : ℂ) + ((c / F : ℝ) : ℂ) * I := by
    push_cast
    ring
  rw [e, Complex.norm_add_mul_I, one_pow]

/-- White noise above a corner: what the spectra of all the amplifiers are. -/
def White (d : ℝ) (s : ℝ → Except Err ℝ) : Prop :=
  ∃ c : ℝ, 0 ≤ c ∧ 0 < d ∧ ∀ F, F ≠ 0 → s F = .ok (d ^ 2 * Real.sqrt (1 + (c / F) ^ 2))

theorem corner_white {d c : ℝ} (hd : 0 < d) (hc : 0 ≤ c) : White d (corner d c) := ⟨c, hc, hd, fun _ h => corner_value h⟩

theorem flat_white {d : ℝ} (hd : 0 < d) : White d (fun _ => .ok (d ^ 2)) := ⟨0, le_rfl, hd, fun F _ => by simp⟩

theorem White.even {d : ℝ} {s : ℝ → Except Err ℝ} (h : White d s) (F : ℝ) (hF : F ≠ 0) : s (-F) = s F := by
  obtain ⟨c, -, -, h⟩ := h
  rw [h F hF, h (-F) (neg_ne_zero.2 hF), div_neg, neg_sq]

theorem White.bounds {d : ℝ} {s : ℝ → Except Err ℝ} (h : White d s) : ∃ c : ℝ, 0 ≤ c ∧
    ∀ F, F ≠ 0 → ∃ v, s F = .ok v ∧ d ^ 2 ≤ v ∧ v ≤ d ^ 2 * (1 + c / |F|) := by
  obtain ⟨c, hc, hd, h⟩ := h
  refine ⟨c, hc, fun F hF => ⟨_, h F hF, ?_, ?_⟩⟩
  · have : 1 ≤ Real.sqrt (1 + (c / F) ^ 2) := Real.one_le_sqrt.2 (by nlinarith [sq_nonneg (c / F)])
    nlinarith [pow_pos hd 2]
  · refine mul_le_mul_of_nonneg_left ?_ (sq_nonneg d)
    have hq : 0 ≤ c / |F| := div_nonneg hc (abs_nonneg F)
    refine Real.sqrt_le_iff.2 ⟨by linarith, ?_⟩
    have : (c / F) ^ 2 = (c / |F|) ^ 2 := by rw [div_pow, div_pow, sq_abs]
    rw [this]
    nlinarith

theorem White.antitone {d : ℝ} {s : ℝ → Except Err ℝ} (h : White d s) {F G u v : ℝ} (hF : F ≠ 0) (hFG : |F| ≤ |G|) (hu : s F = .ok u)
    (hv : s G = .ok v) : v ≤ u := by
  obtain ⟨c, hc, hd, h⟩ := h
  have hF0 := abs_pos.2 hF
  have hG : G ≠ 0 := abs_pos.1 (hF0.trans_le hFG)
  rw [h F hF] at hu
  rw [h G hG] at hv
  injection hu with hu
  injection hv with hv
  rw [← hu, ← hv]
  refine mul_le_mul_of_nonneg_left (Real.sqrt_le_sqrt ?_) (sq_nonneg d)
  have e : ∀ x : ℝ, (c / x) ^ 2 = (c / |x|) ^ 2 := fun x => by rw [div_pow, div_pow, sq_abs]
  rw [e F, e G]
  have : c / |G| ≤ c / |F| := div_le_div_of_nonneg_left hc hF0 hFG
  have h0 : 0 ≤ c / |G| := div_nonneg hc (abs_nonneg G)
  nlinarith

/-- The white levels of the voltage noise. -/
def Amp.V_level : Amp → ℝ
  | ope_27 => 3 / 10 ^ 9
  | ope_827 => 3.8 / 10 ^ 9
  | ope_209 => 2.2 / 10 ^ 9
  | tle2027 => 2.5 / 10 ^ 9
  | ad8675 => 2.8 / 10 ^ 9
  | lmh6609 => 3.2 / 10 ^ 9
  | ad743 => 2.9 / 10 ^ 9
  | ad8429 => 1 / 10 ^ 9

/-- The white levels of the current noise. -/
def Amp.I_level : Amp → ℝ
  | ope_27 => 0.4 / 10 ^ 12
  | ope_827 => 2.2 / 10 ^ 15
  | ope_209 => 0.5 / 10 ^ 12
  | tle2027 => 0.8 / 10 ^ 12
  | ad8675 => 0.3 / 10 ^ 12
  | lmh6609 => 1.5 / 10 ^ 12
  | ad743 => 6.9 / 10 ^ 15
  | ad8429 => 1.8 / 10 ^ 12

theorem V_white (a : Amp) : White a.V_level (fun F => a.V_spectrum_one_sided F) := by
  cases a
  case ad743 => exact flat_white (by norm_num [Amp.V_level])
  case ad8429 => exact flat_white (by norm_num [Amp.V_level])
  all_goals exact corner_white (by norm_num [Amp.V_level]) (by norm_num)

theorem I_white (a : Amp) : White a.I_level (fun F => a.I_spectrum_one_sided F) := by
  cases a
  case ad743 => exact flat_white (by norm_num [Amp.I_level])
  all_goals exact corner_white (by norm_num [Amp.I_level]) (by norm_num)

/-- **C141, voltage noise.**  The spectrum is that of positive and negative frequencies alike, falls with the frequency and is between the white
level and that with a term of one over the frequency. -/
theorem C141_V (a : Amp) : ∃ c : ℝ, 0 ≤ c ∧ ∀ F, F ≠ 0 → ∃ v, a.V_spectrum_one_sided F = .ok v ∧ a.V_spectrum_one_sided (-F) = .ok v ∧
    a.V_level ^ 2 ≤ v ∧ v ≤ a.V_level ^ 2 * (1 + c / |F|) ∧ ∀ G u, |F| ≤ |G| → a.V_spectrum_one_sided G = .ok u → u ≤ v := by
  obtain ⟨c, hc, h⟩ := (V_white a).bounds
  refine ⟨c, hc, fun F hF => ?_⟩
  obtain ⟨v, h1, h2, h3⟩ := h F hF
  exact ⟨v, h1, ((V_white a).even F hF).trans h1, h2, h3, fun G u hG hu => (V_white a).antitone hF hG h1 hu⟩

/-- **C141, current noise.** -/
theorem C141_I (a : Amp) : ∃ c : ℝ, 0 ≤ c ∧ ∀ F, F ≠ 0 → ∃ v, a.I_spectrum_one_sided F = .ok v ∧ a.I_spectrum_one_sided (-F) = .ok v ∧
    a.I_level ^ 2 ≤ v ∧ v ≤ a.I_level ^ 2 * (1 + c / |F|) ∧ ∀ G u, |F| ≤ |G| → a.I_spectrum_one_sided G = .ok u → u ≤ v := by
  obtain ⟨c, hc, h⟩ := (I_white a).bounds
  refine ⟨c, hc, fun F hF => ?_⟩
  obtain ⟨v, h1, h2, h3⟩ := h F hF
  exact ⟨v, h1, ((I_white a).even F hF).trans h1, h2, h3, fun G u hG hu => (I_white a).antitone hF hG h1 hu⟩

/-- A corner `(n / d) ** 2 - 1` is to give the density `n` at one Hertz: it gives less. -/
theorem corner_less {d n : ℝ} (hd : 0 < d) (hn : d < n) : ∃ v, corner d ((n / d) ^ 2 - 1) 1 = .ok v ∧ v < n ^ 2 := by
  refine ⟨_, corner_value one_ne_zero, ?_⟩
  have hq : 1 < n / d := (one_lt_div hd).2 hn
  have h1 : Real.sqrt (1 + (((n / d) ^ 2 - 1) / 1) ^ 2) < (n / d) ^ 2 := by
    rw [div_one]
    refine (Real.sqrt_lt' (by positivity)).2 ?_
    nlinarith
  have e : n ^ 2 = d ^ 2 * (n / d) ^ 2 := by
    field_simp
  rw [e]
  exact mul_lt_mul_of_pos_left h1 (pow_pos hd 2)

/-- **C141, noise at one Hertz** (refuted): the densities named in the formulas (20, 3.3 and 6.5 nV, 1.5 pA) are not those of the spectra, which add
a corner to the power in quadrature. -/
theorem C141_corner_refuted :
    (∃ v, Amp.ope_827.V_spectrum_one_sided 1 = .ok v ∧ v < (20 / 10 ^ 9) ^ 2) ∧
    (∃ v, Amp.ope_209.V_spectrum_one_sided 1 = .ok v ∧ v < (3.3 / 10 ^ 9) ^ 2) ∧
    (∃ v, Amp.ad8675.V_spectrum_one_sided 1 = .ok v ∧ v < (6.5 / 10 ^ 9) ^ 2) ∧
    ∃ v, Amp.ope_209.I_spectrum_one_sided 1 = .ok v ∧ v < (1.5 / 10 ^ 12) ^ 2 := by
  have key : ∀ {d n s : ℝ}, 0 < d → d < n → 0 < s → ∃ v, corner (d / s) ((n / d) ^ 2 - 1) 1 = .ok v ∧ v < (n / s) ^ 2 := by
    intro d n s hd hn hs
    have := corner_less (div_pos hd hs) (div_lt_div_of_pos_right hn hs)
    rwa [div_div_div_cancel_right₀ hs.ne'] at this
  exact ⟨key (by norm_num) (by norm_num) (by norm_num), key (by norm_num) (by norm_num) (by norm_num),
    key (by norm_num) (by norm_num) (by norm_num), key (by norm_num) (by norm_num) (by norm_num)⟩

/-- **C141, at zero frequency** (refuted): most spectra raise. -/
theorem C141_dc_refuted (a : Amp) : (∃ v, a.V_spectrum_one_sided 0 = .ok v) ↔ a = .ad743 ∨ a = .ad8429 := by
  have hc : ∀ d c : ℝ, ∀ v, corner d c 0 ≠ .ok v := by
    intro d c v h
    unfold corner at h
    rw [ofReal_zero, pdiv_zero] at h
    cases h
  cases a
  case ad743 => exact ⟨fun _ => Or.inl rfl, fun _ => ⟨_, rfl⟩⟩
  case ad8429 => exact ⟨fun _ => Or.inr rfl, fun _ => ⟨_, rfl⟩⟩
  all_goals
    constructor
    · rintro ⟨v, h⟩
      exact absurd h (hc _ _ v)
    · rintro (h | h) <;> cases h

/-! ## gain -/

theorem pole_value {A Fc D : ℝ} (hc : Fc ≠ 0) (F : ℝ) :
    ∃ g, pole A Fc D F = .ok g ∧ g = A / (1 + (F / Fc : ℝ) * I) * Complex.exp (((-(2 * Real.pi * F / D) : ℝ) : ℂ) * I) := by
  have h1 : (Fc : ℂ) * I ≠ 0 := mul_ne_zero (by exact_mod_cast hc) I_ne_zero
  have hcc : (Fc : ℂ) ≠ 0 := by exact_mod_cast hc
  have e : 1 - (F : ℂ) / (Fc * I) = 1 + (F / Fc : ℝ) * I := by
    rw [div_mul_eq_div_div, Complex.div_I]
    push_cast
    ring
  have h2 : 1 - (F : ℂ) / (Fc * I) ≠ 0 := by
    rw [e]
    intro h0
    have := congrArg Complex.re h0
    rw [add_re, one_re, re_ofReal_mul, I_re, mul_zero, add_zero, zero_re] at this
    exact one_ne_zero this
  refine ⟨_, ?_, rfl⟩
  unfold pole
  rw [pdiv_ne h1]
  show (pdiv 1 (1 - (F : ℂ) / (Fc * I)) >>= fun r => _) = _
  rw [pdiv_ne h2, e]
  show Except.ok _ = _
  congr 1
  rw [mul_one_div]
  congr 2
  push_cast
  ring

theorem pole_norm {A Fc D : ℝ} (hA : 0 ≤ A) (hc : Fc ≠ 0) (F : ℝ) : ∃ g, pole A Fc D F = .ok g ∧ ‖g‖ = A / Real.sqrt (1 + (F / Fc) ^ 2) := by
  obtain ⟨g, h1, h2⟩ := pole_value (A := A) (D := D) hc F
  refine ⟨g, h1, ?_⟩
  have e : (1 : ℂ) + (F / Fc : ℝ) * I = ((1 : ℝ) : ℂ) + (F / Fc : ℝ) * I := by rw [ofReal_one]
  rw [h2, norm_mul, Complex.norm_exp_ofReal_mul_I, mul_one, norm_div, Complex.norm_real, Real.norm_eq_abs, abs_of_nonneg hA, e,
    Complex.norm_add_mul_I, one_pow]

/-- Gains at zero frequency and corners. -/
def Amp.dc : Amp → ℝ × ℝ
  | ope_27 => (10 ^ 6, 8)
  | ope_827 => (10 ^ 6, 20)
  | ope_209 => ((10 : ℝ) ^ (6.5 : ℝ), 10)
  | tle2027 => (10 ^ 6, 8)
  | ad8675 => (10 ^ 6, 10)
  | lmh6609 => ((10 : ℝ) ^ (3.5 : ℝ), 10 ^ 5)
  | ad743 => ((10 : ℝ) ^ (4.5 : ℝ), 10 ^ 5)
  | ad8429 => (0, 1)

theorem gain_pole (a : Amp) (h : a ≠ .ad8429) : ∃ D, (fun F => a.gain_by_freq F) = pole a.dc.1 a.dc.2 D ∧ 1 < a.dc.1 ∧ 0 < a.dc.2 := by
  have hp : ∀ x : ℝ, 0 < x → 1 < (10 : ℝ) ^ x := fun x hx => Real.one_lt_rpow (by norm_num) hx
  cases a
  case ad8429 => exact absurd rfl h
  case ope_209 => exact ⟨_, by funext F; show pole _ _ _ F = pole _ _ _ F; congr 1; norm_num [Amp.dc], hp _ (by norm_num), by norm_num [Amp.dc]⟩
  case lmh6609 => exact ⟨_, by funext F; show pole _ _ _ F = pole _ _ _ F; congr 1 <;> norm_num [Amp.dc], hp _ (by norm_num), by norm_num [Amp.dc]⟩
  case ad743 => exact ⟨_, by funext F; show pole _ _ _ F = pole _ _ _ F; congr 1 <;> norm_num [Amp.dc], hp _ (by norm_num), by norm_num [Amp.dc]⟩
  all_goals exact ⟨_, rfl, by norm_num [Amp.dc], by norm_num [Amp.dc]⟩

/-- **C141, gain.**  The gain of an operational amplifier is that of one pole at the corner, which the delay does not change, and is conjugate at
the negative frequency; it is one at a single positive frequency. -/
theorem C141_gain (a : Amp) (h : a ≠ .ad8429) (F : ℝ) : ∃ g, a.gain_by_freq F = .ok g ∧ a.gain_by_freq (-F) = .ok ((starRingEnd ℂ) g) ∧
    ‖g‖ = a.dc.1 / Real.sqrt (1 + (F / a.dc.2) ^ 2) ∧ (‖g‖ = 1 ↔ |F| = a.dc.2 * Real.sqrt (a.dc.1 ^ 2 - 1)) := by
  obtain ⟨D, hD, hA, hc⟩ := gain_pole a h
  obtain ⟨g, h1, h2⟩ := pole_norm (D := D) (zero_le_one.trans hA.le) hc.ne' F
  have hg : ∀ F, a.gain_by_freq F = pole a.dc.1 a.dc.2 D F := fun F => congrFun hD F
  refine ⟨g, (hg F).trans h1, ?_, h2, ?_⟩
  · obtain ⟨g1, e1, e2⟩ := pole_value (A := a.dc.1) (D := D) hc.ne' F
    obtain ⟨g2, e3, e4⟩ := pole_value (A := a.dc.1) (D := D) hc.ne' (-F)
    rw [hg, e3]
    have : g = g1 := by
      rw [h1] at e1
      injection e1
    rw [this, e4, e2, map_mul, map_div₀, map_add, map_one, map_mul, conj_ofReal, conj_ofReal, conj_I, ← Complex.exp_conj, map_mul, conj_ofReal,
      conj_I]
    congr 2
    · congr 1
      · push_cast
        ring
    · push_cast
      ring
  · rw [h2]
    have hs : 0 < Real.sqrt (1 + (F / a.dc.2) ^ 2) := Real.sqrt_pos.2 (by positivity)
    rw [div_eq_one_iff_eq hs.ne']
    have hA1 : 0 ≤ a.dc.1 ^ 2 - 1 := by nlinarith
    constructor
    · intro e
      have : a.dc.1 ^ 2 = 1 + (F / a.dc.2) ^ 2 := by rw [e, Real.sq_sqrt (by positivity)]
      rw [this, add_sub_cancel_left, Real.sqrt_sq_eq_abs, abs_div, abs_of_pos hc]
      field_simp
    · intro e
      have : (F / a.dc.2) ^ 2 = a.dc.1 ^ 2 - 1 := by
        rw [div_pow, ← sq_abs F, e, mul_pow, Real.sq_sqrt hA1]
        field_simp
      rw [this, add_sub_cancel, Real.sqrt_sq (zero_le_one.trans hA.le)]

/-- **C141, the instrumentation amplifier** has no gain. -/
theorem C141_inamp (F : ℝ) : Amp.ad8429.gain_by_freq F = .error .notImplemented := rfl

example : ∃ v, Amp.ope_27.V_spectrum_one_sided 2.7 = .ok v ∧ v = (3 / 10 ^ 9) ^ 2 * Real.sqrt 2 := by
  refine ⟨_, corner_value (by norm_num), ?_⟩
  norm_num

end

end Vendor
