import Mathlib.Analysis.Complex.Trigonometric
import Mathlib.Analysis.Complex.Basic
import Mathlib.Analysis.SpecialFunctions.Trigonometric.Basic
import Verif.Signal.FilterProps

/-!
# The filters over the complex numbers (C45, C57)
-/

namespace Signal
open Py Inject Complex

noncomputable section

/-- The symbols of the program: `1j`, `2 pi 1j`, the exponential and the absolute value. -/
def csym : Sym ℂ where
  j := I
  i2pi := 2 * Real.pi * I
  exp := Complex.exp
  abs := fun z => (‖z‖ : ℝ)

theorem csym_real : csym.Real where
  j := conj_I
  i2pi := by
    show (starRingEnd ℂ) (2 * Real.pi * I) = -(2 * Real.pi * I)
    rw [map_mul, map_mul, conj_I, conj_ofReal, map_ofNat, mul_neg]
  exp := fun z => (exp_conj z).symm
  abs := fun z => conj_ofReal _

/-- **C57, the gain.**  At the reference frequency the magnitude of a rational filter with a real delay is the magnitude of
its gain, whenever it has a value. -/
theorem C57_gain (r : Rational ℂ) (g : ℝ) (hg : r.gain_F_Hz = g) (hd : ∀ d, r.delay_s = some d → ∃ t : ℝ, d = t) {v : ℂ}
    (h : r.filter_func csym r.gain_F_Hz = .ok v) : ‖v‖ = ‖r.gain‖ := by
  have hpre : ‖r.pre csym r.gain_F_Hz‖ = ‖r.gain‖ := by
    unfold Rational.pre
    cases hdd : r.delay_s with
    | none => rfl
    | some d =>
      obtain ⟨t, rfl⟩ := hd _ hdd
      show ‖r.gain * Complex.exp (-(2 * Real.pi * I) * r.gain_F_Hz * t)‖ = _
      have e : -(2 * (Real.pi : ℂ) * I) * r.gain_F_Hz * t = ((-(2 * Real.pi * g * t) : ℝ) : ℂ) * I := by
        rw [hg]
        push_cast
        ring
      rw [norm_mul, e, norm_exp_ofReal_mul_I, mul_one]
  unfold Rational.filter_func at h
  cases hc : r.cascade.filter_func csym.j r.gain_F_Hz with
  | error e =>
    rw [hc] at h
    cases h
  | ok w =>
    rw [hc, bind_ok'] at h
    unfold Rational.normalise at h
    by_cases h0 : r.gain_F_Hz = 0
    · rw [if_neg (not_not.2 h0)] at h
      injection h with h
      have hc' := hc
      rw [C45_value] at hc'
      have h1 := C45_dc r.cascade csym.j hc'.1 hc'.2.1 hc'.2.2.1
      rw [h0] at hc
      rw [hc] at h1
      injection h1 with h1
      rw [← h, h1, one_mul, hpre]
    · rw [if_pos h0, hc, bind_ok'] at h
      unfold pdiv at h
      split_ifs at h with h1
      injection h with h
      have hw : ‖w‖ ≠ 0 := fun h2 => h1 (show ((‖w‖ : ℝ) : ℂ) = 0 by rw [h2, ofReal_zero])
      rw [← h, norm_div, norm_mul, hpre]
      show ‖w‖ * ‖r.gain‖ / ‖((‖w‖ : ℝ) : ℂ)‖ = _
      rw [norm_real, norm_norm, mul_div_cancel_left₀ _ hw]

/-- The theorems apply to a filter with a real zero, a complex pole, a gain, a delay and a reference frequency. -/
def exFilter : Rational ℂ := ⟨⟨[-1], [], [], [-1 + I]⟩, 3, some (1 / 2 : ℝ), (2 : ℝ)⟩

theorem exFilter_value : ∃ w, exFilter.cascade.filter_func csym.j 2 = .ok w ∧ w ≠ 0 := by
  have h1 : (-1 + I : ℂ) ≠ 0 := fun h => by
    have := congrArg Complex.im h
    simp at this
  have hs : (starRingEnd ℂ) (-1 + I) ≠ 0 := fun h => h1 (by simpa using congrArg (starRingEnd ℂ) h)
  have hroots := C45_roots exFilter.cascade csym.j 2 (by simp [exFilter]) (by simp [exFilter])
    (by simp [exFilter]; exact fun h => h1 h.symm)
  have e : csym.j = I := rfl
  have hp : ¬(csym.j * 2 ∈ exFilter.cascade.poles_r ∨ csym.j * 2 ∈ exFilter.cascade.poles_c ∨
      star (csym.j * 2) ∈ exFilter.cascade.poles_c) := by
    rw [e]
    simp only [exFilter, List.not_mem_nil, List.mem_singleton, false_or, not_or]
    constructor
    · intro h
      have := congrArg Complex.re h
      simp at this
    · intro h
      have := congrArg Complex.re h
      simp at this
  have hz : ¬(csym.j * 2 ∈ exFilter.cascade.zeros_r ∨ csym.j * 2 ∈ exFilter.cascade.zeros_c ∨
      star (csym.j * 2) ∈ exFilter.cascade.zeros_c) := by
    rw [e]
    simp only [exFilter, List.not_mem_nil, List.mem_singleton, or_false]
    intro h
    have := congrArg Complex.re h
    simp at this
  cases hv : exFilter.cascade.filter_func csym.j 2 with
  | ok w =>
    refine ⟨w, rfl, ?_⟩
    rintro rfl
    exact hz (hroots.2.1 hv).2
  | error e =>
    rw [filter_eq, if_pos, if_neg] at hv
    · exfalso
      unfold pdiv at hv
      split_ifs at hv with h2
      exact hp (hroots.1.1 (by
        rw [filter_eq, if_pos, if_neg, pdiv, if_pos h2]
        · simp [exFilter]; exact fun h => h1 h.symm
        · simp [exFilter]))
    · simp [exFilter]; exact fun h => h1 h.symm
    · simp [exFilter]

example : ∃ v, exFilter.filter_func csym exFilter.gain_F_Hz = .ok v ∧ ‖v‖ = 3 := by
  obtain ⟨w, hw, h0⟩ := exFilter_value
  have hg : exFilter.gain_F_Hz = ((2 : ℝ) : ℂ) := rfl
  have h2 : ((2 : ℝ) : ℂ) = 2 := by norm_num
  have hn : csym.abs w ≠ 0 := by
    show ((‖w‖ : ℝ) : ℂ) ≠ 0
    rw [ne_eq, ofReal_eq_zero, norm_eq_zero]
    exact h0
  have hv : exFilter.filter_func csym exFilter.gain_F_Hz =
      .ok (w * exFilter.pre csym exFilter.gain_F_Hz / csym.abs w) := by
    unfold Rational.filter_func Rational.normalise
    rw [hg, h2, hw, bind_ok', if_pos (by norm_num), bind_ok', pdiv_ne hn]
  refine ⟨_, hv, ?_⟩
  rw [C57_gain exFilter 2 rfl (fun d hd => ⟨1 / 2, by cases hd; rfl⟩) hv]
  show ‖(3 : ℂ)‖ = 3
  norm_num

/-- The cascade of the example is conjugate at `-2`. -/
example : exFilter.filter_func csym (-2) = (exFilter.filter_func csym 2).map star :=
  C57_conjugate exFilter csym_real (map_ofNat (starRingEnd ℂ) 2)
    (map_ofNat (starRingEnd ℂ) 3) (fun d hd => by cases hd; exact conj_ofReal _)

end

end Signal
