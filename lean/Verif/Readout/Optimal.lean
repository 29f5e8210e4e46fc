import Mathlib.LinearAlgebra.Matrix.Adjugate
import Mathlib.Analysis.SpecialFunctions.Pow.Real
import Verif.Readout.Ellipse

/-!
# C84: the best phase of a homodyne readout
-/

set_option linter.unusedSectionVars false

namespace Readout
open Py Noise Inject

/-- A hermitian matrix of densities whose real part is positive definite. -/
structure Dens (N : Mat2 ℂ) : Prop where
  herm : ∀ i j, N j i = star (N i j)
  pos : 0 < (N 0 0).re
  det : 0 < (N 0 0).re * (N 1 1).re - (N 0 1).re ^ 2

variable {N : Mat2 ℂ} {s : Fin 2 → ℂ}

theorem Dens.im (h : Dens N) (i : Fin 2) : (N i i).im = 0 := by
  have := congrArg Complex.im (h.herm i i)
  rw [show star (N i i) = (starRingEnd ℂ) (N i i) from rfl, Complex.conj_im] at this
  linarith

theorem Dens.re (h : Dens N) : (N 1 0).re = (N 0 1).re := by
  rw [h.herm 0 1]
  exact Complex.conj_re _

theorem Dens.form (h : Dens N) {c s : ℝ} (hcs : c ^ 2 + s ^ 2 = 1) :
    0 < c ^ 2 * (N 0 0).re + 2 * c * s * (N 0 1).re + s ^ 2 * (N 1 1).re := by
  have hp := h.pos
  have hd := h.det
  generalize (N 0 0).re = a at *
  generalize (N 0 1).re = b at *
  generalize (N 1 1).re = d at *
  have h1 : 0 < a * (c ^ 2 * a + 2 * c * s * b + s ^ 2 * d) := by
    have : a * (c ^ 2 * a + 2 * c * s * b + s ^ 2 * d) = (a * c + b * s) ^ 2 + (a * d - b ^ 2) * s ^ 2 := by ring
    rw [this]
    by_cases hs : s = 0
    · subst hs
      have : c ^ 2 = 1 := by linarith
      have h2 : (a * c + b * 0) ^ 2 = a ^ 2 := by linear_combination a ^ 2 * this
      rw [h2]
      nlinarith
    · have : 0 < (a * d - b ^ 2) * s ^ 2 := mul_pos hd (by positivity)
      nlinarith [sq_nonneg (a * c + b * s)]
  exact (mul_pos_iff_of_pos_left hp).1 h1

/-- The real parts of a turned matrix. -/
theorem turn_re (φ : ℝ) (h : (N 1 0).re = (N 0 1).re) : let c := Real.cos (rad φ)
    let s := Real.sin (rad φ)
    (AC_CSD_IQ φ N 0 0).re = c ^ 2 * (N 0 0).re + 2 * c * s * (N 0 1).re + s ^ 2 * (N 1 1).re ∧
    (AC_CSD_IQ φ N 0 1).re = -c * s * (N 0 0).re + (c ^ 2 - s ^ 2) * (N 0 1).re + c * s * (N 1 1).re ∧
    (AC_CSD_IQ φ N 1 1).re = s ^ 2 * (N 0 0).re - 2 * c * s * (N 0 1).re + c ^ 2 * (N 1 1).re := by
  intro c s
  have e : ∀ i j, (AC_CSD_IQ φ N i j).re = ∑ k, (∑ l, (rotation_matrix φ i l).re * (N l k).re) * (rotation_matrix φ j k).re := by
    have hr : ∀ i l, rotation_matrix φ i l = ((rotation_matrix φ i l).re : ℂ) := by
      intro i l
      fin_cases i <;> fin_cases l <;> simp [rotation_matrix, -Complex.ofReal_cos, -Complex.ofReal_sin]
    intro i j
    unfold AC_CSD_IQ rotate
    simp only [Fin.sum_univ_two, Complex.add_re]
    rw [hr i 0, hr i 1, hr j 0, hr j 1]
    simp only [Complex.mul_re, Complex.ofReal_re, Complex.ofReal_im, Complex.add_re, Complex.add_im, Complex.mul_im]
    ring
  have r : (rotation_matrix φ 0 0).re = c ∧ (rotation_matrix φ 0 1).re = s ∧ (rotation_matrix φ 1 0).re = -s ∧
      (rotation_matrix φ 1 1).re = c := by
    refine ⟨?_, ?_, ?_, ?_⟩ <;> simp [rotation_matrix, c, s, -Complex.ofReal_cos, -Complex.ofReal_sin]
  obtain ⟨r1, r2, r3, r4⟩ := r
  refine ⟨?_, ?_, ?_⟩ <;>
  · rw [e]
    simp only [Fin.sum_univ_two, r1, r2, r3, r4, h]
    ring

/-- Turning keeps the density. -/
theorem Dens.turn (h : Dens N) (φ : ℝ) : Dens (AC_CSD_IQ φ N) := by
  have hcs := Real.cos_sq_add_sin_sq (rad φ)
  obtain ⟨e1, e2, e3⟩ := turn_re φ h.re
  refine ⟨?_, ?_, ?_⟩
  · intro i j
    have hr : ∀ i l, star (rotation_matrix φ i l) = rotation_matrix φ i l := by
      intro i l
      fin_cases i <;> fin_cases l <;> simp [rotation_matrix, -Complex.ofReal_cos, -Complex.ofReal_sin]
    unfold AC_CSD_IQ rotate
    simp only [Fin.sum_univ_two, star_add, star_mul', hr]
    rw [← h.herm 0 0, ← h.herm 0 1, ← h.herm 1 0, ← h.herm 1 1]
    ring
  · rw [e1]
    exact h.form hcs
  · rw [e1, e2, e3]
    have hd := h.det
    generalize (N 0 0).re = a at *
    generalize (N 0 1).re = b at *
    generalize (N 1 1).re = d at *
    generalize Real.cos (rad φ) = c at *
    generalize Real.sin (rad φ) = s at *
    have : (c ^ 2 * a + 2 * c * s * b + s ^ 2 * d) * (s ^ 2 * a - 2 * c * s * b + c ^ 2 * d) -
        (-c * s * a + (c ^ 2 - s ^ 2) * b + c * s * d) ^ 2 = (c ^ 2 + s ^ 2) ^ 2 * (a * d - b ^ 2) := by ring
    rw [this, hcs]
    linarith

theorem cpow_half {x : ℝ} (hx : 0 ≤ x) : ((x : ℂ)) ^ (1 / 2 : ℂ) = (Real.sqrt x : ℂ) := by
  rw [Real.sqrt_eq_rpow, Complex.ofReal_cpow hx]
  norm_num

/-- The density at a phase. -/
theorem Dens.PSD (h : Dens N) (φ : ℝ) : homodyne_PSD φ N = ((Real.cos (rad φ) ^ 2 * (N 0 0).re +
    2 * Real.cos (rad φ) * Real.sin (rad φ) * (N 0 1).re + Real.sin (rad φ) ^ 2 * (N 1 1).re : ℝ) : ℂ) := by
  have := (h.turn φ).im 0
  apply Complex.ext
  · exact (turn_re φ h.re).1
  · rw [Complex.ofReal_im]
    exact this

/-- The inverse of the real part. -/
theorem Dens.inv (h : Dens N) : linalg_inv (re_mat N) = .ok (((N 0 0).re * (N 1 1).re - (N 0 1).re ^ 2)⁻¹ •
    (!![(N 1 1).re, -(N 0 1).re; -(N 0 1).re, (N 0 0).re] : Mat2 ℝ)) := by
  have hd : (re_mat N).det = (N 0 0).re * (N 1 1).re - (N 0 1).re ^ 2 := by
    rw [Matrix.det_fin_two]
    unfold re_mat
    rw [h.re]
    ring
  unfold linalg_inv
  rw [if_neg (by rw [hd]; exact h.det.ne'), Matrix.inv_def, hd, Ring.inverse_eq_inv', Matrix.adjugate_fin_two]
  unfold re_mat
  rw [h.re]

/-- The square of the best signal to noise ratio. -/
noncomputable def best (N : Mat2 ℂ) (s : Fin 2 → ℂ) : ℝ :=
  ((N 1 1).re * Complex.normSq (s 0) - 2 * (N 0 1).re * (s 0 * star (s 1)).re + (N 0 0).re * Complex.normSq (s 1)) /
    ((N 0 0).re * (N 1 1).re - (N 0 1).re ^ 2)

/-- Turning keeps the best ratio. -/
theorem Dens.best_turn (h : Dens N) (φ : ℝ) : best (AC_CSD_IQ φ N) (AC_sensitivity_IQ φ s) = best N s := by
  have hcs := Real.cos_sq_add_sin_sq (rad φ)
  obtain ⟨e1, e2, e3⟩ := turn_re φ h.re
  have hd := h.det.ne'
  unfold best
  rw [e1, e2, e3]
  simp only [AC_sensitivity_IQ, Matrix.cons_val_zero, Matrix.cons_val_one]
  generalize (N 0 0).re = a at *
  generalize (N 0 1).re = b at *
  generalize (N 1 1).re = d at *
  generalize Real.cos (rad φ) = c at *
  generalize Real.sin (rad φ) = t at *
  generalize s 0 = x
  generalize s 1 = y
  have h1 : (c ^ 2 * a + 2 * c * t * b + t ^ 2 * d) * (t ^ 2 * a - 2 * c * t * b + c ^ 2 * d) -
      (-c * t * a + (c ^ 2 - t ^ 2) * b + c * t * d) ^ 2 = a * d - b ^ 2 := by
    linear_combination (c ^ 2 + t ^ 2 + 1) * (a * d - b ^ 2) * hcs
  rw [h1]
  congr 1
  simp only [Complex.normSq_apply, Complex.add_re, Complex.add_im, Complex.mul_re, Complex.mul_im, Complex.ofReal_re,
    Complex.ofReal_im, Complex.neg_re, Complex.neg_im, Complex.star_def, Complex.conj_re, Complex.conj_im]
  obtain ⟨x0, x1⟩ := x
  obtain ⟨y0, y1⟩ := y
  dsimp only
  linear_combination (c ^ 2 + t ^ 2 + 1) * (d * (x0 * x0 + x1 * x1) - 2 * b * (x0 * y0 + x1 * y1) + a * (y0 * y0 + y1 * y1)) * hcs

/-- The best ratio is positive. -/
theorem Dens.best_pos (h : Dens N) (hs : s 0 ≠ 0 ∨ s 1 ≠ 0) : 0 < best N s := by
  have hp := h.pos
  have hd := h.det
  unfold best
  refine div_pos ?_ hd
  generalize (N 0 0).re = a at *
  generalize (N 0 1).re = b at *
  generalize (N 1 1).re = d at *
  have hx : 0 < Complex.normSq (s 0) ∨ s 0 = 0 ∧ 0 < Complex.normSq (s 1) := by
    by_cases h0 : s 0 = 0
    · exact Or.inr ⟨h0, Complex.normSq_pos.2 (hs.resolve_left (fun h => h h0))⟩
    · exact Or.inl (Complex.normSq_pos.2 h0)
  generalize s 0 = x at *
  generalize s 1 = y at *
  obtain ⟨x0, x1⟩ := x
  obtain ⟨y0, y1⟩ := y
  simp only [Complex.normSq_apply, Complex.mul_re, Complex.star_def, Complex.conj_re, Complex.conj_im, Complex.ext_iff,
    Complex.zero_re, Complex.zero_im] at *
  have e : a * (d * (x0 * x0 + x1 * x1) - 2 * b * (x0 * y0 - x1 * -y1) + a * (y0 * y0 + y1 * y1)) =
      (a * y0 - b * x0) ^ 2 + (a * y1 - b * x1) ^ 2 + (a * d - b ^ 2) * (x0 * x0 + x1 * x1) := by ring
  refine (mul_pos_iff_of_pos_left hp).1 ?_
  rw [e]
  rcases hx with hx | ⟨⟨h0, h1⟩, hx⟩
  · have := mul_pos hd hx
    nlinarith [sq_nonneg (a * y0 - b * x0), sq_nonneg (a * y1 - b * x1)]
  · subst h0
    subst h1
    have := mul_pos (mul_pos hp hp) hx
    nlinarith

/-- The value of the optimal sensitivity. -/
theorem Dens.optimal (h : Dens N) (φ : ℝ) (hs : s 0 ≠ 0 ∨ s 1 ≠ 0) :
    AC_noise_limited_sensitivity_optimal φ N s = .ok ((1 / Real.sqrt (best N s) : ℝ) : ℂ) := by
  have ht := h.turn φ
  have hb := h.best_turn (s := s) φ
  have h0 := h.best_pos hs
  have hv : ∀ (N : Mat2 ℂ) (IQ : Fin 2 → ℂ) (i : ℝ), (N 0 0).re * (N 1 1).re - (N 0 1).re ^ 2 ≠ 0 →
      i = ((N 0 0).re * (N 1 1).re - (N 0 1).re ^ 2)⁻¹ →
      ∑ k, (∑ j, IQ j * ((((i • (!![(N 1 1).re, -(N 0 1).re; -(N 0 1).re, (N 0 0).re] : Mat2 ℝ)) : Mat2 ℝ) j k : ℝ) : ℂ)) *
        star (IQ k) = (best N IQ : ℂ) := by
    intro N IQ i hd hi
    unfold best
    rw [div_eq_inv_mul, ← hi]
    generalize (N 0 0).re = a at *
    generalize (N 0 1).re = b at *
    generalize (N 1 1).re = d at *
    simp only [Fin.sum_univ_two, Matrix.smul_apply, Matrix.of_apply, Matrix.cons_val_zero, Matrix.cons_val_one, smul_eq_mul]
    generalize IQ 0 = x
    generalize IQ 1 = y
    apply Complex.ext
    · simp [Complex.normSq_apply]
      ring
    · simp [Complex.normSq_apply]
      ring
  unfold AC_noise_limited_sensitivity_optimal
  rw [ht.inv]
  refine (congrArg (fun v : ℂ => pdiv 1 (v ^ (1 / 2 : ℂ)))
    ((hv _ (AC_sensitivity_IQ φ s) _ ht.det.ne' rfl).trans (congrArg _ hb))).trans ?_
  rw [cpow_half h0.le]
  unfold pdiv
  have : (Real.sqrt (best N s) : ℂ) ≠ 0 := by
    rw [Complex.ofReal_ne_zero]
    exact (Real.sqrt_pos.2 h0).ne'
  rw [if_neg this]
  push_cast
  rfl

/-- The value of the sensitivity at a phase. -/
theorem Dens.limited (h : Dens N) {ψ : ℝ} (ht : homodyne_sensitivity ψ s ≠ 0) :
    AC_noise_limited_sensitivity ψ N s =
      .ok ((Real.sqrt (homodyne_PSD ψ N).re / ‖homodyne_sensitivity ψ s‖ : ℝ) : ℂ) := by
  have hq := h.form (Real.cos_sq_add_sin_sq (rad ψ))
  unfold AC_noise_limited_sensitivity homodyne_ASD pdiv
  have : ((‖homodyne_sensitivity ψ s‖ : ℝ) : ℂ) ≠ 0 := by
    rw [Complex.ofReal_ne_zero]
    exact norm_ne_zero_iff.2 ht
  rw [if_neg this, h.PSD, cpow_half hq.le, Complex.ofReal_re]
  push_cast
  rfl

/-- How much the quadrature at a phase misses. -/
noncomputable def gap (ψ : ℝ) (N : Mat2 ℂ) (s : Fin 2 → ℂ) : ℂ :=
  ((Real.cos (rad ψ) * (N 0 0).re + Real.sin (rad ψ) * (N 0 1).re : ℝ) : ℂ) * s 1 -
    ((Real.cos (rad ψ) * (N 0 1).re + Real.sin (rad ψ) * (N 1 1).re : ℝ) : ℂ) * s 0

/-- The Cauchy-Schwarz inequality with its gap. -/
theorem Dens.key (h : Dens N) (ψ : ℝ) : (homodyne_PSD ψ N).re * best N s = ‖homodyne_sensitivity ψ s‖ ^ 2 +
    ‖gap ψ N s‖ ^ 2 / ((N 0 0).re * (N 1 1).re - (N 0 1).re ^ 2) := by
  have hd := h.det.ne'
  rw [h.PSD, Complex.ofReal_re]
  rw [← Complex.normSq_eq_norm_sq, ← Complex.normSq_eq_norm_sq]
  unfold gap best homodyne_sensitivity
  simp only [AC_sensitivity_IQ, Matrix.cons_val_zero]
  generalize (N 0 0).re = a at *
  generalize (N 0 1).re = b at *
  generalize (N 1 1).re = d at *
  generalize Real.cos (rad ψ) = c at *
  generalize Real.sin (rad ψ) = t at *
  generalize s 0 = x
  generalize s 1 = y
  obtain ⟨x0, x1⟩ := x
  obtain ⟨y0, y1⟩ := y
  simp only [Complex.normSq_apply, Complex.add_re, Complex.add_im, Complex.mul_re, Complex.mul_im, Complex.ofReal_re,
    Complex.ofReal_im, Complex.sub_re, Complex.sub_im, Complex.star_def, Complex.conj_re, Complex.conj_im]
  field_simp
  ring

/-- **C84**: no phase gives a smaller noise limited sensitivity than `AC_noise_limited_sensitivity_optimal`, at whatever
phase the readout is that is asked. -/
theorem C84_bound (h : Dens N) {φ ψ : ℝ} (ht : homodyne_sensitivity ψ s ≠ 0) : ∃ o n : ℝ,
    AC_noise_limited_sensitivity_optimal φ N s = .ok (o : ℂ) ∧ AC_noise_limited_sensitivity ψ N s = .ok (n : ℂ) ∧
    0 < o ∧ o ≤ n := by
  have hs : s 0 ≠ 0 ∨ s 1 ≠ 0 := by
    by_contra hc
    push Not at hc
    apply ht
    simp [homodyne_sensitivity, AC_sensitivity_IQ, hc.1, hc.2]
  have hb := h.best_pos hs
  have hk := h.key (s := s) ψ
  refine ⟨_, _, h.optimal φ hs, h.limited ht, by positivity, ?_⟩
  have hT : 0 < ‖homodyne_sensitivity ψ s‖ := norm_pos_iff.2 ht
  rw [div_le_div_iff₀ (Real.sqrt_pos.2 hb) hT, one_mul]
  have hq := h.form (Real.cos_sq_add_sin_sq (rad ψ))
  rw [← Real.sqrt_mul (by rw [h.PSD, Complex.ofReal_re]; exact hq.le)]
  apply Real.le_sqrt_of_sq_le
  rw [hk]
  have : 0 ≤ ‖gap ψ N s‖ ^ 2 / ((N 0 0).re * (N 1 1).re - (N 0 1).re ^ 2) := div_nonneg (sq_nonneg _) h.det.le
  linarith

/-- Without a gap the bound is attained, and only then. -/
theorem Dens.attained (h : Dens N) (hs : s 0 ≠ 0 ∨ s 1 ≠ 0) (φ ψ : ℝ) :
    AC_noise_limited_sensitivity ψ N s = AC_noise_limited_sensitivity_optimal φ N s ↔ gap ψ N s = 0 := by
  have hb := h.best_pos hs
  have hk := h.key (s := s) ψ
  have hq := h.form (Real.cos_sq_add_sin_sq (rad ψ))
  have hq' : 0 < (homodyne_PSD ψ N).re := by
    rw [h.PSD, Complex.ofReal_re]
    exact hq
  have hbs := Real.sqrt_pos.2 hb
  rw [h.optimal φ hs]
  constructor
  · intro he
    by_cases ht : homodyne_sensitivity ψ s = 0
    · unfold AC_noise_limited_sensitivity pdiv at he
      rw [ht, norm_zero, if_pos (by norm_num)] at he
      cases he
    have hT : 0 < ‖homodyne_sensitivity ψ s‖ := norm_pos_iff.2 ht
    rw [h.limited ht] at he
    injection he with he
    have he := Complex.ofReal_injective he
    rw [div_eq_div_iff hT.ne' hbs.ne', one_mul, ← Real.sqrt_mul hq'.le] at he
    rw [← he, Real.sq_sqrt (by positivity)] at hk
    have : ‖gap ψ N s‖ ^ 2 / ((N 0 0).re * (N 1 1).re - (N 0 1).re ^ 2) = 0 := by linarith
    rcases div_eq_zero_iff.1 this with h1 | h1
    · exact norm_eq_zero.1 (pow_eq_zero_iff (two_ne_zero)|>.1 h1)
    · exact absurd h1 h.det.ne'
  · intro hg
    rw [hg, norm_zero] at hk
    have hk : (homodyne_PSD ψ N).re * best N s = ‖homodyne_sensitivity ψ s‖ ^ 2 := by
      rw [hk]
      ring
    have ht : homodyne_sensitivity ψ s ≠ 0 := by
      intro h0
      rw [h0, norm_zero] at hk
      have := mul_pos hq' hb
      nlinarith
    have hT : 0 < ‖homodyne_sensitivity ψ s‖ := norm_pos_iff.2 ht
    rw [h.limited ht]
    congr 2
    rw [div_eq_div_iff hT.ne' hbs.ne', one_mul, ← Real.sqrt_mul hq'.le, hk, Real.sqrt_sq hT.le]

theorem arg_cos_sin {x : ℂ} (hx : x ≠ 0) : Real.cos (rad (Complex.arg x * 180 / Real.pi)) = x.re / ‖x‖ ∧
    Real.sin (rad (Complex.arg x * 180 / Real.pi)) = x.im / ‖x‖ := by
  rw [mul_comm (Complex.arg x), rad_deg, Complex.cos_arg hx, Complex.sin_arg]
  exact ⟨rfl, rfl⟩

/-- **C84**: a phase attains the optimal sensitivity exactly if the sensitivities of the two quadratures are in phase
(or opposite). -/
theorem C84_attained (h : Dens N) (hs : s 0 ≠ 0 ∨ s 1 ≠ 0) (φ : ℝ) :
    (∃ ψ, AC_noise_limited_sensitivity ψ N s = AC_noise_limited_sensitivity_optimal φ N s) ↔ (s 0 * star (s 1)).im = 0 := by
  have hp := h.pos
  have hd := h.det
  constructor
  · rintro ⟨ψ, hψ⟩
    have hg := (h.attained hs φ ψ).1 hψ
    have hq := h.form (Real.cos_sq_add_sin_sq (rad ψ))
    unfold gap at hg
    generalize hw0 : Real.cos (rad ψ) * (N 0 0).re + Real.sin (rad ψ) * (N 0 1).re = w0 at *
    generalize hw1 : Real.cos (rad ψ) * (N 0 1).re + Real.sin (rad ψ) * (N 1 1).re = w1 at *
    have hw : w0 ≠ 0 ∨ w1 ≠ 0 := by
      by_contra hc
      push Not at hc
      have : Real.cos (rad ψ) * w0 + Real.sin (rad ψ) * w1 = 0 := by
        rw [hc.1, hc.2]
        ring
      rw [← hw0, ← hw1] at this
      nlinarith
    generalize s 0 = x at *
    generalize s 1 = y at *
    obtain ⟨x0, x1⟩ := x
    obtain ⟨y0, y1⟩ := y
    simp only [Complex.ext_iff, Complex.sub_re, Complex.sub_im, Complex.mul_re, Complex.mul_im, Complex.ofReal_re,
      Complex.ofReal_im, Complex.zero_re, Complex.zero_im, Complex.star_def, Complex.conj_re, Complex.conj_im] at *
    obtain ⟨g0, g1⟩ := hg
    rcases hw with hw | hw
    · apply mul_left_cancel₀ hw
      linear_combination x1 * g0 - x0 * g1
    · apply mul_left_cancel₀ hw
      linear_combination y1 * g0 - y0 * g1
  · intro hr
    have : ∃ (z : ℂ) (p0 p1 : ℝ), s 0 = z * p0 ∧ s 1 = z * p1 ∧ (p0 ≠ 0 ∨ p1 ≠ 0) := by
      by_cases h0 : s 0 = 0
      · exact ⟨s 1, 0, 1, by simp [h0], by simp, Or.inr one_ne_zero⟩
      · refine ⟨s 0, 1, (s 1 / s 0).re, by simp, ?_, Or.inl one_ne_zero⟩
        have : (s 1 / s 0).im = 0 := by
          rw [Complex.div_im]
          simp only [Complex.star_def, Complex.mul_im, Complex.conj_re, Complex.conj_im] at hr
          have : (s 1).im * (s 0).re - (s 1).re * (s 0).im = 0 := by linarith
          rw [← sub_div, this, zero_div]
        have h2 : s 1 / s 0 = ((s 1 / s 0).re : ℂ) := by
          apply Complex.ext
          · rw [Complex.ofReal_re]
          · rw [Complex.ofReal_im, this]
        rw [← h2]
        field_simp
    obtain ⟨z, p0, p1, hz0, hz1, hp01⟩ := this
    set x : ℂ := ⟨(N 1 1).re * p0 - (N 0 1).re * p1, (N 0 0).re * p1 - (N 0 1).re * p0⟩ with hx
    have hx0 : x ≠ 0 := by
      intro h0
      rw [hx, Complex.ext_iff] at h0
      simp only [Complex.zero_re, Complex.zero_im] at h0
      obtain ⟨g0, g1⟩ := h0
      generalize (N 0 0).re = a at *
      generalize (N 0 1).re = b at *
      generalize (N 1 1).re = d at *
      rcases hp01 with hp0 | hp0
      · apply hp0
        apply mul_left_cancel₀ hd.ne'
        linear_combination a * g0 + b * g1
      · apply hp0
        apply mul_left_cancel₀ hd.ne'
        linear_combination b * g0 + d * g1
    obtain ⟨e0, e1⟩ := arg_cos_sin hx0
    refine ⟨_, (h.attained hs φ (Complex.arg x * 180 / Real.pi)).2 ?_⟩
    have hn : (‖x‖ : ℂ) ≠ 0 := by
      rw [Complex.ofReal_ne_zero]
      exact norm_ne_zero_iff.2 hx0
    unfold gap
    rw [e0, e1, hz0, hz1, show x.re = (N 1 1).re * p0 - (N 0 1).re * p1 from rfl,
      show x.im = (N 0 0).re * p1 - (N 0 1).re * p0 from rfl]
    push_cast
    field_simp
    ring

/-- **C84**, part: the phase of `optimal_readout` attains the optimal sensitivity if the densities are real and the
weights which are optimal at the phase of the readout have, up to a common factor, no negative entry.

Missing: the other weights, `C84_readout_refuted`. -/
theorem C84_readout_partial (h : Dens N) {φ : ℝ} {z : ℂ} {p : Fin 2 → ℝ} (hp : ∀ i, 0 ≤ p i)
    (hN : ∀ i j, (AC_CSD_IQ φ N i j).im = 0) (hs : s 0 ≠ 0 ∨ s 1 ≠ 0)
    (hw : ∀ i, AC_sensitivity_IQ φ s i = ∑ j, AC_CSD_IQ φ N i j * (z * p j)) : ∃ ψ,
    optimal_readout φ N s = .ok ψ ∧
    AC_noise_limited_sensitivity ψ N s = AC_noise_limited_sensitivity_optimal φ N s := by
  have ht := h.turn φ
  have hb := h.best_turn (s := s) φ
  have hre : ∀ i j, AC_CSD_IQ φ N i j = ((AC_CSD_IQ φ N i j).re : ℂ) := fun i j => by
    apply Complex.ext
    · rw [Complex.ofReal_re]
    · rw [Complex.ofReal_im, hN]
  have hdet : (AC_CSD_IQ φ N).det ≠ 0 := by
    rw [Matrix.det_fin_two, hre 0 0, hre 0 1, hre 1 0, hre 1 1, ht.re]
    intro h0
    have h0 : (((AC_CSD_IQ φ N 0 0).re * (AC_CSD_IQ φ N 1 1).re - (AC_CSD_IQ φ N 0 1).re ^ 2 : ℝ) : ℂ) = 0 := by
      push_cast
      linear_combination h0
    exact ht.det.ne' (Complex.ofReal_eq_zero.1 h0)
  have hS : ∀ i, ∑ j, (AC_CSD_IQ φ N)⁻¹ i j * AC_sensitivity_IQ φ s j = z * p i := by
    intro i
    have hi : (AC_CSD_IQ φ N)⁻¹ * AC_CSD_IQ φ N = 1 := Matrix.nonsing_inv_mul _ (isUnit_iff_ne_zero.2 hdet)
    have h1 : ∀ k, ∑ j, (AC_CSD_IQ φ N)⁻¹ i j * AC_CSD_IQ φ N j k = if i = k then 1 else 0 := fun k => by
      rw [← Matrix.mul_apply, hi, Matrix.one_apply]
    have h2 := h1 0
    have h3 := h1 1
    simp only [Fin.sum_univ_two] at h2 h3 ⊢
    rw [hw, hw]
    simp only [Fin.sum_univ_two]
    fin_cases i
    · simp at h2 h3 ⊢
      linear_combination z * p 0 * h2 + z * p 1 * h3
    · simp at h2 h3 ⊢
      linear_combination z * p 0 * h2 + z * p 1 * h3
  have hs' : AC_sensitivity_IQ φ s 0 ≠ 0 ∨ AC_sensitivity_IQ φ s 1 ≠ 0 := by
    by_contra hc
    push Not at hc
    have e1 := (C82_turn φ (-φ) N s).2
    have e2 : s 0 = AC_sensitivity_IQ (φ + -φ) s 0 ∧ s 1 = AC_sensitivity_IQ (φ + -φ) s 1 := by
      rw [add_neg_cancel]
      simp [AC_sensitivity_IQ, rad]
    rw [← e1] at e2
    simp [AC_sensitivity_IQ] at e2 hc
    rcases hs with hs | hs
    · exact hs (by rw [e2.1, hc.1, hc.2]; ring)
    · exact hs (by rw [e2.2, hc.1, hc.2]; ring)
  have hz : z ≠ 0 ∧ (p 0 ≠ 0 ∨ p 1 ≠ 0) := by
    constructor
    · intro h0
      have : ∀ i, AC_sensitivity_IQ φ s i = 0 := fun i => by
        rw [hw, h0]
        simp
      exact hs'.elim (fun h => h (this 0)) (fun h => h (this 1))
    · by_contra hc
      push Not at hc
      have : ∀ i, AC_sensitivity_IQ φ s i = 0 := fun i => by
        rw [hw]
        simp [hc.1, hc.2]
      exact hs'.elim (fun h => h (this 0)) (fun h => h (this 1))
  have hnz : 0 < ‖z‖ := norm_pos_iff.2 hz.1
  set x : ℂ := ⟨‖z‖ * p 0, ‖z‖ * p 1⟩ with hx
  have hx0 : x ≠ 0 := by
    rw [hx]
    intro h0
    rw [Complex.ext_iff] at h0
    rcases hz.2 with h1 | h1
    · exact mul_ne_zero hnz.ne' h1 h0.1
    · exact mul_ne_zero hnz.ne' h1 h0.2
  obtain ⟨e0, e1⟩ := arg_cos_sin hx0
  have hr : optimal_readout φ N s = .ok (φ + Complex.arg x * 180 / Real.pi) := by
    unfold optimal_readout AC_optimal_readout_deg linalg_inv
    rw [if_neg hdet]
    have n : ∀ i, ‖∑ j, (AC_CSD_IQ φ N)⁻¹ i j * AC_sensitivity_IQ φ s j‖ = ‖z‖ * p i := fun i => by
      rw [hS, norm_mul, Complex.norm_real, Real.norm_of_nonneg (hp i)]
    change Except.ok (φ + Complex.arg ⟨‖∑ j, (AC_CSD_IQ φ N)⁻¹ 0 j * AC_sensitivity_IQ φ s j‖,
      ‖∑ j, (AC_CSD_IQ φ N)⁻¹ 1 j * AC_sensitivity_IQ φ s j‖⟩ * 180 / Real.pi) = _
    rw [n, n]
  refine ⟨_, hr, ?_⟩
  have e2 : AC_noise_limited_sensitivity (φ + Complex.arg x * 180 / Real.pi) N s =
      AC_noise_limited_sensitivity (Complex.arg x * 180 / Real.pi) (AC_CSD_IQ φ N) (AC_sensitivity_IQ φ s) := by
    unfold AC_noise_limited_sensitivity homodyne_ASD homodyne_PSD homodyne_sensitivity
    rw [(C82_turn φ _ N s).1, (C82_turn φ _ N s).2]
  have e3 : AC_noise_limited_sensitivity_optimal φ N s =
      AC_noise_limited_sensitivity_optimal 0 (AC_CSD_IQ φ N) (AC_sensitivity_IQ φ s) := by
    rw [h.optimal φ hs, ht.optimal 0 hs', hb]
  rw [e2, e3, ht.attained hs']
  have hn : (‖x‖ : ℂ) ≠ 0 := by
    rw [Complex.ofReal_ne_zero]
    exact norm_ne_zero_iff.2 hx0
  unfold gap
  rw [e0, e1, hw, hw, show x.re = ‖z‖ * p 0 from rfl, show x.im = ‖z‖ * p 1 from rfl]
  simp only [Fin.sum_univ_two]
  rw [hre 0 0, hre 0 1, hre 1 0, hre 1 1, ht.re]
  simp only [Complex.ofReal_re]
  push_cast
  field_simp
  ring

/-- **C84**, refuted: for quadratures of opposite sensitivity and equal, uncorrelated densities, the phase of
`optimal_readout` is blind: the absolute values lose the signs of the weights. -/
theorem C84_readout_refuted : ∃ (N : Mat2 ℂ) (s : Fin 2 → ℂ) (ψ : ℝ), Dens N ∧ (s 0 * star (s 1)).im = 0 ∧ s 0 ≠ 0 ∧
    optimal_readout 0 N s = .ok ψ ∧ homodyne_sensitivity ψ s = 0 ∧
    AC_noise_limited_sensitivity ψ N s = .error .zeroDivision ∧
    ∃ χ, AC_noise_limited_sensitivity χ N s = AC_noise_limited_sensitivity_optimal 0 N s := by
  have hD : Dens (1 : Mat2 ℂ) := ⟨fun i j => by fin_cases i <;> fin_cases j <;> simp, by simp, by simp⟩
  have hA : AC_CSD_IQ 0 (1 : Mat2 ℂ) = 1 := by
    ext i j
    fin_cases i <;> fin_cases j <;> simp [AC_CSD_IQ, rotate, rotation_matrix, rad]
  have hz : ∀ ψ : ℝ, Real.cos (rad ψ) = Real.sin (rad ψ) → homodyne_sensitivity ψ ![1, -1] = 0 := fun ψ h => by
    simp only [homodyne_sensitivity, AC_sensitivity_IQ, Matrix.cons_val_zero, Matrix.cons_val_one, h]
    ring
  have hx0 : (⟨1, 1⟩ : ℂ) ≠ 0 := fun h => by
    rw [Complex.ext_iff] at h
    simp at h
  have hb : homodyne_sensitivity (Complex.arg ⟨1, 1⟩ * 180 / Real.pi) ![1, -1] = 0 := by
    refine hz _ ?_
    obtain ⟨e0, e1⟩ := arg_cos_sin hx0
    rw [e0, e1]
  refine ⟨1, ![1, -1], 0 + Complex.arg ⟨1, 1⟩ * 180 / Real.pi, hD, by simp, by simp, ?_, ?_, ?_, ?_⟩
  · unfold optimal_readout AC_optimal_readout_deg linalg_inv
    rw [hA, if_neg (by simp)]
    change Except.ok _ = _
    simp [Fin.sum_univ_two, AC_sensitivity_IQ, rad]
  · rw [zero_add]
    exact hb
  · unfold AC_noise_limited_sensitivity pdiv
    rw [zero_add, hb, if_pos (by simp)]
  · exact (C84_attained hD (Or.inl (by simp)) 0).2 (by simp)

end Readout
