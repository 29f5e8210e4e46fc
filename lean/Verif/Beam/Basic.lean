import Verif.Beam.Model
import Verif.Cplx.Props
import Mathlib.LinearAlgebra.Matrix.Notation
import Mathlib.LinearAlgebra.Matrix.Determinant.Basic

/-!
# Beams over the real numbers
-/

namespace Alm
open Py Cplx

/-- The square root of a float. -/
noncomputable def rsqrt (x : ℝ) : Except Err ℝ := if x < 0 then .error .valueError else .ok (Real.sqrt x)

theorem bind_ok {α β : Type} (a : α) (f : α → Except Err β) : (Except.ok a >>= f) = f a := rfl

theorem pydiv_ok {x y : ℝ} (h : y ≠ 0) : pydiv x y = .ok (x / y) := if_neg h

theorem rsqrt_ok {x : ℝ} (h : 0 ≤ x) : rsqrt x = .ok (Real.sqrt x) := if_neg (not_lt.mpr h)

/-- The matrix that a `Mat` stands for. -/
def toM (m : Mat ℝ) : Matrix (Fin 2) (Fin 2) ℝ := !![m.a, m.b; m.c, m.d]

theorem toM_mul (m n : Mat ℝ) : toM (Mat.mul m n) = toM m * toM n := by
  unfold toM Mat.mul
  rw [Matrix.mul_fin_two]

theorem toM_eye : toM (Mat.eye : Mat ℝ) = 1 := by
  unfold toM Mat.eye
  rw [Matrix.one_fin_two]

theorem toM_det (m : Mat ℝ) : (toM m).det = m.a * m.d - m.b * m.c := by
  unfold toM
  rw [Matrix.det_fin_two_of]

theorem toM_inj {m n : Mat ℝ} (h : toM m = toM n) : m = n := by
  have h00 := congrFun (congrFun h 0) 0
  have h01 := congrFun (congrFun h 0) 1
  have h10 := congrFun (congrFun h 1) 0
  have h11 := congrFun (congrFun h 1) 1
  cases m; cases n
  simp [toM] at h00 h01 h10 h11
  simp [*]

namespace Beam

/-- A physical beam: the wavelength and the Rayleigh range have the same sign, so that the beam has a size. -/
def Phys (q : Beam ℝ) : Prop := 0 < q.wavelen * q.value.im

theorem Phys.im_ne {q : Beam ℝ} (h : Phys q) : q.value.im ≠ 0 := by
  rintro h0
  unfold Phys at h
  rw [h0, mul_zero] at h
  exact lt_irrefl _ h

theorem Phys.wavelen_ne {q : Beam ℝ} (h : Phys q) : q.wavelen ≠ 0 := by
  rintro h0
  unfold Phys at h
  rw [h0, zero_mul] at h
  exact lt_irrefl _ h

theorem den_pos {z : Cx ℝ} (h : z.im ≠ 0) : 0 < z.re * z.re + z.im * z.im := by
  have := mul_self_pos.mpr h
  have := mul_self_nonneg z.re
  linarith

theorem inv_eq {z : Cx ℝ} (h : z.im ≠ 0) :
    rdiv z (.num 1) = .ok ⟨z.re / (z.re * z.re + z.im * z.im), -z.im / (z.re * z.re + z.im * z.im)⟩ := by
  have hd := den_pos h
  unfold rdiv
  dsimp only [Arg.parts]
  rw [if_neg (ne_of_gt hd)]
  congr 2 <;> ring

/-- The square of the beam size. -/
noncomputable def w2 (q : Beam ℝ) : ℝ :=
  q.wavelen * (q.value.re * q.value.re + q.value.im * q.value.im) / (q.value.im * Real.pi)

theorem w2_pos {q : Beam ℝ} (h : Phys q) : 0 < w2 q := by
  have hd := den_pos h.im_ne
  have hp := Real.pi_pos
  have h2 : w2 q = (q.wavelen * q.value.im) * (q.value.re * q.value.re + q.value.im * q.value.im) /
      ((q.value.im * q.value.im) * Real.pi) := by
    unfold w2
    have := h.im_ne
    field_simp
  rw [h2]
  have : 0 < q.value.im * q.value.im := mul_self_pos.mpr h.im_ne
  exact div_pos (mul_pos h hd) (mul_pos this hp)

theorem W_eq {q : Beam ℝ} (h : Phys q) : q.W Real.pi rsqrt = .ok (Real.sqrt (w2 q)) := by
  have hd := den_pos h.im_ne
  have hp := Real.pi_pos
  unfold W
  rw [inv_eq h.im_ne]
  show (do let x ← pydiv (-q.wavelen) (-q.value.im / (q.value.re * q.value.re + q.value.im * q.value.im) * Real.pi); rsqrt x) = _
  have hne : -q.value.im / (q.value.re * q.value.re + q.value.im * q.value.im) * Real.pi ≠ 0 :=
    mul_ne_zero (div_ne_zero (neg_ne_zero.mpr h.im_ne) (ne_of_gt hd)) (ne_of_gt hp)
  unfold pydiv
  rw [if_neg hne]
  show rsqrt _ = _
  have e : -q.wavelen / (-q.value.im / (q.value.re * q.value.re + q.value.im * q.value.im) * Real.pi) = w2 q := by
    unfold w2
    have h1 := h.im_ne
    have h2 := ne_of_gt hd
    rw [div_eq_div_iff hne (mul_ne_zero h1 (ne_of_gt hp))]
    rw [div_mul_eq_mul_div, mul_div_assoc', eq_div_iff h2]
    ring
  rw [e]
  unfold rsqrt
  rw [if_neg (not_lt.mpr (le_of_lt (w2_pos h)))]

theorem Rinv_eq {q : Beam ℝ} (h : Phys q) :
    q.R_inv = .ok (q.value.re / (q.value.re * q.value.re + q.value.im * q.value.im)) := by
  unfold R_inv
  rw [inv_eq h.im_ne]
  rfl

theorem toC_ne {z : Cx ℝ} (h : z.im ≠ 0) : toC z ≠ 0 := by
  intro h0
  have := congrArg Complex.im h0
  exact h this

theorem lin_eq (z : Cx ℝ) (a b : ℝ) : toC (add (mul z (.num a)) (.num b)) = a * toC z + b := by
  apply Complex.ext
  · simp [toC, add, mul, Arg.parts]; ring
  · simp [toC, add, mul, Arg.parts]; ring

theorem den_ne {z : Cx ℝ} (h : z.im ≠ 0) {a b c d : ℝ} (hdet : a * d - b * c ≠ 0) : (c : ℂ) * toC z + d ≠ 0 := by
  intro h0
  have hi := congrArg Complex.im h0
  have hr := congrArg Complex.re h0
  simp [toC] at hi hr
  rcases hi with hi | hi
  · rw [hi, zero_mul, zero_add] at hr
    rw [hi, hr] at hdet
    simp at hdet
  · exact h hi

/-- The Rayleigh range after a matrix. -/
theorem im_map (q : ℂ) (a b c d : ℝ) : ((a * q + b) / (c * q + d)).im = (a * d - b * c) * q.im / Complex.normSq (c * q + d) := by
  rw [Complex.div_im]
  simp
  ring

/-- What `propagate_matrix` returns. -/
theorem propagate_eq {q : Beam ℝ} (h : Phys q) (m : Mat ℝ) (hm : m.a * m.d - m.b * m.c ≠ 0) :
    ∃ q', q.propagate_matrix Real.pi rsqrt m = .ok q' ∧
      toC q'.value = (m.a * toC q.value + m.b) / (m.c * toC q.value + m.d) ∧
      q'.wavelen = q.wavelen * (m.a * m.d - m.b * m.c) ∧
      toC q'.gouy = toC q.gouy * ((Real.pi * w2 q : ℝ) * (starRingEnd ℂ) (m.a + m.b / toC q.value)) ∧ Phys q' := by
  have hw := w2_pos h
  have hp := Real.pi_pos
  obtain ⟨v, hv, hvC⟩ := (C32_div (add (mul q.value (.num m.a)) (.num m.b))
    (.cx (add (mul q.value (.num m.c)) (.num m.d)))).1 (by
      show toC _ ≠ 0
      rw [lin_eq]
      exact den_ne h.im_ne hm)
  rw [lin_eq] at hvC
  replace hvC : toC v = _ / toC _ := hvC
  rw [lin_eq] at hvC
  refine ⟨⟨v, q.wavelen * (m.a * m.d - m.b * m.c), mul q.gouy (.cx ⟨(m.a + m.b * (q.value.re / (q.value.re * q.value.re + q.value.im * q.value.im))) * Real.pi *
    (Real.sqrt (w2 q) * Real.sqrt (w2 q)), q.wavelen * m.b⟩)⟩, ?_, hvC, rfl, ?_, ?_⟩
  · unfold propagate_matrix
    dsimp only
    rw [Rinv_eq h, W_eq h]
    show (do let v ← div _ _; _) = _
    rw [hv]
    rfl
  · have hd := den_pos h.im_ne
    rw [(C32_mul _ _).1]
    congr 1
    show toC _ = _
    rw [Real.mul_self_sqrt (le_of_lt hw)]
    have hz : toC q.value = ⟨q.value.re, q.value.im⟩ := rfl
    have h1 := h.im_ne
    have h2 := ne_of_gt hd
    have h3 := ne_of_gt hp
    apply Complex.ext
    · simp [toC, Complex.div_re, Complex.div_im, Complex.normSq_apply]
      ring
    · simp [toC, Complex.div_re, Complex.div_im, Complex.normSq_apply]
      unfold w2
      field_simp
  · show 0 < _ * v.im
    have : v.im = (m.a * m.d - m.b * m.c) * q.value.im / Complex.normSq (m.c * toC q.value + m.d) := by
      have := congrArg Complex.im hvC
      rw [im_map] at this
      exact this
    rw [this]
    have hn : 0 < Complex.normSq (m.c * toC q.value + m.d) := Complex.normSq_pos.mpr (den_ne h.im_ne hm)
    have e : q.wavelen * (m.a * m.d - m.b * m.c) * ((m.a * m.d - m.b * m.c) * q.value.im / Complex.normSq (m.c * toC q.value + m.d)) =
        ((m.a * m.d - m.b * m.c) * (m.a * m.d - m.b * m.c)) * (q.wavelen * q.value.im) / Complex.normSq (m.c * toC q.value + m.d) := by
      ring
    rw [e]
    exact div_pos (mul_pos (mul_self_pos.mpr hm) h) hn

end Beam
end Alm
