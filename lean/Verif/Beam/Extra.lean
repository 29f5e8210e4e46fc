import Verif.Beam.Basic

/-!
# C46, C47, C48: the root of the sensitivity matrix, reversed beams, lenses and telescopes
-/

namespace Alm
open Py Cplx

/-- The square root formula for a symmetric positive matrix. -/
theorem sqrt_formula (a b d s t : ℝ) (hs : s * s = a * d - b * b) (ht : t * t = a + d + 2 * s) (ht0 : t ≠ 0) :
    (a + s) / t * ((a + s) / t) + b / t * (b / t) = a ∧ (a + s) / t * (b / t) + b / t * ((d + s) / t) = b ∧
    b / t * (b / t) + (d + s) / t * ((d + s) / t) = d := by
  have h2 : t * t ≠ 0 := mul_ne_zero ht0 ht0
  refine ⟨?_, ?_, ?_⟩
  · rw [div_mul_div_comm, div_mul_div_comm, ← add_div, div_eq_iff h2, ht]
    linear_combination hs
  · rw [div_mul_div_comm, div_mul_div_comm, ← add_div, div_eq_iff h2, ht]
    ring
  · rw [div_mul_div_comm, div_mul_div_comm, ← add_div, div_eq_iff h2, ht]
    linear_combination hs

namespace Beam

/-- **C46.** The sensitivity matrix of a physical beam is negative definite, and `sensitivity_matrix_sqrt` is the symmetric positive
definite matrix whose square is its negative. -/
theorem C46_sqrt (q : Beam ℝ) (hl : 0 < q.wavelen) (hz : 0 < q.ZR) :
    ∃ S X, q.sensitivity_matrix Real.pi = .ok S ∧ q.sensitivity_matrix_sqrt Real.pi rsqrt = .ok X ∧
      toM X * toM X = -toM S ∧ (toM X).transpose = toM X ∧ 0 < (toM X).det ∧ 0 < X.a ∧ S.a < 0 ∧ 0 < (toM S).det := by
  have hp := Real.pi_pos
  have hk : 0 < 2 * Real.pi / q.wavelen := div_pos (by linarith) hl
  have hzr : 0 < q.value.im := hz
  obtain ⟨f, hf⟩ : ∃ f, f = -(2 * Real.pi / q.wavelen) / (4 * q.value.im) := ⟨_, rfl⟩
  have hf0 : f < 0 := by rw [hf]; exact div_neg_of_neg_of_pos (by linarith) (by linarith)
  have hSM : q.sensitivity_matrix Real.pi = .ok ⟨f * 1, f * -q.value.re, f * -q.value.re,
      f * (-q.value.re * -q.value.re + q.value.im * q.value.im)⟩ := by
    unfold sensitivity_matrix k
    rw [pydiv_ok (ne_of_gt hl), bind_ok]
    have h4 : 4 * q.ZR ≠ 0 := mul_ne_zero four_ne_zero (ne_of_gt hz)
    rw [pydiv_ok h4, hf]
    rfl
  obtain ⟨a, ha⟩ : ∃ a, a = -(f * 1) := ⟨_, rfl⟩
  obtain ⟨b, hb⟩ : ∃ b, b = -(f * -q.value.re) := ⟨_, rfl⟩
  obtain ⟨d, hd⟩ : ∃ d, d = -(f * (-q.value.re * -q.value.re + q.value.im * q.value.im)) := ⟨_, rfl⟩
  have hdet : a * d - b * b = (f * q.value.im) * (f * q.value.im) := by rw [ha, hb, hd]; ring
  have hdet0 : 0 < a * d - b * b := by
    rw [hdet]
    exact mul_self_pos.mpr (mul_ne_zero (ne_of_lt hf0) (ne_of_gt hzr))
  have ha0 : 0 < a := by rw [ha]; linarith
  have hd0 : 0 < d := by
    by_contra hn
    have : a * d ≤ 0 := mul_nonpos_of_nonneg_of_nonpos (le_of_lt ha0) (not_lt.mp hn)
    nlinarith [mul_self_nonneg b]
  obtain ⟨s, hs⟩ : ∃ s, s = Real.sqrt (a * d - b * b) := ⟨_, rfl⟩
  have hss : s * s = a * d - b * b := by rw [hs]; exact Real.mul_self_sqrt (le_of_lt hdet0)
  have hs0 : 0 < s := by rw [hs]; exact Real.sqrt_pos.mpr hdet0
  have ht0 : 0 < a + d + 2 * s := by linarith
  obtain ⟨t, ht⟩ : ∃ t, t = Real.sqrt (a + d + 2 * s) := ⟨_, rfl⟩
  have htt : t * t = a + d + 2 * s := by rw [ht]; exact Real.mul_self_sqrt (le_of_lt ht0)
  have htp : 0 < t := by rw [ht]; exact Real.sqrt_pos.mpr ht0
  refine ⟨_, ⟨(a + s) / t, b / t, b / t, (d + s) / t⟩, hSM, ?_, ?_, ?_, ?_, ?_, ?_, ?_⟩
  · unfold sensitivity_matrix_sqrt
    rw [hSM]
    rw [bind_ok]
    dsimp only
    rw [← ha, ← hb, ← hd, rsqrt_ok (le_of_lt hdet0), ← hs, bind_ok, rsqrt_ok (le_of_lt ht0), ← ht, bind_ok]
    simp only [pydiv_ok (ne_of_gt htp), bind_ok]
    rfl
  · obtain ⟨h1, h2, h3⟩ := sqrt_formula a b d s t hss htt (ne_of_gt htp)
    rw [← toM_mul]
    have e : Mat.mul (⟨(a + s) / t, b / t, b / t, (d + s) / t⟩ : Mat ℝ) ⟨(a + s) / t, b / t, b / t, (d + s) / t⟩ = ⟨a, b, b, d⟩ := by
      unfold Mat.mul
      dsimp only
      rw [h1, h2, h3]
      have : b / t * ((a + s) / t) + (d + s) / t * (b / t) = b := by linarith
      rw [this]
    rw [e, ha, hb, hd]
    unfold toM
    ext i j
    fin_cases i <;> fin_cases j <;> simp
  · unfold toM
    ext i j
    fin_cases i <;> fin_cases j <;> simp
  · rw [toM_det]
    show 0 < (a + s) / t * ((d + s) / t) - b / t * (b / t)
    rw [div_mul_div_comm, div_mul_div_comm, ← sub_div]
    apply div_pos _ (mul_pos htp htp)
    nlinarith [mul_pos ha0 hs0, mul_pos hd0 hs0]
  · exact div_pos (by linarith) htp
  · show f * 1 < 0
    linarith
  · rw [toM_det]
    show 0 < f * 1 * (f * (-q.value.re * -q.value.re + q.value.im * q.value.im)) - f * -q.value.re * (f * -q.value.re)
    have : f * 1 * (f * (-q.value.re * -q.value.re + q.value.im * q.value.im)) - f * -q.value.re * (f * -q.value.re) = a * d - b * b := by
      rw [ha, hb, hd]; ring
    rw [this]
    exact hdet0

/-- **C47.** Reversing twice gives the beam back, and reversing keeps the size and turns the curvature around. -/
theorem C47_reversed (q : Beam ℝ) (hl : 0 < q.wavelen) (hz : 0 < q.ZR) :
    q.reversed.reversed = q ∧ q.reversed.Z = -q.Z ∧ q.reversed.ZR = q.ZR ∧ q.reversed.wavelen = q.wavelen ∧
    q.reversed.W Real.pi rsqrt = q.W Real.pi rsqrt ∧ ∃ r, q.R_inv = .ok r ∧ q.reversed.R_inv = .ok (-r) := by
  have hZ : q.reversed.value.re = -q.value.re := rfl
  have hZR : q.reversed.value.im = q.value.im := by
    show - -q.value.im = _
    rw [neg_neg]
  have hq : Phys q := mul_pos hl hz
  have hr : Phys q.reversed := by
    show 0 < q.wavelen * q.reversed.value.im
    rw [hZR]; exact hq
  refine ⟨?_, rfl, hZR, rfl, ?_, ?_⟩
  · obtain ⟨⟨x, y⟩, l, g⟩ := q
    show (⟨⟨- -x, - - - -y⟩, l, g⟩ : Beam ℝ) = _
    rw [neg_neg, neg_neg, neg_neg]
  · rw [W_eq hq, W_eq hr]
    congr 2
    show q.wavelen * (q.reversed.value.re * q.reversed.value.re + q.reversed.value.im * q.reversed.value.im) / (q.reversed.value.im * Real.pi) = _
    rw [hZ, hZR]
    unfold w2
    ring
  · refine ⟨_, Rinv_eq hq, ?_⟩
    rw [Rinv_eq hr, hZ, hZR]
    congr 1
    ring

/-- **C47.** A beam that went through `m` and is reversed comes back: going through the system the other way round, whose matrix has
`a` and `d` exchanged and is divided by the determinant, gives the reverse of the original beam at the original wavelength. -/
theorem C47_return (q : Beam ℝ) (hl : 0 < q.wavelen) (hz : 0 < q.ZR) (m n : Mat ℝ) (hm : 0 < (toM m).det)
    (hn : toM n = (toM m).det⁻¹ • !![m.d, m.b; m.c, m.a]) :
    ∃ q1 q2, q.propagate_matrix Real.pi rsqrt m = .ok q1 ∧ q1.reversed.propagate_matrix Real.pi rsqrt n = .ok q2 ∧
      q2.value = q.reversed.value ∧ q2.wavelen = q.wavelen := by
  rw [toM_det] at hm hn
  obtain ⟨D, hD⟩ : ∃ D, D = m.a * m.d - m.b * m.c := ⟨_, rfl⟩
  rw [← hD] at hm hn
  have hD0 := ne_of_gt hm
  have hnv : n = ⟨D⁻¹ * m.d, D⁻¹ * m.b, D⁻¹ * m.c, D⁻¹ * m.a⟩ := by
    apply toM_inj
    rw [hn]
    unfold toM
    ext i j
    fin_cases i <;> fin_cases j <;> simp
  have hdn : n.a * n.d - n.b * n.c = D⁻¹ := by
    rw [hnv]
    dsimp only
    have : D⁻¹ * m.d * (D⁻¹ * m.a) - D⁻¹ * m.b * (D⁻¹ * m.c) = D⁻¹ * D⁻¹ * (m.a * m.d - m.b * m.c) := by ring
    rw [this, ← hD]
    field_simp
  obtain ⟨q1, e1, v1, l1, g1, p1⟩ := propagate_eq (q := q) (mul_pos hl hz) m (by rw [← hD]; exact hD0)
  have hr : Phys q1.reversed := by
    show 0 < q1.wavelen * - -q1.value.im
    rw [neg_neg]; exact p1
  obtain ⟨q2, e2, v2, l2, g2, p2⟩ := propagate_eq hr n (by rw [hdn]; exact inv_ne_zero hD0)
  refine ⟨q1, q2, e1, e2, ?_, ?_⟩
  · have hrev : ∀ z : Cx ℝ, toC (neg (conjugate z)) = -(starRingEnd ℂ) (toC z) := fun z => rfl
    have hv : toC q2.value = toC q.reversed.value := by
      have h1 : toC q1.reversed.value = -(starRingEnd ℂ) (toC q1.value) := rfl
      have h2 : toC q.reversed.value = -(starRingEnd ℂ) (toC q.value) := rfl
      rw [v2, h1, h2, v1, hnv]
      have hden := den_ne (z := q.value) (ne_of_gt hz) (a := m.a) (b := m.b) (c := m.c) (d := m.d) (by rw [← hD]; exact hD0)
      have hden' : (m.c : ℂ) * (starRingEnd ℂ) (toC q.value) + m.d ≠ 0 := by
        intro h0
        apply hden
        have := congrArg (starRingEnd ℂ) h0
        simpa using this
      have hDC : (D : ℂ) ≠ 0 := Complex.ofReal_ne_zero.mpr hD0
      have hDm : (D : ℂ) = m.a * m.d - m.b * m.c := by rw [hD]; push_cast; ring
      simp only [map_div₀, map_add, map_mul, Complex.conj_ofReal]
      push_cast
      generalize (starRingEnd ℂ) (toC q.value) = w at *
      have hnum : (D : ℂ)⁻¹ * m.d * -((m.a * w + m.b) / (m.c * w + m.d)) + (D : ℂ)⁻¹ * m.b = -w / (m.c * w + m.d) := by
        rw [eq_div_iff hden', add_mul, mul_neg, neg_mul, mul_assoc ((D : ℂ)⁻¹ * m.d), div_mul_cancel₀ _ hden']
        have : -((D : ℂ)⁻¹ * m.d * (m.a * w + m.b)) + (D : ℂ)⁻¹ * m.b * (m.c * w + m.d) = (D : ℂ)⁻¹ * (-(m.a * m.d - m.b * m.c) * w) := by ring
        rw [this, ← hDm]
        field_simp
      have hde : (D : ℂ)⁻¹ * m.c * -((m.a * w + m.b) / (m.c * w + m.d)) + (D : ℂ)⁻¹ * m.a = 1 / (m.c * w + m.d) := by
        rw [eq_div_iff hden', add_mul, mul_neg, neg_mul, mul_assoc ((D : ℂ)⁻¹ * m.c), div_mul_cancel₀ _ hden']
        have : -((D : ℂ)⁻¹ * m.c * (m.a * w + m.b)) + (D : ℂ)⁻¹ * m.a * (m.c * w + m.d) = (D : ℂ)⁻¹ * (m.a * m.d - m.b * m.c) := by ring
        rw [this, ← hDm]
        field_simp
      rw [hnum, hde, div_div_div_cancel_right₀ hden', div_one]
    have := toC_inj.mp hv
    cases h2 : q2.value; cases h3 : q.reversed.value
    rw [h2, h3] at this
    exact congrArg₂ Cx.mk this.1 this.2
  · rw [l2, hdn]
    show q1.wavelen * _ = _
    rw [l1, ← hD]
    field_simp

/-- The hypotheses hold for a beam through an interface. -/
example : ∃ (q : Beam ℝ) (m n : Mat ℝ), 0 < q.wavelen ∧ 0 < q.ZR ∧ 0 < (toM m).det ∧ toM n = (toM m).det⁻¹ • !![m.d, m.b; m.c, m.a] ∧
    (toM m).det ≠ 1 :=
  ⟨⟨⟨1, 2⟩, 1, ⟨1, 0⟩⟩, ⟨1, 0, 0, 1/2⟩, ⟨1, 0, 0, 2⟩, by norm_num, by norm_num [ZR], by rw [toM_det]; norm_num, by
    rw [toM_det]
    unfold toM
    ext i j
    fin_cases i <;> fin_cases j <;> norm_num, by rw [toM_det]; norm_num⟩

end Beam

theorem lens_some {f : ℝ} (h : f ≠ 0) : lens (some f) = .ok ⟨1, 0, -1 / f, 1⟩ := by
  unfold lens
  dsimp only
  rw [pydiv_ok h]
  rfl

theorem lens_zero : lens (some (0 : ℝ)) = .error .zeroDivision := by
  unfold lens pydiv
  dsimp only
  rw [if_pos rfl]
  rfl

/-- **C48.** `matrix_focus` is a thin lens: it images the distances with `1/s + 1/s' = 1/f`, and shifting it by `dL` is going to the
lens and back; every lens has determinant 1 and no lens (`None`) is the identity. -/
theorem C48_focus (f dL : ℝ) (hf : f ≠ 0) :
    (∃ m, matrix_focus (some f) 0 = .ok m ∧
      (∀ s s' : ℝ, s ≠ 0 → s' ≠ 0 → (1 / s + 1 / s' = 1 / f ↔ (toM (matrix_space s') * toM m * toM (matrix_space s)) 0 1 = 0))) ∧
    (∃ m m0, matrix_focus (some f) dL = .ok m ∧ matrix_focus (some f) 0 = .ok m0 ∧
      toM m = toM (matrix_space dL) * toM m0 * toM (matrix_space (-dL)) ∧ (toM m).det = 1) ∧
    matrix_focus (none : Option ℝ) 0 = .ok Mat.eye ∧ matrix_focus (some 0) dL = .error .zeroDivision := by
  have hm0 : matrix_focus (some f) 0 = .ok ⟨1, 0, -1 / f, 1⟩ := by
    unfold matrix_focus
    rw [lens_some hf, bind_ok, if_pos rfl]
    rfl
  refine ⟨⟨_, hm0, ?_⟩, ?_, ?_, ?_⟩
  · intro s s' hs hs'
    rw [← toM_mul, ← toM_mul]
    have : toM (Mat.mul (Mat.mul (matrix_space s') ⟨1, 0, -1 / f, 1⟩) (matrix_space s)) 0 1 = s + s' - s * s' / f := by
      simp [toM, Mat.mul, matrix_space]
      ring
    rw [this]
    constructor
    · intro h
      field_simp at h ⊢
      linarith
    · intro h
      field_simp at h ⊢
      linarith
  · by_cases hd : dL = 0
    · subst hd
      refine ⟨_, _, hm0, hm0, ?_, ?_⟩
      · rw [← toM_mul, ← toM_mul]
        congr 1
        simp [Mat.mul, matrix_space]
      · rw [toM_det]; simp
    · refine ⟨Mat.mul (Mat.mul (matrix_space dL) ⟨1, 0, -1 / f, 1⟩) (matrix_space (-dL)), _, ?_, hm0, ?_, ?_⟩
      · unfold matrix_focus
        rw [lens_some hf, bind_ok, if_neg hd]
        rfl
      · rw [toM_mul, toM_mul]
      · rw [toM_mul, toM_mul, Matrix.det_mul, Matrix.det_mul, toM_det, toM_det, toM_det]
        simp [matrix_space]
  · unfold matrix_focus lens
    rw [bind_ok, if_pos rfl]
    rfl
  · unfold matrix_focus
    rw [lens_zero]
    rfl

/-- **C48.** The telescope is afocal with magnification `R` when it is not detuned, and for every detuning it has determinant 1 and
detuning power `dL / (L1 L2)`. -/
theorem C48_telescope (L1 R dL : ℝ) (hL : L1 ≠ 0) (hR : R ≠ 0) :
    ∃ m, matrix_telescope L1 R dL = .ok m ∧ (toM m).det = 1 ∧ m.c = dL / (L1 * (R * L1)) ∧
      (dL = 0 → m.a = R ∧ m.d = 1 / R ∧ m.c = 0 ∧ m.b = L1 * (1 - R)) := by
  have hLR : -(R * L1) ≠ 0 := neg_ne_zero.mpr (mul_ne_zero hR hL)
  refine ⟨Mat.mul (Mat.mul ⟨1, 0, -1 / -(R * L1), 1⟩ (matrix_space (L1 - R * L1 - dL))) ⟨1, 0, -1 / L1, 1⟩, ?_, ?_, ?_, ?_⟩
  · unfold matrix_telescope matrix_focus
    dsimp only
    rw [lens_some hLR, lens_some hL, bind_ok, bind_ok, if_pos rfl, if_pos rfl]
    rfl
  · rw [toM_mul, toM_mul, Matrix.det_mul, Matrix.det_mul, toM_det, toM_det, toM_det]
    simp [matrix_space]
  · simp [Mat.mul, matrix_space]
    field_simp
    ring
  · intro hd
    subst hd
    refine ⟨?_, ?_, ?_, ?_⟩
    · simp [Mat.mul, matrix_space]; field_simp; ring
    · simp [Mat.mul, matrix_space]; field_simp; ring
    · simp [Mat.mul, matrix_space]; field_simp; ring
    · simp [Mat.mul, matrix_space]; ring

example : ∃ L1 R : ℝ, L1 ≠ 0 ∧ R ≠ 0 := ⟨1, 2, by norm_num, by norm_num⟩

end Alm
