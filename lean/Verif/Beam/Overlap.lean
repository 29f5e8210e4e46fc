import Verif.Beam.Basic
import Mathlib.Analysis.SpecialFunctions.Gaussian.GaussianIntegral

/-!
# C37: the overlap of two beams
-/

namespace Alm
open Py Cplx

namespace Beam

/-- What `overlap_with` returns. -/
theorem overlap_eq {q o : Beam ℝ} (hq : Phys q) (ho : Phys o) (hs : 0 < q.value.im * o.value.im) :
    ∃ z, q.overlap_with Real.pi rsqrt o = .ok z ∧
      toC z = toC q.value * (starRingEnd ℂ) (toC o.value) / ((starRingEnd ℂ) (toC o.value) - toC q.value) *
        (2 * q.wavelen / (Real.sqrt (w2 o) * Real.sqrt (w2 q) * Real.pi) : ℝ) * -Complex.I := by
  have hp := Real.pi_pos
  have hwo := Real.sqrt_pos.mpr (w2_pos ho)
  have hwq := Real.sqrt_pos.mpr (w2_pos hq)
  have hne : toC (sub (conjugate o.value) (.cx q.value)) ≠ 0 := by
    intro h0
    have h1 : -o.value.im - q.value.im = 0 := congrArg Complex.im h0
    have : o.value.im = -q.value.im := by linarith
    rw [this] at hs
    nlinarith [mul_self_nonneg q.value.im]
  obtain ⟨u, hu, huC⟩ := (C32_div (mul q.value (.cx (conjugate o.value))) (.cx (sub (conjugate o.value) (.cx q.value)))).1 hne
  replace huC : toC u = _ / toC _ := huC
  rw [(C32_mul _ _).1, (C32_sub _ _).1] at huC
  refine ⟨mul (mul u (.num (2 * q.wavelen / (Real.sqrt (w2 o) * Real.sqrt (w2 q) * Real.pi)))) (.cx ⟨0, -1⟩), ?_, ?_⟩
  · unfold overlap_with
    rw [hu, W_eq hq, W_eq ho]
    show (do let f ← pydiv _ _; _) = _
    unfold pydiv
    rw [if_neg (ne_of_gt (mul_pos (mul_pos hwo hwq) hp))]
    rfl
  · rw [(C32_mul _ _).1, (C32_mul _ _).1, huC]
    have : argC (.cx (⟨0, -1⟩ : Cx ℝ)) = -Complex.I := by
      apply Complex.ext <;> simp [argC, toC]
    rw [this]
    rfl

/-- The square of the overlap. -/
theorem overlap_normSq {q o : Beam ℝ} (hq : Phys q) (ho : Phys o) (hs : 0 < q.value.im * o.value.im) {z : Cx ℝ}
    (hz : q.overlap_with Real.pi rsqrt o = .ok z) :
    Complex.normSq (toC z) = q.wavelen / o.wavelen * (4 * q.value.im * o.value.im /
      ((q.value.re - o.value.re) ^ 2 + (q.value.im + o.value.im) ^ 2)) := by
  obtain ⟨z', h1, h2⟩ := overlap_eq hq ho hs
  rw [h1] at hz
  injection hz with hz
  subst hz
  have hp := ne_of_gt Real.pi_pos
  have hdq := den_pos hq.im_ne
  have hdo := den_pos ho.im_ne
  have hlq := hq.wavelen_ne
  have hlo := ho.wavelen_ne
  have hiq := hq.im_ne
  have hio := ho.im_ne
  rw [h2]
  simp only [Complex.normSq_mul, Complex.normSq_div, Complex.normSq_conj, Complex.normSq_neg, Complex.normSq_I, mul_one]
  have h3 : Complex.normSq ((2 * q.wavelen / (Real.sqrt (w2 o) * Real.sqrt (w2 q) * Real.pi) : ℝ) : ℂ) =
      4 * (q.wavelen * q.wavelen) / (w2 o * w2 q * (Real.pi * Real.pi)) := by
    rw [Complex.normSq_ofReal, div_mul_div_comm]
    congr 1
    · ring
    · have a := Real.mul_self_sqrt (le_of_lt (w2_pos hq))
      have b := Real.mul_self_sqrt (le_of_lt (w2_pos ho))
      calc _ = (Real.sqrt (w2 o) * Real.sqrt (w2 o)) * (Real.sqrt (w2 q) * Real.sqrt (w2 q)) * (Real.pi * Real.pi) := by ring
        _ = _ := by rw [a, b]
  rw [h3]
  have h4 : Complex.normSq ((starRingEnd ℂ) (toC o.value) - toC q.value) =
      (q.value.re - o.value.re) ^ 2 + (q.value.im + o.value.im) ^ 2 := by
    simp [toC, Complex.normSq_apply]
    ring
  have h5 : Complex.normSq (toC q.value) = q.value.re * q.value.re + q.value.im * q.value.im := rfl
  have h6 : Complex.normSq (toC o.value) = o.value.re * o.value.re + o.value.im * o.value.im := rfl
  rw [h4, h5, h6]
  unfold w2
  generalize hA : q.value.re * q.value.re + q.value.im * q.value.im = A at hdq
  generalize hB : o.value.re * o.value.re + o.value.im * o.value.im = B at hdo
  generalize hD : (q.value.re - o.value.re) ^ 2 + (q.value.im + o.value.im) ^ 2 = D
  have hA' := ne_of_gt hdq
  have hB' := ne_of_gt hdo
  have hD' : D ≠ 0 := by
    rw [← hD]
    intro h0
    have : (q.value.im + o.value.im) ^ 2 ≤ 0 := by nlinarith [sq_nonneg (q.value.re - o.value.re)]
    nlinarith [sq_nonneg q.value.im, sq_nonneg o.value.im]
  field_simp

/-- **C37.** The overlap of a beam with itself is 1. -/
theorem C37_self (q : Beam ℝ) (hl : 0 < q.wavelen) (hz : 0 < q.ZR) :
    ∃ z, q.overlap_with Real.pi rsqrt q = .ok z ∧ toC z = 1 := by
  have hq : Phys q := mul_pos hl hz
  obtain ⟨z, h1, h2⟩ := overlap_eq hq hq (mul_pos hz hz)
  refine ⟨z, h1, ?_⟩
  rw [h2, Real.mul_self_sqrt (le_of_lt (w2_pos hq))]
  have hz' : (q.value.im : ℂ) ≠ 0 := Complex.ofReal_ne_zero.mpr hq.im_ne
  have hc : (starRingEnd ℂ) (toC q.value) - toC q.value = -2 * q.value.im * Complex.I := by
    apply Complex.ext <;> simp [toC]; ring
  have hn : toC q.value * (starRingEnd ℂ) (toC q.value) = ((q.value.re * q.value.re + q.value.im * q.value.im : ℝ) : ℂ) := by
    rw [Complex.mul_conj]; rfl
  have hw : 2 * q.wavelen / (w2 q * Real.pi) = 2 * q.value.im / (q.value.re * q.value.re + q.value.im * q.value.im) := by
    unfold w2
    have := hq.im_ne
    have := hq.wavelen_ne
    have := ne_of_gt (den_pos hq.im_ne)
    have := ne_of_gt Real.pi_pos
    field_simp
  rw [hc, hn, hw]
  have hd : ((q.value.re * q.value.re + q.value.im * q.value.im : ℝ) : ℂ) ≠ 0 :=
    Complex.ofReal_ne_zero.mpr (ne_of_gt (den_pos hq.im_ne))
  rw [Complex.ofReal_div]
  have hI := Complex.I_ne_zero
  generalize ((q.value.re * q.value.re + q.value.im * q.value.im : ℝ) : ℂ) = A at hd
  push_cast
  field_simp

/-- **C37.** For two beams of the same wavelength the overlap has the same absolute value in both orders, at most 1, and it is 1 only
for equal beam parameters. -/
theorem C37_overlap (q o : Beam ℝ) (hl : 0 < q.wavelen) (hlo : o.wavelen = q.wavelen) (hq : 0 < q.ZR) (ho : 0 < o.ZR) :
    ∃ z z', q.overlap_with Real.pi rsqrt o = .ok z ∧ o.overlap_with Real.pi rsqrt q = .ok z' ∧ ‖toC z‖ = ‖toC z'‖ ∧
      ‖toC z‖ ≤ 1 ∧ (‖toC z‖ = 1 → o.value = q.value) := by
  have pq : Phys q := mul_pos hl hq
  have po : Phys o := mul_pos (by rw [hlo]; exact hl) ho
  obtain ⟨z, h1, _⟩ := overlap_eq pq po (mul_pos hq ho)
  obtain ⟨z', h1', _⟩ := overlap_eq po pq (mul_pos ho hq)
  have n1 := overlap_normSq pq po (mul_pos hq ho) h1
  have n2 := overlap_normSq po pq (mul_pos ho hq) h1'
  rw [hlo, div_self (ne_of_gt hl), one_mul] at n1 n2
  rw [Complex.normSq_eq_norm_sq] at n1 n2
  have hq' : 0 < q.value.im := hq
  have ho' : 0 < o.value.im := ho
  have hD : 0 < (q.value.re - o.value.re) ^ 2 + (q.value.im + o.value.im) ^ 2 := by
    have : 0 < (q.value.im + o.value.im) ^ 2 := pow_pos (by linarith) 2
    nlinarith [sq_nonneg (q.value.re - o.value.re)]
  refine ⟨z, z', h1, h1', ?_, ?_, ?_⟩
  · have : ‖toC z‖ ^ 2 = ‖toC z'‖ ^ 2 := by
      rw [n1, n2]
      congr 1 <;> ring
    exact (sq_eq_sq₀ (norm_nonneg _) (norm_nonneg _)).mp this
  · have : ‖toC z‖ ^ 2 ≤ 1 := by
      rw [n1, div_le_one hD]
      nlinarith [sq_nonneg (q.value.re - o.value.re), sq_nonneg (q.value.im - o.value.im)]
    exact (sq_le_one_iff₀ (norm_nonneg _)).mp this
  · intro h
    rw [h, one_pow, eq_comm, div_eq_one_iff_eq (ne_of_gt hD)] at n1
    have hs : (q.value.re - o.value.re) ^ 2 + (q.value.im - o.value.im) ^ 2 = 0 := by nlinarith
    have hr : q.value.re - o.value.re = 0 := by
      have : (q.value.re - o.value.re) ^ 2 = 0 := by
        nlinarith [sq_nonneg (q.value.re - o.value.re), sq_nonneg (q.value.im - o.value.im)]
      exact pow_eq_zero_iff (two_ne_zero) |>.mp this
    have hi : q.value.im - o.value.im = 0 := by
      have : (q.value.im - o.value.im) ^ 2 = 0 := by
        nlinarith [sq_nonneg (q.value.re - o.value.re), sq_nonneg (q.value.im - o.value.im)]
      exact pow_eq_zero_iff (two_ne_zero) |>.mp this
    cases hx : o.value; cases hy : q.value
    rw [hx, hy] at hr hi
    exact congrArg₂ Cx.mk (sub_eq_zero.mp hr).symm (sub_eq_zero.mp hi).symm

/-- **C37 (disagreement for different wavelengths).** The overlap uses the wavelength of one beam only: with different wavelengths it
depends on the order and can exceed 1. -/
theorem C37_wavelengths : ∃ (q o : Beam ℝ) (z z' : Cx ℝ), 0 < q.wavelen ∧ 0 < q.ZR ∧ 0 < o.wavelen ∧ 0 < o.ZR ∧ q.overlap_with Real.pi rsqrt o = .ok z ∧
    o.overlap_with Real.pi rsqrt q = .ok z' ∧ ‖toC z‖ = 2 ∧ ‖toC z'‖ = 1 / 2 := by
  have pq : Phys ⟨⟨0, 1⟩, 4, ⟨1, 0⟩⟩ := by show (0 : ℝ) < 4 * 1; norm_num
  have po : Phys ⟨⟨0, 1⟩, 1, ⟨1, 0⟩⟩ := by show (0 : ℝ) < 1 * 1; norm_num
  have hs : (0 : ℝ) < 1 * 1 := by norm_num
  obtain ⟨z, h1, _⟩ := overlap_eq pq po hs
  obtain ⟨z', h1', _⟩ := overlap_eq po pq hs
  have n1 := overlap_normSq pq po hs h1
  have n2 := overlap_normSq po pq hs h1'
  rw [Complex.normSq_eq_norm_sq] at n1 n2
  refine ⟨_, _, z, z', by norm_num, by norm_num [ZR], by norm_num, by norm_num [ZR], h1, h1', ?_, ?_⟩
  · have : ‖toC z‖ ^ 2 = 2 ^ 2 := by rw [n1]; norm_num
    exact (sq_eq_sq₀ (norm_nonneg _) (by norm_num)).mp this
  · have : ‖toC z'‖ ^ 2 = (1 / 2) ^ 2 := by rw [n2]; norm_num
    exact (sq_eq_sq₀ (norm_nonneg _) (by norm_num)).mp this

/-- The normalised transverse shape of a beam of parameter `q` and size `w` in one dimension (l.239-245 without shift and tilt). -/
noncomputable def shape (l : ℝ) (q : ℂ) (w x : ℝ) : ℂ :=
  ((2 / Real.pi) ^ (1 / 4 : ℝ) * (1 / w) ^ (1 / 2 : ℝ) : ℝ) * Complex.exp (-Complex.I * (2 * Real.pi / l) * x ^ 2 / (2 * q))

/-- **C37.** The overlap is the overlap integral of the two modes; the integral over the plane is the square of the integral over the
line. -/
theorem C37_integral (q o : Beam ℝ) (hl : 0 < q.wavelen) (hlo : o.wavelen = q.wavelen) (hq : 0 < q.ZR) (ho : 0 < o.ZR) :
    ∃ w w' z, q.W Real.pi rsqrt = .ok w ∧ o.W Real.pi rsqrt = .ok w' ∧ q.overlap_with Real.pi rsqrt o = .ok z ∧
      toC z = (∫ x : ℝ, shape q.wavelen (toC q.value) w x * (starRingEnd ℂ) (shape o.wavelen (toC o.value) w' x)) ^ 2 := by
  have pq : Phys q := mul_pos hl hq
  have po : Phys o := mul_pos (by rw [hlo]; exact hl) ho
  have hwo := Real.sqrt_pos.mpr (w2_pos po)
  have hwq := Real.sqrt_pos.mpr (w2_pos pq)
  have hp := Real.pi_pos
  obtain ⟨z, h1, h2⟩ := overlap_eq pq po (mul_pos hq ho)
  refine ⟨_, _, z, W_eq pq, W_eq po, h1, ?_⟩
  rw [h2, hlo]
  generalize Real.sqrt (w2 q) = w at hwq
  generalize Real.sqrt (w2 o) = w' at hwo
  have hiq : (toC q.value).im = q.value.im := rfl
  have hio : (toC o.value).im = o.value.im := rfl
  have hnq := toC_ne pq.im_ne
  have hno := toC_ne po.im_ne
  replace hq : 0 < q.value.im := hq
  replace ho : 0 < o.value.im := ho
  rw [← hiq] at hq
  rw [← hio] at ho
  generalize toC q.value = u at *
  generalize toC o.value = v at *
  generalize q.wavelen = l at *
  have hcv : (starRingEnd ℂ) v ≠ 0 := fun h0 => hno ((map_eq_zero _).mp h0)
  have hlC : (l : ℂ) ≠ 0 := Complex.ofReal_ne_zero.mpr (ne_of_gt hl)
  have hpC : (Real.pi : ℂ) ≠ 0 := Complex.ofReal_ne_zero.mpr (ne_of_gt hp)
  set b : ℂ := Complex.I * (Real.pi / l) * (1 / u - 1 / (starRingEnd ℂ) v) with hb
  have hbre : 0 < b.re := by
    have e : b = ((Real.pi / l : ℝ) : ℂ) * (Complex.I * (u⁻¹ - ((starRingEnd ℂ) v)⁻¹)) := by
      rw [hb]; push_cast; rw [one_div, one_div]; ring
    rw [e, Complex.re_ofReal_mul]
    apply mul_pos (div_pos hp hl)
    rw [Complex.I_mul_re, Complex.sub_im, Complex.inv_im, Complex.inv_im, Complex.conj_im, Complex.normSq_conj]
    have a1 : 0 < u.im / Complex.normSq u := div_pos hq (Complex.normSq_pos.mpr hnq)
    have a2 : 0 < v.im / Complex.normSq v := div_pos ho (Complex.normSq_pos.mpr hno)
    have : -(-u.im / Complex.normSq u - - -v.im / Complex.normSq v) = u.im / Complex.normSq u + v.im / Complex.normSq v := by ring
    rw [this]
    linarith
  set k : ℝ := ((2 / Real.pi) ^ (1 / 4 : ℝ) * (1 / w) ^ (1 / 2 : ℝ)) * ((2 / Real.pi) ^ (1 / 4 : ℝ) * (1 / w') ^ (1 / 2 : ℝ)) with hk
  have hk2 : k ^ 2 = 2 / (Real.pi * (w * w')) := by
    have h2p : (0 : ℝ) ≤ 2 / Real.pi := le_of_lt (div_pos two_pos hp)
    have a1 : ((2 / Real.pi : ℝ) ^ (1 / 4 : ℝ)) ^ 4 = 2 / Real.pi := by
      rw [← Real.rpow_natCast, ← Real.rpow_mul h2p]; norm_num
    have a2 : ((1 / w : ℝ) ^ (1 / 2 : ℝ)) ^ 2 = 1 / w := by
      rw [← Real.rpow_natCast, ← Real.rpow_mul (le_of_lt (one_div_pos.mpr hwq))]; norm_num
    have a3 : ((1 / w' : ℝ) ^ (1 / 2 : ℝ)) ^ 2 = 1 / w' := by
      rw [← Real.rpow_natCast, ← Real.rpow_mul (le_of_lt (one_div_pos.mpr hwo))]; norm_num
    calc k ^ 2 = ((2 / Real.pi : ℝ) ^ (1 / 4 : ℝ)) ^ 4 * ((1 / w : ℝ) ^ (1 / 2 : ℝ)) ^ 2 * ((1 / w' : ℝ) ^ (1 / 2 : ℝ)) ^ 2 := by
          rw [hk]; ring
      _ = _ := by rw [a1, a2, a3]; field_simp
  have hfun : ∀ x : ℝ, shape l u w x * (starRingEnd ℂ) (shape l v w' x) = (k : ℂ) * Complex.exp (-b * (x : ℂ) ^ 2) := by
    intro x
    unfold shape
    rw [map_mul, Complex.conj_ofReal, ← Complex.exp_conj]
    have e1 : (starRingEnd ℂ) (-Complex.I * (2 * Real.pi / l) * x ^ 2 / (2 * v)) =
        Complex.I * (2 * Real.pi / l) * x ^ 2 / (2 * (starRingEnd ℂ) v) := by
      have c2 : (starRingEnd ℂ) 2 = 2 := map_ofNat _ 2
      simp [map_div₀, map_mul, Complex.conj_ofReal, Complex.conj_I, c2]
    rw [e1]
    have e2 : -b * (x : ℂ) ^ 2 = -Complex.I * (2 * Real.pi / l) * x ^ 2 / (2 * u) +
        Complex.I * (2 * Real.pi / l) * x ^ 2 / (2 * (starRingEnd ℂ) v) := by
      rw [hb]
      field_simp
      ring
    rw [e2, Complex.exp_add, hk]
    push_cast
    ring
  have hint : (∫ x : ℝ, shape l u w x * (starRingEnd ℂ) (shape l v w' x)) = k * (Real.pi / b) ^ (1 / 2 : ℂ) := by
    rw [← integral_gaussian_complex hbre, ← MeasureTheory.integral_const_mul]
    exact MeasureTheory.integral_congr_ae (Filter.Eventually.of_forall hfun)
  rw [hint, mul_pow, ← Complex.ofReal_pow, hk2]
  have hb0 : b ≠ 0 := by
    intro h0
    rw [h0] at hbre
    exact lt_irrefl _ hbre
  have hpw : ((Real.pi / b : ℂ) ^ (1 / 2 : ℂ)) ^ 2 = Real.pi / b := by
    rw [← Complex.cpow_nat_mul]
    norm_num
  rw [hpw]
  have hwC : (w : ℂ) ≠ 0 := Complex.ofReal_ne_zero.mpr (ne_of_gt hwq)
  have hwC' : (w' : ℂ) ≠ 0 := Complex.ofReal_ne_zero.mpr (ne_of_gt hwo)
  have hbe : b = Complex.I * (Real.pi / l) * (((starRingEnd ℂ) v - u) / (u * (starRingEnd ℂ) v)) := by
    rw [hb, div_sub_div _ _ hnq hcv]
    ring
  have hdiff : (starRingEnd ℂ) v - u ≠ 0 := by
    intro h0
    apply hb0
    rw [hbe, h0]
    simp
  have hI := Complex.I_ne_zero
  rw [hbe]
  generalize (starRingEnd ℂ) v - u = D at hdiff
  push_cast
  field_simp
  rw [Complex.I_sq]
  ring

/-- The hypotheses hold for two beams of different size and position. -/
example : ∃ q o : Beam ℝ, 0 < q.wavelen ∧ o.wavelen = q.wavelen ∧ 0 < q.ZR ∧ 0 < o.ZR ∧ q.value ≠ o.value :=
  ⟨⟨⟨0, 1⟩, 1, ⟨1, 0⟩⟩, ⟨⟨1, 3⟩, 1, ⟨1, 0⟩⟩, by norm_num, rfl, by norm_num [ZR], by norm_num [ZR], by
    intro h; injection h with h _; norm_num at h⟩

end Beam
end Alm
