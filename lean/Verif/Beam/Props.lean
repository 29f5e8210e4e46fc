import Verif.Beam.Basic
import Mathlib.LinearAlgebra.Matrix.Trace

/-!
# C34, C35, C36: propagation, constructors and eigenmodes of Gaussian beams
-/

namespace Alm
open Py Cplx

namespace Beam

/-! ## C34 -/

/-- **C34.** Propagating through `m` and then through `n` is propagating through the product `n m`: the same beam parameter, the
same wavelength, and the same Gouy phasor up to a positive factor. -/
theorem C34_compose (q : Beam ℝ) (hq : 0 < q.wavelen * q.ZR) (m n p : Mat ℝ) (hm : (toM m).det ≠ 0) (hn : (toM n).det ≠ 0)
    (hp : toM p = toM n * toM m) :
    ∃ q1 q2 q3, q.propagate_matrix Real.pi rsqrt m = .ok q1 ∧ q1.propagate_matrix Real.pi rsqrt n = .ok q2 ∧
      q.propagate_matrix Real.pi rsqrt p = .ok q3 ∧ q2.value = q3.value ∧ q2.wavelen = q3.wavelen ∧
      ∃ r : ℝ, 0 < r ∧ toC q2.gouy = r * toC q3.gouy := by
  have hpm : p = Mat.mul n m := toM_inj (hp.trans (toM_mul n m).symm)
  subst hpm
  have hpd : (toM (Mat.mul n m)).det ≠ 0 := by
    rw [toM_mul, Matrix.det_mul]
    exact mul_ne_zero hn hm
  rw [toM_det] at hm hn hpd
  obtain ⟨q1, e1, v1, l1, g1, p1⟩ := propagate_eq (q := q) hq m hm
  obtain ⟨q2, e2, v2, l2, g2, p2⟩ := propagate_eq p1 n hn
  obtain ⟨q3, e3, v3, l3, g3, p3⟩ := propagate_eq (q := q) hq _ hpd
  have hz : toC q.value ≠ 0 := toC_ne (Phys.im_ne hq)
  have hcd : (m.c : ℂ) * toC q.value + m.d ≠ 0 := den_ne (Phys.im_ne hq) hm
  have hz1 : toC q1.value ≠ 0 := toC_ne p1.im_ne
  have hab : (m.a : ℂ) * toC q.value + m.b ≠ 0 := by
    intro h0
    rw [h0, zero_div] at v1
    exact hz1 v1
  have hne2 : (n.c : ℂ) * toC q1.value + n.d ≠ 0 := den_ne p1.im_ne hn
  have hne3 := den_ne (Phys.im_ne hq) hpd
  refine ⟨q1, q2, q3, e1, e2, e3, ?_, ?_, Real.pi * w2 q1, mul_pos Real.pi_pos (w2_pos p1), ?_⟩
  · have hv : toC q2.value = toC q3.value := by
      rw [v2, v3]
      have hN : ((Mat.mul n m).a : ℂ) * toC q.value + (Mat.mul n m).b =
          n.a * (m.a * toC q.value + m.b) + n.b * (m.c * toC q.value + m.d) := by
        simp only [Mat.mul]; push_cast; ring
      have hD : ((Mat.mul n m).c : ℂ) * toC q.value + (Mat.mul n m).d =
          n.c * (m.a * toC q.value + m.b) + n.d * (m.c * toC q.value + m.d) := by
        simp only [Mat.mul]; push_cast; ring
      rw [div_eq_div_iff hne2 hne3, v1, hN, hD]
      generalize (m.a : ℂ) * toC q.value + m.b = x
      generalize (m.c : ℂ) * toC q.value + m.d = y at hcd ⊢
      field_simp
    have := toC_inj.mp hv
    cases h2 : q2.value; cases h3 : q3.value
    rw [h2, h3] at this
    exact congrArg₂ Cx.mk this.1 this.2
  · rw [l2, l1, l3]
    simp only [Mat.mul]
    ring
  · rw [g2, g1, g3]
    have hf : (m.a : ℂ) + m.b / toC q.value = (m.a * toC q.value + m.b) / toC q.value := by
      field_simp
    have hf1 : (n.a : ℂ) + n.b / toC q1.value = (n.a * (m.a * toC q.value + m.b) + n.b * (m.c * toC q.value + m.d)) / (m.a * toC q.value + m.b) := by
      rw [v1]
      field_simp
    have hk : ((Mat.mul n m).a : ℂ) + (Mat.mul n m).b / toC q.value = (m.a + m.b / toC q.value) * (n.a + n.b / toC q1.value) := by
      rw [hf, hf1]
      simp only [Mat.mul]
      push_cast
      field_simp
      ring
    rw [hk, map_mul]
    push_cast
    ring

/-- **C34.** Propagating through the identity changes nothing but the length of the phasor, and propagating over a distance is
propagating through the matrix of free space. -/
theorem C34_identity (q : Beam ℝ) (hq : 0 < q.wavelen * q.ZR) (m : Mat ℝ) (hm : toM m = 1) :
    (∃ q', q.propagate_matrix Real.pi rsqrt m = .ok q' ∧ q'.value = q.value ∧ q'.wavelen = q.wavelen ∧
      ∃ r : ℝ, 0 < r ∧ toC q'.gouy = r * toC q.gouy) := by
  have hme : m = Mat.eye := toM_inj (hm.trans toM_eye.symm)
  subst hme
  obtain ⟨q1, e1, v1, l1, g1, p1⟩ := propagate_eq (q := q) hq (Mat.eye : Mat ℝ) (by simp [Mat.eye])
  refine ⟨q1, e1, ?_, ?_, Real.pi * w2 q, mul_pos Real.pi_pos (w2_pos hq), ?_⟩
  · have hv : toC q1.value = toC q.value := by
      rw [v1]; simp [Mat.eye]
    have := toC_inj.mp hv
    cases h2 : q1.value; cases h3 : q.value
    rw [h2, h3] at this
    exact congrArg₂ Cx.mk this.1 this.2
  · rw [l1]; simp [Mat.eye]
  · rw [g1]; simp [Mat.eye, mul_comm]

/-- **C34.** Propagating over a distance is propagating through the matrix of free space. -/
theorem C34_distance (q : Beam ℝ) (L : ℝ) (m : Mat ℝ) (hm : toM m = !![1, L; 0, 1]) :
    q.propagate_distance Real.pi rsqrt L = q.propagate_matrix Real.pi rsqrt m := by
  have hme : m = matrix_space L := toM_inj hm
  subst hme
  rfl

theorem exp_arctan (x : ℝ) : Complex.exp (Real.arctan x * Complex.I) = (1 + x * Complex.I) / (Real.sqrt (1 + x ^ 2) : ℝ) := by
  rw [Complex.exp_mul_I, ← Complex.ofReal_cos, ← Complex.ofReal_sin, Real.cos_arctan, Real.sin_arctan]
  push_cast
  ring

/-- **C34.** Over a distance `L` the phasor turns by the Gouy phase, the change of `arctan (Z / ZR)`. -/
theorem C34_gouy (q : Beam ℝ) (hl : 0 < q.wavelen) (hz : 0 < q.ZR) (L : ℝ) :
    ∃ q', q.propagate_distance Real.pi rsqrt L = .ok q' ∧ q'.Z = q.Z + L ∧ q'.ZR = q.ZR ∧ q'.wavelen = q.wavelen ∧
      ∃ r : ℝ, 0 < r ∧ toC q'.gouy =
        r * toC q.gouy * Complex.exp ((Real.arctan ((q.Z + L) / q.ZR) - Real.arctan (q.Z / q.ZR) : ℝ) * Complex.I) := by
  have hq : Phys q := mul_pos hl hz
  obtain ⟨q1, e1, v1, l1, g1, p1⟩ := propagate_eq hq (matrix_space L) (by simp [matrix_space])
  have hne : toC q.value ≠ 0 := toC_ne hq.im_ne
  simp [matrix_space] at v1 l1 g1
  refine ⟨q1, e1, ?_, ?_, l1, ?_⟩
  · have := congrArg Complex.re v1
    simpa [toC, Z] using this
  · have := congrArg Complex.im v1
    simpa [toC, ZR] using this
  set x := (q.Z + L) / q.ZR with hx
  set y := q.Z / q.ZR with hy
  have hsx : 0 < Real.sqrt (1 + x ^ 2) := Real.sqrt_pos.mpr (by nlinarith [sq_nonneg x])
  have hsy : 0 < Real.sqrt (1 + y ^ 2) := Real.sqrt_pos.mpr (by nlinarith [sq_nonneg y])
  refine ⟨Real.pi * w2 q * (Real.sqrt (1 + x ^ 2) / Real.sqrt (1 + y ^ 2)),
    mul_pos (mul_pos Real.pi_pos (w2_pos hq)) (div_pos hsx hsy), ?_⟩
  rw [g1]
  push_cast
  rw [sub_mul, Complex.exp_sub, exp_arctan, exp_arctan]
  have hy1 : (1 + y * Complex.I : ℂ) ≠ 0 := by
    intro h0
    have := congrArg Complex.re h0
    simp at this
  have hcx : (Real.sqrt (1 + x ^ 2) : ℂ) ≠ 0 := Complex.ofReal_ne_zero.mpr (ne_of_gt hsx)
  have hcy : (Real.sqrt (1 + y ^ 2) : ℂ) ≠ 0 := Complex.ofReal_ne_zero.mpr (ne_of_gt hsy)
  have hz0 : (q.ZR : ℂ) ≠ 0 := Complex.ofReal_ne_zero.mpr (ne_of_gt hz)
  have hcq : (starRingEnd ℂ) (toC q.value) ≠ 0 := by
    intro h0
    exact hne ((map_eq_zero _).mp h0)
  have key : 1 + (L : ℂ) / (starRingEnd ℂ) (toC q.value) = (1 + x * Complex.I) / (1 + y * Complex.I) := by
    have hcv : (starRingEnd ℂ) (toC q.value) = (-Complex.I * q.ZR) * (1 + y * Complex.I) := by
      rw [hy]
      push_cast
      have : (-Complex.I * q.ZR) * (1 + q.Z / q.ZR * Complex.I) = -(Complex.I * Complex.I) * q.Z - Complex.I * q.ZR := by
        field_simp
        ring
      rw [this, Complex.I_mul_I]
      apply Complex.ext <;> simp [toC, Z, ZR]
    have hxx : (1 + x * Complex.I : ℂ) = (1 + y * Complex.I) + L / q.ZR * Complex.I := by
      rw [hx, hy]; push_cast; ring
    rw [hcv, hxx]
    have hI : (-Complex.I * q.ZR : ℂ) ≠ 0 := mul_ne_zero (neg_ne_zero.mpr Complex.I_ne_zero) hz0
    rw [eq_div_iff hy1]
    have : (L : ℂ) / (-Complex.I * q.ZR * (1 + y * Complex.I)) = L / q.ZR * Complex.I / (1 + y * Complex.I) := by
      rw [div_eq_div_iff (mul_ne_zero hI hy1) hy1]
      rw [div_mul_eq_mul_div, div_mul_eq_mul_div, eq_div_iff hz0]
      have := Complex.I_mul_I
      linear_combination (L * q.ZR * (1 + y * Complex.I) : ℂ) * this
    rw [this, add_mul, div_mul_cancel₀ _ hy1, one_mul]
  rw [key]
  field_simp

/-- The hypotheses hold for a beam at its waist going through a lens and then a metre of space. -/
example : ∃ (q : Beam ℝ) (m n p : Mat ℝ), 0 < q.wavelen * q.ZR ∧ (toM m).det ≠ 0 ∧ (toM n).det ≠ 0 ∧ toM p = toM n * toM m ∧
    m ≠ n :=
  ⟨⟨⟨0, 2⟩, 1, ⟨1, 0⟩⟩, ⟨1, 0, -1/3, 1⟩, ⟨1, 1, 0, 1⟩, Mat.mul ⟨1, 1, 0, 1⟩ ⟨1, 0, -1/3, 1⟩, by norm_num [ZR],
    by rw [toM_det]; norm_num, by rw [toM_det]; norm_num, toM_mul _ _, by intro h; injection h with _ h _; norm_num at h⟩

/-! ## C35 -/

/-- **C35.** `from_Z_ZR` gives the beam with that position and Rayleigh range; the wavelength is 1064 nm when none is given. -/
theorem C35_Z_ZR (Z ZR : ℝ) (l : Option ℝ) (g : Option (Cx ℝ)) :
    (from_Z_ZR Z ZR l g).Z = Z ∧ (from_Z_ZR Z ZR l g).ZR = ZR ∧
    (from_Z_ZR Z ZR l g).wavelen = (match l with | some x => x | none => 1.064e-6) ∧
    toC (from_Z_ZR Z ZR l g).gouy = (match g with | some x => toC x | none => 1) := by
  refine ⟨rfl, rfl, ?_, ?_⟩
  · cases l with
    | none => show (1064 / 1000000000 : ℝ) = _; norm_num
    | some x => rfl
  · cases g with
    | none => rfl
    | some x => rfl

/-- **C35.** `from_Z_W0` gives the beam with that position and waist. -/
theorem C35_Z_W0 (Z W0 l : ℝ) (hW : 0 < W0) (hl : 0 < l) (g : Option (Cx ℝ)) :
    ∃ q, from_Z_W0 Real.pi Z W0 (some l) g = .ok q ∧ q.Z = Z ∧ q.W0 Real.pi rsqrt = .ok W0 ∧ q.ZR = Real.pi * W0 ^ 2 / l ∧
      0 < q.ZR ∧ q.wavelen = l := by
  have hp := Real.pi_pos
  refine ⟨⟨⟨Z, Real.pi * (W0 * W0) / l⟩, l, g.getD ⟨1, 0⟩⟩, ?_, rfl, ?_, ?_, ?_, rfl⟩
  · unfold from_Z_W0 pydiv
    dsimp only [Option.getD]
    rw [if_neg (ne_of_gt hl)]
    rfl
  · unfold Beam.W0 pydiv
    dsimp only
    rw [if_neg (ne_of_gt hp)]
    show rsqrt _ = _
    have : l * (Real.pi * (W0 * W0) / l) / Real.pi = W0 * W0 := by field_simp
    rw [this]
    unfold rsqrt
    rw [if_neg (not_lt.mpr (mul_self_nonneg _)), Real.sqrt_mul_self (le_of_lt hW)]
  · show Real.pi * (W0 * W0) / l = _
    ring
  · exact div_pos (mul_pos hp (mul_pos hW hW)) hl

/-- **C35.** `from_dRad_Z` gives the beam with that position and divergence. -/
theorem C35_dRad_Z (theta Z l : ℝ) (ht : 0 < theta) (hl : 0 < l) (g : Option (Cx ℝ)) :
    ∃ q, from_dRad_Z Real.pi theta Z (some l) g = .ok q ∧ q.Z = Z ∧ q.divergence_rad Real.pi rsqrt = .ok theta ∧ q.wavelen = l ∧
      0 < q.ZR := by
  have hp := Real.pi_pos
  have hW : 0 < 2 * l / (Real.pi * theta) := div_pos (by linarith) (mul_pos hp ht)
  obtain ⟨q, e, hZ, hW0, hZR, hpos, hlq⟩ := C35_Z_W0 Z _ l hW hl g
  refine ⟨q, ?_, hZ, ?_, hlq, hpos⟩
  · unfold from_dRad_Z pydiv
    dsimp only [Option.getD]
    rw [if_neg (ne_of_gt (mul_pos hp ht))]
    exact e
  · unfold divergence_rad
    rw [hW0, hlq]
    show pydiv _ _ = _
    unfold pydiv
    rw [if_neg (ne_of_gt (mul_pos hp hW))]
    congr 1
    field_simp

/-- **C35.** `from_W_R` gives the beam with that size and that radius of curvature. -/
theorem C35_W_R_partial (W R l : ℝ) (hW : 0 < W) (hl : 0 < l) (hR : R ≠ 0) (g : Option (Cx ℝ)) :
    ∃ q, from_W_R Real.pi W R (some l) g = .ok q ∧ q.W Real.pi rsqrt = .ok W ∧ q.R = .ok R ∧ q.R_inv = .ok (1 / R) ∧ q.wavelen = l ∧
      0 < q.ZR := by
  have hp := Real.pi_pos
  have hWW := mul_pos hW hW
  have him : l / (Real.pi * (W * W)) ≠ 0 := ne_of_gt (div_pos hl (mul_pos hp hWW))
  obtain ⟨q0, hq0, hq0C⟩ := (C32_div ⟨1 / R, -(l / (Real.pi * (W * W)))⟩ (.num 1)).2.2.1
    (toC_ne (neg_ne_zero.mpr him))
  replace hq0C : toC q0 = ((1 : ℝ) : ℂ) / toC _ := hq0C
  have hinv : toC q0 ≠ 0 := by
    rw [hq0C]
    exact div_ne_zero (by simp) (toC_ne (neg_ne_zero.mpr him))
  obtain ⟨z, hz, hzC⟩ := (C32_div q0 (.num 1)).2.2.1 hinv
  replace hzC : toC z = ((1 : ℝ) : ℂ) / toC _ := hzC
  rw [hq0C, Complex.ofReal_one, one_div_one_div] at hzC
  have hzv : z = ⟨1 / R, -(l / (Real.pi * (W * W)))⟩ := by
    have := toC_inj.mp hzC
    cases z
    exact congrArg₂ Cx.mk this.1 this.2
  subst hzv
  refine ⟨⟨q0, l, g.getD ⟨1, 0⟩⟩, ?_, ?_, ?_, ?_, rfl, ?_⟩
  · unfold from_W_R pydiv
    dsimp only [Option.getD]
    rw [if_pos hR, if_neg hR, if_neg (ne_of_gt (mul_pos hp hWW))]
    show (do let q ← rdiv _ _; _) = _
    rw [hq0]
    rfl
  · unfold Beam.W
    dsimp only
    rw [hz]
    show (do let x ← pydiv (-l) (-(l / (Real.pi * (W * W))) * Real.pi); rsqrt x) = _
    unfold pydiv
    rw [if_neg (mul_ne_zero (neg_ne_zero.mpr him) (ne_of_gt hp))]
    show rsqrt _ = _
    have : -l / (-(l / (Real.pi * (W * W))) * Real.pi) = W * W := by
      have := ne_of_gt hl
      have := ne_of_gt hW
      field_simp
    rw [this]
    unfold rsqrt
    rw [if_neg (not_lt.mpr (mul_self_nonneg _)), Real.sqrt_mul_self (le_of_lt hW)]
  · unfold Beam.R
    dsimp only
    rw [hz]
    show pydiv 1 (1 / R) = _
    unfold pydiv
    rw [if_neg (one_div_ne_zero hR), one_div_one_div]
  · unfold Beam.R_inv
    dsimp only
    rw [hz]
    rfl
  · have := congrArg Complex.im hq0C
    rw [Complex.ofReal_one, one_div, Complex.inv_im] at this
    show 0 < q0.im
    have e : q0.im = l / (Real.pi * (W * W)) / Complex.normSq (toC ⟨1 / R, -(l / (Real.pi * (W * W)))⟩) := by
      refine Eq.trans this ?_
      show -(-(l / (Real.pi * (W * W)))) / _ = _
      rw [neg_neg]
    rw [e]
    exact div_pos (div_pos hl (mul_pos hp hWW)) (Complex.normSq_pos.mpr (toC_ne (neg_ne_zero.mpr him)))

/-- **C35 (disagreement).** `from_W_R` reads the radius 0 as a plane wave front; asking that beam for its radius then raises, while
its curvature is 0 and its size is right. -/
theorem C35_W_R_flat (W l : ℝ) (hW : 0 < W) (hl : 0 < l) (g : Option (Cx ℝ)) :
    ∃ q, from_W_R Real.pi W 0 (some l) g = .ok q ∧ q.W Real.pi rsqrt = .ok W ∧ q.R_inv = .ok 0 ∧ q.wavelen = l ∧ 0 < q.ZR ∧
      q.R = .error .zeroDivision := by
  have hp := Real.pi_pos
  have hWW := mul_pos hW hW
  have hZ : 0 < Real.pi * (W * W) / l := div_pos (mul_pos hp hWW) hl
  have hph : Phys ⟨⟨0, Real.pi * (W * W) / l⟩, l, g.getD ⟨1, 0⟩⟩ := mul_pos hl hZ
  refine ⟨⟨⟨0, Real.pi * (W * W) / l⟩, l, g.getD ⟨1, 0⟩⟩, ?_, ?_, ?_, rfl, hZ, ?_⟩
  · unfold from_W_R pydiv
    dsimp only [Option.getD]
    rw [if_neg (by simp), if_neg (ne_of_gt hl)]
    rfl
  · rw [W_eq hph]
    have : w2 ⟨⟨0, Real.pi * (W * W) / l⟩, l, g.getD ⟨1, 0⟩⟩ = W * W := by
      unfold w2
      dsimp only
      have := ne_of_gt hl
      have := ne_of_gt hW
      field_simp
      ring
    rw [this, Real.sqrt_mul_self (le_of_lt hW)]
  · rw [Rinv_eq hph]
    simp
  · unfold Beam.R
    dsimp only
    rw [inv_eq (ne_of_gt hZ)]
    show pydiv 1 _ = _
    unfold pydiv
    rw [if_pos (by simp)]

/-- **C35.** The accessors are the textbook formulas for the size and the radius of curvature at distance `Z` from a waist. -/
theorem C35_accessors (q : Beam ℝ) (hl : 0 < q.wavelen) (hz : 0 < q.ZR) :
    (∃ w0 w, q.W0 Real.pi rsqrt = .ok w0 ∧ q.W Real.pi rsqrt = .ok w ∧ 0 < w0 ∧ w0 ^ 2 = q.wavelen * q.ZR / Real.pi ∧
      w = w0 * Real.sqrt (1 + (q.Z / q.ZR) ^ 2)) ∧
    (q.Z ≠ 0 → q.R = .ok (q.Z * (1 + (q.ZR / q.Z) ^ 2))) ∧ (q.Z = 0 → q.R = .error .zeroDivision) ∧
    q.R_inv = .ok (q.Z / (q.Z ^ 2 + q.ZR ^ 2)) := by
  have hp := Real.pi_pos
  have hq : Phys q := mul_pos hl hz
  have hd := den_pos hq.im_ne
  have hx : 0 < q.wavelen * q.ZR / Real.pi := div_pos hq hp
  refine ⟨⟨Real.sqrt (q.wavelen * q.ZR / Real.pi), _, ?_, W_eq hq, Real.sqrt_pos.mpr hx, Real.sq_sqrt (le_of_lt hx), ?_⟩, ?_, ?_, ?_⟩
  · unfold Beam.W0 pydiv
    rw [if_neg (ne_of_gt hp)]
    show rsqrt _ = _
    unfold rsqrt
    have hx' : 0 < q.wavelen * q.value.im / Real.pi := hx
    rw [if_neg (not_lt.mpr (le_of_lt hx'))]
    rfl
  · rw [← Real.sqrt_mul (le_of_lt hx)]
    congr 1
    unfold w2 Z ZR
    have := hq.im_ne
    field_simp
    ring
  · intro h0
    unfold Beam.R
    rw [inv_eq hq.im_ne]
    show pydiv 1 _ = _
    have hre : q.value.re ≠ 0 := h0
    have : q.value.re / (q.value.re * q.value.re + q.value.im * q.value.im) ≠ 0 := div_ne_zero hre (ne_of_gt hd)
    unfold pydiv
    rw [if_neg this, one_div_div]
    congr 1
    unfold Z ZR
    rw [div_eq_iff hre]
    field_simp
  · intro h0
    unfold Beam.R
    rw [inv_eq hq.im_ne]
    show pydiv 1 _ = _
    have hre : q.value.re = 0 := h0
    unfold pydiv
    rw [if_pos (by dsimp only; rw [hre, zero_div])]
  · rw [Rinv_eq hq]
    unfold Z ZR
    rw [sq, sq]

/-- **C35.** A beam is determined by its size and its radius. -/
theorem C35_roundtrip (q : Beam ℝ) (hl : 0 < q.wavelen) (hz : 0 < q.ZR) (w r : ℝ) (hw : q.W Real.pi rsqrt = .ok w)
    (hr : q.R = .ok r) : from_W_R Real.pi w r (some q.wavelen) (some q.gouy) = .ok q := by
  have hp := Real.pi_pos
  have hq : Phys q := mul_pos hl hz
  have hd := den_pos hq.im_ne
  have hre : q.value.re ≠ 0 := by
    intro h0
    rw [(C35_accessors q hl hz).2.2.1 h0] at hr
    cases hr
  rw [W_eq hq] at hw
  have hw' : Real.sqrt (w2 q) = w := by injection hw
  have hww : w * w = w2 q := by rw [← hw']; exact Real.mul_self_sqrt (le_of_lt (w2_pos hq))
  have hri : r = (q.value.re * q.value.re + q.value.im * q.value.im) / q.value.re := by
    unfold Beam.R at hr
    rw [inv_eq hq.im_ne] at hr
    replace hr : pydiv 1 (q.value.re / (q.value.re * q.value.re + q.value.im * q.value.im)) = .ok r := hr
    unfold pydiv at hr
    rw [if_neg (div_ne_zero hre (ne_of_gt hd)), one_div_div] at hr
    injection hr with hr
    exact hr.symm
  have hr0 : r ≠ 0 := by
    rw [hri]; exact div_ne_zero (ne_of_gt hd) hre
  have h1r : 1 / r = q.value.re / (q.value.re * q.value.re + q.value.im * q.value.im) := by
    rw [hri, one_div_div]
  have hwl : q.wavelen / (Real.pi * (w * w)) = q.value.im / (q.value.re * q.value.re + q.value.im * q.value.im) := by
    rw [hww]
    unfold w2
    have := hq.im_ne
    have := hq.wavelen_ne
    have := ne_of_gt hd
    field_simp
  unfold from_W_R pydiv
  dsimp only [Option.getD]
  rw [if_pos hr0, if_neg hr0, if_neg (by rw [hww]; exact ne_of_gt (mul_pos hp (w2_pos hq))), h1r, hwl]
  have hne : -(q.value.im / (q.value.re * q.value.re + q.value.im * q.value.im)) ≠ 0 :=
    neg_ne_zero.mpr (div_ne_zero hq.im_ne (ne_of_gt hd))
  show (do let q0 ← rdiv _ _; _) = _
  obtain ⟨z, hz1, hz2⟩ := (C32_div ⟨q.value.re / (q.value.re * q.value.re + q.value.im * q.value.im),
    -(q.value.im / (q.value.re * q.value.re + q.value.im * q.value.im))⟩ (.num 1)).2.2.1 (toC_ne hne)
  replace hz2 : toC z = ((1 : ℝ) : ℂ) / toC _ := hz2
  rw [hz1]
  have hzq : z = q.value := by
    have hv : toC ⟨q.value.re / (q.value.re * q.value.re + q.value.im * q.value.im),
        -(q.value.im / (q.value.re * q.value.re + q.value.im * q.value.im))⟩ = (toC q.value)⁻¹ := by
      apply Complex.ext
      · rw [Complex.inv_re]; rfl
      · rw [Complex.inv_im]; exact (neg_div (R := ℝ) _ _).symm
    rw [hv, Complex.ofReal_one, one_div, inv_inv] at hz2
    have := toC_inj.mp hz2
    cases z; cases hqv : q.value
    rw [hqv] at this
    exact congrArg₂ Cx.mk this.1 this.2
  rw [hzq]
  rfl

/-- **C35.** A physical beam stays physical: behind a matrix of positive determinant its Rayleigh range, its wavelength and its size are positive. -/
theorem C35_physical (q : Beam ℝ) (hl : 0 < q.wavelen) (hz : 0 < q.ZR) (m : Mat ℝ) (hm : 0 < (toM m).det) :
    ∃ q', q.propagate_matrix Real.pi rsqrt m = .ok q' ∧ 0 < q'.ZR ∧ 0 < q'.wavelen ∧ ∃ w, q'.W Real.pi rsqrt = .ok w ∧ 0 < w := by
  rw [toM_det] at hm
  obtain ⟨q1, e1, v1, l1, g1, p1⟩ := propagate_eq (q := q) (mul_pos hl hz) m (ne_of_gt hm)
  have hl1 : 0 < q1.wavelen := by rw [l1]; exact mul_pos hl hm
  exact ⟨q1, e1, (mul_pos_iff_of_pos_left hl1).mp p1, hl1, _, W_eq p1, Real.sqrt_pos.mpr (w2_pos p1)⟩

/-- The hypotheses hold for a beam of wavelength 1 with radius 2. -/
example : ∃ W R l : ℝ, 0 < W ∧ 0 < l ∧ R ≠ 0 := ⟨1, 2, 1, by norm_num, by norm_num, by norm_num⟩

example : ∃ (q : Beam ℝ) (m : Mat ℝ), 0 < q.wavelen ∧ 0 < q.ZR ∧ q.Z ≠ 0 ∧ 0 < (toM m).det ∧ (toM m).det ≠ 1 :=
  ⟨⟨⟨1, 2⟩, 1, ⟨1, 0⟩⟩, ⟨1, 0, 0, 2/3⟩, by norm_num, by norm_num [ZR], by norm_num [Z], by rw [toM_det]; norm_num,
    by rw [toM_det]; norm_num⟩

/-! ## C36 -/

/-- A stable round trip focuses. -/
theorem stable_c_ne {a b c d : ℝ} (hdet : a * d - b * c = 1) (hst : |a + d| < 2) : c ≠ 0 := by
  intro h0
  rw [h0, mul_zero, sub_zero] at hdet
  have := abs_lt.mp hst
  nlinarith [sq_nonneg (a - d)]

/-- **C36.** The mode that `eigen_q` returns for a stable unimodular round trip has a positive Rayleigh range and the round trip maps
every beam with that parameter to itself, at the same wavelength; it is the only beam parameter with positive Rayleigh range that
does so. -/
theorem C36_eigenmode (m : Mat ℝ) (hdet : (toM m).det = 1) (hst : |(toM m).trace| < 2) :
    ∃ z, eigen_q rsqrt m = .ok z ∧ 0 < z.im ∧
      (∀ q : Beam ℝ, 0 < q.wavelen → q.value = z →
        ∃ q', q.propagate_matrix Real.pi rsqrt m = .ok q' ∧ q'.value = z ∧ q'.wavelen = q.wavelen) ∧
      (∀ q q' : Beam ℝ, 0 < q.wavelen → 0 < q.ZR → q.propagate_matrix Real.pi rsqrt m = .ok q' → q'.value = q.value →
        q.value = z) := by
  have htr : (toM m).trace = m.a + m.d := by simp [toM, Matrix.trace_fin_two]
  rw [toM_det] at hdet
  rw [htr] at hst
  have hc : m.c ≠ 0 := stable_c_ne hdet hst
  have habs : (if m.c < 0 then -m.c else m.c) = |m.c| := by
    split
    · rw [abs_of_neg (by assumption)]
    · rw [abs_of_nonneg (not_lt.mp (by assumption))]
  have hac : 0 < |m.c| := abs_pos.mpr hc
  have hdisc : 0 < -((m.d - m.a) * (m.d - m.a) + 4 * m.b * m.c) := by
    have h := abs_lt.mp hst
    nlinarith [h.1, h.2]
  set s := Real.sqrt (-((m.d - m.a) * (m.d - m.a) + 4 * m.b * m.c)) with hs
  have hss : s * s = -((m.d - m.a) * (m.d - m.a) + 4 * m.b * m.c) := Real.mul_self_sqrt (le_of_lt hdisc)
  have hspos : 0 < s := Real.sqrt_pos.mpr hdisc
  have hcc : |m.c| * |m.c| = m.c * m.c := abs_mul_abs_self m.c
  have h2c : 2 * m.c ≠ 0 := mul_ne_zero two_ne_zero hc
  have h2a : 2 * |m.c| ≠ 0 := mul_ne_zero two_ne_zero (ne_of_gt hac)
  -- the fixed point equation is quadratic
  have hfix : ∀ (q q' : Beam ℝ), 0 < q.wavelen → 0 < q.value.im → q.propagate_matrix Real.pi rsqrt m = .ok q' →
      (q'.value = q.value ↔ (m.c * (q.value.re * q.value.re - q.value.im * q.value.im) + (m.d - m.a) * q.value.re - m.b = 0 ∧
        m.c * (2 * q.value.re * q.value.im) + (m.d - m.a) * q.value.im = 0)) := by
    intro q q' hl hi he
    obtain ⟨q1, e1, v1, l1, g1, p1⟩ := propagate_eq (q := q) (mul_pos hl hi) m (by rw [hdet]; exact one_ne_zero)
    rw [e1] at he
    injection he with he
    subst he
    have hden := den_ne (z := q.value) (ne_of_gt hi) (a := m.a) (b := m.b) (c := m.c) (d := m.d) (by rw [hdet]; exact one_ne_zero)
    have h1 : q1.value = q.value ↔ toC q1.value = toC q.value := by
      constructor
      · intro h; rw [h]
      · intro h
        have := toC_inj.mp h
        cases hx : q1.value; cases hy : q.value
        rw [hx, hy] at this
        exact congrArg₂ Cx.mk this.1 this.2
    rw [h1, v1, div_eq_iff hden, Complex.ext_iff]
    simp [toC]
    constructor
    · rintro ⟨h1, h2⟩
      exact ⟨by linarith, by linarith⟩
    · rintro ⟨h1, h2⟩
      exact ⟨by linarith, by linarith⟩
  refine ⟨⟨(m.a - m.d) / (2 * m.c), s / (2 * |m.c|)⟩, ?_, div_pos hspos (by linarith), ?_, ?_⟩
  · unfold eigen_q pydiv rsqrt
    rw [habs, if_neg h2c, if_neg (not_lt.mpr (le_of_lt hdisc))]
    simp only [if_neg h2a]
    rfl
  · intro q hl hv
    have hi : 0 < q.value.im := by rw [hv]; exact div_pos hspos (by linarith)
    obtain ⟨q1, e1, v1, l1, g1, p1⟩ := propagate_eq (q := q) (mul_pos hl hi) m (by rw [hdet]; exact one_ne_zero)
    refine ⟨q1, e1, ?_, by rw [l1, hdet, mul_one]⟩
    rw [← hv]
    rw [hfix q q1 hl hi e1, hv]
    dsimp only
    have hne := ne_of_gt hac
    constructor
    · have : s / (2 * |m.c|) * (s / (2 * |m.c|)) = -((m.d - m.a) * (m.d - m.a) + 4 * m.b * m.c) / (4 * (m.c * m.c)) := by
        rw [div_mul_div_comm, hss, ← hcc]
        congr 1
        ring
      rw [this]
      field_simp
      ring
    · field_simp
      ring
  · intro q q' hl hi he hv
    obtain ⟨h1, h2⟩ := (hfix q q' hl hi he).mp hv
    replace hi : 0 < q.value.im := hi
    have hre : q.value.re = (m.a - m.d) / (2 * m.c) := by
      rw [eq_div_iff h2c]
      have : (m.c * (2 * q.value.re) + (m.d - m.a)) * q.value.im = 0 := by linarith
      rcases mul_eq_zero.mp this with h | h
      · linarith
      · exact absurd h (ne_of_gt hi)
    have him : q.value.im = s / (2 * |m.c|) := by
      rw [eq_div_iff h2a]
      have hsq : (q.value.im * (2 * |m.c|)) * (q.value.im * (2 * |m.c|)) = s * s := by
        rw [hss]
        have e : (q.value.im * (2 * |m.c|)) * (q.value.im * (2 * |m.c|)) = 4 * (m.c * m.c) * (q.value.im * q.value.im) := by
          rw [← hcc]; ring
        rw [e]
        have hr2 : q.value.re * (2 * m.c) = m.a - m.d := by rw [hre]; field_simp
        have h3 : 2 * m.c * (2 * (m.c * (q.value.re * q.value.re - q.value.im * q.value.im) + (m.d - m.a) * q.value.re - m.b)) = 0 := by
          rw [h1]; ring
        have h4 : (q.value.re * (2 * m.c)) * (q.value.re * (2 * m.c)) = (m.a - m.d) * (m.a - m.d) := by rw [hr2]
        have h5 : (m.d - m.a) * (q.value.re * (2 * m.c)) = (m.d - m.a) * (m.a - m.d) := by rw [hr2]
        linarith
      exact (mul_self_inj (le_of_lt (mul_pos hi (by linarith))) (le_of_lt hspos)).mp hsq
    cases hx : q.value
    rw [hx] at hre him
    exact congrArg₂ Cx.mk hre him

/-- **C36.** For an unstable unimodular round trip there is no mode, and the square root fails (a `nan` with numpy); without focusing
the division fails. -/
theorem C36_unstable (m : Mat ℝ) (hdet : (toM m).det = 1) (hst : 2 < |(toM m).trace|) :
    (m.c ≠ 0 → eigen_q rsqrt m = .error .valueError) ∧ (m.c = 0 → eigen_q rsqrt m = .error .zeroDivision) := by
  have htr : (toM m).trace = m.a + m.d := by simp [toM, Matrix.trace_fin_two]
  rw [toM_det] at hdet
  rw [htr] at hst
  constructor
  · intro hc
    have hdisc : -((m.d - m.a) * (m.d - m.a) + 4 * m.b * m.c) < 0 := by
      have h : 2 * 2 < |m.a + m.d| * |m.a + m.d| := by nlinarith [abs_nonneg (m.a + m.d)]
      rw [abs_mul_abs_self] at h
      nlinarith
    unfold eigen_q pydiv rsqrt
    rw [if_neg (mul_ne_zero two_ne_zero hc), if_pos hdisc]
    rfl
  · intro hc
    unfold eigen_q pydiv
    rw [if_pos (by rw [hc, mul_zero])]
    rfl

/-- The hypotheses hold for a cavity with one curved mirror: length 1, focal length 1. -/
example : ∃ m : Mat ℝ, (toM m).det = 1 ∧ |(toM m).trace| < 2 :=
  ⟨⟨0, 1, -1, 1⟩, by rw [toM_det]; norm_num, by simp [toM, Matrix.trace_fin_two]⟩

example : ∃ m : Mat ℝ, (toM m).det = 1 ∧ 2 < |(toM m).trace| ∧ m.c ≠ 0 :=
  ⟨⟨2, 1, 1, 1⟩, by rw [toM_det]; norm_num, by simp [toM, Matrix.trace_fin_two]; norm_num, by norm_num⟩

end Beam
end Alm
