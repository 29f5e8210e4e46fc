import Mathlib.Tactic.Linarith
import Mathlib.Tactic.FieldSimp
import Verif.Readout.Homodyne

/-!
# C83: the noise ellipse

The real part of the matrix is symmetric for hermitian densities (`C78_positive`).
-/

set_option linter.unusedSectionVars false

namespace Readout
open Py Noise Inject

theorem rad_deg (θ : ℝ) : rad (180 * θ / Real.pi) = θ := by
  unfold rad
  have := Real.pi_ne_zero
  field_simp

theorem rad_neg (φ : ℝ) : rad (-φ) = -rad φ := by
  unfold rad
  ring

/-- The density at a phase is a quadratic form of the real part of the matrix. -/
theorem PSD_re (φ : ℝ) (N : Mat2 ℂ) : (homodyne_PSD φ N).re = Real.cos (rad φ) ^ 2 * re_mat N 0 0 +
    Real.cos (rad φ) * Real.sin (rad φ) * (re_mat N 0 1 + re_mat N 1 0) + Real.sin (rad φ) ^ 2 * re_mat N 1 1 := by
  unfold homodyne_PSD AC_CSD_IQ re_mat
  rw [rotate_00]
  have c2 : ∀ r : ℝ, ((r : ℂ)) ^ 2 = ((r ^ 2 : ℝ) : ℂ) := fun r => by norm_num
  have cs : ∀ r q : ℝ, (r : ℂ) * (q : ℂ) = ((r * q : ℝ) : ℂ) := fun r q => by norm_num
  simp only [c2, cs, Complex.add_re, Complex.re_ofReal_mul]

theorem PSD_turn (φ ψ : ℝ) (N : Mat2 ℂ) : homodyne_PSD (φ + ψ) N = homodyne_PSD ψ (AC_CSD_IQ φ N) := by
  unfold homodyne_PSD
  rw [(C82_turn φ ψ N 0).1]

/-- Turning keeps the real part symmetric. -/
theorem re_symm (φ : ℝ) {N : Mat2 ℂ} (hN : re_mat N 1 0 = re_mat N 0 1) :
    re_mat (AC_CSD_IQ φ N) 1 0 = re_mat (AC_CSD_IQ φ N) 0 1 := by
  have e : AC_CSD_IQ φ N 1 0 - AC_CSD_IQ φ N 0 1 = ((Real.cos (rad φ) ^ 2 + Real.sin (rad φ) ^ 2 : ℝ) : ℂ) * (N 1 0 - N 0 1) := by
    simp only [AC_CSD_IQ, rotate, rotation_matrix, Fin.sum_univ_two, Matrix.of_apply, Matrix.cons_val_zero, Matrix.cons_val_one,
      Complex.ofReal_add, Complex.ofReal_pow]
    ring
  rw [Real.cos_sq_add_sin_sq, Complex.ofReal_one, one_mul] at e
  have := congrArg Complex.re e
  rw [Complex.sub_re, Complex.sub_re] at this
  unfold re_mat at *
  linarith

section real
variable {a b d : ℝ}

/-- The roots of the characteristic polynomial. -/
theorem eig_facts (a b d : ℝ) : let r := Real.sqrt ((a - d) ^ 2 + 4 * (b * b))
    let m := (a + d - r) / 2
    let M := (a + d + r) / 2
    m + M = a + d ∧ (a - m) * (M - a) = b ^ 2 ∧ m ≤ a ∧ a ≤ M ∧ m ≤ M := by
  intro r m M
  have hr : r ^ 2 = (a - d) ^ 2 + 4 * (b * b) := Real.sq_sqrt (by nlinarith [sq_nonneg (a - d), sq_nonneg b])
  have hr0 : 0 ≤ r := Real.sqrt_nonneg _
  have h1 : |a - d| ≤ r := by
    rw [← Real.sqrt_sq_eq_abs]
    exact Real.sqrt_le_sqrt (by nlinarith [sq_nonneg b])
  have h2 := abs_le.1 h1
  refine ⟨by simp only [m, M]; ring, by simp only [m, M]; nlinarith, ?_, ?_, ?_⟩
  · simp only [m]; linarith [h2.1]
  · simp only [M]; linarith [h2.2]
  · simp only [m, M]; linarith

theorem form_nonneg {p q b : ℝ} (hp : 0 ≤ p) (hq : 0 ≤ q) (h : p * q = b ^ 2) (c s : ℝ) :
    0 ≤ p * c ^ 2 + 2 * b * c * s + q * s ^ 2 := by
  rcases eq_or_lt_of_le hp with h0 | h0
  · subst h0
    have : b = 0 := by nlinarith [sq_nonneg b]
    subst this
    nlinarith [mul_nonneg hq (sq_nonneg s)]
  · have : 0 ≤ p * (p * c ^ 2 + 2 * b * c * s + q * s ^ 2) := by
      have : p * (p * c ^ 2 + 2 * b * c * s + q * s ^ 2) = (p * c + b * s) ^ 2 := by linear_combination s ^ 2 * h
      rw [this]
      exact sq_nonneg _
    exact nonneg_of_mul_nonneg_right this h0

end real

/-- The angle of the ellipse: its cosine and sine, and their product. -/
theorem ellipse_angle (A : Mat2 ℝ) (hA : A 1 0 = A 0 1) (hne : (ellipse A).min ≠ (ellipse A).max) :
    let e := ellipse A
    Real.cos e.rad ^ 2 = (A 0 0 - e.min) / (e.max - e.min) ∧ Real.sin e.rad ^ 2 = (e.max - A 0 0) / (e.max - e.min) ∧
    Real.cos e.rad * Real.sin e.rad = -A 0 1 / (e.max - e.min) := by
  intro e
  obtain ⟨h1, h2, h3, h4, h5⟩ := eig_facts (A 0 0) (A 0 1) (A 1 1)
  have em : e.min = (A 0 0 + A 1 1 - Real.sqrt ((A 0 0 - A 1 1) ^ 2 + 4 * (A 0 1 * A 0 1))) / 2 := by
    simp only [e, ellipse, hA]
  have eM : e.max = (A 0 0 + A 1 1 + Real.sqrt ((A 0 0 - A 1 1) ^ 2 + 4 * (A 0 1 * A 0 1))) / 2 := by
    simp only [e, ellipse, hA]
  rw [← em, ← eM] at h1 h2
  rw [← em] at h3 h5
  rw [← eM] at h4 h5
  have hD : 0 < e.max - e.min := by
    rcases lt_or_eq_of_le h5 with h | h
    · linarith
    · exact absurd h hne
  obtain ⟨σ, hσ, hσb, hrad⟩ : ∃ σ : ℝ, (σ = 1 ∨ σ = -1) ∧ σ * |A 0 1| = A 0 1 ∧
      e.rad = Real.pi - Real.arccos (σ * Real.sqrt ((A 0 0 - e.min) / (e.max - e.min))) := by
    have hd : (if A 0 0 - e.min < 0 then 0 else A 0 0 - e.min) = A 0 0 - e.min := if_neg (by linarith)
    have hr : e.rad = Real.pi - Real.arccos (((if A 1 0 > 0 then 1 else 0) * 2 - 1) *
        Real.sqrt ((if A 0 0 - e.min < 0 then 0 else A 0 0 - e.min) / (e.max - e.min))) := rfl
    rw [hd, hA] at hr
    by_cases hb : A 0 1 > 0
    · refine ⟨1, Or.inl rfl, by rw [abs_of_pos hb, one_mul], ?_⟩
      rw [hr, if_pos hb]
      norm_num
    · refine ⟨-1, Or.inr rfl, by rw [abs_of_nonpos (not_lt.1 hb)]; ring, ?_⟩
      rw [hr, if_neg hb]
      norm_num
  have hq0 : 0 ≤ (A 0 0 - e.min) / (e.max - e.min) := div_nonneg (by linarith) hD.le
  have hq1 : (A 0 0 - e.min) / (e.max - e.min) ≤ 1 := by
    rw [div_le_one hD]
    linarith
  have hs1 : Real.sqrt ((A 0 0 - e.min) / (e.max - e.min)) ≤ 1 := by
    rw [← Real.sqrt_one]
    exact Real.sqrt_le_sqrt hq1
  have hs0 := Real.sqrt_nonneg ((A 0 0 - e.min) / (e.max - e.min))
  have hσ2 : σ ^ 2 = 1 := by rcases hσ with rfl | rfl <;> norm_num
  have hx : -1 ≤ σ * Real.sqrt ((A 0 0 - e.min) / (e.max - e.min)) ∧
      σ * Real.sqrt ((A 0 0 - e.min) / (e.max - e.min)) ≤ 1 := by
    rcases hσ with rfl | rfl
    · exact ⟨by linarith, by linarith⟩
    · exact ⟨by linarith, by linarith⟩
  have hc : Real.cos e.rad = -(σ * Real.sqrt ((A 0 0 - e.min) / (e.max - e.min))) := by
    rw [hrad, Real.cos_pi_sub, Real.cos_arccos hx.1 hx.2]
  have hsin : Real.sin e.rad = Real.sqrt ((e.max - A 0 0) / (e.max - e.min)) := by
    rw [hrad, Real.sin_pi_sub, Real.sin_arccos]
    congr 1
    rw [mul_pow, hσ2, Real.sq_sqrt hq0]
    field_simp
    ring
  have hq2 : 0 ≤ (e.max - A 0 0) / (e.max - e.min) := div_nonneg (by linarith) hD.le
  refine ⟨?_, ?_, ?_⟩
  · rw [hc, neg_sq, mul_pow, hσ2, Real.sq_sqrt hq0, one_mul]
  · rw [hsin, Real.sq_sqrt hq2]
  · rw [hc, hsin]
    have : Real.sqrt ((A 0 0 - e.min) / (e.max - e.min)) * Real.sqrt ((e.max - A 0 0) / (e.max - e.min)) =
        |A 0 1| / (e.max - e.min) := by
      rw [← Real.sqrt_mul hq0, div_mul_div_comm, h2, Real.sqrt_div (sq_nonneg _), Real.sqrt_sq_eq_abs,
        Real.sqrt_mul_self hD.le]
    calc -(σ * Real.sqrt ((A 0 0 - e.min) / (e.max - e.min))) * Real.sqrt ((e.max - A 0 0) / (e.max - e.min))
        = -(σ * (Real.sqrt ((A 0 0 - e.min) / (e.max - e.min)) * Real.sqrt ((e.max - A 0 0) / (e.max - e.min)))) := by ring
      _ = -(σ * |A 0 1|) / (e.max - e.min) := by rw [this]; ring
      _ = _ := by rw [hσb]

/-- The density at the phase minus the angle of the ellipse. -/
theorem PSD_angle (φ : ℝ) {N : Mat2 ℂ} (hN : re_mat N 1 0 = re_mat N 0 1)
    (hne : (AC_CSD_ellipse φ N).min ≠ (AC_CSD_ellipse φ N).max) :
    (homodyne_PSD (φ - 180 * (AC_CSD_ellipse φ N).rad / Real.pi) N).re = (AC_CSD_ellipse φ N).max ∧
    (homodyne_PSD (φ - 180 * (AC_CSD_ellipse φ N).rad / Real.pi + 90) N).re = (AC_CSD_ellipse φ N).min := by
  have hA := re_symm φ hN
  obtain ⟨e1, e2, e3⟩ := ellipse_angle _ hA hne
  obtain ⟨h1, h2, h3, h4, h5⟩ := eig_facts (re_mat (AC_CSD_IQ φ N) 0 0) (re_mat (AC_CSD_IQ φ N) 0 1) (re_mat (AC_CSD_IQ φ N) 1 1)
  have em : (AC_CSD_ellipse φ N).min = (re_mat (AC_CSD_IQ φ N) 0 0 + re_mat (AC_CSD_IQ φ N) 1 1 -
      Real.sqrt ((re_mat (AC_CSD_IQ φ N) 0 0 - re_mat (AC_CSD_IQ φ N) 1 1) ^ 2 +
        4 * (re_mat (AC_CSD_IQ φ N) 0 1 * re_mat (AC_CSD_IQ φ N) 0 1))) / 2 := by
    simp only [AC_CSD_ellipse, ellipse, hA]
  have eM : (AC_CSD_ellipse φ N).max = (re_mat (AC_CSD_IQ φ N) 0 0 + re_mat (AC_CSD_IQ φ N) 1 1 +
      Real.sqrt ((re_mat (AC_CSD_IQ φ N) 0 0 - re_mat (AC_CSD_IQ φ N) 1 1) ^ 2 +
        4 * (re_mat (AC_CSD_IQ φ N) 0 1 * re_mat (AC_CSD_IQ φ N) 0 1))) / 2 := by
    simp only [AC_CSD_ellipse, ellipse, hA]
  rw [← em, ← eM] at h1 h2
  change Real.cos (AC_CSD_ellipse φ N).rad ^ 2 = (_ - (AC_CSD_ellipse φ N).min) / ((AC_CSD_ellipse φ N).max - _) at e1
  change Real.sin (AC_CSD_ellipse φ N).rad ^ 2 = ((AC_CSD_ellipse φ N).max - _) / ((AC_CSD_ellipse φ N).max - _) at e2
  change Real.cos (AC_CSD_ellipse φ N).rad * Real.sin (AC_CSD_ellipse φ N).rad = _ / ((AC_CSD_ellipse φ N).max - _) at e3
  change _ * _ = -_ / (_ - (AC_CSD_ellipse φ N).min) at e3
  change _ = _ / (_ - (AC_CSD_ellipse φ N).min) at e1 e2
  generalize (AC_CSD_ellipse φ N).rad = θ at *
  generalize (AC_CSD_ellipse φ N).min = m at *
  generalize (AC_CSD_ellipse φ N).max = M at *
  clear em eM
  have hD : M - m ≠ 0 := fun h => hne (by linarith)
  rw [eq_div_iff hD] at e1 e2 e3
  constructor
  · rw [sub_eq_add_neg, PSD_turn, PSD_re, rad_neg, rad_deg, Real.cos_neg, Real.sin_neg, hA]
    apply mul_right_cancel₀ hD
    generalize re_mat (AC_CSD_IQ φ N) 0 0 = a at *
    generalize re_mat (AC_CSD_IQ φ N) 0 1 = b at *
    generalize re_mat (AC_CSD_IQ φ N) 1 1 = d at *
    have hd : d = m + M - a := by linarith
    subst hd
    linear_combination a * e1 + (m + M - a) * e2 - 2 * b * e3 - 2 * h2
  · have h90 : rad (-(180 * θ / Real.pi) + 90) = Real.pi / 2 - θ := by
      rw [rad_add, rad_neg, rad_deg]
      unfold rad
      ring
    rw [sub_eq_add_neg, add_assoc, PSD_turn, PSD_re, h90, Real.cos_pi_div_two_sub, Real.sin_pi_div_two_sub, hA]
    apply mul_right_cancel₀ hD
    generalize re_mat (AC_CSD_IQ φ N) 0 0 = a at *
    generalize re_mat (AC_CSD_IQ φ N) 0 1 = b at *
    generalize re_mat (AC_CSD_IQ φ N) 1 1 = d at *
    have hd : d = m + M - a := by linarith
    subst hd
    linear_combination a * e2 + (m + M - a) * e1 + 2 * b * e3 + 2 * h2

/-- **C83**: the density is largest at the phase minus the angle of the ellipse, and least at right angles to it: drawn at its
angle with the long axis upwards, as `/repo/phasor/utilities/mpl/ellipse_plots.py` l.50-52 does, the ellipse has `I` upwards and `Q` to the
right. -/
theorem C83_angle (φ : ℝ) {N : Mat2 ℂ} (hN : (N 1 0).re = (N 0 1).re)
    (hne : (AC_CSD_ellipse φ N).min ≠ (AC_CSD_ellipse φ N).max) :
    (homodyne_PSD (φ - 180 * (AC_CSD_ellipse φ N).rad / Real.pi) N).re = (AC_CSD_ellipse φ N).max ∧
    (homodyne_PSD (φ - 180 * (AC_CSD_ellipse φ N).rad / Real.pi + 90) N).re = (AC_CSD_ellipse φ N).min :=
  PSD_angle φ hN hne

/-- **C83**: the axes of the noise ellipse are the least and the largest density over all phases. -/
theorem C83_axes (φ : ℝ) {N : Mat2 ℂ} (hN : (N 1 0).re = (N 0 1).re) :
    (∀ ψ, (AC_CSD_ellipse φ N).min ≤ (homodyne_PSD ψ N).re ∧ (homodyne_PSD ψ N).re ≤ (AC_CSD_ellipse φ N).max) ∧
    (∃ ψ, (homodyne_PSD ψ N).re = (AC_CSD_ellipse φ N).min) ∧ ∃ ψ, (homodyne_PSD ψ N).re = (AC_CSD_ellipse φ N).max := by
  have hA := re_symm φ hN
  obtain ⟨h1, h2, h3, h4, h5⟩ := eig_facts (re_mat (AC_CSD_IQ φ N) 0 0) (re_mat (AC_CSD_IQ φ N) 0 1) (re_mat (AC_CSD_IQ φ N) 1 1)
  have em : (AC_CSD_ellipse φ N).min = (re_mat (AC_CSD_IQ φ N) 0 0 + re_mat (AC_CSD_IQ φ N) 1 1 -
      Real.sqrt ((re_mat (AC_CSD_IQ φ N) 0 0 - re_mat (AC_CSD_IQ φ N) 1 1) ^ 2 +
        4 * (re_mat (AC_CSD_IQ φ N) 0 1 * re_mat (AC_CSD_IQ φ N) 0 1))) / 2 := by
    simp only [AC_CSD_ellipse, ellipse, hA]
  have eM : (AC_CSD_ellipse φ N).max = (re_mat (AC_CSD_IQ φ N) 0 0 + re_mat (AC_CSD_IQ φ N) 1 1 +
      Real.sqrt ((re_mat (AC_CSD_IQ φ N) 0 0 - re_mat (AC_CSD_IQ φ N) 1 1) ^ 2 +
        4 * (re_mat (AC_CSD_IQ φ N) 0 1 * re_mat (AC_CSD_IQ φ N) 0 1))) / 2 := by
    simp only [AC_CSD_ellipse, ellipse, hA]
  rw [← em, ← eM] at h1 h2
  rw [← em] at h3 h5
  rw [← eM] at h4 h5
  have bound : ∀ ψ, (AC_CSD_ellipse φ N).min ≤ (homodyne_PSD ψ N).re ∧ (homodyne_PSD ψ N).re ≤ (AC_CSD_ellipse φ N).max := by
    intro ψ
    have : ψ = φ + (ψ - φ) := by ring
    rw [this, PSD_turn, PSD_re, hA]
    have hcs := Real.cos_sq_add_sin_sq (rad (ψ - φ))
    generalize Real.cos (rad (ψ - φ)) = c at *
    generalize Real.sin (rad (ψ - φ)) = s at *
    generalize re_mat (AC_CSD_IQ φ N) 0 0 = a at *
    generalize re_mat (AC_CSD_IQ φ N) 0 1 = b at *
    generalize re_mat (AC_CSD_IQ φ N) 1 1 = d at *
    generalize (AC_CSD_ellipse φ N).min = m at *
    generalize (AC_CSD_ellipse φ N).max = M at *
    have hd : d = m + M - a := by linarith
    subst hd
    have f1 := form_nonneg (p := a - m) (q := M - a) (b := b) (by linarith) (by linarith) h2 c s
    have f2 := form_nonneg (p := M - a) (q := a - m) (b := -b) (by linarith) (by linarith) (by linarith) c s
    have g1 : c ^ 2 * a + c * s * (b + b) + s ^ 2 * (m + M - a) - m = (a - m) * c ^ 2 + 2 * b * c * s + (M - a) * s ^ 2 := by
      linear_combination m * hcs
    have g2 : M - (c ^ 2 * a + c * s * (b + b) + s ^ 2 * (m + M - a)) = (M - a) * c ^ 2 + 2 * -b * c * s + (a - m) * s ^ 2 := by
      linear_combination -M * hcs
    constructor <;> linarith
  refine ⟨bound, ?_⟩
  by_cases hne : (AC_CSD_ellipse φ N).min = (AC_CSD_ellipse φ N).max
  · have h0 := bound 0
    exact ⟨⟨0, by linarith⟩, ⟨0, by linarith⟩⟩
  · exact ⟨⟨_, (C83_angle φ hN hne).2⟩, ⟨_, (C83_angle φ hN hne).1⟩⟩

/-- **C83**: `Imin` is the least density of `I - r Q` over all real `r`, what is left of one quadrature after subtracting the
other, and `Qmin` that of `Q - r I`. -/
theorem C83_conditional (φ : ℝ) {N : Mat2 ℂ} (hN : (N 1 0).re = (N 0 1).re) :
    let A := AC_CSD_IQ φ N
    (∀ v, 0 < (A 1 1).re → Imin φ N = .ok v →
      (∀ r : ℝ, v ≤ (A 0 0 - r * A 0 1 - r * A 1 0 + r * r * A 1 1).re) ∧
      ∃ r : ℝ, v = (A 0 0 - r * A 0 1 - r * A 1 0 + r * r * A 1 1).re) ∧
    ∀ v, 0 < (A 0 0).re → Qmin φ N = .ok v →
      (∀ r : ℝ, v ≤ (A 1 1 - r * A 0 1 - r * A 1 0 + r * r * A 0 0).re) ∧
      ∃ r : ℝ, v = (A 1 1 - r * A 0 1 - r * A 1 0 + r * r * A 0 0).re := by
  intro A
  have hA : (A 1 0).re = (A 0 1).re := re_symm φ hN
  have e : ∀ (x y : ℂ) (r : ℝ), (x - r * A 0 1 - r * A 1 0 + r * r * y).re = x.re - 2 * r * (A 0 1).re + r ^ 2 * y.re := by
    intro x y r
    rw [← Complex.ofReal_mul, Complex.add_re, Complex.sub_re, Complex.sub_re, Complex.re_ofReal_mul, Complex.re_ofReal_mul,
      Complex.re_ofReal_mul, hA]
    ring
  have key : ∀ (x y : ℂ) (v : ℝ), 0 < y.re → v = x.re - |(A 1 0).re| ^ 2 / y.re →
      (∀ r : ℝ, v ≤ (x - r * A 0 1 - r * A 1 0 + r * r * y).re) ∧ ∃ r : ℝ, v = (x - r * A 0 1 - r * A 1 0 + r * r * y).re := by
    intro x y v hy hv
    rw [sq_abs, hA] at hv
    refine ⟨fun r => ?_, (A 0 1).re / y.re, ?_⟩
    · rw [e, hv]
      have : x.re - 2 * r * (A 0 1).re + r ^ 2 * y.re - (x.re - (A 0 1).re ^ 2 / y.re) = (r * y.re - (A 0 1).re) ^ 2 / y.re := by
        field_simp
        ring
      have h2 : 0 ≤ (r * y.re - (A 0 1).re) ^ 2 / y.re := div_nonneg (sq_nonneg _) hy.le
      linarith
    · rw [e, hv]
      field_simp
      ring
  constructor
  · intro v h0 hv
    have h1 : re_mat (AC_CSD_IQ φ N) 1 1 ≠ 0 := h0.ne'
    unfold Imin pdiv at hv
    dsimp only at hv
    rw [if_neg h1] at hv
    injection hv with hv
    exact key _ _ v h0 hv.symm
  · intro v h0 hv
    have h1 : re_mat (AC_CSD_IQ φ N) 0 0 ≠ 0 := h0.ne'
    unfold Qmin pdiv at hv
    dsimp only at hv
    rw [if_neg h1] at hv
    injection hv with hv
    exact key _ _ v h0 hv.symm

end Readout
