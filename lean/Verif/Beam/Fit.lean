import Mathlib.Data.List.Sort
import Verif.Beam.Props

/-!
# Fits of beams to measured widths (C137)

Source: `/repo/phasor/alm/beam_fit.py`.  `scipy.optimize.curve_fit` is a parameter; numbers are real, so that a division by zero and a
root of a negative number raise where numpy returns infinities and nan.
-/

namespace Alm
open Py Cplx

variable {V : Type} [Field V] [LinearOrder V]

/-! ## model -/

/-- A `QFit`, l.43-80 and l.98; `D_um` and `Z_in` are the diameters and the places it is given unless `R_m` and `Z_m` are. -/
structure QFit (V : Type) where
  wavelen_nm : V
  m2 : V
  D_um : List V
  R_m' : Option (List V)
  Z_in : List V
  Z_m' : Option (List V)
  init' : Option (V × V)
  no_prefit : Bool

namespace QFit

/-- `R_m`, l.61-67. -/
def R_m (f : QFit V) : List V := f.R_m'.getD (f.D_um.map (fun D => D * (1 / 10 ^ 6) / 2))

/-- `Z_m`, l.74-80. -/
def Z_m (f : QFit V) : List V := f.Z_m'.getD (f.Z_in.map (fun Z => Z * (254 / 10000)))

/-- The wavelength in metres, `wavelen_nm * 1e-9`. -/
def wavelen (f : QFit V) : V := f.wavelen_nm * (1 / 10 ^ 9)

/-- `Z0_ZR_init`, l.82-91; of points with the same width the first ones are taken (`argsort` does not say which). -/
def Z0_ZR_init (f : QFit V) (pi : V) : Except Err (V × V) :=
  match f.init' with
  | some arg => .ok arg
  | none =>
    match ((f.R_m.zip f.Z_m).mergeSort (fun a b => decide (a.1 ≤ b.1))) with
    | [] => .error .indexError
    | p :: l => do
      let ZR ← pydiv (pi * (p.1 * p.1)) f.wavelen
      let zs := ((p :: l).take 4).map Prod.snd
      return (-(zs.sum / zs.length), ZR)

/-- `waist_func`, l.93-94. -/
def waist_func (f : QFit V) (pi : V) (sqrt : V → Except Err V) (z z_0 z_R : V) : Except Err V := do
  let x ← pydiv (f.m2 * f.wavelen_nm * (1 / 10 ^ 9)) (pi * z_R)
  sqrt (x * ((z + z_0) * (z + z_0) + z_R * z_R))

/-- `np.argmin`. -/
def argmin (l : List V) : Except Err Nat :=
  match l.min? with
  | none => .error .valueError
  | some m => .ok (l.idxOf m)

/-- The points of the first fit, l.102-122: those behind the narrowest one or those before it; none if it is near an end. -/
def prefit (f : QFit V) (idx : Nat) : Option (List V × List V) :=
  if idx > 1 ∧ idx < f.R_m.length - 1 ∧ f.no_prefit = false ∧ f.R_m.length > 3 then
    if 2 * idx < f.R_m.length then some (f.Z_m.drop (idx + 1), f.R_m.drop (idx + 1))
    else some (f.Z_m.take idx, f.R_m.take idx)
  else none

/-- The guess after the first fit, l.102-122. -/
def start (f : QFit V) (curve_fit : List V → List V → V × V → Except Err (V × V)) (idx : Nat) (init : V × V) : Except Err (V × V) :=
  match f.prefit idx with
  | none => .ok init
  | some (zs, rs) => curve_fit zs rs init

/-- `Z0_ZR_fit`, l.99-124; `curve_fit` has the places, the widths and the first guess as arguments. -/
def Z0_ZR_fit (f : QFit V) (pi : V) (curve_fit : List V → List V → V × V → Except Err (V × V)) : Except Err (V × V) := do
  let idx ← argmin f.R_m
  let init ← f.Z0_ZR_init pi
  let init ← f.start curve_fit idx init
  curve_fit f.Z_m f.R_m init

/-- `q_fit`, l.126-132, and `q_init`, l.134-143, of their two values. -/
def q_of (f : QFit V) (p : V × V) : Beam V := Beam.from_Z_ZR p.1 p.2 (some f.wavelen) none

end QFit

/-- The beam at the target before it is turned round, l.29-36. -/
def fit_moved (pi : V) (sqrt : V → Except Err V) (q : Beam V) (ref_m : Option V) (loc_m : V) (reversed : Bool) : Except Err (Beam V) :=
  match ref_m with
  | none => .ok q
  | some ref_m =>
    if reversed then q.propagate_distance pi sqrt (-loc_m + ref_m) else q.propagate_distance pi sqrt (loc_m - ref_m)

/-- `QFitBeamTarget.beam_q`, l.28-39; `q` is `qfit.q_fit`, `reversed` the direction of the target, `parent` that of what it is in;
`env_reversed` is bases.py l.62-70. -/
def fit_target (pi : V) (sqrt : V → Except Err V) (q : Beam V) (ref_m : Option V) (loc_m : V) (reversed parent : Bool) :
    Except Err (Beam V) := do
  let q_value ← fit_moved pi sqrt q ref_m loc_m reversed
  return if xor parent reversed then q_value.reversed else q_value

/-! ## the curve -/

namespace QFit

/-- The width at `z` of a beam whose waist is at `-z_0`. -/
noncomputable def curve (k z z_0 z_R : ℝ) : ℝ := Real.sqrt (k / (Real.pi * z_R) * ((z + z_0) ^ 2 + z_R ^ 2))

theorem waist_curve {f : QFit ℝ} (hm : 0 < f.m2) (hl : 0 < f.wavelen_nm) (z z_0 : ℝ) {z_R : ℝ} (hz : 0 < z_R) :
    f.waist_func Real.pi rsqrt z z_0 z_R = .ok (curve (f.m2 * f.wavelen) z z_0 z_R) := by
  have hp := Real.pi_pos
  have hne : Real.pi * z_R ≠ 0 := (mul_pos hp hz).ne'
  unfold waist_func
  rw [pydiv_ok hne]
  show rsqrt _ = _
  rw [rsqrt_ok]
  · unfold curve wavelen
    congr 2
    ring
  · have : 0 < f.m2 * f.wavelen_nm * (1 / 10 ^ 9) / (Real.pi * z_R) := by positivity
    have h2 : 0 ≤ (z + z_0) * (z + z_0) + z_R * z_R := add_nonneg (mul_self_nonneg _) (mul_self_nonneg _)
    positivity

theorem curve_sq {k z z_0 z_R : ℝ} (hk : 0 < k) (hz : 0 < z_R) :
    curve k z z_0 z_R ^ 2 = k / (Real.pi * z_R) * ((z + z_0) ^ 2 + z_R ^ 2) := by
  have hp := Real.pi_pos
  unfold curve
  rw [Real.sq_sqrt (by positivity)]

/-- **C137, units.**  Each radius is half a diameter, in metres: twice a million of it is the diameter in micrometres.  A hundred places
in metres are 2.54 places in inches.  Radii and places in metres are taken as they are. -/
theorem C137_units (f : QFit ℝ) :
    (f.R_m' = none → f.R_m.map (fun r => 2 * 10 ^ 6 * r) = f.D_um) ∧
      (f.Z_m' = none → f.Z_m.map (fun z => 100 * z) = f.Z_in.map (fun i => 2.54 * i)) ∧
      (∀ R, f.R_m' = some R → f.R_m = R) ∧ ∀ Z, f.Z_m' = some Z → f.Z_m = Z := by
  refine ⟨fun h => ?_, fun h => ?_, fun R h => ?_, fun Z h => ?_⟩
  · unfold R_m
    rw [h, Option.getD_none, List.map_map]
    conv_rhs => rw [← List.map_id f.D_um]
    refine List.map_congr_left fun D _ => ?_
    show 2 * 10 ^ 6 * (D * (1 / 10 ^ 6) / 2) = D
    ring
  · unfold Z_m
    rw [h, Option.getD_none, List.map_map]
    refine List.map_congr_left fun i _ => ?_
    show 100 * (i * (254 / 10000)) = 2.54 * i
    norm_num
    ring
  · unfold R_m; rw [h]; rfl
  · unfold Z_m; rw [h]; rfl

/-- **C137, the curve.**  The function that is fitted is the width of the fitted beam at each place, times the root of `m2`, as it is
drawn. -/
theorem C137_curve {f : QFit ℝ} (hm : 0 < f.m2) (hl : 0 < f.wavelen_nm) {z_0 z_R : ℝ} (hz : 0 < z_R) (z : ℝ) :
    ∃ q w, (f.q_of (z_0, z_R)).propagate_distance Real.pi rsqrt z = .ok q ∧ q.W Real.pi rsqrt = .ok w ∧
      f.waist_func Real.pi rsqrt z z_0 z_R = .ok (Real.sqrt f.m2 * w) := by
  have hp := Real.pi_pos
  have hw : 0 < f.wavelen := mul_pos hl (by norm_num)
  obtain ⟨q, hq, hZ, hR, hL, -⟩ := Beam.C34_gouy (f.q_of (z_0, z_R)) hw hz z
  have hR' : q.value.im = z_R := hR
  have hZ' : q.value.re = z_0 + z := hZ
  have hL' : q.wavelen = f.wavelen := hL
  have hphys : q.Phys := by
    show 0 < q.wavelen * q.value.im
    rw [hR', hL']
    exact mul_pos hw hz
  refine ⟨q, _, hq, Beam.W_eq hphys, ?_⟩
  rw [waist_curve hm hl z z_0 hz, ← Real.sqrt_mul hm.le]
  unfold curve Beam.w2
  rw [hR', hZ', hL']
  congr 2
  field_simp
  ring

/-- **C137, the waist.**  The fitted curve is narrowest at `-z_0`, where its width is the root of `m2` times the waist of the fitted
beam. -/
theorem C137_waist {f : QFit ℝ} (hm : 0 < f.m2) (hl : 0 < f.wavelen_nm) {z_0 z_R : ℝ} (hz : 0 < z_R) (z : ℝ) :
    ∃ w w0 W0, f.waist_func Real.pi rsqrt z z_0 z_R = .ok w ∧ f.waist_func Real.pi rsqrt (-z_0) z_0 z_R = .ok w0 ∧
      (f.q_of (z_0, z_R)).W0 Real.pi rsqrt = .ok W0 ∧ w0 = Real.sqrt f.m2 * W0 ∧ w0 ≤ w ∧ (w0 = w ↔ z = -z_0) := by
  have hp := Real.pi_pos
  have hw : 0 < f.wavelen := mul_pos hl (by norm_num)
  have hk : 0 < f.m2 * f.wavelen := mul_pos hm hw
  refine ⟨_, _, Real.sqrt (f.wavelen * z_R / Real.pi), waist_curve hm hl z z_0 hz, waist_curve hm hl (-z_0) z_0 hz, ?_, ?_, ?_, ?_⟩
  · unfold Beam.W0
    rw [pydiv_ok hp.ne']
    exact rsqrt_ok (by show 0 ≤ f.wavelen * z_R / Real.pi; positivity)
  · rw [← Real.sqrt_mul hm.le]
    unfold curve
    congr 1
    field_simp
    ring
  · apply Real.sqrt_le_sqrt
    apply mul_le_mul_of_nonneg_left _ (by positivity)
    nlinarith [sq_nonneg (z + z_0)]
  · constructor
    · intro h
      have h2 := congrArg (fun t => t ^ 2) h
      simp only [curve_sq hk hz] at h2
      have hc : f.m2 * f.wavelen / (Real.pi * z_R) ≠ 0 := by positivity
      have h3 := mul_left_cancel₀ hc h2
      have h4 : (z + z_0) ^ 2 = 0 := by nlinarith
      have := pow_eq_zero_iff (two_ne_zero) |>.1 h4
      linarith
    · rintro rfl
      rfl

/-! ## what the widths determine -/

theorem three_points {k : ℝ} (hk : 0 < k) {z_0 z_R z_0' z_R' : ℝ} (hz : 0 < z_R) (hz' : 0 < z_R') {z₁ z₂ z₃ : ℝ} (h12 : z₁ ≠ z₂)
    (h13 : z₁ ≠ z₃) (h23 : z₂ ≠ z₃) (h1 : curve k z₁ z_0 z_R = curve k z₁ z_0' z_R') (h2 : curve k z₂ z_0 z_R = curve k z₂ z_0' z_R')
    (h3 : curve k z₃ z_0 z_R = curve k z₃ z_0' z_R') : z_0 = z_0' ∧ z_R = z_R' := by
  have hp := Real.pi_pos
  have sq : ∀ z, curve k z z_0 z_R = curve k z z_0' z_R' → ((z + z_0) ^ 2 + z_R ^ 2) * z_R' = ((z + z_0') ^ 2 + z_R' ^ 2) * z_R := by
    intro z h
    have h2 := congrArg (fun t => t ^ 2) h
    simp only [curve_sq hk hz, curve_sq hk hz'] at h2
    field_simp at h2
    linarith
  have e1 := sq z₁ h1
  have e2 := sq z₂ h2
  have e3 := sq z₃ h3
  have d12 : (z₁ - z₂) * ((z_R' - z_R) * (z₁ + z₂) + 2 * (z_0 * z_R' - z_0' * z_R)) = 0 := by linear_combination e1 - e2
  have d13 : (z₁ - z₃) * ((z_R' - z_R) * (z₁ + z₃) + 2 * (z_0 * z_R' - z_0' * z_R)) = 0 := by linear_combination e1 - e3
  have f12 := (mul_eq_zero.1 d12).resolve_left (sub_ne_zero.2 h12)
  have f13 := (mul_eq_zero.1 d13).resolve_left (sub_ne_zero.2 h13)
  have g : (z_R' - z_R) * (z₂ - z₃) = 0 := by linear_combination f12 - f13
  have hR := sub_eq_zero.1 ((mul_eq_zero.1 g).resolve_right (sub_ne_zero.2 h23))
  subst hR
  refine ⟨?_, rfl⟩
  have : z_R' * (z_0 - z_0') = 0 := by linear_combination f12 / 2
  linarith [(mul_eq_zero.1 this).resolve_left hz.ne']

/-- **C137, three places.**  Widths at three different places determine the beam. -/
theorem C137_unique {f : QFit ℝ} (hm : 0 < f.m2) (hl : 0 < f.wavelen_nm) {z_0 z_R z_0' z_R' : ℝ} (hz : 0 < z_R) (hz' : 0 < z_R')
    {z₁ z₂ z₃ : ℝ} (h12 : z₁ ≠ z₂) (h13 : z₁ ≠ z₃) (h23 : z₂ ≠ z₃)
    (h : ∀ z, z = z₁ ∨ z = z₂ ∨ z = z₃ → f.waist_func Real.pi rsqrt z z_0 z_R = f.waist_func Real.pi rsqrt z z_0' z_R') :
    z_0 = z_0' ∧ z_R = z_R' := by
  have hw : 0 < f.wavelen := mul_pos hl (by norm_num)
  have hc : ∀ z, z = z₁ ∨ z = z₂ ∨ z = z₃ → curve (f.m2 * f.wavelen) z z_0 z_R = curve (f.m2 * f.wavelen) z z_0' z_R' := by
    intro z hz0
    have := h z hz0
    rw [waist_curve hm hl z z_0 hz, waist_curve hm hl z z_0' hz'] at this
    injection this
  exact three_points (mul_pos hm hw) hz hz' h12 h13 h23 (hc _ (Or.inl rfl)) (hc _ (Or.inr (Or.inl rfl))) (hc _ (Or.inr (Or.inr rfl)))

/-- **C137, two places.**  Widths at two places do not determine it: beams with their waist in the middle between them and Rayleigh
ranges `a` and `d² / a` have the same widths there. -/
theorem C137_two_refuted {f : QFit ℝ} (hm : 0 < f.m2) (hl : 0 < f.wavelen_nm) {d : ℝ} (hd : 0 < d) :
    ∃ z_R z_R' : ℝ, 0 < z_R ∧ 0 < z_R' ∧ z_R ≠ z_R' ∧ ∀ z, z = d ∨ z = -d →
      f.waist_func Real.pi rsqrt z 0 z_R = f.waist_func Real.pi rsqrt z 0 z_R' := by
  refine ⟨2 * d, d / 2, by positivity, by positivity, by linarith, ?_⟩
  intro z hz
  rw [waist_curve hm hl z 0 (by positivity), waist_curve hm hl z 0 (by positivity)]
  unfold curve
  have hp := Real.pi_pos
  congr 2
  have : z ^ 2 = d ^ 2 := by rcases hz with rfl | rfl <;> ring
  rw [add_zero, this]
  field_simp
  ring

/-! ## the fit -/

theorem zip_self (l : List ℝ) : l.zip l = l.map (fun a => (a, a)) := by
  induction l with
  | nil => rfl
  | cons a l ih => rw [List.zip_cons_cons, ih, List.map_cons]

/-- The sum of the squares of what is left. -/
noncomputable def residual (k : ℝ) (zs rs : List ℝ) (p : ℝ × ℝ) : ℝ :=
  ((zs.zip rs).map (fun d => (curve k d.1 p.1 p.2 - d.2) ^ 2)).sum

/-- **C137, recovery.**  If the widths are those of a beam at three or more different places and `curve_fit` finds the least squares, the
fit is that beam, whatever the first guess and the first fit. -/
theorem C137_recovers {f : QFit ℝ} (hm : 0 < f.m2) (hl : 0 < f.wavelen_nm) {z_0 z_R : ℝ} (hz : 0 < z_R)
    (hR : f.R_m = f.Z_m.map (fun z => curve (f.m2 * f.wavelen) z z_0 z_R))
    {z₁ z₂ z₃ : ℝ} (h1 : z₁ ∈ f.Z_m) (h2 : z₂ ∈ f.Z_m) (h3 : z₃ ∈ f.Z_m) (h12 : z₁ ≠ z₂) (h13 : z₁ ≠ z₃) (h23 : z₂ ≠ z₃)
    {curve_fit : List ℝ → List ℝ → ℝ × ℝ → Except Err (ℝ × ℝ)}
    (hfit : ∀ zs rs p0 p, curve_fit zs rs p0 = .ok p → 0 < p.2 ∧
      ∀ p' : ℝ × ℝ, 0 < p'.2 → residual (f.m2 * f.wavelen) zs rs p ≤ residual (f.m2 * f.wavelen) zs rs p')
    {p : ℝ × ℝ} (h : f.Z0_ZR_fit Real.pi curve_fit = .ok p) : p = (z_0, z_R) := by
  have hw : 0 < f.wavelen := mul_pos hl (by norm_num)
  have hk : 0 < f.m2 * f.wavelen := mul_pos hm hw
  have hlast : ∃ p0, curve_fit f.Z_m f.R_m p0 = .ok p := by
    unfold Z0_ZR_fit at h
    cases h1 : argmin f.R_m with
    | error e => rw [h1] at h; cases h
    | ok idx =>
      cases h2 : f.Z0_ZR_init Real.pi with
      | error e => rw [h1, h2] at h; cases h
      | ok i =>
        rw [h1, h2] at h
        cases h3 : f.start curve_fit idx i with
        | error e =>
          replace h : (f.start curve_fit idx i >>= fun init => curve_fit f.Z_m f.R_m init) = .ok p := h
          rw [h3] at h
          cases h
        | ok j =>
          replace h : (f.start curve_fit idx i >>= fun init => curve_fit f.Z_m f.R_m init) = .ok p := h
          rw [h3] at h
          exact ⟨j, h⟩
  obtain ⟨p0, hp0⟩ := hlast
  obtain ⟨hpos, hmin⟩ := hfit _ _ _ _ hp0
  have hzero : residual (f.m2 * f.wavelen) f.Z_m f.R_m (z_0, z_R) = 0 := by
    unfold residual
    rw [hR, List.zip_map_right, List.map_map]
    apply List.sum_eq_zero
    intro a ha
    obtain ⟨⟨u, v⟩, hd, rfl⟩ := List.mem_map.1 ha
    have huv : u = v := by
      have := List.of_mem_zip hd
      rw [zip_self] at hd
      obtain ⟨t, _, ht⟩ := List.mem_map.1 hd
      injection ht with h1 h2
      exact h1.symm.trans h2
    subst huv
    simp
  have hle := hmin (z_0, z_R) hz
  rw [hzero] at hle
  have heq : ∀ z ∈ f.Z_m, curve (f.m2 * f.wavelen) z p.1 p.2 = curve (f.m2 * f.wavelen) z z_0 z_R := by
    intro z hz
    unfold residual at hle
    have hmem : (curve (f.m2 * f.wavelen) z p.1 p.2 - curve (f.m2 * f.wavelen) z z_0 z_R) ^ 2 ∈
        (f.Z_m.zip f.R_m).map (fun d => (curve (f.m2 * f.wavelen) d.1 p.1 p.2 - d.2) ^ 2) := by
      refine List.mem_map.2 ⟨(z, curve (f.m2 * f.wavelen) z z_0 z_R), ?_, rfl⟩
      rw [hR, List.zip_map_right]
      refine List.mem_map.2 ⟨(z, z), ?_, rfl⟩
      rw [zip_self]
      exact List.mem_map.2 ⟨z, hz, rfl⟩
    have hnn : ∀ a ∈ (f.Z_m.zip f.R_m).map (fun d => (curve (f.m2 * f.wavelen) d.1 p.1 p.2 - d.2) ^ 2), 0 ≤ a := by
      intro a ha
      obtain ⟨d, _, rfl⟩ := List.mem_map.1 ha
      exact sq_nonneg _
    have hsingle := List.single_le_sum hnn _ hmem
    have h0 : (curve (f.m2 * f.wavelen) z p.1 p.2 - curve (f.m2 * f.wavelen) z z_0 z_R) ^ 2 = 0 :=
      le_antisymm (hsingle.trans hle) (sq_nonneg _)
    exact sub_eq_zero.1 ((pow_eq_zero_iff two_ne_zero).1 h0)
  obtain ⟨e1, e2⟩ := three_points hk hpos hz h12 h13 h23 (heq _ h1) (heq _ h2) (heq _ h3)
  exact Prod.ext e1 e2

/-- **C137, guess.**  The first guess is the Rayleigh range of the smallest width, and the mean of the places of the (at most four)
smallest widths with the other sign. -/
theorem C137_guess {f : QFit ℝ} (hi : f.init' = none) (hlen : f.Z_m.length = f.R_m.length) (hne : f.R_m ≠ []) (hl : f.wavelen ≠ 0) :
    ∃ r ∈ f.R_m, (∀ r' ∈ f.R_m, r ≤ r') ∧ ∃ ps : List (ℝ × ℝ), ps ≠ [] ∧ ps.length = min 4 f.R_m.length ∧
      (∀ d ∈ ps, d ∈ f.R_m.zip f.Z_m) ∧
      (∃ rest, (ps ++ rest).Perm (f.R_m.zip f.Z_m) ∧ ∀ d ∈ ps, ∀ d' ∈ rest, d.1 ≤ d'.1) ∧
      f.Z0_ZR_init Real.pi = .ok (-((ps.map Prod.snd).sum / (ps.length : ℝ)), Real.pi * r ^ 2 / f.wavelen) := by
  set L := (f.R_m.zip f.Z_m).mergeSort (fun a b => decide (a.1 ≤ b.1)) with hL
  have hperm : L.Perm (f.R_m.zip f.Z_m) := List.mergeSort_perm _ _
  have hsort : L.Pairwise (fun a b => a.1 ≤ b.1) := by
    have := List.pairwise_mergeSort (le := fun a b : ℝ × ℝ => decide (a.1 ≤ b.1)) (fun a b c h1 h2 => by
      simp only [decide_eq_true_eq] at h1 h2 ⊢
      exact h1.trans h2) (fun a b => by
      simp only [Bool.or_eq_true, decide_eq_true_eq]
      exact le_total _ _) (f.R_m.zip f.Z_m)
    exact this.imp (fun h => by simpa using h)
  have hlenL : L.length = f.R_m.length := by
    rw [hperm.length_eq, List.length_zip, hlen, min_self]
  have hfst : (f.R_m.zip f.Z_m).map Prod.fst = f.R_m := List.map_fst_zip hlen.ge
  cases hc : L with
  | nil =>
    rw [hc] at hlenL
    exact absurd (List.length_eq_zero_iff.1 hlenL.symm) hne
  | cons p l =>
    have hp : p ∈ f.R_m.zip f.Z_m := hperm.subset (hc ▸ List.mem_cons_self)
    refine ⟨p.1, by rw [← hfst]; exact List.mem_map_of_mem hp, ?_, (p :: l).take 4, by simp, ?_, ?_, ⟨(p :: l).drop 4, ?_, ?_⟩, ?_⟩
    · intro r hr
      rw [← hfst] at hr
      obtain ⟨d, hd, rfl⟩ := List.mem_map.1 hr
      have hd' : d ∈ p :: l := hc ▸ hperm.symm.subset hd
      rcases List.mem_cons.1 hd' with rfl | hd'
      · exact le_refl _
      · exact (List.pairwise_cons.1 (hc ▸ hsort)).1 d hd'
    · rw [List.length_take, ← hc, hlenL]
    · intro d hd
      exact hperm.subset (hc ▸ List.mem_of_mem_take hd)
    · rw [List.take_append_drop, ← hc]
      exact hperm
    · have := hc ▸ hsort
      rw [← List.take_append_drop 4 (p :: l)] at this
      exact (List.pairwise_append.1 this).2.2
    · unfold Z0_ZR_init
      rw [hi]
      dsimp only
      rw [← hL, hc]
      dsimp only
      rw [pydiv_ok hl, List.length_map, sq]
      rfl

/-- **C137, guess of exact widths.**  If the widths are those of a beam and one of them is taken at its waist, the guess of the Rayleigh range is
`m2` times its Rayleigh range. -/
theorem C137_guess_exact {f : QFit ℝ} (hm : 0 < f.m2) (hlp : 0 < f.wavelen_nm) (hi : f.init' = none) {z_0 z_R : ℝ} (hz : 0 < z_R)
    (hR : f.R_m = f.Z_m.map (fun z => curve (f.m2 * f.wavelen) z z_0 z_R)) (h0 : -z_0 ∈ f.Z_m) {p : ℝ × ℝ}
    (h : f.Z0_ZR_init Real.pi = .ok p) : p.2 = f.m2 * z_R := by
  have hw : 0 < f.wavelen := mul_pos hlp (by norm_num)
  have hk : 0 < f.m2 * f.wavelen := mul_pos hm hw
  have hp := Real.pi_pos
  have hmem : curve (f.m2 * f.wavelen) (-z_0) z_0 z_R ∈ f.R_m := by
    rw [hR]
    exact List.mem_map_of_mem h0
  obtain ⟨r, hr, hmin, ps, -, -, -, -, hg⟩ := C137_guess hi (by rw [hR, List.length_map]) (List.ne_nil_of_mem hmem) hw.ne'
  rw [h] at hg
  injection hg with hg
  rw [hg]
  have hle : r ≤ curve (f.m2 * f.wavelen) (-z_0) z_0 z_R := hmin _ hmem
  have hge : curve (f.m2 * f.wavelen) (-z_0) z_0 z_R ≤ r := by
    rw [hR] at hr
    obtain ⟨z, _, rfl⟩ := List.mem_map.1 hr
    apply Real.sqrt_le_sqrt
    apply mul_le_mul_of_nonneg_left _ (by positivity)
    nlinarith [sq_nonneg (z + z_0)]
  have : r = curve (f.m2 * f.wavelen) (-z_0) z_0 z_R := le_antisymm hle hge
  show Real.pi * r ^ 2 / f.wavelen = _
  rw [this, curve_sq hk hz]
  field_simp
  ring

/-- **C137, first fit.**  The first fit has at least two points, leaves the narrowest one out and takes
the side of it that has more points; it can be switched off. -/
theorem C137_prefit {f : QFit V} (hlen : f.Z_m.length = f.R_m.length) {idx : Nat} {zs rs : List V} (h : f.prefit idx = some (zs, rs)) :
    f.no_prefit = false ∧ 2 ≤ zs.length ∧ zs.length = rs.length ∧ f.R_m.length - 1 - rs.length ≤ rs.length ∧
      ((zs = f.Z_m.drop (idx + 1) ∧ rs = f.R_m.drop (idx + 1)) ∨ (zs = f.Z_m.take idx ∧ rs = f.R_m.take idx)) := by
  unfold prefit at h
  split_ifs at h with h1 h2
  · injection h with h
    injection h with ha hb
    subst ha hb
    refine ⟨h1.2.2.1, ?_, ?_, ?_, Or.inl ⟨rfl, rfl⟩⟩
    · rw [List.length_drop]; omega
    · rw [List.length_drop, List.length_drop, hlen]
    · rw [List.length_drop]; omega
  · injection h with h
    injection h with ha hb
    subst ha hb
    refine ⟨h1.2.2.1, ?_, ?_, ?_, Or.inr ⟨rfl, rfl⟩⟩
    · rw [List.length_take]; omega
    · rw [List.length_take, List.length_take, hlen]
    · rw [List.length_take]; omega

end QFit

/-! ## the target -/

theorem reversed_parts (q : Beam ℝ) : q.reversed.Z = -q.Z ∧ q.reversed.ZR = q.ZR ∧ q.reversed.wavelen = q.wavelen := by
  refine ⟨rfl, ?_, rfl⟩
  show -(-q.value.im) = q.value.im
  exact neg_neg _

/-- **C137, targets.**  The beams that the targets of a fit have at two places are the same beam: the one at the second place is the one at
the first, moved by the distance (backwards in a reversed layout), whatever the direction of the targets. -/
theorem C137_target {q : Beam ℝ} (hl : 0 < q.wavelen) (hz : 0 < q.ZR) (ref a b : ℝ) (reversed parent : Bool) :
    ∃ qa qb qc, fit_target Real.pi rsqrt q (some ref) a reversed parent = .ok qa ∧
      fit_target Real.pi rsqrt q (some ref) b reversed parent = .ok qb ∧
      qa.propagate_distance Real.pi rsqrt (if parent then a - b else b - a) = .ok qc ∧
      qc.Z = qb.Z ∧ qc.ZR = qb.ZR ∧ qc.wavelen = qb.wavelen := by
  have step : ∀ L, ∃ r, q.propagate_distance Real.pi rsqrt L = .ok r ∧ r.Z = q.Z + L ∧ r.ZR = q.ZR ∧ r.wavelen = q.wavelen :=
    fun L => by
      obtain ⟨r, h1, h2, h3, h4, -⟩ := Beam.C34_gouy q hl hz L
      exact ⟨r, h1, h2, h3, h4⟩
  have target : ∀ c : ℝ, ∃ r, fit_target Real.pi rsqrt q (some ref) c reversed parent = .ok r ∧
      r.Z = (if xor parent reversed then -(q.Z + if reversed then -c + ref else c - ref)
        else q.Z + if reversed then -c + ref else c - ref) ∧ r.ZR = q.ZR ∧ r.wavelen = q.wavelen := by
    intro c
    obtain ⟨r, h1, h2, h3, h4⟩ := step (if reversed then -c + ref else c - ref)
    have h5 : (if reversed then q.propagate_distance Real.pi rsqrt (-c + ref) else q.propagate_distance Real.pi rsqrt (c - ref))
        = .ok r := by
      rw [← h1]
      cases reversed <;> rfl
    refine ⟨if xor parent reversed then r.reversed else r, ?_, ?_, ?_, ?_⟩
    · show ((if reversed then q.propagate_distance Real.pi rsqrt (-c + ref) else q.propagate_distance Real.pi rsqrt (c - ref)) >>=
        fun v => .ok (if xor parent reversed then v.reversed else v)) = _
      rw [h5]
      rfl
    · split_ifs with hx
      all_goals first | rw [(reversed_parts r).1, h2] | rw [h2]
      all_goals simp_all
    · split_ifs
      · rw [(reversed_parts r).2.1, h3]
      · exact h3
    · split_ifs
      · rw [(reversed_parts r).2.2, h4]
      · exact h4
  obtain ⟨qa, ha, ha1, ha2, ha3⟩ := target a
  obtain ⟨qb, hb, hb1, hb2, hb3⟩ := target b
  obtain ⟨qc, hc, hc1, hc2, hc3, -⟩ := Beam.C34_gouy qa (ha3 ▸ hl) (ha2 ▸ hz) (if parent then a - b else b - a)
  refine ⟨qa, qb, qc, ha, hb, hc, ?_, by rw [hc2, ha2, hb2], by rw [hc3, ha3, hb3]⟩
  rw [hc1, ha1, hb1]
  cases parent <;> cases reversed <;> simp <;> ring

/-- **C137, width at the target.**  At a target that is not turned round the width of the beam (times the root of `m2`) is the fitted curve at
the distance from the reference. -/
theorem C137_at {f : QFit ℝ} (hm : 0 < f.m2) (hl : 0 < f.wavelen_nm) {z_0 z_R : ℝ} (hz : 0 < z_R) (ref c : ℝ) (parent : Bool) :
    ∃ q w, fit_target Real.pi rsqrt (f.q_of (z_0, z_R)) (some ref) c false parent = .ok q ∧ q.W Real.pi rsqrt = .ok w ∧
      f.waist_func Real.pi rsqrt (c - ref) z_0 z_R = .ok (Real.sqrt f.m2 * w) := by
  obtain ⟨q, w, h1, h2, h3⟩ := QFit.C137_curve hm hl (z_0 := z_0) hz (c - ref)
  have hrev : q.reversed.W Real.pi rsqrt = q.W Real.pi rsqrt := by
    have hw : 0 < f.wavelen := mul_pos hl (by norm_num)
    obtain ⟨q', e1, -, e3, e4, -⟩ := Beam.C34_gouy (f.q_of (z_0, z_R)) hw hz (c - ref)
    rw [h1] at e1
    injection e1 with e1
    subst e1
    have hp : q.Phys := by
      show 0 < q.wavelen * q.ZR
      rw [e3, e4]
      exact mul_pos hw hz
    have hp' : q.reversed.Phys := by
      show 0 < q.reversed.wavelen * q.reversed.ZR
      rw [(reversed_parts q).2.1, (reversed_parts q).2.2]
      exact hp
    rw [Beam.W_eq hp, Beam.W_eq hp']
    unfold Beam.w2
    have hre : q.reversed.value.re = -q.value.re := (reversed_parts q).1
    have him : q.reversed.value.im = q.value.im := (reversed_parts q).2.1
    rw [hre, him, (reversed_parts q).2.2, neg_mul_neg]
  refine ⟨if parent then q.reversed else q, w, ?_, ?_, h3⟩
  · show (Beam.propagate_distance Real.pi rsqrt _ (c - ref) >>= fun v => .ok (if xor parent false then v.reversed else v)) = _
    rw [h1]
    cases parent <;> rfl
  · cases parent
    · exact h2
    · exact hrev.trans h2

/-! ## a fit -/

/-- Five widths of a beam of one micron with its waist at `-1` and a Rayleigh range of 2. -/
noncomputable def exFit : QFit ℝ :=
  ⟨1000, 1, [], some ([-2, -1, 0, 1, 2].map (fun z => QFit.curve (1 * (1000 * (1 / 10 ^ 9))) z 1 2)), [], some [-2, -1, 0, 1, 2], none, false⟩

example : 0 < exFit.m2 ∧ 0 < exFit.wavelen_nm ∧ (0 : ℝ) < 2 ∧
    exFit.R_m = exFit.Z_m.map (fun z => QFit.curve (exFit.m2 * exFit.wavelen) z 1 2) ∧ (-2 : ℝ) ∈ exFit.Z_m ∧ (0 : ℝ) ∈ exFit.Z_m ∧
    (1 : ℝ) ∈ exFit.Z_m ∧ exFit.Z_m.length = exFit.R_m.length ∧ (exFit.prefit 2).isSome ∧ exFit.init' = none ∧ (-1 : ℝ) ∈ exFit.Z_m := by
  refine ⟨one_pos, by norm_num [exFit], two_pos, rfl, by simp [exFit, QFit.Z_m], by simp [exFit, QFit.Z_m], by simp [exFit, QFit.Z_m],
    rfl, ?_, rfl, by simp [exFit, QFit.Z_m]⟩
  simp [QFit.prefit, exFit, QFit.R_m]

open Classical in
/-- A `curve_fit` that finds exact data. -/
noncomputable def exCurveFit (zs rs : List ℝ) (_ : ℝ × ℝ) : Except Err (ℝ × ℝ) :=
  if QFit.residual (exFit.m2 * exFit.wavelen) zs rs (1, 2) = 0 then .ok (1, 2) else .error .runtime

example : (∀ zs rs p0 p, exCurveFit zs rs p0 = .ok p → 0 < p.2 ∧ ∀ p' : ℝ × ℝ, 0 < p'.2 →
      QFit.residual (exFit.m2 * exFit.wavelen) zs rs p ≤ QFit.residual (exFit.m2 * exFit.wavelen) zs rs p') ∧
    exFit.Z0_ZR_fit Real.pi exCurveFit = .ok (1, 2) := by
  constructor
  · intro zs rs p0 p h
    unfold exCurveFit at h
    split_ifs at h with h0
    injection h with h
    subst h
    refine ⟨two_pos, fun p' _ => ?_⟩
    rw [h0]
    apply List.sum_nonneg
    intro a ha
    obtain ⟨d, _, rfl⟩ := List.mem_map.1 ha
    exact sq_nonneg _
  · have hex : ∀ (zs : List ℝ) p0, exCurveFit zs (zs.map (fun z => QFit.curve (exFit.m2 * exFit.wavelen) z 1 2)) p0 = .ok (1, 2) := by
      intro zs p0
      refine if_pos ?_
      unfold QFit.residual
      rw [List.zip_map_right, QFit.zip_self, List.map_map, List.map_map]
      apply List.sum_eq_zero
      intro a ha
      obtain ⟨z, _, rfl⟩ := List.mem_map.1 ha
      simp
    have hR : exFit.R_m = exFit.Z_m.map (fun z => QFit.curve (exFit.m2 * exFit.wavelen) z 1 2) := rfl
    obtain ⟨r, -, -, ps, -, -, -, -, hg⟩ := QFit.C137_guess (f := exFit) rfl rfl (by simp [exFit, QFit.R_m])
      (by simp [QFit.wavelen, exFit])
    have hstart : ∀ idx i, ∃ j, exFit.start exCurveFit idx i = .ok j := by
      intro idx i
      unfold QFit.start
      cases hp : exFit.prefit idx with
      | none => exact ⟨_, rfl⟩
      | some d =>
        obtain ⟨zs, rs⟩ := d
        refine ⟨(1, 2), ?_⟩
        obtain ⟨-, -, -, -, h | h⟩ := QFit.C137_prefit (f := exFit) rfl hp
        · rw [h.1, h.2, hR, ← List.map_drop]
          exact hex _ _
        · rw [h.1, h.2, hR, ← List.map_take]
          exact hex _ _
    unfold QFit.Z0_ZR_fit
    rw [hg]
    have hmin : ∃ idx, QFit.argmin exFit.R_m = .ok idx := ⟨_, rfl⟩
    obtain ⟨idx, hidx⟩ := hmin
    rw [hidx]
    obtain ⟨j, hj⟩ := hstart idx (-((ps.map Prod.snd).sum / (ps.length : ℝ)), Real.pi * r ^ 2 / exFit.wavelen)
    show (exFit.start exCurveFit idx _ >>= fun init => exCurveFit exFit.Z_m exFit.R_m init) = _
    rw [hj]
    exact hex exFit.Z_m j

end Alm
