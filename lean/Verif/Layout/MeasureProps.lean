import Verif.Layout.Measure
import Verif.Layout.ToZProps
import Verif.Beam.Overlap
import Verif.Beam.Props

/-!
# C117: overlaps of the beams at targets
-/

namespace Alm
open Py Cplx

/-- What a ray matrix does with a beam parameter. -/
noncomputable def mob (m : Mat ℝ) (u : ℂ) : ℂ := (m.a * u + m.b) / (m.c * u + m.d)

/-- The power two beams with the parameters `u` and `v` share (in one transverse direction squared). -/
noncomputable def shared (u v : ℂ) : ℝ := 4 * u.im * v.im / Complex.normSq (u - (starRingEnd ℂ) v)

theorem mob_den {m : Mat ℝ} (hm : m.det ≠ 0) {u : ℂ} (hu : u.im ≠ 0) : (m.c * u + m.d : ℂ) ≠ 0 :=
  Beam.den_ne (z := ⟨u.re, u.im⟩) hu hm

theorem mob_im (m : Mat ℝ) (u : ℂ) : (mob m u).im = m.det * u.im / Complex.normSq (m.c * u + m.d) := Beam.im_map u m.a m.b m.c m.d

theorem mob_mul {m n : Mat ℝ} (hm : m.det ≠ 0) (hn : n.det ≠ 0) {u : ℂ} (hu : u.im ≠ 0) : mob (n * m) u = mob n (mob m u) := by
  have h1 := mob_den hm hu
  have him : (mob m u).im ≠ 0 := by
    rw [mob_im]
    exact div_ne_zero (mul_ne_zero hm hu) (Complex.normSq_pos.mpr h1).ne'
  have h2 := mob_den hn him
  have h3 : ((n * m : Mat ℝ).c * u + (n * m : Mat ℝ).d : ℂ) ≠ 0 := mob_den (by rw [det_mul]; exact mul_ne_zero hn hm) hu
  unfold mob at h2 ⊢
  rw [← mat_mul_def] at h3 ⊢
  simp only [Mat.mul] at h3 ⊢
  rw [div_eq_div_iff h3 h2]
  push_cast
  field_simp
  ring

theorem mob_one (u : ℂ) : mob 1 u = u := by
  show ((1 : ℝ) * u + (0 : ℝ)) / ((0 : ℝ) * u + (1 : ℝ)) = u
  simp

theorem shared_comm (u v : ℂ) : shared u v = shared v u := by
  unfold shared
  simp only [Complex.normSq_apply, Complex.sub_re, Complex.sub_im, Complex.conj_re, Complex.conj_im]
  congr 1 <;> ring

theorem shared_mob {m : Mat ℝ} (hm : m.det ≠ 0) {u v : ℂ} (hu : u.im ≠ 0) (hv : v.im ≠ 0) : shared (mob m u) (mob m v) = shared u v := by
  have h1 := mob_den hm hu
  have h2 := mob_den hm hv
  have h2' : (m.c * (starRingEnd ℂ) v + m.d : ℂ) ≠ 0 := by
    have := (map_ne_zero (starRingEnd ℂ)).mpr h2
    simpa using this
  have e : mob m u - (starRingEnd ℂ) (mob m v) = (m.det : ℂ) * (u - (starRingEnd ℂ) v) / ((m.c * u + m.d) * (m.c * (starRingEnd ℂ) v + m.d)) := by
    unfold mob Mat.det
    rw [map_div₀]
    simp only [map_add, map_mul, Complex.conj_ofReal]
    rw [div_sub_div _ _ h1 h2']
    congr 1
    push_cast
    ring
  have n2 : Complex.normSq (m.c * (starRingEnd ℂ) v + m.d) = Complex.normSq (m.c * v + m.d) := by
    rw [← Complex.normSq_conj]
    simp
  unfold shared
  rw [e, mob_im, mob_im, Complex.normSq_div, Complex.normSq_mul, Complex.normSq_mul, Complex.normSq_ofReal, n2]
  have p1 := (Complex.normSq_pos.mpr h1).ne'
  have p2 := (Complex.normSq_pos.mpr h2).ne'
  by_cases h0 : Complex.normSq (u - (starRingEnd ℂ) v) = 0
  · simp [h0]
  · field_simp

theorem normSq_sub_pos {u v : ℂ} (hu : 0 < u.im) (hv : 0 < v.im) : 0 < Complex.normSq (u - (starRingEnd ℂ) v) := by
  apply Complex.normSq_pos.mpr
  intro h
  have := congrArg Complex.im h
  simp at this
  linarith

theorem shared_pos {u v : ℂ} (hu : 0 < u.im) (hv : 0 < v.im) : 0 < shared u v :=
  div_pos (mul_pos (mul_pos four_pos hu) hv) (normSq_sub_pos hu hv)

theorem shared_le {u v : ℂ} (hu : 0 < u.im) (hv : 0 < v.im) : shared u v ≤ 1 := by
  unfold shared
  rw [div_le_one (normSq_sub_pos hu hv)]
  simp only [Complex.normSq_apply, Complex.sub_re, Complex.sub_im, Complex.conj_re, Complex.conj_im]
  nlinarith [sq_nonneg (u.re - v.re), sq_nonneg (u.im - v.im)]

theorem shared_eq_one {u v : ℂ} (hu : 0 < u.im) (hv : 0 < v.im) : shared u v = 1 ↔ u = v := by
  unfold shared
  rw [div_eq_one_iff_eq (normSq_sub_pos hu hv).ne']
  simp only [Complex.normSq_apply, Complex.sub_re, Complex.sub_im, Complex.conj_re, Complex.conj_im]
  constructor
  · intro h
    have h1 : (u.re - v.re) * (u.re - v.re) + (u.im - v.im) * (u.im - v.im) = 0 := by linarith
    have h2 := mul_self_nonneg (u.re - v.re)
    have h3 := mul_self_nonneg (u.im - v.im)
    apply Complex.ext
    · have : (u.re - v.re) * (u.re - v.re) = 0 := by linarith
      linarith [mul_self_eq_zero.mp this]
    · have : (u.im - v.im) * (u.im - v.im) = 0 := by linarith
      linarith [mul_self_eq_zero.mp this]
  · rintro rfl
    ring

namespace Meas

/-- Propagation in terms of the beam parameter. -/
theorem propagate_ok {q : Beam ℝ} (hl : 0 < q.wavelen) (hz : 0 < q.value.im) {m : Mat ℝ} (hm : 0 < m.det) :
    ∃ q', q.propagate_matrix Real.pi rsqrt m = .ok q' ∧ toC q'.value = mob m (toC q.value) ∧ q'.wavelen = q.wavelen * m.det ∧
      toC q'.gouy = toC q.gouy * ((Real.pi * Beam.w2 q : ℝ) * (starRingEnd ℂ) (m.a + m.b / toC q.value)) ∧ 0 < q'.wavelen ∧ 0 < q'.value.im := by
  obtain ⟨q', h1, h2, h3, h4, h5⟩ := Beam.propagate_eq (q := q) (mul_pos hl hz) m hm.ne'
  have hl' : 0 < q'.wavelen := by
    rw [h3]
    exact mul_pos hl hm
  exact ⟨q', h1, h2, h3, h4, hl', (mul_pos_iff_of_pos_left hl').mp h5⟩

/-- The overlap of two beams in terms of the beam parameters. -/
theorem overlap_ok {q o : Beam ℝ} (hq : 0 < q.wavelen) (hqz : 0 < q.value.im) (ho : 0 < o.wavelen) (hoz : 0 < o.value.im) :
    ∃ z, q.overlap_with Real.pi rsqrt o = .ok z ∧ Complex.normSq (toC z) = q.wavelen / o.wavelen * shared (toC q.value) (toC o.value) := by
  obtain ⟨z, h1, -⟩ := Beam.overlap_eq (q := q) (o := o) (mul_pos hq hqz) (mul_pos ho hoz) (mul_pos hqz hoz)
  refine ⟨z, h1, ?_⟩
  rw [Beam.overlap_normSq (mul_pos hq hqz) (mul_pos ho hoz) (mul_pos hqz hoz) h1]
  unfold shared
  simp only [Complex.normSq_apply, Complex.sub_re, Complex.sub_im, Complex.conj_re, Complex.conj_im, toC]
  congr 2
  ring

theorem beam_at_wavelen {s : Meas ℝ} {t : Tgt} {q : Beam ℝ} (h : s.beam_at rsqrt t = .ok q) : q.wavelen = s.wavelen := by
  unfold beam_at at h
  cases hx : Comp.target_obj s.info s.layout t with
  | error e => rw [hx] at h; cases h
  | ok x =>
    rw [hx] at h
    change x.1.beam_q rsqrt s.wavelen x.2 = .ok q at h
    unfold Given.beam_q at h
    split at h
    · cases h
    · cases h
    · rename_i c h1 h2
      cases hm : c.matrix with
      | error e => rw [hm] at h; cases h
      | ok m =>
        rw [hm] at h
        change (eigen_q rsqrt m.m >>= _) = _ at h
        cases he : eigen_q rsqrt m.m with
        | error e => rw [he] at h; cases h
        | ok v =>
          rw [he] at h
          cases h
          rfl
    · injection h with h
      rw [← h]
      split <;> rfl

/-- A target of a measurement: its path, and the beam it holds. -/
structure Has (s : Meas ℝ) (n : TName) (t : Tgt) (q : Beam ℝ) : Prop where
  idx : s.target_idx n = .ok t
  path : Comp.before s.layout t ≠ none
  beam : s.beam_at rsqrt t = .ok q
  size : 0 < q.value.im

/-- C117.  The overlap of the beams of two targets.  With the matrix between the targets, of determinant `D > 0` (the ratio of the
refractive indices), the squared overlaps are `K / D` and `K * D`, where `0 < K ≤ 1` is what the first beam, followed to the second target,
shares with the second beam; `K` is 1 exactly when the first beam arrives there as the second. -/
theorem C117_overlap {s : Meas ℝ} (hw : Comp.WF s.layout) (hl : 0 < s.wavelen) {n1 n2 : TName} {t1 t2 : Tgt} {q1 q2 : Beam ℝ}
    (h1 : s.Has n1 t1 q1) (h2 : s.Has n2 t2 q2) {m : Arr ℝ} (hm : (s.layout.matrix_between t1 t2 []).1 = .ok m) (hD : 0 < m.m.det) :
    ∃ z z' K, s.overlap Real.pi rsqrt (some n1) (some n2) = .ok z ∧ s.overlap Real.pi rsqrt (some n2) (some n1) = .ok z' ∧
      ‖toC z‖ ^ 2 = K / m.m.det ∧ ‖toC z'‖ ^ 2 = K * m.m.det ∧ 0 < K ∧ K ≤ 1 ∧
      (K = 1 ↔ toC q2.value = (m.m.a * toC q1.value + m.m.b) / (m.m.c * toC q1.value + m.m.d)) := by
  obtain ⟨ab, ba, aa, e1, e2, e3, e4⟩ := Comp.C38_compose_partial hw [] [] [] h1.path h2.path h1.path
  obtain ⟨aa', e5, e6⟩ := Comp.C38_identity hw [] h1.path
  have e1' : (s.layout.matrix_between t1 t2 []).1 = .ok ab := e1
  have e2' : (s.layout.matrix_between t2 t1 []).1 = .ok ba := e2
  rw [hm] at e1'
  injection e1' with e1'
  subst e1'
  rw [e5] at e3
  injection e3 with e3
  subst e3
  rw [mat_mul_def, e6, mat_eye_def] at e4
  have hd : ba.m.det * m.m.det = 1 := by rw [← det_mul, e4, det_one]
  have hD' : 0 < ba.m.det := by
    by_contra h
    have := mul_nonpos_of_nonpos_of_nonneg (not_lt.mp h) hD.le
    rw [hd] at this
    exact absurd this (by norm_num)
  have l1 := beam_at_wavelen h1.beam
  have l2 := beam_at_wavelen h2.beam
  have hl1 : 0 < q1.wavelen := by rw [l1]; exact hl
  have hl2 : 0 < q2.wavelen := by rw [l2]; exact hl
  obtain ⟨p1, a1, a2, a3, -, a5, a6⟩ := propagate_ok hl1 h1.size hD
  obtain ⟨p2, b1, b2, b3, -, b5, b6⟩ := propagate_ok hl2 h2.size hD'
  obtain ⟨z, c1, c2⟩ := overlap_ok hl2 h2.size a5 a6
  obtain ⟨z', d1, d2⟩ := overlap_ok hl1 h1.size b5 b6
  have hs1 : (toC q1.value).im ≠ 0 := h1.size.ne'
  have hs2 : (toC q2.value).im ≠ 0 := h2.size.ne'
  have hK : shared (toC q1.value) (toC p2.value) = shared (toC q2.value) (toC p1.value) := by
    rw [b2, a2]
    have : mob ba.m (mob m.m (toC q1.value)) = toC q1.value := by
      rw [← mob_mul hD.ne' hD'.ne' hs1, e4, mob_one]
    have him : (mob m.m (toC q1.value)).im ≠ 0 := by
      rw [← a2]
      exact a6.ne'
    conv_lhs => rw [← this]
    rw [shared_mob hD'.ne' him hs2, shared_comm]
  refine ⟨z, z', shared (toC q2.value) (toC p1.value), ?_, ?_, ?_, ?_, shared_pos h2.size a6, shared_le h2.size a6, ?_⟩
  · unfold overlap
    simp only [bind, Except.bind, h1.idx, h2.idx, hm, h1.beam, h2.beam, a1, c1]
  · unfold overlap
    simp only [bind, Except.bind, h1.idx, h2.idx, e2', h1.beam, h2.beam, b1, d1]
  · rw [← Complex.normSq_eq_norm_sq, c2, a3, l2, l1]
    field_simp
  · rw [← Complex.normSq_eq_norm_sq, d2, hK, b3, l1, l2]
    have : m.m.det = 1 / ba.m.det := by rw [eq_div_iff hD'.ne']; linarith
    rw [this]
    field_simp
  · rw [shared_eq_one h2.size a6, a2]
    rfl

/-- C117.  The overlap may be taken anywhere: at every target `t3` the two beams, followed to `t3`, have an overlap of the same absolute
value. -/
theorem C117_anywhere {s : Meas ℝ} (hw : Comp.WF s.layout) (hl : 0 < s.wavelen) {n1 n2 : TName} {t1 t2 t3 : Tgt} {q1 q2 : Beam ℝ}
    (h1 : s.Has n1 t1 q1) (h2 : s.Has n2 t2 q2) (ht : Comp.before s.layout t3 ≠ none) {m m3 : Arr ℝ}
    (hm : (s.layout.matrix_between t1 t2 []).1 = .ok m) (hD : 0 < m.m.det)
    (hm3 : (s.layout.matrix_between t1 t3 []).1 = .ok m3) (hD3 : 0 < m3.m.det) :
    ∃ p1 p2 z z', s.target_q Real.pi rsqrt (.idx t3) (some n1) = .ok p1 ∧ s.target_q Real.pi rsqrt (.idx t3) (some n2) = .ok p2 ∧
      p2.overlap_with Real.pi rsqrt p1 = .ok z ∧ s.overlap Real.pi rsqrt (some n1) (some n2) = .ok z' ∧ ‖toC z‖ = ‖toC z'‖ := by
  obtain ⟨ab, bc, ac, e1, e2, e3, e4⟩ := Comp.C38_compose_partial hw [] [] [] h1.path h2.path ht
  have e1' : (s.layout.matrix_between t1 t2 []).1 = .ok ab := e1
  have e2' : (s.layout.matrix_between t2 t3 []).1 = .ok bc := e2
  have e3' : (s.layout.matrix_between t1 t3 []).1 = .ok ac := e3
  rw [hm] at e1'
  injection e1' with e1'
  subst e1'
  rw [hm3] at e3'
  injection e3' with e3'
  subst e3'
  rw [mat_mul_def] at e4
  have hd : bc.m.det * m.m.det = m3.m.det := by rw [← det_mul, e4]
  have hD' : 0 < bc.m.det := by
    by_contra h
    have := mul_nonpos_of_nonpos_of_nonneg (not_lt.mp h) hD.le
    rw [hd] at this
    linarith
  have l1 := beam_at_wavelen h1.beam
  have l2 := beam_at_wavelen h2.beam
  have hl1 : 0 < q1.wavelen := by rw [l1]; exact hl
  have hl2 : 0 < q2.wavelen := by rw [l2]; exact hl
  obtain ⟨p1, a1, a2, a3, -, a5, a6⟩ := propagate_ok hl1 h1.size hD3
  obtain ⟨p2, b1, b2, b3, -, b5, b6⟩ := propagate_ok hl2 h2.size hD'
  obtain ⟨z, c1, c2⟩ := overlap_ok b5 b6 a5 a6
  obtain ⟨r, d1, d2, d3, -, d5, d6⟩ := propagate_ok hl1 h1.size hD
  obtain ⟨z', f1, f2⟩ := overlap_ok hl2 h2.size d5 d6
  have ti : s.target_idx (.idx t3) = .ok t3 := rfl
  refine ⟨p1, p2, z, z', ?_, ?_, c1, ?_, ?_⟩
  · unfold target_q source
    simp only [bind, Except.bind, h1.idx, ti, hm3, h1.beam, a1]
  · unfold target_q source
    simp only [bind, Except.bind, h2.idx, ti, e2', h2.beam, b1]
  · unfold overlap
    simp only [bind, Except.bind, h1.idx, h2.idx, hm, h1.beam, h2.beam, d1, f1]
  · have hs1 : (toC q1.value).im ≠ 0 := h1.size.ne'
    have hs2 : (toC q2.value).im ≠ 0 := h2.size.ne'
    have him : (mob m.m (toC q1.value)).im ≠ 0 := by
      rw [← d2]
      exact d6.ne'
    have hsq : ‖toC z‖ ^ 2 = ‖toC z'‖ ^ 2 := by
      rw [← Complex.normSq_eq_norm_sq, ← Complex.normSq_eq_norm_sq, c2, f2, a2, b2, ← e4, mob_mul hD.ne' hD'.ne' hs1,
        shared_mob hD'.ne' hs2 him, d2, b3, a3, d3, ← hd, l1, l2]
      congr 1
      field_simp
    exact (sq_eq_sq₀ (norm_nonneg _) (norm_nonneg _)).mp hsq

/-- No element changes the refractive index: every matrix has determinant 1. -/
def OneMedium (c : Comp ℝ) : Prop := ∀ x ∈ Comp.leaves c, x.abcd.det = 1

theorem prod_det {l : List (Leaf ℝ)} (h : ∀ x ∈ l, x.abcd.det = 1) : (prod l).det = 1 := by
  induction l with
  | nil => rw [prod, det_one]
  | cons x l ih =>
    rw [prod, det_mul, ih fun y hy => h y (List.mem_cons_of_mem _ hy), h x List.mem_cons_self, one_mul]

theorem one_det {c : Comp ℝ} (hw : Comp.WF c) (h : OneMedium c) {t1 t2 : Tgt} (h1 : Comp.before c t1 ≠ none)
    (h2 : Comp.before c t2 ≠ none) : ∃ m, (c.matrix_between t1 t2 []).1 = .ok m ∧ m.m.det = 1 := by
  obtain ⟨L1, hL1⟩ := Option.ne_none_iff_exists'.mp h1
  obtain ⟨L2, hL2⟩ := Option.ne_none_iff_exists'.mp h2
  obtain ⟨m, e1, e2⟩ := Comp.C38_path hw [] hL1 hL2
  refine ⟨m, e1, ?_⟩
  obtain ⟨R1, hR1⟩ := Comp.before_prefix c t1 L1 hL1
  obtain ⟨R2, hR2⟩ := Comp.before_prefix c t2 L2 hL2
  have d1 := prod_det (l := L1) fun x hx => h x (by rw [hR1]; exact List.mem_append_left _ hx)
  have d2 := prod_det (l := L2) fun x hx => h x (by rw [hR2]; exact List.mem_append_left _ hx)
  have := congrArg Mat.det e2
  rwa [mat_mul_def, det_mul, d1, d2, mul_one] at this

/-- C117.  In one medium the overlap of two targets has the same absolute value in both orders, which is positive and at most 1, and 1
exactly when the beam of the first target arrives at the second as the beam of the second. -/
theorem C117_symmetric_partial {s : Meas ℝ} (hw : Comp.WF s.layout) (hl : 0 < s.wavelen) (hone : OneMedium s.layout) {n1 n2 : TName}
    {t1 t2 : Tgt} {q1 q2 : Beam ℝ} (h1 : s.Has n1 t1 q1) (h2 : s.Has n2 t2 q2) :
    ∃ z z' q, s.overlap Real.pi rsqrt (some n1) (some n2) = .ok z ∧ s.overlap Real.pi rsqrt (some n2) (some n1) = .ok z' ∧
      s.target_q Real.pi rsqrt n2 (some n1) = .ok q ∧
      ‖toC z‖ = ‖toC z'‖ ∧ 0 < ‖toC z‖ ∧ ‖toC z‖ ≤ 1 ∧ (‖toC z‖ = 1 ↔ q.value = q2.value) := by
  obtain ⟨m, hm, hd⟩ := one_det hw hone h1.path h2.path
  have hD : 0 < m.m.det := by rw [hd]; exact one_pos
  obtain ⟨z, z', K, e1, e2, e3, e4, e5, e6, e7⟩ := C117_overlap hw hl h1 h2 hm hD
  have hl1 : 0 < q1.wavelen := by rw [beam_at_wavelen h1.beam]; exact hl
  obtain ⟨p1, a1, a2, a3, -, a5, a6⟩ := propagate_ok hl1 h1.size hD
  rw [hd, div_one] at e3
  rw [hd, mul_one] at e4
  refine ⟨z, z', p1, e1, e2, ?_, ?_, ?_, ?_, ?_⟩
  · unfold target_q source
    simp only [bind, Except.bind, h1.idx, h2.idx, hm, h1.beam, a1]
  · exact (sq_eq_sq₀ (norm_nonneg _) (norm_nonneg _)).mp (e3.trans e4.symm)
  · rcases (norm_nonneg (toC z)).lt_or_eq with h | h
    · exact h
    · rw [← h] at e3
      norm_num at e3
      linarith
  · exact (sq_le_one_iff₀ (norm_nonneg _)).mp (e3.trans_le e6)
  · have : ‖toC z‖ = 1 ↔ K = 1 := by
      rw [← e3]
      exact (pow_eq_one_iff_of_nonneg (norm_nonneg _) two_ne_zero).symm
    rw [this, e7]
    have a2' : toC p1.value = (m.m.a * toC q1.value + m.m.b) / (m.m.c * toC q1.value + m.m.d) := a2
    rw [← a2']
    constructor
    · intro h
      have := toC_inj.mp h
      cases hx : p1.value; cases hy : q2.value
      rw [hx, hy] at this
      exact congrArg₂ Cx.mk this.1.symm this.2.symm
    · intro h
      rw [h]

end Meas
end Alm
