import Verif.Layout.MeasureGouy

/-!
# C117, C118: further claims, and layouts that meet the hypotheses
-/

set_option linter.unusedSectionVars false

namespace Alm
open Py Cplx

namespace Meas

/-! ## C118: the beam at targets and places -/

theorem target_q_ok {s : Meas ℝ} (hg : Good s.layout) {src : TName} {tb : Tgt} {qb : Beam ℝ} (hidx : s.target_idx src = .ok tb)
    {Lb : List (Leaf ℝ)} (hLb : Comp.before s.layout tb = some Lb) (hbeam : s.beam_at rsqrt tb = .ok qb) (hq : Beam.Phys qb)
    {n : TName} {t : Tgt} {L : List (Leaf ℝ)} (hn : s.target_idx n = .ok t) (hL : Comp.before s.layout t = some L) :
    ∃ q N, s.target_q Real.pi rsqrt n (some src) = .ok q ∧ N * prod Lb = prod L ∧ N.det ≠ 0 ∧ toC q.value = mob N (toC qb.value) ∧
      q.wavelen = qb.wavelen * N.det ∧ Beam.Phys q := by
  obtain ⟨a, e1, e2, e3⟩ := Comp.between_ok hg.wf hLb hL
  have hd : a.m.det ≠ 0 := by
    intro h0
    have := congrArg Mat.det e3
    rw [det_mul, h0, zero_mul] at this
    exact Comp.det_prod (Comp.before_WF hg.wf hL) this.symm
  obtain ⟨q, f1, f2, f3, f4, f5⟩ := Beam.propagate_eq hq a.m hd
  refine ⟨q, a.m, ?_, e3, hd, f2, f3, f5⟩
  unfold target_q source
  simp only [bind, Except.bind, hidx, hn, e1, hbeam, f1]

/-- C118.  At its own target the beam is the given beam. -/
theorem C118_source {s : Meas ℝ} (hg : Good s.layout) {src : TName} {tb : Tgt} {qb : Beam ℝ} (hidx : s.target_idx src = .ok tb)
    (hpath : Comp.before s.layout tb ≠ none) (hbeam : s.beam_at rsqrt tb = .ok qb) (hq : 0 < qb.wavelen * qb.value.im) :
    ∃ q, s.target_q Real.pi rsqrt src (some src) = .ok q ∧ q.value = qb.value ∧ q.wavelen = qb.wavelen := by
  obtain ⟨Lb, hLb⟩ := Option.ne_none_iff_exists'.mp hpath
  obtain ⟨q, N, e1, e2, e3, e4, e5, e6⟩ := target_q_ok hg hidx hLb hbeam hq hidx hLb
  have hN : N = 1 := cancel (Comp.det_prod (Comp.before_WF hg.wf hLb)) (by rw [e2, one_mul])
  subst hN
  rw [mob_one] at e4
  rw [det_one, mul_one] at e5
  refine ⟨q, e1, ?_, e5⟩
  have := toC_inj.mp e4
  cases hx : q.value; cases hy : qb.value
  rw [hx, hy] at this
  exact congrArg₂ Cx.mk this.1 this.2

/-- C118.  One beam fills the layout: followed from a target to a second target, or to a number `z` where no thin element acts, the beam
of `target_q` at the first is the beam of `target_q` there. -/
theorem C118_beam {s : Meas ℝ} (hg : Good s.layout) {src : TName} {tb : Tgt} {qb : Beam ℝ} (hidx : s.target_idx src = .ok tb)
    (hpath : Comp.before s.layout tb ≠ none) (hbeam : s.beam_at rsqrt tb = .ok qb) (hq : 0 < qb.wavelen * qb.value.im)
    {n1 : TName} {t1 : Tgt} (h1 : s.target_idx n1 = .ok t1) (hp1 : Comp.before s.layout t1 ≠ none) :
    ∃ q1, s.target_q Real.pi rsqrt n1 (some src) = .ok q1 ∧
      (∀ n2 t2, s.target_idx n2 = .ok t2 → Comp.before s.layout t2 ≠ none →
        ∃ q2 m q', s.target_q Real.pi rsqrt n2 (some src) = .ok q2 ∧ (s.layout.matrix_between t1 t2 []).1 = .ok m ∧
          q1.propagate_matrix Real.pi rsqrt m.m = .ok q' ∧ q'.value = q2.value ∧ q'.wavelen = q2.wavelen) ∧
      ∀ x, 0 ≤ x → x ≤ s.layout.width → Smooth (Comp.leaves s.layout) x →
        ∃ q2 m q', s.target_q_z Real.pi rsqrt x (some src) = .ok q2 ∧ s.layout.to_z t1 x = .ok m ∧
          q1.propagate_matrix Real.pi rsqrt m.m = .ok q' ∧ q'.value = q2.value ∧ q'.wavelen = q2.wavelen := by
  obtain ⟨Lb, hLb⟩ := Option.ne_none_iff_exists'.mp hpath
  obtain ⟨L1, hL1⟩ := Option.ne_none_iff_exists'.mp hp1
  have hdb := Comp.det_prod (Comp.before_WF hg.wf hLb)
  have hu : (toC qb.value).im ≠ 0 := Beam.Phys.im_ne hq
  obtain ⟨q1, N1, a1, a2, a3, a4, a5, a6⟩ := target_q_ok hg hidx hLb hbeam hq h1 hL1
  have key : ∀ {m N2 : Mat ℝ} {q2 : Beam ℝ}, m * N1 = N2 → m.det ≠ 0 → toC q2.value = mob N2 (toC qb.value) →
      q2.wavelen = qb.wavelen * N2.det → ∃ q', q1.propagate_matrix Real.pi rsqrt m = .ok q' ∧ q'.value = q2.value ∧
        q'.wavelen = q2.wavelen := by
    intro m N2 q2 hm hd hv hl
    obtain ⟨q', f1, f2, f3, f4, f5⟩ := Beam.propagate_eq a6 m hd
    refine ⟨q', f1, ?_, ?_⟩
    · have : toC q'.value = toC q2.value := by
        rw [hv, ← hm, mob_mul a3 hd hu, ← a4]
        exact f2
      have := toC_inj.mp this
      cases hx : q'.value; cases hy : q2.value
      rw [hx, hy] at this
      exact congrArg₂ Cx.mk this.1 this.2
    · rw [f3, hl, ← hm, det_mul, a5]
      unfold Mat.det
      ring
  refine ⟨q1, a1, ?_, ?_⟩
  · intro n2 t2 h2 hp2
    obtain ⟨L2, hL2⟩ := Option.ne_none_iff_exists'.mp hp2
    obtain ⟨q2, N2, b1, b2, b3, b4, b5, b6⟩ := target_q_ok hg hidx hLb hbeam hq h2 hL2
    obtain ⟨m, c1, c2, c3⟩ := Comp.between_ok hg.wf hL1 hL2
    have hm : m.m * N1 = N2 := cancel hdb (by rw [mul_assoc, a2, c3, b2])
    have hd : m.m.det ≠ 0 := by
      intro h0
      apply b3
      rw [← hm, det_mul, h0, zero_mul]
    obtain ⟨q', d1, d2, d3⟩ := key hm hd b4 b5
    exact ⟨q2, m, q', b1, c1, d1, d2, d3⟩
  · intro x hx0 hx1 hs
    obtain ⟨n, parent, e, hr⟩ := hg.made
    obtain ⟨a, P, e1, e2, e3⟩ := Comp.C116_path hr hg.wf hg.nonneg hLb hx0 hx1
    have hat : s.At (prod P) (.z x) := ⟨hx0, hx1, hs, P, e2, rfl⟩
    obtain ⟨m, f1, f2, f3, f4⟩ := to_z_at hg hL1 hat
    rw [mat_mul_def] at e3
    have hm : m.m * N1 = a.m := cancel hdb (by rw [mul_assoc, a2, f4, e3])
    have hda : a.m.det ≠ 0 := by
      intro h0
      have := congrArg Mat.det e3
      rw [det_mul, h0, zero_mul] at this
      exact hat.det hg this.symm
    have hd : m.m.det ≠ 0 := by
      intro h0
      apply hda
      rw [← hm, det_mul, h0, zero_mul]
    obtain ⟨q2, g1, g2, g3, g4, g5⟩ := Beam.propagate_eq hq a.m hda
    obtain ⟨q', d1, d2, d3⟩ := key (q2 := q2) hm hd g2 g3
    refine ⟨q2, m, q', ?_, f1, d1, d2, d3⟩
    unfold target_q_z source
    simp only [bind, Except.bind, hidx, e1, hbeam, g1]

/-- C118.  Across a space of optical length `d` (its length over its refractive index) the phasor turns by the Gouy phase
`arctan((Z + d) / ZR) - arctan(Z / ZR)` of the beam that arrives there. -/
theorem C118_space {s : Meas ℝ} (hg : Good s.layout) {src : TName} {tb : Tgt} {qb : Beam ℝ} (hidx : s.target_idx src = .ok tb)
    (hpath : Comp.before s.layout tb ≠ none) (hbeam : s.beam_at rsqrt tb = .ok qb) (hl : 0 < qb.wavelen) (hz : 0 < qb.value.im)
    {n1 : String} {t1 : Tgt} {L1 : List (Leaf ℝ)} (h1 : s.target_idx (.str n1) = .ok t1) (hL1 : Comp.before s.layout t1 = some L1)
    {q1 : Beam ℝ} (hq1 : s.target_q Real.pi rsqrt (.str n1) (some src) = .ok q1) (hz1 : 0 < q1.ZR)
    {p2 : Place ℝ} {d : ℝ} (h2 : s.At ((⟨1, d, 0, 1⟩ : Mat ℝ) * prod L1) p2) :
    ∃ z, s.relative_gouy_phasor Real.pi rsqrt (.name n1) p2 (some src) = .ok z ∧
      toC z = Complex.exp ((Real.arctan ((q1.Z + d) / q1.ZR) - Real.arctan (q1.Z / q1.ZR) : ℝ) * Complex.I) := by
  have hq : Beam.Phys qb := mul_pos hl hz
  obtain ⟨Lb, hLb⟩ := Option.ne_none_iff_exists'.mp hpath
  have hdb := Comp.det_prod (Comp.before_WF hg.wf hLb)
  obtain ⟨q1', N1, a1, a2, a3, a4, a5, a6⟩ := target_q_ok hg hidx hLb hbeam hq h1 hL1
  rw [hq1] at a1
  cases a1
  have hat1 : s.At (prod L1) (.name n1) := ⟨t1, L1, h1, hL1, rfl⟩
  obtain ⟨x1, x2, z, b1, b2, b3, b4, b5, b6⟩ := gouy_eq hg hidx hpath hbeam hq hat1 h2
  obtain ⟨y1, c1, c2⟩ := place_from_ok hg hLb hat1
  obtain ⟨y2, d1, d2⟩ := place_from_ok hg hLb h2
  rw [b1] at c1
  cases c1
  rw [b2] at d1
  cases d1
  have hN1 : x1.2.m = N1 := cancel hdb (by rw [c2, a2])
  have hN2 : x2.2.m = (⟨1, d, 0, 1⟩ : Mat ℝ) * N1 := cancel hdb (by rw [d2, mul_assoc, a2])
  have hu : (toC qb.value).im ≠ 0 := hq.im_ne
  obtain ⟨t2, t3⟩ := turn_mul (n := (⟨1, d, 0, 1⟩ : Mat ℝ)) a3 hu
  refine ⟨z, b3, ?_⟩
  have hl1 : 0 < q1.wavelen := by
    have h : 0 < q1.wavelen * q1.ZR := a6
    exact (mul_pos_iff_of_pos_right hz1).mp h
  -- the same turn as for a beam that is followed over the distance
  obtain ⟨q', e1, -, -, -, r, hr, e2⟩ := Beam.C34_gouy { q1 with gouy := ⟨1, 0⟩ } hl1 hz1 d
  obtain ⟨q'', f1, f2, f3, f4, f5⟩ := Beam.propagate_eq (q := { q1 with gouy := ⟨1, 0⟩ }) a6 (matrix_space d) (by simp [matrix_space])
  rw [Beam.C34_distance _ d (matrix_space d) rfl, f1] at e1
  cases e1
  have hone : toC (⟨1, 0⟩ : Cx ℝ) = 1 := rfl
  have e2' : toC q'.gouy = r * Complex.exp ((Real.arctan ((q1.Z + d) / q1.ZR) - Real.arctan (q1.Z / q1.ZR) : ℝ) * Complex.I) := by
    rw [e2]
    dsimp only
    rw [hone, mul_one]
    rfl
  have f4' : toC q'.gouy = ((Real.pi * Beam.w2 { q1 with gouy := ⟨1, 0⟩ } : ℝ) : ℂ) * turn ⟨1, d, 0, 1⟩ (toC q1.value) := by
    rw [f4]
    dsimp only
    rw [hone, one_mul]
    rfl
  have hw : 0 < Real.pi * Beam.w2 { q1 with gouy := ⟨1, 0⟩ } := mul_pos Real.pi_pos (Beam.w2_pos (q := { q1 with gouy := ⟨1, 0⟩ }) a6)
  generalize Real.pi * Beam.w2 { q1 with gouy := ⟨1, 0⟩ } = k at f4' hw
  generalize hφ : (Real.arctan ((q1.Z + d) / q1.ZR) - Real.arctan (q1.Z / q1.ZR) : ℝ) = φ at e2' ⊢
  have hturn : turn ⟨1, d, 0, 1⟩ (toC q1.value) = ((r / k : ℝ) : ℂ) * Complex.exp (φ * Complex.I) := by
    have hk : (k : ℂ) ≠ 0 := Complex.ofReal_ne_zero.mpr hw.ne'
    rw [f4'] at e2'
    push_cast
    rw [div_mul_eq_mul_div, eq_div_iff hk, ← e2', mul_comm]
  rw [b6, hN1, hN2, t2, ← a4, mul_div_assoc, div_self t3, mul_one, hturn]
  have hrk : 0 < r / k := div_pos hr hw
  rw [norm_mul, Complex.norm_exp_ofReal_mul_I, mul_one, Complex.norm_real, Real.norm_of_nonneg hrk.le]
  rw [mul_comm, mul_div_assoc, div_self (Complex.ofReal_ne_zero.mpr hrk.ne'), mul_one]

/-! ## C117: the overlaps of successive targets -/

theorem power_ok {s : Meas ℝ} (hw : Comp.WF s.layout) (hl : 0 < s.wavelen) (hone : OneMedium s.layout) {a b : String} {t1 t2 : Tgt}
    {q1 q2 : Beam ℝ} (h1 : s.Has (.str a) t1 q1) (h2 : s.Has (.str b) t2 q2) :
    ∃ z p, s.overlap Real.pi rsqrt (some (.str a)) (some (.str b)) = .ok z ∧ s.power Real.pi rsqrt a b = .ok p ∧ p = ‖toC z‖ ^ 4 ∧
      0 < p ∧ p ≤ 1 := by
  obtain ⟨z, z', q, e1, e2, e3, e4, e5, e6, e7⟩ := C117_symmetric_partial hw hl hone h1 h2
  have hs : rsqrt (absSq z) = .ok ‖toC z‖ := by
    have h : absSq z = ‖toC z‖ ^ 2 := by
      rw [← Complex.normSq_eq_norm_sq]
      rfl
    rw [rsqrt_ok (by rw [h]; positivity), h, Real.sqrt_sq (norm_nonneg _)]
  refine ⟨z, ‖toC z‖ ^ 4, e1, ?_, rfl, pow_pos e5 4, pow_le_one₀ (norm_nonneg _) e6⟩
  unfold power
  simp only [bind, Except.bind, e1, hs]

/-- C117.  In one medium, when every named target holds a beam, `overlap_list()` has one number for each pair of successive targets, the
fourth power of the absolute overlap, which is positive and at most 1; so is their product `overlap_seq()`. -/
theorem C117_list_partial {s : Meas ℝ} (hw : Comp.WF s.layout) (hl : 0 < s.wavelen) (hone : OneMedium s.layout) {x : ℝ × String}
    {l : List (ℝ × String)} (hb : s.beam_targets = .ok (x :: l)) (hall : ∀ y ∈ x :: l, ∃ t q, s.Has (.str y.2) t q) :
    ∃ ps P, s.overlap_list Real.pi rsqrt [] = .ok ps ∧ s.overlap_seq Real.pi rsqrt [] = .ok P ∧ P = ps.prod ∧ ps.length = l.length ∧
      (∀ p ∈ ps, 0 < p ∧ p ≤ 1) ∧ 0 < P ∧ P ≤ 1 ∧
      List.Forall₂ (fun (ab : String × String) p => ∃ z, s.overlap Real.pi rsqrt (some (.str ab.1)) (some (.str ab.2)) = .ok z ∧ p = ‖toC z‖ ^ 4)
        (((x :: l).map Prod.snd).zip (l.map Prod.snd)) ps := by
  have key : ∀ (l : List (ℝ × String)) (x : ℝ × String), (∀ y ∈ x :: l, ∃ t q, s.Has (.str y.2) t q) →
      ∃ ps, s.list_loop Real.pi rsqrt [] x.2 [] l = .ok ps ∧ ps.length = l.length ∧ (∀ p ∈ ps, 0 < p ∧ p ≤ 1) ∧
        List.Forall₂ (fun (ab : String × String) p => ∃ z, s.overlap Real.pi rsqrt (some (.str ab.1)) (some (.str ab.2)) = .ok z ∧ p = ‖toC z‖ ^ 4)
          (((x :: l).map Prod.snd).zip (l.map Prod.snd)) ps := by
    intro l
    induction l with
    | nil => intro x _; exact ⟨[], rfl, rfl, fun p hp => absurd hp List.not_mem_nil, by simp⟩
    | cons y l ih =>
      intro x h
      obtain ⟨t1, q1, h1⟩ := h x List.mem_cons_self
      obtain ⟨t2, q2, h2⟩ := h y (List.mem_cons_of_mem _ List.mem_cons_self)
      obtain ⟨z, p, e1, e2, e3, e4, e5⟩ := power_ok hw hl hone h1 h2
      obtain ⟨ps, f1, f2, f3, f4⟩ := ih y fun w hw => h w (List.mem_cons_of_mem _ hw)
      refine ⟨p :: ps, ?_, by simp [f2], ?_, ?_⟩
      · unfold list_loop
        rw [if_pos (Or.inl rfl)]
        simp only [bind, Except.bind, e2]
        rw [list_loop_acc, f1]
        rfl
      · intro p' hp'
        rcases List.mem_cons.mp hp' with rfl | hp'
        · exact ⟨e4, e5⟩
        · exact f3 p' hp'
      · simp only [List.map_cons, List.zip_cons_cons]
        refine List.Forall₂.cons ⟨z, e1, e3⟩ ?_
        simpa only [List.map_cons] using f4
  obtain ⟨ps, e1, e2, e3, e4⟩ := key l x hall
  have hlist : s.overlap_list Real.pi rsqrt [] = .ok ps := by
    unfold overlap_list
    simp only [bind, Except.bind, hb, e1]
  have hprod : 0 < ps.prod ∧ ps.prod ≤ 1 := by
    clear hlist e1 e2 e4
    induction ps with
    | nil => simp
    | cons p ps ih =>
      obtain ⟨i1, i2⟩ := ih fun q hq => e3 q (List.mem_cons_of_mem _ hq)
      obtain ⟨j1, j2⟩ := e3 p List.mem_cons_self
      rw [List.prod_cons]
      exact ⟨mul_pos j1 i1, mul_le_one₀ j2 i1.le i2⟩
  refine ⟨ps, ps.prod, hlist, ?_, rfl, e2, e3, hprod.1, hprod.2, e4⟩
  rw [C117_seq, hlist]
  rfl

/-! ## Layouts that meet the hypotheses -/

/-- A lens between two targets. -/
def lensedE : El ℝ :=
  .sys true none none [.thin .target none false, .space 1 1 none false, .thin (.lens (some 1)) none false, .space 2 1 none false,
    .thin .target none false] none false

def lensedR : Comp ℝ :=
  .sys [0, 0, 1, 1, 3, 3] [.thin .target false, .space 1 1, .thin (.lens (some 1)) false, .space 2 1, .thin .target false]

def given (n : String) (q : Cx ℝ) : Given ℝ := ⟨n, false, some q, none, ⟨1, 0⟩⟩

/-- The targets `a` and `b` with their beams. -/
def lensedM : Meas ℝ :=
  ⟨lensedR, fun t => if t = [.idx 0] then given "a" ⟨0, 1⟩ else given "b" ⟨1, 2⟩, 1, none⟩

theorem lensedR_good : Good lensedR := by
  refine ⟨⟨1, false, lensedE, ?_⟩, ?_, ?_⟩
  · simp [lensedE, lensedR, resolve, resolve_stack, stack_pairings, env_reversed, bind, Except.bind, stack_positions, Comp.width]
    norm_num
  · simp [lensedR, Comp.WF, Comp.WFL, Comp.leavesL, Comp.leaves, Leaf.WF]
  · intro x hx
    simp only [lensedR, Comp.leaves, Comp.leavesL, List.cons_append, List.nil_append, List.mem_cons, List.not_mem_nil, or_false] at hx
    rcases hx with rfl | rfl | rfl | rfl | rfl <;> norm_num [Leaf.length]

theorem lensedR_one : OneMedium lensedR := by
  intro x hx
  simp only [lensedR, Comp.leaves, Comp.leavesL, List.cons_append, List.nil_append, List.mem_cons, List.not_mem_nil, or_false] at hx
  rcases hx with rfl | rfl | rfl | rfl | rfl <;> norm_num [Leaf.abcd, Mat.det]

theorem lensedM_map : lensedM.name_map = [("a", [.idx 0, .qTarget]), ("b", [.idx 4, .qTarget])] := by
  unfold name_map lensedM lensedR
  simp [Comp.q_targets, Comp.q_targets_from, given, Dict.set]

theorem lensedM_a : lensedM.Has (.str "a") [.idx 0, .qTarget] ⟨⟨0, 1⟩, 1, ⟨1, 0⟩⟩ := by
  refine ⟨?_, ?_, ?_, by norm_num⟩
  · unfold target_idx
    dsimp only
    rw [if_neg (by decide), if_neg (by decide), lensedM_map]
    rfl
  · simp [lensedM, lensedR, Comp.before, Comp.beforeL]
  · simp [beam_at, lensedM, lensedR, Comp.target_obj, Comp.target_obj_at, given, Given.beam_q, bind, Except.bind, Beam.init]

theorem lensedM_b : lensedM.Has (.str "b") [.idx 4, .qTarget] ⟨⟨1, 2⟩, 1, ⟨1, 0⟩⟩ := by
  refine ⟨?_, ?_, ?_, by norm_num⟩
  · unfold target_idx
    dsimp only
    rw [if_neg (by decide), if_neg (by decide), lensedM_map]
    rfl
  · simp [lensedM, lensedR, Comp.before, Comp.beforeL]
  · simp [beam_at, lensedM, lensedR, Comp.target_obj, Comp.target_obj_at, given, Given.beam_q, bind, Except.bind, Beam.init]

example : ∃ z z' q, lensedM.overlap Real.pi rsqrt (some (.str "a")) (some (.str "b")) = .ok z ∧
    lensedM.overlap Real.pi rsqrt (some (.str "b")) (some (.str "a")) = .ok z' ∧
    lensedM.target_q Real.pi rsqrt (.str "b") (some (.str "a")) = .ok q ∧
    ‖toC z‖ = ‖toC z'‖ ∧ 0 < ‖toC z‖ ∧ ‖toC z‖ ≤ 1 ∧ (‖toC z‖ = 1 ↔ q.value = ⟨1, 2⟩) :=
  C117_symmetric_partial lensedR_good.wf one_pos lensedR_one lensedM_a lensedM_b

theorem lensedM_targets : lensedM.beam_targets = .ok [(0, "a"), (3, "b")] := by
  unfold beam_targets
  rw [lensedM_map]
  have h : lensedM.layout = lensedR := rfl
  rw [h]
  simp [lensedR, Comp.target_pos, Comp.target_pos_at, TargetLeft, TargetRight, bind, Except.bind, pure, Except.pure, List.mapM_cons, z_le]

/-- Half way to the second target nothing acts. -/
theorem lensedM_at : ∃ M, lensedM.At M (.z 2) := by
  refine ⟨prod _, by norm_num, ?_, ?_, _, Or.inr ⟨[.thin .target false, .space 1 1, .thin (.lens (some 1)) false], 2, 1, [.thin .target false], 1, rfl,
    by norm_num, by norm_num, rfl, ?_⟩, rfl⟩
  · simp [lensedM, lensedR, Comp.width]
    norm_num
  · intro pre t rev post h hp
    exfalso
    simp only [lensedM, lensedR, Comp.leaves, Comp.leavesL, List.cons_append, List.nil_append] at h
    match pre, h with
    | [], h => simp [total_length] at hp
    | [x1], h =>
      simp only [List.cons_append, List.cons.injEq] at h
      obtain ⟨rfl, h⟩ := h
      simp at h
    | [x1, x2], h =>
      simp only [List.cons_append, List.cons.injEq] at h
      obtain ⟨rfl, rfl, h⟩ := h
      norm_num [total_length, Leaf.length] at hp
    | [x1, x2, x3], h =>
      simp only [List.cons_append, List.cons.injEq] at h
      obtain ⟨rfl, rfl, rfl, h⟩ := h
      simp at h
    | [x1, x2, x3, x4], h =>
      simp only [List.cons_append, List.cons.injEq] at h
      obtain ⟨rfl, rfl, rfl, rfl, h⟩ := h
      norm_num [total_length, Leaf.length] at hp
    | x1 :: x2 :: x3 :: x4 :: x5 :: pre, h =>
      simp at h
  · norm_num [total_length, Leaf.length]

example : lensedM.At 1 (.name "a") := by
  refine ⟨[.idx 0, .qTarget], [], lensedM_a.idx, ?_, rfl⟩
  simp [lensedM, lensedR, Comp.before, Comp.beforeL, Comp.leavesL]

example : ∃ ps P, lensedM.overlap_list Real.pi rsqrt [] = .ok ps ∧ lensedM.overlap_seq Real.pi rsqrt [] = .ok P ∧ P = ps.prod ∧
    ps.length = 1 ∧ (∀ p ∈ ps, 0 < p ∧ p ≤ 1) := by
  obtain ⟨ps, P, h1, h2, h3, h4, h5, -⟩ := C117_list_partial lensedR_good.wf one_pos lensedR_one lensedM_targets (by
    intro y hy
    simp only [List.mem_cons, List.not_mem_nil, or_false] at hy
    rcases hy with rfl | rfl
    · exact ⟨_, _, lensedM_a⟩
    · exact ⟨_, _, lensedM_b⟩)
  exact ⟨ps, P, h1, h2, h3, h4, h5⟩

example : ∃ q, lensedM.target_q Real.pi rsqrt (.str "a") (some (.str "a")) = .ok q ∧ q.value = ⟨0, 1⟩ ∧ q.wavelen = 1 :=
  C118_source lensedR_good lensedM_a.idx lensedM_a.path lensedM_a.beam (by norm_num)

/-- The hypotheses of `C118_space`: the beam of `a` one third of the way to the lens. -/
example : ∃ q1, lensedM.target_q Real.pi rsqrt (.str "a") (some (.str "a")) = .ok q1 ∧ 0 < q1.ZR := by
  obtain ⟨q, h1, h2, -⟩ := C118_source lensedR_good lensedM_a.idx lensedM_a.path lensedM_a.beam (by norm_num)
  refine ⟨q, h1, ?_⟩
  unfold Beam.ZR
  rw [h2]
  norm_num

/-! ## Disagreement -/

/-- A flat surface from index 1 into index 3/2 between two targets. -/
noncomputable def surfaced : Meas ℝ :=
  ⟨.sys [0, 0, 0, 0] [.thin .target false, .thin (.interface 1 (3 / 2) none) false, .thin .target false],
    fun t => if t = [.idx 0] then given "a" ⟨0, 1⟩ else given "b" ⟨0, 3 / 2⟩, 1, none⟩

/-- C117 refuted across a refracting surface: the targets hold the same beam, one in front of the surface and one behind it, and the overlap
exceeds 1; in the other order it is below 1.  The beam of a target always has the wavelength in vacuum, the beam that arrives there has that
of the medium. -/
theorem C117_surface_refuted : ∃ z z' q, surfaced.overlap Real.pi rsqrt (some (.str "a")) (some (.str "b")) = .ok z ∧
    surfaced.overlap Real.pi rsqrt (some (.str "b")) (some (.str "a")) = .ok z' ∧
    surfaced.target_q Real.pi rsqrt (.str "b") (some (.str "a")) = .ok q ∧ q.value = ⟨0, 3 / 2⟩ ∧
    ‖toC z‖ ^ 2 = 3 / 2 ∧ ‖toC z'‖ ^ 2 = 2 / 3 := by
  have hw : Comp.WF surfaced.layout := by
    simp [surfaced, Comp.WF, Comp.WFL, Comp.leavesL, Comp.leaves, Leaf.WF]
  have hmap : surfaced.name_map = [("a", [.idx 0, .qTarget]), ("b", [.idx 2, .qTarget])] := by
    unfold name_map surfaced
    simp [Comp.q_targets, Comp.q_targets_from, given, Dict.set]
  have ha : surfaced.Has (.str "a") [.idx 0, .qTarget] ⟨⟨0, 1⟩, 1, ⟨1, 0⟩⟩ := by
    refine ⟨?_, ?_, ?_, by norm_num⟩
    · unfold target_idx
      dsimp only
      rw [if_neg (by decide), if_neg (by decide), hmap]
      rfl
    · simp [surfaced, Comp.before, Comp.beforeL]
    · simp [beam_at, surfaced, Comp.target_obj, Comp.target_obj_at, given, Given.beam_q, bind, Except.bind, Beam.init]
  have hb : surfaced.Has (.str "b") [.idx 2, .qTarget] ⟨⟨0, 3 / 2⟩, 1, ⟨1, 0⟩⟩ := by
    refine ⟨?_, ?_, ?_, by norm_num⟩
    · unfold target_idx
      dsimp only
      rw [if_neg (by decide), if_neg (by decide), hmap]
      rfl
    · simp [surfaced, Comp.before, Comp.beforeL]
    · simp [beam_at, surfaced, Comp.target_obj, Comp.target_obj_at, given, Given.beam_q, bind, Except.bind, Beam.init]
  obtain ⟨La, hLa⟩ : ∃ L, Comp.before surfaced.layout [.idx 0, .qTarget] = some L ∧ L = [] := by
    simp [surfaced, Comp.before, Comp.beforeL]
  obtain ⟨Lb, hLb⟩ : ∃ L, Comp.before surfaced.layout [.idx 2, .qTarget] = some L ∧
      L = [.thin .target false, .thin (.interface 1 (3 / 2) none) false] := by
    simp [surfaced, Comp.before, Comp.beforeL, Comp.leaves]
  obtain ⟨m, e1, e2, e3⟩ := Comp.between_ok hw hLa.1 hLb.1
  have hm : m.m = ⟨1, 0, 0, 2 / 3⟩ := by
    rw [hLa.2, hLb.2, prod, mul_one] at e3
    rw [e3]
    simp only [prod, Leaf.abcd, Leaf.curv, ← mat_mul_def, ← mat_eye_def]
    norm_num [Mat.mul, Mat.eye]
  have hd : m.m.det = 2 / 3 := by rw [hm]; norm_num [Mat.det]
  obtain ⟨z, z', K, f1, f2, f3, f4, f5, f6, f7⟩ := C117_overlap hw one_pos ha hb e1 (by rw [hd]; norm_num)
  obtain ⟨q, g1, g2, g3, -, g5, g6⟩ := propagate_ok (q := ⟨⟨0, 1⟩, 1, ⟨1, 0⟩⟩) one_pos one_pos (m := m.m) (by rw [hd]; norm_num)
  have hv : toC (⟨0, 3 / 2⟩ : Cx ℝ) = mob m.m (toC ⟨0, 1⟩) := by
    rw [hm]
    unfold mob
    have : (((0 : ℝ) : ℂ) * toC ⟨0, 1⟩ + ((2 / 3 : ℝ) : ℂ)) ≠ 0 := by
      push_cast
      norm_num
    rw [eq_div_iff this]
    apply Complex.ext <;> simp [toC]
  have hK : K = 1 := f7.mpr hv
  refine ⟨z, z', q, f1, f2, ?_, ?_, ?_, ?_⟩
  · unfold target_q source
    simp only [bind, Except.bind, ha.idx, hb.idx, e1, ha.beam, g1]
  · rw [← hv] at g2
    have := toC_inj.mp g2
    cases hx : q.value
    rw [hx] at this
    exact congrArg₂ Cx.mk this.1 this.2
  · rw [f3, hK, hd]; norm_num
  · rw [f4, hK, hd]; norm_num

end Meas
end Alm
