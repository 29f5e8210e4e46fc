import Verif.Layout.MeasureNames

/-!
# C117, C118: overlaps of successive targets; beams and Gouy phases along the layout
-/

set_option linter.unusedSectionVars false

namespace Alm
open Py Cplx

namespace Comp

variable {V : Type} [Field V] [LinearOrder V] [IsStrictOrderedRing V]

theorem bind_mx {x : Except Err (Mat V)} {a : Arr V} (h : (do let m ← x; return Arr.mx m) = Except.ok a) : a.isMx := by
  cases x with
  | error e => cases h
  | ok m =>
    cases h
    trivial

/-- A matrix to a place is always an `np.matrix`, so that `**(-1)` is the inverse. -/
theorem to_z_isMx (c : Comp V) : ∀ t z a, to_z c t z = .ok a → a.isMx := by
  induction c using Comp.ind with
  | thin th rev =>
    intro t z a h
    rw [to_z.eq_def] at h
    dsimp only at h
    split_ifs at h
    · rw [matrix_inv] at h
      exact bind_mx h
    · rw [matrix] at h
      exact bind_mx h
  | space L n =>
    intro t z a h
    rw [to_z.eq_def] at h
    dsimp only at h
    split_ifs at h
    · cases hp : pydiv (z - L) n with
      | error e => rw [hp] at h; cases h
      | ok x => rw [hp] at h; cases h; trivial
    · cases hp : pydiv z n with
      | error e => rw [hp] at h; cases h
      | ok x => rw [hp] at h; cases h; trivial
  | sys pos l ih =>
    intro t z a h
    rw [to_z.eq_def] at h
    dsimp only at h
    have hsub : ∀ i t z b, to_z_at l i t z = .ok b → b.isMx := by
      intro i t z b hb
      cases hl : l[i]? with
      | none =>
        exfalso
        have : ∀ (l : List (Comp V)) i, l[i]? = none → to_z_at l i t z = .error .indexError := by
          intro l
          induction l with
          | nil => intro i _; rw [to_z_at]
          | cons c l ih2 =>
            intro i hi
            cases i with
            | zero => simp at hi
            | succ i =>
              rw [to_z_at]
              exact ih2 i (by simpa using hi)
        rw [this l i hl] at hb
        cases hb
      | some d =>
        rw [to_z_at_eq l i t z d hl] at hb
        exact ih d (List.mem_of_getElem? hl) t z b hb
    have hmul : ∀ {x : Except Err (Arr V)} {m : Arr V} {b : Arr V}, (∀ y, x = .ok y → y.isMx) →
        (do let y ← x; Except.ok (y.mul m)) = .ok b → b.isMx := by
      intro x m b hx hb
      cases x with
      | error e => cases hb
      | ok y =>
        cases hb
        exact Arr.mul_isMx_left (hx y rfl)
    have hat : ∀ b, at_single pos l (fun i t z => to_z_at l i t z) z = .ok b → b.isMx := by
      intro b hb
      unfold at_single at hb
      cases h1 : matrices l .eye with
      | error e => rw [h1] at hb; cases hb
      | ok full =>
        rw [h1] at hb
        simp only [bind, Except.bind] at hb
        cases h2 : search_right pos z with
        | zero => rw [h2] at hb; cases hb; trivial
        | succ idx =>
          rw [h2] at hb
          dsimp only at hb
          split_ifs at hb
          · cases h3 : matrices (l.take idx) .eye with
            | error e => rw [h3] at hb; cases hb
            | ok mat =>
              rw [h3] at hb
              dsimp only at hb
              cases h4 : pos_at pos idx with
              | error e => rw [h4] at hb; cases hb
              | ok p =>
                rw [h4] at hb
                exact hmul (hsub idx _ _) hb
          · cases h4 : pos_at pos (pos.length - 1) with
            | error e => rw [h4] at hb; cases hb
            | ok p =>
              rw [h4] at hb
              cases hb
              exact Arr.mul_isMx_left trivial
    unfold sys_to_z at h
    split_ifs at h
    · exact hat a h
    · cases h1 : at_single pos l (fun i t z => to_z_at l i t z) z with
      | error e => rw [h1] at h; cases h
      | ok mat =>
        rw [h1] at h
        simp only [bind, Except.bind] at h
        cases h2 : matrices l .eye with
        | error e => rw [h2] at h; cases h
        | ok full =>
          rw [h2] at h
          dsimp only at h
          cases h3 : full.inv with
          | error e => rw [h3] at h; cases h
          | ok i =>
            rw [h3] at h
            cases h
            exact Arr.mul_isMx_left (hat mat h1)
    · split at h
      · cases h
      · rename_i i inner _ _
        split at h
        · cases h
        · rename_i comp hcomp
          simp only [bind, Except.bind] at h
          cases h1 : pos_at pos i with
          | error e => rw [h1] at h; cases h
          | ok pL =>
            rw [h1] at h
            dsimp only at h
            cases h2 : pos_at pos (i + 1) with
            | error e => rw [h2] at h; cases h
            | ok pR =>
              rw [h2] at h
              dsimp only at h
              split_ifs at h
              · cases h3 : (matrix_between comp inner TargetLeft []).1 with
                | error e => rw [h3] at h; cases h
                | ok mat =>
                  rw [h3] at h
                  dsimp only at h
                  cases h4 : search_left pos z with
                  | zero =>
                    rw [h4] at h
                    dsimp only at h
                    cases h5 : matrices_inv (l.take i) mat with
                    | error e => rw [h5] at h; cases h
                    | ok mat' =>
                      rw [h5] at h
                      dsimp only at h
                      cases h6 : pos_at pos 0 with
                      | error e => rw [h6] at h; cases h
                      | ok p =>
                        rw [h6] at h
                        cases h
                        exact Arr.mul_isMx_left trivial
                  | succ idx =>
                    rw [h4] at h
                    dsimp only at h
                    cases h5 : matrices_inv ((l.take i).drop (idx + 1)) mat with
                    | error e => rw [h5] at h; cases h
                    | ok mat' =>
                      rw [h5] at h
                      dsimp only at h
                      cases h6 : pos_at pos idx with
                      | error e => rw [h6] at h; cases h
                      | ok p =>
                        rw [h6] at h
                        exact hmul (hsub idx _ _) h
              · cases h3 : (matrix_between comp inner TargetRight []).1 with
                | error e => rw [h3] at h; cases h
                | ok mat =>
                  rw [h3] at h
                  dsimp only at h
                  cases h5 : matrices ((l.take (search_right pos z - 1)).drop (i + 1)) mat with
                  | error e => rw [h5] at h; cases h
                  | ok mat' =>
                    rw [h5] at h
                    dsimp only at h
                    cases h6 : pos_at pos (search_right pos z - 1) with
                    | error e => rw [h6] at h; cases h
                    | ok p =>
                      rw [h6] at h
                      exact hmul (hsub _ _ _) h
              · cases h3 : (matrix_between comp inner TargetRight []).1 with
                | error e => rw [h3] at h; cases h
                | ok mat =>
                  rw [h3] at h
                  dsimp only at h
                  cases h5 : matrices (l.drop (i + 1)) mat with
                  | error e => rw [h5] at h; cases h
                  | ok mat' =>
                    rw [h5] at h
                    dsimp only at h
                    cases h6 : pos_at pos (pos.length - 1) with
                    | error e => rw [h6] at h; cases h
                    | ok p =>
                      rw [h6] at h
                      cases h
                      exact Arr.mul_isMx_left trivial
              · exact hsub i inner _ a h
      · cases h
  | mount s ih =>
    intro t z a h
    rw [to_z.eq_def] at h
    dsimp only at h
    split_ifs at h
    · cases h1 : to_z s TargetLeft z with
      | error e => rw [h1] at h; cases h
      | ok m => rw [h1] at h; cases h; exact Arr.mul_isMx_right trivial
    · cases h1 : to_z s TargetRight z with
      | error e => rw [h1] at h; cases h
      | ok m => rw [h1] at h; cases h; exact Arr.mul_isMx_right trivial
    · split at h
      · cases h
      · cases h
      · exact ih _ _ _ h

theorem inv_mx {a : Arr V} (h : a.isMx) (hd : a.m.det ≠ 0) : ∃ b : Arr V, a.inv = .ok b ∧ b.Ok ∧ b.m * a.m = 1 ∧ a.m * b.m = 1 := by
  cases a with
  | nd a => exact h.elim
  | mx a =>
    obtain ⟨n, h1, h2, h3⟩ := inv_ok (m := a) hd
    refine ⟨.mx n, ?_, trivial, h3, h2⟩
    show (do let m ← Mat.inv a; return Arr.mx m) = _
    rw [h1]
    rfl

end Comp

namespace Meas

/-! ## C118: beams along the layout -/

/-- What the light has passed at a place: at a target the elements left of it, at a number `z` within the layout where no thin element acts
the elements (and the part of a space) left of `z`.  `M` is their matrix. -/
def At (s : Meas ℝ) (M : Mat ℝ) : Place ℝ → Prop
  | .name n => ∃ t L, s.target_idx (.str n) = .ok t ∧ Comp.before s.layout t = some L ∧ M = prod L
  | .z x => 0 ≤ x ∧ x ≤ s.layout.width ∧ Smooth (Comp.leaves s.layout) x ∧ ∃ P, Cut (Comp.leaves s.layout) x P ∧ M = prod P

/-- The layout was made by `resolve`, its parameters are nonzero and its lengths not negative. -/
structure Good (c : Comp ℝ) : Prop where
  made : ∃ n parent e, resolve n parent e = .ok c
  wf : Comp.WF c
  nonneg : Comp.Nonneg c

theorem Cut_det {c : Comp ℝ} (hw : Comp.WF c) {x : ℝ} {P : List (Leaf ℝ)} (h : Cut (Comp.leaves c) x P) : (prod P).det ≠ 0 := by
  refine Comp.det_prod ?_
  rcases h with ⟨post, h1, -⟩ | ⟨pre, L, n, post, t, h1, -, -, h4, -⟩
  · exact fun y hy => Comp.leaves_WF c hw y (by rw [h1]; exact List.mem_append_left _ hy)
  · intro y hy
    rw [h4] at hy
    rcases List.mem_append.mp hy with hy | hy
    · exact Comp.leaves_WF c hw y (by rw [h1]; exact List.mem_append_left _ hy)
    · rw [List.mem_singleton.mp hy]
      exact Comp.leaves_WF c hw (.space L n) (by rw [h1]; simp)

theorem At.det {s : Meas ℝ} (hg : Good s.layout) {p : Place ℝ} {M : Mat ℝ} (h : s.At M p) : M.det ≠ 0 := by
  cases p with
  | name n =>
    obtain ⟨t, L, h1, h2, rfl⟩ := h
    exact Comp.det_prod (Comp.before_WF hg.wf h2)
  | z x =>
    obtain ⟨h0, h1, h2, P, h3, rfl⟩ := h
    exact Cut_det hg.wf h3

theorem to_z_at {s : Meas ℝ} (hg : Good s.layout) {t : Tgt} {L : List (Leaf ℝ)} (ht : Comp.before s.layout t = some L) {x : ℝ}
    {M : Mat ℝ} (h : s.At M (.z x)) : ∃ a : Arr ℝ, Comp.to_z s.layout t x = .ok a ∧ a.isMx ∧ a.Ok ∧ a.m * prod L = M := by
  obtain ⟨h0, h1, h2, P, h3, rfl⟩ := h
  obtain ⟨n, parent, e, hr⟩ := hg.made
  obtain ⟨a, Q, e1, e2, e3, e4⟩ := Comp.to_z_spec s.layout hg.wf (C39_tiles n e parent s.layout hr) hg.nonneg t x L ht h0 h1
  exact ⟨a, e1, Comp.to_z_isMx _ _ _ _ e1, e2, e4.trans (e3.prod_unique hg.nonneg h2 h3)⟩

/-- The first matrix of `relative_gouy_phasor` leads from the source to the place. -/
theorem place_from_ok {s : Meas ℝ} (hg : Good s.layout) {tb : Tgt} {Lb : List (Leaf ℝ)} (hb : Comp.before s.layout tb = some Lb)
    {p : Place ℝ} {M : Mat ℝ} (h : s.At M p) : ∃ x, s.place_from tb p = .ok x ∧ x.2.m * prod Lb = M := by
  cases p with
  | name n =>
    obtain ⟨t, L, h1, h2, rfl⟩ := h
    obtain ⟨a, e1, e2, e3⟩ := Comp.between_ok hg.wf hb h2
    refine ⟨(some t, a), ?_, e3⟩
    unfold place_from
    simp only [bind, Except.bind, h1, e1]
  | z x =>
    obtain ⟨a, e1, -, e2, e3⟩ := to_z_at hg hb h
    refine ⟨(none, a), ?_, e3⟩
    unfold place_from
    simp only [bind, Except.bind, e1]

/-- The second matrix leads from the first place to the second. -/
theorem place_between_ok {s : Meas ℝ} (hg : Good s.layout) {tb : Tgt} {Lb : List (Leaf ℝ)} (hb : Comp.before s.layout tb = some Lb)
    {p1 p2 : Place ℝ} {M1 M2 : Mat ℝ} (h1 : s.At M1 p1) (h2 : s.At M2 p2) {x : Option Tgt × Arr ℝ} (hx : s.place_from tb p1 = .ok x) :
    ∃ a : Arr ℝ, s.place_between tb x.2 (first_place x.1 p1) p2 = .ok a ∧ a.m * M1 = M2 := by
  cases p1 with
  | name n =>
    obtain ⟨t1, L1, a1, a2, rfl⟩ := h1
    obtain ⟨m, e1, e2, e3⟩ := Comp.between_ok hg.wf hb a2
    have : x = (some t1, m) := by
      unfold place_from at hx
      simp only [bind, Except.bind, a1, e1] at hx
      exact (Except.ok.inj hx).symm
    subst this
    cases p2 with
    | name n2 =>
      obtain ⟨t2, L2, b1, b2, rfl⟩ := h2
      obtain ⟨m2, f1, f2, f3⟩ := Comp.between_ok hg.wf a2 b2
      refine ⟨m2, ?_, f3⟩
      unfold place_between first_place
      simp only [bind, Except.bind, b1, f1]
    | z y =>
      obtain ⟨a, f1, -, f2, f3⟩ := to_z_at hg a2 h2
      exact ⟨a, f1, f3⟩
  | z y1 =>
    obtain ⟨m, e1, e0, e2, e3⟩ := to_z_at hg hb h1
    have : x = (none, m) := by
      unfold place_from at hx
      simp only [bind, Except.bind, e1] at hx
      exact (Except.ok.inj hx).symm
    subst this
    cases p2 with
    | name n2 =>
      obtain ⟨t2, L2, b1, b2, rfl⟩ := h2
      obtain ⟨a, f1, f0, f2, f3⟩ := to_z_at hg b2 h1
      have hd : a.m.det ≠ 0 := by
        intro h0
        have := congrArg Mat.det f3
        rw [det_mul, h0, zero_mul] at this
        exact h1.det hg this.symm
      obtain ⟨i, g1, g2, g3, -⟩ := Comp.inv_mx f0 hd
      refine ⟨i, ?_, ?_⟩
      · unfold place_between first_place
        simp only [bind, Except.bind, b1, f1, g1]
      · rw [← f3, ← mul_assoc, g3, one_mul]
    | z y2 =>
      obtain ⟨a, f1, f0, f2, f3⟩ := to_z_at hg hb h2
      have hd : m.m.det ≠ 0 := by
        intro h0
        have := congrArg Mat.det e3
        rw [det_mul, h0, zero_mul] at this
        exact h1.det hg this.symm
      obtain ⟨i, g1, g2, g3, -⟩ := Comp.inv_mx e0 hd
      refine ⟨a.mul i, ?_, ?_⟩
      · unfold place_between first_place
        simp only [bind, Except.bind, f1, g1]
      · rw [(Arr.mul_ok f2 g2).2, ← e3, mul_assoc, ← mul_assoc i.m, g3, one_mul, f3]

/-- The factor by which the phasor of a beam of parameter `u` turns through `m` (up to a positive number). -/
noncomputable def turn (m : Mat ℝ) (u : ℂ) : ℂ := (starRingEnd ℂ) (m.a + m.b / u)

theorem turn_mul {m n : Mat ℝ} (hm : m.det ≠ 0) {u : ℂ} (hu : u.im ≠ 0) : turn (n * m) u = turn n (mob m u) * turn m u ∧ turn m u ≠ 0 := by
  have hu0 : u ≠ 0 := by
    rintro rfl
    exact hu rfl
  have h1 := mob_den hm hu
  have h2 : (m.a * u + m.b : ℂ) ≠ 0 := by
    have := mob_den (m := ⟨m.c, m.d, m.a, m.b⟩) (by unfold Mat.det at hm ⊢; intro h; apply hm; linarith) hu
    exact this
  have h3 : (m.a + m.b / u : ℂ) ≠ 0 := by
    intro h
    apply h2
    have := congrArg (· * u) h
    field_simp at this
    simpa using this
  constructor
  · unfold turn
    rw [← map_mul]
    congr 1
    unfold mob
    rw [← mat_mul_def]
    simp only [Mat.mul]
    push_cast
    field_simp
    ring
  · exact (map_ne_zero _).mpr h3

/-- What `relative_gouy_phasor` returns, in terms of the matrices from the source to the two places. -/
theorem gouy_eq {s : Meas ℝ} (hg : Good s.layout) {src : TName} {tb : Tgt} {qb : Beam ℝ} (hidx : s.target_idx src = .ok tb)
    (hpath : Comp.before s.layout tb ≠ none) (hbeam : s.beam_at rsqrt tb = .ok qb) (hq : Beam.Phys qb)
    {p1 p2 : Place ℝ} {M1 M2 : Mat ℝ} (h1 : s.At M1 p1) (h2 : s.At M2 p2) :
    ∃ x1 x2 z, s.place_from tb p1 = .ok x1 ∧ s.place_from tb p2 = .ok x2 ∧
      s.relative_gouy_phasor Real.pi rsqrt p1 p2 (some src) = .ok z ∧ turn x1.2.m (toC qb.value) ≠ 0 ∧ turn x2.2.m (toC qb.value) ≠ 0 ∧
      toC z = (turn x2.2.m (toC qb.value) / turn x1.2.m (toC qb.value)) / (‖turn x2.2.m (toC qb.value) / turn x1.2.m (toC qb.value)‖ : ℝ) := by
  obtain ⟨Lb, hLb⟩ := Option.ne_none_iff_exists'.mp hpath
  have hdb := Comp.det_prod (Comp.before_WF hg.wf hLb)
  obtain ⟨x1, a1, a2⟩ := place_from_ok hg hLb h1
  obtain ⟨x2, b1, b2⟩ := place_from_ok hg hLb h2
  obtain ⟨m, c1, c2⟩ := place_between_ok hg hLb h1 h2 a1
  have hmul : m.m * x1.2.m = x2.2.m := by
    refine cancel hdb ?_
    rw [mul_assoc, a2, c2, b2]
  have d1 : x1.2.m.det ≠ 0 := by
    intro h0
    have := congrArg Mat.det a2
    rw [det_mul, h0, zero_mul] at this
    exact h1.det hg this.symm
  have dm : m.m.det ≠ 0 := by
    intro h0
    have := congrArg Mat.det c2
    rw [det_mul, h0, zero_mul] at this
    exact h2.det hg this.symm
  have d2 : x2.2.m.det ≠ 0 := by
    rw [← hmul, det_mul]
    exact mul_ne_zero dm d1
  obtain ⟨q1, e1, e2, e3, e4, e5⟩ := Beam.propagate_eq hq x1.2.m d1
  have hq1 : Beam.Phys { q1 with gouy := ⟨1, 0⟩ } := e5
  obtain ⟨q2, f1, f2, f3, f4, f5⟩ := Beam.propagate_eq hq1 m.m dm
  have hu : (toC qb.value).im ≠ 0 := hq.im_ne
  obtain ⟨t1, t2⟩ := turn_mul (n := m.m) d1 hu
  have t3 := (turn_mul (n := 1) d2 hu).2
  rw [hmul] at t1
  obtain ⟨r, hr, hg2⟩ : ∃ r : ℝ, 0 < r ∧ toC q2.gouy = (r : ℂ) * (turn x2.2.m (toC qb.value) / turn x1.2.m (toC qb.value)) := by
    refine ⟨Real.pi * Beam.w2 { q1 with gouy := ⟨1, 0⟩ }, mul_pos Real.pi_pos (Beam.w2_pos hq1), ?_⟩
    rw [f4, t1, mul_div_assoc, div_self t2, mul_one]
    have : toC (⟨1, 0⟩ : Cx ℝ) = 1 := rfl
    rw [this, one_mul]
    congr 1
    unfold turn
    congr 3
  set w := turn x2.2.m (toC qb.value) / turn x1.2.m (toC qb.value) with hwdef
  have hw0 : w ≠ 0 := div_ne_zero t3 t2
  have habs : rsqrt (absSq q2.gouy) = .ok (r * ‖w‖) := by
    have : absSq q2.gouy = (r * ‖w‖) ^ 2 := by
      have h : absSq q2.gouy = Complex.normSq (toC q2.gouy) := rfl
      rw [h, hg2, Complex.normSq_eq_norm_sq, norm_mul, Complex.norm_real, Real.norm_of_nonneg hr.le]
    rw [rsqrt_ok (by rw [this]; positivity), this, Real.sqrt_sq (by positivity)]
  have hne : argC (.num (r * ‖w‖)) ≠ 0 := by
    show ((r * ‖w‖ : ℝ) : ℂ) ≠ 0
    exact Complex.ofReal_ne_zero.mpr (mul_ne_zero hr.ne' (norm_ne_zero_iff.mpr hw0))
  obtain ⟨z, g1, g2⟩ := (C32_div q2.gouy (.num (r * ‖w‖))).1 hne
  refine ⟨x1, x2, z, a1, b1, ?_, t2, t3, ?_⟩
  · unfold relative_gouy_phasor
    simp only [bind, Except.bind, hidx, a1, hbeam, e1]
    rw [c1]
    simp only [f1, habs, g1]
  · rw [g2, hg2]
    show _ / ((r * ‖w‖ : ℝ) : ℂ) = _
    rw [Complex.ofReal_mul, mul_div_mul_left _ _ (Complex.ofReal_ne_zero.mpr hr.ne')]

/-- C118.  The relative Gouy phasor between two places has the absolute value 1. -/
theorem C118_unit {s : Meas ℝ} (hg : Good s.layout) {src : TName} {tb : Tgt} {qb : Beam ℝ} (hidx : s.target_idx src = .ok tb)
    (hpath : Comp.before s.layout tb ≠ none) (hbeam : s.beam_at rsqrt tb = .ok qb) (hq : 0 < qb.wavelen * qb.value.im)
    {p1 p2 : Place ℝ} {M1 M2 : Mat ℝ} (h1 : s.At M1 p1) (h2 : s.At M2 p2) :
    ∃ z, s.relative_gouy_phasor Real.pi rsqrt p1 p2 (some src) = .ok z ∧ ‖toC z‖ = 1 ∧ (M1 = M2 → toC z = 1) := by
  obtain ⟨x1, x2, z, a1, a2, a3, a4, a5, a6⟩ := gouy_eq hg hidx hpath hbeam hq h1 h2
  have hw : turn x2.2.m (toC qb.value) / turn x1.2.m (toC qb.value) ≠ 0 := div_ne_zero a5 a4
  refine ⟨z, a3, ?_, ?_⟩
  · rw [a6, norm_div, Complex.norm_real, norm_norm, div_self (norm_ne_zero_iff.mpr hw)]
  · intro hM
    obtain ⟨Lb, hLb⟩ := Option.ne_none_iff_exists'.mp hpath
    obtain ⟨y1, b1, b2⟩ := place_from_ok hg hLb h1
    obtain ⟨y2, c1, c2⟩ := place_from_ok hg hLb h2
    rw [a1] at b1
    rw [a2] at c1
    cases b1
    cases c1
    have : x2.2.m = x1.2.m := cancel (Comp.det_prod (Comp.before_WF hg.wf hLb)) (by rw [b2, c2, hM])
    rw [a6, this, div_self a4]
    simp

/-- C118.  Gouy phases add along the layout: the phasor from the first place to the third is the product of those by way of the second,
whether the places are targets or numbers, and in whatever order they lie. -/
theorem C118_add {s : Meas ℝ} (hg : Good s.layout) {src : TName} {tb : Tgt} {qb : Beam ℝ} (hidx : s.target_idx src = .ok tb)
    (hpath : Comp.before s.layout tb ≠ none) (hbeam : s.beam_at rsqrt tb = .ok qb) (hq : 0 < qb.wavelen * qb.value.im)
    {p1 p2 p3 : Place ℝ} {M1 M2 M3 : Mat ℝ} (h1 : s.At M1 p1) (h2 : s.At M2 p2) (h3 : s.At M3 p3) :
    ∃ z12 z23 z13, s.relative_gouy_phasor Real.pi rsqrt p1 p2 (some src) = .ok z12 ∧
      s.relative_gouy_phasor Real.pi rsqrt p2 p3 (some src) = .ok z23 ∧
      s.relative_gouy_phasor Real.pi rsqrt p1 p3 (some src) = .ok z13 ∧ toC z13 = toC z12 * toC z23 := by
  obtain ⟨x1, x2, z12, a1, a2, a3, a4, a5, a6⟩ := gouy_eq hg hidx hpath hbeam hq h1 h2
  obtain ⟨y2, x3, z23, b1, b2, b3, b4, b5, b6⟩ := gouy_eq hg hidx hpath hbeam hq h2 h3
  obtain ⟨y1, y3, z13, c1, c2, c3, c4, c5, c6⟩ := gouy_eq hg hidx hpath hbeam hq h1 h3
  rw [a2] at b1
  cases b1
  rw [a1] at c1
  cases c1
  rw [b2] at c2
  cases c2
  refine ⟨z12, z23, z13, a3, b3, c3, ?_⟩
  rw [a6, b6, c6]
  generalize turn x1.2.m (toC qb.value) = f1 at *
  generalize turn x2.2.m (toC qb.value) = f2 at *
  generalize turn x3.2.m (toC qb.value) = f3 at *
  have n1 : (‖f1‖ : ℂ) ≠ 0 := Complex.ofReal_ne_zero.mpr (norm_ne_zero_iff.mpr a4)
  have n2 : (‖f2‖ : ℂ) ≠ 0 := Complex.ofReal_ne_zero.mpr (norm_ne_zero_iff.mpr a5)
  have n3 : (‖f3‖ : ℂ) ≠ 0 := Complex.ofReal_ne_zero.mpr (norm_ne_zero_iff.mpr b5)
  simp only [norm_div, Complex.ofReal_div]
  field_simp

end Meas
end Alm
