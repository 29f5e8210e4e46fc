import Verif.Layout.Props
import Verif.Beam.Basic
import Mathlib.Tactic.FieldSimp

/-!
# C150: targets of elements and projected beams

Source: `alm/projected_target.py`, `as_target` of `alm/bases.py` l.131-138, `_target_to_child` of `alm/system.py` l.421-424 and
`alm/measurements.py` l.89-91.
-/

set_option linter.unusedSectionVars false

namespace Alm
open Py Cplx Comp

variable {V : Type} [Field V] [DecidableEq V]

/-! ## model -/

/-- A step from a system to the entry `i` of its `filled_list`, or from a mount to its `subsystem`. -/
inductive Step
  | at (i : Nat)
  | sub
  deriving DecidableEq, Repr

/-- The component that a way from the root leads to. -/
def Comp.part : Comp V → List Step → Option (Comp V)
  | c, [] => some c
  | .sys _ filled, .at i :: r => filled[i]?.bind (fun e => part e r)
  | .mount s, .sub :: r => part s r
  | _, _ :: _ => none
termination_by structural _ w => w

/-- `parent._target_to_child(self)`, system.py l.421-424 and measurements.py l.89-91: the indices from the root to the element.  Mounts
have no such method. -/
def to_child : List Step → Except Err Tgt
  | [] => .ok []
  | .at i :: r => do
    let t ← to_child r
    .ok (.idx i :: t)
  | .sub :: _ => .error .attributeError

/-- `as_target(direction)`, bases.py l.131-138, of the element at a way; `right` is `direction == 'right'`.  The root has no parent. -/
def as_target (right : Bool) (way : List Step) : Except Err Tgt :=
  if way = [] then .error .attributeError
  else do
    let sub_target ← to_child way
    .ok (sub_target ++ (if right then TargetRight else TargetLeft))

/-- A target that has a beam, at its way from the root: a `BeamTarget` or a fit with its `beam_q`, or a `BeamTargetProjected` with its
`target_original` and the beam of its `inst_preincarnation`. -/
inductive PTarget (V : Type)
  | given (way : List Step) (beam_q : Beam V)
  | projected (way : List Step) (target_original : PTarget V) (prein : Option (Beam V))

namespace PTarget

def way : PTarget V → List Step
  | given w _ => w
  | projected w _ _ => w

end PTarget

/-- `beam_q`, projected_target.py l.22-33. -/
def PTarget.beam_q [LinearOrder V] (pi : V) (sqrt : V → Except Err V) (root : Comp V) : PTarget V → Except Err (Beam V)
  | given _ q => .ok q
  | projected _ _ (some q) => .ok q
  | projected w orig none => do
    let q_pre ← orig.beam_q pi sqrt root
    let t1 ← as_target false orig.way
    let t2 ← as_target false w
    let mat ← (root.matrix_between t1 t2 []).1
    q_pre.propagate_matrix pi sqrt mat.m

/-! ## targets of elements -/

/-- A way that does not go through a mount. -/
def Unmounted (w : List Step) : Prop := .sub ∉ w

theorem leavesL_at (x : Comp V) (l : List (Comp V)) (i : Nat) (h : l[i]? = some x) :
    leavesL l = leavesL (l.take i) ++ leaves x ++ leavesL (l.drop (i + 1)) := by
  induction l generalizing i with
  | nil => simp at h
  | cons a l ih =>
    cases i with
    | zero =>
      simp only [List.getElem?_cons_zero, Option.some.injEq] at h
      subst h
      simp [leavesL]
    | succ i =>
      rw [List.getElem?_cons_succ] at h
      simp only [List.take_succ_cons, List.drop_succ_cons, leavesL]
      rw [ih i h]
      simp

theorem to_child_spec {c e : Comp V} {w : List Step} (h : c.part w = some e) :
    ∃ t, (Unmounted w → to_child w = .ok t) ∧ ∃ L R, leaves c = L ++ leaves e ++ R ∧
      ∀ u P, before e u = some P → before c (t ++ u) = some (L ++ P) := by
  induction w generalizing c with
  | nil =>
    have h' : some c = some e := by rw [← h]; cases c <;> rfl
    cases h'
    exact ⟨[], fun _ => rfl, [], [], by simp, fun u P hP => hP⟩
  | cons s w ih =>
    cases s with
    | sub =>
      cases c with
      | mount s =>
        obtain ⟨t, h1, L, R, h2, h3⟩ := ih (c := s) h
        refine ⟨.idx 1 :: t, fun hw => absurd List.mem_cons_self hw, L, R, by rw [leaves, h2], fun u P hP => ?_⟩
        rw [List.cons_append, before, if_neg (by simp), if_neg (by simp)]
        exact h3 u P hP
      | thin t r => cases h
      | space L n => cases h
      | sys p f => cases h
    | «at» i =>
      cases c with
      | sys pos filled =>
        change filled[i]?.bind (fun e => part e w) = some e at h
        obtain ⟨x, hx, h⟩ := Option.bind_eq_some_iff.mp h
        obtain ⟨t, h1, L, R, h2, h3⟩ := ih h
        refine ⟨.idx i :: t, fun hw => by rw [to_child, h1 (fun h => hw (List.mem_cons_of_mem _ h))]; rfl,
          leavesL (filled.take i) ++ L, R ++ leavesL (filled.drop (i + 1)), ?_, ?_⟩
        · rw [leaves, leavesL_at x filled i hx, h2]
          simp
        · intro u P hP
          have h4 := h3 u P hP
          have : before (.sys pos filled) (.idx i :: t ++ u) = beforeL filled i (t ++ u) := by
            rw [List.cons_append, before, if_neg (by simp), if_neg (by simp)]
          rw [this, beforeL_eq, hx]
          simp [h4]
      | thin t r => cases h
      | space L n => cases h
      | mount s => cases h

/-- **C150, targets.**  The target of an element that is not in a mount is where the element is: what is left of it and the element itself
are what is left of its right end. -/
theorem C150_targets {c e : Comp V} {w : List Step} (h : c.part w = some e) (hw : Unmounted w) (h0 : w ≠ []) :
    ∃ tl tr L R, as_target false w = .ok tl ∧ as_target true w = .ok tr ∧ before c tl = some L ∧ before c tr = some (L ++ leaves e) ∧
      leaves c = L ++ leaves e ++ R := by
  obtain ⟨t, h1, L, R, h2, h3⟩ := to_child_spec h
  replace h1 := h1 hw
  refine ⟨t ++ [.left], t ++ [.right], L, R, ?_, ?_, ?_, ?_, h2⟩
  · rw [as_target, if_neg h0, h1]; rfl
  · rw [as_target, if_neg h0, h1]; rfl
  · rw [h3 _ _ (before_left e), List.append_nil]
  · exact h3 _ _ (before_right e)

/-- **C150, mounts (disagreement).**  An element in a mount has a target, and `matrix_between` takes it; but `as_target` does not find it:
mounts do not tell the target of what they hold. -/
theorem C150_mount_refuted {c e : Comp V} {w : List Step} (h : c.part w = some e) (hw : .sub ∈ w) :
    (∃ t L R, before c t = some L ∧ leaves c = L ++ leaves e ++ R) ∧ ∀ right, as_target right w = .error .attributeError := by
  constructor
  · obtain ⟨t, -, L, R, h2, h3⟩ := to_child_spec h
    exact ⟨t ++ [.left], L, R, by rw [h3 _ _ (before_left e), List.append_nil], h2⟩
  intro right
  have h : to_child w = .error .attributeError := by
    clear h
    induction w with
    | nil => cases hw
    | cons s w ih =>
      cases s with
      | sub => rfl
      | «at» i =>
        rw [to_child, ih (by simpa using hw)]
        rfl
  rw [as_target, if_neg (by rintro rfl; cases hw), h]
  rfl

example : demo.part [.at 5, .sub] = some (.thin (.mirror (some 4)) true) ∧ Step.sub ∈ [Step.at 5, Step.sub] := ⟨rfl, by simp⟩

example : demo.part [.at 4, .at 1] = some (.space 1 (3 / 2)) ∧ Unmounted [.at 4, .at 1] ∧
    as_target false [.at 4, .at 1] = .ok [.idx 4, .idx 1, .left] := ⟨rfl, by simp [Unmounted], rfl⟩

/-! ## projected beams -/

namespace PTarget

/-- The target whose beam is projected along a chain of targets: the first one, or the last one that was made anew from one with a beam. -/
def source : PTarget V → List Step × Beam V
  | given w q => (w, q)
  | projected w _ (some q) => (w, q)
  | projected _ orig none => orig.source

/-- The ways of the targets that a beam is projected along. -/
def ways : PTarget V → List (List Step)
  | given w _ => [w]
  | projected w _ (some _) => [w]
  | projected w orig none => w :: orig.ways

theorem source_mem (p : PTarget V) : p.source.1 ∈ p.ways := by
  induction p with
  | given w q => exact List.mem_singleton.2 rfl
  | projected w orig prein ih =>
    cases prein with
    | some q => exact List.mem_cons_self
    | none => exact List.mem_cons_of_mem _ ih

theorem way_mem (p : PTarget V) : p.way ∈ p.ways := by
  rcases p with _ | ⟨_, _, _ | _⟩ <;> simp [way, ways]

/-- Targets in a layout, none of them in a mount. -/
def Live (c : Comp V) (p : PTarget V) : Prop := ∀ w ∈ p.ways, w ≠ [] ∧ Unmounted w ∧ (c.part w).isSome

/-- What is left of the element at a way. -/
def LeftOf (c : Comp V) (w : List Step) (L : List (Leaf V)) : Prop :=
  ∃ t e R, as_target false w = .ok t ∧ before c t = some L ∧ c.part w = some e ∧ leaves c = L ++ leaves e ++ R

theorem leftOf {c : Comp V} {w : List Step} (h0 : w ≠ []) (hw : Unmounted w) (h : (c.part w).isSome) : ∃ L, LeftOf c w L := by
  obtain ⟨e, he⟩ := Option.isSome_iff_exists.mp h
  obtain ⟨tl, tr, L, R, h1, -, h3, -, h5⟩ := C150_targets he hw h0
  exact ⟨L, tl, e, R, h1, h3, he, h5⟩

theorem LeftOf.unique {c : Comp V} {w : List Step} {L L' : List (Leaf V)} (h : LeftOf c w L) (h' : LeftOf c w L') : L = L' := by
  obtain ⟨t, -, -, h1, h2, -⟩ := h
  obtain ⟨t', -, -, h1', h2', -⟩ := h'
  rw [h1] at h1'
  cases h1'
  rw [h2] at h2'
  cases h2'
  rfl

/-- **C150, chain.**  However many targets a beam is projected along, in whatever order they are in the layout, the beam of the last is that of
the first followed straight to it: through the matrix `N` that takes what is left of the first to what is left of the last. -/
theorem C150_chain {c : Comp ℝ} (hw : WF c) (p : PTarget ℝ) (hp : Live c p) (hq : 0 < p.source.2.wavelen * p.source.2.value.im)
    {L0 L1 : List (Leaf ℝ)} (h0 : LeftOf c p.source.1 L0) (h1 : LeftOf c p.way L1) :
    ∃ q N, p.beam_q Real.pi rsqrt c = .ok q ∧ Mat.mul N (prod L0) = prod L1 ∧
      toC q.value = (N.a * toC p.source.2.value + N.b) / (N.c * toC p.source.2.value + N.d) ∧
      q.wavelen = p.source.2.wavelen * N.det ∧ 0 < q.wavelen * q.value.im ∧
      ∃ r : ℝ, 0 < r ∧ toC q.gouy = r * (toC p.source.2.gouy * (starRingEnd ℂ) (N.a + N.b / toC p.source.2.value)) := by
  have same : ∀ (w : List Step) (b : Beam ℝ), 0 < b.wavelen * b.value.im → ∀ L, LeftOf c w L → ∀ L', LeftOf c w L' →
      ∃ q N, (Except.ok b : Except Err (Beam ℝ)) = .ok q ∧ Mat.mul N (prod L) = prod L' ∧
      toC q.value = (N.a * toC b.value + N.b) / (N.c * toC b.value + N.d) ∧ q.wavelen = b.wavelen * N.det ∧ 0 < q.wavelen * q.value.im ∧
      ∃ r : ℝ, 0 < r ∧ toC q.gouy = r * (toC b.gouy * (starRingEnd ℂ) (N.a + N.b / toC b.value)) := by
    intro w b hb L hL L' hL'
    cases hL.unique hL'
    refine ⟨b, Mat.eye, rfl, by rw [mat_mul_def, mat_eye_def, one_mul], by simp [Mat.eye], by simp [Mat.eye, Mat.det], hb, 1, one_pos,
      by simp [Mat.eye]⟩
  induction p generalizing L1 with
  | given w q => exact same w q hq L0 h0 L1 h1
  | projected w orig prein ih =>
    cases prein with
    | some q => exact same w q hq L0 h0 L1 h1
    | none =>
      have hp' : Live c orig := fun w hw => hp w (List.mem_cons_of_mem _ hw)
      obtain ⟨a1, a2, a3⟩ := hp' _ (way_mem orig)
      obtain ⟨L, hL⟩ := leftOf a1 a2 a3
      obtain ⟨q, N, e1, e2, e3, e4, e5, r, hr, e6⟩ := ih hp' hq h0 hL
      obtain ⟨t, -, -, b1, b2, -⟩ := hL
      obtain ⟨t', -, -, b1', b2', -⟩ := id h1
      obtain ⟨M, m1, m2⟩ := C38_path hw [] b2 b2'
      replace m1 : (matrix_between c t t' []).1 = .ok M := m1
      change as_target false w = _ at b1'
      change LeftOf c orig.source.1 L0 at h0
      change 0 < orig.source.2.wavelen * orig.source.2.value.im at hq
      show ∃ (q : Beam ℝ) (N : Mat ℝ), _ ∧ _ ∧ toC q.value = (N.a * toC orig.source.2.value + N.b) / (N.c * toC orig.source.2.value + N.d) ∧
        q.wavelen = orig.source.2.wavelen * N.det ∧ _ ∧ ∃ r : ℝ, 0 < r ∧
        toC q.gouy = r * (toC orig.source.2.gouy * (starRingEnd ℂ) (N.a + N.b / toC orig.source.2.value))
      have hdet : ∀ {X : Mat ℝ} {A B : List (Leaf ℝ)} {u v : Tgt}, before c u = some A → before c v = some B →
          Mat.mul X (prod A) = prod B → X.det ≠ 0 := by
        intro X A B u v hA hB hX h
        have := det_prod (before_WF hw hB)
        rw [← hX, mat_mul_def, det_mul, h, zero_mul] at this
        exact this rfl
      obtain ⟨t0, -, -, -, c2, -⟩ := h0
      have hN := hdet c2 b2 e2
      have hM := hdet b2 b2' m2
      obtain ⟨q', f1, f2, f3, f4, f5⟩ := Beam.propagate_eq (q := q) e5 M.m hM
      generalize orig.source.2 = b at hq e3 e4 e6 ⊢
      have hz : toC b.value ≠ 0 := Beam.toC_ne (Beam.Phys.im_ne hq)
      have hcd : (N.c : ℂ) * toC b.value + N.d ≠ 0 := Beam.den_ne (Beam.Phys.im_ne hq) hN
      have hz1 : toC q.value ≠ 0 := Beam.toC_ne (Beam.Phys.im_ne e5)
      have hab : (N.a : ℂ) * toC b.value + N.b ≠ 0 := by
        intro h0
        rw [h0, zero_div] at e3
        exact hz1 e3
      have hMN : (Mat.mul M.m N).det ≠ 0 := by
        rw [mat_mul_def, det_mul]
        exact mul_ne_zero hM hN
      have hne2 : (M.m.c : ℂ) * toC q.value + M.m.d ≠ 0 := Beam.den_ne (Beam.Phys.im_ne e5) hM
      have hne3 : ((Mat.mul M.m N).c : ℂ) * toC b.value + (Mat.mul M.m N).d ≠ 0 := Beam.den_ne (Beam.Phys.im_ne hq) hMN
      refine ⟨q', Mat.mul M.m N, ?_, ?_, ?_, ?_, f5, r * (Real.pi * Beam.w2 q), mul_pos hr (mul_pos Real.pi_pos (Beam.w2_pos e5)), ?_⟩
      · unfold PTarget.beam_q
        rw [e1]
        change (do
          let t1 ← as_target false orig.way
          let t2 ← as_target false w
          let mat ← (c.matrix_between t1 t2 []).1
          q.propagate_matrix Real.pi rsqrt mat.m) = _
        rw [b1, b1']
        change (do
          let mat ← (c.matrix_between t t' []).1
          q.propagate_matrix Real.pi rsqrt mat.m) = _
        rw [m1]
        exact f1
      · rw [mat_mul_def] at e2 m2 ⊢
        rw [mat_mul_def, mul_assoc, e2, m2]
      · have hNu : ((Mat.mul M.m N).a : ℂ) * toC b.value + (Mat.mul M.m N).b =
            M.m.a * (N.a * toC b.value + N.b) + M.m.b * (N.c * toC b.value + N.d) := by
          simp only [Mat.mul]; push_cast; ring
        have hD : ((Mat.mul M.m N).c : ℂ) * toC b.value + (Mat.mul M.m N).d =
            M.m.c * (N.a * toC b.value + N.b) + M.m.d * (N.c * toC b.value + N.d) := by
          simp only [Mat.mul]; push_cast; ring
        rw [f2, div_eq_div_iff hne2 hne3, e3, hNu, hD]
        generalize (N.a : ℂ) * toC b.value + N.b = x
        generalize (N.c : ℂ) * toC b.value + N.d = y at hcd ⊢
        field_simp
      · rw [f3, e4, mat_mul_def, det_mul]
        unfold Mat.det
        ring
      · have hf : (N.a : ℂ) + N.b / toC b.value = (N.a * toC b.value + N.b) / toC b.value := by
          field_simp
        have hf1 : (M.m.a : ℂ) + M.m.b / toC q.value =
            (M.m.a * (N.a * toC b.value + N.b) + M.m.b * (N.c * toC b.value + N.d)) / (N.a * toC b.value + N.b) := by
          rw [e3]
          field_simp
        have hk : ((Mat.mul M.m N).a : ℂ) + (Mat.mul M.m N).b / toC b.value = (N.a + N.b / toC b.value) * (M.m.a + M.m.b / toC q.value) := by
          rw [hf, hf1]
          simp only [Mat.mul]
          push_cast
          field_simp
          ring
        rw [f4, e6, hk, map_mul]
        push_cast
        ring

/-- **C150, back.**  A beam projected along targets and back to where it came from is the same beam: its parameter, its wavelength and its Gouy
phasor up to a positive factor. -/
theorem C150_back {c : Comp ℝ} (hw : WF c) (p : PTarget ℝ) (hp : Live c p) (hq : 0 < p.source.2.wavelen * p.source.2.value.im)
    (hback : p.way = p.source.1) :
    ∃ q, p.beam_q Real.pi rsqrt c = .ok q ∧ q.value = p.source.2.value ∧ q.wavelen = p.source.2.wavelen ∧
      ∃ r : ℝ, 0 < r ∧ toC q.gouy = r * toC p.source.2.gouy := by
  obtain ⟨a1, a2, a3⟩ := hp _ (source_mem p)
  obtain ⟨L, hL⟩ := leftOf a1 a2 a3
  obtain ⟨q, N, e1, e2, e3, e4, e5, r, hr, e6⟩ := C150_chain hw p hp hq hL (hback ▸ hL)
  obtain ⟨t, -, -, -, c2, -⟩ := hL
  have hN : N = Mat.eye := by
    refine cancel (det_prod (before_WF hw c2)) ?_
    rw [mat_mul_def] at e2
    rw [e2, mat_eye_def, one_mul]
  subst hN
  refine ⟨q, e1, ?_, by rw [e4]; simp [Mat.eye, Mat.det], r, hr, by rw [e6]; simp [Mat.eye]⟩
  have : toC q.value = toC p.source.2.value := by rw [e3]; simp [Mat.eye]
  have := toC_inj.mp this
  cases h2 : q.value; cases h3 : p.source.2.value
  rw [h2, h3] at this
  exact congrArg₂ Cx.mk this.1 this.2

end PTarget

/-! A layout with a lens and three targets. -/

noncomputable def lensed : Comp ℝ :=
  .sys [0, 0, 1, 1, 3, 3] [.thin .target false, .space 1 1, .thin (.lens (some (1 / 2))) false, .space 2 1, .thin .target false,
    .thin .target false]

/-- A beam at the first target, projected to the last, to the middle one and back. -/
noncomputable def chain : PTarget ℝ :=
  .projected [.at 0] (.projected [.at 4] (.projected [.at 5] (.given [.at 0] ⟨⟨0, 1⟩, 1, ⟨1, 0⟩⟩) none) none) none

example : WF lensed ∧ PTarget.Live lensed chain ∧ 0 < chain.source.2.wavelen * chain.source.2.value.im ∧ chain.way = chain.source.1 := by
  refine ⟨?_, ?_, ?_, rfl⟩
  · simp [lensed, WF, WFL, leavesL, leaves, Leaf.WF]
  · intro w hw
    simp only [chain, PTarget.ways, List.mem_cons, List.not_mem_nil, or_false] at hw
    rcases hw with rfl | rfl | rfl | rfl <;> simp [Unmounted, lensed, Comp.part]
  · simp [chain, PTarget.source]

end Alm
