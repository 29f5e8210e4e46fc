import Verif.Layout.Memo
import Mathlib.Algebra.Order.Ring.Rat
import Mathlib.Algebra.Field.Rat

/-!
# C38: layout matrices compose along any path
-/

set_option linter.unusedSectionVars false

namespace Alm
open Py

variable {V : Type} [Field V] [DecidableEq V]

namespace Comp

/-- The results stored after a sequence of queries to a new layout (whether they were answered or raised). -/
def history (c : Comp V) : List (Tgt × Tgt) → Memo V
  | [] => []
  | q :: qs => (matrix_between c q.1 q.2 (history c qs)).2

theorem history_good {c : Comp V} (hw : WF c) (qs : List (Tgt × Tgt)) : Good c (history c qs) := by
  induction qs with
  | nil =>
    intro p d t1 t2 a _ h
    exact absurd h (by simp [history, Dict.get?])
  | cons q qs ih => exact (between_spec c c [] rfl hw q.1 q.2 _ ih).1

theorem history_same (c : Comp V) (qs : List (Tgt × Tgt)) : Same c (history c qs) := by
  induction qs with
  | nil =>
    intro p d t1 t2 a _ h
    exact absurd h (by simp [history, Dict.get?])
  | cons q qs ih =>
    obtain ⟨r, _, h⟩ := between_same c c [] rfl q.1 q.2
    exact (h _ ih).1

/-- C38: after any queries, the matrix between two targets is the one that takes the rays arriving at the first to the rays arriving at
the second: `M * (everything left of t1) = (everything left of t2)`. -/
theorem C38_path {c : Comp V} (hw : WF c) (qs : List (Tgt × Tgt)) {t1 t2 : Tgt} {L1 L2 : List (Leaf V)}
    (h1 : before c t1 = some L1) (h2 : before c t2 = some L2) :
    ∃ a : Arr V, (matrix_between c t1 t2 (history c qs)).1 = .ok a ∧ Mat.mul a.m (prod L1) = prod L2 := by
  obtain ⟨a, ha, _, ham⟩ := (between_spec c c [] rfl hw t1 t2 _ (history_good hw qs)).2 L1 L2 h1 h2
  exact ⟨a, ha, ham⟩

/-- C38: `matrix_between(b, c) * matrix_between(a, b) = matrix_between(a, c)`, each asked at any time.  (Partial: the optical parameters
are nonzero, there is no empty system and no thin lens without a focal length, and the targets are not the index-0 targets of a mount;
see `C38_empty_refuted`, `C38_no_focal_refuted` and `C38_mount_refuted`.) -/
theorem C38_compose_partial {s : Comp V} (hw : WF s) (q1 q2 q3 : List (Tgt × Tgt)) {a b c : Tgt}
    (ha : before s a ≠ none) (hb : before s b ≠ none) (hc : before s c ≠ none) :
    ∃ ab bc ac : Arr V, (matrix_between s a b (history s q1)).1 = .ok ab ∧ (matrix_between s b c (history s q2)).1 = .ok bc ∧
      (matrix_between s a c (history s q3)).1 = .ok ac ∧ Mat.mul bc.m ab.m = ac.m := by
  obtain ⟨La, hLa⟩ := Option.ne_none_iff_exists'.mp ha
  obtain ⟨Lb, hLb⟩ := Option.ne_none_iff_exists'.mp hb
  obtain ⟨Lc, hLc⟩ := Option.ne_none_iff_exists'.mp hc
  obtain ⟨ab, h1, h2⟩ := C38_path hw q1 hLa hLb
  obtain ⟨bc, h3, h4⟩ := C38_path hw q2 hLb hLc
  obtain ⟨ac, h5, h6⟩ := C38_path hw q3 hLa hLc
  refine ⟨ab, bc, ac, h1, h3, h5, ?_⟩
  rw [mat_mul_def] at h2 h4 h6 ⊢
  refine cancel (det_prod (before_WF hw hLa)) ?_
  rw [mul_assoc, h2, h4, h6]

/-- C38: `matrix_between(a, a)` is the identity. -/
theorem C38_identity {s : Comp V} (hw : WF s) (qs : List (Tgt × Tgt)) {a : Tgt} (ha : before s a ≠ none) :
    ∃ m : Arr V, (matrix_between s a a (history s qs)).1 = .ok m ∧ m.m = Mat.eye := by
  obtain ⟨La, hLa⟩ := Option.ne_none_iff_exists'.mp ha
  obtain ⟨m, h1, h2⟩ := C38_path hw qs hLa hLa
  refine ⟨m, h1, cancel (det_prod (before_WF hw hLa)) ?_⟩
  rw [mat_mul_def] at h2
  rw [h2, mat_eye_def, one_mul]

/-- C38: the answer after any queries is the answer of a new layout, for every layout and every pair of targets, also when it is an
exception. -/
theorem C38_memo (c : Comp V) (qs : List (Tgt × Tgt)) (t1 t2 : Tgt) :
    (matrix_between c t1 t2 (history c qs)).1 = (matrix_between c t1 t2 []).1 := by
  obtain ⟨r, _, h⟩ := between_same c c [] rfl t1 t2
  have h1 := (h _ (history_same c qs)).2
  have h2 := (h _ (history_same c [])).2
  exact h1.trans h2.symm

/-! The hypotheses can be met: a nested layout with a lens, a plano-convex lens (a stack of two interfaces and a space), a mirror and
targets. -/

/-- A layout with a nested stack. -/
def demo : Comp ℚ :=
  .sys [0, 0, 1, 1, 3, 3, 4] [
    .thin .target false,
    .space 1 1,
    .thin (.lens (some (1 / 2))) false,
    .space 2 1,
    .sys [0, 0, 1, 1] [.thin (.interface 1 (3 / 2) (some 2)) false, .space 1 (3 / 2), .thin (.interface (3 / 2) 1 none) false],
    .mount (.thin (.mirror (some 4)) true)]

example : WF demo := by
  simp [demo, WF, WFL, leavesL, leaves, Leaf.WF]

example : before demo [.idx 0, .qTarget] ≠ none ∧ before demo [.idx 4, .idx 1, .right] ≠ none ∧
    before demo [.idx 5, .idx 1, .left] ≠ none := by
  simp [demo, before, beforeL]

example : (matrix_between demo [.idx 0, .qTarget] [.idx 4, .idx 1, .right]
    (history demo [([.right], [.left]), ([.idx 0, .qTarget], [.idx 4, .idx 1, .right])])).1 =
    .ok (.mx ⟨-32 / 9, -4 / 3, -5 / 6, -1 / 2⟩) := by
  decide +kernel

/-- C38 refuted for a system without elements: from right to left it raises `np.eye(2)` to the power -1 entry by entry, which divides by
zero (numpy: infinite entries), although from left to right the matrix is the identity. -/
theorem C38_empty_refuted :
    (matrix_between (.sys [0] [] : Comp ℚ) [.left] [.right] []).1 = .ok (.nd ⟨1, 0, 0, 1⟩) ∧
    (matrix_between (.sys [0] [] : Comp ℚ) [.right] [.left] []).1 = .error .zeroDivision := by
  constructor <;> decide +kernel

/-- C38 refuted for a thin lens without a focal length: it is passed from left to right, but not back. -/
theorem C38_no_focal_refuted :
    (matrix_between (.thin (.lens none) false : Comp ℚ) [.left] [.right] []).1 = .ok (.mx ⟨1, 0, 0, 1⟩) ∧
    (matrix_between (.thin (.lens none) false : Comp ℚ) [.right] [.left] []).1 = .error .typeError := by
  constructor <;> decide +kernel

/-- C38 refuted for the target of a mount itself (index 0): from the left end to it and from it to the right end nothing happens,
although in between there is a lens; from it to itself is not implemented; a target within the mounted system gives the same
whether the other one is marked 0 or 1. -/
theorem C38_mount_refuted :
    (matrix_between (.mount (.thin (.lens (some 1)) false) : Comp ℚ) [.left] [.idx 0, .targetMount] []).1 = .ok (.mx ⟨1, 0, 0, 1⟩) ∧
    (matrix_between (.mount (.thin (.lens (some 1)) false) : Comp ℚ) [.idx 0, .targetMount] [.right] []).1 = .ok (.mx ⟨1, 0, 0, 1⟩) ∧
    (matrix_between (.mount (.thin (.lens (some 1)) false) : Comp ℚ) [.left] [.right] []).1 = .ok (.mx ⟨1, 0, -1, 1⟩) ∧
    (matrix_between (.mount (.thin (.lens (some 1)) false) : Comp ℚ) [.idx 0, .targetMount] [.idx 0, .targetMount] []).1 =
      .error .notImplemented ∧
    (matrix_between (.mount (.thin (.lens (some 1)) false) : Comp ℚ) [.idx 1, .left] [.idx 0, .right] []).1 =
      .ok (.mx ⟨1, 0, -1, 1⟩) := by
  refine ⟨?_, ?_, ?_, ?_, ?_⟩ <;> decide +kernel

end Comp
end Alm
