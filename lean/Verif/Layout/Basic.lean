import Verif.Layout.Model
import Mathlib.Algebra.Group.Basic
import Mathlib.Algebra.Ring.Basic
import Mathlib.Algebra.Field.Basic
import Mathlib.Tactic.Ring
import Mathlib.Tactic.FieldSimp
import Mathlib.Tactic.LinearCombination

/-!
# The light path through a layout

What the matrices of a layout should be, from the flat list of optical elements that the light passes: `leaves` lists the elements of a
layout from left to right, `before` those to the left of a target, `prod` multiplies their matrices.
-/

set_option linter.unusedSectionVars false

namespace Alm
open Py

variable {V : Type} [Field V] [DecidableEq V]

instance : Monoid (Mat V) where
  mul := Mat.mul
  one := Mat.eye
  mul_assoc a b c := by
    show Mat.mul (Mat.mul a b) c = Mat.mul a (Mat.mul b c)
    unfold Mat.mul
    congr 1 <;> ring
  one_mul a := by
    show Mat.mul Mat.eye a = a
    unfold Mat.mul Mat.eye
    cases a
    congr 1 <;> ring
  mul_one a := by
    show Mat.mul a Mat.eye = a
    unfold Mat.mul Mat.eye
    cases a
    congr 1 <;> ring

theorem mat_mul_def (a b : Mat V) : Mat.mul a b = a * b := rfl
theorem mat_eye_def : (Mat.eye : Mat V) = 1 := rfl

/-- The determinant. -/
def Mat.det (m : Mat V) : V := m.a * m.d - m.b * m.c

theorem det_mul (a b : Mat V) : (a * b).det = a.det * b.det := by
  show (Mat.mul a b).det = _
  unfold Mat.det Mat.mul
  ring

theorem det_one : (1 : Mat V).det = 1 := by
  show (Mat.eye : Mat V).det = 1
  unfold Mat.det Mat.eye
  ring

theorem inv_ok {m : Mat V} (h : m.det ≠ 0) : ∃ n : Mat V, Mat.inv m = .ok n ∧ m * n = 1 ∧ n * m = 1 := by
  have hd : m.a * m.d - m.b * m.c ≠ 0 := h
  refine ⟨⟨m.d / (m.a * m.d - m.b * m.c), -m.b / (m.a * m.d - m.b * m.c), -m.c / (m.a * m.d - m.b * m.c),
    m.a / (m.a * m.d - m.b * m.c)⟩, if_neg hd, ?_, ?_⟩
  · show Mat.mul m _ = Mat.eye
    unfold Mat.mul Mat.eye
    congr 1 <;>
    · simp only [mul_div_assoc']
      rw [← add_div, div_eq_iff hd]
      ring
  · show Mat.mul _ m = Mat.eye
    unfold Mat.mul Mat.eye
    congr 1 <;>
    · simp only [div_mul_eq_mul_div]
      rw [← add_div, div_eq_iff hd]
      ring

/-- A matrix that is invertible can be cancelled on the right. -/
theorem cancel {a b m : Mat V} (h : m.det ≠ 0) (hab : a * m = b * m) : a = b := by
  obtain ⟨n, _, hn, _⟩ := inv_ok h
  have := congrArg (· * n) hab
  simpa [mul_assoc, hn] using this

/-- An optical element. -/
inductive Leaf (V : Type)
  | thin (t : Thin V) (rev : Bool)
  | space (L n : V)

namespace Leaf

/-- The optical parameters are nonzero. -/
def WF : Leaf V → Prop
  | .thin .nop _ => True
  | .thin (.lens f) _ => ∃ x, f = some x ∧ x ≠ 0
  | .thin (.interface n_from n_to R) _ => n_from ≠ 0 ∧ n_to ≠ 0 ∧ R ≠ some 0
  | .thin (.mirror R) _ => R ≠ some 0
  | .thin (.abcd A _ _) _ => A ≠ 0
  | .thin .target _ => True
  | .space _ n => n ≠ 0

/-- The curvature of a surface: none is flat. -/
def curv : Option V → V
  | some R => 1 / R
  | none => 0

/-- The ray matrix (for position and angle) of an optical element: nothing, a thin lens, a refracting surface from index `n` into
`n'` of radius `R` (seen from the other side when reversed: the indices swap and the radius changes its sign), a mirror, a general
element of determinant one, a space of length `L` and index `n`. -/
def abcd : Leaf V → Mat V
  | .thin .nop _ => ⟨1, 0, 0, 1⟩
  | .thin (.lens f) _ => ⟨1, 0, -curv f, 1⟩
  | .thin (.interface n n' R) false => ⟨1, 0, (n - n') / n' * curv R, n / n'⟩
  | .thin (.interface n n' R) true => ⟨1, 0, (n - n') / n * curv R, n' / n⟩
  | .thin (.mirror R) _ => ⟨1, 0, -2 * curv R, 1⟩
  | .thin (.abcd A B C) _ => ⟨A, B, C, (1 + B * C) / A⟩
  | .thin .target _ => ⟨1, 0, 0, 1⟩
  | .space L n => ⟨1, L / n, 0, 1⟩

/-- The length of an optical element. -/
def length : Leaf V → V
  | .thin _ _ => 0
  | .space L _ => L

end Leaf

/-- The matrix of a list of elements, the first being passed first. -/
def prod : List (Leaf V) → Mat V
  | [] => 1
  | x :: l => prod l * x.abcd

theorem prod_append (l m : List (Leaf V)) : prod (l ++ m) = prod m * prod l := by
  induction l with
  | nil => simp [prod]
  | cons x l ih => simp [prod, ih, mul_assoc]

namespace Comp

mutual
/-- The elements of a layout, from left to right. -/
def leaves : Comp V → List (Leaf V)
  | .thin t rev => [.thin t rev]
  | .space L n => [.space L n]
  | .sys _ filled => leavesL filled
  | .mount sub => leaves sub

/-- The elements of a list of layouts. -/
def leavesL : List (Comp V) → List (Leaf V)
  | [] => []
  | c :: l => leaves c ++ leavesL l
end

mutual
/-- The elements to the left of a target; `none` when there is no such target.  Targets are the two ends of every component, the
`q_target` of a beam target, and targets within the parts of a system or mount. -/
def before : Comp V → Tgt → Option (List (Leaf V))
  | .thin t rev, tgt =>
    if tgt = [.left] then some []
    else if tgt = [.right] then some [.thin t rev]
    else if t = .target ∧ tgt = [.qTarget] then some []
    else none
  | .space L n, tgt =>
    if tgt = [.left] then some []
    else if tgt = [.right] then some [.space L n]
    else none
  | .sys _ filled, tgt =>
    if tgt = [.left] then some []
    else if tgt = [.right] then some (leavesL filled)
    else
      match tgt with
      | .idx i :: inner => beforeL filled i inner
      | _ => none
  | .mount sub, tgt =>
    if tgt = [.left] then some []
    else if tgt = [.right] then some (leaves sub)
    else
      match tgt with
      | .idx (_ + 1) :: inner => before sub inner
      | _ => none

/-- The elements to the left of a target within the `i`-th of a list of layouts. -/
def beforeL : List (Comp V) → Nat → Tgt → Option (List (Leaf V))
  | [], _, _ => none
  | c :: _, 0, tgt => before c tgt
  | c :: l, i + 1, tgt => (beforeL l i tgt).map (fun x => leaves c ++ x)
end

mutual
/-- The optical parameters are nonzero and no system is empty. -/
def WF : Comp V → Prop
  | .thin t rev => (Leaf.thin t rev).WF
  | .space L n => (Leaf.space L n).WF
  | .sys _ filled => leavesL filled ≠ [] ∧ WFL filled
  | .mount sub => WF sub

/-- The same for each of a list. -/
def WFL : List (Comp V) → Prop
  | [] => True
  | c :: l => WF c ∧ WFL l
end

mutual
/-- Induction over layouts. -/
theorem ind {P : Comp V → Prop} (thin : ∀ t rev, P (.thin t rev)) (space : ∀ L n, P (.space L n))
    (sys : ∀ pos l, (∀ c ∈ l, P c) → P (.sys pos l)) (mount : ∀ s, P s → P (.mount s)) : ∀ c, P c
  | .thin t rev => thin t rev
  | .space L n => space L n
  | .sys pos l => sys pos l (indL thin space sys mount l)
  | .mount s => mount s (ind thin space sys mount s)

/-- Induction over the members of a list. -/
theorem indL {P : Comp V → Prop} (thin : ∀ t rev, P (.thin t rev)) (space : ∀ L n, P (.space L n))
    (sys : ∀ pos l, (∀ c ∈ l, P c) → P (.sys pos l)) (mount : ∀ s, P s → P (.mount s)) : ∀ l : List (Comp V), ∀ c ∈ l, P c
  | [], c, hc => absurd hc (List.not_mem_nil)
  | d :: l, c, hc => by
    rcases List.mem_cons.mp hc with h | h
    · rw [h]
      exact ind thin space sys mount d
    · exact indL thin space sys mount l c h
end

theorem WFL_iff (l : List (Comp V)) : WFL l ↔ ∀ c ∈ l, WF c := by
  induction l with
  | nil => simp [WFL]
  | cons c l ih => simp [WFL, ih]

theorem leavesL_append (l m : List (Comp V)) : leavesL (l ++ m) = leavesL l ++ leavesL m := by
  induction l with
  | nil => rfl
  | cons c l ih => simp [leavesL, ih]

theorem before_left (c : Comp V) : before c [.left] = some [] := by
  cases c <;> simp [before]

theorem before_right (c : Comp V) : before c [.right] = some (leaves c) := by
  cases c <;> simp [before, leaves]

theorem beforeL_eq (l : List (Comp V)) (i : Nat) (tgt : Tgt) :
    beforeL l i tgt = (l[i]?).bind (fun c => (before c tgt).map (fun x => leavesL (l.take i) ++ x)) := by
  induction l generalizing i with
  | nil => simp [beforeL]
  | cons c l ih =>
    cases i with
    | zero => simp [beforeL, leavesL]
    | succ i =>
      simp only [beforeL, ih, List.getElem?_cons_succ, List.take_succ_cons, leavesL]
      cases l[i]? with
      | none => rfl
      | some d =>
        simp only [Option.bind_some]
        cases before d tgt <;> simp

end Comp
end Alm
