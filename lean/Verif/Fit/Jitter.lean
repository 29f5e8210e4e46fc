import Mathlib.Data.Real.Basic
import Mathlib.Algebra.BigOperators.Group.List.Basic
import Mathlib.Algebra.Order.BigOperators.Group.List
import Mathlib.Logic.Function.Basic
import Mathlib.Tactic.Ring
import Mathlib.Tactic.FieldSimp
import Mathlib.Tactic.Linarith
import Mathlib.Tactic.NormNum

/-!
# What fits with jittered parameters minimize (C154)

Source: `/repo/phasor/fitting/casadi/expressions.py` l.58-170, `/repo/phasor/fitting/casadi/symbolics.py` l.112-136,
`/repo/phasor/fitting/casadi/base.py` l.12-24.
-/

namespace Fit

/-! ## model -/

section Model
variable {ι : Type} [DecidableEq ι]

/-- A scalar expression, as a function of the values of the symbols; symbols are real. -/
abbrev Expr (ι : Type) := (ι → ℝ) → ℝ

/-- An entry of `sbunches_w_trans`, l.62-67: a symbol and its transforms, as functions of the value. -/
structure SBunch (ι : Type) where
  symbol : ι
  transforms : List (ℝ → ℝ)

/-- `FitterSymJitterPlacement.transforms`, symbolics.py l.121-125. -/
def placement (shift : ℝ) : List (ℝ → ℝ) := [fun v => v + shift, fun v => v - shift]

/-- `FitterSymJitterRelative.transforms`, symbolics.py l.132-136. -/
noncomputable def relative (percent : ℝ) : List (ℝ → ℝ) := [fun v => v * (1 + percent / 100), fun v => v / (1 + percent / 100)]

/-- `t_eval`, l.87-100: `casadi.graph_substitute` of the symbol by the transform of it. -/
def t_eval (f : Expr ι) (i : ι) (t : ℝ → ℝ) : Expr ι := fun x => f (Function.update x i (t (x i)))

/-- The loops l.123-132 over the bunches; the inner loop l.128 counts the bunches that come after and l.129-131 use the outer bunch. -/
def doubles (f : Expr ι) : List (SBunch ι) → List (Expr ι)
  | [] => []
  | b :: rest => b.transforms.flatMap (fun t => t_eval f b.symbol t ::
      rest.flatMap (fun _ => b.transforms.map (fun t' => t_eval (t_eval f b.symbol t) b.symbol t'))) ++ doubles f rest

/-- `expr_combine` after l.136; bunches without transforms are left out, l.65. -/
def expr_combine (f : Expr ι) (bs : List (SBunch ι)) : List (Expr ι) :=
  doubles f (bs.filter (fun b => b.transforms ≠ [])) ++ [f]

/-- A turn of the loop l.140-144. -/
def halve {M : Type} [Add M] : List M → List M
  | a :: b :: l => (a + b) :: halve l
  | l => l

theorem halve_length {M : Type} [Add M] : ∀ l : List M, (halve l).length = (l.length + 1) / 2
  | [] => by simp [halve]
  | [_] => by simp [halve]
  | a :: b :: l => by
    rw [halve, List.length_cons, halve_length l, List.length_cons, List.length_cons]
    omega

/-- The loop l.140-144 and l.146; the list has an entry. -/
def combine {M : Type} [Add M] [Zero M] (l : List M) : M :=
  if 1 < l.length then combine (halve l) else l.headD 0
termination_by l.length
decreasing_by rw [halve_length]; omega

/-- `expression_remapped.expr`, l.58-170, for scalar expressions, without remappers (l.149). -/
noncomputable def expression_remapped (f : Expr ι) (bs : List (SBunch ι)) : Expr ι :=
  fun x => combine (expr_combine f bs) x / (expr_combine f bs).length

/-- `casadi_sparsity_ravel`, base.py l.12-13: columns as lists. -/
def ravel {V : Type} (vs : List (List V)) : List V := vs.flatten

/-- `casadi_sparsity_unravel`, base.py l.15-24, from the index `idx` on; the symbols by their `shape[0]`. -/
def unravel {V : Type} (ret : List V) : List ℕ → ℕ → List (List V)
  | [], _ => []
  | n :: ns, idx => ((ret.drop idx).take n) :: unravel ret ns (idx + n)

end Model

/-! ## the sum -/

theorem halve_sum {M : Type} [AddMonoid M] : ∀ l : List M, (halve l).sum = l.sum
  | [] => rfl
  | [_] => rfl
  | a :: b :: l => by rw [halve, List.sum_cons, halve_sum l, List.sum_cons, List.sum_cons, add_assoc]

theorem combine_sum {M : Type} [AddMonoid M] (l : List M) : combine l = l.sum := by
  induction hn : l.length using Nat.strong_induction_on generalizing l with
  | _ n ih =>
    rw [combine]
    split_ifs with h
    · rw [ih (halve l).length (by rw [halve_length]; omega) _ rfl, halve_sum]
    · match l, h with
      | [], _ => rfl
      | [a], _ => simp
      | a :: b :: l, h => simp at h

variable {ι : Type} [DecidableEq ι] {f g : Expr ι} {bs : List (SBunch ι)}

theorem sum_apply {x : ι → ℝ} (l : List (Expr ι)) : l.sum x = (l.map (fun e => e x)).sum := by
  induction l with
  | nil => rfl
  | cons e l ih => rw [List.sum_cons, List.map_cons, List.sum_cons, ← ih]; rfl

/-- All that is averaged over: the expression where one parameter is moved. -/
theorem mem_doubles {bs : List (SBunch ι)} {e : Expr ι} (h : e ∈ doubles f bs) :
    ∃ b ∈ bs, (∃ t ∈ b.transforms, e = t_eval f b.symbol t) ∨
      ∃ t ∈ b.transforms, ∃ t' ∈ b.transforms, e = t_eval (t_eval f b.symbol t) b.symbol t' := by
  induction bs with
  | nil => simp [doubles] at h
  | cons b rest ih =>
    rw [doubles, List.mem_append, List.mem_flatMap] at h
    rcases h with ⟨t, ht, h⟩ | h
    · rcases List.mem_cons.1 h with rfl | h
      · exact ⟨b, List.mem_cons_self, Or.inl ⟨t, ht, rfl⟩⟩
      · obtain ⟨_, _, h⟩ := List.mem_flatMap.1 h
        obtain ⟨t', ht', rfl⟩ := List.mem_map.1 h
        exact ⟨b, List.mem_cons_self, Or.inr ⟨t, ht, t', ht', rfl⟩⟩
    · obtain ⟨b', hb', h⟩ := ih h
      exact ⟨b', List.mem_cons_of_mem _ hb', h⟩

theorem t_eval_twice (i : ι) (t t' : ℝ → ℝ) (x : ι → ℝ) :
    t_eval (t_eval f i t) i t' x = f (Function.update x i (t (t' (x i)))) := by
  unfold t_eval
  rw [Function.update_self, Function.update_idem]

/-! ## C154 -/

/-- **C154, mean.**  What is minimized is the mean of expressions: their number is that of the list, the sums in pairs lose none, and the expression without
jitter is among them. -/
theorem C154_mean (f : Expr ι) (bs : List (SBunch ι)) (x : ι → ℝ) :
    expression_remapped f bs x = ((expr_combine f bs).map (fun e => e x)).sum / (expr_combine f bs).length ∧ f ∈ expr_combine f bs := by
  refine ⟨?_, List.mem_append_right _ (List.mem_singleton_self _)⟩
  unfold expression_remapped
  rw [combine_sum, sum_apply]

/-- **C154, sums in pairs.**  The loop adds up lists of any length, in their order. -/
theorem C154_sum {M : Type} [AddMonoid M] (l : List M) : combine l = l.sum := combine_sum l

/-- **C154, no jitter.**  Without transforms the expression is minimized. -/
theorem C154_plain (h : ∀ b ∈ bs, b.transforms = []) : expression_remapped f bs = f := by
  have e : bs.filter (fun b => b.transforms ≠ []) = [] := by
    rw [List.filter_eq_nil_iff]
    intro b hb
    simp [h b hb]
  funext x
  rw [(C154_mean f bs x).1]
  unfold expr_combine
  rw [e]
  simp [doubles]

/-- **C154, one parameter.**  With one jittered parameter the mean is that of the expression and of all its jitters, each once. -/
theorem C154_one (i : ι) (ts : List (ℝ → ℝ)) (f : Expr ι) (x : ι → ℝ) :
    expression_remapped f [⟨i, ts⟩] x = ((ts.map (fun t => f (Function.update x i (t (x i))))).sum + f x) / (ts.length + 1) := by
  rw [(C154_mean f _ x).1]
  by_cases hts : ts = []
  · subst hts
    simp [expr_combine, doubles]
  · have e : expr_combine f [⟨i, ts⟩] = ts.map (t_eval f i) ++ [f] := by
      have e : ∀ ts : List (ℝ → ℝ), ts.flatMap (fun t => [t_eval f i t]) = ts.map (t_eval f i) := by
        intro ts
        induction ts with
        | nil => rfl
        | cons t ts ih => rw [List.flatMap_cons, ih]; rfl
      simp [expr_combine, doubles, hts, e]
    rw [e]
    simp [t_eval, Function.comp_def]

/-- **C154, bounds.**  The mean is within the bounds of the expression, so an expression that does not depend on the parameters stays as it is. -/
theorem C154_bounds {lo hi : ℝ} (h : ∀ x, lo ≤ f x ∧ f x ≤ hi) (bs : List (SBunch ι)) (x : ι → ℝ) :
    lo ≤ expression_remapped f bs x ∧ expression_remapped f bs x ≤ hi := by
  have hm : ∀ e ∈ expr_combine f bs, lo ≤ e x ∧ e x ≤ hi := by
    intro e he
    rcases List.mem_append.1 he with he | he
    · obtain ⟨b, _, ⟨t, _, rfl⟩ | ⟨t, _, t', _, rfl⟩⟩ := mem_doubles he
      · exact h _
      · exact h _
    · rw [List.mem_singleton.1 he]
      exact h x
  have hp : (0 : ℝ) < (expr_combine f bs).length := by
    rw [Nat.cast_pos]
    exact List.length_pos_of_mem (C154_mean f bs x).2
  have main : ∀ l : List (Expr ι), (∀ e ∈ l, lo ≤ e x ∧ e x ≤ hi) →
      lo * l.length ≤ (l.map (fun e => e x)).sum ∧ (l.map (fun e => e x)).sum ≤ hi * l.length := by
    intro l
    induction l with
    | nil => simp
    | cons e l ih =>
      intro hl
      obtain ⟨a, b⟩ := ih fun e he => hl e (List.mem_cons_of_mem _ he)
      obtain ⟨c, d⟩ := hl e List.mem_cons_self
      simp only [List.map_cons, List.sum_cons, List.length_cons, Nat.cast_add, Nat.cast_one]
      constructor <;> linarith
  rw [(C154_mean f bs x).1, le_div_iff₀ hp, div_le_iff₀ hp]
  exact main _ hm

/-- **C154, refuted** for pairs: two parameters are never moved together.  What is minimized depends on the values of the expression where at most one
parameter is moved only, whatever the transforms. -/
theorem C154_pairs_refuted {x : ι → ℝ} (h : ∀ i v, f (Function.update x i v) = g (Function.update x i v)) (hx : f x = g x) (bs : List (SBunch ι)) :
    expression_remapped f bs x = expression_remapped g bs x := by
  have main : ∀ bs : List (SBunch ι), (doubles f bs).map (fun e => e x) = (doubles g bs).map (fun e => e x) := by
    intro bs
    induction bs with
    | nil => rfl
    | cons b rest ih =>
      simp only [doubles, List.map_append, ih, List.map_flatMap, List.map_cons, List.map_map, Function.comp_def]
      congr 1
      refine List.flatMap_congr fun t _ => ?_
      simp only [t_eval_twice]
      unfold t_eval
      simp only [h]
  have len : (expr_combine f bs).length = (expr_combine g bs).length := by
    have := congrArg List.length (main (bs.filter (fun b => b.transforms ≠ [])))
    simp only [List.length_map] at this
    simp only [expr_combine, List.length_append, this, List.length_cons, List.length_nil]
  rw [(C154_mean f bs x).1, (C154_mean g bs x).1, len]
  simp only [expr_combine, List.map_append, main, List.map_cons, List.map_nil, hx]

/-- **C154, two parameters.**  What is minimized with two parameters that are placed with shifts: the first is moved by its shift and by twice its shift, the
second by its shift, and the expression without jitter counts three times. -/
theorem C154_two (i j : ι) (s r : ℝ) (f : Expr ι) (x : ι → ℝ) :
    expression_remapped f [⟨i, placement s⟩, ⟨j, placement r⟩] x =
      (f (Function.update x i (x i + s)) + f (Function.update x i (x i - s)) + f (Function.update x i (x i + 2 * s)) +
        f (Function.update x i (x i - 2 * s)) + f (Function.update x j (x j + r)) + f (Function.update x j (x j - r)) + 3 * f x) / 9 := by
  rw [(C154_mean f _ x).1]
  simp only [expr_combine, placement, doubles, ne_eq, reduceCtorEq, not_false_eq_true, decide_true, List.filter_cons_of_pos, List.filter_nil,
    List.flatMap_cons, List.flatMap_nil, List.map_cons, List.map_nil, List.append_nil, List.cons_append, List.nil_append, List.sum_cons, List.sum_nil,
    List.length_cons, List.length_nil, t_eval_twice]
  have e1 : x i + s + s = x i + 2 * s := by ring
  have e2 : x i - s - s = x i - 2 * s := by ring
  simp only [t_eval, add_sub_cancel_right, sub_add_cancel, e1, e2, Function.update_eq_self]
  norm_num
  ring

/-- **C154, refuted** for the order: the same two parameters in the other order give another mean. -/
theorem C154_order_refuted : ∃ (f : Expr Bool) (x : Bool → ℝ),
    expression_remapped f [⟨false, placement 1⟩, ⟨true, placement 1⟩] x ≠ expression_remapped f [⟨true, placement 1⟩, ⟨false, placement 1⟩] x := by
  refine ⟨fun x => x false ^ 2, fun _ => 0, ?_⟩
  rw [C154_two, C154_two]
  norm_num [Function.update]

/-- What two parameters together would need: an expression that is not 0 only where both are moved has the mean 0. -/
example : expression_remapped (fun x : Bool → ℝ => x false ^ 2 * x true ^ 2) [⟨false, placement 1⟩, ⟨true, placement 1⟩] (fun _ => 0) = 0 ∧
    (fun x : Bool → ℝ => x false ^ 2 * x true ^ 2) (fun _ => 1) ≠ 0 := by
  refine ⟨?_, by norm_num⟩
  rw [C154_pairs_refuted (g := fun _ => 0)]
  · have := C154_bounds (f := fun _ : Bool → ℝ => 0) (lo := 0) (hi := 0) (fun _ => ⟨le_rfl, le_rfl⟩) [⟨false, placement 1⟩, ⟨true, placement 1⟩] (fun _ => 0)
    linarith [this.1, this.2]
  · intro i v
    cases i <;> simp [Function.update]
  · norm_num

/-- **C154, relative jitter.**  With one parameter with a relative jitter the expression is taken at the value with the percentage added, at the value of which
it is this sum, and at the value. -/
theorem C154_relative (i : ι) {c : ℝ} (hc : c ≠ -100) (f : Expr ι) (x : ι → ℝ) : ∃ u v, u = x i + x i * c / 100 ∧ x i = v + v * c / 100 ∧
    expression_remapped f [⟨i, relative c⟩] x = (f (Function.update x i u) + f (Function.update x i v) + f x) / 3 := by
  have h : 1 + c / 100 ≠ 0 := by
    intro h
    exact hc (by linarith)
  refine ⟨x i * (1 + c / 100), x i / (1 + c / 100), by ring, ?_, ?_⟩
  · have : x i / (1 + c / 100) + x i / (1 + c / 100) * c / 100 = x i / (1 + c / 100) * (1 + c / 100) := by ring
    rw [this, div_mul_cancel₀ _ h]
  · rw [C154_one]
    norm_num [relative]

/-- A relative jitter of the only parameter of an expression. -/
example : expression_remapped (fun x : Unit → ℝ => x ()) [⟨(), relative 100⟩] (fun _ => 2) = (4 + 1 + 2) / 3 := by
  rw [C154_one]
  norm_num [relative]

/-- **C154, vectors.**  What is put in a vector comes out of it again: lists of columns, each with the length of its symbol. -/
theorem C154_unravel {V : Type} (vs : List (List V)) : unravel (ravel vs) (vs.map List.length) 0 = vs := by
  have main : ∀ (vs : List (List V)) (pre : List V), unravel (pre ++ vs.flatten) (vs.map List.length) pre.length = vs := by
    intro vs
    induction vs with
    | nil => intro pre; rfl
    | cons v vs ih =>
      intro pre
      rw [List.map_cons, unravel, List.drop_left, List.flatten_cons, List.take_left]
      congr 1
      have := ih (pre ++ v)
      rwa [List.append_assoc, List.length_append] at this
  exact main vs []

end Fit
