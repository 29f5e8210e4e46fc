import Verif.Layout.Basic
import Mathlib.Algebra.BigOperators.Group.List.Basic
import Mathlib.Data.List.Forall2
import Mathlib.Algebra.Order.Ring.Rat
import Mathlib.Algebra.Field.Rat
import Mathlib.Data.List.Perm.Basic

/-!
# C39: positions tile the layout
-/

set_option linter.unusedSectionVars false

namespace Alm
open Py

variable {V : Type} [Field V]

/-- The positions start at 0 and each component starts where the one before it ends. -/
def Tiles (pos : List V) (filled : List (Comp V)) : Prop :=
  pos.length = filled.length + 1 ∧ pos[0]? = some 0 ∧
    ∀ (i : Nat) (c : Comp V), filled[i]? = some c → ∃ p, pos[i]? = some p ∧ pos[i + 1]? = some (p + c.width)

theorem stack_positions_length (p : V) (l : List (Comp V)) : (stack_positions p l).length = l.length + 1 := by
  induction l generalizing p with
  | nil => rfl
  | cons c l ih => simp [stack_positions, ih]

theorem stack_positions_zero (p : V) (l : List (Comp V)) : (stack_positions p l)[0]? = some p := by
  cases l <;> rfl

theorem stack_positions_headD (p x : V) (l : List (Comp V)) : (stack_positions p l).headD x = p := by
  cases l <;> rfl

theorem stack_positions_succ (p : V) (l : List (Comp V)) (i : Nat) (c : Comp V) (h : l[i]? = some c) :
    ∃ q, (stack_positions p l)[i]? = some q ∧ (stack_positions p l)[i + 1]? = some (q + c.width) := by
  induction l generalizing p i with
  | nil => simp at h
  | cons d l ih =>
    cases i with
    | zero =>
      cases Option.some.inj h
      refine ⟨p, rfl, ?_⟩
      simp [stack_positions, stack_positions_zero]
    | succ i =>
      obtain ⟨q, h1, h2⟩ := ih (p + d.width) i (by simpa using h)
      exact ⟨q, by simpa [stack_positions] using h1, by simpa [stack_positions] using h2⟩

theorem stack_positions_last (p x : V) (l : List (Comp V)) : (stack_positions p l).getLastD x = p + (l.map Comp.width).sum := by
  induction l generalizing p with
  | nil => simp [stack_positions]
  | cons c l ih =>
    rw [stack_positions]
    have : stack_positions (p + c.width) l ≠ [] := by
      intro h
      have := congrArg List.length h
      rw [stack_positions_length] at this
      exact absurd this (by simp)
    have h2 := ih (p + c.width)
    rw [List.getLastD_eq_getLast?, List.getLast?_eq_some_getLast this] at h2
    rw [List.getLastD_eq_getLast?, List.getLast?_cons, List.getLast?_eq_some_getLast this]
    simp only [Option.getD_some] at h2 ⊢
    rw [h2, List.map_cons, List.sum_cons, add_assoc]

theorem stack_positions_shift (p o : V) (l : List (Comp V)) :
    (stack_positions p l).map (fun x => x - o) = stack_positions (p - o) l := by
  induction l generalizing p with
  | nil => rfl
  | cons c l ih =>
    simp only [stack_positions, List.map_cons, ih]
    congr 2
    ring

theorem stack_positions_snoc (p : V) (l : List (Comp V)) (c : Comp V) (pos : List V) (q : V) (h : pos ++ [q] = stack_positions p l) :
    pos ++ [q, q + c.width] = stack_positions p (l ++ [c]) := by
  induction l generalizing p pos with
  | nil =>
    have h' : pos ++ [q] = [] ++ [p] := h
    obtain ⟨rfl, h2⟩ := List.append_inj' h' rfl
    cases h2
    rfl
  | cons d l ih =>
    cases pos with
    | nil =>
      have := congrArg List.length h
      rw [stack_positions_length] at this
      simp at this
    | cons a pos =>
      rw [stack_positions, List.cons_append] at h
      obtain ⟨rfl, h2⟩ := List.cons.inj h
      rw [List.cons_append, List.cons_append, stack_positions, ih _ _ h2]

theorem tiles_stack (l : List (Comp V)) : Tiles (stack_positions 0 l) l :=
  ⟨stack_positions_length 0 l, stack_positions_zero 0 l, fun i c h => stack_positions_succ 0 l i c h⟩

theorem Tiles.unique {pos pos' : List V} {l : List (Comp V)} (h : Tiles pos l) (h' : Tiles pos' l) : pos = pos' := by
  have key : ∀ i, i ≤ l.length → pos[i]? = pos'[i]? := by
    intro i
    induction i with
    | zero => exact fun _ => h.2.1.trans h'.2.1.symm
    | succ i ih =>
      intro hi
      have hi' : i < l.length := by omega
      obtain ⟨p, h1, h2⟩ := h.2.2 i l[i] (List.getElem?_eq_getElem hi')
      obtain ⟨q, h3, h4⟩ := h'.2.2 i l[i] (List.getElem?_eq_getElem hi')
      have := ih (by omega)
      rw [h1, h3] at this
      rw [h2, h4, Option.some.inj this]
  apply List.ext_getElem?
  intro i
  by_cases hi : i ≤ l.length
  · exact key i hi
  · have h1 := h.1
    have h2 := h'.1
    rw [List.getElem?_eq_none (by omega), List.getElem?_eq_none (by omega)]

theorem Tiles.eq {pos : List V} {l : List (Comp V)} (h : Tiles pos l) : pos = stack_positions 0 l := h.unique (tiles_stack l)

/-- C39: the width of a tiled system is the sum of the widths of its components. -/
theorem C39_width {pos : List V} {filled : List (Comp V)} (h : Tiles pos filled) :
    (Comp.sys pos filled).width = (filled.map Comp.width).sum := by
  rw [h.eq, Comp.width, stack_positions_last, stack_positions_headD]
  ring

example : Tiles ([0, 0, 2] : List ℚ) [.thin .nop false, .space 2 1] := by
  have h := tiles_stack ([.thin .nop false, .space 2 1] : List (Comp ℚ))
  have e : stack_positions 0 ([.thin .nop false, .space 2 1] : List (Comp ℚ)) = [0, 0, 2] := by
    simp [stack_positions, Comp.width]
  rw [e] at h
  exact h

variable [LinearOrder V]

/-- Where a component is put: at its location, or with negative coordinates when the system is reversed. -/
def place (rev : Bool) (x : V × Comp V) : V := if ¬ rev then x.1 else -x.2.width - x.1

theorem fill_loop_some (rev : Bool) (n : V) (items : List (V × Comp V)) (p : V) :
    ∃ q, (fill_loop rev n (some p) items).2.2 = some q ∧
      (fill_loop rev n (some p) items).1 ++ [q] = stack_positions p (fill_loop rev n (some p) items).2.1 := by
  induction items generalizing p with
  | nil => exact ⟨p, rfl, rfl⟩
  | cons x l ih =>
    obtain ⟨loc, c⟩ := x
    obtain ⟨q, h1, h2⟩ := ih ((if ¬ rev then loc else -c.width - loc) + c.width)
    refine ⟨q, h1, ?_⟩
    simp only [fill_loop, List.cons_append, stack_positions, Comp.width]
    rw [h2]
    congr 1
    rw [add_sub_cancel]

theorem fill_loop_none (rev : Bool) (n : V) (x : V × Comp V) (l : List (V × Comp V)) :
    ∃ q, (fill_loop rev n none (x :: l)).2.2 = some q ∧
      (fill_loop rev n none (x :: l)).1 ++ [q] = stack_positions (place rev x) (fill_loop rev n none (x :: l)).2.1 := by
  obtain ⟨loc, c⟩ := x
  obtain ⟨q, h1, h2⟩ := fill_loop_some rev n l ((if ¬ rev then loc else -c.width - loc) + c.width)
  refine ⟨q, h1, ?_⟩
  simp only [fill_loop, List.cons_append, stack_positions, place]
  rw [h2]

theorem fill_loop_mem (rev : Bool) (n : V) (items : List (V × Comp V)) (prev : Option V) (x : V × Comp V) (hx : x ∈ items) :
    ∃ i : Nat, (fill_loop rev n prev items).2.1[i]? = some x.2 ∧ (fill_loop rev n prev items).1[i]? = some (place rev x) := by
  induction items generalizing prev with
  | nil => exact absurd hx List.not_mem_nil
  | cons y l ih =>
    obtain ⟨loc, c⟩ := y
    rcases List.mem_cons.mp hx with h | h
    · subst h
      cases prev with
      | none => exact ⟨0, rfl, rfl⟩
      | some p => exact ⟨1, rfl, rfl⟩
    · obtain ⟨i, h1, h2⟩ := ih (some ((if ¬ rev then loc else -c.width - loc) + c.width)) h
      cases prev with
      | none => exact ⟨i + 1, by simpa [fill_loop] using h1, by simpa [fill_loop] using h2⟩
      | some p => exact ⟨i + 2, by simpa [fill_loop] using h1, by simpa [fill_loop] using h2⟩

theorem fill_loop_only (rev : Bool) (n : V) (items : List (V × Comp V)) (prev : Option V) (d : Comp V)
    (hd : d ∈ (fill_loop rev n prev items).2.1) : (∃ x ∈ items, d = x.2) ∨ ∃ L, d = .space L n := by
  induction items generalizing prev with
  | nil => exact absurd hd List.not_mem_nil
  | cons y l ih =>
    obtain ⟨loc, c⟩ := y
    have rest : d ∈ (fill_loop rev n (some ((if ¬ rev then loc else -c.width - loc) + c.width)) l).2.1 →
        (∃ x ∈ (loc, c) :: l, d = x.2) ∨ ∃ L, d = .space L n := by
      intro h
      rcases ih _ h with ⟨x, hx, e⟩ | h
      · exact Or.inl ⟨x, List.mem_cons_of_mem _ hx, e⟩
      · exact Or.inr h
    cases prev with
    | none =>
      rcases List.mem_cons.mp hd with h | h
      · exact Or.inl ⟨_, List.mem_cons_self, h⟩
      · exact rest h
    | some p =>
      rcases List.mem_cons.mp hd with h | h
      · exact Or.inr ⟨_, h⟩
      rcases List.mem_cons.mp h with h | h
      · exact Or.inl ⟨_, List.mem_cons_self, h⟩
      · exact rest h

theorem except_bind_ok' {α β : Type} (a : α) (f : α → Except Err β) : (Except.ok a >>= f) = f a := rfl

/-! ## Sorting by location -/

theorem loc_insert_spec {a : V × Comp V} {l m : List (V × Comp V)} (h : loc_insert a l = .ok m)
    (hs : l.Pairwise (fun x y => x.1 < y.1)) : m.Perm (a :: l) ∧ m.Pairwise (fun x y => x.1 < y.1) := by
  induction l generalizing m with
  | nil =>
    cases h
    exact ⟨List.Perm.refl _, List.pairwise_singleton _ _⟩
  | cons b l ih =>
    rw [loc_insert, loc_lt] at h
    split at h
    · rename_i hab
      cases h
      refine ⟨List.Perm.refl _, List.pairwise_cons.mpr ⟨fun x hx => ?_, hs⟩⟩
      rcases List.mem_cons.mp hx with e | e
      · rw [e]
        exact hab
      · exact lt_trans hab ((List.pairwise_cons.mp hs).1 x e)
    split at h
    · rename_i hab hba
      cases hl : loc_insert a l with
      | error e =>
        rw [hl] at h
        cases h
      | ok k =>
        rw [hl] at h
        cases h
        obtain ⟨h1, h2⟩ := ih hl (List.pairwise_cons.mp hs).2
        refine ⟨(h1.cons b).trans (List.Perm.swap _ _ _), List.pairwise_cons.mpr ⟨fun x hx => ?_, h2⟩⟩
        rcases List.mem_cons.mp (h1.subset hx) with e | e
        · rw [e]
          exact hba
        · exact (List.pairwise_cons.mp hs).1 x e
    · cases h

theorem loc_sort_spec {l m : List (V × Comp V)} (h : loc_sort l = .ok m) :
    m.Perm l ∧ m.Pairwise (fun x y => x.1 < y.1) := by
  induction l generalizing m with
  | nil =>
    cases h
    exact ⟨List.Perm.refl _, List.Pairwise.nil⟩
  | cons a l ih =>
    rw [loc_sort] at h
    cases hl : loc_sort l with
    | error e =>
      rw [hl] at h
      cases h
    | ok k =>
      rw [hl] at h
      obtain ⟨h1, h2⟩ := ih hl
      obtain ⟨h3, h4⟩ := loc_insert_spec h h2
      exact ⟨h3.trans (h1.cons a), h4⟩

theorem loc_insert_ok {a : V × Comp V} {l : List (V × Comp V)} (h : ∀ b ∈ l, a.1 ≠ b.1) : ∃ m, loc_insert a l = .ok m := by
  induction l with
  | nil => exact ⟨_, rfl⟩
  | cons b l ih =>
    obtain ⟨m, hm⟩ := ih (fun b hb => h b (List.mem_cons_of_mem _ hb))
    rw [loc_insert, loc_lt]
    split
    · exact ⟨_, rfl⟩
    split
    · exact ⟨b :: m, by
        show (do let l ← loc_insert a l; Except.ok (b :: l)) = _
        rw [hm]
        rfl⟩
    · rename_i h1 h2
      exact absurd (le_antisymm (not_lt.mp h2) (not_lt.mp h1)) (h b List.mem_cons_self)

theorem loc_sort_ok {l : List (V × Comp V)} (h : l.Pairwise (fun x y => x.1 ≠ y.1)) : ∃ m, loc_sort l = .ok m := by
  induction l with
  | nil => exact ⟨_, rfl⟩
  | cons a l ih =>
    obtain ⟨h1, h2⟩ := List.pairwise_cons.mp h
    obtain ⟨k, hk⟩ := ih h2
    rw [loc_sort, hk]
    exact loc_insert_ok (fun b hb => h1 b ((loc_sort_spec hk).1.subset hb))

/-! ## Truncation -/

/-- Whether a location is between the boundaries. -/
def Within (bl br : Option V) (x : V) : Prop := (∀ b, bl = some b → b ≤ x) ∧ (∀ b, br = some b → x ≤ b)

theorem lslice_spec {b : V} {l : List (V × Comp V)} {k r : Nat} (hs : l.Pairwise (fun x y => x.1 < y.1)) (h : lslice b l k = .ok r) :
    k ≤ r ∧ (∀ x ∈ l.take (r - k), x.1 + x.2.width < b ∧ x.1 < b) ∧ (∀ x ∈ l.drop (r - k), b ≤ x.1) := by
  induction l generalizing k with
  | nil =>
    rw [lslice] at h
    split at h
    · cases h
    · cases h
      exact ⟨le_refl _, by simp, by simp⟩
  | cons y l ih =>
    obtain ⟨loc, c⟩ := y
    obtain ⟨h1, h2⟩ := List.pairwise_cons.mp hs
    rw [lslice] at h
    split at h
    · rename_i hb
      cases h
      refine ⟨le_refl _, by simp, ?_⟩
      rw [Nat.sub_self]
      intro x hx
      rcases List.mem_cons.mp hx with e | e
      · rw [e]
        exact hb
      · exact le_trans hb (le_of_lt (h1 x e))
    split at h
    · cases h
    · rename_i hb hb'
      obtain ⟨h3, h4, h5⟩ := ih h2 h
      have : r - k = (r - (k + 1)) + 1 := by omega
      rw [this]
      refine ⟨by omega, ?_, ?_⟩
      · intro x hx
        rcases List.mem_cons.mp hx with e | e
        · rw [e]
          exact ⟨not_le.mp hb', not_le.mp hb⟩
        · exact h4 x e
      · exact h5

theorem rslice_spec {b : V} {l : List (V × Comp V)} {r : Nat} (hs : l.Pairwise (fun x y => y.1 < x.1)) (h : rslice b l = .ok r) :
    r ≤ l.length ∧ (∀ x ∈ l.drop (l.length - r), x.1 ≤ b) ∧ (∀ x ∈ l.take (l.length - r), b < x.1) := by
  induction l with
  | nil =>
    cases h
    simp
  | cons y l ih =>
    obtain ⟨loc, c⟩ := y
    obtain ⟨h1, h2⟩ := List.pairwise_cons.mp hs
    rw [rslice] at h
    split at h
    · rename_i hb
      split at h
      · cases h
      · cases h
        refine ⟨le_refl _, ?_, ?_⟩
        · rw [List.length_cons, Nat.sub_self]
          intro x hx
          rcases List.mem_cons.mp hx with e | e
          · rw [e]
            exact hb
          · exact le_of_lt (lt_of_lt_of_le (h1 x e) hb)
        · simp
    · rename_i hb
      obtain ⟨h3, h4, h5⟩ := ih h2 h
      have : (((loc, c) :: l).length - r) = (l.length - r) + 1 := by
        rw [List.length_cons]
        omega
      rw [this]
      refine ⟨by rw [List.length_cons]; omega, h4, ?_⟩
      intro x hx
      rcases List.mem_cons.mp hx with e | e
      · rw [e]
        exact not_le.mp hb
      · exact h5 x e

/-- The components of the slice are those between the boundaries. -/
theorem sliced_spec {bl br : Option V} {comps : List (V × Comp V)} (hs : comps.Pairwise (fun x y => x.1 < y.1)) {l r : Nat}
    (hl : sys_lslice bl comps = .ok l)
    (hr : sys_rslice br comps = .ok r) (x : V × Comp V) :
    x ∈ (comps.take r).drop l ↔ x ∈ comps ∧ Within bl br x.1 := by
  have hL : (∀ b, bl = some b → ∀ y ∈ comps.take l, y.1 < b) ∧ (∀ b, bl = some b → ∀ y ∈ comps.drop l, b ≤ y.1) ∧
      (bl = none → l = 0) := by
    cases bl with
    | none =>
      cases hl
      simp
    | some b =>
      obtain ⟨_, h1, h2⟩ := lslice_spec hs hl
      refine ⟨?_, ?_, by simp⟩
      · intro b' hb' y hy
        cases hb'
        exact (h1 y hy).2
      · intro b' hb' y hy
        cases hb'
        exact h2 y hy
  have hR : (∀ b, br = some b → ∀ y ∈ comps.take r, y.1 ≤ b) ∧ (∀ b, br = some b → ∀ y ∈ comps.drop r, b < y.1) ∧
      (br = none → r = comps.length) := by
    cases br with
    | none =>
      cases hr
      simp
    | some b =>
      obtain ⟨h0, h1, h2⟩ := rslice_spec (by rw [List.pairwise_reverse]; exact hs) hr
      rw [List.length_reverse] at h0 h1 h2
      refine ⟨?_, ?_, by simp⟩
      · intro b' hb' y hy
        cases hb'
        refine h1 y ?_
        rw [List.drop_reverse, List.mem_reverse]
        have : comps.length - (comps.length - r) = r := by omega
        rw [this]
        exact hy
      · intro b' hb' y hy
        cases hb'
        refine h2 y ?_
        rw [List.take_reverse, List.mem_reverse]
        have : comps.length - (comps.length - r) = r := by omega
        rw [this]
        exact hy
  have split3 : ∀ y ∈ comps, y ∈ comps.take l ∨ y ∈ comps.drop r ∨ y ∈ (comps.take r).drop l := by
    intro y hy
    rw [← List.take_append_drop r comps] at hy
    rcases List.mem_append.mp hy with h | h
    · rw [← List.take_append_drop l (comps.take r)] at h
      rcases List.mem_append.mp h with h | h
      · rw [List.take_take] at h
        exact Or.inl ((List.take_sublist_take_left (Nat.min_le_left _ _)).subset h)
      · exact Or.inr (Or.inr h)
    · exact Or.inr (Or.inl h)
  constructor
  · intro hx
    have h1 : x ∈ comps.take r := List.mem_of_mem_drop hx
    have h2 : x ∈ comps.drop l := by
      rw [List.drop_take] at hx
      exact List.mem_of_mem_take hx
    exact ⟨List.mem_of_mem_take h1, fun b hb => hL.2.1 b hb x h2, fun b hb => hR.1 b hb x h1⟩
  · rintro ⟨hx, hw⟩
    rcases split3 x hx with h | h | h
    · cases bl with
      | none =>
        rw [hL.2.2 rfl] at h
        exact absurd h (by simp)
      | some b => exact absurd (hw.1 b rfl) (not_le.mpr (hL.1 b rfl x h))
    · cases br with
      | none =>
        rw [hR.2.2 rfl, List.drop_length] at h
        exact absurd h List.not_mem_nil
      | some b => exact absurd (hw.2 b rfl) (not_le.mpr (hR.2.1 b rfl x h))
    · exact h

/-! ## The filled list of a system -/

/-- Where the coordinates of a system begin: at the truncation edge if there is one, else at the first component. -/
def IsOrigin (rev : Bool) (bl br : Option V) (comps : List (V × Comp V)) (o : V) : Prop :=
  (rev = false → ∀ b, bl = some b → o = b) ∧ (rev = true → ∀ b, br = some b → o = -b) ∧
  ((rev = false ∧ bl = none) ∨ (rev = true ∧ br = none) → (∃ x ∈ comps, Within bl br x.1) →
    ∃ x ∈ comps, Within bl br x.1 ∧ o = place rev x ∧
      ∀ y ∈ comps, Within bl br y.1 → if rev then y.1 ≤ x.1 else x.1 ≤ y.1)

theorem sys_pairings_spec {rev : Bool} {n : V} {bl br : Option V} {comps : List (V × Comp V)} {pos : List V} {filled : List (Comp V)}
    (hs : comps.Pairwise (fun x y => x.1 < y.1)) (h : sys_pairings rev n bl br comps = .ok (pos, filled)) :
    Tiles pos filled ∧
    (∃ o, IsOrigin rev bl br comps o ∧
      (∀ x ∈ comps, Within bl br x.1 → ∃ i : Nat, filled[i]? = some x.2 ∧ pos[i]? = some (place rev x - o)) ∧
      ((∃ x ∈ comps, Within bl br x.1) → (rev = false → ∀ b, br = some b → (Comp.sys pos filled).width = b - o) ∧
        (rev = true → ∀ b, bl = some b → (Comp.sys pos filled).width = -b - o))) ∧
    (∀ d ∈ filled, (∃ x ∈ comps, Within bl br x.1 ∧ d = x.2) ∨ ∃ L, d = .space L n) := by
  unfold sys_pairings at h
  cases hl : sys_lslice bl comps with
  | error e =>
    simp only [hl] at h
    cases h
  | ok l =>
  simp only [hl, except_bind_ok'] at h
  cases hr : sys_rslice br comps with
  | error e =>
    simp only [hr] at h
    cases h
  | ok r =>
  simp only [hr, except_bind_ok'] at h
  have hmem := sliced_spec hs hl hr
  have hsub : ((comps.take r).drop l).Pairwise (fun x y => x.1 < y.1) :=
    hs.sublist ((List.drop_sublist _ _).trans (List.take_sublist _ _))
  generalize hsl : (comps.take r).drop l = sliced at h hmem hsub
  generalize hit : (if ¬ rev = true then sliced else sliced.reverse) = items at h
  have hitm : ∀ x, x ∈ items ↔ x ∈ comps ∧ Within bl br x.1 := by
    intro x
    rw [← hmem x, ← hit]
    split
    · rfl
    · exact List.mem_reverse
  have hitp : items.Pairwise (fun x y => if rev then y.1 < x.1 else x.1 < y.1) := by
    rw [← hit]
    cases rev with
    | false => simpa using hsub
    | true =>
      have : sliced.reverse.Pairwise (fun x y => y.1 < x.1) := by
        rw [List.pairwise_reverse]
        exact hsub
      simpa using this
  generalize hfe : (if rev = true then br.map (fun x => -x) else bl) = first_edge at h
  generalize hle : (if rev = true then bl.map (fun x => -x) else br) = last_edge at h
  generalize hout : fill_loop rev n (if items.isEmpty = true then none else first_edge) items = out at h
  have hfirst : ∀ d ∈ out.2.1, (∃ x ∈ comps, Within bl br x.1 ∧ d = x.2) ∨ ∃ L, d = .space L n := by
    intro d hd
    rw [← hout] at hd
    rcases fill_loop_only rev n items _ d hd with ⟨x, hx, e⟩ | h
    · exact Or.inl ⟨x, ((hitm x).mp hx).1, ((hitm x).mp hx).2, e⟩
    · exact Or.inr h
  have hplace : ∀ x ∈ comps, Within bl br x.1 → ∃ i : Nat, out.2.1[i]? = some x.2 ∧ out.1[i]? = some (place rev x) := by
    intro x hx hw
    rw [← hout]
    exact fill_loop_mem rev n items _ x ((hitm x).mpr ⟨hx, hw⟩)
  cases items with
  | nil =>
    have hout' : out = ([], [], none) := by
      rw [← hout]
      rfl
    have hno : ∀ x ∈ comps, ¬ Within bl br x.1 := fun x hx hw => absurd ((hitm x).mpr ⟨hx, hw⟩) List.not_mem_nil
    have hres : pos = [0] ∧ filled = [] := by
      subst hout'
      cases last_edge with
      | none =>
        simp only [fill_end, except_bind_ok'] at h
        cases h
        exact ⟨by simp, rfl⟩
      | some e =>
        simp only [fill_end] at h
        split at h <;> cases h
    obtain ⟨rfl, rfl⟩ := hres
    refine ⟨tiles_stack [], ⟨if rev then (br.map (fun x => -x)).getD 0 else bl.getD 0, ⟨?_, ?_, ?_⟩, ?_, ?_⟩, ?_⟩
    · rintro rfl b rfl
      rfl
    · rintro rfl b rfl
      rfl
    · rintro _ ⟨x, hx, hw⟩
      exact absurd hw (hno x hx)
    · intro x hx hw
      exact absurd hw (hno x hx)
    · rintro ⟨x, hx, hw⟩
      exact absurd hw (hno x hx)
    · intro d hd
      exact absurd hd List.not_mem_nil
  | cons x0 items =>
    have hx0 := (hitm x0).mp List.mem_cons_self
    have hout2 : fill_loop rev n first_edge (x0 :: items) = out := hout
    obtain ⟨o, q, ho, hq, hpos⟩ : ∃ o q, (first_edge = some o ∨ (first_edge = none ∧ o = place rev x0)) ∧ out.2.2 = some q ∧
        out.1 ++ [q] = stack_positions o out.2.1 := by
      cases first_edge with
      | none =>
        obtain ⟨q, h1, h2⟩ := fill_loop_none rev n x0 items
        rw [hout2] at h1 h2
        exact ⟨_, q, Or.inr ⟨rfl, rfl⟩, h1, h2⟩
      | some p =>
        obtain ⟨q, h1, h2⟩ := fill_loop_some rev n (x0 :: items) p
        rw [hout2] at h1 h2
        exact ⟨p, q, Or.inl rfl, h1, h2⟩
    have horig : IsOrigin rev bl br comps o := by
      refine ⟨?_, ?_, ?_⟩
      · rintro rfl b rfl
        rw [← hfe] at ho
        rcases ho with h | h
        · exact (Option.some.inj h).symm
        · exact absurd h.1 (by simp)
      · rintro rfl b rfl
        rw [← hfe] at ho
        rcases ho with h | h
        · exact (Option.some.inj h).symm
        · exact absurd h.1 (by simp)
      · intro hn _
        have hfn : first_edge = none := by
          rw [← hfe]
          rcases hn with ⟨rfl, rfl⟩ | ⟨rfl, rfl⟩ <;> rfl
        rcases ho with h | h
        · rw [hfn] at h
          cases h
        · refine ⟨x0, hx0.1, hx0.2, h.2, ?_⟩
          intro y hy hw
          rcases List.mem_cons.mp ((hitm y).mpr ⟨hy, hw⟩) with e | e
          · rw [e]
            cases rev <;> simp
          · have := (List.pairwise_cons.mp hitp).1 y e
            cases rev with
            | false =>
              simp only [Bool.false_eq_true, if_false] at this ⊢
              exact le_of_lt this
            | true =>
              simp only [if_true] at this ⊢
              exact le_of_lt this
    -- the end
    obtain ⟨P, F, hend, hPF, hplace2, honly2, hwid⟩ : ∃ P F, fill_end n comps.isEmpty last_edge out.1 out.2.1 out.2.2 = .ok (P, F) ∧
        P = stack_positions o F ∧
        (∀ x ∈ comps, Within bl br x.1 → ∃ i : Nat, F[i]? = some x.2 ∧ P[i]? = some (place rev x)) ∧
        (∀ d ∈ F, (∃ x ∈ comps, Within bl br x.1 ∧ d = x.2) ∨ ∃ L, d = .space L n) ∧
        (∀ e, last_edge = some e → P.getLastD 0 = e) := by
      cases last_edge with
      | none =>
        refine ⟨out.1 ++ [q], out.2.1, by simp [fill_end, hq], hpos, ?_, hfirst, by simp⟩
        intro x hx hw
        obtain ⟨i, h1, h2⟩ := hplace x hx hw
        exact ⟨i, h1, by rw [List.getElem?_append_left (List.getElem?_eq_some_iff.mp h2).1, h2]⟩
      | some e =>
        have hne : comps.isEmpty = false := by
          cases comps with
          | nil => exact absurd hx0.1 List.not_mem_nil
          | cons _ _ => rfl
        refine ⟨out.1 ++ [q, e], out.2.1 ++ [.space (e - q) n], by simp [fill_end, hq, hne], ?_, ?_, ?_, ?_⟩
        · have := stack_positions_snoc o out.2.1 (.space (e - q) n) out.1 q hpos
          rw [Comp.width, add_sub_cancel] at this
          exact this
        · intro x hx hw
          obtain ⟨i, h1, h2⟩ := hplace x hx hw
          exact ⟨i, by rw [List.getElem?_append_left (List.getElem?_eq_some_iff.mp h1).1, h1],
            by rw [List.getElem?_append_left (List.getElem?_eq_some_iff.mp h2).1, h2]⟩
        · intro d hd
          rcases List.mem_append.mp hd with h | h
          · exact hfirst d h
          · exact Or.inr ⟨_, List.mem_singleton.mp h⟩
        · intro e' he'
          cases he'
          rw [List.getLastD_eq_getLast?]
          simp
    simp only [hend, except_bind_ok'] at h
    cases h
    have hpos2 : P.map (fun x => x - P.headD 0) = stack_positions 0 filled := by
      rw [hPF, stack_positions_headD, stack_positions_shift, sub_self]
    have hhead : P.headD 0 = o := by rw [hPF, stack_positions_headD]
    refine ⟨?_, ⟨o, horig, ?_, ?_⟩, honly2⟩
    · rw [hpos2]
      exact tiles_stack filled
    · intro x hx hw
      obtain ⟨i, h1, h2⟩ := hplace2 x hx hw
      refine ⟨i, h1, ?_⟩
      rw [List.getElem?_map, h2, hhead]
      rfl
    · intro _
      have hw : ∀ e, last_edge = some e → (Comp.sys (P.map (fun x => x - P.headD 0)) filled).width = e - o := by
        intro e he
        have h1 := hwid e he
        rw [hPF, stack_positions_last] at h1
        rw [hpos2, Comp.width, stack_positions_last, stack_positions_headD, ← h1]
        ring
      refine ⟨?_, ?_⟩
      · rintro rfl b rfl
        exact hw b hle.symm
      · rintro rfl b rfl
        exact hw (-b) hle.symm

/-! ## Resolved layouts -/

namespace Comp

mutual
/-- Every system within the layout is tiled. -/
def AllTiled : Comp V → Prop
  | .thin _ _ => True
  | .space _ _ => True
  | .sys pos filled => Tiles pos filled ∧ AllTiledL filled
  | .mount sub => AllTiled sub

/-- The same for a list. -/
def AllTiledL : List (Comp V) → Prop
  | [] => True
  | c :: l => AllTiled c ∧ AllTiledL l
end

theorem AllTiledL_iff (l : List (Comp V)) : AllTiledL l ↔ ∀ c ∈ l, AllTiled c := by
  induction l with
  | nil => simp [AllTiledL]
  | cons c l ih => simp [AllTiledL, ih]

end Comp

/-- The location of a child of a system; a mount has none. -/
def El.loc : El V → Option V
  | .thin _ loc _ => loc
  | .space _ _ loc _ => loc
  | .sys _ _ _ _ loc _ => loc
  | .mount _ _ => none

theorem resolve_located_none {n : V} {env : Bool} {e : El V} {l : List (El V)} {items : List (V × Comp V)} (he : e.loc = none)
    (h : resolve_located n env (e :: l) = .ok items) : resolve_located n env l = .ok items := by
  cases e with
  | mount sub rev =>
    rw [resolve_located] at h
    cases h
  | thin t loc rev =>
    obtain rfl : loc = none := he
    rw [resolve_located] at h
    exact h
  | space L n' loc rev =>
    obtain rfl : loc = none := he
    rw [resolve_located] at h
    exact h
  | sys s bl br comps loc rev =>
    obtain rfl : loc = none := he
    rw [resolve_located] at h
    exact h

theorem resolve_located_some {n : V} {env : Bool} {e : El V} {l : List (El V)} {items : List (V × Comp V)} {ℓ : V} (he : e.loc = some ℓ)
    (h : resolve_located n env (e :: l) = .ok items) :
    ∃ c cs, resolve n env e = .ok c ∧ resolve_located n env l = .ok cs ∧ items = (ℓ, c) :: cs := by
  have h' : (do
      let c ← resolve n env e
      let cs ← resolve_located n env l
      .ok ((ℓ, c) :: cs)) = Except.ok items := by
    cases e with
    | mount sub rev => cases he
    | thin t loc rev =>
      obtain rfl : loc = some ℓ := he
      rw [resolve_located] at h
      exact h
    | space L n' loc rev =>
      obtain rfl : loc = some ℓ := he
      rw [resolve_located] at h
      exact h
    | sys s bl br comps loc rev =>
      obtain rfl : loc = some ℓ := he
      rw [resolve_located] at h
      exact h
  cases hc : resolve n env e with
  | error x =>
    simp only [hc] at h'
    cases h'
  | ok c =>
    cases hcs : resolve_located n env l with
    | error x =>
      simp only [hc, hcs, except_bind_ok'] at h'
      cases h'
    | ok cs =>
      simp only [hc, hcs, except_bind_ok'] at h'
      cases h'
      exact ⟨c, cs, rfl, rfl, rfl⟩

theorem resolve_located_spec {n : V} {env : Bool} {l : List (El V)} {items : List (V × Comp V)} (h : resolve_located n env l = .ok items) :
    (∀ e ∈ l, ∀ ℓ, e.loc = some ℓ → ∃ c, resolve n env e = .ok c ∧ (ℓ, c) ∈ items) ∧
    (∀ x ∈ items, ∃ e ∈ l, e.loc = some x.1 ∧ resolve n env e = .ok x.2) := by
  induction l generalizing items with
  | nil =>
    cases h
    simp
  | cons e l ih =>
    have key : (e.loc = none → resolve_located n env l = .ok items) ∧
        (∀ ℓ, e.loc = some ℓ → ∃ c cs, resolve n env e = .ok c ∧ resolve_located n env l = .ok cs ∧ items = (ℓ, c) :: cs) := by
      cases hloc : e.loc with
      | none => exact ⟨fun _ => resolve_located_none hloc h, fun ℓ h => absurd h (by simp)⟩
      | some ℓ =>
        refine ⟨fun h => absurd h (by simp), ?_⟩
        intro _ hh
        cases hh
        exact resolve_located_some hloc h
    cases hloc : e.loc with
    | none =>
      obtain ⟨h1, h2⟩ := ih (key.1 hloc)
      refine ⟨?_, fun x hx => ?_⟩
      · intro e' he' ℓ hℓ
        rcases List.mem_cons.mp he' with h | h
        · rw [h, hloc] at hℓ
          cases hℓ
        · exact h1 e' h ℓ hℓ
      · obtain ⟨e', h3, h4⟩ := h2 x hx
        exact ⟨e', List.mem_cons_of_mem _ h3, h4⟩
    | some ℓ0 =>
      obtain ⟨c, cs, hc, hcs, rfl⟩ := key.2 ℓ0 hloc
      obtain ⟨h1, h2⟩ := ih hcs
      refine ⟨?_, fun x hx => ?_⟩
      · intro e' he' ℓ hℓ
        rcases List.mem_cons.mp he' with h | h
        · subst h
          rw [hloc] at hℓ
          cases hℓ
          exact ⟨c, hc, List.mem_cons_self⟩
        · obtain ⟨d, h3, h4⟩ := h1 e' h ℓ hℓ
          exact ⟨d, h3, List.mem_cons_of_mem _ h4⟩
      · rcases List.mem_cons.mp hx with h | h
        · subst h
          exact ⟨e, List.mem_cons_self, hloc, hc⟩
        · obtain ⟨e', h3, h4⟩ := h2 x h
          exact ⟨e', List.mem_cons_of_mem _ h3, h4⟩

theorem resolve_stack_spec {n : V} {env : Bool} {l : List (El V)} {cs : List (Comp V)} (h : resolve_stack n env l = .ok cs) :
    List.Forall₂ (fun e c => resolve n env e = .ok c) l cs := by
  induction l generalizing cs with
  | nil =>
    cases h
    exact List.Forall₂.nil
  | cons e l ih =>
    rw [resolve_stack] at h
    cases hc : resolve n env e with
    | error x =>
      simp only [hc] at h
      cases h
    | ok c =>
      cases hcs : resolve_stack n env l with
      | error x =>
        simp only [hc, hcs, except_bind_ok'] at h
        cases h
      | ok cs' =>
        simp only [hc, hcs, except_bind_ok'] at h
        cases h
        exact List.Forall₂.cons hc (ih hcs)

/-- The parts of a resolved located system. -/
theorem resolve_sys {n : V} {parent : Bool} {bl br : Option V} {comps : List (El V)} {loc : Option V} {rev : Bool} {c : Comp V}
    (h : resolve n parent (.sys false bl br comps loc rev) = .ok c) :
    ∃ items sorted pos filled, resolve_located n (env_reversed parent rev) comps = .ok items ∧ loc_sort items = .ok sorted ∧
      sys_pairings (env_reversed parent rev) n bl br sorted = .ok (pos, filled) ∧ c = .sys pos filled := by
  rw [resolve] at h
  cases h1 : resolve_located n (env_reversed parent rev) comps with
  | error x =>
    simp only [h1] at h
    cases h
  | ok items =>
  simp only [h1, except_bind_ok'] at h
  cases h2 : loc_sort items with
  | error x =>
    simp only [h2] at h
    cases h
  | ok sorted =>
  simp only [h2, except_bind_ok'] at h
  cases h3 : sys_pairings (env_reversed parent rev) n bl br sorted with
  | error x =>
    simp only [h3] at h
    cases h
  | ok res =>
  simp only [h3, except_bind_ok'] at h
  cases h
  exact ⟨items, sorted, res.1, res.2, rfl, h2, h3, rfl⟩

/-- C39: in a stack the components keep their order (turned around in a reversed stack), the positions begin at 0, each component
begins where the one before it ends, and the width is the sum of the widths. -/
theorem C39_stack {n : V} {parent : Bool} {bl br : Option V} {comps : List (El V)} {loc : Option V} {rev : Bool} {c : Comp V}
    (h : resolve n parent (.sys true bl br comps loc rev) = .ok c) :
    ∃ pos filled, c = .sys pos filled ∧ Tiles pos filled ∧ c.width = (filled.map Comp.width).sum ∧
      List.Forall₂ (fun e d => resolve n (env_reversed parent rev) e = .ok d) comps
        (if env_reversed parent rev then filled.reverse else filled) := by
  rw [resolve] at h
  cases h1 : resolve_stack n (env_reversed parent rev) comps with
  | error x =>
    simp only [h1] at h
    cases h
  | ok cs =>
  simp only [h1, except_bind_ok'] at h
  cases h
  have ht : Tiles (stack_pairings (env_reversed parent rev) cs).1 (stack_pairings (env_reversed parent rev) cs).2 := by
    have := tiles_stack (stack_pairings (env_reversed parent rev) cs).2
    have e : (stack_pairings (env_reversed parent rev) cs).1 = stack_positions 0 (stack_pairings (env_reversed parent rev) cs).2 := by
      simp only [stack_pairings, stack_positions_headD, sub_zero]
      exact List.map_id' _
    rw [e]
    exact this
  refine ⟨_, _, rfl, ht, C39_width ht, ?_⟩
  have := resolve_stack_spec h1
  generalize env_reversed parent rev = env at this
  cases env with
  | false => exact this
  | true => simpa [stack_pairings] using this

mutual
/-- Induction over the elements of a layout. -/
theorem El.ind {P : El V → Prop} (thin : ∀ t loc rev, P (.thin t loc rev)) (space : ∀ L n loc rev, P (.space L n loc rev))
    (sys : ∀ s bl br l loc rev, (∀ c ∈ l, P c) → P (.sys s bl br l loc rev)) (mount : ∀ s rev, P s → P (.mount s rev)) : ∀ c, P c
  | .thin t loc rev => thin t loc rev
  | .space L n loc rev => space L n loc rev
  | .sys s bl br l loc rev => sys s bl br l loc rev (El.indL thin space sys mount l)
  | .mount s rev => mount s rev (El.ind thin space sys mount s)

/-- Induction over the members of a list. -/
theorem El.indL {P : El V → Prop} (thin : ∀ t loc rev, P (.thin t loc rev)) (space : ∀ L n loc rev, P (.space L n loc rev))
    (sys : ∀ s bl br l loc rev, (∀ c ∈ l, P c) → P (.sys s bl br l loc rev)) (mount : ∀ s rev, P s → P (.mount s rev)) :
    ∀ l : List (El V), ∀ c ∈ l, P c
  | [], c, hc => absurd hc (List.not_mem_nil)
  | d :: l, c, hc => by
    rcases List.mem_cons.mp hc with h | h
    · rw [h]
      exact El.ind thin space sys mount d
    · exact El.indL thin space sys mount l c h
end

/-- C39: every system within a layout is tiled. -/
theorem C39_tiles (n : V) (e : El V) : ∀ (parent : Bool) (c : Comp V), resolve n parent e = .ok c → c.AllTiled := by
  refine El.ind (P := fun e => ∀ (parent : Bool) (c : Comp V), resolve n parent e = .ok c → c.AllTiled) ?_ ?_ ?_ ?_ e
  · intro t loc rev parent c h
    rw [resolve] at h
    cases h
    exact True.intro
  · intro L n' loc rev parent c h
    rw [resolve] at h
    cases h
    exact True.intro
  · intro s bl br comps loc rev ih parent c h
    cases s with
    | true =>
      obtain ⟨pos, filled, rfl, ht, _, hf⟩ := C39_stack h
      refine ⟨ht, (Comp.AllTiledL_iff _).mpr (fun d hd => ?_)⟩
      have hd' : d ∈ (if env_reversed parent rev then filled.reverse else filled) := by
        split
        · exact List.mem_reverse.mpr hd
        · exact hd
      obtain ⟨i, hi, hid⟩ := List.getElem_of_mem hd'
      have hlen := hf.length_eq
      have := hf.get (by omega) hi
      refine ih (comps[i]'(by omega)) (List.getElem_mem _) (env_reversed parent rev) d ?_
      rw [← hid]
      exact this
    | false =>
      obtain ⟨items, sorted, pos, filled, h1, h2, h3, rfl⟩ := resolve_sys h
      obtain ⟨hp, hs⟩ := loc_sort_spec h2
      obtain ⟨ht, _, ho⟩ := sys_pairings_spec hs h3
      refine ⟨ht, (Comp.AllTiledL_iff _).mpr (fun d hd => ?_)⟩
      rcases ho d hd with ⟨x, hx, _, rfl⟩ | ⟨L, rfl⟩
      · obtain ⟨e, he, _, hr⟩ := (resolve_located_spec h1).2 x (hp.subset hx)
        exact ih e he _ _ hr
      · exact True.intro
  · intro sub rev ih parent c h
    rw [resolve] at h
    cases h1 : resolve n (env_reversed parent rev) sub with
    | error x =>
      simp only [h1] at h
      cases h
    | ok d =>
      simp only [h1, except_bind_ok'] at h
      cases h
      exact ih _ d h1

/-- C39: in a located system that is not reversed every child with a location between the boundaries sits at its location relative
to the left boundary, or to the least location if there is no left boundary; everything else is a space; with a right boundary the
system ends there. -/
theorem C39_located {n : V} {parent : Bool} {bl br : Option V} {comps : List (El V)} {loc : Option V} {rev : Bool} {c : Comp V}
    (hrev : env_reversed parent rev = false) (h : resolve n parent (.sys false bl br comps loc rev) = .ok c) :
    ∃ pos filled o, c = .sys pos filled ∧ Tiles pos filled ∧ c.width = (filled.map Comp.width).sum ∧
      (∀ b, bl = some b → o = b) ∧
      (bl = none → (∀ e ∈ comps, ∀ ℓ, e.loc = some ℓ → Within bl br ℓ → o ≤ ℓ) ∧
        ((∃ e ∈ comps, ∃ ℓ, e.loc = some ℓ ∧ Within bl br ℓ) → ∃ e ∈ comps, e.loc = some o ∧ Within bl br o)) ∧
      (∀ e ∈ comps, ∀ ℓ, e.loc = some ℓ → Within bl br ℓ →
        ∃ (i : Nat) (d : Comp V), resolve n false e = .ok d ∧ filled[i]? = some d ∧ pos[i]? = some (ℓ - o)) ∧
      (∀ d ∈ filled, (∃ e ∈ comps, ∃ ℓ, e.loc = some ℓ ∧ Within bl br ℓ ∧ resolve n false e = .ok d) ∨ ∃ L, d = .space L n) ∧
      ((∃ e ∈ comps, ∃ ℓ, e.loc = some ℓ ∧ Within bl br ℓ) → ∀ b, br = some b → c.width = b - o) := by
  obtain ⟨items, sorted, pos, filled, h1, h2, h3, rfl⟩ := resolve_sys h
  rw [hrev] at h1 h3
  obtain ⟨hp, hs⟩ := loc_sort_spec h2
  obtain ⟨ht, ⟨o, ho, hm, hw⟩, hf⟩ := sys_pairings_spec hs h3
  obtain ⟨r1, r2⟩ := resolve_located_spec h1
  have ex : (∃ e ∈ comps, ∃ ℓ, e.loc = some ℓ ∧ Within bl br ℓ) → ∃ x ∈ sorted, Within bl br x.1 := by
    rintro ⟨e, he, ℓ, hl, hw⟩
    obtain ⟨d, hd, hi⟩ := r1 e he ℓ hl
    exact ⟨(ℓ, d), hp.symm.subset hi, hw⟩
  by_cases hex : ∃ x ∈ sorted, Within bl br x.1
  · refine ⟨pos, filled, o, rfl, ht, C39_width ht, ho.1 rfl, ?_, ?_, ?_, ?_⟩
    · intro hbl
      obtain ⟨x, hx, hxw, hxo, hxm⟩ := ho.2.2 (Or.inl ⟨rfl, hbl⟩) hex
      have hxo' : o = x.1 := by simpa [place] using hxo
      refine ⟨?_, fun _ => ?_⟩
      · intro e he ℓ hl hwi
        obtain ⟨d, hd, hi⟩ := r1 e he ℓ hl
        have := hxm (ℓ, d) (hp.symm.subset hi) hwi
        rw [hxo']
        simpa using this
      · obtain ⟨e, he, hl, _⟩ := r2 x (hp.subset hx)
        exact ⟨e, he, by rw [hl, hxo'], by rw [hxo']; exact hxw⟩
    · intro e he ℓ hl hwi
      obtain ⟨d, hd, hi⟩ := r1 e he ℓ hl
      obtain ⟨i, h4, h5⟩ := hm (ℓ, d) (hp.symm.subset hi) hwi
      exact ⟨i, d, hd, h4, by simpa [place] using h5⟩
    · intro d hd
      rcases hf d hd with ⟨x, hx, hxw, rfl⟩ | h
      · obtain ⟨e, he, hl, hr⟩ := r2 x (hp.subset hx)
        exact Or.inl ⟨e, he, x.1, hl, hxw, hr⟩
      · exact Or.inr h
    · exact fun _ => (hw hex).1 rfl
  · have hnone : ∀ e ∈ comps, ∀ ℓ, e.loc = some ℓ → ¬ Within bl br ℓ := fun e he ℓ hl hw => hex (ex ⟨e, he, ℓ, hl, hw⟩)
    refine ⟨pos, filled, o, rfl, ht, C39_width ht, ho.1 rfl, ?_, ?_, ?_, ?_⟩
    · refine fun _ => ⟨fun e he ℓ hl hw => absurd hw (hnone e he ℓ hl), ?_⟩
      rintro ⟨e, he, ℓ, hl, hw⟩
      exact absurd hw (hnone e he ℓ hl)
    · exact fun e he ℓ hl hw => absurd hw (hnone e he ℓ hl)
    · intro d hd
      rcases hf d hd with ⟨x, hx, hxw, rfl⟩ | h
      · exact absurd ⟨x, hx, hxw⟩ hex
      · exact Or.inr h
    · rintro ⟨e, he, ℓ, hl, hw⟩
      exact absurd hw (hnone e he ℓ hl)

/-- C39: in a reversed located system every child with a location between the boundaries sits where its far end is, measured from
the right boundary, or from the far end of the child of the greatest location if there is no right boundary. -/
theorem C39_reversed {n : V} {parent : Bool} {bl br : Option V} {comps : List (El V)} {loc : Option V} {rev : Bool} {c : Comp V}
    (hrev : env_reversed parent rev = true) (h : resolve n parent (.sys false bl br comps loc rev) = .ok c) :
    ∃ pos filled E, c = .sys pos filled ∧ Tiles pos filled ∧ c.width = (filled.map Comp.width).sum ∧
      (∀ b, br = some b → E = b) ∧
      (br = none → (∃ e ∈ comps, ∃ ℓ, e.loc = some ℓ ∧ Within bl br ℓ) →
        ∃ e ∈ comps, ∃ m d, e.loc = some m ∧ Within bl br m ∧ resolve n true e = .ok d ∧ E = m + d.width ∧
          ∀ e' ∈ comps, ∀ ℓ, e'.loc = some ℓ → Within bl br ℓ → ℓ ≤ m) ∧
      (∀ e ∈ comps, ∀ ℓ, e.loc = some ℓ → Within bl br ℓ →
        ∃ (i : Nat) (d : Comp V), resolve n true e = .ok d ∧ filled[i]? = some d ∧ pos[i]? = some (E - (ℓ + d.width))) ∧
      (∀ d ∈ filled, (∃ e ∈ comps, ∃ ℓ, e.loc = some ℓ ∧ Within bl br ℓ ∧ resolve n true e = .ok d) ∨ ∃ L, d = .space L n) ∧
      ((∃ e ∈ comps, ∃ ℓ, e.loc = some ℓ ∧ Within bl br ℓ) → ∀ b, bl = some b → c.width = E - b) := by
  obtain ⟨items, sorted, pos, filled, h1, h2, h3, rfl⟩ := resolve_sys h
  rw [hrev] at h1 h3
  obtain ⟨hp, hs⟩ := loc_sort_spec h2
  obtain ⟨ht, ⟨o, ho, hm, hw⟩, hf⟩ := sys_pairings_spec hs h3
  obtain ⟨r1, r2⟩ := resolve_located_spec h1
  have ex : (∃ e ∈ comps, ∃ ℓ, e.loc = some ℓ ∧ Within bl br ℓ) → ∃ x ∈ sorted, Within bl br x.1 := by
    rintro ⟨e, he, ℓ, hl, hw⟩
    obtain ⟨d, hd, hi⟩ := r1 e he ℓ hl
    exact ⟨(ℓ, d), hp.symm.subset hi, hw⟩
  refine ⟨pos, filled, -o, rfl, ht, C39_width ht, ?_, ?_, ?_, ?_, ?_⟩
  · intro b hb
    rw [ho.2.1 rfl b hb, neg_neg]
  · intro hbr hex
    obtain ⟨x, hx, hxw, hxo, hxm⟩ := ho.2.2 (Or.inr ⟨rfl, hbr⟩) (ex hex)
    obtain ⟨e, he, hl, hr⟩ := r2 x (hp.subset hx)
    refine ⟨e, he, x.1, x.2, hl, hxw, hr, ?_, ?_⟩
    · rw [hxo]
      simp [place]
    · intro e' he' ℓ hl' hw'
      obtain ⟨d, hd, hi⟩ := r1 e' he' ℓ hl'
      simpa using hxm (ℓ, d) (hp.symm.subset hi) hw'
  · intro e he ℓ hl hwi
    obtain ⟨d, hd, hi⟩ := r1 e he ℓ hl
    obtain ⟨i, h4, h5⟩ := hm (ℓ, d) (hp.symm.subset hi) hwi
    refine ⟨i, d, hd, h4, ?_⟩
    rw [h5]
    simp [place]
    ring
  · intro d hd
    rcases hf d hd with ⟨x, hx, hxw, rfl⟩ | h
    · obtain ⟨e, he, hl, hr⟩ := r2 x (hp.subset hx)
      exact Or.inl ⟨e, he, x.1, hl, hxw, hr⟩
    · exact Or.inr h
  · intro hex b hb
    rw [(hw (ex hex)).2 rfl b hb]
    ring

/-! ## The positions of targets -/

theorem width_leaves (c : Comp V) : c.AllTiled → c.width = (c.leaves.map Leaf.length).sum := by
  refine Comp.ind (P := fun c => c.AllTiled → c.width = (c.leaves.map Leaf.length).sum) ?_ ?_ ?_ ?_ c
  · intro t rev _
    simp [Comp.width, Comp.leaves, Leaf.length]
  · intro L n _
    simp [Comp.width, Comp.leaves, Leaf.length]
  · rintro pos l ih ⟨ht, hl⟩
    rw [C39_width ht, Comp.leaves]
    clear ht
    induction l with
    | nil => rfl
    | cons d l ih' =>
      rw [List.map_cons, List.sum_cons, Comp.leavesL, List.map_append, List.sum_append, ih d List.mem_cons_self hl.1,
        ih' (fun c hc => ih c (List.mem_cons_of_mem _ hc)) hl.2]
  · intro s ih h
    exact ih h

theorem leavesL_width (l : List (Comp V)) (h : Comp.AllTiledL l) :
    ((Comp.leavesL l).map Leaf.length).sum = (l.map Comp.width).sum := by
  induction l with
  | nil => rfl
  | cons d l ih =>
    rw [List.map_cons, List.sum_cons, Comp.leavesL, List.map_append, List.sum_append, ih h.2, width_leaves d h.1]

theorem target_pos_at_eq (l : List (Comp V)) (i : Nat) (t : Tgt) (c : Comp V) (h : l[i]? = some c) :
    Comp.target_pos_at l i t = c.target_pos t := by
  induction l generalizing i with
  | nil => simp at h
  | cons d l ih =>
    cases i with
    | zero =>
      cases Option.some.inj h
      rfl
    | succ i => exact ih i (by simpa using h)

theorem stack_positions_get (p : V) (l : List (Comp V)) (i : Nat) (hi : i ≤ l.length) :
    (stack_positions p l)[i]? = some (p + ((l.take i).map Comp.width).sum) := by
  induction l generalizing p i with
  | nil =>
    obtain rfl : i = 0 := by simpa using hi
    simp [stack_positions]
  | cons c l ih =>
    cases i with
    | zero => simp [stack_positions]
    | succ i =>
      rw [stack_positions, List.getElem?_cons_succ, ih _ i (by simpa using hi), List.take_succ_cons, List.map_cons, List.sum_cons,
        add_assoc]

/-- C39: the position of a target is the total length of the elements to the left of it. -/
theorem target_pos_spec (c : Comp V) : c.AllTiled → ∀ t L, c.before t = some L → c.target_pos t = .ok ((L.map Leaf.length).sum) := by
  refine Comp.ind (P := fun c => c.AllTiled → ∀ t L, c.before t = some L → c.target_pos t = .ok ((L.map Leaf.length).sum))
    ?_ ?_ ?_ ?_ c
  · intro t rev _ tgt L h
    rw [Comp.target_pos]
    rw [Comp.before] at h
    split at h
    · cases h
      rfl
    split at h
    · cases h
      simp [Leaf.length]
    split at h
    · cases h
      rfl
    · cases h
  · intro l n _ tgt L h
    rw [Comp.target_pos]
    rw [Comp.before] at h
    split at h
    · rename_i h1
      cases h
      rw [if_pos (show tgt = TargetLeft from h1)]
      rfl
    rename_i h1
    rw [if_neg (show ¬ tgt = TargetLeft from h1)]
    split at h
    · rename_i h2
      cases h
      rw [if_pos (show tgt = TargetRight from h2)]
      simp [Leaf.length]
    · cases h
  · rintro pos l ih ⟨ht, hl⟩ tgt L h
    rw [Comp.target_pos.eq_def]
    dsimp only
    rw [Comp.before.eq_def] at h
    simp only at h
    split at h
    · rename_i h1
      cases h
      rw [if_pos (show tgt = TargetLeft from h1)]
      rfl
    rename_i h1
    rw [if_neg (show ¬ tgt = TargetLeft from h1)]
    split at h
    · rename_i h2
      cases h
      rw [if_pos (show tgt = TargetRight from h2), C39_width ht, leavesL_width l hl]
    rename_i h2
    rw [if_neg (show ¬ tgt = TargetRight from h2)]
    split at h
    · rename_i i inner
      rw [Comp.beforeL_eq] at h
      cases hc : l[i]? with
      | none =>
        rw [hc] at h
        cases h
      | some d =>
        rw [hc] at h
        simp only [Option.bind_some] at h
        cases hb : d.before inner with
        | none =>
          rw [hb] at h
          cases h
        | some L' =>
          rw [hb] at h
          cases h
          have hd : d ∈ l := List.mem_of_getElem? hc
          have hi : i ≤ l.length := le_of_lt (List.getElem?_eq_some_iff.mp hc).1
          have htl : Comp.AllTiledL (l.take i) :=
            (Comp.AllTiledL_iff _).mpr (fun x hx => (Comp.AllTiledL_iff _).mp hl x (List.mem_of_mem_take hx))
          simp only [ht.eq, stack_positions_get 0 l i hi, target_pos_at_eq l i inner d hc,
            ih d hd ((Comp.AllTiledL_iff _).mp hl d hd) inner L' hb, except_bind_ok']
          rw [List.map_append, List.sum_append, leavesL_width _ htl, zero_add]
    · cases h
  · intro s ih hs tgt L h
    rw [Comp.target_pos.eq_def]
    dsimp only
    rw [Comp.before.eq_def] at h
    simp only at h
    split at h
    · rename_i h1
      cases h
      rw [if_pos (show tgt = TargetLeft from h1)]
      rfl
    rename_i h1
    rw [if_neg (show ¬ tgt = TargetLeft from h1)]
    split at h
    · rename_i h2
      cases h
      rw [if_pos (show tgt = TargetRight from h2), width_leaves s hs]
    rename_i h2
    rw [if_neg (show ¬ tgt = TargetRight from h2)]
    split at h
    · exact ih hs _ L h
    · cases h

/-- C39: in a layout the position of every target is the total length of the elements to the left of it. -/
theorem C39_target_pos {n : V} {parent : Bool} {e : El V} {c : Comp V} (h : resolve n parent e = .ok c) {t : Tgt} {L : List (Leaf V)}
    (ht : c.before t = some L) : c.target_pos t = .ok ((L.map Leaf.length).sum) :=
  target_pos_spec c (C39_tiles n e parent c h) t L ht

/-! ## When the positions exist -/

/-- C39: a system without boundaries whose children have distinct locations has positions. -/
theorem C39_exists {n : V} {parent : Bool} {comps : List (El V)} {loc : Option V} {rev : Bool} {items : List (V × Comp V)}
    (h : resolve_located n (env_reversed parent rev) comps = .ok items) (hd : items.Pairwise (fun x y => x.1 ≠ y.1)) :
    ∃ c, resolve n parent (.sys false none none comps loc rev) = .ok c := by
  obtain ⟨m, hm⟩ := loc_sort_ok hd
  rw [resolve]
  simp only [h, hm, except_bind_ok']
  unfold sys_pairings
  simp only [sys_lslice, sys_rslice, except_bind_ok', Option.map_none, if_true, ite_self]
  exact ⟨_, rfl⟩

/-- Two children at the same location cannot be sorted: there is no layout. -/
theorem C39_ties {n : V} {parent : Bool} {bl br : Option V} {comps l1 l2 l3 : List (El V)} {loc : Option V} {rev : Bool} {e e' : El V}
    {ℓ : V} (hc : comps = l1 ++ e :: l2 ++ e' :: l3) (he : e.loc = some ℓ) (he' : e'.loc = some ℓ) (c : Comp V) :
    resolve n parent (.sys false bl br comps loc rev) ≠ .ok c := by
  intro h
  obtain ⟨items, sorted, pos, filled, h1, h2, h3, rfl⟩ := resolve_sys h
  obtain ⟨hp, hs⟩ := loc_sort_spec h2
  have key : ∀ (l : List (El V)) (items : List (V × Comp V)), resolve_located n (env_reversed parent rev) l = .ok items →
      items.map Prod.fst = l.filterMap El.loc := by
    intro l
    induction l with
    | nil =>
      intro items h
      cases h
      rfl
    | cons e l ih =>
      intro items h
      rw [List.filterMap_cons]
      cases hl : e.loc with
      | none => exact ih items (resolve_located_none hl h)
      | some ℓ =>
        obtain ⟨c, cs, _, hcs, rfl⟩ := resolve_located_some hl h
        simp [ih cs hcs]
  have hm := key comps items h1
  have hnd : (items.map Prod.fst).Nodup := by
    have : (sorted.map Prod.fst).Nodup := by
      rw [List.Nodup, List.pairwise_map]
      exact hs.imp (fun h => ne_of_lt h)
    exact (hp.map Prod.fst).nodup_iff.mp this
  rw [hm, hc] at hnd
  simp [List.filterMap_append, List.filterMap_cons, he, he', List.nodup_append] at hnd

/-! ## Examples -/

/-- A lens at 5, a plate at 1 of length 2 and a mirror at 9, between the boundaries 0 and 7. -/
def located (rev : Bool) : El ℚ :=
  .sys false (some 0) (some 7)
    [.thin (.lens (some 2)) (some 5) false, .space 2 (3 / 2) (some 1) false, .thin (.mirror none) (some 9) false] none rev

example : resolve 1 false (located false) =
    .ok (.sys [0, 1, 3, 5, 5, 7] [.space 1 1, .space 2 (3 / 2), .space 2 1, .thin (.lens (some 2)) false, .space 2 1]) := by
  with_unfolding_all rfl

example : resolve 1 false (located true) =
    .ok (.sys [0, 2, 2, 4, 6, 7] [.space 2 1, .thin (.lens (some 2)) true, .space 2 1, .space 2 (3 / 2), .space 1 1]) := by
  with_unfolding_all rfl

example : (El.thin (.lens (some 2)) (some 5) false : El ℚ).loc = some 5 ∧ Within (some 0) (some 7) (5 : ℚ) :=
  ⟨rfl, fun b h => by cases h; decide, fun b h => by cases h; decide⟩

/-- A stack within a stack, reversed as a whole. -/
def stacked : El ℚ :=
  .sys true none none [.space 1 1 none false, .sys true none none [.space 2 1 none false, .thin .nop none false] none true] none true

example : resolve 1 false stacked = .ok (.sys [0, 2, 3] [.sys [0, 2, 2] [.space 2 1, .thin .nop false], .space 1 1]) := by
  with_unfolding_all rfl

example : (Comp.sys [0, 2, 3] [.sys [0, 2, 2] [.space 2 1, .thin .nop false], .space 1 1] : Comp ℚ).before [.idx 1, .left] =
    some [.space 2 1, .thin .nop false] := by
  with_unfolding_all rfl

example : ∃ items, resolve_located (1 : ℚ) false [.thin .nop (some 5) false, .space 2 1 (some 1) false] = .ok items ∧
    items.Pairwise (fun x y => x.1 ≠ y.1) := by
  refine ⟨[(5, .thin .nop false), (1, .space 2 1)], rfl, ?_⟩
  simp

/-- The two children of `C39_ties`: lenses at the same location. -/
example : (El.thin (.lens (some 2)) (some 5) false : El ℚ).loc = some 5 ∧ (El.thin (.lens (some 3)) (some 5) true : El ℚ).loc = some 5 :=
  ⟨rfl, rfl⟩

/-- An empty system with a boundary has no positions. -/
theorem C39_empty_refuted : resolve (1 : ℚ) false (.sys false (some 0) none [] none false) = .error .unboundLocal := by
  with_unfolding_all rfl

/-- A component that ends exactly at the right boundary is refused. -/
theorem C39_flush_refuted :
    resolve (1 : ℚ) false (.sys false none (some 3) [.space 2 1 (some 1) false] none false) = .error .notImplemented := by
  with_unfolding_all rfl

end Alm
