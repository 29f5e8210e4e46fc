import Verif.Py.Dict
import Mathlib.Data.List.Basic
import Mathlib.Tactic.Linarith
import Mathlib.Data.Nat.Log
import Mathlib.Data.List.Perm.Basic
import Mathlib.Order.Defs.LinearOrder
import Mathlib.Data.List.Sort

/-!
# `phasor/utilities/np.py`: `first_non_NaN`, `domain_sort`, `interval_limit`, and C124 and C125
-/

namespace Npu
open Py

/-! ## The first number -/

/-- The loop of `first_non_NaN`, l.149-158, at `N = 2 ^ k` and `idx_lower = 0`; an entry is true where the array has a number.  When a
number is found with `N > 1`, `idx_lower` becomes the float `N/2` (l.154, true division) and `idx_upper` lies `N` above it, so that the loop
goes on and asks for the array at a float. -/
def first_loop (arr : List Bool) (k : ℕ) : Except Err ℕ :=
  if h : 2 ^ k < arr.length then
    if arr[2 ^ k] then (if 2 ^ k = 1 then .ok 1 else .error .indexError)
    else first_loop arr (k + 1)
  else .ok arr.length
  termination_by arr.length - k
  decreasing_by
    have := Nat.lt_two_pow_self (n := k)
    omega

/-- `first_non_NaN`, l.143-159. -/
def first_non_NaN (arr : List Bool) : Except Err ℕ :=
  match arr with
  | [] => .error .indexError
  | x :: _ => if x then .ok 0 else first_loop arr 0

theorem first_loop_succ (arr : List Bool) (k : ℕ) :
    (first_loop arr (k + 1) = .ok arr.length ∧ ∀ j, k + 1 ≤ j → (h : 2 ^ j < arr.length) → arr[2 ^ j] = false) ∨
      first_loop arr (k + 1) = .error .indexError := by
  induction hn : arr.length - k using Nat.strong_induction_on generalizing k with
  | _ n ih =>
    rw [first_loop.eq_def]
    split
    · rename_i h
      split
      · right
        rw [if_neg (by simp)]
      · rename_i hx
        have := Nat.lt_two_pow_self (n := k + 1)
        rcases ih (arr.length - (k + 1)) (by omega) (k + 1) rfl with ⟨h1, h2⟩ | h1
        · left
          refine ⟨h1, fun j hj hlt => ?_⟩
          rcases Nat.lt_or_eq_of_le hj with hj | rfl
          · exact h2 j hj hlt
          · simpa using hx
        · exact Or.inr h1
    · rename_i h
      left
      refine ⟨rfl, fun j hj hlt => ?_⟩
      exact absurd (lt_of_le_of_lt (Nat.pow_le_pow_right (by norm_num) hj) hlt) h

/-- C124, in part: the position of a number found is 0 or 1 and that of the first number, and an array without numbers gives its length.
Missing, since it is false (`C124_first_refuted`): arrays whose first number comes later. -/
theorem C124_first_partial {arr : List Bool} :
    (∀ i : ℕ, first_non_NaN arr = .ok i → i < arr.length → i ≤ 1 ∧ arr[i]? = some true ∧ ∀ j < i, arr[j]? = some false) ∧
    (arr[0]? = some true → first_non_NaN arr = .ok 0) ∧
    (arr[0]? = some false → arr[1]? = some true → first_non_NaN arr = .ok 1) ∧
    (arr ≠ [] → (∀ i : ℕ, arr[i]? ≠ some true) → first_non_NaN arr = .ok arr.length) := by
  cases arr with
  | nil => simp [first_non_NaN]
  | cons x l =>
    cases x with
    | true =>
      refine ⟨?_, fun _ => rfl, by simp, fun _ h => absurd rfl (h 0)⟩
      intro i hi _
      cases hi
      exact ⟨by omega, rfl, by omega⟩
    | false =>
      have h0 : first_non_NaN (false :: l) = first_loop (false :: l) 0 := rfl
      have hs := first_loop_succ (false :: l) 0
      refine ⟨?_, by simp, ?_, ?_⟩
      · intro i hi hlt
        rw [h0, first_loop.eq_def] at hi
        split at hi
        · rename_i h
          split at hi
          · rename_i hx
            rw [if_pos (by simp)] at hi
            cases hi
            refine ⟨le_rfl, ?_, ?_⟩
            · rw [List.getElem?_eq_getElem hlt]
              exact congrArg some hx
            · intro j hj
              have : j = 0 := by omega
              subst this
              rfl
          · rcases hs with ⟨hs, -⟩ | hs
            · rw [hs] at hi
              cases hi
              omega
            · rw [hs] at hi
              cases hi
        · cases hi
          omega
      · intro _ h1
        obtain ⟨hlt, hx⟩ := List.getElem?_eq_some_iff.1 h1
        rw [h0, first_loop.eq_def, dif_pos (by simpa using hlt)]
        change (if (false :: l)[1]'hlt = true then _ else _) = _
        rw [if_pos hx, if_pos (by simp)]
      · intro _ h
        have hf : ∀ k, first_loop (false :: l) k = .ok (false :: l).length := by
          intro k
          induction hn : (false :: l).length - k using Nat.strong_induction_on generalizing k with
          | _ n ih =>
            rw [first_loop.eq_def]
            split
            · rename_i hlt
              have hk := Nat.lt_two_pow_self (n := k)
              rw [if_neg ?_]
              · exact ih _ (by omega) (k + 1) rfl
              · intro hc
                apply h (2 ^ k)
                rw [List.getElem?_eq_getElem hlt]
                exact congrArg some hc
            · rfl
        rw [h0, hf]

/-- C124, refuted: a first number behind the second place is never found. -/
theorem C124_first_refuted {arr : List Bool} {i : ℕ} (h2 : 2 ≤ i) (hi : arr[i]? = some true) (hf : ∀ j < i, arr[j]? = some false) :
    first_non_NaN arr = .error .indexError ∨ first_non_NaN arr = .ok arr.length := by
  cases arr with
  | nil => simp at hi
  | cons x l =>
    have hx := hf 0 (by omega)
    simp only [List.getElem?_cons_zero, Option.some.injEq] at hx
    subst hx
    have h0 : first_non_NaN (false :: l) = first_loop (false :: l) 0 := rfl
    have h1 := hf 1 (by omega)
    obtain ⟨hlt, h1'⟩ := List.getElem?_eq_some_iff.1 h1
    rw [h0, first_loop.eq_def, dif_pos (by simpa using hlt), if_neg (by
      show ¬ (false :: l)[1]'hlt = true
      rw [h1']
      simp)]
    rcases first_loop_succ (false :: l) 0 with ⟨h, -⟩ | h
    · exact Or.inr h
    · exact Or.inl h

/-- The fourth of four entries is the first number: not found at all. -/
example : first_non_NaN [false, false, false, true] = .ok 4 ∧ first_non_NaN [false, false, true] = .error .indexError := by
  constructor
  · show first_loop _ 0 = _
    rw [first_loop.eq_def, dif_pos (by simp), if_neg (by decide), first_loop.eq_def, dif_pos (by simp), if_neg (by decide),
      first_loop.eq_def, dif_neg (by simp)]
    rfl
  · show first_loop _ 0 = _
    rw [first_loop.eq_def, dif_pos (by simp), if_neg (by decide), first_loop.eq_def, dif_pos (by simp), if_pos (by decide), if_neg (by simp)]

/-! ## Sorting columns together -/

variable {V W : Type}

/-- `l[idxs]` of an array and a list of indices. -/
def take_idxs (l : List W) (idxs : List ℕ) : Except Err (List W) :=
  idxs.mapM fun i => match l[i]? with
    | some x => .ok x
    | none => .error .indexError

/-- `domain_sort`, l.10-28; `argsort` is `np.argsort`, of which only `Argsort` is known. -/
def domain_sort [LE V] [DecidableLE V] (argsort : List V → List ℕ) (X : List V) (Y : List (Option (List W))) :
    Except Err (List V × List (Option (List W))) :=
  if (List.zipWith (fun a b => decide (a ≤ b)) X.dropLast X.tail).all id then .ok (X, Y)
  else do
    let sort_idxs := argsort X
    let X ← take_idxs X sort_idxs
    let Y ← Y.mapM fun y => match y with
      | none => .ok none
      | some y => if y.length = 1 then .ok (some y) else do
        let y ← take_idxs y sort_idxs
        .ok (some y)
    .ok (X, Y)

/-- `interval_limit`, l.30-33, for one further column. -/
def interval_limit [LE V] [DecidableLE V] (X_min X_max : V) (X : List V) (Y : List W) : Except Err (List V × List W) := do
  let X_idx := (List.range X.length).filter fun i => match X[i]? with
    | some x => X_min ≤ x ∧ x ≤ X_max
    | none => false
  let x ← take_idxs X X_idx
  let y ← take_idxs Y X_idx
  .ok (x, y)

/-- The contract of `np.argsort`: a permutation of the indices that puts the entries in order. -/
def Argsort [LE V] (argsort : List V → List ℕ) : Prop :=
  ∀ X, (argsort X).Perm (List.range X.length) ∧ ∀ X', take_idxs X (argsort X) = .ok X' → X'.Pairwise (· ≤ ·)

theorem take_idxs_ok {l : List W} : ∀ {idxs : List ℕ}, (∀ i ∈ idxs, i < l.length) →
    ∃ r, take_idxs l idxs = .ok r ∧ r.map some = idxs.map (fun i => l[i]?) := by
  intro idxs
  induction idxs with
  | nil => intro _; exact ⟨[], rfl, rfl⟩
  | cons i idxs ih =>
    intro h
    obtain ⟨r, hr, he⟩ := ih fun j hj => h j (List.mem_cons_of_mem _ hj)
    have hi := h i List.mem_cons_self
    refine ⟨l[i] :: r, ?_, ?_⟩
    · unfold take_idxs at hr ⊢
      rw [List.mapM_cons, hr, List.getElem?_eq_getElem hi]
      rfl
    · rw [List.map_cons, List.map_cons, he, List.getElem?_eq_getElem hi]

theorem map_range_getElem? (l : List W) : (List.range l.length).map (fun i => l[i]?) = l.map some := by
  apply List.ext_getElem
  · simp
  · intro i h1 h2
    simp at h1 ⊢

/-- C125: the columns are sorted together: one permutation puts the domain in order and is applied to every column that has an entry for
each of its numbers; missing columns and those with a single entry are left as they are. -/
theorem C125_sort [LinearOrder V] {argsort : List V → List ℕ} (ha : Argsort argsort) (X : List V) {Y : List (Option (List W))}
    (hY : ∀ y, some y ∈ Y → y.length = X.length ∨ y.length = 1) :
    ∃ X' Y', domain_sort argsort X Y = .ok (X', Y') ∧ X'.Pairwise (· ≤ ·) ∧
      ∃ idxs : List ℕ, idxs.Perm (List.range X.length) ∧ X'.map some = idxs.map (fun i => X[i]?) ∧
        List.Forall₂ (fun y y' => (y = none ∧ y' = none) ∨ (∃ c, y = some [c] ∧ y' = some [c]) ∨
          ∃ l l', y = some l ∧ y' = some l' ∧ l'.map some = idxs.map (fun i => l[i]?)) Y Y' := by
  unfold domain_sort
  split
  · rename_i h
    refine ⟨X, Y, rfl, ?_, List.range X.length, List.Perm.refl _, (map_range_getElem? X).symm, ?_⟩
    · rw [← List.isChain_iff_pairwise]
      rw [List.isChain_iff_getElem]
      intro i hi
      rw [List.all_eq_true] at h
      have h1 : (List.zipWith (fun a b => decide (a ≤ b)) X.dropLast X.tail)[i]? = some (decide (X[i] ≤ X[i + 1])) := by
        rw [List.getElem?_zipWith, List.getElem?_tail, List.getElem?_dropLast, if_pos (by omega), List.getElem?_eq_getElem hi,
          List.getElem?_eq_getElem (by omega : i < X.length)]
      have := h _ (List.mem_of_getElem? h1)
      simpa using this
    · rw [List.forall₂_same]
      intro y hy
      cases y with
      | none => exact Or.inl ⟨rfl, rfl⟩
      | some l =>
        right
        rcases hY l hy with h | h
        · exact Or.inr ⟨l, l, rfl, rfl, by rw [← h, map_range_getElem?]⟩
        · obtain ⟨c, rfl⟩ := List.length_eq_one_iff.1 h
          exact Or.inl ⟨c, rfl, rfl⟩
  · obtain ⟨hp, hs⟩ := ha X
    have hlt : ∀ i ∈ argsort X, i < X.length := fun i hi => List.mem_range.1 (hp.mem_iff.1 hi)
    obtain ⟨X', hX, hX'⟩ := take_idxs_ok (l := X) hlt
    have hYs : ∃ Y', (Y.mapM fun y => match y with
        | none => Except.ok none
        | some y => if y.length = 1 then Except.ok (some y) else do
          let y ← take_idxs y (argsort X)
          Except.ok (some y)) = Except.ok Y' ∧
        List.Forall₂ (fun y y' => (y = none ∧ y' = none) ∨ (∃ c, y = some [c] ∧ y' = some [c]) ∨
          ∃ l l', y = some l ∧ y' = some l' ∧ l'.map some = (argsort X).map (fun i => l[i]?)) Y Y' := by
      induction Y with
      | nil => exact ⟨[], rfl, List.Forall₂.nil⟩
      | cons y Y ih =>
        obtain ⟨Y', h1, h2⟩ := ih fun y hy => hY y (List.mem_cons_of_mem _ hy)
        rw [List.mapM_cons, h1]
        cases y with
        | none => exact ⟨none :: Y', rfl, List.Forall₂.cons (Or.inl ⟨rfl, rfl⟩) h2⟩
        | some l =>
          dsimp only
          split
          · rename_i h
            obtain ⟨c, rfl⟩ := List.length_eq_one_iff.1 h
            exact ⟨some [c] :: Y', rfl, List.Forall₂.cons (Or.inr (Or.inl ⟨c, rfl, rfl⟩)) h2⟩
          · rename_i h
            have hl : l.length = X.length := by
              rcases hY l List.mem_cons_self with h' | h'
              · exact h'
              · exact absurd h' h
            obtain ⟨l', hl', he⟩ := take_idxs_ok (l := l) (idxs := argsort X) (by rw [hl]; exact hlt)
            rw [hl']
            exact ⟨some l' :: Y', rfl, List.Forall₂.cons (Or.inr (Or.inr ⟨l, l', rfl, rfl, he⟩)) h2⟩
    obtain ⟨Y', hm, hf⟩ := hYs
    refine ⟨X', Y', ?_, hs X' hX, argsort X, hp, hX', hf⟩
    dsimp only
    rw [hX]
    change (Y.mapM _ >>= fun Y => Except.ok (X', Y)) = _
    rw [hm]
    rfl

/-- C125: `interval_limit` keeps exactly the rows of the interval, in their order. -/
theorem C125_interval [LinearOrder V] (X_min X_max : V) {X : List V} {Y : List W} (hl : X.length = Y.length) :
    ∃ x y, interval_limit X_min X_max X Y = .ok (x, y) ∧ x.length = y.length ∧
      x.zip y = (X.zip Y).filter fun p => decide (X_min ≤ p.1 ∧ p.1 ≤ X_max) := by
  have key : ∀ {U : Type} (l : List U) (P : ℕ → Bool), ∀ (k : ℕ) (m : List U), (∀ i, l[k + i]? = m[i]?) →
      ∃ r, take_idxs l ((List.range' k m.length).filter P) = .ok r ∧ r = ((m.zipIdx k).filter fun q => P q.2).map (·.1) := by
    intro U l P k m
    induction m generalizing k with
    | nil => intro _; exact ⟨[], rfl, rfl⟩
    | cons a m ih =>
      intro h
      obtain ⟨r, h1, h2⟩ := ih (k + 1) fun i => by rw [Nat.add_assoc, Nat.add_comm 1 i, h (i + 1), List.getElem?_cons_succ]
      have h0 := h 0
      rw [Nat.add_zero, List.getElem?_cons_zero] at h0
      rw [List.length_cons, List.range'_succ, List.filter_cons, List.zipIdx_cons, List.filter_cons]
      dsimp only
      split
      · refine ⟨a :: r, ?_, by rw [List.map_cons, h2]⟩
        unfold take_idxs at h1 ⊢
        rw [List.mapM_cons, h1, h0]
        rfl
      · exact ⟨r, h1, h2⟩
  unfold interval_limit
  dsimp only
  generalize hP : (fun i : ℕ => (match X[i]? with
    | some x => decide (X_min ≤ x ∧ x ≤ X_max)
    | none => false : Bool)) = P
  obtain ⟨x, hx, ex⟩ := key X P 0 X (fun i => by rw [Nat.zero_add])
  obtain ⟨y, hy, ey⟩ := key Y P 0 Y (fun i => by rw [Nat.zero_add])
  rw [← List.range_eq_range'] at hx hy
  rw [← hl] at hy
  rw [hx]
  change ∃ x' y', (take_idxs Y _ >>= fun y => Except.ok (x, y)) = _ ∧ _
  rw [hy]
  refine ⟨x, y, rfl, ?_⟩
  have hPX : ∀ i v, X[i]? = some v → P i = decide (X_min ≤ v ∧ v ≤ X_max) := by
    intro i v h
    rw [← hP]
    simp only [h]
  subst ex ey
  clear hx hy hP
  have gen : ∀ (k : ℕ) (A : List V) (B : List W), A.length = B.length → (∀ i v, A[i]? = some v → P (k + i) = decide (X_min ≤ v ∧ v ≤ X_max)) →
      (((A.zipIdx k).filter fun q => P q.2).map (·.1)).length = (((B.zipIdx k).filter fun q => P q.2).map (·.1)).length ∧
      (((A.zipIdx k).filter fun q => P q.2).map (·.1)).zip (((B.zipIdx k).filter fun q => P q.2).map (·.1)) =
        (A.zip B).filter fun p => decide (X_min ≤ p.1 ∧ p.1 ≤ X_max) := by
    intro k A
    induction A generalizing k with
    | nil =>
      intro B hB _
      cases B with
      | nil => exact ⟨rfl, rfl⟩
      | cons b B => simp at hB
    | cons a A ih =>
      intro B hB hk
      cases B with
      | nil => simp at hB
      | cons b B =>
        obtain ⟨i1, i2⟩ := ih (k + 1) B (by simpa using hB) fun i v h => by
          rw [Nat.add_assoc, Nat.add_comm 1 i]
          exact hk (i + 1) v (by simpa using h)
        have h0 := hk 0 a rfl
        rw [Nat.add_zero] at h0
        simp only [List.zipIdx_cons, List.filter_cons, List.zip_cons_cons]
        rw [h0]
        split
        · simp only [List.map_cons, List.length_cons, List.zip_cons_cons]
          exact ⟨by rw [i1], by rw [i2]⟩
        · exact ⟨i1, i2⟩
  exact gen 0 X Y hl fun i v h => by rw [Nat.zero_add]; exact hPX i v h

example : domain_sort (V := ℕ) (W := ℕ) (fun _ => [1, 2, 0]) [3, 1, 2] [some [7, 8, 9], none, some [5]] =
    .ok ([1, 2, 3], [some [8, 9, 7], none, some [5]]) := rfl

end Npu
