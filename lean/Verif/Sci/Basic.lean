import Verif.Sci.Model
import Verif.Dag.Core

/-! # The two matrices and the loop over the stored entries of the result -/

set_option linter.unusedSectionVars false

namespace Sci
open Py Graph Dag

section general
variable {M : Type} {V : Type} [DecidableEq M]

theorem build_of {α β : Type} {f : α → Except Err β} (g : α → β) : ∀ (l : List α), (∀ a ∈ l, f a = .ok (g a)) →
    build f l = .ok (l.map g) := by
  intro l
  induction l with
  | nil => intro _; rfl
  | cons a l ih =>
    intro h
    unfold build
    rw [h a (by simp), ih (fun b hb => h b (by simp [hb]))]
    rfl

theorem mem_pairs {d : Dict M (List M)} (hd : Dict.WF d) (a b : M) : (a, b) ∈ pairs d ↔ b ∈ at' d a := by
  unfold pairs at'
  simp only [List.mem_flatMap, List.mem_map, Prod.mk.injEq]
  constructor
  · rintro ⟨⟨k, l⟩, h1, s, h2, rfl, rfl⟩
    rw [Dict.get?_of_mem hd h1]
    exact h2
  · intro h
    cases hg : Dict.get? d a with
    | none => rw [hg] at h; simp at h
    | some l =>
      rw [hg] at h
      exact ⟨(a, l), Dict.mem_of_get? hg, b, h, rfl, rfl⟩

theorem pairs_nodup {d : Dict M (List M)} (hd : LD d) : (pairs d).Nodup := by
  unfold pairs
  rw [List.nodup_flatMap]
  constructor
  · intro kv hkv
    refine List.Nodup.map (fun a b e => (Prod.mk.injEq _ _ _ _ ▸ e).2) ?_
    have := hd.nd kv.1
    unfold at' at this
    rw [Dict.get?_of_mem hd.wf hkv] at this
    exact this
  · have h := hd.wf
    unfold Dict.WF Dict.keys at h
    rw [List.Nodup, List.pairwise_map] at h
    refine h.imp ?_
    intro a b hab
    rw [Function.onFun, List.disjoint_left]
    intro p hp hq
    rw [List.mem_map] at hp hq
    obtain ⟨s, _, rfl⟩ := hp
    obtain ⟨s', _, e⟩ := hq
    exact hab (Prod.mk.injEq _ _ _ _ ▸ e).1.symm

theorem entry_at [AddMonoid V] {α : Type} {row col : α → Nat} {val : α → V} : ∀ {l : List α}, l.Nodup → ∀ {p : α}, p ∈ l →
    (∀ q ∈ l, row q = row p → col q = col p → q = p) →
    entry (l.map (fun q => (row q, col q, val q))) (row p) (col p) = val p := by
  intro l hl p hp hu
  unfold entry
  rw [List.filter_map, List.map_map]
  have : l.filter ((fun t : Nat × Nat × V => decide (t.1 = row p ∧ t.2.1 = col p)) ∘ fun q => (row q, col q, val q)) = [p] := by
    classical
    have h1 : ∀ q ∈ l, ((fun t : Nat × Nat × V => decide (t.1 = row p ∧ t.2.1 = col p)) ∘ fun q => (row q, col q, val q)) q = (decide (q = p)) := by
      intro q hq
      simp only [Function.comp]
      rw [decide_eq_decide]
      constructor
      · rintro ⟨e1, e2⟩; exact hu q hq e1 e2
      · rintro rfl; exact ⟨rfl, rfl⟩
    rw [List.filter_congr h1]
    rw [List.filter_eq p, List.count_eq_one_of_mem hl hp]
    rfl
  rw [this]
  simp

theorem entry_off [AddMonoid V] {A : Coo V} {r c : Nat} (h : ∀ t ∈ A, ¬ (t.1 = r ∧ t.2.1 = c)) : entry A r c = 0 := by
  unfold entry
  rw [List.filter_eq_nil_iff.mpr]
  · rfl
  · intro t ht
    simpa using h t ht

theorem sum_range_list {l : List M} [AddCommMonoid V] (hl : l.Nodup) (G : Nat → V) :
    ∑ k ∈ Finset.range l.length, G k = (l.map (fun w => G (l.idxOf w))).sum := by
  rw [Finset.sum_range, ← List.sum_ofFn]
  congr 1
  apply List.ext_getElem
  · simp
  · intro i h1 h2
    simp only [List.length_map] at h2
    simp [List.getElem_map, hl.idxOf_getElem i h2]

theorem index_ok {keys : List M} {k : M} (h : k ∈ keys) : index keys k = .ok (keys.idxOf k) := if_pos h

theorem item_ok {keys : List M} {i : Nat} (h : i < keys.length) : item keys i = .ok keys[i] := by
  unfold item
  rw [List.getElem?_eq_getElem h]

end general
end Sci
