import Verif.Dag.Spec
import Verif.Graph.Basic

/-! # Dictionaries of sets -/

set_option linter.unusedSectionVars false

namespace Dag
open Py Graph

variable {M : Type} {V : Type} [DecidableEq M]

theorem at_set (d : Dict M (List M)) (a x : M) (l : List M) : at' (Dict.set d a l) x = if a = x then l else at' d x := by
  unfold at'
  rw [Dict.get?_set]
  split <;> simp

theorem at_erase (d : Dict M (List M)) (a x : M) : at' (Dict.erase d a) x = if a = x then [] else at' d x := by
  unfold at'
  rw [Dict.get?_erase]
  split <;> simp

theorem has_set {K X : Type} [DecidableEq K] (d : Dict K X) (a x : K) (l : X) :
    Dict.has (Dict.set d a l) x = true ↔ a = x ∨ Dict.has d x = true := by
  unfold Dict.has
  rw [Dict.get?_set]
  split <;> simp_all

theorem has_erase {K X : Type} [DecidableEq K] (d : Dict K X) (a x : K) :
    Dict.has (Dict.erase d a) x = true ↔ a ≠ x ∧ Dict.has d x = true := by
  unfold Dict.has
  rw [Dict.get?_erase]
  split <;> simp_all

theorem has_of_mem {d : Dict M (List M)} {a b : M} (h : b ∈ at' d a) : Dict.has d a = true := by
  unfold at' at h
  unfold Dict.has
  cases hd : Dict.get? d a with
  | none => simp [hd] at h
  | some v => rfl

theorem mem_ins (d : Dict M (List M)) (a b x y : M) : y ∈ at' (ins d a b) x ↔ y ∈ at' d x ∨ (a = x ∧ y = b) := by
  unfold ins
  rw [at_set]
  split
  · rename_i h; subst h; simp [mem_sadd]
  · rename_i h; simp [h]

theorem has_ins (d : Dict M (List M)) (a b x : M) : Dict.has (ins d a b) x = true ↔ a = x ∨ Dict.has d x = true := by
  unfold ins; exact has_set ..

theorem LD_set {d : Dict M (List M)} (h : LD d) (a : M) {l : List M} (hl : l.Nodup) : LD (Dict.set d a l) := by
  refine ⟨Dict.WF_set h.wf _ _, fun x => ?_⟩
  rw [at_set]
  split
  · exact hl
  · exact h.nd x

theorem LD_ins {d : Dict M (List M)} (h : LD d) (a b : M) : LD (ins d a b) :=
  LD_set h a (nodup_sadd (h.nd a) b)

theorem LD_erase {d : Dict M (List M)} (h : LD d) (a : M) : LD (Dict.erase d a) := by
  refine ⟨Dict.WF_erase h.wf _, fun x => ?_⟩
  rw [at_erase]
  split
  · exact List.nodup_nil
  · exact h.nd x

theorem LD_nil : LD ([] : Dict M (List M)) := ⟨Dict.WF_nil, fun _ => List.nodup_nil⟩

theorem rem_ok {d : Dict M (List M)} {a b : M} (h : b ∈ at' d a) : ∃ d', rem d a b = .ok d' ∧
    (∀ x y, y ∈ at' d' x ↔ y ∈ at' d x ∧ ¬ (x = a ∧ y = b)) ∧
    (∀ x, Dict.has d' x = true ↔ Dict.has d x = true) ∧ (LD d → LD d') := by
  refine ⟨Dict.set d a ((at' d a).filter (· ≠ b)), ?_, ?_, ?_, ?_⟩
  · unfold rem
    rw [sremove_ok h]
    rfl
  · intro x y
    rw [at_set]
    split
    · rename_i hx
      subst hx
      simp
    · rename_i hx
      constructor
      · intro hy
        exact ⟨hy, fun hh => hx hh.1.symm⟩
      · exact fun hy => hy.1
  · intro x
    rw [has_set]
    constructor
    · rintro (rfl | hx)
      · exact has_of_mem h
      · exact hx
    · exact Or.inr
  · intro hd
    exact LD_set hd a ((hd.nd a).filter _)

theorem get_ok {K X : Type} [DecidableEq K] {d : Dict K X} {k : K} {v : X} (h : Dict.get? d k = some v) :
    Dict.get d k = .ok v := by
  unfold Dict.get; rw [h]

theorem del_ok {K X : Type} [DecidableEq K] {d : Dict K X} {k : K} (h : (Dict.get? d k).isSome) :
    Dict.del d k = .ok (Dict.erase d k) := by
  unfold Dict.del Dict.has
  rw [if_pos h]

end Dag
