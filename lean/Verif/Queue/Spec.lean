import Verif.Queue.Model
import Mathlib.Data.Multiset.AddSub

/-!
# Specification of the priority queue: a multiset from which least elements are removed
-/

universe u

namespace Queue
open Py
variable {α : Type u}

/-- `<` is a strict weak order: asymmetric, and "not less" is transitive (ties are allowed). -/
structure StrictWeak (lt : α → α → Bool) : Prop where
  asymm : ∀ a b, lt a b = true → lt b a = false
  ntrans : ∀ a b c, lt b a = false → lt c b = false → lt c a = false

/-- `x` is a least element of the multiset. -/
def IsLeast (lt : α → α → Bool) (x : α) (m : Multiset α) : Prop := x ∈ m ∧ ∀ y ∈ m, lt y x = false

/-- `Allowed lt m op out m'`: performing `op` on contents `m` may give `out` and leave `m'`. -/
inductive Allowed (lt : α → α → Bool) : Multiset α → Op α → Out α → Multiset α → Prop
  | peekEmpty : Allowed lt 0 .peek (.err .empty) 0
  | peek {m x} : IsLeast lt x m → Allowed lt m .peek (.val x) m
  | isEmpty {m b} : (b = true ↔ m = 0) → Allowed lt m .isEmpty (.bool b) m
  | len {m} : Allowed lt m .len (.nat m.card) m
  | popEmpty : Allowed lt 0 .pop (.err .empty) 0
  | pop {m x} : IsLeast lt x (x ::ₘ m) → Allowed lt (x ::ₘ m) .pop (.val x) m
  | push {m x} : Allowed lt m (.push x) .unit (x ::ₘ m)
  | replaceEmpty {x} : Allowed lt 0 (.replace x) (.err .indexError) 0
  | replace {m x y} : IsLeast lt y (y ::ₘ m) → Allowed lt (y ::ₘ m) (.replace x) (.val y) (x ::ₘ m)
  | pushpop {m m' x y} : x ::ₘ m = y ::ₘ m' → IsLeast lt y (y ::ₘ m') →
      Allowed lt m (.pushpop x) (.val y) m'

/-- A whole history is allowed. -/
inductive AllowedRun (lt : α → α → Bool) : Multiset α → List (Op α) → List (Out α) → Multiset α → Prop
  | nil {m} : AllowedRun lt m [] [] m
  | cons {m op out m' ops outs m''} : Allowed lt m op out m' → AllowedRun lt m' ops outs m'' →
      AllowedRun lt m (op :: ops) (out :: outs) m''

end Queue
