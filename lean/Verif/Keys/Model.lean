import Verif.Py.Dict
import Mathlib.Data.List.Sort
import Mathlib.Algebra.Ring.Int.Defs
import Mathlib.Data.Int.Cast.Basic

/-!
# `phasor/base/dictionary_keys.py`

Model of `DictKey` (lines 9-146) and `FrequencyKey` (lines 146-235).
Names and frequency objects range over an arbitrary type; values range over an arbitrary type with
decidable equality.  Memoisation of the hash (`prev_hash`, `prev_tup`) is dropped: keys are immutable.
-/

universe u v

namespace Keys
open Py

/-! ## FrequencyKey -/

/-- `FrequencyKey.__init__`, dictionary_keys.py l.146-149: wraps the given dictionary. -/
structure FrequencyKey (F : Type u) where
  F_dict : Dict F Int

namespace FrequencyKey
variable {F : Type u} [DecidableEq F]

/-- The python object really is a dictionary: no repeated key. -/
def WF (k : FrequencyKey F) : Prop := Dict.WF k.F_dict

/-- `DC_is`, l.151-152: `not self.F_dict`. -/
def DC_is (k : FrequencyKey F) : Bool := k.F_dict.isEmpty

/-- `__eq__`, l.170-173 (both operands are `FrequencyKey`s). -/
def eq (a b : FrequencyKey F) : Bool := Dict.beq a.F_dict b.F_dict

/-- One pass of the loop of `__add__`, l.204-210. -/
def addLoop (self : Dict F Int) (acc : Dict F Int) : List (F × Int) → Dict F Int
  | [] => acc
  | (f, n) :: rest =>
    let current_idx := (Dict.get? self f).getD 0
    let new_idx := current_idx + n
    if new_idx = 0 ∧ Dict.has acc f = true then
      addLoop self (Dict.erase acc f) rest
    else
      addLoop self (Dict.set acc f new_idx) rest

/-- `__add__`, l.202-211. -/
def add (a b : FrequencyKey F) : FrequencyKey F := ⟨addLoop a.F_dict a.F_dict b.F_dict⟩

/-- One pass of the loop of `__sub__`, l.215-221. -/
def subLoop (self : Dict F Int) (acc : Dict F Int) : List (F × Int) → Dict F Int
  | [] => acc
  | (f, n) :: rest =>
    let current_idx := (Dict.get? self f).getD 0
    let new_idx := current_idx - n
    if new_idx = 0 ∧ Dict.has acc f = true then
      subLoop self (Dict.erase acc f) rest
    else
      subLoop self (Dict.set acc f new_idx) rest

/-- `__sub__`, l.213-222. -/
def sub (a b : FrequencyKey F) : FrequencyKey F := ⟨subLoop a.F_dict a.F_dict b.F_dict⟩

/-- `__rmul__`, l.224-228 (`n * k`). -/
def rmul (m : Int) (k : FrequencyKey F) : FrequencyKey F :=
  ⟨k.F_dict.foldl (fun acc fn => Dict.set acc fn.1 (m * fn.2)) []⟩

/-- `__neg__`, l.230-235: looks the entry up again and writes its negative.  The look-up of an iterated
key cannot fail, the `getD` is never used on a dictionary. -/
def neg (k : FrequencyKey F) : FrequencyKey F :=
  ⟨k.F_dict.foldl (fun acc fn => Dict.set acc fn.1 (-((Dict.get? k.F_dict fn.1).getD 0))) []⟩

/-- `frequency`, l.178-184; `val F` stands for `F.F_Hz.val`, in any commutative ring of numbers. -/
def frequency {R : Type v} [CommRing R] (val : F → R) (k : FrequencyKey F) : R :=
  k.F_dict.foldl (fun F_sum fn => if fn.2 ≠ 0 then F_sum + val fn.1 * (fn.2 : R) else F_sum) 0

/-- `hash_tuple`, l.162-168: the sorted tuple of the nonzero items.  Frequencies are ordered by `id`
(`FrequencyBase.__lt__`, base/bases.py l.114-118), a total order; the items of a dictionary have distinct
first components, so the comparison never reaches the multiplicities. -/
def hash_tuple [LinearOrder F] (k : FrequencyKey F) : List (F × Int) :=
  (k.F_dict.filter (fun fn => fn.2 ≠ 0)).insertionSort (fun a b => a.1 ≤ b.1)

/-- `__hash__`, l.154-160; `h` is python's tuple hash. -/
def hash [LinearOrder F] (h : List (F × Int) → Int) (k : FrequencyKey F) : Int := h (hash_tuple k)

end FrequencyKey

/-! ## DictKey -/

/-- `DictKey.__init__`, l.9-14: the object holds a dictionary of its own. -/
structure DictKey (K : Type u) (V : Type v) where
  dict : Dict K V
  deriving DecidableEq

namespace DictKey
variable {K : Type u} {V : Type v} [DecidableEq K] [DecidableEq V]

/-- The python object really is a dictionary: no repeated key. -/
def WF (k : DictKey K V) : Prop := Dict.WF k.dict

/-- `DictKey(**items)`/`DictKey(items)`, l.11-14. -/
def mk' (items : Dict K V) : DictKey K V := ⟨Dict.ofList items⟩

/-- `copy_update`, l.16-19. -/
def copy_update (k : DictKey K V) (kw : Dict K V) : DictKey K V := mk' (Dict.update k.dict kw)

/-- `__hash__`, l.21-28: hash of the sorted item tuple. -/
def hash_tuple [LinearOrder K] (k : DictKey K V) : List (K × V) :=
  k.dict.insertionSort (fun a b => a.1 ≤ b.1)

/-- `__eq__`, l.44-47 (both operands are of the same class). -/
def eq (a b : DictKey K V) : Bool := Dict.beq a.dict b.dict

/-- lexicographic `<` of python tuples of pairs whose components are compared by `ltK`, `ltV`. -/
def tupleLt (ltItem : K × V → K × V → Bool) : List (K × V) → List (K × V) → Bool
  | [], [] => false
  | [], _ :: _ => true
  | _ :: _, [] => false
  | a :: as, b :: bs => if a = b then tupleLt ltItem as bs else ltItem a b

/-- `__lt__`, l.49-55: **both** tuples are built from `self` (l.53 and l.54). -/
def lt [LinearOrder K] (ltItem : K × V → K × V → Bool) (self _other : DictKey K V) : Bool :=
  let l1 := self.hash_tuple
  let o1 := self.hash_tuple
  tupleLt ltItem l1 o1

/-- `__or__`, l.64-67. -/
def or (a b : DictKey K V) : DictKey K V := mk' (Dict.update a.dict b.dict)

/-- `kv_contains`, l.72-74: compares with the default marker when the key is missing. -/
def kv_contains (k : DictKey K V) (key : K) (v : V) : Bool :=
  match Dict.get? k.dict key with
  | none => false
  | some v2 => decide (v = v2)

/-- `__and__`, l.76-87. -/
def and (self other : DictKey K V) : DictKey K V :=
  let larger := if self.dict.length > other.dict.length then self else other
  let smaller := if self.dict.length > other.dict.length then other else self
  mk' (smaller.dict.foldl
    (fun newdict kv => if larger.kv_contains kv.1 kv.2 then Dict.set newdict kv.1 kv.2 else newdict) [])

/-- `contains`, l.89-93. -/
def contains (self other : DictKey K V) : Bool :=
  other.dict.all (fun kv => self.kv_contains kv.1 kv.2)

/-- loop of `without_keys`, l.97-98. -/
def delAll : List K → Dict K V → Except Err (Dict K V)
  | [], cp => .ok cp
  | k :: ks, cp => match Dict.del cp k with
    | .ok cp' => delAll ks cp'
    | .error e => .error e

/-- `without_keys`, l.95-99. -/
def without_keys (self : DictKey K V) (keys : List K) : Except Err (DictKey K V) :=
  match delAll keys self.dict with
  | .ok cp => .ok (mk' cp)
  | .error e => .error e

/-- body of the loop of `purge_keys`, l.104-107: `KeyError` is swallowed. -/
def purgeStep (cp : Dict K V) (k : K) : Dict K V :=
  match Dict.del cp k with
  | .ok cp' => cp'
  | .error _ => cp

/-- `purge_keys`, l.101-108. -/
def purge_keys (self : DictKey K V) (keys : List K) : DictKey K V :=
  mk' (keys.foldl purgeStep self.dict)

/-- `replace_keys`, l.110-118. -/
def replace_keys (self : DictKey K V) (key_dict : Dict K V) (more : List (Dict K V)) : DictKey K V :=
  mk' (more.foldl (fun cp kd => kd.foldl (fun cp kv => Dict.set cp kv.1 kv.2) cp)
    (key_dict.foldl (fun cp kv => Dict.set cp kv.1 kv.2) self.dict))

/-- `subkey_has`, l.120-128: a missing key is a `KeyError`, caught, False. -/
def subkey_has (self other : DictKey K V) : Bool :=
  other.dict.all (fun kv => match Dict.get? self.dict kv.1 with
    | none => false
    | some v2 => decide (kv.2 = v2))

/-- loop of `__sub__`, l.132-134: a missing key raises `KeyError`, a different value `AssertionError`. -/
def subLoop : Dict K V → Dict K V → Except Err (Dict K V)
  | [], cp => .ok cp
  | (k, v) :: rest, cp => match Dict.get? cp k with
    | none => .error .keyError
    | some v' => if v' = v then subLoop rest (Dict.erase cp k) else .error .assertion

/-- `__sub__`, l.130-135. -/
def sub (self other : DictKey K V) : Except Err (DictKey K V) :=
  match subLoop other.dict self.dict with
  | .ok cp => .ok (mk' cp)
  | .error e => .error e

end DictKey
end Keys
