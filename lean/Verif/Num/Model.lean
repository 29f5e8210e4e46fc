import Verif.Py.Dict

/-!
# `phasor/math/numerics.py` and `phasor/matrix/linalg.py`
-/

namespace Num
open Py

/-! ## numerics.py -/

/-- The loop of `_generate_bitfill`, l.40-43: `k` turns from `n`, `num`. -/
def bitfillLoop : Nat → Nat → Nat → List (Option Nat) → List (Option Nat)
  | 0, _, _, b => b
  | k + 1, n, num, b => bitfillLoop k (n + 1) ((num * 2) % b.length) (b.set num (some n))

/-- `_generate_bitfill`, l.28-44; the loop runs `p - 1` times. -/
def generate_bitfill (p : Nat) : List (Option Nat) := bitfillLoop (p - 1) 0 1 (List.replicate p none)

/-- `bit_lookup_37`, l.47. -/
def bit_lookup_37 : List (Option Nat) := generate_bitfill 37

/-- `bit_lookup_37_max`, l.48. -/
def bit_lookup_37_max : Nat := 1 <<< (bit_lookup_37.length - 1)

/-- The inner loop l.58-61. -/
def shiftLoop (shift num numbit : Nat) : Nat × Nat × Nat :=
  if h : numbit ≥ bit_lookup_37_max then
    shiftLoop (shift + (bit_lookup_37.length - 1)) (num >>> (bit_lookup_37.length - 1))
      (numbit >>> (bit_lookup_37.length - 1))
  else (shift, num, numbit)
termination_by numbit
decreasing_by
  have h36 : bit_lookup_37.length - 1 = 36 := by decide
  have hmax : bit_lookup_37_max = 2 ^ 36 := by decide
  rw [h36, Nat.shiftRight_eq_div_pow]
  rw [hmax] at h
  exact Nat.div_lt_self (Nat.lt_of_lt_of_le (by decide) h) (by decide)

/-- l.62: `bit_lookup_37[numbit % len] + shift`; adding to `None` is a `TypeError`. -/
def lookup (numbit shift : Nat) : Except Err Nat :=
  match bit_lookup_37[numbit % bit_lookup_37.length]? with
  | none => .error .indexError
  | some none => .error .typeError
  | some (some b) => .ok (b + shift)

/-- `yield_bits_on`, l.50-64, on a natural number: the list of the yielded values.  `fuel` bounds the turns of the outer
loop; running out of it is reported as an error, the theorems show that `num` turns suffice. -/
def yieldLoop : Nat → Nat → Nat → Except Err (List Nat)
  | fuel, shift, num =>
    if num = 0 then .ok [] else
    match fuel with
    | 0 => .error .runtime
    | fuel + 1 => do
      let numbit := ((num ^^^ (num - 1)) + 1) >>> 1
      let s := shiftLoop shift num numbit
      let y ← lookup s.2.2 s.1
      let ys ← yieldLoop fuel s.1 (s.2.1 ^^^ s.2.2)
      pure (y :: ys)

def yield_bits_on (num : Nat) : Except Err (List Nat) := yieldLoop num 0 num

/-! ## linalg.py -/

/-- An element of the argument of `stackrange`: a number, or something that can be iterated (again and again, as ranges, lists
and tuples can). -/
inductive Rng (α : Type)
  | num (n : Int)
  | iter (l : List α)

/-- l.12-18; `range` of a negative number is empty. -/
def Rng.list : Rng Int → List Int
  | .num n => (List.range n.toNat).map Int.ofNat
  | .iter l => l

/-- The loops l.22-39 turn by turn.  The iterators on `iterstack` are the lists of what they have left; both stacks have their top
first.  Running out of `fuel` is reported as an error. -/
def stackLoop {α : Type} (rs : List (List α)) : Nat → List (List α) → List (List α) → List (List α) →
    Except Err (List (List α))
  | 0, _, _, _ => .error .runtime
  | fuel + 1, iters, tups, out =>
    match iters, tups with
    | [], _ => .ok out
    | _ :: _, [] => .error .indexError
    | it :: its, tup :: tups =>
      if its.length + 1 < rs.length then
        match it with
        | [] => stackLoop rs fuel its tups out
        | v :: rest =>
          match rs[its.length + 1]? with
          | none => .error .indexError
          | some r => stackLoop rs fuel (r :: rest :: its) ((tup ++ [v]) :: tup :: tups) out
      else stackLoop rs fuel its tups (out ++ it.map (fun v => tup ++ [v]))

/-- `stackrange`, l.10-39: the list of the yielded tuples; `rangestack[0]` fails on an empty tuple. -/
def stackrange (fuel : Nat) (rangetup : List (Rng Int)) : Except Err (List (List Int)) :=
  match rangetup.map Rng.list with
  | [] => .error .indexError
  | r :: rs => stackLoop (r :: rs) fuel [r] [[]] []

end Num
