import Verif.Py.Dict
import Mathlib.Algebra.Field.Defs
import Mathlib.Order.Defs.LinearOrder

/-!
# `phasor/math/complex.py`

The class `Complex` over exact numbers: `V` is an ordered field, `sqrt` stands for `x**.5`.  Array components, object dtypes and
formatting are left out.
-/

namespace Cplx
open Py

variable {V : Type}

/-- `Complex`, l.28-50. -/
structure Cx (V : Type) where
  re : V
  im : V
  deriving DecidableEq, Repr

/-- The other operand: an object with complex parts (`Complex`, the builtin `complex`), a number whose `.imag` is zero, or an
object without these attributes. -/
inductive Arg (V : Type)
  | cx (z : Cx V)
  | num (x : V)
  | bare (x : V)
  deriving DecidableEq, Repr

variable [Field V]

/-- l.60-65 and the like: `o_real`, `o_imag`. -/
def Arg.parts : Arg V → V × V
  | .cx z => (z.re, z.im)
  | .num x => (x, 0)
  | .bare x => (x, 0)

/-- `Complex(arg)`, l.31-50. -/
def ofArg : Arg V → Cx V
  | .cx z => ⟨z.re, z.im⟩
  | .num x => ⟨x, 0⟩
  | .bare x => ⟨x, 0⟩

/-- `__add__`, l.59-69. -/
def add (z : Cx V) (o : Arg V) : Cx V := ⟨z.re + o.parts.1, z.im + o.parts.2⟩

/-- `__radd__`, l.71-81. -/
def radd (z : Cx V) (o : Arg V) : Cx V := ⟨o.parts.1 + z.re, o.parts.2 + z.im⟩

/-- `__sub__`, l.83-93. -/
def sub (z : Cx V) (o : Arg V) : Cx V := ⟨z.re - o.parts.1, z.im - o.parts.2⟩

/-- `__rsub__`, l.95-105. -/
def rsub (z : Cx V) (o : Arg V) : Cx V := ⟨o.parts.1 - z.re, o.parts.2 - z.im⟩

/-- `__mul__`, l.107-117. -/
def mul (z : Cx V) (o : Arg V) : Cx V :=
  ⟨z.re * o.parts.1 - z.im * o.parts.2, z.re * o.parts.2 + z.im * o.parts.1⟩

/-- `__rmul__`, l.119-129. -/
def rmul (z : Cx V) (o : Arg V) : Cx V :=
  ⟨o.parts.1 * z.re - o.parts.2 * z.im, o.parts.1 * z.im + o.parts.2 * z.re⟩

section
variable [DecidableEq V]

/-- `__truediv__`, l.157-168 (and `__div__`, l.131-142, the same). -/
def div (z : Cx V) (o : Arg V) : Except Err (Cx V) :=
  let den := o.parts.1 * o.parts.1 + o.parts.2 * o.parts.2
  if den = 0 then .error .zeroDivision
  else .ok ⟨(z.re * o.parts.1 + z.im * o.parts.2) / den, (z.im * o.parts.1 - z.re * o.parts.2) / den⟩

/-- `__rtruediv__`, l.170-181 (and `__rdiv__`, l.144-155, the same). -/
def rdiv (z : Cx V) (o : Arg V) : Except Err (Cx V) :=
  let den := z.re * z.re + z.im * z.im
  if den = 0 then .error .zeroDivision
  else .ok ⟨(o.parts.1 * z.re + o.parts.2 * z.im) / den, (o.parts.2 * z.re - o.parts.1 * z.im) / den⟩

/-- `__eq__`, l.183-193: compares with `other.real`, `other.imag` themselves. -/
def eq (z : Cx V) : Arg V → Except Err Bool
  | .cx w => .ok (decide (z.re = w.re) && decide (z.im = w.im))
  | .num x => .ok (decide (z.re = x) && decide (z.im = 0))
  | .bare _ => .error .attributeError

/-- `__ne__`, l.195-205. -/
def ne (z : Cx V) : Arg V → Except Err Bool
  | .cx w => .ok (decide (z.re ≠ w.re) || decide (z.im ≠ w.im))
  | .num x => .ok (decide (z.re ≠ x) || decide (z.im ≠ 0))
  | .bare _ => .error .attributeError

end

/-- `__neg__`, l.270-271. -/
def neg (z : Cx V) : Cx V := ⟨-z.re, -z.im⟩

/-- `__pos__`, l.273-274. -/
def pos (z : Cx V) : Cx V := z

/-- `__abs__`, l.276-277. -/
def abs (sqrt : V → V) (z : Cx V) : V := sqrt (z.re * z.re + z.im * z.im)

/-- `abs_sq`, l.279-280. -/
def absSq (z : Cx V) : V := z.re * z.re + z.im * z.im

/-- `__hash__`, l.282-283. -/
def hash (h : V → Nat) (z : Cx V) : Nat := h z.re ^^^ h z.im

/-- `conjugate`, l.289-293. -/
def conjugate (z : Cx V) : Cx V := ⟨z.re, -z.im⟩

/-! ## Powers -/

/-- The exponent: an `int`, a `float` with an integer value, the `float` 0.5, another `float`, or a number with imaginary part. -/
inductive Expo
  | int (n : Int)
  | float (n : Int)
  | half
  | other
  | imag
  deriving DecidableEq, Repr

/-- What `__pow__` does: return a value, raise `TypeError`, return `NotImplemented`, or (not python) have used up the turns that
the model allows. -/
inductive Pow (V : Type)
  | val (z : Cx V)
  | typeError
  | notImplemented
  | running
  deriving DecidableEq, Repr

/-- The loop l.222-223. -/
def times (self : Cx V) : Nat → Cx V → Cx V
  | 0, val => val
  | k + 1, val => times self k (mul val (.cx self))

/-- The loops l.219-224.  `flt` tells that `o_real` is a float, as it is after a division (l.220); `range` refuses floats. -/
def intPow (self : Cx V) (fuel : Nat) (n : Int) (flt : Bool) (val : Cx V) : Pow V :=
  if n % 2 = 0 then
    match fuel with
    | 0 => .running
    | fuel + 1 => intPow self fuel (n / 2) true (mul val (.cx val))
  else if flt then .typeError
  else .val (times self (n - 1).toNat val)

/-- `__pow__`, l.207-257, for numbers (the branch l.255-256 needs an exponent without `.real`). -/
def pow [LinearOrder V] (sqrt : V → V) (fuel : Nat) (z : Cx V) : Expo → Pow V
  | .int n => intPow z fuel n false z
  | .float n => intPow z fuel n false z                        -- l.218 makes it an `int`
  | .half =>
    let aval := abs sqrt z
    let rval_sq := (aval + z.re) / 2
    let ival_sq := (aval - z.re) / 2
    if z.im ≥ 0 then .val ⟨sqrt rval_sq, sqrt ival_sq⟩ else .val ⟨sqrt rval_sq, -sqrt ival_sq⟩
  | .other => .notImplemented
  | .imag => .notImplemented

/-! ## Functions -/

/-- `exp`, l.305-308. -/
def exp (exp cos sin : V → V) (z : Cx V) : Cx V :=
  let mag := exp z.re
  ⟨mag * cos z.im, mag * sin z.im⟩

/-- `angle`, l.310-326. -/
def angle [LinearOrder V] (pi : V) (atan : V → V) (deg : Bool) (z : Cx V) : V :=
  let phase := if z.re = 0 then (if z.im ≥ 0 then pi / 2 else -pi / 2) else atan (z.im / z.re)
  let phase := if z.re < 0 then (if z.im ≥ 0 then phase + pi else phase - pi) else phase
  if deg then phase * 180 / pi else phase

end Cplx
