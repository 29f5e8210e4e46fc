import Mathlib.Algebra.Star.Basic
import Mathlib.Algebra.Field.Basic
import Mathlib.Data.List.Basic
import Verif.Circuit.Model

/-!
# Model of the zero-pole filters and the other transfer functions

Sources: `/repo/phasor/signals/ZPSOS.py`, `/repo/phasor/signals/siso_filter.py`.

Numbers are elements of a field with a conjugation; `1j` is a parameter.  Frequencies are scalars: a division by zero
raises `ZeroDivisionError` as it does for Python numbers (numpy arrays hold `inf` or `nan` instead).
-/

namespace Signal
open Py Inject

variable {F : Type} [Field F] [StarRing F] [DecidableEq F]

/-- ZPSOS.py l.49-64: the lists of real roots are checked with `assert(root.imag == 0)`. -/
def real_roots (l : List F) : Except Err (List F) :=
  if l.all (fun r => decide (star r = r)) then .ok l else .error .assertion

/-- ZPSOS.py l.165 and l.167, `1 - 1j * freq/root`. -/
def factor (j freq root : F) : Except Err F := do
  let q ← pdiv (j * freq) root
  return 1 - q

/-- ZPSOS.py l.174 and l.176, `(1 - freq/root.conjugate() * 1j) * (1 - freq/root * 1j)`. -/
def factor2 (j freq root : F) : Except Err F := do
  let q ← pdiv freq (star root)
  let p ← pdiv freq root
  return (1 - q * j) * (1 - p * j)

/-- the loops of ZPSOS.py l.166-167 and l.175-176 -/
def factors (fac : F → Except Err F) (xfer : F) : List F → Except Err F
  | [] => .ok xfer
  | root :: rest => do
    let v ← fac root
    factors fac (xfer * v) rest

/-- ZPSOS.py l.163-170 and l.172-179, `root_xfer` and `root_xfer2`. -/
def root_xfer (fac : F → Except Err F) : List F → Except Err F
  | [] => .ok 1
  | root :: rest => do
    let xfer ← fac root
    factors fac xfer rest

/-- The roots of an `SZPCascade`. -/
structure Cascade (F : Type) where
  zeros_r : List F
  zeros_c : List F
  poles_r : List F
  poles_c : List F

/-- ZPSOS.py l.49-64 with l.162-180, `SZPCascade.filter_func`. -/
def Cascade.filter_func (c : Cascade F) (j freq : F) : Except Err F := do
  let poles_r ← real_roots c.poles_r
  let zeros_r ← real_roots c.zeros_r
  let zr ← root_xfer (factor j freq) zeros_r
  let zc ← root_xfer (factor2 j freq) c.zeros_c
  let pr ← root_xfer (factor j freq) poles_r
  let pc ← root_xfer (factor2 j freq) c.poles_c
  pdiv (zr * zc) (pr * pc)

/-- An `SRationalFilter` (ZPSOS.py l.211-232). -/
structure Rational (F : Type) where
  cascade : Cascade F
  gain : F
  delay_s : Option F
  gain_F_Hz : F

/-- The symbols used by the transfer functions: `1j`, `i2pi`, `exp` and `abs`. -/
structure Sym (F : Type) where
  j : F
  i2pi : F
  exp : F → F
  abs : F → F

/-- ZPSOS.py l.236-238. -/
def Rational.pre (r : Rational F) (sym : Sym F) (freq : F) : F :=
  match r.delay_s with
  | none => r.gain
  | some d => r.gain * sym.exp (-sym.i2pi * freq * d)

/-- ZPSOS.py l.241-242. -/
def Rational.normalise (r : Rational F) (sym : Sym F) (xfer : F) : Except Err F :=
  if r.gain_F_Hz ≠ 0 then do
    let v ← r.cascade.filter_func sym.j r.gain_F_Hz
    pdiv xfer (sym.abs v)
  else .ok xfer

/-- ZPSOS.py l.234-244, `SRationalFilter.filter_func`. -/
def Rational.filter_func (r : Rational F) (sym : Sym F) (freq : F) : Except Err F := do
  let v ← r.cascade.filter_func sym.j freq
  r.normalise sym (v * r.pre sym freq)

/-- siso_filter.py l.115-118, `Integrator.filter_func`. -/
def integrator (sym : Sym F) (freq : F) : Except Err F := pdiv 1 (-sym.j * freq)

/-- siso_filter.py l.165-168, `TransferFunctionSISOMechSingleResonance.filter_func`; `pi` is `np.pi`. -/
def mech_resonance (sym : Sym F) (pi mass_kg FWHM_Hz center_Hz freq : F) : Except Err F := do
  let gain ← pdiv 1 (mass_kg * (2 * pi) ^ 2)
  pdiv gain (-(freq ^ 2) + sym.j * FWHM_Hz * freq + center_Hz ^ 2)

end Signal
