import Verif.Inject.Spec

/-!
# Ports and scattering matrices

Sources: `/repo/phasor/base/ports.py`, `/repo/phasor/electronics/smatrix.py` and `/repo/phasor/mechanical/smatrix.py`.

Shared by the electrical and the mechanical elements, whose ports have an ingoing and an outgoing wave, the port keys `i`
and `o`.  Values are taken in a field: one frequency point, exact arithmetic; division by zero is an error.
-/

set_option linter.unusedSectionVars false

namespace Circuit
open Py Inject

variable {P K F : Type} [DecidableEq P] [DecidableEq K] [Field F] [DecidableEq F]

/-- `base/ports.py` l.60-80, `PortInOutRaw`: the keys of the two waves of a port. -/
structure Port (P : Type) where
  i : P
  o : P
deriving DecidableEq

/-- What the elements read from the system. -/
structure Env (P K F : Type) where
  /-- `Ze_termination` (`electronics/elements.py` l.20), for mechanical systems `Zm_termination`
  (`mechanical/elements.py` l.38) -/
  Ze : F
  /-- `symbols.i2pi` -/
  i2pi : F
  /-- `symbols.i` -/
  i : F
  /-- `symbols.pi` -/
  pi : F
  /-- `symbols.exp` -/
  exp : F → F
  /-- `system.classical_frequency_extract` -/
  freq : K → F
  /-- `matrix_algorithm.port_set_get` -/
  keys : P → List K
  /-- the `fkey` of the sources -/
  dc : K

variable (env : Env P K F)

/-- The inner loop of every `system_setup_coupling`: for each key of `pfrom` a coupling to `pto`. -/
def per_key (pfrom pto : P) (gain : K → Except Err F) : Except Err (List (Coupling P K F)) :=
  (env.keys pfrom).mapM (fun k => (gain k).map (fun g => Coupling.edge (pfrom, k) (pto, k) g))

/-- Running a list of coupling blocks one after the other. -/
def blocks : List (Except Err (List (Coupling P K F))) → Except Err (List (Coupling P K F))
  | [] => .ok []
  | b :: bs => do
    let c ← b
    let cs ← blocks bs
    pure (c ++ cs)

/-- `electronics/smatrix.py` l.17-29 and `mechanical/smatrix.py` l.16-28, `SMatrix1PortBase.system_setup_coupling`. -/
def setup1 (S11 : F → Except Err F) (A : Port P) : Except Err (List (Coupling P K F)) :=
  per_key env A.i A.o (fun k => S11 (env.freq k))

/-- `electronics/smatrix.py` l.63-81 and `mechanical/smatrix.py` l.62-80, `SMatrix2PortBase.system_setup_coupling`. -/
def setup2 (S11 S12 S21 S22 : F → Except Err F) (A B : Port P) : Except Err (List (Coupling P K F)) :=
  blocks [per_key env A.i A.o (fun k => S11 (env.freq k)),
    per_key env A.i B.o (fun k => S12 (env.freq k)),
    per_key env B.i A.o (fun k => S21 (env.freq k)),
    per_key env B.i B.o (fun k => S22 (env.freq k))]

end Circuit
