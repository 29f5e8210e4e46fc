import Verif.Inject.Model

/-!
# Model of the AC readouts

Source: `/repo/phasor/readouts/AC.py`.

`cm` is `coupling_matrix_inv` of `coupling_solution_get`: the couplings from the driven nodes to the nodes read out.
Values are numbers of a field (one frequency point); a division by zero, for which numpy gives infinities, is an error.
-/

set_option linter.unusedSectionVars false

namespace Readout
open Py Inject

variable {P K V : Type} [DecidableEq P] [DecidableEq K] [Field V] [DecidableEq V]

/-- `coupling_matrix_inv.get((d, t), 0)`. -/
def cget (cm : Dict ((P × K) × (P × K)) V) (d t : P × K) : V := (Dict.get? cm (d, t)).getD 0

/-- The sums `N_tot` and `D_tot` (l.89-100, l.124-129, l.213-216, l.326-329): the couplings of both sidebands of a drive to the
upper sideband of a port. -/
def tot (cm : Dict ((P × K) × (P × K)) V) (keyP keyN : K) (portDrv port : P) : V :=
  cget cm (portDrv, keyP) (port, keyP) + cget cm (portDrv, keyN) (port, keyP)

/-- l.33-34: the drive of an `ACReadout`. -/
def ac_drive (portD : P) (portDrv : Option P) : P := portDrv.getD portD

/-- l.66-103, `ACReadout.AC_sensitivityOL`. -/
def AC_sensitivityOL (cm : Dict ((P × K) × (P × K)) V) (keyP keyN : K) (portN portD : P) (portDrv : Option P) : Except Err V :=
  pdiv (tot cm keyP keyN (ac_drive portD portDrv) portN) (tot cm keyP keyN (ac_drive portD portDrv) portD)

/-- l.105-130, `ACReadout.AC_sensitivity`; l.198-220, `ACReadoutCLG.AC_sensitivity`, is the same without `portDrv`. -/
def AC_sensitivity (cm : Dict ((P × K) × (P × K)) V) (keyP keyN : K) (portN portD : P) (portDrv : Option P) : V :=
  tot cm keyP keyN (ac_drive portD portDrv) portN

/-- l.260-265: the drive of an `ACReadoutLG`; without any port `self.portDrv` does not exist. -/
def lg_drive (portAct portSense portDrv : Option P) : Except Err P :=
  match portDrv with
  | some p => .ok p
  | none => match portAct with
    | some p => .ok p
    | none => match portSense with
      | some p => .ok p
      | none => .error .attributeError

/-- l.307-333, `ACReadoutLG.CLG`; `none` is a port `None`, to which no coupling leads. -/
def CLG (cm : Dict ((P × K) × (P × K)) V) (keyP keyN : K) (portAct portSense : Option P) : V :=
  match portSense with
  | some p => tot cm keyP keyN p p
  | none => match portAct with
    | some p => tot cm keyP keyN p p
    | none => 0

/-- l.335-337, `ACReadoutLG.OLG`. -/
def OLG (cm : Dict ((P × K) × (P × K)) V) (keyP keyN : K) (portAct portSense : Option P) : Except Err V :=
  pdiv (1 - CLG cm keyP keyN portAct portSense) (CLG cm keyP keyN portAct portSense)

/-- l.339-368, `ACReadoutLG.GPlant`, with both ports given. -/
def GPlant (cm : Dict ((P × K) × (P × K)) V) (keyP : K) (portAct portSense : P) (portDrv : Option P) : Except Err V := do
  let drv ← lg_drive (some portAct) (some portSense) portDrv
  pdiv (cget cm (drv, keyP) (portSense, keyP)) (cget cm (drv, keyP) (portAct, keyP))

end Readout
