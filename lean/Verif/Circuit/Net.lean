import Verif.Circuit.Props
import Verif.Inject.BondProps

/-!
# Model of circuits: elements, bonds, fluctuations and readouts

Sources: `/repo/phasor/system/system.py`, `/repo/phasor/electronics/ports.py`, `/repo/phasor/electronics/noise.py` and
`/repo/phasor/electronics/multimeter.py`.

A port key is a base key together with the number under `PostBondKey` if there is one (as in `C54_terminates`).
-/

set_option linter.unusedSectionVars false

namespace Circuit
open Py Inject

section Bonds
variable {P : Type} [DecidableEq P]

/-- `bonded_set` and `bond_pairs` of the system. -/
structure BondSt (P : Type) where
  bonded : List P
  pairs : Dict P (List P)

/-- One half of `bond_old`, `system.py` l.468-474 and l.484-490.  An electrical or mechanical port has no attribute
`multiple_attach`, so reading it in the assertion fails. -/
def attach (st : BondSt P) (o i : P) : Except Err (BondSt P) :=
  if i ∈ st.bonded then .error .attributeError
  else if o ∈ st.bonded then .error .attributeError
  else .ok ⟨i :: o :: st.bonded, Dict.set st.pairs o (Graph.sadd ((Dict.get? st.pairs o).getD []) i)⟩

/-- `system.py` l.455-494, `bond_old`, for ports with both waves. -/
def bond_old (st : BondSt P) (A B : Port P) : Except Err (BondSt P) := do
  let st ← attach st A.o B.i
  attach st B.o A.i

/-- The bonds made one after the other. -/
def bond_all : List (Port P × Port P) → BondSt P → Except Err (BondSt P)
  | [], st => .ok st
  | ab :: rest, st => do
    let st ← bond_old st ab.1 ab.2
    bond_all rest st

end Bonds

variable {B K F : Type} [DecidableEq B] [DecidableEq K] [Field F] [DecidableEq F]

/-- A port key. -/
abbrev Key (B : Type) := B × Option Int

/-- A fluctuation of the voltage (`voltage = true`) or of the current at a port. -/
structure Fluct (B : Type) where
  voltage : Bool
  virt : Key B
  port : Port (Key B)

/-- A readout: a voltage readout with an optional negative terminal, or a current readout. -/
inductive Meter (B : Type)
  | volt (terminal : Port (Key B)) (terminal_N : Option (Port (Key B))) (V : Key B)
  | amp (inward : Bool) (terminal : Port (Key B)) (I : Key B)

/-- `ports_post_get` and `ports_pre_get` of a port key, `system.py` l.163-177. -/
def posted (p : Key B) : Key B := (p.1, some (p.2.getD 0 + 1))

def preposed (p : Key B) : Key B := (p.1, some (p.2.getD 0 - 1))

/-- The elements of a system with its bonds. -/
structure Net (B F : Type) [Field F] where
  els : List (Elem (Key B) F)
  flucts : List (Fluct B)
  meters : List (Meter B)
  bonds : List (Port (Key B) × Port (Key B))

def Fluct.setup (env : Env (Key B) K F) (f : Fluct B) : Except Err (List (Coupling (Key B) K F)) :=
  if f.voltage then voltage_fluctuation_setup env f.virt f.port else current_fluctuation_setup env f.virt f.port

def Meter.setup (env : Env (Key B) K F) : Meter B → Except Err (List (Coupling (Key B) K F))
  | .volt t N V => voltage_readout_setup env (preposed t.i) (posted t.o) N V
  | .amp d t I => current_readout_setup env d t I

/-- The ports a readout puts a test point after and before. -/
def Meter.terminals : Meter B → List (Port (Key B))
  | .volt t _ _ => [t]
  | .amp _ _ _ => []

/-- All couplings of the system. -/
def Net.couplings (env : Env (Key B) K F) (n : Net B F) : Except Err (List (Coupling (Key B) K F)) :=
  blocks (n.els.map (fun el => el.setup env) ++ (n.flucts.map (fun f => f.setup env) ++
    n.meters.map (fun m => m.setup env)))

/-- The dictionary `ports_post` after the readouts have been set up. -/
def Net.post (n : Net B F) : Dict (Key B) (Key B) :=
  (n.meters.flatMap fun m => m.terminals.map Port.o).foldl Inject.ports_post_get []

/-- The dictionary `ports_pre` after the readouts have been set up. -/
def Net.pre (n : Net B F) : Dict (Key B) (Key B) :=
  (n.meters.flatMap fun m => m.terminals.map Port.i).foldl Inject.ports_pre_get []

/-- The bonds of the system: `bond_old` for every pair, then the linkages (`matrix_algorithm.py` l.290-308, C54);
`ports` holds the keys of the ports. -/
def Net.links (ports : Dict (Key B) (List K)) (fuel : Nat) (n : Net B F) : Except Err (Option (SR (Key B × K))) := do
  let st ← bond_all n.bonds ⟨[], []⟩
  bonds_build ports (fun p => (p.1, none)) n.post n.pre fuel st.pairs ⟨[], []⟩

end Circuit
