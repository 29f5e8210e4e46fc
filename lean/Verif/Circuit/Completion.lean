import Verif.Circuit.NetProps

/-!
# Model of the completion of the bonds

Sources: `/repo/phasor/electronics/ports.py` l.61-94, `/repo/phasor/system/system.py` l.322-336 (the mechanical ports,
`/repo/phasor/mechanical/ports.py` l.64-97, have the same code).

A port may be bonded to several others.  Such a port gets a `Connection` element of its own, whose port 0 is bonded to
the port itself and whose other ports take the place of the port in its bonds.
-/

set_option linter.unusedSectionVars false

namespace Circuit
open Py Inject

section Pairing
variable {T : Type} [DecidableEq T]

/-- `system.py` l.326-334: the raw ports are paired up, the last one first (`popitem`); the ones without a counterpart
are collected in `bad_completions`. -/
def pair_loop : Nat → Dict (T × T) T → List (T × T) × List ((T × T) × T)
  | 0, _ => ([], [])
  | fuel + 1, d =>
    match d.getLast? with
    | none => ([], [])
    | some ((p1, p2), r1) =>
      match Dict.get? d.dropLast (p2, p1) with
      | none =>
        let (bs, bad) := pair_loop fuel d.dropLast
        (bs, ((p1, p2), r1) :: bad)
      | some r2 =>
        let (bs, bad) := pair_loop fuel (Dict.erase d.dropLast (p2, p1))
        ((r1, r2) :: bs, bad)

/-- `system.py` l.326-336. -/
def pair_all (d : Dict (T × T) T) : Except Err (List (T × T)) :=
  let (bs, bad) := pair_loop d.length d
  if bad = [] then .ok bs else .error .runtime

end Pairing

section Complete
variable {P : Type} [DecidableEq P]

/-- `bond` and `bond_inform`, `electronics/ports.py` l.61-71: the bond partners of a port after the calls of `bond`. -/
def partners (calls : List (Port P × Port P)) (p : Port P) : List (Port P) :=
  calls.flatMap (fun ab => (if ab.1 = p then [ab.2] else []) ++ (if ab.2 = p then [ab.1] else []))

/-- `_bond_completions_raw` and the ports of the connections made. -/
structure Comp (P : Type) where
  raw : Dict (Port P × Port P) (Port P)
  conns : List (List (Port P))

/-- `electronics/ports.py` l.73-94, `bond_completion`.  `part` are the bond partners, `seto p` is the set of the
partners of `p` in the order in which it is iterated, `conn p i` the port `pe_i` of the connection of `p`. -/
def bond_completion (part : Port P → List (Port P)) (seto : Port P → List (Port P)) (conn : Port P → Nat → Port P)
    (st : Comp P) (p : Port P) : Except Err (Comp P) :=
  match part p with
  | [] => .error .runtime
  | [q] => .ok { st with raw := Dict.set st.raw (p, q) p }
  | _ =>
    let raw := Dict.set st.raw (p, conn p 0) p
    let raw := Dict.set raw (conn p 0, p) (conn p 0)
    let raw := (seto p).zipIdx.foldl (fun d qi => Dict.set d (p, qi.1) (conn p (qi.2 + 1))) raw
    .ok ⟨raw, st.conns ++ [(List.range ((seto p).length + 1)).map (conn p)]⟩

/-- `for element in self.targets_recurse(VISIT.bond_completion)`, `system.py` l.322. -/
def complete_all (part seto : Port P → List (Port P)) (conn : Port P → Nat → Port P) :
    List (Port P) → Comp P → Except Err (Comp P)
  | [], st => .ok st
  | p :: ps, st => do
    let st ← bond_completion part seto conn st p
    complete_all part seto conn ps st

end Complete

variable {B K F : Type} [DecidableEq B] [DecidableEq K] [Field F] [DecidableEq F]

/-- The circuit as the user builds it: `n.bonds` are the calls of `bond`.  The result has the connections added and
its `bonds` are the pairs given to `bond_old`. -/
def Net.complete (seto : Port (Key B) → List (Port (Key B))) (conn : Port (Key B) → Nat → Port (Key B))
    (n : Net B F) : Except Err (Net B F) := do
  let st ← complete_all (partners n.bonds) seto conn n.ports ⟨[], []⟩
  let bs ← pair_all st.raw
  pure { n with els := n.els ++ st.conns.map Elem.connection, bonds := bs }

end Circuit
