import Mathlib.Data.Finset.Basic
import Mathlib.Data.Finset.Union
import Mathlib.Data.List.Dedup
import Verif.Py.Dict

/-!
# `phasor/system/ports_algorithm.py`: which keys exist at which ports

`PortUpdatesAlgorithm` works out, before any matrix is built, the set of keys (frequency, polarisation, quadrature …) needed at
every port.  Elements ask for keys at ports; a request spreads over the bonds; the owner of every port that learned a new key is
put on a worklist and asked again.

`set.pop` takes an arbitrary member.  The model has a stream `ch : Nat → Nat` of choices: the `n`-th pop removes the member at
position `ch n` (modulo the size).  Every order in which the interpreter could empty its sets is given by some stream.

Simplifications
* an element's `system_setup_ports` is a function from what it can read (the updates and the sets of ports) to the list of its
  requests.  The sets are read as they are when the element is entered; the code reads them as it goes.  The two differ only when
  an element asks for a key at a port it owns virtually, which changes the very set it may be iterating over;
* `system_setup_ports_initial` is the list of the requests it makes;
* `drive_pk_sets`, `readout_pk_sets` (l.30-31, l.169-170, l.174-175) and printing are left out; so is the assertion that a key is
  a `DictKey` (l.140);
* `kto not in ptoupdate` when there is no set for the pair (l.118, 122), where `ptoupdate` is the marker `NOARG`: taken to be true.
-/

namespace Ports
open Py

variable {O P K : Type} [DecidableEq O] [DecidableEq P] [DecidableEq K]

/-- What `system_setup_ports(ports_algorithm)` of an element can call: `port_update_get` (l.102-104) and `port_set_get`
(l.106-108).  `port_full_get` is the union of the two (l.110-114). -/
structure View (P K : Type) where
  update : P → Except Err (Finset K)
  set : P → Except Err (Finset K)

/-- `port_full_get` l.110-114. -/
def View.full (v : View P K) (port : P) : Except Err (Finset K) := do
  let update ← v.update port
  let port ← v.set port
  .ok (update ∪ port)

/-- The parts of the system that the algorithm reads: system.py l.136-138 (`elements`), l.140-150 (owners), l.156-157
(`bond_pairs`, whose values are dictionaries of which only the keys matter), l.184-185 (`port_owners_virtual`). -/
structure Sys (O P K : Type) where
  elements : List O
  port_owners : Dict P O
  port_owners_virtual : Dict P (List O)
  owners_ports : Dict O (List P)
  owners_ports_virtual : Dict O (List P)
  bond_pairs : Dict P (List P)
  /-- the requests of `el.system_setup_ports_initial`, if there is such a method -/
  initial : O → Option (List (P × K))
  /-- the requests of `el.system_setup_ports`, if there is such a method -/
  handler : O → Option (View P K → Except Err (List (P × K)))

/-- The attributes set in l.24-28. `clock` counts the pops. -/
structure St (O P K : Type) where
  port_cplgs : Dict P (Finset K)
  port_cplgs_update : Dict (O × P) (Finset K)
  port_cplgs_updateX : Dict P (Finset K)
  owners_update : List O
  current_element : Option O
  clock : Nat

/-- `port_owners_virtual[pto]`, a `defaultdict(set)`. -/
def Sys.virtuals (S : Sys O P K) (p : P) : List O := (S.port_owners_virtual.get? p).getD []

/-- `s.add(x)` on a set kept as a list. -/
def setAdd {α : Type} [DecidableEq α] (s : List α) (x : α) : List α := if x ∈ s then s else s ++ [x]

/-- l.34-37: `bond_pairsR`. -/
def bond_pairsR (S : Sys O P K) : Dict P (List P) :=
  S.bond_pairs.foldl (fun d kv =>
    kv.2.foldl (fun d v => d.set v (setAdd ((d.get? v).getD []) kv.1)) d) []

/-- l.24-28, l.39-47. -/
def start (S : Sys O P K) : St O P K :=
  let st : St O P K := ⟨[], [], [], [], none, 0⟩
  let st := S.port_owners.foldl (fun st po =>
    { st with
      port_cplgs := st.port_cplgs.set po.1 ∅
      port_cplgs_update := st.port_cplgs_update.set (po.2, po.1) ∅
      port_cplgs_updateX := st.port_cplgs_updateX.set po.1 ∅ }) st
  S.port_owners_virtual.foldl (fun st pos =>
    pos.2.foldl (fun st owner =>
      if st.port_cplgs_update.has (owner, pos.1) then st
      else { st with port_cplgs_update := st.port_cplgs_update.set (owner, pos.1) ∅ }) st) st

/-- `d[key].add(k)`. -/
def addTo {κ : Type} [DecidableEq κ] (d : Dict κ (Finset K)) (key : κ) (k : K) :
    Except Err (Dict κ (Finset K)) := do
  let v ← d.get key
  .ok (d.set key (insert k v))

/-- l.131-134. -/
def add_virtual (pto : P) (kto : K) : List O → St O P K → Except Err (St O P K)
  | [], st => .ok st
  | Vowner :: l, st => do
    let u ← addTo st.port_cplgs_update (Vowner, pto) kto
    add_virtual pto kto l
      { st with port_cplgs_update := u, owners_update := setAdd st.owners_update Vowner }

/-- l.123-134. -/
def add_key (S : Sys O P K) (st : St O P K) (pto : P) (kto : K) : Except Err (St O P K) := do
  let owner ← S.port_owners.get pto
  let st ← if st.current_element = some owner then do
      let x ← addTo st.port_cplgs_updateX pto kto
      pure { st with port_cplgs_updateX := x }
    else do
      let u ← addTo st.port_cplgs_update (owner, pto) kto
      pure { st with port_cplgs_update := u }
  add_virtual pto kto (S.virtuals pto) { st with owners_update := setAdd st.owners_update owner }

/-- `kto in ptoupdate`, l.118, l.122. -/
def in_update (st : St O P K) (pto : P) (kto : K) : Bool :=
  match st.current_element with
  | none => false
  | some e => match st.port_cplgs_update.get? (e, pto) with
    | none => false
    | some s => decide (kto ∈ s)

/-- `_coherent_sources_needed` l.116-135. -/
def needed1 (S : Sys O P K) (st : St O P K) (pto : P) (kto : K) : Except Err (St O P K) :=
  match st.port_cplgs.get? pto with
  | none => .ok st
  | some ptofull =>
    if kto ∉ ptofull ∧ in_update st pto kto = false then add_key S st pto kto else .ok st

/-- `s.pop()`: the member at position `n` modulo the size. -/
def pop {α : Type} (n : Nat) (s : List α) : Option (α × List α) :=
  match s[n % s.length]? with
  | none => none
  | some x => some (x, s.eraseIdx (n % s.length))

/-- l.154-159: the ports bonded to `p` in either direction. -/
def links (S : Sys O P K) (p : P) : List P :=
  (S.bond_pairs.get? p).getD [] ++ ((bond_pairsR S).get? p).getD []

/-- l.144-161, with a bound on the number of turns (`RuntimeError` is never raised: see `extend_ok`). -/
def extend (S : Sys O P K) (ch : Nat → Nat) (kto : K) :
    Nat → List P → List P → St O P K → Except Err (St O P K)
  | 0, to_extend, _, st => if to_extend = [] then .ok st else .error .runtime
  | n + 1, to_extend, already, st =>
    match pop (ch st.clock) to_extend with
    | none => .ok st
    | some (pto_next, rest) =>
      let st := { st with clock := st.clock + 1 }
      if pto_next ∈ already then extend S ch kto n rest already st
      else do
        let st ← needed1 S st pto_next kto
        extend S ch kto n ((links S pto_next).foldl setAdd rest) (already ++ [pto_next]) st

/-- How many turns l.148 can take: one for the first port, and one for every end of a bond. -/
def extend_turns (S : Sys O P K) : Nat :=
  1 + (((S.bond_pairs.keys ++ (bond_pairsR S).keys).dedup).map (fun p => (links S p).length)).sum

/-- `coherent_sources_needed` l.137-162 (also `port_coupling_needed` l.96-97, `prev_solution_needed` l.99-100,
`coherent_sources_perturb_needed` l.164-165, `readout_port_needed` l.168, `drive_port_needed` l.173). -/
def needed (S : Sys O P K) (ch : Nat → Nat) (st : St O P K) (pto : P) (kto : K) : Except Err (St O P K) := do
  let st ← needed1 S st pto kto
  extend S ch kto (extend_turns S) [pto] [] st

/-- a list of requests in order. -/
def needed_all (S : Sys O P K) (ch : Nat → Nat) : List (P × K) → St O P K → Except Err (St O P K)
  | [], st => .ok st
  | r :: l, st => do
    let st ← needed S ch st r.1 r.2
    needed_all S ch l st

/-- l.79-85 and l.87-93. -/
def resolve_port (element : O) (st : St O P K) (port : P) : Except Err (St O P K) := do
  let update ← st.port_cplgs_update.get (element, port)
  let updateX ← st.port_cplgs_updateX.get port
  let cplgs ← st.port_cplgs.get port
  .ok { st with
    port_cplgs := st.port_cplgs.set port (cplgs ∪ update)
    port_cplgs_update := st.port_cplgs_update.set (element, port) updateX
    port_cplgs_updateX := st.port_cplgs_updateX.set port ∅ }

def resolve_ports (element : O) : List P → St O P K → Except Err (St O P K)
  | [], st => .ok st
  | port :: l, st => do
    let st ← resolve_port element st port
    resolve_ports element l st

/-- `resolve_port_updates` l.74-94. -/
def resolve_port_updates (S : Sys O P K) (st : St O P K) : Except Err (St O P K) :=
  match st.current_element with
  | none => .error .assertion
  | some element => do
    let st ← resolve_ports element ((S.owners_ports.get? element).getD [])
      { st with current_element := none }
    let virtual ← S.owners_ports_virtual.get element
    resolve_ports element virtual st

/-- l.102-108. -/
def view (st : St O P K) : View P K where
  update port := match st.current_element with
    | none => .error .assertion
    | some e => st.port_cplgs_update.get (e, port)
  set port := st.port_cplgs.get port

/-- l.63-70. -/
def process (S : Sys O P K) (ch : Nat → Nat) (st : St O P K) (el : O) : Except Err (St O P K) :=
  match S.handler el with
  | none => .ok st
  | some ssp => do
    let st := { st with current_element := some el }
    let requests ← ssp (view st)
    let st ← needed_all S ch requests st
    resolve_port_updates S st

/-- l.60-70, for at most `n` turns; `none` when that was not enough. -/
def loop (S : Sys O P K) (ch : Nat → Nat) : Nat → St O P K → Except Err (Option (St O P K))
  | 0, st => if st.owners_update = [] then .ok (some st) else .ok none
  | n + 1, st =>
    match pop (ch st.clock) st.owners_update with
    | none => .ok (some st)
    | some (el, rest) => do
      let st ← process S ch { st with owners_update := rest, clock := st.clock + 1 } el
      loop S ch n st

/-- l.52-58. -/
def setup_initial (S : Sys O P K) (ch : Nat → Nat) : List O → St O P K → Except Err (St O P K)
  | [], st => .ok st
  | el :: l, st =>
    match S.initial el with
    | none => setup_initial S ch l st
    | some requests => do
      let st ← needed_all S ch requests st
      setup_initial S ch l st

/-- The constructor l.18-49 with `_setup_port_needs` l.51-72, for at most `n` turns of l.60. -/
def run (S : Sys O P K) (ch : Nat → Nat) (n : Nat) : Except Err (Option (St O P K)) := do
  let st ← setup_initial S ch S.elements (start S)
  loop S ch n st

/-! ## `symmetric_update` -/

/-- A port, or a list of ports (l.197, l.204, l.221, l.228). -/
inductive PortArg (P : Type)
  | one (p : P)
  | many (l : List P)
  deriving DecidableEq

/-- `pool.update(get(p))` over a list of ports. -/
def pool_list (get : P → Except Err (Finset K)) : List P → Except Err (Finset K)
  | [] => .ok ∅
  | p :: l => do
    let s ← get p
    let rest ← pool_list get l
    .ok (s ∪ rest)

/-- l.197-202, l.204-209, l.221-226, l.228-233. -/
def pool (get : P → Except Err (Finset K)) : PortArg P → Except Err (Finset K)
  | .one p => get p
  | .many l => pool_list get l

/-- `port_update_get(pfrom1)` l.213, l.217: a list is not hashable. -/
def update_get_arg (v : View P K) : PortArg P → Except Err (Finset K)
  | .one p => v.update p
  | .many _ => .error .typeError

/-- `symmetric_update` l.187-244 for two ports that are not `None`: what is yielded, as a predicate (the order is that of the
sets).  The subset functions are given by the keys they select: `second pool k1` are the members `subset_second(pool)(k1)`. -/
def symmetric_update (v : View P K) (pfrom1 pfrom2 : PortArg P)
    (subset_second subset_first : Option (Finset K → K → Finset K)) :
    Except Err (Finset (K × K)) := do
  let _pool1 ← pool v.update pfrom1
  let pool2 ← pool v.full pfrom2
  let upd1 ← update_get_arg v pfrom1
  let part1 := match subset_second with
    | some f => upd1.biUnion (fun k1 => (f pool2 k1).image (fun k2 => (k1, k2)))
    | none => upd1.biUnion (fun k1 => pool2.image (fun k2 => (k1, k2)))
  if pfrom1 = pfrom2 then .ok part1 else do
    let pool1 ← pool v.set pfrom1
    let pool2 ← pool v.update pfrom2
    let part2 := match subset_first with
      | some f => pool2.biUnion (fun k2 => (f pool1 k2).image (fun k1 => (k1, k2)))
      | none => pool2.biUnion (fun k2 => pool1.image (fun k1 => (k1, k2)))
    .ok (part1 ∪ part2)

end Ports
