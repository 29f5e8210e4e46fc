import Verif.Inject.Model
import Verif.Graph.Model

/-!
# Model of the sparsity analysis

Source: `/repo/phasor/system/matrix_algorithm.py` l.260-473, `_coherent_sparsity_graph`.

The analysis decides, before any number is known, which nodes can carry a field.  An injection's edge or
source is idle until all the nodes of its `NZ` set carry a field; this is counted down per injection.

`N` is the type of nodes.  `set.pop()` is the function `pick`.  Not modelled: the virtual nodes of the
floating in/out pairs (l.310-326, l.443-462), used only by the ODE solver injection (those: `Verif/Floating`),
and `bonds_trivial`'s values.  `edge_sourcing_order` of a bond (l.282) is never read and left out.
-/

set_option linter.unusedSectionVars false

namespace Inject
open Py

/-! ## the bonds -/

section Bonds
variable {P K : Type} [DecidableEq P] [DecidableEq K]

/-- `seq` and `req` while being built. -/
structure SR (N : Type) where
  seq : Dict N (List N)
  req : Dict N (List N)

/-- `seq[a].add(b); req[b].add(a)`. -/
def SR.add {N : Type} [DecidableEq N] (g : SR N) (a b : N) : SR N where
  seq := Dict.set g.seq a (Graph.sadd ((Dict.get? g.seq a).getD []) b)
  req := Dict.set g.req b (Graph.sadd ((Dict.get? g.req b).getD []) a)

/-- `matrix_algorithm.py` l.297-298, l.304-305, l.307-308: the bonds of all keys from one port to another. -/
def bond_keys (ks : List K) (pfrom pto : P) (g : SR (P × K)) : SR (P × K) :=
  ks.foldl (fun g k => g.add (pfrom, k) (pto, k)) g

/-- `matrix_algorithm.py` l.293-299: following the posted ports.  `fuel` bounds the length of the chain
(`none` when exceeded; the python loop would not end on a cycle). -/
def bond_post (post : Dict P P) (ks : List K) : Nat → P → SR (P × K) → Option (P × SR (P × K))
  | 0, _, _ => none
  | fuel + 1, pfrom, g =>
    match Dict.get? post pfrom with
    | none => some (pfrom, g)
    | some pfrom_post => bond_post post ks fuel pfrom_post (bond_keys ks pfrom pfrom_post g)

/-- `matrix_algorithm.py` l.300-306: the same backwards from the receiving port. -/
def bond_pre (pre : Dict P P) (ks : List K) : Nat → P → SR (P × K) → Option (P × SR (P × K))
  | 0, _, _ => none
  | fuel + 1, pto, g =>
    match Dict.get? pre pto with
    | none => some (pto, g)
    | some pto_pre => bond_pre pre ks fuel pto_pre (bond_keys ks pto_pre pto g)

/-- `matrix_algorithm.py` l.292-308: the inner loop over the ports bonded to one port; `pfrom` is carried
from one turn to the next, as in the source. -/
def bond_tos (post pre : Dict P P) (ks : List K) (fuel : Nat) :
    List P → P → SR (P × K) → Option (SR (P × K))
  | [], _, g => some g
  | pto :: ptos, pfrom, g => do
    let (pfrom, g) ← bond_post post ks fuel pfrom g
    let (pto, g) ← bond_pre pre ks fuel pto g
    bond_tos post pre ks fuel ptos pfrom (bond_keys ks pfrom pto g)

/-- `matrix_algorithm.py` l.290-308.  `ports` is `port_cplgs` and `purge` the removal of the post-bond
part of a port key, `port_set_get` l.151-155; a missing port is a `KeyError`. -/
def bonds_build (ports : Dict P (List K)) (purge : P → P) (post pre : Dict P P) (fuel : Nat) :
    List (P × List P) → SR (P × K) → Except Err (Option (SR (P × K)))
  | [], g => .ok (some g)
  | (pfrom, ptos) :: rest, g =>
    if ptos = [] then bonds_build ports purge post pre fuel rest g else do
      let ks ← Dict.get ports (purge pfrom)
      match bond_tos post pre ks fuel ptos pfrom g with
      | none => .ok none
      | some g => bonds_build ports purge post pre fuel rest g

end Bonds

/-! ## the counts -/

section Counts
variable {N κ : Type} [DecidableEq N] [DecidableEq κ]

/-- What the analysis reads of an injection's edge or source: its `NZ` set and its `req` set. -/
structure Rule (N : Type) where
  nz : List N
  req : List N

/-- `for onode in NZreqset: outputs_set.add(onode)`. -/
def adds (s : List N) (l : List N) : List N := l.foldl Graph.sadd s

/-- The orders, the inverse lists and the keys which have an injection of order zero. -/
structure Tab (N κ : Type) where
  ord : Dict κ (List Int) := []
  inv : Dict N (List (Nat × κ × Rule N)) := []
  outs : List N := []
  zero : List κ := []

/-- Loop state of l.333-344. -/
structure RuleSt (N κ : Type) where
  ol : List Int
  inv : Dict N (List (Nat × κ × Rule N))
  outs : List N
  any0 : Bool

/-- `matrix_algorithm.py` l.334-344 and l.355-365: one injection. -/
def tab_rule (k : κ) (st : RuleSt N κ) (r : Rule N) : RuleSt N κ :=
  let nz := frozenset r.nz
  let order := nz.length
  let keyset := if order = 0 then frozenset r.req else nz
  let ol := st.ol ++ [(order : Int)]
  { ol := ol
    any0 := if order = 0 then true else st.any0
    outs := if order = 0 then adds st.outs (frozenset r.req) else st.outs
    inv := keyset.foldl (fun inv z => push inv z (ol.length - 1, k, r)) st.inv }

/-- `matrix_algorithm.py` l.330-348 and l.351-369: one node or one edge with its injections. -/
def tab_key (T : Tab N κ) (kr : κ × List (Rule N)) : Tab N κ :=
  let st := kr.2.foldl (tab_rule kr.1) ⟨[], T.inv, T.outs, false⟩
  { ord := Dict.set T.ord kr.1 st.ol
    inv := st.inv
    outs := st.outs
    zero := if st.any0 then T.zero ++ [kr.1] else T.zero }

/-- `matrix_algorithm.py` l.329-348 and l.350-369. -/
def tab_build (outs : List N) (rules : Dict κ (List (Rule N))) : Tab N κ :=
  rules.foldl tab_key { outs := outs }

/-- `order_dict[key][idx]` is decremented; the new value is returned (the entry is known to exist). -/
def dec (ord : Dict κ (List Int)) (k : κ) (i : Nat) : Int × Dict κ (List Int) :=
  let l := (Dict.get? ord k).getD []
  let order := (l[i]?).getD 0 - 1
  (order, Dict.set ord k (l.set i order))

/-- `matrix_algorithm.py` l.386-398 and l.403-418: the loop over the inverse list of a node; `fire` is the
body executed when an order reaches zero. -/
def count_loop {S : Type} (fire : S → κ → Rule N → S) :
    List (Nat × κ × Rule N) → Dict κ (List Int) → S → Dict κ (List Int) × S
  | [], ord, s => (ord, s)
  | (i, k, r) :: l, ord, s =>
    let d := dec ord k i
    count_loop fire l d.2 (if d.1 = 0 then fire s k r else s)

end Counts

/-! ## the loop -/

section Loop
variable {N : Type} [DecidableEq N]

/-- The sets and dictionaries of the linkage algorithm. -/
structure SG (N : Type) where
  g : SR N
  inputs : List N
  outs : List N
  sub : List N
  pend : List N
  pend2 : List N
  nord : Dict N (List Int)
  ninv : Dict N (List (Nat × N × Rule N))
  eord : Dict (N × N) (List Int)
  einv : Dict N (List (Nat × (N × N) × Rule N))
  order : Nat

/-- `matrix_algorithm.py` l.391-398: a source becomes active. -/
def fire_src (st : SG N) (s : N) (r : Rule N) : SG N :=
  { st with
    pend2 := if s ∈ st.sub then st.pend2 else Graph.sadd st.pend2 s
    inputs := Graph.sadd st.inputs s
    outs := adds st.outs r.req }

/-- `matrix_algorithm.py` l.408-418: an edge becomes active. -/
def fire_edge (st : SG N) (e : N × N) (r : Rule N) : SG N :=
  { st with
    g := st.g.add e.1 e.2
    pend2 := if e.1 ∈ st.sub then (if e.2 ∈ st.sub then st.pend2 else Graph.sadd st.pend2 e.2)
      else st.pend2
    outs := adds st.outs r.req }

/-- `matrix_algorithm.py` l.376-419: one node taken from the pending set.  (`del` of an entry whose list is
empty or missing changes nothing.) -/
def process (st : SG N) (node : N) : SG N :=
  let st := { st with pend := st.pend.filter (· ≠ node), sub := Graph.sadd st.sub node }
  let pend := ((Dict.get? st.g.seq node).getD []).foldl
    (fun p s => if s ∈ st.sub then p else Graph.sadd p s) st.pend
  let st := { st with pend := pend }
  let c := count_loop fire_src ((Dict.get? st.ninv node).getD []) st.nord st
  let st := { c.2 with nord := c.1, ninv := Dict.erase st.ninv node }
  let c := count_loop fire_edge ((Dict.get? st.einv node).getD []) st.eord st
  { c.2 with eord := c.1, einv := Dict.erase st.einv node }

/-- `matrix_algorithm.py` l.371-424: the two nested loops.  A turn either takes a pending node, or exchanges
the pending sets, or ends.  `none` when `fuel` turns do not suffice (`C52_terminates`). -/
def link_loop (pick : List N → N) : Nat → SG N → Option (SG N)
  | 0, _ => none
  | fuel + 1, st =>
    if st.pend = [] then
      let p := st.pend2.filter (· ∉ st.sub)
      if p = [] then some st
      else link_loop pick fuel { st with pend := p, pend2 := [], order := st.order + 1 }
    else link_loop pick fuel (process st (pick st.pend))

/-- `matrix_algorithm.py` l.328-424, from the bonds' `seq`/`req` on. -/
def sparsity (pick : List N → N) (fuel : Nat) (bonds : SR N)
    (srcRules : Dict N (List (Rule N))) (edgeRules : Dict (N × N) (List (Rule N))) : Option (SG N) :=
  let T := tab_build [] srcRules
  let U := tab_build T.outs edgeRules
  link_loop pick fuel
    { g := U.zero.foldl (fun g e => g.add e.1 e.2) bonds
      inputs := adds [] T.zero
      outs := U.outs
      sub := []
      pend := adds [] T.zero
      pend2 := []
      nord := T.ord
      ninv := T.inv
      eord := U.ord
      einv := U.inv
      order := 1 }

end Loop

/-! ## the rules of the injections -/

section Rules
variable {P K F : Type} [DecidableEq P] [DecidableEq K]

/-- `inj.sources_NZ_pkset_dict[pkto]`, `inj.sources_req_pkset_dict[pkto]`. -/
def source_rule (pk : P × K) (i : Inj P K F) : Except Err (Rule (P × K)) := do
  let nz ← Dict.get i.sourcesNZ pk
  let req ← Dict.get i.sourcesReq pk
  pure ⟨nz, req⟩

/-- `inj.edges_NZ_pkset_dict[pkfrom, pkto]`, `inj.edges_req_pkset_dict[pkfrom, pkto]`. -/
def edge_rule (e : (P × K) × (P × K)) (i : Inj P K F) : Except Err (Rule (P × K)) := do
  let nz ← Dict.get i.edgesNZ e
  let req ← Dict.get i.edgesReq e
  pure ⟨nz, req⟩

/-- The rules of all injections of a node (of an edge), looked up before the analysis instead of during
it: a missing entry raises `KeyError` either way. -/
def rules {κ : Type} (rule : κ → Inj P K F → Except Err (Rule (P × K))) :
    Dict κ (List (Inj P K F)) → Except Err (Dict κ (List (Rule (P × K))))
  | [] => .ok []
  | (k, is) :: d => do
    let rs ← is.mapM (rule k)
    let d ← rules rule d
    pure ((k, rs) :: d)

/-- `_coherent_sparsity_graph` on the inserted injections. -/
def coherent_sparsity_graph (pick : List (P × K) → P × K) (fuel : Nat) (bonds : SR (P × K))
    (m : Algo P K F) : Except Err (Option (SG (P × K))) := do
  let sr ← rules source_rule m.srcInj
  let er ← rules edge_rule m.edgeInj
  pure (sparsity pick fuel bonds sr er)

end Rules

end Inject
