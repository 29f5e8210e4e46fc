import Verif.Py.Dict
import Verif.Queue.Model
import Mathlib.Algebra.Field.Defs
import Mathlib.Data.Fintype.Card
import Mathlib.Data.Fintype.Sum
import Mathlib.Tactic.DeriveFintype

/-!
# `phasor/matrix/matrix_generic.py` and `phasor/matrix/graph_algorithm.py`

The `loop_fast_unstable` solver.  `seq` and `req` are `defaultdict(set)` (the callers build them with
`setdict_copy`, system/solver_algorithm.py l.28-32), so reading a missing node gives the empty set.
Edge values live in an exact field.  Node objects are an arbitrary finite type.
-/

namespace Graph
open Py

variable {N : Type} {V : Type} [DecidableEq N]

/-- The three dictionaries the solvers work on in place. -/
structure G (N : Type) (V : Type) where
  seq : Dict N (List N)
  req : Dict N (List N)
  em  : Dict (N × N) V

namespace G

/-- `seq[node]` of a `defaultdict(set)`. -/
def succ (g : G N V) (n : N) : List N := (Dict.get? g.seq n).getD []
/-- `req[node]` of a `defaultdict(set)`. -/
def pred (g : G N V) (n : N) : List N := (Dict.get? g.req n).getD []

end G

/-- `s.add(x)`. -/
def sadd (s : List N) (x : N) : List N := if x ∈ s then s else s ++ [x]

/-- `s.remove(x)`, `KeyError` when absent. -/
def sremove (s : List N) (x : N) : Except Err (List N) :=
  if x ∈ s then .ok (s.filter (· ≠ x)) else .error .keyError

namespace G

/-- `seq[a].add(b)`. -/
def seqAdd (g : G N V) (a b : N) : G N V := { g with seq := Dict.set g.seq a (sadd (g.succ a) b) }
/-- `req[b].add(a)`. -/
def reqAdd (g : G N V) (b a : N) : G N V := { g with req := Dict.set g.req b (sadd (g.pred b) a) }
/-- `seq[a].remove(b)`. -/
def seqRemove (g : G N V) (a b : N) : Except Err (G N V) := do
  let s ← sremove (g.succ a) b
  pure { g with seq := Dict.set g.seq a s }
/-- `req[b].remove(a)`. -/
def reqRemove (g : G N V) (b a : N) : Except Err (G N V) := do
  let s ← sremove (g.pred b) a
  pure { g with req := Dict.set g.req b s }
/-- `edge_map[a, b]`. -/
def edge (g : G N V) (a b : N) : Except Err V := Dict.get g.em (a, b)
/-- `edge_map[a, b] = v`. -/
def setEdge (g : G N V) (a b : N) (v : V) : G N V := { g with em := Dict.set g.em (a, b) v }
/-- `del edge_map[a, b]`. -/
def delEdge (g : G N V) (a b : N) : Except Err (G N V) := do
  let e ← Dict.del g.em (a, b)
  pure { g with em := e }
/-- `del seq[n]`, after `seq[n]` has just been read (so the key exists in the defaultdict). -/
def delSeq (g : G N V) (n : N) : G N V := { g with seq := Dict.erase g.seq n }
/-- `del req[n]`, after `req[n]` has just been read. -/
def delReq (g : G N V) (n : N) : G N V := { g with req := Dict.erase g.req n }

end G

/-! ## matrix_generic.py -/

/-- `check_seq_req_balance`, matrix_generic.py l.34-44: both assertions, and missing edge values set to 0
(only when the edge map is nonempty, `if edge_map and …`). -/
def check_seq_req_balance [Zero V] (g : G N V) : Except Err (G N V) :=
  let ok1 := g.seq.all (fun kv => kv.2.all (fun s => decide (kv.1 ∈ g.pred s)))
  let ok2 := g.req.all (fun kv => kv.2.all (fun r => decide (kv.1 ∈ g.succ r)))
  if ok1 && ok2 then
    .ok { g with em := g.seq.foldl (fun em kv => kv.2.foldl (fun em s =>
      if !em.isEmpty && !Dict.has em (kv.1, s) then Dict.set em (kv.1, s) 0 else em) em) g.em }
  else .error .assertion

/-- The coloring loop of `color_purge_inplace`, l.58-70: `pick` is the arbitrary choice made by
`set.pop()`.  `fuel` bounds the number of turns; `Fintype.card N` turns always suffice
(`color_done`). -/
def colorLoop (pick : List N → N) (emap : N → List N) : Nat → List N → List N → List N × List N
  | 0, pending, active => (pending, active)
  | fuel + 1, pending, active =>
    if pending.isEmpty then (pending, active) else
      let node := pick pending
      let pending := pending.filter (· ≠ node)
      let active := sadd active node
      let pending := (emap node).foldl (fun p s => if s ∈ active then p else sadd p s) pending
      colorLoop pick emap fuel pending active

/-- inner loop of `purge_subgraph_inplace` over successors, l.142-145; `edgedelwarn` (l.124-134) deletes
the edge or only warns. -/
def purgeSucc (P : List N) (n : N) : List N → G N V → Except Err (G N V)
  | [], g => .ok g
  | s :: ss, g => do
    let g := { g with em := Dict.erase g.em (n, s) }
    let g ← if s ∉ P then g.reqRemove s n else pure g
    purgeSucc P n ss g

/-- inner loop of `purge_subgraph_inplace` over predecessors, l.147-150 (the edge deletion is commented
out in the source, so edges from kept nodes into purged nodes stay in `edge_map`). -/
def purgePred (P : List N) (n : N) : List N → G N V → Except Err (G N V)
  | [], g => .ok g
  | r :: rs, g => do
    let g ← if r ∉ P then g.seqRemove r n else pure g
    purgePred P n rs g

/-- `purge_subgraph_inplace`, l.136-152.  The sets iterated over are not changed during the iteration
(only sets of nodes outside `P` are), so iterating over a snapshot is the same. -/
def purgeSubgraph (P : List N) : List N → G N V → Except Err (G N V)
  | [], g => .ok g
  | n :: ns, g => do
    let g ← purgeSucc P n (g.succ n) g
    let g := g.delSeq n
    let g ← purgePred P n (g.pred n) g
    let g := g.delReq n
    purgeSubgraph P ns g

/-- Reading `seq[node]` of a defaultdict creates an empty entry. -/
def touch (d : Dict N (List N)) (n : N) : Dict N (List N) :=
  if Dict.has d n then d else Dict.set d n []

/-- `color_purge_inplace`, l.47-75; `forward` tells which adjacency is followed.  Coloring along `seq` reads
`seq[node]` of every colored node and so creates the missing entries, which count in
`full_set = set(seq.keys())` l.71 of a later purge.  (Entries created in `req` have no effect and are left
out.) -/
def color_purge [Fintype N] (pick : List N → N) (forward : Bool) (start_set : List N) (g : G N V) :
    Except Err (G N V) :=
  let pending := start_set.foldl sadd []
  let r := colorLoop pick (if forward then g.succ else g.pred) (Fintype.card N) pending []
  let g := if forward then { g with seq := r.2.foldl touch g.seq } else g
  let purge_set := (Dict.keys g.seq).filter (fun n => n ∉ r.2)
  purgeSubgraph purge_set purge_set g

/-- `purge_reqless_inplace`, l.78-98 (with `seq_beta = None`): keep what the sources reach. -/
def purge_reqless [Fintype N] (pick : List N → N) (except_set : List N) (g : G N V) : Except Err (G N V) :=
  color_purge pick true except_set g

/-- `purge_seqless_inplace`, l.101-121 (with `req_alpha = None`): keep what reaches the sinks. -/
def purge_seqless [Fintype N] (pick : List N → N) (except_set : List N) (g : G N V) : Except Err (G N V) :=
  color_purge pick false except_set g

/-- `pre_purge_inplace`, l.155-171: drop adjacency without an edge value. -/
def pre_purge (g : G N V) : G N V :=
  { g with
    seq := g.seq.map (fun kv => (kv.1, kv.2.filter (fun s => Dict.has g.em (kv.1, s))))
    req := g.req.map (fun kv => (kv.1, kv.2.filter (fun r => Dict.has g.em (r, kv.1)))) }

/-! ## graph_algorithm.py, `mgraph_simplify_inplace` -/

/-- Loop state: the graph and `node_costs_invalid_in_queue`. -/
structure St (N : Type) (V : Type) where
  g : G N V
  invalid : List N

/-- `generate_node_cost`, graph_algorithm.py l.34-60; `size` is the number of entries of an edge value
(1 for a number). -/
def node_cost (size : V → Nat) (g : G N V) (n : N) : Except Err Nat := do
  let s_vals ← (g.succ n).mapM (fun e => g.edge n e)
  let r_vals ← (g.pred n).mapM (fun e => g.edge e n)
  pure (s_vals.length * (r_vals.map size).sum + r_vals.length * (s_vals.map size).sum)

variable [Field V] [DecidableEq V]

/-- l.117-130 for one pair: the product of the gains.  The shortcuts `sedge is 1`, `redge is 1` give the
same value in exact arithmetic and are not distinguished. -/
def prodEdge (CLG : Option V) (sedge redge : V) : V :=
  match CLG with
  | none => sedge * redge
  | some c => sedge * c * redge

/-- l.131-140: add the product to an existing edge, or create the edge and its adjacency. -/
def addEdge (st : St N V) (r s : N) (prod : V) : St N V :=
  match Dict.get? st.g.em (r, s) with
  | some prev => { st with g := st.g.setEdge r s (prev + prod) }
  | none =>
    { g := ((st.g.setEdge r s prod).seqAdd r s).reqAdd s r
      invalid := sadd (sadd st.invalid r) s }

/-- inner loop l.115-140 over `req[node]`. -/
def elimInner (n : N) (CLG : Option V) (s : N) (sedge : V) : List N → St N V → Except Err (St N V)
  | [], st => .ok st
  | r :: rs, st => do
    let redge ← st.g.edge r n
    elimInner n CLG s sedge rs (addEdge st r s (prodEdge CLG sedge redge))

/-- outer loop l.113-142 over `seq[node]`. -/
def elimOuter (n : N) (CLG : Option V) (R : List N) : List N → St N V → Except Err (St N V)
  | [], st => .ok st
  | s :: ss, st => do
    let sedge ← st.g.edge n s
    let st ← elimInner n CLG s sedge R st
    let g ← st.g.reqRemove s n
    let g ← g.delEdge n s
    elimOuter n CLG R ss { st with g := g }

/-- l.143-145. -/
def elimPreds (n : N) : List N → G N V → Except Err (G N V)
  | [], g => .ok g
  | r :: rs, g => do
    let g ← g.delEdge r n
    let g ← g.seqRemove r n
    elimPreds n rs g

/-- l.97-106: a self loop is closed with gain `1/(1 - self)`, and removed from the adjacency (its value
stays behind in `edge_map`). -/
def elimSelf (n : N) (g : G N V) : Except Err (Option V × G N V) :=
  if n ∈ g.succ n then do
    let self_edge ← g.edge n n
    if 1 - self_edge = 0 then .error .zeroDivision
    else
      let g ← g.seqRemove n n
      let g ← g.reqRemove n n
      pure (some (1 / (1 - self_edge)), g)
  else .ok (none, g)

/-- One reduction, l.97-147.  `seq[node]` and `req[node]` are not changed while they are iterated (every
`snode`, `rnode` differs from `node`), so iterating over a snapshot is the same. -/
def elim (st : St N V) (n : N) : Except Err (St N V) := do
  let (CLG, g) ← elimSelf n st.g
  let st ← elimOuter n CLG (g.pred n) (g.succ n) { st with g := g }
  let g ← elimPreds n (st.g.pred n) st.g
  pure { st with g := (g.delSeq n).delReq n }

/-- l.77-81: while the popped node's cost is out of date, recompute it and swap through the queue.
Each turn removes one node from the invalid set, so `fuel = invalid.length` turns suffice. -/
def refresh (lt : Nat × N → Nat × N → Bool) (size : V → Nat) (g : G N V) :
    Nat → List N → List (Nat × N) → Nat × N → Except Err (List N × List (Nat × N) × (Nat × N))
  | 0, invalid, q, cn => .ok (invalid, q, cn)
  | fuel + 1, invalid, q, cn =>
    if cn.2 ∈ invalid then do
      let cost ← node_cost size g cn.2
      let r := Queue.heappushpop lt q (cost, cn.2)
      refresh lt size g fuel (invalid.filter (· ≠ cn.2)) r.2 r.1
    else .ok (invalid, q, cn)

/-- The main loop l.74-147.  (`np.isfinite(cost)` l.89 is always true: costs are finite counts.)
Every turn removes one entry of the queue, so `fuel = queue length` turns empty it. -/
def mainLoop (lt : Nat × N → Nat × N → Bool) (size : V → Nat) :
    Nat → List (Nat × N) → St N V → Except Err (St N V)
  | 0, _, st => .ok st
  | fuel + 1, q, st =>
    match Queue.heappop lt q with
    | none => .ok st
    | some (cn, q) => do
      let (invalid, q, cn) ← refresh lt size st.g st.invalid.length st.invalid q cn
      let st ← elim { st with invalid := invalid } cn.2
      mainLoop lt size fuel q st

/-- l.64-69: every node with both successors and predecessors is queued with its cost. -/
def fillQueue (lt : Nat × N → Nat × N → Bool) (size : V → Nat) (g : G N V) :
    List N → List (Nat × N) → Except Err (List (Nat × N))
  | [], q => .ok q
  | n :: ns, q =>
    if (g.succ n).isEmpty || (g.pred n).isEmpty then fillQueue lt size g ns q
    else do
      let cost ← node_cost size g n
      fillQueue lt size g ns (Queue.heappush lt q (cost, n))

/-- `mgraph_simplify_inplace`, l.25-148. -/
def mgraph_simplify (lt : Nat × N → Nat × N → Bool) (size : V → Nat) (g : G N V) : Except Err (G N V) := do
  let g ← check_seq_req_balance g
  let q ← fillQueue lt size g (Dict.keys g.seq) []
  let st ← mainLoop lt size q.length q ⟨g, []⟩
  pure st.g

/-! ## graph_algorithm.py, `inverse_solve_inplace` -/

/-- Node names after dressing: the user's nodes, the special vacuum state (`VACUUM_STATE`, l.176) and the
wrapped inputs and outputs (`wrap_input_node`, `wrap_output_node`, l.151-156).  A user node is assumed not
to equal one of the special names. -/
inductive WN (N : Type)
  | node (n : N) | vac | inp (n : N) | out (n : N)
  deriving DecidableEq, Fintype

/-- l.177-184. -/
def dressSources (inputs_map : Dict N V) (g : G (WN N) V) : G (WN N) V :=
  inputs_map.foldl (fun g iv =>
    ((g.seqAdd .vac (.node iv.1)).reqAdd (.node iv.1) .vac).setEdge .vac (.node iv.1) iv.2) g

/-- l.186-193. -/
def dressInputs (inputs_set : List N) (g : G (WN N) V) : G (WN N) V :=
  inputs_set.foldl (fun g i =>
    ((g.seqAdd (.inp i) (.node i)).reqAdd (.node i) (.inp i)).setEdge (.inp i) (.node i) 1) g

/-- l.195-206. -/
def dressOutputs (negative : Bool) (outputs_set : List N) (g : G (WN N) V) : G (WN N) V :=
  let value : V := if negative then -1 else 1
  outputs_set.foldl (fun g o =>
    ((g.seqAdd (.node o) (.out o)).reqAdd (.out o) (.node o)).setEdge (.node o) (.out o) value) g

/-- l.243-246, one output. -/
def outStep (g : G (WN N) V) (m : Dict N V) (o : N) : Dict N V :=
  match Dict.get? g.em (.vac, .out o) with
  | some v => Dict.set m o v
  | none => m

/-- l.241-246. -/
def unwrapOutputs (outputs_set : List N) (g : G (WN N) V) : Dict N V := outputs_set.foldl (outStep g) []

/-- inner loop of l.255-265: a successor of a wrapped input that is not a wrapped output raises. -/
def unwrapInput (g : G (WN N) V) (i : N) : List (WN N) → Dict (N × N) V → Except Err (Dict (N × N) V)
  | [], m => .ok m
  | w :: ws, m => do
    let v ← g.edge (.inp i) w
    match w with
    | .out o => unwrapInput g i ws (Dict.set m (i, o) v)
    | .inp _ => .error .assertion
    | _ => .error .valueError

/-- l.255-265. -/
def unwrapEdges (g : G (WN N) V) : List N → Dict (N × N) V → Except Err (Dict (N × N) V)
  | [], m => .ok m
  | i :: is, m => do
    let m ← unwrapInput g i (g.succ (.inp i)) m
    unwrapEdges g is m

/-- The options of `inverse_solve_inplace` and the interpreter dependent choices. -/
structure Opts (N : Type) (V : Type) where
  purge_in : Bool := true
  purge_out : Bool := true
  negative : Bool := false
  /-- the `<` of queue entries -/
  lt : Nat × WN N → Nat × WN N → Bool
  /-- which element `set.pop` takes -/
  pick : List (WN N) → WN N
  /-- number of entries of an edge value -/
  size : V → Nat

/-- The user's graph seen as a graph over the dressed names. -/
def lift (g : G N V) : G (WN N) V where
  seq := g.seq.map (fun kv => (.node kv.1, kv.2.map .node))
  req := g.req.map (fun kv => (.node kv.1, kv.2.map .node))
  em := g.em.map (fun kv => ((.node kv.1.1, .node kv.1.2), kv.2))

/-- l.173-225: everything up to the simplification. -/
def prepare [Fintype N] (o : Opts N V) (outputs_set inputs_set : List N) (inputs_map : Option (Dict N V))
    (g : G N V) : Except Err (G (WN N) V) := do
  let g := pre_purge (lift g)
  let g := match inputs_map with
    | none => g
    | some m => dressSources m g
  let g := dressInputs inputs_set g
  let g := dressOutputs o.negative outputs_set g
  let g ← if o.purge_in then purge_reqless o.pick (.vac :: inputs_set.map .inp) g else pure g
  if o.purge_out then purge_seqless o.pick (outputs_set.map .out) g else pure g

/-- `inverse_solve_inplace`, l.159-272, with `scattering = True` (l.173 asserts it).  Returns
`(outputs_map, edge_map)`; the returned `seq`/`req` are the adjacency of `edge_map`. -/
def inverse_solve [Fintype N] (o : Opts N V) (outputs_set inputs_set : List N) (inputs_map : Option (Dict N V))
    (g : G N V) : Except Err (Option (Dict N V) × Dict (N × N) V) := do
  let g ← prepare o outputs_set inputs_set inputs_map g
  let g ← mgraph_simplify o.lt o.size g
  let outs := inputs_map.map (fun _ => unwrapOutputs outputs_set g)
  let em ← unwrapEdges g inputs_set []
  pure (outs, em)

end Graph
