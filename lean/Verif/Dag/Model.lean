import Verif.Graph.Model

/-!
# `phasor/matrix/DAG_algorithm.py` and `phasor/matrix/DAG_algorithm_impl.py`

The `loop_LUQ` solver (the default one).  The state is the tuple `SRABE = (seq, req, req_alpha, seq_beta,
edge_map)`; the four adjacency maps are `defaultdict(set)`.  Edge values live in an exact field; python's
`abs`, `**.5` and `.conjugate()` are the parameter `Alg`.  Symbolic companions (`SRABE_SYM`), METIS orders
and array valued edges are not modelled.
-/

namespace Dag
open Py Graph

variable {M : Type} {V : Type} [DecidableEq M]

/-- `d[a]` of a `defaultdict(set)`. -/
def at' (d : Dict M (List M)) (a : M) : List M := (Dict.get? d a).getD []

/-- `d[a].add(b)` (also `d.setdefault(a, set()).add(b)`). -/
def ins (d : Dict M (List M)) (a b : M) : Dict M (List M) := Dict.set d a (sadd (at' d a) b)

/-- `d[a].remove(b)`. -/
def rem (d : Dict M (List M)) (a b : M) : Except Err (Dict M (List M)) := do
  let s ← sremove (at' d a) b
  pure (Dict.set d a s)

/-- The tuple `SRABE`. -/
structure D (M : Type) (V : Type) where
  seq : Dict M (List M)
  req : Dict M (List M)
  alpha : Dict M (List M)
  beta : Dict M (List M)
  em : Dict (M × M) V

/-- `check_graph_at_node`, DAG_algorithm_impl.py l.22-27. -/
def check_graph_at_node (d : D M V) (n : M) : Except Err Unit :=
  if (at' d.seq n).all (fun s => decide (n ∈ at' d.req s)) && (at' d.req n).all (fun r => decide (n ∈ at' d.seq r))
  then .ok () else .error .assertion

/-- python's `abs`, `**.5` and `.conjugate()` on edge values. -/
structure Alg (V : Type) where
  conj : V → V
  abs : V → V
  sqrt : V → V

/-- `abssq`, l.14-15: `real**2 + imag**2`. -/
def Alg.abssq [Mul V] (A : Alg V) (e : V) : V := e * A.conj e

variable [Field V] [DecidableEq V]

/-! ## `reduceLU`, l.591-695 -/

/-- The body of the four double loops l.620-631, 633-643, 649-659, 661-672: add the product to the edge, and
list it.  `sBeta`: the target is an output node; `rAlpha`: the start is an input node. -/
def luUpd (sBeta rAlpha : Bool) (d : D M V) (r s : M) (prod : V) : D M V :=
  let em := match Dict.get? d.em (r, s) with
    | some prev => Dict.set d.em (r, s) (prev + prod)
    | none => Dict.set d.em (r, s) prod
  { seq := if !sBeta && !rAlpha then ins d.seq r s else d.seq
    req := if !sBeta && !rAlpha then ins d.req s r else d.req
    alpha := if rAlpha then ins d.alpha s r else d.alpha
    beta := if sBeta then ins d.beta r s else d.beta
    em := em }

/-- One inner loop. -/
def luInner (sBeta rAlpha : Bool) (n s : M) (prod_L : V) : List M → D M V → Except Err (D M V)
  | [], d => .ok d
  | r :: rs, d => do
    let redge ← Dict.get d.em (r, n)
    luInner sBeta rAlpha n s prod_L rs (luUpd sBeta rAlpha d r s (prod_L * redge))

/-- l.616-643 (`sBeta = false`) and l.645-672 (`sBeta = true`). -/
def luOuter (sBeta : Bool) (n : M) (CLG : V) (R RA : List M) : List M → D M V → Except Err (D M V)
  | [], d => .ok d
  | s :: ss, d => do
    let sedge ← Dict.get d.em (n, s)
    let prod_L := sedge * CLG
    let d ← luInner sBeta false n s prod_L R d
    let d ← luInner sBeta true n s prod_L RA d
    luOuter sBeta n CLG R RA ss d

/-- l.674-678. -/
def luDelSeq (n : M) : List M → D M V → Except Err (D M V)
  | [], d => .ok d
  | s :: ss, d => do
    let em ← Dict.del d.em (n, s)
    let req ← rem d.req s n
    luDelSeq n ss { d with em := em, req := req }

/-- l.681-682. -/
def luDelBeta (n : M) : List M → D M V → Except Err (D M V)
  | [], d => .ok d
  | s :: ss, d => do
    let em ← Dict.del d.em (n, s)
    luDelBeta n ss { d with em := em }

/-- l.685-689. -/
def luDelReq (n : M) : List M → D M V → Except Err (D M V)
  | [], d => .ok d
  | r :: rs, d => do
    let em ← Dict.del d.em (r, n)
    let seq ← rem d.seq r n
    luDelReq n rs { d with em := em, seq := seq }

/-- l.692-693. -/
def luDelAlpha (n : M) : List M → D M V → Except Err (D M V)
  | [], d => .ok d
  | r :: rs, d => do
    let em ← Dict.del d.em (r, n)
    luDelAlpha n rs { d with em := em }

/-- l.607-614: the self edge is read, inverted and removed. -/
def luSelf (n : M) (d : D M V) : Except Err (V × D M V) := do
  let self_edge ← Dict.get d.em (n, n)
  if self_edge = 0 then .error .zeroDivision
  else
    let seq ← rem d.seq n n
    let req ← rem d.req n n
    let em ← Dict.del d.em (n, n)
    pure (-1 / self_edge, { d with seq := seq, req := req, em := em })

/-- l.674-694: the node is removed. -/
def luDelete (n : M) (d : D M V) : Except Err (D M V) := do
  let d ← luDelSeq n (at' d.seq n) d
  let d := { d with seq := Dict.erase d.seq n }
  let d ← luDelBeta n (at' d.beta n) d
  let d := { d with beta := Dict.erase d.beta n }
  let d ← luDelReq n (at' d.req n) d
  let d := { d with req := Dict.erase d.req n }
  let d ← luDelAlpha n (at' d.alpha n) d
  pure { d with alpha := Dict.erase d.alpha n }

/-- `reduceLU`, l.591-695 (without the symbolic companion).  The sets iterated over belong to `node` and
are not changed by the loops (every other node differs from it), so iterating over a snapshot is the same. -/
def reduceLU (n : M) (d : D M V) : Except Err (D M V) := do
  let (CLG, d) ← luSelf n d
  let d ← luOuter false n CLG (at' d.req n) (at' d.alpha n) (at' d.seq n) d
  let d ← luOuter true n CLG (at' d.req n) (at' d.alpha n) (at' d.beta n) d
  luDelete n d

/-! ## Pivots, l.178-330 -/

/-- l.211-217: edges from `n1` are moved to `edge_map_2` under `n2`. -/
def pcSeq1 (n1 n2 : M) : List M → D M V × Dict (M × M) V → Except Err (D M V × Dict (M × M) V)
  | [], p => .ok p
  | s :: ss, (d, em2) => do
    let edge ← Dict.get d.em (n1, s)
    let req ← rem d.req s n1
    pcSeq1 n1 n2 ss ({ d with em := Dict.erase d.em (n1, s), req := ins req s n2 }, Dict.set em2 (n2, s) edge)

/-- l.219-221 and l.232-234. -/
def pcBeta (n1 n2 : M) : List M → D M V × Dict (M × M) V → Except Err (D M V × Dict (M × M) V)
  | [], p => .ok p
  | s :: ss, (d, em2) => do
    let edge ← Dict.get d.em (n1, s)
    pcBeta n1 n2 ss ({ d with em := Dict.erase d.em (n1, s) }, Dict.set em2 (n2, s) edge)

/-- l.227-228. -/
def pcReq (n2 : M) (seq1 : List M) (s : M) (req : Dict M (List M)) : Except Err (Dict M (List M)) :=
  if s ∉ seq1 then rem req s n2 else .ok req

/-- l.223-230. -/
def pcSeq2 (n1 n2 : M) (seq1 : List M) : List M → D M V × Dict (M × M) V → Except Err (D M V × Dict (M × M) V)
  | [], p => .ok p
  | s :: ss, (d, em2) => do
    let edge ← Dict.get d.em (n2, s)
    let req ← pcReq n2 seq1 s d.req
    pcSeq2 n1 n2 seq1 ss ({ d with em := Dict.erase d.em (n2, s), req := ins req s n1 }, Dict.set em2 (n1, s) edge)

/-- `pivotCOL_OP`, l.178-254. -/
def pivotCOL (n1 n2 : M) (d : D M V) : Except Err (D M V) := do
  check_graph_at_node d n1
  check_graph_at_node d n2
  let p ← pcSeq1 n1 n2 (at' d.seq n1) (d, [])
  let p ← pcBeta n1 n2 (at' d.beta n1) p
  let p ← pcSeq2 n1 n2 (at' d.seq n1) (at' d.seq n2) p
  let p ← pcBeta n2 n1 (at' d.beta n2) p
  let d' := p.1
  let d' := { d' with
    seq := Dict.set (Dict.set d'.seq n1 (at' d.seq n2)) n2 (at' d.seq n1)
    beta := Dict.set (Dict.set d'.beta n1 (at' d.beta n2)) n2 (at' d.beta n1) }
  check_graph_at_node d' n1
  check_graph_at_node d' n2
  pure { d' with em := Dict.update d'.em p.2 }

/-- Reversal of all arrows: `seq` with `req`, `req_alpha` with `seq_beta`. -/
def flipKey (p : M × M) : M × M := (p.2, p.1)

def flip (d : D M V) : D M V where
  seq := d.req
  req := d.seq
  alpha := d.beta
  beta := d.alpha
  em := d.em.map (fun kv => (flipKey kv.1, kv.2))

/-- `pivotROW_OP`, l.257-330: line by line `pivotCOL_OP` with `seq`/`req`, `seq_beta`/`req_alpha` and
the order of the edge keys exchanged. -/
def pivotROW (n1 n2 : M) (d : D M V) : Except Err (D M V) := (pivotCOL n1 n2 (flip d)).map flip

/-! ## Householder reflections, l.333-453 and l.1028-1144 -/

/-- l.362-365: the edges into the target and the sum of their squares. -/
def hhFrom (A : Alg V) (into : M) (d : D M V) : List M → V × Dict M V → Except Err (V × Dict M V)
  | [], p => .ok p
  | k :: ks, (norm_sq, u) => do
    let edge ← Dict.get d.em (k, into)
    hhFrom A into d ks (norm_sq + A.abssq edge, Dict.set u k edge)

/-- What l.359-383 compute: `u_vec` (normalised, with the target) and `edge_inject`. -/
structure HH (M V : Type) where
  u : Dict M V
  inject : V

/-- l.359-383. -/
def hhVec (A : Alg V) (into : M) (nodes_from : List M) (d : D M V) : Except Err (HH M V) := do
  let (norm_sq, u) ← hhFrom A into d nodes_from (0, [])
  let edge ← Dict.get d.em (into, into)
  let norm_rem_sq := norm_sq
  let norm_orig := A.sqrt (norm_sq + A.abssq edge)
  if A.abs edge = 0 then .error .zeroDivision
  else
    let u_mod_edge := edge + norm_orig * edge / A.abs edge
    let norm := A.sqrt (norm_sq + A.abssq u_mod_edge)
    if norm = 0 then .error .zeroDivision
    else
      let u := u.map (fun kv => (kv.1, kv.2 / norm))
      let u_mod_edge := u_mod_edge / norm
      let u := Dict.set u into u_mod_edge
      pure ⟨u, edge - 2 * u_mod_edge * (A.conj u_mod_edge * edge + norm_rem_sq / norm)⟩

/-- l.399-402: the overlap of `u_vec` with the edges into `fnode`. -/
def hhGen (A : Alg V) (d : D M V) (fnode : M) (fnode_req : List M) : Dict M V → V → Except Err V
  | [], gen => .ok gen
  | (k, edge) :: us, gen =>
    if k ∈ fnode_req then do
      let e ← Dict.get d.em (k, fnode)
      hhGen A d fnode fnode_req us (gen + A.conj edge * e)
    else hhGen A d fnode fnode_req us gen

/-- l.395-404. -/
def hhGens (A : Alg V) (d : D M V) (u : Dict M V) : Dict M (List M) → Dict M V → Except Err (Dict M V)
  | [], acc => .ok acc
  | (fnode, fnode_req) :: rest, acc => do
    let gen ← hhGen A d fnode fnode_req u 0
    hhGens A d u rest (if gen ≠ 0 then Dict.set acc fnode gen else acc)

/-- l.407-413, for one `fnode`. -/
def hhApply1 (fnode : M) (fedge : V) : Dict M V → D M V → Except Err (D M V)
  | [], d => .ok d
  | (k, edge) :: us, d =>
    if fnode ∈ at' d.seq k then do
      let e ← Dict.get d.em (k, fnode)
      hhApply1 fnode fedge us { d with em := Dict.set d.em (k, fnode) (e - 2 * edge * fedge) }
    else
      hhApply1 fnode fedge us { d with
        em := Dict.set d.em (k, fnode) (-2 * edge * fedge)
        seq := ins d.seq k fnode
        req := ins d.req fnode k }

/-- l.406-413. -/
def hhApply (u : Dict M V) : Dict M V → D M V → Except Err (D M V)
  | [], d => .ok d
  | (fnode, fedge) :: rest, d => do
    let d ← hhApply1 fnode fedge u d
    hhApply u rest d

/-- l.417-420. -/
def hhClear (into : M) : List M → D M V → Except Err (D M V)
  | [], d => .ok d
  | k :: ks, d => do
    let seq ← rem d.seq k into
    let req ← rem d.req into k
    let em ← Dict.del d.em (k, into)
    hhClear into ks { d with seq := seq, req := req, em := em }

/-- l.431-432. -/
def hhBetaTo (snode : M) (gain : V) (u : Dict M V) (acc : Dict (M × M) V) : Dict (M × M) V :=
  u.foldl (fun acc kt => Dict.set acc (snode, kt.1) ((Dict.get? acc (snode, kt.1)).getD 0 + kt.2 * gain)) acc

/-- l.428-432, over `seq_beta[k]`. -/
def hhBetaK (A : Alg V) (d : D M V) (u : Dict M V) (k : M) (uedge : V) :
    List M → Dict (M × M) V → Except Err (Dict (M × M) V)
  | [], acc => .ok acc
  | snode :: ss, acc => do
    let edge_beta ← Dict.get d.em (k, snode)
    hhBetaK A d u k uedge ss (hhBetaTo snode (-2 * A.conj uedge * edge_beta) u acc)

/-- l.425-432. -/
def hhBeta (A : Alg V) (d : D M V) (u : Dict M V) : Dict M V → Dict (M × M) V → Except Err (Dict (M × M) V)
  | [], acc => .ok acc
  | (k, uedge) :: us, acc => do
    let acc ← hhBetaK A d u k uedge (at' d.beta k) acc
    hhBeta A d u us acc

/-- l.434-439. -/
def hhBetaApply : Dict (M × M) V → D M V → Except Err (D M V)
  | [], d => .ok d
  | ((snode, k_to), edge) :: rest, d =>
    if snode ∈ at' d.beta k_to then do
      let e ← Dict.get d.em (k_to, snode)
      hhBetaApply rest { d with em := Dict.set d.em (k_to, snode) (e + edge) }
    else
      hhBetaApply rest { d with
        em := Dict.set d.em (k_to, snode) edge
        beta := ins d.beta k_to snode }

/-- `householderREFL_ROW_OP`, l.333-453 (without the symbolic companion). -/
def householderROW (A : Alg V) (into : M) (nodes_from : List M) (d : D M V) : Except Err (D M V) := do
  check_graph_at_node d into
  let h ← hhVec A into nodes_from d
  let gens ← hhGens A d h.u d.req []
  let d ← hhApply h.u gens d
  let d := { d with em := Dict.set d.em (into, into) h.inject }
  let d ← hhClear into nodes_from d
  let b ← hhBeta A d h.u h.u []
  let d ← hhBetaApply b d
  check_graph_at_node d into
  pure d

/-- `householderREFL_COL_OP`, l.1028-1144: line by line the row operation with the arrows
reversed, except that the closing assertions l.1128-1131 only look at `req`. -/
def householderCOL (A : Alg V) (into : M) (nodes_from : List M) (d : D M V) : Except Err (D M V) :=
  (householderROW A into nodes_from (flip d)).map flip

/-! ## `reduceLUQ_row`, l.30-175 -/

/-- `reduceLUQ_row`.  `big` is the comparison of l.74 (which of the entries into the node are large), an
arbitrary choice here.  A row of zeros has norm 0 and l.67 or l.71-73 raise.  (l.38 names `seq_beta` and `req_alpha` the wrong way round, which
makes no difference to the conjunction of the asserts l.49-52.)  The conditions l.101 and l.151 amount to "there is no large self edge":
`do_save` is only set when the self entry exists and is not large, and then the second disjunct holds. -/
def reduceLUQ_row (A : Alg V) (big : M → Bool) (node : M) (d : D M V) : Except Err (D M V) :=
  if (at' d.req node).isEmpty then
    if (at' d.seq node).isEmpty && (at' d.beta node).isEmpty && (at' d.alpha node).isEmpty then .ok d
    else .error .assertion
  else if (at' d.req node).all (fun r => decide ((Dict.get? d.em (r, node)).getD 0 = 0)) then .error .zeroDivision
  else do
    let bignodes := (at' d.req node).filter big
    let d ←
      if bignodes.length ≥ 2 then
        if bignodes.all (fun kf => decide (node ∈ at' d.seq kf)) then
          if node ∉ bignodes then do
            let node_pivot := bignodes.headD node
            let d ← pivotCOL node node_pivot d
            householderROW A node (bignodes.filter (· ≠ node_pivot)) d
          else householderROW A node (bignodes.filter (· ≠ node)) d
        else .error .assertion
      else if bignodes.length = 1 then
        if node ∉ bignodes then pivotCOL node (bignodes.headD node) d else pure d
      else pure d
    reduceLU node d

/-! ## `DAG_algorithm.py` -/

/-- The heuristics: costs, the comparison of queue entries, the test for an outdated cost (l.323), for a
badly scaled node (l.210-226) and for large entries.  A cost may depend on the whole history; `t` counts
the evaluations, so any history of costs is such a function. -/
structure Heur (M V C : Type) where
  cost : Nat → M → C
  lt : C × M → C × M → Bool
  far : C → C → Bool
  bad : Nat → M → Bool
  big : Nat → M → M → Bool
  /-- which element `set.pop` takes -/
  pick : List M → M

variable {C : Type}

/-- l.187-189 and l.300-302: every node is queued with its cost. -/
def fill (h : Heur M V C) : Nat → List M → List (C × M) → Nat × List (C × M)
  | t, [], q => (t, q)
  | t, n :: ns, q => fill h (t + 1) ns (Queue.heappush h.lt q (h.cost t n, n))

/-- Reading `req[node]` for every node of `seq` in the cost function creates the missing entries. -/
def touchReq (d : D M V) : D M V := { d with req := (Dict.keys d.seq).foldl touch d.req }

/-- l.193-233: nodes without a self edge, with a zero self edge or badly scaled ones are dropped from the
queue, the others reduced.  Costs in the queue are never renewed: `node_costs_invalid_in_queue` starts empty and
`reduceLU` only adds to a nonempty set (DAG_algorithm_impl.py l.675, l.686). -/
def trivialLoop (h : Heur M V C) : Nat → Nat → List (C × M) → D M V → Except Err (Nat × D M V)
  | 0, t, _, d => .ok (t, d)
  | fuel + 1, t, q, d =>
    match Queue.heappop h.lt q with
    | none => .ok (t, d)
    | some ((_, node), q) =>
      match Dict.get? d.em (node, node) with
      | none => trivialLoop h fuel t q d
      | some self_edge =>
        if self_edge = 0 then trivialLoop h fuel t q d
        else if h.bad t node then trivialLoop h fuel (t + 1) q d
        else do
          let d ← reduceLU node d
          trivialLoop h fuel (t + 1) q d

/-- `mgraph_simplify_trivial`, l.159-234. -/
def simplify_trivial (h : Heur M V C) (t : Nat) (d : D M V) : Except Err (Nat × D M V) :=
  let d := touchReq d
  let (t, q) := fill h t (Dict.keys d.seq) []
  trivialLoop h q.length t q d

/-- l.307-312: nodes with an outdated cost are queued again (they stay in the queue with the old one too).
`invalid` is a set from which `pop` takes any element. -/
def requeue (h : Heur M V C) (d : D M V) : Nat → List M → List (C × M) → Nat × List (C × M)
  | t, [], q => (t, q)
  | t, n :: ns, q =>
    if Dict.has d.seq n then requeue h d (t + 1) ns (Queue.heappush h.lt q (h.cost t n, n))
    else requeue h d t ns q

/-- l.325-326: pop until a node still present comes; `none` is `Empty`. -/
def popLive (h : Heur M V C) (d : D M V) : Nat → List (C × M) → Option ((C × M) × List (C × M))
  | 0, _ => none
  | fuel + 1, q =>
    match Queue.heappop h.lt q with
    | none => none
    | some (cn, q) => if Dict.has d.seq cn.2 then some (cn, q) else popLive h d fuel q

/-- l.322-328: while the popped cost is outdated, swap through the queue.  `none` is `Empty`; running out of
`fuel` is reported as an error (the python loop would go on). -/
def settle (h : Heur M V C) (d : D M V) : Nat → Nat → C × M → List (C × M) →
    Except Err (Nat × Option (M × List (C × M)))
  | 0, _, _, _ => .error .runtime
  | fuel + 1, t, cn, q =>
    let new_cost := h.cost t cn.2
    if h.far cn.1 new_cost then
      let r := Queue.heappushpop h.lt q (new_cost, cn.2)
      if Dict.has d.seq r.1.2 then settle h d fuel (t + 1) r.1 r.2
      else
        match popLive h d r.2.length r.2 with
        | none => .ok (t + 1, none)
        | some (cn', q') => settle h d fuel (t + 1) cn' q'
    else .ok (t + 1, some (cn.2, q))

/-- The nodes whose cost the operations may mark as outdated: any choice, given by `inv`.  The main loop
l.305-351 of `mgraph_simplify_badguys`; it ends when `req` is empty or the queue is exhausted (`Empty` is
caught, and `req` is then still nonempty).  l.333-342 only computes a value that is printed.  python's `req` may
hold further empty entries made by reading it; then the loop goes on popping nodes that are gone until the queue
is empty, with the same result. -/
def badLoop (h : Heur M V C) (A : Alg V) (inv : Nat → List M) : Nat → Nat → List (C × M) → D M V → Except Err (D M V)
  | 0, _, _, _ => .error .runtime
  | fuel + 1, t, q, d =>
    if d.req.isEmpty then .ok d
    else
      let (t, q) := requeue h d t (inv t) q
      match Queue.heappop h.lt q with
      | none => .ok d
      | some (cn, q) =>
        if Dict.has d.seq cn.2 then do
          match ← settle h d fuel t cn q with
          | (_, none) => pure d
          | (t, some (node, q)) =>
            let d ← reduceLUQ_row A (h.big t node) node d
            badLoop h A inv fuel t q d
        else badLoop h A inv fuel t q d

/-- `mgraph_simplify_badguys`, l.236-351. -/
def simplify_badguys (h : Heur M V C) (A : Alg V) (inv : Nat → List M) (fuel t : Nat) (d : D M V) :
    Except Err (D M V) :=
  let d := touchReq d
  let (t, q) := fill h t (Dict.keys d.seq) []
  badLoop h A inv fuel t q d

/-- `check_seq_req_balance(seq, req, edge_map)`, as in the graph solver. -/
def check_balance (d : D M V) : Except Err (D M V) := do
  let g ← check_seq_req_balance (⟨d.seq, d.req, d.em⟩ : G M V)
  pure { d with em := g.em }

/-- `mgraph_simplify_inplace`, l.41-115, default branch. -/
def mgraph_simplify (h : Heur M V C) (A : Alg V) (inv : Nat → List M) (fuel : Nat) (d : D M V) :
    Except Err (D M V) := do
  let d ← check_balance d
  let (t, d) ← simplify_trivial h 0 d
  let (t, d) ← simplify_trivial h t d
  let (t, d) ← simplify_trivial h t d
  simplify_badguys h A inv fuel t d

/-! ### `inverse_solve_inplace`, l.360-561 -/

variable {N : Type} [DecidableEq N]

/-- l.386-391, for one node. -/
def scatterNode (n : M) (g : G M V) : Except Err (G M V) :=
  if n ∈ g.succ n then do
    let e ← g.edge n n
    pure (g.setEdge n n (e - 1))
  else .ok (((g.setEdge n n (-1)).seqAdd n n).reqAdd n n)

/-- l.384-391: `M - 1` for a scattering problem. -/
def scatter : List M → G M V → Except Err (G M V)
  | [], g => .ok g
  | n :: ns, g => do
    let g ← scatterNode n g
    scatter ns g

/-- l.426-428 and l.431-434: the sources. -/
def dressAlpha (w : M → M) (val : M → V) (nodes : List M) (d : D M V) : D M V :=
  nodes.foldl (fun d i => { d with alpha := ins d.alpha i (w i), em := Dict.set d.em (w i, i) (val i) }) d

/-- Name of a wrapped input or output of a lifted user node. -/
def wrapIn : WN N → WN N
  | .node n => .inp n
  | w => w
def wrapOut : WN N → WN N
  | .node n => .out n
  | w => w

/-- l.441-444: the outputs. -/
def dressBeta (value : V) (nodes : List (WN N)) (d : D (WN N) V) : D (WN N) V :=
  nodes.foldl (fun d o => { d with beta := ins d.beta o (wrapOut o), em := Dict.set d.em (o, wrapOut o) value }) d

/-- `purge_reqless_inplace` with `req_alpha`, `seq_beta`, matrix_generic.py l.78-98: what the sources do
not reach goes, and output entries of nodes without predecessors. -/
def purge_reqless [Fintype M] (pick : List M → M) (d : D M V) : Except Err (D M V) := do
  let g ← color_purge pick true (Dict.keys d.alpha) (⟨d.seq, d.req, d.em⟩ : G M V)
  pure { d with seq := g.seq, req := g.req, em := g.em, beta := d.beta.filter (fun kv => !(g.pred kv.1).isEmpty) }

/-- `purge_seqless_inplace`, matrix_generic.py l.101-121. -/
def purge_seqless [Fintype M] (pick : List M → M) (d : D M V) : Except Err (D M V) := do
  let g ← color_purge pick false (Dict.keys d.beta) (⟨d.seq, d.req, d.em⟩ : G M V)
  pure { d with seq := g.seq, req := g.req, em := g.em, alpha := d.alpha.filter (fun kv => !(g.succ kv.1).isEmpty) }

/-- The options of `inverse_solve_inplace`. -/
structure Opts where
  purge_in : Bool := true
  purge_out : Bool := true
  negative : Bool := false
  scattering : Bool := false

/-- l.383-391: the scattering step on the user's graph. -/
def scatterStep (o : Opts) (g : G N V) : Except Err (G N V) :=
  if o.scattering then scatter ((Dict.keys g.seq ++ Dict.keys g.req).foldl sadd []) g else pure g

/-- l.416-444: pre purge and dressing. -/
def dress (o : Opts) (outputs_set inputs_set : List N) (inputs_map : Option (Dict N V)) (g : G N V) : D (WN N) V :=
  let g := pre_purge (lift g)
  let d : D (WN N) V := ⟨g.seq, g.req, [], [], g.em⟩
  let d := match inputs_map with
    | none => d
    | some m => dressAlpha (fun _ => WN.vac)
        (fun w => match w with
          | .node n => (Dict.get? m n).getD 0
          | _ => 0) (m.map (fun kv => .node kv.1)) d
  let d := dressAlpha wrapIn (fun _ => 1) (inputs_set.map .node) d
  -- scattering flips `negative` (l.399), l.437-440
  let negative := if o.scattering then !o.negative else o.negative
  dressBeta (if negative then 1 else -1) (outputs_set.map .node) d

/-- l.383-463: everything up to the simplification. -/
def prepare [Fintype N] (pick : List (WN N) → WN N) (o : Opts) (outputs_set inputs_set : List N)
    (inputs_map : Option (Dict N V)) (g : G N V) : Except Err (D (WN N) V) := do
  let g ← scatterStep o g
  let d := dress o outputs_set inputs_set inputs_map g
  let d ← if o.purge_in then purge_reqless pick d else pure d
  if o.purge_out then purge_seqless pick d else pure d

/-- l.505-509, one output. -/
def outStep (d : D (WN N) V) (m : Dict N V) (o : N) : Dict N V :=
  match Dict.get? d.em (.vac, .out o) with
  | some v => Dict.set m o v
  | none => m

/-- l.547-553, the edges of one input. -/
def unwrapInput (d : D (WN N) V) (i : N) : List (WN N) → Dict (N × N) V → Except Err (Dict (N × N) V)
  | [], m => .ok m
  | w :: ws, m => do
    let v ← Dict.get d.em (.inp i, w)
    match w with
    | .out o => unwrapInput d i ws (Dict.set m (i, o) v)
    | .inp _ => .error .assertion
    | _ => .error .valueError

/-- l.543-553. -/
def unwrapEdges (d : D (WN N) V) : List N → Dict (N × N) V → Except Err (Dict (N × N) V)
  | [], m => .ok m
  | i :: is, m => do
    let m ← unwrapInput d i (at' d.beta (.inp i)) m
    unwrapEdges d is m

/-- `inverse_solve_inplace`, l.360-561; returns `(outputs_map, edge_map)`. -/
def inverse_solve [Fintype N] (h : Heur (WN N) V C) (A : Alg V) (inv : Nat → List (WN N)) (fuel : Nat) (o : Opts)
    (outputs_set inputs_set : List N) (inputs_map : Option (Dict N V)) (g : G N V) :
    Except Err (Option (Dict N V) × Dict (N × N) V) := do
  let d ← prepare h.pick o outputs_set inputs_set inputs_map g
  let d ← mgraph_simplify h A inv fuel d
  let outs := inputs_map.map (fun _ => outputs_set.foldl (outStep d) [])
  let em ← unwrapEdges d inputs_set []
  pure (outs, em)

end Dag
