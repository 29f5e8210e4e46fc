import Verif.Dag.Model

/-!
# `phasor/matrix/scisparse_algorithm.py`

The solvers `scisparse`, `scisparse_superLU` and `scisparse_umfpack`: dress and purge the graph as the default solver does, build the
two sparse matrices, and call `scipy.sparse.linalg.spsolve`.  Edge values are scalars of an exact field (for arrays
the loop l.190-241 does the same at every index).  `set.pop`, the two sorts and `spsolve` are parameters (`Lib`).
-/

namespace Sci
open Py Graph Dag

variable {M : Type} {V : Type} [DecidableEq M]

/-- Entries `(row, column, value)` given to the constructor of `csc_matrix`, which adds entries at the same place. -/
abbrev Coo (V : Type) := List (Nat × Nat × V)

/-- The entry of the matrix. -/
def entry [AddMonoid V] (A : Coo V) (r c : Nat) : V :=
  ((A.filter (fun t => decide (t.1 = r ∧ t.2.1 = c))).map (fun t => t.2.2)).sum

/-- The calls into python and scipy. -/
structure Lib (M : Type) (V : Type) where
  /-- `set.pop`. -/
  pick : List M → M
  /-- `sortkeys_inplace`, l.45-55; comparing may raise. -/
  sortkeys : List M → Except Err (List M)
  /-- `sortkeys_inplace_split`, l.57-68. -/
  sortkeys_split : List M → Except Err (List M)
  /-- `spsolve(A, b)` for `A` of shape `(n, n)` and `b` of shape `(n, m)`; the stored entries of the result as `(column, row, value)`
  (l.218-223, or the nonzero entries of the vector if `m ≤ 1`, l.236-240). -/
  spsolve : (n m : Nat) → Coo V → Coo V → Except Err (Coo V)

/-- The pairs `(key, element)` in the order of two nested loops over a dictionary of sets. -/
def pairs (d : Dict M (List M)) : List (M × M) := d.flatMap (fun kv => kv.2.map (fun s => (kv.1, s)))

/-- A loop that appends one value each turn. -/
def build {α β : Type} (f : α → Except Err β) : List α → Except Err (List β)
  | [] => .ok []
  | a :: as => do
    let b ← f a
    let bs ← build f as
    pure (b :: bs)

/-- `keys_inv[k]` l.141-147; the keys come from a set, so no key is listed twice. -/
def index (keys : List M) (k : M) : Except Err Nat :=
  if k ∈ keys then .ok (keys.idxOf k) else .error .keyError

/-- `keys[i]`. -/
def item (keys : List M) (i : Nat) : Except Err M :=
  match keys[i]? with
  | some k => .ok k
  | none => .error .indexError

/-- l.110-116: all nodes of the graph. -/
def all_keys (d : D M V) : List M :=
  (Dict.keys d.seq ++ Dict.keys d.req ++ d.req.flatMap (fun kv => kv.1 :: kv.2) ++ d.seq.flatMap (fun kv => kv.1 :: kv.2)).foldl sadd []

/-- l.118-120: all sources. -/
def all_alpha (d : D M V) : List M := (d.alpha.flatMap (fun kv => kv.2)).foldl sadd []

/-- l.122-125, one turn. -/
def beta_cell (em : Dict (M × M) V) (p : M × M) : Except Err ((M × M) × V) := do
  let a ← Dict.get em p
  pure (p, a)

/-- l.170-173: the entry of an edge; `p = (k_fr, k_to)`. -/
def cell (em : Dict (M × M) V) (keys : List M) (p : M × M) : Except Err (Nat × Nat × V) := do
  let a ← Dict.get em p
  let c ← index keys p.1
  let r ← index keys p.2
  pure (r, c, a)

/-- l.182-185: the entry of a source; `p = (k_to, k_fr)`. -/
def alpha_cell (em : Dict (M × M) V) (keys keys_alpha : List M) (p : M × M) : Except Err (Nat × Nat × V) := do
  let a ← Dict.get em (p.2, p.1)
  let c ← index keys_alpha p.2
  let r ← index keys p.1
  pure (r, c, a)

/-- l.247-258, one turn.  `beta` is the copy of `seq_beta` made at l.105; the sets `sbetaO[k_fr]` that grow belong to sources, which
are not keys of the copy. -/
def out_turn [Mul V] (keys keys_alpha : List M) (beta : Dict M (List M)) (emb : Dict (M × M) V) (d : D M V)
    (t : (Nat × Nat) × V) : Except Err (D M V) := do
  let k_fr ← item keys_alpha t.1.1
  let k_to ← item keys t.1.2
  match at' beta k_to with
  | [] => pure d
  | [s] => do
    let e ← Dict.get emb (k_to, s)
    pure { d with em := Dict.set d.em (k_fr, s) (t.2 * e), beta := ins d.beta k_fr s, alpha := ins d.alpha s k_fr }
  | _ => .error .assertion

/-- l.247-258. -/
def out_loop [Mul V] (keys keys_alpha : List M) (beta : Dict M (List M)) (emb : Dict (M × M) V) :
    Dict (Nat × Nat) V → D M V → Except Err (D M V)
  | [], d => .ok d
  | t :: ts, d => do
    let d ← out_turn keys keys_alpha beta emb d t
    out_loop keys keys_alpha beta emb ts d

/-- `mgraph_simplify_inplace`, l.89-261.  Without any edge the variable `a` of l.153-190 is unbound. -/
def mgraph_simplify [Field V] (L : Lib M V) (d : D M V) : Except Err (D M V) := do
  let d ← check_balance d
  let emb ← build (beta_cell d.em) (pairs d.beta)
  let keys ← L.sortkeys (all_keys d)
  let keys_alpha ← L.sortkeys_split (all_alpha d)
  if d.em.isEmpty then .error .unboundLocal else
  let A ← build (cell d.em keys) (pairs d.seq)
  let b ← build (alpha_cell d.em keys keys_alpha) (pairs d.alpha)
  let x ← L.spsolve keys.length keys_alpha.length A b
  let edge_map_ab := x.foldl (fun (m : Dict (Nat × Nat) V) t => Dict.set m (t.1, t.2.1) t.2.2) []
  out_loop keys keys_alpha d.beta emb edge_map_ab { d with em := [] }

variable {N : Type} [DecidableEq N] [Field V] [DecidableEq V]

/-- l.287-289: the nodes of the graph, the inputs, the outputs and the sources. -/
def scatter_keys (outputs_set inputs_set : List N) (inputs_map : Option (Dict N V)) (g : G N V) : List N :=
  (Dict.keys g.seq ++ Dict.keys g.req ++ inputs_set ++ outputs_set ++
    (match inputs_map with
      | none => []
      | some m => Dict.keys m)).foldl sadd []

/-- l.286-297: these nodes get the diagonal entry of `M - 1`. -/
def scatterStep (o : Opts) (outputs_set inputs_set : List N) (inputs_map : Option (Dict N V)) (g : G N V) : Except Err (G N V) :=
  if o.scattering then scatter (scatter_keys outputs_set inputs_set inputs_map g) g else pure g

/-- l.299-330: pre purge and dressing; as in the default solver except that the sign of the outputs is the opposite. -/
def dress (o : Opts) (outputs_set inputs_set : List N) (inputs_map : Option (Dict N V)) (g : G N V) : D (WN N) V :=
  let g := pre_purge (lift g)
  let d : D (WN N) V := ⟨g.seq, g.req, [], [], g.em⟩
  let d := match inputs_map with
    | none => d
    | some m => dressAlpha (fun _ => WN.vac)
        (fun w => match w with
          | .node n => (Dict.get? m n).getD 0
          | _ => 0) (m.map (fun kv => .node kv.1)) d
  let d := dressAlpha wrapIn (fun _ => 1) (inputs_set.map .node) d
  let negative := if o.scattering then !o.negative else o.negative
  dressBeta (if negative then -1 else 1) (outputs_set.map .node) d

/-- l.286-349. -/
def prepare [Fintype N] (pick : List (WN N) → WN N) (o : Opts) (outputs_set inputs_set : List N)
    (inputs_map : Option (Dict N V)) (g : G N V) : Except Err (D (WN N) V) := do
  let g ← scatterStep o outputs_set inputs_set inputs_map g
  let d := dress o outputs_set inputs_set inputs_map g
  let d ← if o.purge_in then Dag.purge_reqless pick d else pure d
  if o.purge_out then Dag.purge_seqless pick d else pure d

/-- `inverse_solve_inplace`, l.264-400; returns `(outputs_map, edge_map)`.  The unwrapping l.367-393 is that of the default
solver. -/
def inverse_solve [Fintype N] (L : Lib (WN N) V) (o : Opts) (outputs_set inputs_set : List N)
    (inputs_map : Option (Dict N V)) (g : G N V) : Except Err (Option (Dict N V) × Dict (N × N) V) :=
  if outputs_set.isEmpty || (inputs_map.isNone && inputs_set.isEmpty) then .ok (some [], []) else do
    let d ← prepare L.pick o outputs_set inputs_set inputs_map g
    let d ← mgraph_simplify L d
    let outs := inputs_map.map (fun _ => outputs_set.foldl (outStep d) [])
    let em ← unwrapEdges d inputs_set []
    pure (outs, em)

end Sci
