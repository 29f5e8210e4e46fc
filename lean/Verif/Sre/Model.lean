import Verif.Graph.Model

/-!
# `phasor/matrix/SRE_matrix_algorithms.py`

A sparse matrix is the triple `(seq, req, edge_map)`, the same as `Graph.G`.  Entries live in an exact field.
-/

namespace Sre
open Py Graph

variable {N : Type} {V : Type} [DecidableEq N]

/-- `d[k]` for a `dict`, or for a `defaultdict(set)` when `dflt`. -/
def read (dflt : Bool) (d : Dict N (List N)) (k : N) : Except Err (List N) :=
  match Dict.get? d k with
  | some s => .ok s
  | none => if dflt then .ok [] else .error .keyError

/-- `d.setdefault(k, set())`. -/
def setdefault (d : Dict N (List N)) (k : N) : Dict N (List N) := if Dict.has d k then d else Dict.set d k []

section mult
variable [Field V]

/-- l.29-38: one row of the second matrix.  `k_to not in seq2[k_mid]` (l.30) cannot hold, `mseq` is that set. -/
def multTo (g2 : G N V) (k_from k_mid : N) (e1 : V) : List N → G N V → Except Err (G N V)
  | [], g => .ok g
  | k_to :: ks, g => do
    let e2 ← g2.edge k_mid k_to
    if k_to ∈ g.succ k_from then do
      let e ← g.edge k_from k_to
      multTo g2 k_from k_mid e1 ks (g.setEdge k_from k_to (e + e2 * e1))
    else
      multTo g2 k_from k_mid e1 ks (((g.setEdge k_from k_to (e2 * e1)).seqAdd k_from k_to).reqAdd k_to k_from)

/-- l.26-38. -/
def multFrom (g1 g2 : G N V) (k_mid : N) (mseq : List N) : List N → G N V → Except Err (G N V)
  | [], g => .ok g
  | k_from :: ks, g => do
    let e1 ← g1.edge k_from k_mid
    let g := { g with seq := setdefault g.seq k_from }
    let g ← multTo g2 k_from k_mid e1 mseq g
    multFrom g1 g2 k_mid mseq ks g

/-- l.23-38, over the items of `seq2`. -/
def multMid (dflt : Bool) (g1 g2 : G N V) : Dict N (List N) → G N V → Except Err (G N V)
  | [], g => .ok g
  | (k_mid, mseq) :: rest, g =>
    if mseq.isEmpty then multMid dflt g1 g2 rest g
    else do
      let froms ← read dflt g1.req k_mid
      let g ← multFrom g1 g2 k_mid mseq froms g
      multMid dflt g1 g2 rest g

end mult

/-- The loop l.45-47: `node in seq[rnode]`; `seq` is a plain `dict` here. -/
def checkReq (seq : Dict N (List N)) (node : N) : List N → Except Err Unit
  | [] => .ok ()
  | rnode :: rs => do
    let s ← Dict.get seq rnode
    if node ∈ s then checkReq seq node rs else .error .assertion

/-- The loop l.48-51. -/
def checkSeq (g : G N V) (node : N) : List N → Except Err Unit
  | [] => .ok ()
  | snode :: ss => do
    let s ← Dict.get g.req snode
    if node ∈ s then do
      let _ ← g.edge node snode
      checkSeq g node ss
    else .error .assertion

/-- `check_sre`, l.43-51. -/
def check_sre (g : G N V) : Except Err Unit := do
  g.req.forM (fun kv => checkReq g.seq kv.1 kv.2)
  g.seq.forM (fun kv => checkSeq g kv.1 kv.2)

/-- `matrix_mult_sre`, l.15-41.  `dflt` says whether `req1` is a `defaultdict` (as `copy_sre` makes it) or a `dict`. -/
def matrix_mult [Field V] (dflt : Bool) (g1 g2 : G N V) : Except Err (G N V) := do
  let g ← multMid dflt g1 g2 g2.seq ⟨[], [], []⟩
  check_sre g
  pure g

/-- `copy_sre`, l.53-62. -/
def copy_sre (g : G N V) : G N V := ⟨Dict.ofList g.seq, Dict.ofList g.req, Dict.ofList g.em⟩

/-- `adjoint_sre`, l.133-144. -/
def adjoint (conj : V → V) (g : G N V) : G N V where
  seq := Dict.ofList g.req
  req := Dict.ofList g.seq
  em := Dict.ofList (g.em.map (fun kv => ((kv.1.2, kv.1.1), conj kv.2)))

end Sre
