import Mathlib.Algebra.Field.Defs
import Verif.Py.Dict

/-!
# Model of the injections and of the linear system generated from them

Sources: `/repo/phasor/system/matrix_injections.py`, `/repo/phasor/system/matrix_algorithm.py` l.157-258,
`/repo/phasor/system/solver_algorithm.py` l.164-197 and l.202-316.

A node of the system is a pair `pk = (port, key)`.  Values are taken in a field `F` with decidable
equality: a single frequency point, exact arithmetic.  Python functions of the previous solution return
`Except Err F`; division by zero is `ZeroDivisionError` (plain python numbers).

Not modelled here: numpy arrays of values, symbolic values (`dmath.check_symbolic_type`), the floating
in/out pairs and floating requirements of `FactorCouplingBase` l.32-38 (no coupling class of the file uses
them; see `Verif/Floating`), the field space bookkeeping `keys_add`, and the second argument `sB` of the functions, which no
function of the file reads.
-/

set_option linter.unusedSectionVars false

namespace Inject
open Py

variable {P K F : Type} [DecidableEq P] [DecidableEq K] [Field F] [DecidableEq F]

/-- The previous solution: a `KeyVector` used through `.get(key, default)` only. -/
abbrev SolVec (P K F : Type) := Dict (P × K) F

/-- `func(sol_vector, sB)`. -/
abbrev Func (P K F : Type) := SolVec P K F → Except Err F

/-- `a / b`. -/
def pdiv (a b : F) : Except Err F := if b = 0 then .error .zeroDivision else .ok (a / b)

/-- `sol_vector.get(pk, default)`. -/
def getd (sol : SolVec P K F) (pk : P × K) (default : F) : F := (Dict.get? sol pk).getD default

/-- `matrix_injections.py` l.8-41, `FactorCouplingBase`: the dictionaries of an injection.  The `req`
dictionaries default to the `NZ` ones (l.17-19, l.27-29). -/
structure Inj (P K F : Type) where
  /-- `edges_pkpk_dict` -/
  edges : Dict ((P × K) × (P × K)) (Func P K F) := []
  /-- `edges_NZ_pkset_dict` -/
  edgesNZ : Dict ((P × K) × (P × K)) (List (P × K)) := []
  /-- `edges_req_pkset_dict` -/
  edgesReq : Dict ((P × K) × (P × K)) (List (P × K)) := edgesNZ
  /-- `sources_pk_dict` -/
  sources : Dict (P × K) (Func P K F) := []
  /-- `sources_NZ_pkset_dict` -/
  sourcesNZ : Dict (P × K) (List (P × K)) := []
  /-- `sources_req_pkset_dict` -/
  sourcesReq : Dict (P × K) (List (P × K)) := sourcesNZ

/-- `frozenset(list)`. -/
def frozenset {A : Type} [DecidableEq A] : List A → List A
  | [] => []
  | a :: l => if a ∈ l then frozenset l else a :: frozenset l

/-- `matrix_injections.py` l.44-66. -/
def ConstantEdgeCoupling (pkfrom pkto : P × K) (cplg : F) : Inj P K F where
  edges := Dict.ofList [((pkfrom, pkto), fun _ => .ok cplg)]
  edgesNZ := Dict.ofList [((pkfrom, pkto), [])]

/-- `matrix_injections.py` l.69-89. -/
def ConstantSourceCoupling (pksrc : P × K) (cplg : F) : Inj P K F where
  sources := Dict.ofList [(pksrc, fun _ => .ok cplg)]
  sourcesNZ := Dict.ofList [(pksrc, [])]

/-- `matrix_injections.py` l.115-120 and l.144-149: the running product. -/
def mult_func (cplg : F) (pksrc_list : List (P × K)) : Func P K F :=
  fun sol => .ok (pksrc_list.foldl (fun val pksrc => val * getd sol pksrc 0) cplg)

/-- `matrix_injections.py` l.92-120. -/
def MultiplicativeEdgeCoupling (pkfrom pkto : P × K) (cplg : F) (pksrc_list : List (P × K)) : Inj P K F where
  edges := Dict.ofList [((pkfrom, pkto), mult_func cplg pksrc_list)]
  edgesNZ := Dict.ofList [((pkfrom, pkto), frozenset pksrc_list)]

/-- `matrix_injections.py` l.123-149. -/
def MultiplicativeSourceCoupling (pksrc : P × K) (cplg : F) (pksrc_list : List (P × K)) : Inj P K F where
  sources := Dict.ofList [(pksrc, mult_func cplg pksrc_list)]
  sourcesNZ := Dict.ofList [(pksrc, frozenset pksrc_list)]

/-- `matrix_injections.py` l.203-209, `TripletCoupling.edge1_func` (with `pkother = pkfrom2`) and
`edge2_func` (with `pkother = pkfrom1`). -/
def triplet_edge (cplg : F) (pkother : P × K) : Func P K F :=
  fun sol => .ok (cplg * getd sol pkother 0)

/-- `matrix_injections.py` l.211-215, `TripletCoupling.source_func`. -/
def triplet_source (cplg : F) (pkfrom1 pkfrom2 : P × K) : Func P K F :=
  fun sol => .ok (-cplg * getd sol pkfrom1 0 * getd sol pkfrom2 0)

/-- `matrix_injections.py` l.152-215. -/
def TripletCoupling (pkfrom1 pkfrom2 pkto : P × K) (cplg : F) : Inj P K F :=
  if pkfrom1 ≠ pkfrom2 then
    { sources := Dict.ofList [(pkto, triplet_source cplg pkfrom1 pkfrom2)]
      sourcesNZ := Dict.ofList [(pkto, frozenset [pkfrom1, pkfrom2])]
      edges := Dict.ofList [((pkfrom1, pkto), triplet_edge cplg pkfrom2),
        ((pkfrom2, pkto), triplet_edge cplg pkfrom1)]
      edgesNZ := Dict.ofList [((pkfrom1, pkto), [pkfrom2]), ((pkfrom2, pkto), [pkfrom1])] }
  else
    { edges := Dict.ofList [((pkfrom1, pkto), triplet_edge cplg pkfrom2)]
      edgesNZ := Dict.ofList [((pkfrom1, pkto), [pkfrom2])] }

/-- `matrix_injections.py` l.289-295, `TripletNormCoupling.edge1_func` and `edge2_func`. -/
def norm_edge (cplg : F) (pkother pknorm : P × K) (pknorm_func : F → F) : Func P K F :=
  fun sol => pdiv (cplg * getd sol pkother 0) (pknorm_func (getd sol pknorm (10 ^ 12)))

/-- `matrix_injections.py` l.297-303, `TripletNormCoupling.source_func`. -/
def norm_source (cplg : F) (pkfrom1 pkfrom2 pknorm : P × K) (pknorm_func : F → F) : Func P K F :=
  fun sol =>
    let denom := getd sol pknorm (10 ^ 12) + 1 / 10 ^ 30
    pdiv (-cplg * getd sol pkfrom1 0 * getd sol pkfrom2 0) (pknorm_func denom)

/-- `matrix_injections.py` l.218-303. -/
def TripletNormCoupling (pkfrom1 pkfrom2 pkto pknorm : P × K) (cplg : F) (pknorm_func : F → F) :
    Inj P K F :=
  if pkfrom1 ≠ pkfrom2 then
    { sources := Dict.ofList [(pkto, norm_source cplg pkfrom1 pkfrom2 pknorm pknorm_func)]
      sourcesNZ := Dict.ofList [(pkto, frozenset [pkfrom1, pkfrom2])]
      sourcesReq := Dict.ofList [(pkto, frozenset [pkfrom1, pkfrom2, pknorm])]
      edges := Dict.ofList [((pkfrom1, pkto), norm_edge cplg pkfrom2 pknorm pknorm_func),
        ((pkfrom2, pkto), norm_edge cplg pkfrom1 pknorm pknorm_func)]
      edgesNZ := Dict.ofList [((pkfrom1, pkto), [pkfrom2]), ((pkfrom2, pkto), [pkfrom1])]
      edgesReq := Dict.ofList [((pkfrom1, pkto), frozenset [pkfrom2, pknorm]),
        ((pkfrom2, pkto), frozenset [pkfrom1, pknorm])] }
  else
    { edges := Dict.ofList [((pkfrom1, pkto), norm_edge cplg pkfrom2 pknorm pknorm_func)]
      edgesNZ := Dict.ofList [((pkfrom1, pkto), [pkfrom2])]
      edgesReq := Dict.ofList [((pkfrom1, pkto), frozenset [pkfrom2, pknorm])] }

/-- `matrix_injections.py` l.378-386, `TripletNormsCoupling.edge1_func` and `edge2_func`. -/
def norms_edge (cplg : F) (pkother : P × K) (pknorms : List (P × K)) (pknorms_func : List F → F) :
    Func P K F :=
  fun sol =>
    let sols := pknorms.map (fun pknorm => getd sol pknorm (10 ^ 12))
    pdiv (cplg * getd sol pkother 0) (pknorms_func sols)

/-- `matrix_injections.py` l.388-394, `TripletNormsCoupling.source_func`. -/
def norms_source (cplg : F) (pkfrom1 pkfrom2 : P × K) (pknorms : List (P × K))
    (pknorms_func : List F → F) : Func P K F :=
  fun sol =>
    let sols := pknorms.map (fun pknorm => getd sol pknorm (10 ^ 12))
    pdiv (-cplg * getd sol pkfrom1 0 * getd sol pkfrom2 0) (pknorms_func sols)

/-- `matrix_injections.py` l.307-394. -/
def TripletNormsCoupling (pkfrom1 pkfrom2 pkto : P × K) (pknorms : List (P × K)) (cplg : F)
    (pknorms_func : List F → F) : Inj P K F :=
  if pkfrom1 ≠ pkfrom2 then
    { sources := Dict.ofList [(pkto, norms_source cplg pkfrom1 pkfrom2 pknorms pknorms_func)]
      sourcesNZ := Dict.ofList [(pkto, frozenset [pkfrom1, pkfrom2])]
      sourcesReq := Dict.ofList [(pkto, frozenset ([pkfrom1, pkfrom2] ++ pknorms))]
      edges := Dict.ofList [((pkfrom1, pkto), norms_edge cplg pkfrom2 pknorms pknorms_func),
        ((pkfrom2, pkto), norms_edge cplg pkfrom1 pknorms pknorms_func)]
      edgesNZ := Dict.ofList [((pkfrom1, pkto), [pkfrom2]), ((pkfrom2, pkto), [pkfrom1])]
      edgesReq := Dict.ofList [((pkfrom1, pkto), frozenset ([pkfrom2] ++ pknorms)),
        ((pkfrom2, pkto), frozenset ([pkfrom1] ++ pknorms))] }
  else
    { edges := Dict.ofList [((pkfrom1, pkto), norms_edge cplg pkfrom2 pknorms pknorms_func)]
      edgesNZ := Dict.ofList [((pkfrom1, pkto), [pkfrom2])]
      edgesReq := Dict.ofList [((pkfrom1, pkto), frozenset ([pkfrom2] ++ pknorms))] }

/-! ## Insertion into the matrix builder -/

/-- `defaultdict(list)`: `d[a].append(b)`. -/
def push {A B : Type} [DecidableEq A] (d : Dict A (List B)) (a : A) (b : B) : Dict A (List B) :=
  Dict.set d a ((Dict.get? d a).getD [] ++ [b])

/-- `matrix_algorithm.py` l.40-67: the part of `MatrixBuildAlgorithm` that injections write. -/
structure Algo (P K F : Type) where
  /-- `port_cplgs` -/
  ports : Dict P (List K)
  /-- `coupling_matrix_injlist` -/
  edgeInj : Dict ((P × K) × (P × K)) (List (Inj P K F)) := []
  /-- `coupling_matrix_inj_funclist` -/
  edgeFunc : Dict ((P × K) × (P × K)) (List (Func P K F)) := []
  /-- `source_vector_injlist` -/
  srcInj : Dict (P × K) (List (Inj P K F)) := []
  /-- `source_vector_inj_funclist` -/
  srcFunc : Dict (P × K) (List (Func P K F)) := []

/-- `matrix_algorithm.py` l.208-229: one edge of an injection. -/
def insert_edge (inj : Inj P K F) (m : Algo P K F) (e : ((P × K) × (P × K)) × Func P K F) :
    Except Err (Algo P K F) :=
  let m' := { m with edgeInj := push m.edgeInj e.1 inj, edgeFunc := push m.edgeFunc e.1 e.2 }
  match Dict.get? m.ports e.1.2.1 with
  | none => .ok m'
  | some ks => if e.1.2.2 ∈ ks then .ok m' else .error .runtime

/-- `matrix_algorithm.py` l.230-241: one source of an injection. -/
def insert_source (inj : Inj P K F) (m : Algo P K F) (s : (P × K) × Func P K F) :
    Except Err (Algo P K F) :=
  let m' := { m with srcInj := push m.srcInj s.1 inj, srcFunc := push m.srcFunc s.1 s.2 }
  match Dict.get? m.ports s.1.1 with
  | none => .ok m'
  | some ks => if s.1.2 ∈ ks then .ok m' else .error .assertion

/-- `matrix_algorithm.py` l.193-242, `injection_insert`. -/
def injection_insert (m : Algo P K F) (inj : Inj P K F) : Except Err (Algo P K F) := do
  let m ← inj.edges.foldlM (insert_edge inj) m
  inj.sources.foldlM (insert_source inj) m

/-- The injections of all elements, inserted one after the other (`matrix_algorithm.py` l.97-104). -/
def insert_all (ports : Dict P (List K)) (injs : List (Inj P K F)) : Except Err (Algo P K F) :=
  injs.foldlM injection_insert { ports := ports }

/-- `matrix_algorithm.py` l.157-176, `port_coupling_insert`. -/
def port_coupling_insert (m : Algo P K F) (pfrom : P) (kfrom : K) (pto : P) (kto : K) (cplg : F)
    (vpairs : List (P × K)) : Except Err (Algo P K F) :=
  if vpairs ≠ [] then
    injection_insert m (MultiplicativeEdgeCoupling (pfrom, kfrom) (pto, kto) cplg vpairs)
  else injection_insert m (ConstantEdgeCoupling (pfrom, kfrom) (pto, kto) cplg)

/-- `matrix_algorithm.py` l.178-191, `coherent_sources_insert`. -/
def coherent_sources_insert (m : Algo P K F) (pto : P) (kto : K) (val : F) (vpairs : List (P × K)) :
    Except Err (Algo P K F) :=
  if vpairs ≠ [] then
    injection_insert m (MultiplicativeSourceCoupling (pto, kto) val vpairs)
  else injection_insert m (ConstantSourceCoupling (pto, kto) val)

/-- `matrix_algorithm.py` l.244-258, `nonlinear_triplet_insert`. -/
def nonlinear_triplet_insert (m : Algo P K F) (pkfrom1 pkfrom2 pkto : P × K) (cplg : F) :
    Except Err (Algo P K F) :=
  injection_insert m (TripletCoupling pkfrom1 pkfrom2 pkto cplg)

/-! ## Generation of the linear system -/

/-- `solver_algorithm.py` l.179-182 and l.239-248: the first function's value, then the others added. -/
def sum_funcs (sol : SolVec P K F) : List (Func P K F) → Except Err F
  | [] => .ok 0
  | f :: fs => do
    let val ← f sol
    fs.foldlM (fun val g => do let w ← g sol; pure (val + w)) val

/-- `solver_algorithm.py` l.175-190: one turn of the loop of `_source_vector_generate`.  The empty list
of functions (l.177-178) skips the node, like a zero value. -/
def source_step (m : Algo P K F) (sol : SolVec P K F) (sv : Dict (P × K) F) (pkto : P × K) :
    Except Err (Dict (P × K) F) := do
  let fl ← Dict.get m.srcFunc pkto
  let val ← sum_funcs sol fl
  pure (if val ≠ 0 then Dict.set sv pkto val else sv)

/-- `solver_algorithm.py` l.164-197, `_source_vector_generate`. -/
def source_vector_generate (m : Algo P K F) (inputs : List (P × K)) (sol : SolVec P K F) :
    Except Err (Dict (P × K) F) :=
  inputs.foldlM (source_step m sol) []

/-- The set dictionaries `seq` and `req`. -/
abbrev SetDict (P K : Type) := Dict (P × K) (List (P × K))

/-- The pairs visited by the nested loop `for pkfrom, seq_set in seq.items(): for pkto in seq_set`. -/
def pairs (seq : SetDict P K) : List ((P × K) × (P × K)) :=
  seq.flatMap (fun kv => kv.2.map (fun t => (kv.1, t)))

/-- The value given to an edge which has functions (`solver_algorithm.py` l.231-259): stored when not
zero, otherwise listed for dropping. -/
def edge_store (st : Dict ((P × K) × (P × K)) F × List ((P × K) × (P × K)))
    (e : (P × K) × (P × K)) (val : F) :
    Dict ((P × K) × (P × K)) F × List ((P × K) × (P × K)) :=
  if val ≠ 0 then (Dict.set st.1 e val, st.2) else (st.1, st.2 ++ [e])

/-- `solver_algorithm.py` l.216-261: one turn of the nested loop of `_edge_matrix_generate`.  `bonds` is
`malgo.bonds_trivial`, a `defaultdict(dict)`; only which pairs it holds is read.  An empty function list
(l.236-238) cannot occur: lists are created by `append`. -/
def edge_step (m : Algo P K F) (bonds : SetDict P K) (sol : SolVec P K F)
    (st : Dict ((P × K) × (P × K)) F × List ((P × K) × (P × K))) (e : (P × K) × (P × K)) :
    Except Err (Dict ((P × K) × (P × K)) F × List ((P × K) × (P × K))) :=
  match Dict.get? m.edgeFunc e with
  | none =>
    if e.2.2 = e.1.2 then
      if e.2 ∈ (Dict.get? bonds e.1).getD [] then .ok (Dict.set st.1 e 1, st.2)
      else .error .assertion
    else .error .assertion
  | some fl =>
    if e.2 ∈ (Dict.get? bonds e.1).getD [] then .error .assertion
    else (sum_funcs sol fl).map (edge_store st e)

/-- `d[k].remove(x)`: `KeyError` when `x` is not a member (or `k` not a key: the dictionaries are
`defaultdict(set)`, so the set is then empty). -/
def set_remove (d : SetDict P K) (k x : P × K) : Except Err (SetDict P K) :=
  if x ∈ (Dict.get? d k).getD [] then
    .ok (Dict.set d k (((Dict.get? d k).getD []).filter (· ≠ x)))
  else .error .keyError

/-- `solver_algorithm.py` l.267-269: dropping an edge. -/
def drop_step (st : SetDict P K × SetDict P K) (e : (P × K) × (P × K)) :
    Except Err (SetDict P K × SetDict P K) := do
  let seq ← set_remove st.1 e.1 e.2
  let req ← set_remove st.2 e.2 e.1
  pure (seq, req)

/-- What `_edge_matrix_generate` leaves: the matrix and the two set dictionaries it modified. -/
structure Gen (P K F : Type) where
  mat : Dict ((P × K) × (P × K)) F
  seq : SetDict P K
  req : SetDict P K

/-- `solver_algorithm.py` l.202-316, `_edge_matrix_generate`, without floating pairs (those: `Verif/Floating`). -/
def edge_matrix_generate (m : Algo P K F) (bonds : SetDict P K) (seq req : SetDict P K)
    (sol : SolVec P K F) : Except Err (Gen P K F) := do
  let st ← (pairs seq).foldlM (edge_step m bonds sol) ([], [])
  let sr ← st.2.foldlM drop_step (seq, req)
  pure { mat := st.1, seq := sr.1, req := sr.2 }

end Inject
