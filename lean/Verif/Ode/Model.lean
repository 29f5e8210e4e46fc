import Mathlib.Algebra.Algebra.Rat
import Mathlib.Data.List.Sort
import Verif.Py.Dict

/-!
# Model of the coupling that integrates differential equations

Source: `/repo/phasor/optics/ODE_solver.py` l.59-446, `lt_sort_collect` and `ExpMatCoupling`.

The right hand sides are sums (python lists) of products (python tuples: a gain and the keys of the factors).  Values are
elements of a commutative ring `R` over the rationals: numpy arrays over a sweep are functions from the points of the sweep,
`np.any(val != 0)` is `val ≠ 0` and `np.all(val == 0)` is `val = 0`.  `K` are the internal keys (`pks`), `P` the nodes of the
system.  Simplifications: exact arithmetic; nested lists (l.149-151, l.183-187) do not occur, the elements build flat ones;
`self.pks` is the list of the keys in any order (l.163-174 sort a set by the printed names); the objects of `pkv` are
`none` for the literal `0` of l.233 and `some` for arrays, which is what `is 0` tells apart (l.347); the comparison of l.235
is a parameter; the test of l.207 is left out, a second call with the same vector changes nothing (`C97_again`); the
empty rows that l.363 creates are left out, l.413-417 treat them like missing ones.
-/

set_option linter.unusedSectionVars false

namespace Ode
open Py

variable {K P R : Type} [DecidableEq K] [DecidableEq P] [CommRing R] [Algebra ℚ R] [DecidableEq R]

/-- A list of tuples (l.86-92): gain and factors. -/
abbrev Lt (I R : Type) := List (R × List I)

/-- l.69-80, from the pair `prev_NL`, `prev_gain` on -/
def lt_collect_from (prev : List ℕ) (gain : R) : List (List ℕ × R) → Lt ℕ R
  | [] => [(gain, prev)]
  | (NL, g) :: rest =>
    if prev = NL then lt_collect_from prev (gain + g) rest
    else (gain, prev) :: lt_collect_from NL g rest

/-- l.62-63: sorting by the factors, equal ones in the order of the list -/
def lt_sorted (lt : Lt ℕ R) : List (List ℕ × R) :=
  (lt.map fun t => (t.2.mergeSort (fun a b => decide (a ≤ b)), t.1)).mergeSort (fun a b => decide (a.1 ≤ b.1))

/-- `lt_sort_collect` (l.59-81) -/
def lt_sort_collect (lt : Lt ℕ R) : Lt ℕ R :=
  match lt_sorted lt with
  | [] => []
  | (NL, g) :: rest => lt_collect_from NL g rest

/-- `lt_remap` (l.182-196) with `h = 1 / N_ode` and `pks_inv` (l.175-179) -/
def lt_remap (pks : List K) (N_ode : ℕ) (lt : Lt K R) : Lt ℕ R :=
  lt.map fun t => ((1 / (N_ode : ℚ)) • t.1, t.2.map fun pk => pks.idxOf pk)

/-- What `__init__` stores (l.110-113, l.163, l.199). -/
structure ExpMat (K P R : Type) where
  N_ode : ℕ
  in_map : Dict K P
  out_map : Dict K (Option P)
  pks : List K
  dLt_accel : Dict ℕ (Lt ℕ R)

/-- What changes from one call to the next (l.114-116). -/
structure State (P R : Type) where
  solution : Dict (P × P) R
  vals_prev : Dict P R
  vals_inj : Dict P R

/-- `__init__` (l.103-199) -/
def init (dLt : Dict K (Lt K R)) (in_map : Dict K P) (out_map : Dict K (Option P)) (N_ode : ℕ) (pks : List K) :
    Except Err (ExpMat K P R) :=
  if N_ode = 0 then .error .zeroDivision
  else .ok {
    N_ode := N_ode, in_map := in_map, out_map := out_map, pks := pks
    dLt_accel := Dict.ofList (dLt.map fun T => (pks.idxOf T.1, lt_sort_collect (lt_remap pks N_ode T.2))) }

/-- l.114-122: no action at first -/
def ExpMat.start (o : ExpMat K P R) : State P R where
  solution := o.in_map.foldl (fun sol T =>
    match Dict.get? o.out_map T.1 with
    | some (some pk_out) => Dict.set sol (T.2, pk_out) 1
    | _ => sol) []
  vals_prev := []
  vals_inj := []

/-- `d[k] += v` for a `defaultdict(lambda : 0)` -/
def addTo {I : Type} [DecidableEq I] (d : Dict I R) (k : I) (v : R) : Dict I R :=
  Dict.set d k ((Dict.get? d k).getD 0 + v)

/-- The number behind an entry of `pkv`. -/
def num (pkv : ℕ → Option R) (i : ℕ) : R := (pkv i).getD 0

/-- l.256-258, l.267-270: gain times factors -/
def tup_val (pkv : ℕ → Option R) (t : R × List ℕ) : R := t.2.foldl (fun g i => g * num pkv i) t.1

/-- `lt_val` (l.251-260) -/
def lt_val (pkv : ℕ → Option R) (lt : Lt ℕ R) : R := lt.foldl (fun val t => val + tup_val pkv t) 0

/-- `lt_val_matrix_d` (l.262-271) on an empty `vec_d` (l.344-345) -/
def lt_val_matrix_d (pkv : ℕ → Option R) (lt_M_d : Dict ℕ (Lt ℕ R)) : Dict ℕ R :=
  lt_M_d.foldl (fun vec T => T.2.foldl (fun vec t => addTo vec T.1 (tup_val pkv t)) vec) []

/-- `lt_val_matrix_d_generate` (l.273-298): the derivatives of the products whose other factors are not zero -/
def lt_val_matrix_d_generate (nz : List ℕ) (lt : Lt ℕ R) : Dict ℕ (Lt ℕ R) :=
  lt.foldl (fun d t => t.2.zipIdx.foldl (fun d T =>
    let rest := t.2.eraseIdx T.2
    if rest.all (· ∈ nz) then Dict.set d T.1 ((Dict.get? d T.1).getD [] ++ [(t.1, rest)]) else d) d) []

/-- `lt_reduced_generate` (l.300-316) -/
def lt_reduced_generate (nz : List ℕ) (lt : Lt ℕ R) : Lt ℕ R := lt.filter fun t => t.2.all (· ∈ nz)

/-- `dLt_base` (l.327) -/
def ExpMat.base (o : ExpMat K P R) : List (ℕ × Lt ℕ R) :=
  o.dLt_accel.mergeSort (fun a b => decide (a.1 ≤ b.1))

/-- `dLt_idx_list`, `dLt_lt_list` and `dLt_lt_M_list` (l.328-330, l.351-353) -/
def lists (base : List (ℕ × Lt ℕ R)) (nz : List ℕ) : List (ℕ × Lt ℕ R × Dict ℕ (Lt ℕ R)) :=
  base.map fun T => (T.1, lt_reduced_generate nz T.2, lt_val_matrix_d_generate nz T.2)

/-- The variables of the loops l.332-379. -/
structure Run (R : Type) where
  pkv : ℕ → Option R
  pkv_nz_set : List ℕ
  cached : List (ℕ × Lt ℕ R × Dict ℕ (Lt ℕ R))
  /-- `dMexp_s1[idx_out][idx_in]`, without the diagonal ones -/
  dMexp : Dict ℕ (Dict ℕ R)

/-- `dMexp_s1[idx]` -/
def row (M : Dict ℕ (Dict ℕ R)) (i : ℕ) : Dict ℕ R := (Dict.get? M i).getD []

/-- `dMexp_update` (l.357-367) -/
def update_row (M : Dict ℕ (Dict ℕ R)) (vec : Dict ℕ R) : Dict ℕ R :=
  vec.foldl (fun u T => (row M T.1).foldl (fun u E => if E.2 = 0 then u else addTo u E.1 (E.2 * T.2)) u) []

/-- l.372-374, l.377-379: `dMexp_s1[idx_pk][idx_in] += vec_val` for the entries that are not zero -/
def add_row (r vec : Dict ℕ R) : Dict ℕ R := vec.foldl (fun r T => if T.2 = 0 then r else addTo r T.1 T.2) r

/-- One pass of the loop l.335-379. -/
def step (base : List (ℕ × Lt ℕ R)) (s : Run R) (j : ℕ) : Run R :=
  match s.cached[j]? with
  | none => s
  | some (idx_pk, lt, lt_M_d) =>
    let dPK := lt_val s.pkv lt
    let vec := lt_val_matrix_d s.pkv lt_M_d
    let wakes := s.pkv idx_pk = none ∧ dPK ≠ 0
    let nz := if wakes then idx_pk :: s.pkv_nz_set else s.pkv_nz_set
    { pkv := if dPK ≠ 0 then Function.update s.pkv idx_pk (some (num s.pkv idx_pk + dPK)) else s.pkv
      pkv_nz_set := nz
      cached := if wakes then lists base nz else s.cached
      dMexp := Dict.set s.dMexp idx_pk
        (add_row (add_row (row s.dMexp idx_pk) (update_row s.dMexp vec)) vec) }

/-- l.332-379 -/
def ExpMat.run (o : ExpMat K P R) (pkv : ℕ → Option R) (nz : List ℕ) : Run R :=
  let pass := fun s => (List.range o.base.length).foldl (step o.base) s
  pass^[o.N_ode] { pkv := pkv, pkv_nz_set := nz, cached := lists o.base nz, dMexp := [] }

/-- l.413-417: the one on the diagonal of a row -/
def put_one (M : Dict ℕ (Dict ℕ R)) (i : ℕ) : Dict ℕ (Dict ℕ R) :=
  match Dict.get? M i with
  | none => Dict.set M i [(i, 1)]
  | some r => Dict.set M i (Dict.set r i ((Dict.get? r i).getD 0 + 1))

/-- l.412-417 -/
def add_one (n : ℕ) (M : Dict ℕ (Dict ℕ R)) : Dict ℕ (Dict ℕ R) := (List.range n).foldl put_one M

/-- l.420-431 for one row: `solution` and `dval_out` -/
def ExpMat.row_out (o : ExpMat K P R) (x : List R) (idx_out : ℕ) :
    Dict (P × P) R × Dict ℕ R → ℕ × R → Except Err (Dict (P × P) R × Dict ℕ R)
  | (sol, dval), (idx_in, edge) => do
    let pk_i ← match o.pks[idx_in]? with | some k => .ok k | none => .error .indexError
    let pk_o ← match o.pks[idx_out]? with | some k => .ok k | none => .error .indexError
    let pkin ← Dict.get o.in_map pk_i
    let pkout ← Dict.get o.out_map pk_o
    let prod := edge * x.getD idx_in 0
    pure (match pkout with | some q => Dict.set sol (pkin, q) edge | none => sol,
      if prod = 0 then dval else addTo dval idx_out prod)

/-- l.408-432 -/
def ExpMat.collect (o : ExpMat K P R) (x : List R) (M : Dict ℕ (Dict ℕ R)) :
    Except Err (Dict (P × P) R × Dict ℕ R) :=
  M.foldlM (fun a T => T.2.foldlM (o.row_out x T.1) a) ([], [])

/-- l.434-443 -/
def ExpMat.inject (o : ExpMat K P R) (pkv : ℕ → Option R) (dval : Dict ℕ R) : Except Err (Dict P R) :=
  o.pks.zipIdx.foldlM (fun inj T => do
    match ← Dict.get o.out_map T.1 with
    | none => pure inj
    | some q => pure (Dict.set inj q (num pkv T.2 - (Dict.get? dval T.2).getD 0))) []

/-- l.226-228: the inputs -/
def ExpMat.inputs (o : ExpMat K P R) (sol_vector : Dict P R) : Except Err (List (P × R)) :=
  o.pks.mapM fun pk => do
    let pk_in ← Dict.get o.in_map pk
    pure (pk_in, (Dict.get? sol_vector pk_in).getD 0)

/-- `generate_solution` (l.220-446).  `moved sol_val prev_val` is
`np.any(abs(sol_val - prev_val) > 1e-8 * abs(sol_val))` (l.229-235). -/
def ExpMat.generate_solution (moved : R → R → Bool) (o : ExpMat K P R) (st : State P R) (sol_vector : Dict P R) :
    Except Err (State P R) := do
  let ins ← o.inputs sol_vector
  if ins.all (fun T => !moved T.2 ((Dict.get? st.vals_prev T.1).getD 0)) then pure st
  else
    let x := ins.map Prod.snd
    let pkv : ℕ → Option R := fun i => if x.getD i 0 = 0 then none else some (x.getD i 0)
    let nz := (List.range x.length).filter fun i => x.getD i 0 ≠ 0
    let r := o.run pkv nz
    let vals_prev := ins.foldl (fun d T => if T.2 = 0 then d else Dict.set d T.1 T.2) []
    let (solution, dval) ← o.collect x (add_one x.length r.dMexp)
    let vals_inj ← o.inject r.pkv dval
    pure { solution := solution, vals_prev := vals_prev, vals_inj := vals_inj }

end Ode
