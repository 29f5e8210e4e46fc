import Verif.Py.Dict
import Mathlib.Order.Basic
import Mathlib.Data.List.Sort

/-!
# Keyed vectors and matrices

Model of `phasor/math/key_matrix/keymatrix.py` (key spaces, keyed vectors, keyed matrices) and of the
products in `phasor/math/key_matrix/keyed_linear_algebra.py`.

Python objects that are shared by reference (`KVSpace`, `KeyVector`, `KeyMatrix`) live in a `World`, a
reference is an index into the list of all objects of that kind.  An operation yields the changed world
together with its result, so that the changes made before an exception are kept.

Simplifications
* keys are totally ordered (`keylist.sort()`); entries are scalars, so `_maxshape` (l.133-151) is the empty
  shape and `_must_test_shape` is left out; `dtype` and `name` are left out (no rounding, no casts).
* arrays are lists, an array is not written to by its reader.
* a set is a duplicate free list; the order of that list stands for the iteration order.
-/

namespace KeyMat
open Py

variable {K V : Type}

/-- A reference to a world object that was never made; no python program has one. -/
def noObject : Err := .attributeError

/-! ## Key spaces -/

/-- `KVSpace` l.13-36: `_key_set`, the pair (`_key_map`, `_key_map_inverse`) once frozen, `contravariant`, `_inverse`. -/
structure Space (K : Type) where
  keys : List K
  maps : Option (Dict K Nat × List K) := none
  contra : Bool := false
  inv : Option Nat := none
  deriving DecidableEq, Repr

section
variable [LinearOrder K]

/-- `set(keys)` / `set.update(args)`. -/
def toSet (base : List K) : List K → List K
  | [] => base
  | k :: ks => toSet (if k ∈ base then base else base ++ [k]) ks

/-- the loop l.69-70 -/
def enumerate : Nat → List K → Dict K Nat → Dict K Nat
  | _, [], d => d
  | i, k :: ks, d => enumerate (i + 1) ks (Dict.set d k i)

/-- `frozen_is` l.59-60 -/
def Space.frozen (s : Space K) : Bool := s.maps.isSome

/-- `freeze` l.62-78 -/
def Space.freeze (s : Space K) : Space K :=
  match s.maps with
  | some _ => s
  | none =>
    let keylist := s.keys.insertionSort (· ≤ ·)
    { s with maps := some (enumerate 0 keylist [], keylist) }

/-- `__init__` l.18-36 -/
def Space.init (keys : List K) (frozen : Bool) (contra : Bool) (inv : Option Nat) : Space K :=
  let s : Space K := { keys := toSet [] keys, contra := contra, inv := inv }
  if frozen then s.freeze else s

/-- `keys_add` l.83-90 -/
def Space.keysAdd (s : Space K) (args : List K) : Except Err (Space K) :=
  if s.frozen then
    if args.all (fun k => decide (k ∈ s.keys)) then .ok s else .error .runtime
  else .ok { s with keys := toSet s.keys args }

/-- `self._key_map[key]`, after the `freeze` of l.100 -/
def Space.keyMap (s : Space K) (k : K) : Except Err Nat :=
  match s.maps with
  | some (km, _) => Dict.get km k
  | none => .error .attributeError

/-- `self._key_map_inverse[idx]`, after the `freeze` of l.104; numpy counts negative indices from the end. -/
def Space.idxMap (s : Space K) (i : Int) : Except Err K :=
  match s.maps with
  | some (_, l) =>
    let j := if 0 ≤ i then i else i + l.length
    if 0 ≤ j then
      match l[j.toNat]? with
      | some k => .ok k
      | none => .error .indexError
    else .error .indexError
  | none => .error .attributeError

/-! ## Vectors and matrices -/

/-- `KeyVector` l.124-131, 154-167, 296-301. `count` is `_memoize_count`, `none` for NaN; `mcount`, `marr` are
`_memoize_array_count`, `_memoize_array`. -/
structure Vec (K V : Type) where
  space : Nat
  data : Dict K V
  count : Option Nat := some 1
  mcount : Option Nat := some 0
  marr : List V := []
  deriving DecidableEq, Repr

/-- `KeyMatrix` l.124-131, 212-227, 342-352, with the `idx_dict` memo of l.358. Entries are under (from, to). -/
structure Mat (K V : Type) where
  sfrom : Nat
  sto : Nat
  data : Dict (K × K) V
  count : Option Nat := some 1
  mcount : Option Nat := some 0
  marr : List (List V) := []
  midx : Option (Dict (Nat × Nat) V) := none
  deriving DecidableEq, Repr

/-- All objects of the program. -/
structure World (K V : Type) where
  sp : List (Space K) := []
  vs : List (Vec K V) := []
  ms : List (Mat K V) := []
  deriving DecidableEq, Repr

/-- `self._memoize_count += 1`; NaN stays NaN. -/
def bump (c : Option Nat) : Option Nat := c.map (· + 1)

/-- `self._memoize_array_count != self._memoize_count`; NaN differs from everything. -/
def differs : Option Nat → Option Nat → Bool
  | some a, some b => a != b
  | _, _ => true

/-- `freeze` on a reference -/
def freezeAt (sp : List (Space K)) (i : Nat) : List (Space K) :=
  match sp[i]? with
  | some s => sp.set i s.freeze
  | none => sp

/-- `key_map` l.99-101 on a reference: the freeze is kept when the look-up fails. -/
def keyMapAt (sp : List (Space K)) (i : Nat) (k : K) : List (Space K) × Except Err Nat :=
  let sp := freezeAt sp i
  match sp[i]? with
  | some s => (sp, s.keyMap k)
  | none => (sp, .error noObject)

/-- `keys_add` on a reference -/
def keysAddAt (sp : List (Space K)) (i : Nat) (args : List K) : Except Err (List (Space K)) :=
  match sp[i]? with
  | some s => (s.keysAdd args).map (fun s' => sp.set i s')
  | none => .error noObject

/-- `len(vspace)` l.80-81 -/
def lenAt (sp : List (Space K)) (i : Nat) : Nat := ((sp[i]?).map (fun s => s.keys.length)).getD 0

/-- `key in vspace` l.92-93 -/
def containsAt (sp : List (Space K)) (i : Nat) (k : K) : Bool :=
  match sp[i]? with
  | some s => decide (k ∈ s.keys)
  | none => false

/-- `arr[i] = x`, refused beyond the end -/
def put {X : Type} (arr : List X) (i : Nat) (x : X) : Except Err (List X) :=
  if i < arr.length then .ok (arr.set i x) else .error .indexError

/-- the loop l.311-312 -/
def fillVec (i : Nat) : Dict K V → List (Space K) → List V → List (Space K) × Except Err (List V)
  | [], sp, arr => (sp, .ok arr)
  | (k, x) :: d, sp, arr =>
    match keyMapAt sp i k with
    | (sp, .error e) => (sp, .error e)
    | (sp, .ok j) =>
      match put arr j x with
      | .error e => (sp, .error e)
      | .ok arr => fillVec i d sp arr

/-- `arr[a, b] = x` -/
def put2 {X : Type} (arr : List (List X)) (a b : Nat) (x : X) : Except Err (List (List X)) :=
  match arr[a]? with
  | none => .error .indexError
  | some row =>
    match put row b x with
    | .error e => .error e
    | .ok row => put arr a row

/-- the loop l.372-378 -/
def fillMat (f t : Nat) : Dict (K × K) V → List (Space K) → List (List V) → List (Space K) × Except Err (List (List V))
  | [], sp, arr => (sp, .ok arr)
  | ((kf, kt), x) :: d, sp, arr =>
    match keyMapAt sp t kt with
    | (sp, .error e) => (sp, .error e)
    | (sp, .ok a) =>
      match keyMapAt sp f kf with
      | (sp, .error e) => (sp, .error e)
      | (sp, .ok b) =>
        match put2 arr a b x with
        | .error e => (sp, .error e)
        | .ok arr => fillMat f t d sp arr

/-- the loop l.361-364 -/
def fillIdx (f t : Nat) : Dict (K × K) V → List (Space K) → Dict (Nat × Nat) V → List (Space K) × Except Err (Dict (Nat × Nat) V)
  | [], sp, m => (sp, .ok m)
  | ((kf, kt), x) :: d, sp, m =>
    match keyMapAt sp f kf with
    | (sp, .error e) => (sp, .error e)
    | (sp, .ok a) =>
      match keyMapAt sp t kt with
      | (sp, .error e) => (sp, .error e)
      | (sp, .ok b) => fillIdx f t d sp (Dict.set m (a, b) x)

/-- The method calls. -/
inductive Op (K V : Type)
  | newSpace (keys : List K) (frozen : Bool)
  | copySpace (i : Nat)
  | addKeys (i : Nat) (keys : List K)
  | freeze (i : Nat)
  | keyMap (i : Nat) (k : K)
  | idxMap (i : Nat) (n : Int)
  | keysIter (i : Nat)
  | inverse (i : Nat)
  | newVec (space : Nat) (premap : List (K × V))
  | vSet (v : Nat) (k : K) (x : V)
  | vAddBy (v : Nat) (k : K) (x : V)
  | vDel (v : Nat) (k : K)
  | vPrevent (v : Nat)
  | vArray (v : Nat)
  | newMat (sfrom sto : Nat) (premap : List ((K × K) × V))
  | mSet (m : Nat) (kf kt : K) (x : V)
  | mMulBy (m : Nat) (kf kt : K) (x : V)
  | mSetNullable (m : Nat) (kt kf : K) (x : V)
  | mDel (m : Nat) (kf kt : K)
  | mFillNested (m : Nat) (nested : List (K × List (K × V)))
  | mPrevent (m : Nat)
  | mArray (m : Nat)
  | mIdxDict (m : Nat)
  deriving Repr

/-- What a call returns. -/
inductive Out (K V : Type)
  | unit
  | ref (i : Nat)
  | nat (n : Nat)
  | key (k : K)
  | keys (ks : List K)
  | bool (b : Bool)
  | vec (a : List V)
  | mat (a : List (List V))
  | idx (d : Dict (Nat × Nat) V)
  deriving DecidableEq, Repr

abbrev Res (K V : Type) := World K V × Except Err (Out K V)

/-- `inverse` l.45-57 -/
def inverse (w : World K V) (i : Nat) : Res K V :=
  match w.sp[i]? with
  | none => (w, .error noObject)
  | some s =>
    match s.inv with
    | some j => (w, .ok (.ref j))
    | none =>
      let s := s.freeze
      let j := w.sp.length
      let n := Space.init s.keys true (!s.contra) (some i)
      ({ w with sp := w.sp.set i { s with inv := some j } ++ [n] }, .ok (.ref j))

/-- the body of `KeyVectorBase.__setitem__` l.184-189 and `add_by` l.191-199; `comb old` is the value stored -/
def vWrite (w : World K V) (i : Nat) (k : K) (comb : Option V → V) : Res K V :=
  match w.vs[i]? with
  | none => (w, .error noObject)
  | some v =>
    let v := { v with count := bump v.count }
    match keysAddAt w.sp v.space [k] with
    | .error e => ({ w with vs := w.vs.set i v }, .error e)
    | .ok sp => ({ w with sp := sp, vs := w.vs.set i { v with data := Dict.set v.data k (comb (Dict.get? v.data k)) } }, .ok .unit)

/-- `KeyVector.array` l.306-317 -/
def vArray [Zero V] (w : World K V) (i : Nat) : Res K V :=
  match w.vs[i]? with
  | none => (w, .error noObject)
  | some v =>
    if differs v.mcount v.count then
      match fillVec v.space v.data w.sp (List.replicate (lenAt w.sp v.space) 0) with
      | (sp, .error e) => ({ w with sp := sp }, .error e)
      | (sp, .ok arr) => ({ w with sp := sp, vs := w.vs.set i { v with marr := arr, mcount := v.count } }, .ok (.vec arr))
    else (w, .ok (.vec v.marr))

/-- the body of `KeyMatrixBase.__setitem__` l.238-245 and `multiply_by` l.247-257 -/
def mWrite (w : World K V) (i : Nat) (kf kt : K) (comb : Option V → V) : Res K V :=
  match w.ms[i]? with
  | none => (w, .error noObject)
  | some m =>
    let m := { m with count := bump m.count }
    let w := { w with ms := w.ms.set i m }
    match keysAddAt w.sp m.sfrom [kf] with
    | .error e => (w, .error e)
    | .ok sp =>
      let w := { w with sp := sp }
      match keysAddAt w.sp m.sto [kt] with
      | .error e => (w, .error e)
      | .ok sp =>
        ({ w with sp := sp, ms := w.ms.set i { m with data := Dict.set m.data (kf, kt) (comb (Dict.get? m.data (kf, kt))) } }, .ok .unit)

/-- the inner loop l.291-293 of `fill_from_nested_map` -/
def nestInner (t : Nat) (kf : K) : List (K × V) → List (Space K) → Dict (K × K) V → List (Space K) × Dict (K × K) V × Except Err Unit
  | [], sp, d => (sp, d, .ok ())
  | (kt, x) :: l, sp, d =>
    match keysAddAt sp t [kt] with
    | .error e => (sp, d, .error e)
    | .ok sp => nestInner t kf l sp (Dict.set d (kf, kt) x)

/-- the outer loop l.289-293 -/
def nestOuter (f t : Nat) : List (K × List (K × V)) → List (Space K) → Dict (K × K) V → List (Space K) × Dict (K × K) V × Except Err Unit
  | [], sp, d => (sp, d, .ok ())
  | (kf, l) :: ls, sp, d =>
    match keysAddAt sp f [kf] with
    | .error e => (sp, d, .error e)
    | .ok sp =>
      match nestInner t kf l sp d with
      | (sp, d, .error e) => (sp, d, .error e)
      | (sp, d, .ok ()) => nestOuter f t ls sp d

/-- `KeyMatrix.array` l.367-383 -/
def mArray [Zero V] (w : World K V) (i : Nat) : Res K V :=
  match w.ms[i]? with
  | none => (w, .error noObject)
  | some m =>
    if differs m.mcount m.count then
      match fillMat m.sfrom m.sto m.data w.sp (List.replicate (lenAt w.sp m.sto) (List.replicate (lenAt w.sp m.sfrom) 0)) with
      | (sp, .error e) => ({ w with sp := sp }, .error e)
      | (sp, .ok arr) => ({ w with sp := sp, ms := w.ms.set i { m with marr := arr, mcount := m.count } }, .ok (.mat arr))
    else (w, .ok (.mat m.marr))

/-- One method call. -/
def step [Zero V] [Add V] [Mul V] (op : Op K V) (w : World K V) : Res K V :=
  match op with
  | .newSpace keys frozen => ({ w with sp := w.sp ++ [Space.init keys frozen false none] }, .ok (.ref w.sp.length))
  | .copySpace i =>                                            -- l.38-43
    match w.sp[i]? with
    | none => (w, .error noObject)
    | some s => ({ w with sp := w.sp ++ [Space.init s.keys false false none] }, .ok (.ref w.sp.length))
  | .addKeys i keys =>
    match keysAddAt w.sp i keys with
    | .error e => (w, .error e)
    | .ok sp => ({ w with sp := sp }, .ok .unit)
  | .freeze i => ({ w with sp := freezeAt w.sp i }, .ok .unit)
  | .keyMap i k =>
    match keyMapAt w.sp i k with
    | (sp, .error e) => ({ w with sp := sp }, .error e)
    | (sp, .ok n) => ({ w with sp := sp }, .ok (.nat n))
  | .idxMap i n =>                                             -- l.103-105
    let sp := freezeAt w.sp i
    match sp[i]? with
    | none => (w, .error noObject)
    | some s => ({ w with sp := sp }, (s.idxMap n).map .key)
  | .keysIter i =>                                             -- l.95-97
    let sp := freezeAt w.sp i
    match sp[i]? with
    | none => (w, .error noObject)
    | some s => ({ w with sp := sp }, .ok (.keys s.keys))
  | .inverse i => inverse w i
  | .newVec space premap =>
    if space < w.sp.length then
      ({ w with vs := w.vs ++ [{ space := space, data := Dict.ofList premap }] }, .ok (.ref w.vs.length))
    else (w, .error noObject)
  | .vSet v k x => vWrite w v k (fun _ => x)
  | .vAddBy v k x => vWrite w v k (fun o => match o with | some y => y + x | none => x)
  | .vDel v k =>                                               -- l.201-203
    match w.vs[v]? with
    | none => (w, .error noObject)
    | some o =>
      let o := { o with count := bump o.count }
      match Dict.del o.data k with
      | .error e => ({ w with vs := w.vs.set v o }, .error e)
      | .ok d => ({ w with vs := w.vs.set v { o with data := d } }, .ok .unit)
  | .vPrevent v =>                                             -- l.130-131
    match w.vs[v]? with
    | none => (w, .error noObject)
    | some o => ({ w with vs := w.vs.set v { o with count := none } }, .ok .unit)
  | .vArray v => vArray w v
  | .newMat sfrom sto premap =>
    if sfrom < w.sp.length ∧ sto < w.sp.length then
      ({ w with ms := w.ms ++ [{ sfrom := sfrom, sto := sto, data := Dict.ofList premap }] }, .ok (.ref w.ms.length))
    else (w, .error noObject)
  | .mSet m kf kt x => mWrite w m kf kt (fun _ => x)
  | .mMulBy m kf kt x => mWrite w m kf kt (fun o => match o with | some y => y * x | none => x)
  | .mSetNullable m kt kf x =>                                 -- l.270-277
    match w.ms[m]? with
    | none => (w, .error noObject)
    | some o =>
      let o := { o with count := bump o.count }
      if !containsAt w.sp o.sto kt || !containsAt w.sp o.sfrom kf then ({ w with ms := w.ms.set m o }, .ok (.bool false))
      else ({ w with ms := w.ms.set m { o with data := Dict.set o.data (kf, kt) x } }, .ok (.bool true))
  | .mDel m kf kt =>                                           -- l.279-281
    match w.ms[m]? with
    | none => (w, .error noObject)
    | some o =>
      let o := { o with count := bump o.count }
      match Dict.del o.data (kf, kt) with
      | .error e => ({ w with ms := w.ms.set m o }, .error e)
      | .ok d => ({ w with ms := w.ms.set m { o with data := d } }, .ok .unit)
  | .mFillNested m nested =>                                   -- l.287-293
    match w.ms[m]? with
    | none => (w, .error noObject)
    | some o =>
      let o := { o with count := bump o.count }
      match nestOuter o.sfrom o.sto nested w.sp o.data with
      | (sp, d, r) => ({ w with sp := sp, ms := w.ms.set m { o with data := d } }, r.map (fun _ => .unit))
  | .mPrevent m =>
    match w.ms[m]? with
    | none => (w, .error noObject)
    | some o => ({ w with ms := w.ms.set m { o with count := none } }, .ok .unit)
  | .mArray m => mArray w m
  | .mIdxDict m =>                                             -- l.358-365
    match w.ms[m]? with
    | none => (w, .error noObject)
    | some o =>
      match o.midx with
      | some d => (w, .ok (.idx d))
      | none =>
        match fillIdx o.sfrom o.sto o.data w.sp [] with
        | (sp, .error e) => ({ w with sp := sp }, .error e)
        | (sp, .ok d) => ({ w with sp := sp, ms := w.ms.set m { o with midx := some d } }, .ok (.idx d))

/-- A program: calls in sequence; an exception is caught by the caller, who goes on. -/
def run [Zero V] [Add V] [Mul V] (ops : List (Op K V)) (w : World K V) : World K V := ops.foldl (fun w op => (step op w).1) w

/-! ## Arithmetic -/

/-- What `premap` holds in `__add__`: a dictionary, or (after l.466) an entry. -/
inductive Premap (K V : Type)
  | dict (d : Dict (K × K) V)
  | entry (x : V)
  deriving DecidableEq, Repr

/-- the loop of `__add__` l.461-466. A number cannot be subscripted. -/
def addLoop [Add V] : Dict (K × K) V → Premap K V → Except Err (Premap K V)
  | [], p => .ok p
  | (kk, x) :: l, p =>
    match p with
    | .entry _ => .error .typeError
    | .dict d =>
      match Dict.get? d kk with
      | some v => addLoop l (.dict (Dict.set d kk (v + x)))
      | none => addLoop l (.entry x)

/-- `KeyMatrix.__add__` l.453-467: the `_data_map` of the new matrix (same spaces). -/
def matAdd [Add V] (a b : Mat K V) : Except Err (Premap K V) :=
  if a.sto ≠ b.sto then .error .assertion
  else if a.sfrom ≠ b.sfrom then .error .assertion
  else addLoop b.data (.dict a.data)

/-- the loop of `__sub__` l.477-482 -/
def subLoop [Sub V] [Neg V] : Dict (K × K) V → Dict (K × K) V → Dict (K × K) V
  | [], d => d
  | (kk, x) :: l, d =>
    match Dict.get? d kk with
    | some v => subLoop l (Dict.set d kk (v - x))
    | none => subLoop l (Dict.set d kk (-x))

/-- `KeyMatrix.__sub__` l.469-483 -/
def matSub [Sub V] [Neg V] (a b : Mat K V) : Except Err (Dict (K × K) V) :=
  if a.sto ≠ b.sto then .error .assertion
  else if a.sfrom ≠ b.sfrom then .error .assertion
  else .ok (subLoop b.data a.data)

/-- the loop l.490-491 -/
def eyeLoop [One V] : List K → Dict (K × K) V → Dict (K × K) V
  | [], d => d
  | k :: ks, d => eyeLoop ks (Dict.set d (k, k) 1)

/-- `key_matrix_eye` l.486-492: the `_data_map`, given the keys of the space. -/
def eye [One V] (s : Space K) : Dict (K × K) V := eyeLoop s.keys []

/-! ## Back from arrays -/

/-- `array.nonzero()[-1]` of a one dimensional array, from index `i` on -/
def nonzero [Zero V] [DecidableEq V] : Nat → List V → List Nat
  | _, [] => []
  | i, x :: l => if x = 0 then nonzero (i + 1) l else i :: nonzero (i + 1) l

/-- `array.nonzero()` of a two dimensional array: pairs in row order -/
def nonzero2 [Zero V] [DecidableEq V] : Nat → List (List V) → List (Nat × Nat)
  | _, [] => []
  | i, r :: l => (nonzero 0 r).map (fun j => (i, j)) ++ nonzero2 (i + 1) l

/-- the loop l.331-334 of `backmap_vector` -/
def backVecLoop (s : Space K) (arr : List V) : List Nat → Dict K V → Except Err (Dict K V)
  | [], d => .ok d
  | i :: is, d =>
    match s.idxMap i with
    | .error e => .error e
    | .ok k =>
      match arr[i]? with
      | none => .error .indexError
      | some x => backVecLoop s arr is (Dict.set d k x)

/-- `backmap_vector` l.327-339: the `_data_map` of the new vector. The space is frozen by the first `idx_map`. -/
def backVec [Zero V] [DecidableEq V] (s : Space K) (arr : List V) : Except Err (Dict K V) :=
  backVecLoop s.freeze arr (nonzero 0 arr) []

/-- the loop l.415-421 of `backmap_array`: the first axis is looked up in `sf`, the second in `st`. -/
def backMatLoop (sf st : Space K) (arr : List (List V)) : List (Nat × Nat) → Dict (K × K) V → Except Err (Dict (K × K) V)
  | [], d => .ok d
  | (i, j) :: is, d =>
    match sf.idxMap i with
    | .error e => .error e
    | .ok kf =>
      match st.idxMap j with
      | .error e => .error e
      | .ok kt =>
        match arr[i]?.bind (fun r => r[j]?) with
        | none => .error .indexError
        | some x => backMatLoop sf st arr is (Dict.set d (kf, kt) x)

/-- `backmap_array` l.402-427 for a two dimensional array -/
def backMat [Zero V] [DecidableEq V] (sfrom sto : Space K) (arr : List (List V)) : Except Err (Dict (K × K) V) :=
  backMatLoop sfrom.freeze sto.freeze arr (nonzero2 0 arr) []

/-- `backmap_array_inv` l.429-451 for a two dimensional array: the two spaces swap roles. -/
def backMatInv [Zero V] [DecidableEq V] (sfrom sto : Space K) (arr : List (List V)) : Except Err (Dict (K × K) V) :=
  backMat sto sfrom arr

/-! ## `keyed_linear_algebra.py`

`ForewardDictMatrix` keeps nested dictionaries, from → to → value.  (The module imports `.dictionary_keys`, which is
not in its directory, so that it cannot be imported as it stands; the products are modelled as written.) -/

abbrev Nested (K V : Type) := Dict K (Dict K V)

/-- `__getitem__` l.25-28 -/
def nGet (m : Nested K V) (a b : K) : Except Err V := do
  let t ← Dict.get m a
  Dict.get t b

/-- `__setitem__` l.30-34 -/
def nSet (m : Nested K V) (a b : K) (x : V) : Nested K V :=
  Dict.set m a (Dict.set ((Dict.get? m a).getD []) b x)

/-- `__delitem__` l.36-44 -/
def nDel (m : Nested K V) (a b : K) : Except Err (Nested K V) :=
  match Dict.get? m a with
  | none => .error .keyError
  | some t =>
    match Dict.del t b with
    | .error e => .error e
    | .ok t => .ok (if t.isEmpty then Dict.erase m a else Dict.set m a t)

/-- the loop l.64-68 -/
def mulInner [Add V] [Mul V] (x : V) : Dict K V → Dict K V → Dict K V
  | [], acc => acc
  | (c, y) :: l, acc =>
    match Dict.get? acc c with
    | some z => mulInner x l (Dict.set acc c (z + x * y))
    | none => mulInner x l (Dict.set acc c (x * y))

/-- the loop l.58-68 -/
def mulMid [Add V] [Mul V] (other : Nested K V) : Dict K V → Dict K V → Dict K V
  | [], acc => acc
  | (b, x) :: l, acc =>
    match Dict.get? other b with
    | none => mulMid other l acc
    | some t => mulMid other l (mulInner x t acc)

/-- the loop l.55-68 -/
def mulOuter [Add V] [Mul V] (other : Nested K V) : Nested K V → Nested K V → Nested K V
  | [], acc => acc
  | (a, t) :: l, acc => mulOuter other l (Dict.set acc a (mulMid other t []))

/-- `__mul__` l.52-69 -/
def nMul [Add V] [Mul V] (m other : Nested K V) : Nested K V := mulOuter other m []

/-- the loop l.75-76 -/
def scaleInner [Mul V] (c : V) : Dict K V → Dict K V → Dict K V
  | [], acc => acc
  | (b, x) :: l, acc => scaleInner c l (Dict.set acc b (x * c))

/-- `__mul__` with a number l.70-77 -/
def nScale [Mul V] (c : V) : Nested K V → Nested K V → Nested K V
  | [], acc => acc
  | (a, t) :: l, acc => nScale c l (Dict.set acc a (scaleInner c t []))

end
end KeyMat
