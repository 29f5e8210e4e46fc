import Mathlib.Algebra.Field.Basic
import Mathlib.Data.List.Infix
import Verif.Py.Dict

/-!
# Values with units

Model of `phasor/base/pint.py` l.10-18, `phasor/base/simple_units.py` l.15-269 and of `SETUP`, `VALUE` and `PREFERRED`
in `phasor/base/multi_unit_args.py` l.14-145.

Numbers are elements of an arbitrary field `K`.  A unit of the `pint` library is its factor to the root units together
with its exponents over the root units, an element of an arbitrary commutative group `D` (metres, seconds, radians …);
units with an offset such as degrees Celsius are left out.  The strings written by `str` of a unit or a quantity are
kept as the unit or quantity they are parsed back to.  A node of the configuration tree (`ctree`, `ooa`) is the mapping
from the names `val`, `ref` and `units` to what is stored; `setdefault` keeps whatever is there.  A missing entry
is an empty mapping, which can be neither multiplied nor parsed.  Symbolic values are not modelled.
-/

namespace Unt
open Py

variable {K D : Type} [Field K] [DecidableEq K] [AddCommGroup D] [DecidableEq D]

/-- A unit of `pint`: its factor to the root units and its exponents over them. -/
structure PU (K D : Type) where
  scale : K
  dim : D
  deriving DecidableEq

/-- A quantity of `pint`. -/
structure Qty (K D : Type) where
  mag : K
  unit : PU K D
  deriving DecidableEq

/-- Division of quantities (`pint`). -/
def Qty.div (a b : Qty K D) : Except Err (Qty K D) :=
  if b.mag = 0 then .error .zeroDivision
  else .ok ⟨a.mag / b.mag, ⟨a.unit.scale / b.unit.scale, a.unit.dim - b.unit.dim⟩⟩

/-- The strings of units: of a unit, of a quantity, or one that cannot be parsed (`'None'`). -/
inductive UStr (K D : Type) where
  | ofUnit (u : PU K D)
  | ofQty (q : Qty K D)
  | bad
  deriving DecidableEq

/-- `ureg.parse_expression`; an unknown name raises `UndefinedUnitError`, an `AttributeError`. -/
def UStr.parse : UStr K D → Except Err (Qty K D)
  | .ofUnit u => .ok ⟨1, u⟩
  | .ofQty q => .ok q
  | .bad => .error .attributeError

/-- What can be given as units: nothing, a unit, a quantity. -/
inductive UArg (K D : Type) where
  | none
  | unit (u : PU K D)
  | qty (q : Qty K D)
  deriving DecidableEq

/-- `mag1_units` (`base/pint.py` l.10-18). -/
def mag1_units : UArg K D → UStr K D
  | .qty q => if q.mag = 1 then .ofUnit q.unit else .ofQty q
  | .unit u => .ofUnit u
  | .none => .bad

/-- The rescaling computed in l.39-43, l.53-57, l.107-114 and l.169-173 of `simple_units.py`:
`units_from / units_to`, the assertion that it has no units and its magnitude. -/
def rescale (units_to units_from : Option (Qty K D)) : Except Err K :=
  match units_from, units_to with
  | some f, some t => do
      let r ← f.div t
      if r.unit.dim = 0 then return r.mag * r.unit.scale else throw .assertion
  | _, _ => .error .typeError

/-- Arithmetic on values: `None` raises `TypeError`. -/
def lift2 (f : K → K → K) : Option K → Option K → Except Err (Option K)
  | some x, some y => .ok (some (f x y))
  | _, _ => .error .typeError

/-- `SimpleUnitfulGroup` (l.15-28): a value, its reference and the units of both; the units of
`UnitlessElementRefValue` are `None` (l.188). -/
structure Grp (K D : Type) where
  val : Option K
  ref : Option K
  units : Option (Qty K D)
  deriving DecidableEq

/-- `__add__` (l.38-49). -/
def Grp.add (a b : Grp K D) : Except Err (Grp K D) := do
  let r ← rescale a.units b.units
  let v ← lift2 (fun x y => x + y * r) a.val b.val
  let w ← lift2 (fun x y => x + y * r) a.ref b.ref
  return ⟨v, w, a.units⟩

/-- `__sub__` (l.51-62). -/
def Grp.sub (a b : Grp K D) : Except Err (Grp K D) := do
  let r ← rescale a.units b.units
  let v ← lift2 (fun x y => x - y * r) a.val b.val
  let w ← lift2 (fun x y => x - y * r) a.ref b.ref
  return ⟨v, w, a.units⟩

/-- `__mul__` and `__rmul__` (l.64-69, l.78-83) with a number. -/
def Grp.mul (a : Grp K D) (k : K) : Except Err (Grp K D) := do
  let v ← lift2 (· * ·) a.val (some k)
  let w ← lift2 (· * ·) a.ref (some k)
  return ⟨v, w, a.units⟩

/-- `__neg__` (l.71-76). -/
def Grp.neg (a : Grp K D) : Except Err (Grp K D) := do
  let v ← lift2 (fun x _ => -x) a.val (some 0)
  let w ← lift2 (fun x _ => -x) a.ref (some 0)
  return ⟨v, w, a.units⟩

/-- `a / k`.  The class defines `__div__` (l.85-90), which Python 3 never calls, nor Python 2 in the modules of this
package, which all begin with `from __future__ import division`; there is no `__truediv__`. -/
def Grp.truediv (_ : Grp K D) (_ : K) : Except Err (Grp K D) :=
  .error .typeError

/-- `valQ` (l.34-36). -/
def Grp.valQ (a : Grp K D) : Except Err (Qty K D) :=
  match a.val, a.units with
  | some x, some q => .ok ⟨x * q.mag, q.unit⟩
  | _, _ => .error .typeError

/-- `refQ` (l.30-32). -/
def Grp.refQ (a : Grp K D) : Except Err (Qty K D) :=
  match a.ref, a.units with
  | some x, some q => .ok ⟨x * q.mag, q.unit⟩
  | _, _ => .error .typeError

/-! ## Reading a parameter from the configuration tree -/

/-- What a leaf of the tree holds: `None`, a number or a string of units. -/
inductive V (K D : Type) where
  | none
  | num (x : K)
  | units (s : UStr K D)
  deriving DecidableEq

/-- The entries of one parameter in the tree. -/
abbrev Node (K D : Type) := String → Option (V K D)

/-- A value or `None` as stored. -/
def V.ofOpt : Option K → V K D
  | some x => .num x
  | .none => .none

/-- `ctree_units_scale` (l.105-114) for an element with units `u`. -/
def units_scale (n : Node K D) (u : Qty K D) : Except Err K :=
  match n "units" with
  | some (.units s) => do
      let f ← s.parse
      rescale (some u) (some f)
  | _ => .error .typeError

/-- `val` (l.126-132). -/
def read_val (n : Node K D) (u : Qty K D) : Except Err (Option K) :=
  match n "val" with
  | some .none => .ok none
  | some (.num x) => do
      let s ← units_scale n u
      return some (x * s)
  | some (.units _) => do
      let _ ← units_scale n u
      throw .typeError
  | none => do
      let _ ← units_scale n u
      throw .typeError

/-- `ref` (l.116-124). -/
def read_ref (n : Node K D) (u : Qty K D) : Except Err (Option K) :=
  match n "ref" with
  | none => read_val n u
  | some .none => .ok none
  | some (.num x) => do
      let s ← units_scale n u
      return some (x * s)
  | some (.units _) => do
      let _ ← units_scale n u
      throw .typeError

/-! ## Setting up a parameter -/

/-- `setdefault` of the tree. -/
def setdefault (n : Node K D) (k : String) (v : V K D) : Node K D :=
  if (n k).isSome then n else Function.update n k (some v)

/-- What is given for the preferred attribute (`L = …`): `None`, a group, a quantity, a unit or anything else. -/
inductive PArg (K D : Type) where
  | none
  | grp (g : Grp K D)
  | qty (q : Qty K D)
  | unit (u : PU K D)
  | other

/-- One source: for the preferred attribute, or for an attribute with the name of a unit (`L_in = …`), which is
given a number or `None`. -/
inductive Src (K D : Type) where
  | pref (v : PArg K D)
  | named (unit : String) (x : Option K)

/-- The units of one kind (`units_map`, `base/units.py` l.11-30). -/
structure Kind (K D : Type) where
  principle : Qty K D
  umap : String → Option (Qty K D)

/-- Storing one source, l.70-106.  `same x y` says that two numbers are the same Python object (`is`). -/
def store (kd : Kind K D) (same : K → K → Bool) (n : Node K D) : Src K D → Except Err (Node K D)
  | .pref .none =>
      .ok (setdefault (setdefault n "units" (.units (.ofQty kd.principle))) "val" .none)
  | .pref (.grp g) =>
      let n := setdefault n "val" (.ofOpt g.val)
      let n := if (match g.val, g.ref with
          | some x, some y => same x y
          | none, none => true
          | _, _ => false) then n else setdefault n "ref" (.ofOpt g.ref)
      .ok (setdefault n "units" (.units (mag1_units (match g.units with
          | some q => .qty q
          | none => .none))))
  | .pref (.qty _) => .error .attributeError
  | .pref (.unit u) =>
      .ok (setdefault (setdefault n "units" (.units (mag1_units (.unit u)))) "val" (.num 1))
  | .pref .other => .error .runtime
  | .named k x =>
      match kd.umap k with
      | some q => .ok (setdefault (setdefault n "units" (.units (mag1_units (.qty q)))) "val" (.ofOpt x))
      | none => .error .keyError

/-- `SETUP` (l.36-107).  `proto` is the attribute of the prototype when the element is made from one, `sources` what was
given, `dflt` the attribute named by `default_attr`, if there is one and it is not `None`. -/
def setup (kd : Kind K D) (same : K → K → Bool) (proto : Option (Grp K D)) (sources : List (Src K D))
    (dflt : Option (Src K D)) (n : Node K D) : Except Err (Node K D) :=
  match proto with
  | some o =>
      let n := Function.update n "val" (some (V.ofOpt o.val))
      let keep := match n "ref", o.val with
        | some (.num x), some y => same x y
        | some .none, none => true
        | _, _ => false
      let n := if keep then n else Function.update n "ref" (some (V.ofOpt o.ref))
      .ok (Function.update n "units" (some (.units (match o.units with
        | some q => .ofQty q
        | none => .bad))))
  | none =>
      match sources with
      | [] => match dflt with
          | some s => store kd same n s
          | none => .error .runtime
      | [s] => store kd same n s
      | _ :: _ :: _ => .error .runtime

/-! ## Fitting a parameter -/

/-- The configuration tree: the leaf at each path.  A path without a leaf is a mapping, made when first asked for. -/
abbrev Tree (K D : Type) := List String → Option (V K D)

/-- The entries below a path. -/
def Tree.node (t : Tree K D) (p : List String) : Node K D := fun k => t (p ++ [k])

/-- `ooa[key] = value`: whatever was below the path is gone. -/
def Tree.put (t : Tree K D) (p : List String) (v : V K D) : Tree K D :=
  fun q => if q = p then some v else if p <+: q then none else t q

/-- `for key in keys: ooa = ooa[key]`; a leaf cannot be indexed. -/
def Tree.walk (t : Tree K D) : List String → List String → Except Err (List String)
  | c, [] => .ok c
  | c, k :: ks => if (t c).isSome then .error .typeError else t.walk (c ++ [k]) ks

/-- `ooa.name = value`; a number has no such attribute. -/
def Tree.attr (t : Tree K D) (p : List String) (name : String) (v : V K D) : Except Err (Tree K D) :=
  if (t p).isSome then .error .attributeError else .ok (t.put (p ++ [name]) v)

/-- `fitter_inject` (l.147-152). -/
def inject (t : Tree K D) (key : List String) (u : Qty K D) (value ivalue : K) : Except Err (Tree K D) := do
  let p ← t.walk [] key
  let t ← t.attr p "val" (.num value)
  let t ← t.attr p "ref" (.num ivalue)
  t.attr p "units" (.units (.ofQty u))

/-- `fitter_reinject` (l.154-159). -/
def reinject (t : Tree K D) (key : List String) (u : Qty K D) (value : K) : Except Err (Tree K D) := do
  let p ← t.walk [] key
  let t ← t.attr p "val" (.num value)
  let t ← t.attr p "ref" (.num value)
  t.attr p "units" (.units (.ofQty u))

/-- `fitter_initial` (l.161-173); a number has no `get`. -/
def initial (t : Tree K D) (key : List String) (u : Qty K D) : Except Err K := do
  let p ← t.walk [] key
  if (t p).isSome then throw .attributeError
  let n := t.node p
  let v := match n "ref" with
    | some v => v
    | none => match n "val" with
      | some v => v
      | none => .none
  let s ← units_scale n u
  match v with
  | .num x => return x * s
  | _ => throw .typeError

/-- `UnitlessElementRefValue.val` (l.207-214) of the value found at a path. -/
def plain_val (t : Tree K D) (p : List String) : Option (V K D) :=
  match t p with
  | some v => some v
  | none => t (p ++ ["val"])

/-- `fitter_inject` without units (l.232-236). -/
def plain_inject (t : Tree K D) (key : List String) (value ivalue : K) : Except Err (Tree K D) := do
  let p ← t.walk [] key
  let t ← t.attr p "val" (.num value)
  t.attr p "ref" (.num ivalue)

/-- `fitter_reinject` without units (l.238-242); the key has at least one name. -/
def plain_reinject (t : Tree K D) (key : List String) (value : K) : Except Err (Tree K D) :=
  match key.getLast? with
  | none => .error .indexError
  | some last => do
      let p ← t.walk [] key.dropLast
      if (t p).isSome then throw .typeError
      return t.put (p ++ [last]) (.num value)

/-- `fitter_initial` without units (l.244-253); `none` stands for Python's `None`. -/
def plain_initial (t : Tree K D) (key : List String) : Except Err (V K D) := do
  let p ← t.walk [] key
  match t p with
  | some v => return v
  | none => match t (p ++ ["ref"]) with
    | some v => return v
    | none => match t (p ++ ["val"]) with
      | some v => return v
      | none => return .none

/-- The elements of a system: the root or a named child (`base/autograft.py` l.212-265). -/
inductive Elem where
  | root
  | child (parent : Elem) (name : String)

/-- The loop of `fitter_parameter` (l.138-141): the names from the element up to the root, without the root. -/
def Elem.names : Elem → List String
  | .root => []
  | .child p n => n :: p.names

/-- `fitter_parameter` (l.134-142, l.216-224). -/
def fitter_parameter (parent : Elem) (ctree_name : String) : List String :=
  (ctree_name :: parent.names).reverse

/-- `ctree` of an element: that of its parent at its name (`base/autograft.py`, `generate_child_ctree`). -/
def Elem.ctree : Elem → List String
  | .root => []
  | .child p n => p.ctree ++ [n]

end Unt
