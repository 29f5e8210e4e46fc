import Verif.Beam.Model

/-!
# `phasor/alm/system.py`, `bases.py`, `space.py`, `target.py`, `mounts.py`

Optical layouts: trees of thin elements, spaces and systems.  A layout `El` carries what the user gives (locations, reversal flags,
boundaries); `resolve` computes the sorted, gap filled and possibly reversed component lists with their positions (`Comp`), on which
matrices between targets are computed.

Exact numbers stand for floats.  The refractive index of an element is a number: the lookup `substrate.n(self)` by wavelength
(substrates.py l.11-17) is left out.  `ref` and `val` of an attribute are the same number (no fitting variables).  The element
registry, the invalidation of computed attributes and replicas are left out: a layout is built once.  Computed attributes
(`mproperty`) are functions.  Array valued `np.asarray` positions are lists.  `LensMount`, `MirrorMount` and `ConjMirrorMount` call
`self.substrate.n()` without the argument that it needs (a `TypeError` on every use) and are left out; `mount` is `TargetMount` with any
subsystem.
-/

namespace Alm
open Py

variable {V : Type}

/-- One entry of a target tuple: a string or an integer (negative integers are left out). -/
inductive Tok
  | left
  | right
  | qTarget
  | targetMount
  | idx (i : Nat)
  deriving DecidableEq, Repr

/-- `TargetIdx`, utils.py l.10-11: a tuple with the outermost index last; here a list with the outermost index first. -/
abbrev Tgt := List Tok

/-- `TargetLeft`, utils.py l.14. -/
def TargetLeft : Tgt := [.left]

/-- `TargetRight`, utils.py l.15. -/
def TargetRight : Tgt := [.right]

/-- A 2x2 array: an `np.ndarray` (`np.eye(2)`) or an `np.matrix`. -/
inductive Arr (V : Type)
  | nd (m : Mat V)
  | mx (m : Mat V)
  deriving DecidableEq, Repr

/-- The entries of a 2x2 array. -/
def Arr.m : Arr V → Mat V
  | .nd m => m
  | .mx m => m

/-- Thin elements, bases.py: `NoP` l.198-205, `ThinLens` l.208-220, `LensInterface` l.250-310, `Mirror` l.313-328,
`ABCDGeneric` l.369-406; target.py: `BeamTargetBase` l.23-71. -/
inductive Thin (V : Type)
  | nop
  | lens (f : Option V)
  | interface (n_from n_to : V) (R : Option V)
  | mirror (R : Option V)
  | abcd (A B C : V)
  | target
  deriving DecidableEq, Repr

/-- A layout as given: thin elements, spaces (`L_m`, refractive index), systems (`System` or, with `stack`, `SystemStack`; the two
boundaries; the children) and mounts; with `loc_m` and `reversed`.  A mount has no `loc_m`. -/
inductive El (V : Type)
  | thin (t : Thin V) (loc : Option V) (rev : Bool)
  | space (L n : V) (loc : Option V) (rev : Bool)
  | sys (stack : Bool) (bl br : Option V) (comps : List (El V)) (loc : Option V) (rev : Bool)
  | mount (sub : El V) (rev : Bool)

/-- A layout with computed component lists: a thin element with its `env_reversed`, a space, a system with `positions_list` and
`filled_list`, a mount. -/
inductive Comp (V : Type)
  | thin (t : Thin V) (rev : Bool)
  | space (L n : V)
  | sys (pos : List V) (filled : List (Comp V))
  | mount (sub : Comp V)

/-- The results of `matrix_between` that the systems of a layout have stored, by the path to the system and the two targets. -/
abbrev Memo (V : Type) := Dict (List Nat × Tgt × Tgt) (Arr V)

/-- Computations that read and write the stored results and may raise (keeping what was stored before). -/
abbrev M (V : Type) (α : Type) := ExceptT Err (StateM (Memo V)) α

section Matrices
variable [Field V] [DecidableEq V]

namespace Arr

/-- `a * b`: elementwise for two `np.ndarray`, the matrix product when one of them is an `np.matrix`. -/
def mul : Arr V → Arr V → Arr V
  | .nd a, .nd b => .nd ⟨a.a * b.a, a.b * b.b, a.c * b.c, a.d * b.d⟩
  | .nd a, .mx b => .mx (Mat.mul a b)
  | .mx a, .nd b => .mx (Mat.mul a b)
  | .mx a, .mx b => .mx (Mat.mul a b)

/-- `a**(-1)`: elementwise for an `np.ndarray` (a zero entry gives `inf` and a warning, modelled as an error), the inverse for an
`np.matrix`. -/
def inv : Arr V → Except Err (Arr V)
  | .nd a =>
    if a.a = 0 ∨ a.b = 0 ∨ a.c = 0 ∨ a.d = 0 then .error .zeroDivision
    else .ok (.nd ⟨1 / a.a, 1 / a.b, 1 / a.c, 1 / a.d⟩)
  | .mx a => do
    let m ← Mat.inv a
    return .mx m

/-- `np.eye(2)`. -/
def eye : Arr V := .nd Mat.eye

end Arr

namespace Thin

/-- `LensInterface.matrix`, bases.py l.256-282. -/
def interface_matrix (rev : Bool) (n_from n_to : V) : Option V → Except Err (Mat V)
  | some R =>
    if ¬ rev then do
      let r ← pydiv n_from n_to
      let c ← pydiv (r - 1) R
      return ⟨1, 0, c, r⟩
    else do
      let r ← pydiv n_to n_from
      let c ← pydiv (r - 1) (-R)
      return ⟨1, 0, c, r⟩
  | none =>
    if ¬ rev then do
      let r ← pydiv n_from n_to
      return ⟨1, 0, 0, r⟩
    else do
      let r ← pydiv n_to n_from
      return ⟨1, 0, 0, r⟩

/-- `LensInterface.matrix_inv`, bases.py l.284-310; `sub_from`, `sub_to` are the indices of `substrate_from`, `substrate_to`. -/
def interface_matrix_inv (rev : Bool) (sub_from sub_to : V) : Option V → Except Err (Mat V)
  | some R =>
    let n_to := sub_from
    let n_from := sub_to
    if ¬ rev then do
      let r ← pydiv n_from n_to
      let c ← pydiv (r - 1) R
      return ⟨1, 0, c, r⟩
    else do
      let r ← pydiv n_to n_from
      let c ← pydiv (r - 1) (-R)
      return ⟨1, 0, c, r⟩
  | none =>
    let n_to := sub_from
    let n_from := sub_to
    if ¬ rev then do
      let r ← pydiv n_from n_to
      return ⟨1, 0, 0, r⟩
    else do
      let r ← pydiv n_to n_from
      return ⟨1, 0, 0, r⟩

/-- `Mirror.matrix`, bases.py l.316-328. -/
def mirror_matrix : Option V → Except Err (Mat V)
  | some R => do
    let c ← pydiv (-2) R
    return ⟨1, 0, c, 1⟩
  | none => .ok ⟨1, 0, 0, 1⟩

/-- `ABCDGeneric.matrix`, bases.py l.400-406. -/
def abcd_matrix (A B C : V) : Except Err (Mat V) := do
  let D ← pydiv (C * B + 1) A
  return ⟨A, B, C, D⟩

/-- `matrix` of the thin elements. -/
def matrix (rev : Bool) : Thin V → Except Err (Mat V)
  | .nop => .ok ⟨1, 0, 0, 1⟩
  | .lens f => matrix_focus f 0
  | .interface n_from n_to R => interface_matrix rev n_from n_to R
  | .mirror R => mirror_matrix R
  | .abcd A B C => abcd_matrix A B C
  | .target => .ok ⟨1, 0, 0, 1⟩

/-- `ThinLens.matrix_inv`, bases.py l.217-220: `-None` is a `TypeError`. -/
def lens_matrix_inv : Option V → Except Err (Mat V)
  | some f => matrix_focus (some (-f)) 0
  | none => .error .typeError

/-- `matrix_inv` of the thin elements; the default is `self.matrix**(-1)`, bases.py l.72-77. -/
def matrix_inv (rev : Bool) : Thin V → Except Err (Mat V)
  | .nop => .ok ⟨1, 0, 0, 1⟩
  | .lens f => lens_matrix_inv f
  | .interface n_from n_to R => interface_matrix_inv rev n_from n_to R
  | .mirror R => do
    let m ← mirror_matrix R
    Mat.inv m
  | .abcd A B C => do
    let m ← abcd_matrix A B C
    Mat.inv m
  | .target => .ok ⟨1, 0, 0, 1⟩

end Thin

namespace Comp

mutual
/-- `matrix`: thin elements; `Space.matrix`, space.py l.41-47; `System.matrix`, system.py l.236-249; `MountBase.matrix`, mounts.py
l.75-89. -/
def matrix : Comp V → Except Err (Arr V)
  | .thin t rev => do
    let m ← t.matrix rev
    return .mx m
  | .space L n => do
    let x ← pydiv L n
    return .mx ⟨1, x, 0, 1⟩
  | .sys _ filled => matrices filled .eye
  | .mount sub => do
    let m ← matrix sub
    return ((Arr.mx Mat.eye).mul m).mul (.mx Mat.eye)

/-- `for comp in comps: mat = comp.matrix * mat`. -/
def matrices : List (Comp V) → Arr V → Except Err (Arr V)
  | [], mat => .ok mat
  | comp :: comps, mat => do
    let m ← matrix comp
    matrices comps (m.mul mat)
end

mutual
/-- `matrix_inv`: thin elements; `Space.matrix_inv`, space.py l.49-55; `System.matrix_inv`, system.py l.251-259; `MountBase.matrix_inv`,
mounts.py l.91-93. -/
def matrix_inv : Comp V → Except Err (Arr V)
  | .thin t rev => do
    let m ← t.matrix_inv rev
    return .mx m
  | .space L n => do
    let x ← pydiv (-L) n
    return .mx ⟨1, x, 0, 1⟩
  | .sys _ filled => matrices_inv filled .eye
  | .mount sub => do
    let m ← matrix_inv sub
    return ((Arr.mx Mat.eye).mul m).mul (.mx Mat.eye)

/-- `for comp in reversed(comps): mat = comp.matrix_inv * mat`. -/
def matrices_inv : List (Comp V) → Arr V → Except Err (Arr V)
  | [], mat => .ok mat
  | comp :: comps, mat => do
    let mat ← matrices_inv comps mat
    let m ← matrix_inv comp
    return m.mul mat
end

/-- `tidx[-1]` and `tidx[:-1]`. -/
def outer : Tgt → M V (Tok × Tgt)
  | [] => throw .indexError
  | tok :: inner => pure (tok, inner)

/-- The use of an entry of a target as an index: strings raise `TypeError`. -/
def index : Tok → M V Nat
  | .idx i => pure i
  | _ => throw .typeError

/-- `MatrixAtsBase.matrix_between`, bases.py l.79-96. -/
def base_between (matrix matrix_inv : Except Err (Arr V)) (tidx1 tidx2 : Tgt) : M V (Arr V) :=
  if tidx1 = TargetLeft then
    if tidx2 = TargetLeft then pure .eye
    else if tidx2 = TargetRight then liftExcept matrix
    else throw .runtime
  else if tidx1 = TargetRight then
    if tidx2 = TargetLeft then liftExcept matrix_inv
    else if tidx2 = TargetRight then pure .eye
    else throw .runtime
  else throw .runtime
where
  /-- An exception of a computed attribute. -/
  liftExcept (x : Except Err (Arr V)) : M V (Arr V) := ExceptT.mk (pure x)

/-- `BeamTargetBase.matrix_between`, target.py l.54-71. -/
def target_between (tidx1 tidx2 : Tgt) : M V (Arr V) :=
  if tidx1 = TargetLeft ∨ tidx1 = TargetRight ∨ tidx1 = [.qTarget] then
    if tidx2 = TargetLeft ∨ tidx2 = TargetRight ∨ tidx2 = [.qTarget] then pure .eye
    else throw .runtime
  else throw .runtime

/-- `MountBase.matrix_between`, mounts.py l.95-141, with the detune matrices of l.75-85; `sub` is `self.subsystem.matrix_between`. -/
def mount_between (matrix matrix_inv : Except Err (Arr V)) (sub : Tgt → Tgt → M V (Arr V)) (tidx1 tidx2 : Tgt) : M V (Arr V) :=
  if tidx1 = TargetLeft then
    if tidx2 = TargetLeft then pure .eye
    else if tidx2 = TargetRight then base_between.liftExcept matrix
    else do
      let o2 ← outer tidx2
      if o2.1 ≠ .idx 0 then do
        let m ← sub TargetLeft o2.2
        pure (m.mul (.mx Mat.eye))
      else pure (.mx Mat.eye)
  else if tidx1 = TargetRight then
    if tidx2 = TargetLeft then base_between.liftExcept matrix_inv
    else if tidx2 = TargetRight then pure .eye
    else do
      let o2 ← outer tidx2
      if o2.1 ≠ .idx 0 then do
        let m ← sub TargetRight o2.2
        pure (m.mul (.mx Mat.eye))
      else pure (.mx Mat.eye)
  else do
    let o1 ← outer tidx1
    if o1.1 ≠ .idx 0 then
      if tidx2 = TargetLeft then do
        let m ← sub o1.2 TargetLeft
        pure ((Arr.mx Mat.eye).mul m)
      else if tidx2 = TargetRight then do
        let m ← sub o1.2 TargetRight
        pure ((Arr.mx Mat.eye).mul m)
      else do
        let o2 ← outer tidx2
        if o1.1 ≠ .idx 0 then sub o1.2 o2.2
        else throw .notImplemented
    else
      if tidx2 = TargetLeft then pure (.mx Mat.eye)
      else if tidx2 = TargetRight then pure (.mx Mat.eye)
      else throw .notImplemented

/-- `System.matrix_between`, system.py l.270-319; `sub i` is `self.filled_list[i].matrix_between`. -/
def sys_between (filled : List (Comp V)) (sub : Nat → Tgt → Tgt → M V (Arr V)) (tidx1 tidx2 : Tgt) : M V (Arr V) :=
  if tidx1 = TargetLeft then
    if tidx2 = TargetLeft then pure .eye
    else if tidx2 = TargetRight then base_between.liftExcept (matrices filled .eye)
    else do
      let o2 ← outer tidx2
      let i2 ← index o2.1
      let mat ← base_between.liftExcept (matrices (filled.take i2) .eye)
      let m ← sub i2 TargetLeft o2.2
      pure (m.mul mat)
  else if tidx1 = TargetRight then
    if tidx2 = TargetLeft then base_between.liftExcept (do let m ← matrices filled .eye; Arr.inv m)
    else if tidx2 = TargetRight then pure .eye
    else do
      let o2 ← outer tidx2
      let i2 ← index o2.1
      let mat ← base_between.liftExcept (matrices_inv (filled.drop (i2 + 1)) .eye)
      let m ← sub i2 TargetRight o2.2
      pure (m.mul mat)
  else do
    let o1 ← outer tidx1
    if tidx2 = TargetRight then do
      let i1 ← index o1.1
      let mat ← sub i1 o1.2 TargetRight
      base_between.liftExcept (matrices (filled.drop (i1 + 1)) mat)
    else if tidx2 = TargetLeft then do
      let i1 ← index o1.1
      let mat ← sub i1 o1.2 TargetLeft
      base_between.liftExcept (matrices_inv (filled.take i1) mat)
    else do
      let o2 ← outer tidx2
      let i1 ← index o1.1
      let i2 ← index o2.1
      if i2 = i1 then sub i1 o1.2 o2.2
      else if i2 > i1 then do
        let mat ← sub i1 o1.2 TargetRight
        let mat ← base_between.liftExcept (matrices ((filled.take i2).drop (i1 + 1)) mat)
        let m ← sub i2 TargetLeft o2.2
        pure (m.mul mat)
      else do
        let mat ← sub i1 o1.2 TargetLeft
        let mat ← base_between.liftExcept (matrices_inv ((filled.take i1).drop (i2 + 1)) mat)
        let m ← sub i2 TargetRight o2.2
        pure (m.mul mat)

/-- The use of `_matrix_between_memomap`, system.py l.261-269, 320-322; `path` tells the systems of a layout apart. -/
def memoize (path : List Nat) (tidx1 tidx2 : Tgt) (compute : M V (Arr V)) : M V (Arr V) := do
  let memo ← get
  match Dict.get? memo (path, tidx1, tidx2) with
  | some result => pure result
  | none => do
    let mat ← compute
    modify (fun memo => Dict.set memo (path, tidx1, tidx2) mat)
    pure mat

mutual
/-- `matrix_between`. -/
def between : Comp V → List Nat → Tgt → Tgt → M V (Arr V)
  | .thin t rev, _, tidx1, tidx2 =>
    if t = .target then target_between tidx1 tidx2
    else base_between (matrix (.thin t rev)) (matrix_inv (.thin t rev)) tidx1 tidx2
  | .space L n, _, tidx1, tidx2 => base_between (matrix (.space L n)) (matrix_inv (.space L n)) tidx1 tidx2
  | .sys _ filled, path, tidx1, tidx2 =>
    memoize path tidx1 tidx2 (sys_between filled (fun i a b => between_at filled i (path ++ [i]) a b) tidx1 tidx2)
  | .mount sub, path, tidx1, tidx2 =>
    mount_between (matrix (.mount sub)) (matrix_inv (.mount sub)) (fun a b => between sub (path ++ [0]) a b) tidx1 tidx2

/-- `comps[i].matrix_between`. -/
def between_at : List (Comp V) → Nat → List Nat → Tgt → Tgt → M V (Arr V)
  | [], _, _, _, _ => throw .indexError
  | comp :: _, 0, path, tidx1, tidx2 => between comp path tidx1 tidx2
  | _ :: comps, i + 1, path, tidx1, tidx2 => between_at comps i path tidx1 tidx2
end

/-- `layout.matrix_between(tidx1, tidx2)` with the results stored so far; the answer and the results stored then. -/
def matrix_between (c : Comp V) (tidx1 tidx2 : Tgt) (memo : Memo V) : Except Err (Arr V) × Memo V :=
  (between c [] tidx1 tidx2).run.run memo

end Comp
end Matrices

section Positions
variable [Field V]

/-- `width_m`: `ThinBase`, bases.py l.155; `Space`, space.py l.37-39; `System`, system.py l.56-59; `MountBase`, mounts.py l.32-34.
(`positions_list` is never empty.) -/
def Comp.width : Comp V → V
  | .thin _ _ => 0
  | .space L _ => L
  | .sys pos _ => pos.getLastD 0 - pos.headD 0
  | .mount sub => sub.width

/-- `SystemStack.component_pos_pairings`, system.py l.470-484: the positions, from `loc`. -/
def stack_positions : V → List (Comp V) → List V
  | loc, [] => [loc]
  | loc, comp :: comps => loc :: stack_positions (loc + comp.width) comps

/-- `SystemStack.component_pos_pairings`, system.py l.463-490. -/
def stack_pairings (rev : Bool) (components : List (Comp V)) : List V × List (Comp V) :=
  let filled := if ¬ rev then components else components.reverse
  let pos_list := stack_positions 0 filled
  (pos_list.map (fun x => x - pos_list.headD 0), filled)

variable [LinearOrder V]

/-- `(loc, ch) < (loc', ch')` of tuples: equal locations go on to compare the elements, which have no order. -/
def loc_lt (a b : V × Comp V) : Except Err Bool :=
  if a.1 < b.1 then .ok true
  else if b.1 < a.1 then .ok false
  else .error .typeError

/-- Insertion of one element into a sorted list. -/
def loc_insert (a : V × Comp V) : List (V × Comp V) → Except Err (List (V × Comp V))
  | [] => .ok [a]
  | b :: l => do
    let lt ← loc_lt a b
    if lt then .ok (a :: b :: l)
    else do
      let l ← loc_insert a l
      .ok (b :: l)

/-- `loc_ch_list.sort()`, system.py l.81 (a comparison sort raises whenever two locations are equal, as every such sort has to compare
the two). -/
def loc_sort : List (V × Comp V) → Except Err (List (V × Comp V))
  | [] => .ok []
  | a :: l => do
    let l ← loc_sort l
    loc_insert a l

/-- The loop for `lslice`, system.py l.101-110, from index `idx`. -/
def lslice (b : V) : List (V × Comp V) → Nat → Except Err Nat
  | [], idx => if idx = 0 then .error .unboundLocal else .ok idx
  | (loc, comp) :: l, idx =>
    if loc ≥ b then .ok idx
    else if loc + comp.width ≥ b then .error .notImplemented
    else lslice b l (idx + 1)

/-- The loop for `rslice`, system.py l.115-124, over the reversed list, with the number of components left. -/
def rslice (b : V) : List (V × Comp V) → Except Err Nat
  | [] => .ok 0
  | (loc, comp) :: l =>
    if loc ≤ b then
      if loc + comp.width ≥ b then .error .notImplemented
      else .ok (l.length + 1)
    else rslice b l

/-- The loop of `System.component_pos_pairings`, system.py l.133-192: the positions, the filled list and `loc_m_prev` at the end.
`prev` is `loc_m_prev`, or before the first component the truncation edge of l.167-170 (`none` when there is none, and the branch of
l.148 and the one of l.162 insert the same space). -/
def fill_loop (rev : Bool) (n_env : V) : Option V → List (V × Comp V) → List V × List (Comp V) × Option V
  | prev, [] => ([], [], prev)
  | prev, (loc, comp) :: l =>
    let loc_m := if ¬ rev then loc else -comp.width - loc
    let rest := fill_loop rev n_env (some (loc_m + comp.width)) l
    match prev with
    | none => (loc_m :: rest.1, comp :: rest.2.1, rest.2.2)
    | some p => (p :: loc_m :: rest.1, .space (loc_m - p) n_env :: comp :: rest.2.1, rest.2.2)

/-- The end of `System.component_pos_pairings`, system.py l.194-224: the final space when there is a truncation edge `e`. -/
def fill_end (n_env : V) (empty : Bool) (e : Option V) (pos : List V) (filled : List (Comp V)) (last : Option V) :
    Except Err (List V × List (Comp V)) :=
  match e with
  | none => .ok (pos ++ [last.getD 0], filled)
  | some e =>
    if empty then .error .unboundLocal
    else
      match last with
      | none => .error .typeError
      | some p => .ok (pos ++ [p, e], filled ++ [.space (e - p) n_env])

/-- The left end of the slice, none is the beginning. -/
def sys_lslice (bl : Option V) (components : List (V × Comp V)) : Except Err Nat :=
  match bl with
  | some b => lslice b components 0
  | none => .ok 0

/-- The right end of the slice, none is the end. -/
def sys_rslice (br : Option V) (components : List (V × Comp V)) : Except Err Nat :=
  match br with
  | some b => rslice b components.reverse
  | none => .ok components.length

/-- `System.component_pos_pairings`, system.py l.88-224, of the sorted components with their locations. -/
def sys_pairings (rev : Bool) (n_env : V) (bl br : Option V) (components : List (V × Comp V)) :
    Except Err (List V × List (Comp V)) := do
  let l ← sys_lslice bl components
  let r ← sys_rslice br components
  let sliced := (components.take r).drop l
  let items := if ¬ rev then sliced else sliced.reverse
  let first_edge := if rev then br.map (fun x => -x) else bl
  let last_edge := if rev then bl.map (fun x => -x) else br
  let out := fill_loop rev n_env (if items.isEmpty then none else first_edge) items
  let res ← fill_end n_env components.isEmpty last_edge out.1 out.2.1 out.2.2
  return (res.1.map (fun x => x - res.1.headD 0), res.2)

/-- `env_reversed`, bases.py l.62-70. -/
def env_reversed (parent : Bool) (rev : Bool) : Bool := xor parent rev

mutual
/-- The layout with its component lists: `env_reversed`, bases.py l.62-70, `System.components`, system.py l.76-84, and the component
lists.  `n_env` is the index of the environment, that of the auto inserted spaces. -/
def resolve (n_env : V) : Bool → El V → Except Err (Comp V)
  | parent, .thin t _ rev => .ok (.thin t (env_reversed parent rev))
  | _, .space L n _ _ => .ok (.space L n)
  | parent, .sys true _ _ comps _ rev => do
    let cs ← resolve_stack n_env (env_reversed parent rev) comps
    let res := stack_pairings (env_reversed parent rev) cs
    .ok (.sys res.1 res.2)
  | parent, .sys false bl br comps _ rev => do
    let cs ← resolve_located n_env (env_reversed parent rev) comps
    let cs ← loc_sort cs
    let res ← sys_pairings (env_reversed parent rev) n_env bl br cs
    .ok (.sys res.1 res.2)
  | parent, .mount sub rev => do
    let c ← resolve n_env (env_reversed parent rev) sub
    .ok (.mount c)

/-- The children of a `SystemStack`. -/
def resolve_stack (n_env : V) : Bool → List (El V) → Except Err (List (Comp V))
  | _, [] => .ok []
  | env, e :: l => do
    let c ← resolve n_env env e
    let cs ← resolve_stack n_env env l
    .ok (c :: cs)

/-- The children of a `System` that have a location, system.py l.76-80; a mount has no `loc_m`. -/
def resolve_located (n_env : V) : Bool → List (El V) → Except Err (List (V × Comp V))
  | _, [] => .ok []
  | env, e :: l => do
    let loc ← match e with
      | .thin _ loc _ => .ok loc
      | .space _ _ loc _ => .ok loc
      | .sys _ _ _ _ loc _ => .ok loc
      | .mount _ _ => .error .attributeError
    match loc with
    | none => resolve_located n_env env l
    | some loc => do
      let c ← resolve n_env env e
      let cs ← resolve_located n_env env l
      .ok ((loc, c) :: cs)
end

end Positions

section TargetPos
variable [Field V]

mutual
/-- `target_pos`: `ThinBase`, bases.py l.190-191; `BeamTargetBase`, target.py l.51-52; `Space`, space.py l.100-105; `System`, system.py
l.385-393; `MountBase`, mounts.py l.62-73. -/
def Comp.target_pos : Comp V → Tgt → Except Err V
  | .thin _ _, _ => .ok 0
  | .space L _, tidx =>
    if tidx = TargetLeft then .ok 0
    else if tidx = TargetRight then .ok L
    else .error .runtime
  | .sys pos filled, tidx =>
    if tidx = TargetLeft then .ok 0
    else if tidx = TargetRight then .ok (Comp.width (.sys pos filled))
    else
      match tidx with
      | .idx i :: inner =>
        match pos[i]? with
        | some offset => do
          let p ← Comp.target_pos_at filled i inner
          .ok (offset + p)
        | none => .error .indexError
      | _ => .error .indexError
  | .mount sub, tidx =>
    if tidx = TargetLeft then .ok 0
    else if tidx = TargetRight then .ok (Comp.width sub)
    else
      match tidx with
      | .idx 0 :: inner =>
        match inner.getLast? with
        | some tok => if tok = .targetMount then .ok 0 else .error .assertion
        | none => .error .indexError
      | _ :: inner => Comp.target_pos sub inner
      | [] => .error .indexError

/-- `filled[i].target_pos`. -/
def Comp.target_pos_at : List (Comp V) → Nat → Tgt → Except Err V
  | [], _, _ => .error .indexError
  | comp :: _, 0, tidx => Comp.target_pos comp tidx
  | _ :: comps, i + 1, tidx => Comp.target_pos_at comps i tidx
end

end TargetPos
end Alm
