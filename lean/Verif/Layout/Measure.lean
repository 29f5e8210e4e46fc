import Verif.Layout.ToZ
import Verif.Beam.Model
import Mathlib.Data.List.Sort
import Mathlib.Data.String.Basic

/-!
# `phasor/alm/measurements.py` and `phasor/alm/target.py`: overlaps, beams and Gouy phases at targets

A layout (`Verif.Layout.Model`) with what its beam targets are given.  The data of a target is found by the path to it.  Places are
single numbers.  `matrix_between` is asked as if nothing was stored before (C38).  Left out: arrays of places, descriptions, constraints,
excursions; `q_at` (which reads the missing attribute `input_q`) and `with_inserted` (which passes arguments that do not exist).
`pi` and `sqrt` are as in `Verif.Beam.Model`.
-/

namespace Alm
open Py Cplx

variable {V : Type} [Field V] [LinearOrder V]

/-- What a `BeamTarget` is given, target.py l.23-27, 74-82; `q_raw` is a number or the value of a beam. -/
structure Given (V : Type) where
  name : String
  hidden : Bool
  q_raw : Option (Cx V)
  q_system : Option (Comp V)
  gouy_phasor : Cx V

/-- `BeamTarget.beam_q`, target.py l.84-115; `rev` is `env_reversed`. -/
def Given.beam_q (sqrt : V → Except Err V) (wavelen : V) (g : Given V) (rev : Bool) : Except Err (Beam V) :=
  match g.q_raw, g.q_system with
  | none, none => .error .runtime
  | some _, some _ => .error .runtime
  | none, some s => do
    let m ← s.matrix
    let q ← eigen_q sqrt m.m
    .ok (Beam.init q (some wavelen) (some g.gouy_phasor))
  | some q, none =>
    let q_obj := Beam.init q (some wavelen) (some g.gouy_phasor)
    .ok (if rev then q_obj.reversed else q_obj)

namespace Comp

mutual
/-- `system_data_targets('q_target')`: `ThinBase`, bases.py l.193-195; `BeamTargetBase`, target.py l.38-46; `System`, system.py l.414-419;
`MountBase`, mounts.py l.45-51.  The pairs of the dictionary in their order; no target occurs twice. -/
def q_targets : (Tgt → Given V) → Comp V → List (Tgt × String)
  | info, .thin .target _ => if (info []).hidden then [] else [([.qTarget], (info []).name)]
  | _, .thin _ _ => []
  | _, .space _ _ => []
  | info, .sys _ filled => q_targets_from info 0 filled
  | info, .mount sub => (q_targets (fun t => info (.idx 1 :: t)) sub).map (fun x => (.idx 1 :: x.1, x.2))

/-- The loop over `enumerate(self.filled_list)` of `System`, from index `k` on. -/
def q_targets_from : (Tgt → Given V) → Nat → List (Comp V) → List (Tgt × String)
  | _, _, [] => []
  | info, k, c :: l => (q_targets (fun t => info (.idx k :: t)) c).map (fun x => (.idx k :: x.1, x.2)) ++ q_targets_from info (k + 1) l
end

mutual
/-- `target_obj(tidx1)` and the attributes of the result: `BeamTargetBase`, target.py l.48-49; `System`, system.py l.380-383; `MountBase`,
mounts.py l.53-60.  Other elements have no such method; a mount is returned for index 0, and it has no `beam_q`. -/
def target_obj : (Tgt → Given V) → Comp V → Tgt → Except Err (Given V × Bool)
  | info, .thin .target rev, _ => .ok (info [], rev)
  | _, .thin _ _, _ => .error .attributeError
  | _, .space _ _, _ => .error .attributeError
  | info, .sys _ filled, tidx1 =>
    match tidx1 with
    | [] => .error .indexError
    | .idx i :: inner => target_obj_at (fun t => info (.idx i :: t)) filled i inner
    | _ :: _ => .error .typeError
  | info, .mount sub, tidx1 =>
    match tidx1 with
    | [] => .error .indexError
    | .idx 0 :: inner =>
      match inner.getLast? with
      | some tok => if tok = .targetMount then .error .attributeError else .error .assertion
      | none => .error .indexError
    | _ :: inner => target_obj (fun t => info (.idx 1 :: t)) sub inner

/-- `filled[i].target_obj`. -/
def target_obj_at : (Tgt → Given V) → List (Comp V) → Nat → Tgt → Except Err (Given V × Bool)
  | _, [], _, _ => .error .indexError
  | info, c :: _, 0, tidx1 => target_obj info c tidx1
  | info, _ :: l, i + 1, tidx1 => target_obj_at info l i tidx1
end

end Comp

/-- The name of a target: a string or a `TargetIdx`. -/
inductive TName
  | str (s : String)
  | idx (t : Tgt)
  deriving DecidableEq, Repr

/-- A place: the name of a target or a number. -/
inductive Place (V : Type)
  | name (s : String)
  | z (x : V)

/-- `Measurements`, measurements.py l.94-97: the layout, what its targets are given, the wavelength (`env_wavelength_nm * 1e-9`) and
`env_principle_target`. -/
structure Meas (V : Type) where
  layout : Comp V
  info : Tgt → Given V
  wavelen : V
  principle : Option TName

namespace Meas

/-- `funcmap_inv`, l.344-346 and l.491-493. -/
def name_map (s : Meas V) : Dict String Tgt :=
  (Comp.q_targets s.info s.layout).foldl (fun d x => Dict.set d x.2 x.1) []

/-- `target_idx`, l.483-495. -/
def target_idx (s : Meas V) : TName → Except Err Tgt
  | .idx t => .ok t
  | .str n =>
    if n = "left" then .ok TargetLeft
    else if n = "right" then .ok TargetRight
    else
      match Dict.get? s.name_map n with
      | some t => .ok t
      | none => .error .keyError

/-- `(z, name) <= (z', name')` of tuples. -/
def z_le (a b : V × String) : Bool := a.1 < b.1 ∨ (a.1 = b.1 ∧ a.2 ≤ b.2)

/-- `beam_targets`, l.340-354: pairs of position and name. -/
def beam_targets (s : Meas V) : Except Err (List (V × String)) := do
  let z_targets ← s.name_map.mapM (fun x => do
    let z ← s.layout.target_pos x.2
    Except.ok (z, x.1))
  .ok (z_targets.insertionSort (fun a b => z_le a b = true))

/-- `self.beam_targets.tname[0]`. -/
def first_target (s : Meas V) : Except Err TName := do
  let l ← s.beam_targets
  match l with
  | [] => .error .indexError
  | x :: _ => .ok (.str x.2)

variable (pi : V) (sqrt : V → Except Err V)

/-- `self.layout.target_obj(tidx).beam_q`. -/
def beam_at (s : Meas V) (tidx : Tgt) : Except Err (Beam V) := do
  let x ← Comp.target_obj s.info s.layout tidx
  x.1.beam_q sqrt s.wavelen x.2

/-- `overlap`, l.235-248. -/
def overlap (s : Meas V) (tname1 tname2 : Option TName) : Except Err (Cx V) := do
  let names ←
    match tname1, tname2 with
    | none, none => do
      let l ← s.beam_targets
      match l with
      | [a, b] => Except.ok (some (TName.str a.2), some (TName.str b.2))
      | _ => Except.ok (none, none)
    | _, _ => Except.ok (tname1, tname2)
  match names with
  | (some n1, some n2) => do
    let tidx1 ← s.target_idx n1
    let tidx2 ← s.target_idx n2
    let mat ← (s.layout.matrix_between tidx1 tidx2 []).1
    let q_in1 ← s.beam_at sqrt tidx1
    let q_in2 ← s.beam_at sqrt tidx2
    let q ← q_in1.propagate_matrix pi sqrt mat.m
    q_in2.overlap_with pi sqrt q
  | _ => .error .keyError

/-- `abs(self.overlap(tprev, tnext))**4`. -/
def power (s : Meas V) (tprev tnext : String) : Except Err V := do
  let o ← s.overlap pi sqrt (some (.str tprev)) (some (.str tnext))
  let a ← sqrt (absSq o)
  .ok (a ^ 4)

/-- The loop of `overlap_seq`, l.218-222. -/
def seq_loop (s : Meas V) (tlist : List String) : String → V → List (V × String) → Except Err V
  | _, olap, [] => .ok olap
  | tprev, olap, x :: l => do
    let olap ← if tlist = [] ∨ x.2 ∈ tlist then do
        let p ← s.power pi sqrt tprev x.2
        Except.ok (olap * p)
      else .ok olap
    seq_loop s tlist x.2 olap l

/-- `overlap_seq`, l.215-223. -/
def overlap_seq (s : Meas V) (tlist : List String) : Except Err V := do
  let l ← s.beam_targets
  match l with
  | [] => .error .indexError
  | x :: l => s.seq_loop pi sqrt tlist x.2 1 l

/-- The loop of `overlap_list`, l.228-232. -/
def list_loop (s : Meas V) (tlist : List String) : String → List V → List (V × String) → Except Err (List V)
  | _, olaps, [] => .ok olaps
  | tprev, olaps, x :: l => do
    let olaps ← if tlist = [] ∨ x.2 ∈ tlist then do
        let p ← s.power pi sqrt tprev x.2
        Except.ok (olaps ++ [p])
      else .ok olaps
    list_loop s tlist x.2 olaps l

/-- `overlap_list`, l.225-233. -/
def overlap_list (s : Meas V) (tlist : List String) : Except Err (List V) := do
  let l ← s.beam_targets
  match l with
  | [] => .error .indexError
  | x :: l => s.list_loop pi sqrt tlist x.2 [] l

/-- The beam source of `target_q` and `q_target_z`, l.167-176, 260-269. -/
def source (s : Meas V) (beam_source : Option TName) : Except Err Tgt := do
  let src ←
    match beam_source with
    | some b => Except.ok b
    | none =>
      match s.principle with
      | some b => Except.ok b
      | none => s.first_target
  s.target_idx src

/-- `target_q`, l.255-284, for a name or a `TargetIdx`. -/
def target_q (s : Meas V) (tname1 : TName) (beam_source : Option TName) : Except Err (Beam V) := do
  let tidx_beam ← s.source beam_source
  let tidx1 ← s.target_idx tname1
  let matbs ← (s.layout.matrix_between tidx_beam tidx1 []).1
  let q_start ← s.beam_at sqrt tidx_beam
  q_start.propagate_matrix pi sqrt matbs.m

/-- `target_q`, l.255-284, for a number; and `q_target_z`, l.166-189, for a single number (which looks up the beam in the same way). -/
def target_q_z (s : Meas V) (z : V) (beam_source : Option TName) : Except Err (Beam V) := do
  let tidx_beam ← s.source beam_source
  let matbs ← s.layout.to_z tidx_beam z
  let q_start ← s.beam_at sqrt tidx_beam
  q_start.propagate_matrix pi sqrt matbs.m

/-- The first part of `relative_gouy_phasor`, l.297-302: `tidx1` and `matbs`. -/
def place_from (s : Meas V) (tidx_beam : Tgt) : Place V → Except Err (Option Tgt × Arr V)
  | .name n => do
    let tidx1 ← s.target_idx (.str n)
    let matbs ← (s.layout.matrix_between tidx_beam tidx1 []).1
    .ok (some tidx1, matbs)
  | .z x => do
    let matbs ← s.layout.to_z tidx_beam x
    .ok (none, matbs)

/-- `tidx1` or, when it is None, the number `tname1`, l.313, 318. -/
def first_place (tidx1 : Option Tgt) (tname1 : Place V) : Tgt ⊕ V :=
  match tidx1, tname1 with
  | some t, _ => .inl t
  | none, .z z => .inr z
  | none, .name _ => .inl []

/-- The matrix from the first place to the second, l.311-321; `tname1` is the number when `tidx1` is None. -/
def place_between (s : Meas V) (tidx_beam : Tgt) (matbs : Arr V) (p1 : Tgt ⊕ V) : Place V → Except Err (Arr V)
  | .name n => do
    let tidx2 ← s.target_idx (.str n)
    match p1 with
    | .inl tidx1 => (s.layout.matrix_between tidx1 tidx2 []).1
    | .inr z1 => do
      let m ← s.layout.to_z tidx2 z1
      m.inv
  | .z z2 =>
    match p1 with
    | .inl tidx1 => s.layout.to_z tidx1 z2
    | .inr _ => do
      let m ← s.layout.to_z tidx_beam z2
      let i ← matbs.inv
      .ok (m.mul i)

/-- `relative_gouy_phasor`, l.286-324. -/
def relative_gouy_phasor (s : Meas V) (tname1 tname2 : Place V) (beam_source : Option TName) : Except Err (Cx V) := do
  let src ←
    match beam_source with
    | some b => Except.ok b
    | none => s.first_target
  let tidx_beam ← s.target_idx src
  let x ← s.place_from tidx_beam tname1
  let q_start ← s.beam_at sqrt tidx_beam
  let q_1 ← q_start.propagate_matrix pi sqrt x.2.m
  let q_1 := { q_1 with gouy := ⟨1, 0⟩ }
  let mat ← s.place_between tidx_beam x.2 (first_place x.1 tname1) tname2
  let q_2 ← q_1.propagate_matrix pi sqrt mat.m
  let a ← sqrt (absSq q_2.gouy)
  div q_2.gouy (.num a)

end Meas
end Alm
