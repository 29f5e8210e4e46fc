import Verif.Layout.Model

/-!
# Matrices to a place along the layout: `matrix_target_to_z_single`

`phasor/alm/{system,bases,space,mounts}.py`.  The place `z_m` is a number; arrays of places (`matrix_target_to_z`,
`matrix_target_to_z_linsorted`) are left out.  The argument `invert` is left out: no caller passes it, so it is False everywhere.
`matrix_between` of a part is asked as if nothing was stored before (by C38 what is stored does not change the answer).
`np.searchsorted` is the number of leading entries below the value: `positions_list` is sorted.
-/

namespace Alm
open Py

variable {V : Type} [Field V] [LinearOrder V]

/-- `np.searchsorted(pos, z, side = 'right')` of a sorted list. -/
def search_right (pos : List V) (z : V) : Nat := (pos.takeWhile (fun p => p ≤ z)).length

/-- `np.searchsorted(pos, z, side = 'left')` of a sorted list. -/
def search_left (pos : List V) (z : V) : Nat := (pos.takeWhile (fun p => p < z)).length

/-- `positions_list[i]`. -/
def pos_at (pos : List V) (i : Nat) : Except Err V :=
  match pos[i]? with
  | some p => .ok p
  | none => .error .indexError

namespace Comp

/-- `System.matrix_at_single`, system.py l.395-412 (`offset_m` is 0, l.45-48); `sub i` is `self.filled_list[i].matrix_target_to_z_single`.
`component_matrix_list`, l.236-244, computes the matrices of all components. -/
def at_single (pos : List V) (filled : List (Comp V)) (sub : Nat → Tgt → V → Except Err (Arr V)) (z : V) : Except Err (Arr V) := do
  let full ← matrices filled .eye
  match search_right pos z with
  | 0 => .ok (.mx (matrix_space z))
  | idx + 1 =>
    if idx < filled.length then do
      let mat ← matrices (filled.take idx) .eye
      let p ← pos_at pos idx
      let m ← sub idx TargetLeft (z - p)
      .ok (m.mul mat)
    else do
      let p ← pos_at pos (pos.length - 1)
      .ok ((Arr.mx (matrix_space (z - p))).mul full)

/-- `System.matrix_target_to_z_single`, system.py l.324-378. -/
def sys_to_z (pos : List V) (filled : List (Comp V)) (sub : Nat → Tgt → V → Except Err (Arr V)) (tidx1 : Tgt) (z : V) :
    Except Err (Arr V) :=
  if tidx1 = TargetLeft then at_single pos filled sub z
  else if tidx1 = TargetRight then do
    let mat ← at_single pos filled sub z
    let mat_full ← matrices filled .eye
    let i ← mat_full.inv
    .ok (mat.mul i)
  else
    match tidx1 with
    | [] => .error .indexError
    | .idx i :: inner =>
      match filled[i]? with
      | none => .error .indexError
      | some comp => do
        let pos_L ← pos_at pos i
        let pos_R ← pos_at pos (i + 1)
        if z < pos_L then do
          let mat ← (matrix_between comp inner TargetLeft []).1
          match search_left pos z with
          | idx + 1 => do
            let mat ← matrices_inv ((filled.take i).drop (idx + 1)) mat
            let p ← pos_at pos idx
            let m ← sub idx TargetRight (z - p)
            .ok (m.mul mat)
          | 0 => do
            let mat ← matrices_inv (filled.take i) mat
            let p ← pos_at pos 0
            .ok ((Arr.mx (matrix_space (z - p))).mul mat)
        else if z > pos_R then do
          let mat ← (matrix_between comp inner TargetRight []).1
          let idx := search_right pos z - 1
          if idx < filled.length then do
            let mat ← matrices ((filled.take idx).drop (i + 1)) mat
            let p ← pos_at pos idx
            let m ← sub idx TargetLeft (z - p)
            .ok (m.mul mat)
          else do
            let mat ← matrices (filled.drop (i + 1)) mat
            let p ← pos_at pos (pos.length - 1)
            .ok ((Arr.mx (matrix_space (z - p))).mul mat)
        else sub i inner (z - pos_L)
    | _ :: _ => .error .typeError

mutual
/-- `matrix_target_to_z_single`: `ThinBase`, bases.py l.160-171; `Space`, space.py l.57-77; `System`; `MountBase`, mounts.py l.143-171. -/
def to_z : Comp V → Tgt → V → Except Err (Arr V)
  | .thin t rev, tidx1, z =>
    if z ≠ 0 then .error .runtime
    else if tidx1 = TargetRight then matrix_inv (.thin t rev)
    else matrix (.thin t rev)
  | .space L n, tidx1, z =>
    if z < 0 ∨ z > L then .error .runtime
    else if tidx1 = TargetRight then do
      let x ← pydiv (z - L) n
      .ok (.mx ⟨1, x, 0, 1⟩)
    else do
      let x ← pydiv z n
      .ok (.mx ⟨1, x, 0, 1⟩)
  | .sys pos filled, tidx1, z => sys_to_z pos filled (fun i t z => to_z_at filled i t z) tidx1 z
  | .mount sub, tidx1, z =>
    if tidx1 = TargetLeft then do
      let m ← to_z sub TargetLeft z
      .ok (m.mul (.mx Mat.eye))
    else if tidx1 = TargetRight then do
      let m ← to_z sub TargetRight z
      .ok (m.mul (.mx Mat.eye))
    else
      match tidx1 with
      | [] => .error .indexError
      | .idx 0 :: _ => .error .notImplemented
      | _ :: inner => to_z sub inner z

/-- `comps[i].matrix_target_to_z_single`. -/
def to_z_at : List (Comp V) → Nat → Tgt → V → Except Err (Arr V)
  | [], _, _, _ => .error .indexError
  | comp :: _, 0, tidx1, z => to_z comp tidx1 z
  | _ :: comps, i + 1, tidx1, z => to_z_at comps i tidx1 z
end

end Comp
end Alm
