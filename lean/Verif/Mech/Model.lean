import Verif.Circuit.Base

/-!
# Model of the mechanical elements

Sources: `/repo/phasor/mechanical/passive.py`, `/repo/phasor/mechanical/elements.py`, `/repo/phasor/mechanical/string.py`
and `/repo/phasor/mechanical/xyz.py`.

A mechanical port carries two waves like an electrical one; `env.Ze` stands for `Zm_termination`.  The sources, the
connection, the fluctuations and the readouts are those of `Verif.Circuit.Model`, whose comments cite the mechanical
classes.  Division by zero is an error here, in numpy it is `nan`.
-/

set_option linter.unusedSectionVars false

namespace Circuit
open Py Inject

variable {P K F : Type} [DecidableEq P] [DecidableEq K] [Field F] [DecidableEq F]
variable (env : Env P K F)

/-! ## springs, dampers and masses -/

/-- `passive.py` l.19-81: `DamperBase`, `SpringBase` and `MassBase`. -/
inductive Mob (F : Type)
  | damper (resistance_Ns_m : F)
  | spring (elasticity_N_m : F) (loss_angle_by_freq : Option (F → F))
  | mass (mass_kg : F)

/-- `mobility_by_freq` of the classes, `passive.py` l.24-25, l.67-72 and l.80-81. -/
def Mob.mobility (freq : F) : Mob F → F
  | damper r => env.i2pi * freq * r
  | spring k (some loss) => k * (1 + env.i * loss freq)
  | spring k none => k
  | mass m => (env.i2pi * freq) ^ 2 * m

/-- `passive.py` l.84-90, `TerminatorMobility.S11_by_freq`. -/
def terminatorM (Y : F) : Except Err F := pdiv (1 - Y * env.Ze) (1 + Y * env.Ze)

/-- `passive.py` l.109-111 and l.121-123, `SeriesMobility`: `S11` and `S22`. -/
def seriesM_r (Y : F) : Except Err F := pdiv 1 (1 + Y * env.Ze * 2)

/-- `passive.py` l.113-119, `SeriesMobility`: `S12` and `S21`. -/
def seriesM_t (Y : F) : Except Err F := pdiv (2 * Y * env.Ze) (1 + Y * env.Ze * 2)

/-! ## cables and strings -/

/-- `elements.py` l.191-192, `Cable.phase_advance`. -/
def mcable_phase (delay_s freq : F) : F := env.exp (-2 * env.i * env.pi * freq * delay_s)

/-- `elements.py` l.207-210: `loss_coeff`; `rt` is the square root. -/
def loss_coeff (rt : F → F) (Loss : F) : F := if Loss ≠ 0 then rt (1 - Loss) else 1

/-- `elements.py` l.206-227, `Cable.system_setup_coupling`. -/
def mcable_setup (delay_s Loss : F) (rt : F → F) (A B : Port P) : Except Err (List (Coupling P K F)) :=
  blocks [per_key env A.i B.o (fun k => .ok (mcable_phase env delay_s (env.freq k) * loss_coeff rt Loss)),
    per_key env B.i A.o (fun k => .ok (mcable_phase env delay_s (env.freq k) * loss_coeff rt Loss))]

/-- `string.py` l.104 (and l.109, l.114, l.119): `Y1`; `eps` is the constant `1e-18`. -/
def zconv_Y1 (eps freq : F) : Except Err F := (pdiv (env.i2pi * freq * 1) env.Ze).map (· + eps)

/-- `string.py` l.105 (and l.110, l.115, l.120): `Y2`. -/
def zconv_Y2 (mobility_Ns_m eps freq : F) : F := env.i2pi * freq * mobility_Ns_m + eps

/-- `string.py` l.103-121, the scattering of `ZConverter`: `num` is the numerator. -/
def zconv_S (mobility_Ns_m eps : F) (num : F → F → F) (freq : F) : Except Err F := do
  let Y1 ← zconv_Y1 env eps freq
  let Y2 := zconv_Y2 env mobility_Ns_m eps freq
  pdiv (num Y1 Y2) (Y1 + Y2)

/-- `string.py` l.96-121, `ZConverter`. -/
def zconv_setup (mobility_Ns_m eps : F) (A B : Port P) : Except Err (List (Coupling P K F)) :=
  setup2 env (zconv_S env mobility_Ns_m eps (fun Y1 Y2 => Y1 - Y2)) (zconv_S env mobility_Ns_m eps (fun Y1 _ => 2 * Y1))
    (zconv_S env mobility_Ns_m eps (fun _ Y2 => 2 * Y2)) (zconv_S env mobility_Ns_m eps (fun Y1 Y2 => Y2 - Y1)) A B

/-! ## levers -/

/-- A numpy array with two indices. -/
structure Arr (F : Type) where
  rows : Nat
  cols : Nat
  val : Nat → Nat → F

/-- `matrix[idx1, idx2]`. -/
def Arr.at (M : Arr F) (i j : Nat) : Except Err F := if i < M.rows ∧ j < M.cols then .ok (M.val i j) else .error .indexError

/-- The couplings of one entry of a matrix; with `skip` zeros are not inserted. -/
def inject_entry (skip : Bool) (pfrom pto : P) (cplg : Except Err F) : Except Err (List (Coupling P K F)) := do
  let css ← (env.keys pfrom).mapM (fun k => do
    let c ← cplg
    pure (if skip && c = 0 then [] else [Coupling.edge (pfrom, k) (pto, k) c]))
  pure css.flatten

/-- `matrix_inject`, `xyz.py` l.313-327 and l.532-544 (`skip`), l.453-463 (without). -/
def matrix_inject (skip : Bool) (ports1 ports2 : List (Port P)) (M : Arr F) : Except Err (List (Coupling P K F)) :=
  blocks (ports1.zipIdx.flatMap (fun p1 => ports2.zipIdx.map (fun p2 =>
    inject_entry env skip p1.1.i p2.1.o (M.at p1.2 p2.2))))

/-- `xyz.py` l.526-530, the matrix of `Moment1D`. -/
def lever_matrix (d : F) : Except Err (Arr F) := do
  let c ← pdiv 1 (d ^ 2 + 2)
  pure ⟨3, 3, fun i j => c * match i, j with
    | 0, 0 => d ^ 2 | 0, 1 => 2 | 0, 2 => 2 * d
    | 1, 0 => 2 | 1, 1 => d ^ 2 | 1, 2 => -2 * d
    | 2, 0 => 2 * d | 2, 1 => -2 * d | 2, 2 => -d ^ 2 + 2
    | _, _ => 0⟩

/-- `xyz.py` l.522-546, `Moment1D.system_setup_coupling`. -/
def lever_setup (d : F) (A B L : Port P) : Except Err (List (Coupling P K F)) := do
  let M ← lever_matrix d
  matrix_inject env true [A, B, L] [A, B, L] M

/-- Three numbers or three ports: the attributes `X`, `Y`, `Z`. -/
structure V3 (α : Type) where
  X : α
  Y : α
  Z : α

def V3.list {α : Type} (v : V3 α) : List α := [v.X, v.Y, v.Z]

/-- `np.dot`. -/
def V3.dot (u v : V3 F) : F := u.X * v.X + u.Y * v.Y + u.Z * v.Z

/-- The entry with an index. -/
def V3.at (v : V3 F) : Nat → F
  | 0 => v.X
  | 1 => v.Y
  | _ => v.Z

/-- `xyz.py` l.290, `np.eye(3)`. -/
def eye3 (i j : Nat) : F := if i = j then 1 else 0

/-- `xyz.py` l.293, `P_d`. -/
def xyz_Pd (dv : V3 F) (i j : Nat) : F := dv.at i * dv.at j / dv.dot dv

/-- `xyz.py` l.295-299, `P_force`. -/
def xyz_Pforce (dv : V3 F) (d : F) (i j : Nat) : F :=
  (match i, j with
    | 0, 1 => dv.Z | 0, 2 => -dv.Y
    | 1, 0 => -dv.Z | 1, 2 => dv.X
    | 2, 0 => dv.Y | 2, 1 => -dv.X
    | _, _ => 0) / d

/-- `xyz.py` l.302, `I_sub`. -/
def xyz_Isub (dv : V3 F) (i j : Nat) : F := eye3 i j - xyz_Pd dv i j

/-- `xyz.py` l.284-345, `XYZMomentDriver.system_setup_coupling`; `d` is `dLsq**.5`. -/
def xyz_setup (dv : V3 F) (d : F) (A B L : V3 (Port P)) : Except Err (List (Coupling P K F)) :=
  let den := d ^ 2 + 2
  let Pd := xyz_Pd dv
  let Pf := xyz_Pforce dv d
  let Pt := fun i j => -xyz_Pforce dv d i j
  let Is := xyz_Isub dv
  let arr (f : Nat → Nat → F) : Arr F := ⟨3, 3, f⟩
  if dv.dot dv = 0 ∨ den = 0 then .error .zeroDivision else
  blocks [matrix_inject env true A.list A.list (arr fun i j => d ^ 2 / den * Is i j),
    matrix_inject env true B.list B.list (arr fun i j => d ^ 2 / den * Is i j),
    matrix_inject env true L.list L.list (arr fun i j => (2 - d ^ 2) / den * Is i j + Pd i j),
    matrix_inject env true A.list L.list (arr fun i j => 2 * d / den * Pt i j),
    matrix_inject env true L.list A.list (arr fun i j => 2 * d / den * Pf i j),
    matrix_inject env true B.list L.list (arr fun i j => -2 * d / den * Pt i j),
    matrix_inject env true L.list B.list (arr fun i j => -2 * d / den * Pf i j),
    matrix_inject env true A.list B.list (arr fun i j => 2 / den * Is i j + Pd i j),
    matrix_inject env true B.list A.list (arr fun i j => 2 / den * Is i j + Pd i j)]

/-- `xyz.py` l.417-488, `MomentDriver.system_setup_coupling`, up to the matrices after the sixth, which are never reached
(`C90_moment_driver_refuted`).  `P_vNvnD` is a number: the dot product of two vectors (l.473). -/
def moment_setup (dv vv : V3 F) (d v root : F) (A : Port P) (B L : V3 (Port P)) : Except Err (List (Coupling P K F)) :=
  let den := d ^ 2 + 2
  let vN : V3 F := ⟨vv.X / v, vv.Y / v, vv.Z / v⟩
  let dN : V3 F := ⟨dv.X / d, dv.Y / d, dv.Z / d⟩
  let Pf : V3 F := ⟨-(-dN.Z * vN.Y + dN.Y * vN.Z), -(dN.Z * vN.X - dN.X * vN.Z), -(-dN.Y * vN.X + dN.X * vN.Y)⟩
  let PFT := fun i j => Pf.at i * Pf.at j
  let r := dN.dot vN
  let dnv : V3 F := ⟨dN.X - vN.X * r, dN.Y - vN.Y * r, dN.Z - vN.Z * r⟩
  let PvNvnD := dnv.dot dnv
  blocks [matrix_inject env false [A] [A] ⟨1, 1, fun _ _ => root * d ^ 2 / den⟩,
    matrix_inject env false B.list B.list ⟨3, 3, fun i j => d ^ 2 / den * PvNvnD + PFT i j⟩,
    matrix_inject env false L.list L.list ⟨3, 3, fun i j => (2 - d ^ 2) / den * PFT i j + (eye3 i j - PFT i j)⟩,
    matrix_inject env false [A] L.list ⟨1, 3, fun _ j => 2 * d / den * Pf.at j⟩,
    matrix_inject env false L.list [A] ⟨3, 1, fun i _ => 2 * d / den * Pf.at i⟩,
    matrix_inject env false B.list L.list ⟨1, 3, fun _ j => -2 * d / den * Pf.at j⟩]

/-! ## the elements -/

/-- The mechanical elements.  The lever in space carries `d = dLsq**.5`, whose square is `dLsq`. -/
inductive Mech (P F : Type) [Field F]
  | one (t : Mob F) (A : Port P)
  | two (t : Mob F) (A B : Port P)
  | cable (delay_s Loss : F) (rt : F → F) (A B : Port P)
  | zconv (mobility_Ns_m eps : F) (A B : Port P)
  | lever (d : F) (A B L : Port P)
  | xyz (dv : V3 F) (d : F) (root : d ^ 2 = dv.dot dv) (A B L : V3 (Port P))

/-- `system_setup_coupling` of the elements. -/
def Mech.setup : Mech P F → Except Err (List (Coupling P K F))
  | one t A => setup1 env (fun f => terminatorM env (t.mobility env f)) A
  | two t A B => setup2 env (fun f => seriesM_r env (t.mobility env f)) (fun f => seriesM_t env (t.mobility env f))
      (fun f => seriesM_t env (t.mobility env f)) (fun f => seriesM_r env (t.mobility env f)) A B
  | cable l Loss rt A B => mcable_setup env l Loss rt A B
  | zconv y eps A B => zconv_setup env y eps A B
  | lever d A B L => lever_setup env d A B L
  | xyz dv d _ A B L => xyz_setup env dv d A B L

end Circuit
