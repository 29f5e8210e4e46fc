import Verif.Cplx.Model

/-!
# `phasor/alm/beam_param.py`, `phasor/alm/utils.py`

Gaussian beams over exact numbers: `V` is an ordered field, `pi` stands for `np.pi` and `sqrt` for the square root, which raises
`ValueError` for negative numbers (as `math.sqrt` does for floats; numpy scalars give `nan` there).  Division by zero raises (numpy
scalars give `inf` or `nan`).  Array valued beams, formatting and `beam_shape_1D` (which calls `complex()` on a beam, and
`__complex__` returns a `Complex`, a `TypeError`) are left out.
-/

namespace Alm
open Py Cplx

variable {V : Type}

/-- A 2x2 `np.matrix`. -/
structure Mat (V : Type) where
  a : V
  b : V
  c : V
  d : V
  deriving DecidableEq, Repr

/-- `ComplexBeamParam`, l.10-36: `value`, `wavelen`, `gouy_phasor` (a builtin complex, or the class attribute 1). -/
structure Beam (V : Type) where
  value : Cx V
  wavelen : V
  gouy : Cx V
  deriving DecidableEq, Repr

variable [Field V] [DecidableEq V]

namespace Mat

/-- Product of `np.matrix`. -/
def mul (m n : Mat V) : Mat V :=
  ⟨m.a * n.a + m.b * n.c, m.a * n.b + m.b * n.d, m.c * n.a + m.d * n.c, m.c * n.b + m.d * n.d⟩

/-- `np.eye(2)`. -/
def eye : Mat V := ⟨1, 0, 0, 1⟩

/-- `m**(-1)`; numpy raises `LinAlgError` for a singular matrix. -/
def inv (m : Mat V) : Except Err (Mat V) :=
  let det := m.a * m.d - m.b * m.c
  if det = 0 then .error .runtime else .ok ⟨m.d / det, -m.b / det, -m.c / det, m.a / det⟩

end Mat

/-- `matrix_space`, utils.py l.37-41. -/
def matrix_space (L : V) : Mat V := ⟨1, L, 0, 1⟩

/-- `x / y` of numbers. -/
def pydiv (x y : V) : Except Err V := if y = 0 then .error .zeroDivision else .ok (x / y)

/-- The lens in `matrix_focus`, utils.py l.45-54. -/
def lens : Option V → Except Err (Mat V)
  | none => .ok ⟨1, 0, 0, 1⟩
  | some f => do
    let c ← pydiv (-1) f
    return ⟨1, 0, c, 1⟩

/-- `matrix_focus`, utils.py l.44-57. -/
def matrix_focus (f : Option V) (dL : V) : Except Err (Mat V) := do
  let mat ← lens f
  return if dL = 0 then mat else Mat.mul (Mat.mul (matrix_space dL) mat) (matrix_space (-dL))

/-- `matrix_telescope`, utils.py l.60-63. -/
def matrix_telescope (L1 R dL : V) : Except Err (Mat V) := do
  let L2 := R * L1
  let m2 ← matrix_focus (some (-L2)) 0
  let m1 ← matrix_focus (some L1) 0
  return Mat.mul (Mat.mul m2 (matrix_space (L1 - L2 - dL))) m1

/-- `eigen_q`, utils.py l.66-72. -/
def eigen_q [LinearOrder V] (sqrt : V → Except Err V) (m : Mat V) : Except Err (Cx V) := do
  let re ← pydiv (m.a - m.d) (2 * m.c)
  let s ← sqrt (-((m.d - m.a) * (m.d - m.a) + 4 * m.b * m.c))
  let im ← pydiv s (2 * (if m.c < 0 then -m.c else m.c))
  return ⟨re, im⟩

namespace Beam

/-- `nominal_wavelen`, l.22. -/
def nominal_wavelen : V := 1064 / 1000000000

/-- `__init__`, l.25-36: the defaults. -/
def init (value : Cx V) (wavelen : Option V) (gouy : Option (Cx V)) : Beam V :=
  ⟨value, wavelen.getD nominal_wavelen, gouy.getD ⟨1, 0⟩⟩

/-- `from_Z_W0`, l.38-53. -/
def from_Z_W0 (pi : V) (Z W0 : V) (wavelen : Option V) (gouy : Option (Cx V)) : Except Err (Beam V) := do
  let wavelen := wavelen.getD nominal_wavelen
  let ZR ← pydiv (pi * (W0 * W0)) wavelen
  return init ⟨Z, ZR⟩ (some wavelen) gouy

/-- `from_W_R`, l.55-77. -/
def from_W_R (pi : V) (W R : V) (wavelen : Option V) (gouy : Option (Cx V)) : Except Err (Beam V) := do
  let wavelen := wavelen.getD nominal_wavelen
  if R ≠ 0 then
    let re ← pydiv 1 R
    let im ← pydiv wavelen (pi * (W * W))
    let q ← rdiv ⟨re, -im⟩ (.num 1)
    return init q (some wavelen) gouy
  else
    let ZR ← pydiv (pi * (W * W)) wavelen
    return init ⟨0, ZR⟩ (some wavelen) gouy

/-- `from_Z_ZR`, l.79-91. -/
def from_Z_ZR (Z ZR : V) (wavelen : Option V) (gouy : Option (Cx V)) : Beam V :=
  init ⟨Z, ZR⟩ wavelen gouy

/-- `from_dRad_Z`, l.93-109. -/
def from_dRad_Z (pi : V) (theta Z : V) (wavelen : Option V) (gouy : Option (Cx V)) : Except Err (Beam V) := do
  let wavelen := wavelen.getD nominal_wavelen
  let W0 ← pydiv (2 * wavelen) (pi * theta)
  from_Z_W0 pi Z W0 (some wavelen) gouy

/-- `Z`, l.116-118. -/
def Z (q : Beam V) : V := q.value.re

/-- `ZR`, l.120-122. -/
def ZR (q : Beam V) : V := q.value.im

/-- `W0`, l.111-114. -/
def W0 (pi : V) (sqrt : V → Except Err V) (q : Beam V) : Except Err V := do
  let x ← pydiv (q.wavelen * q.value.im) pi
  sqrt x

/-- `W`, l.129-131. -/
def W (pi : V) (sqrt : V → Except Err V) (q : Beam V) : Except Err V := do
  let iq ← rdiv q.value (.num 1)
  let x ← pydiv (-q.wavelen) (iq.im * pi)
  sqrt x

/-- `R_inv`, l.137-139. -/
def R_inv (q : Beam V) : Except Err V := do
  let iq ← rdiv q.value (.num 1)
  return iq.re

/-- `R`, l.133-135. -/
def R (q : Beam V) : Except Err V := do
  let iq ← rdiv q.value (.num 1)
  pydiv 1 iq.re

/-- `divergence_rad`, l.141-143. -/
def divergence_rad (pi : V) (sqrt : V → Except Err V) (q : Beam V) : Except Err V := do
  let w ← q.W0 pi sqrt
  pydiv (2 * q.wavelen) (pi * w)

/-- `k`, l.145-147. -/
def k (pi : V) (q : Beam V) : Except Err V := pydiv (2 * pi) q.wavelen

/-- `cplg02`, l.124-127. -/
def cplg02 (q : Beam V) : Except Err (Cx V) := do
  let u ← div q.value (.cx (conjugate q.value))
  let v ← div u (.num q.ZR)
  let g ← div q.gouy (.cx (conjugate q.gouy))
  return mul v (.cx g)

/-- `sensitivity_matrix`, l.149-153. -/
def sensitivity_matrix (pi : V) (q : Beam V) : Except Err (Mat V) := do
  let ZR := q.ZR
  let Z := -q.Z
  let k ← q.k pi
  let f ← pydiv (-k) (4 * ZR)
  return ⟨f * 1, f * Z, f * Z, f * (Z * Z + ZR * ZR)⟩

/-- `sensitivity_matrix_sqrt`, l.155-166; `sqrt` stands for `**.5`. -/
def sensitivity_matrix_sqrt (pi : V) (sqrt : V → Except Err V) (q : Beam V) : Except Err (Mat V) := do
  let SM ← q.sensitivity_matrix pi
  let a := -SM.a
  let b := -SM.b
  let c := -SM.c
  let d := -SM.d
  let det := a * d - b * c
  let trace := a + d
  let s ← sqrt det
  let t ← sqrt (trace + 2 * s)
  let x ← pydiv (a + s) t
  let y ← pydiv b t
  let z ← pydiv c t
  let w ← pydiv (d + s) t
  return ⟨x, y, z, w⟩

/-- `propagate_matrix`, l.168-183. -/
def propagate_matrix (pi : V) (sqrt : V → Except Err V) (q : Beam V) (m : Mat V) : Except Err (Beam V) := do
  let determinant := m.a * m.d - m.b * m.c
  let tanPhiA := q.wavelen * m.b
  let r ← q.R_inv
  let w ← q.W pi sqrt
  let tanPhiB := (m.a + m.b * r) * pi * (w * w)
  let v ← div (add (mul q.value (.num m.a)) (.num m.b)) (.cx (add (mul q.value (.num m.c)) (.num m.d)))
  return init v (some (q.wavelen * determinant)) (some (mul q.gouy (.cx ⟨tanPhiB, tanPhiA⟩)))

/-- `propagate_distance`, l.185-200. -/
def propagate_distance (pi : V) (sqrt : V → Except Err V) (q : Beam V) (L : V) : Except Err (Beam V) := do
  let a : V := 1
  let b := L
  let c : V := 0
  let d : V := 1
  let determinant := a * d - b * c
  let tanPhiA := q.wavelen * b
  let r ← q.R_inv
  let w ← q.W pi sqrt
  let tanPhiB := (a + b * r) * pi * (w * w)
  let v ← div (add (mul q.value (.num a)) (.num b)) (.cx (add (mul q.value (.num c)) (.num d)))
  return init v (some (q.wavelen * determinant)) (some (mul q.gouy (.cx ⟨tanPhiB, tanPhiA⟩)))

/-- `overlap_with`, l.205-209. -/
def overlap_with (pi : V) (sqrt : V → Except Err V) (q o : Beam V) : Except Err (Cx V) := do
  let u ← div (mul q.value (.cx (conjugate o.value))) (.cx (sub (conjugate o.value) (.cx q.value)))
  let wo ← o.W pi sqrt
  let wq ← q.W pi sqrt
  let f ← pydiv (2 * q.wavelen) (wo * wq * pi)
  return mul (mul u (.num f)) (.cx ⟨0, -1⟩)

/-- `reversed`, l.231-236. -/
def reversed (q : Beam V) : Beam V :=
  init (neg (conjugate q.value)) (some q.wavelen) (some q.gouy)

end Beam

end Alm
