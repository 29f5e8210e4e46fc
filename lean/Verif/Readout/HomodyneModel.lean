import Mathlib.Analysis.SpecialFunctions.Pow.Complex
import Mathlib.Analysis.SpecialFunctions.Trigonometric.Inverse
import Mathlib.Analysis.SpecialFunctions.Complex.Arg
import Mathlib.Analysis.SpecialFunctions.Sqrt
import Mathlib.LinearAlgebra.Matrix.NonsingularInverse
import Verif.Noise.Model
import Verif.Readout.Model

/-!
# Model of the homodyne readout

Source: `/repo/phasor/readouts/homodyne_AC.py`.

One frequency point, so the functions which move the frequency axes (l.16-25) do nothing.  `0` is the quadrature `ps_In`, `1` is
`Q`.  Of the two definitions of `AC_optimal_readout_deg` (l.256-280 and l.282-286) python keeps the second.
Not modelled: the signal matrix and its ellipse (l.215-254, the same formulas), `AC_CSD_ellipse_normSN` (l.203-213),
`homodyne_SNR` (l.70-71, reads a missing attribute), and the normalised matrices.
-/

set_option linter.unusedSectionVars false

namespace Readout
open Py Noise Inject

/-- The entries of a matrix of quadratures, `np.array([[II, IQ], [QI, QQ]])`. -/
abbrev Mat2 (F : Type) := Matrix (Fin 2) (Fin 2) F

/-- l.121-128: the matrix of the cross spectral densities; `NoiseReadout` fills all entries of its `port_map`
(l.107-111 of `noise.py`). -/
def CSD_mat {O : Type} (b : Builds O (Fin 2)) : Mat2 ℂ := fun i j => (Dict.get? b.nsums (i, j)).getD 0

/-- l.87-96: the matrix of one source; `CSD_by_source` has `defaultdict`s. -/
def CSD_mat_of (d : Dict (Fin 2 × Fin 2) ℂ) : Mat2 ℂ := fun i j => (Dict.get? d (i, j)).getD 0

/-- `phase_deg * np.pi / 180`. -/
noncomputable def rad (phase_deg : ℝ) : ℝ := phase_deg * Real.pi / 180

/-- l.106-116, `rotation_matrix_back`. -/
noncomputable def rotation_matrix (phase_deg : ℝ) : Mat2 ℂ :=
  !![(Real.cos (rad phase_deg) : ℂ), (Real.sin (rad phase_deg) : ℂ);
    (-Real.sin (rad phase_deg) : ℂ), (Real.cos (rad phase_deg) : ℂ)]

/-- l.130-132 (and l.100-102): the two sums of `np.einsum`; the second one multiplies by the transpose. -/
noncomputable def rotate (phase_deg : ℝ) (N : Mat2 ℂ) : Mat2 ℂ :=
  fun i k => ∑ j, (∑ l, rotation_matrix phase_deg i l * N l j) * rotation_matrix phase_deg k j

/-- l.118-139, `AC_CSD_IQ`. -/
noncomputable def AC_CSD_IQ (phase_deg : ℝ) (N : Mat2 ℂ) : Mat2 ℂ := rotate phase_deg N

/-- l.81-83, `AC_PSD`. -/
noncomputable def homodyne_PSD (phase_deg : ℝ) (N : Mat2 ℂ) : ℂ := AC_CSD_IQ phase_deg N 0 0

/-- l.85-104, `AC_PSD_by_source`. -/
noncomputable def homodyne_PSD_by_source {O : Type} (phase_deg : ℝ) (b : Builds O (Fin 2)) : Dict O ℂ :=
  b.ncollect.map (fun e => (e.1, rotate phase_deg (CSD_mat_of e.2) 0 0))

/-- l.77-79, `AC_ASD`: the principal root. -/
noncomputable def homodyne_ASD (phase_deg : ℝ) (N : Mat2 ℂ) : ℂ := homodyne_PSD phase_deg N ^ (1 / 2 : ℂ)

/-- l.308-316, `AC_sensitivity_IQ`; `s` are the values of `_AC_sensitivity` at the two ports. -/
noncomputable def AC_sensitivity_IQ (phase_deg : ℝ) (s : Fin 2 → ℂ) : Fin 2 → ℂ :=
  ![Real.cos (rad phase_deg) * s 0 + Real.sin (rad phase_deg) * s 1,
    -Real.sin (rad phase_deg) * s 0 + Real.cos (rad phase_deg) * s 1]

/-- l.66-68, `AC_sensitivity`. -/
noncomputable def homodyne_sensitivity (phase_deg : ℝ) (s : Fin 2 → ℂ) : ℂ := AC_sensitivity_IQ phase_deg s 0

/-- l.73-75, `AC_noise_limited_sensitivity`. -/
noncomputable def AC_noise_limited_sensitivity (phase_deg : ℝ) (N : Mat2 ℂ) (s : Fin 2 → ℂ) : Except Err ℂ :=
  pdiv (homodyne_ASD phase_deg N) (‖homodyne_sensitivity phase_deg s‖ : ℂ)

/-- `np.linalg.inv`; a singular matrix raises `LinAlgError`, here `valueError`. -/
noncomputable def linalg_inv {F : Type} [Field F] [DecidableEq F] (A : Mat2 F) : Except Err (Mat2 F) :=
  if A.det = 0 then .error .valueError else .ok A⁻¹

/-- `np.real` of a matrix. -/
def re_mat (N : Mat2 ℂ) : Mat2 ℝ := fun i j => (N i j).re

/-- l.149-157, `AC_noise_limited_sensitivity_optimal`. -/
noncomputable def AC_noise_limited_sensitivity_optimal (phase_deg : ℝ) (N : Mat2 ℂ) (s : Fin 2 → ℂ) : Except Err ℂ := do
  let arr ← linalg_inv (re_mat (AC_CSD_IQ phase_deg N))
  let IQ := AC_sensitivity_IQ phase_deg s
  let v := ∑ k, (∑ j, IQ j * (arr j k : ℂ)) * star (IQ k)
  pdiv 1 (v ^ (1 / 2 : ℂ))

/-- What the ellipses return (in radians; `deg` is the same in degrees). -/
structure Ellipse where
  min : ℝ
  max : ℝ
  rad : ℝ

/-- l.169-175: the eigenvalues and the angle for a real matrix; `ratio` is used when `max_eig ≠ min_eig` only, numpy
gives `nan` otherwise. -/
noncomputable def ellipse (A : Mat2 ℝ) : Ellipse :=
  let rtDisc := Real.sqrt ((A 0 0 - A 1 1) ^ 2 + 4 * (A 0 1 * A 1 0))
  let min_eig := (A 0 0 + A 1 1 - rtDisc) / 2
  let max_eig := (A 0 0 + A 1 1 + rtDisc) / 2
  let disc := if A 0 0 - min_eig < 0 then 0 else A 0 0 - min_eig
  let ratio := ((if A 1 0 > 0 then 1 else 0) * 2 - 1) * Real.sqrt (disc / (max_eig - min_eig))
  ⟨min_eig, max_eig, Real.pi - Real.arccos ratio⟩

/-- l.167-189, `AC_CSD_ellipse`. -/
noncomputable def AC_CSD_ellipse (phase_deg : ℝ) (N : Mat2 ℂ) : Ellipse := ellipse (re_mat (AC_CSD_IQ phase_deg N))

/-- l.177, `Imin`. -/
noncomputable def Imin (phase_deg : ℝ) (N : Mat2 ℂ) : Except Err ℝ := do
  let A := re_mat (AC_CSD_IQ phase_deg N)
  let q ← pdiv (|A 1 0| ^ 2) (A 1 1)
  pure (A 0 0 - q)

/-- l.178, `Qmin`. -/
noncomputable def Qmin (phase_deg : ℝ) (N : Mat2 ℂ) : Except Err ℝ := do
  let A := re_mat (AC_CSD_IQ phase_deg N)
  let q ← pdiv (|A 1 0| ^ 2) (A 0 0)
  pure (A 1 1 - q)

/-- l.282-286, `AC_optimal_readout_deg`; `np.arctan2(y, x)` is the argument of `x + i y`. -/
noncomputable def AC_optimal_readout_deg (phase_deg : ℝ) (N : Mat2 ℂ) (s : Fin 2 → ℂ) : Except Err ℝ := do
  let inv ← linalg_inv (AC_CSD_IQ phase_deg N)
  let S := fun i => ∑ j, inv i j * AC_sensitivity_IQ phase_deg s j
  pure (Complex.arg ⟨‖S 0‖, ‖S 1‖⟩ * 180 / Real.pi)

/-- l.288-299, `optimal_readout`: the phase of the new readout. -/
noncomputable def optimal_readout (phase_deg : ℝ) (N : Mat2 ℂ) (s : Fin 2 → ℂ) : Except Err ℝ := do
  pure (phase_deg + (← AC_optimal_readout_deg phase_deg N s))

end Readout
