import Verif.Circuit.Net
import Verif.Noise.Model

/-!
# Model of the Johnson noise of the elements

Sources: `/repo/phasor/electronics/passive.py`, `/repo/phasor/electronics/smatrix.py` and
`/repo/phasor/electronics/noise.py`.

Resistances are complex numbers, like all values.  Not modelled: the transformers (`passive.py` l.253-281 and
l.311-339), and switching the noise off with `include_johnson_noise`.
-/

set_option linter.unusedSectionVars false

namespace Noise
open Py Circuit

variable {B K : Type} [DecidableEq B] [DecidableEq K]

/-- A `VoltageFluctuation` with the spectrum of a resistance: its `p_virt.o`, its `port` and the resistance. -/
structure Src (B : Type) where
  virt : Key B
  port : Port (Key B)
  R : ℂ

/-- `johnson_noise` of the elements: `passive.py` l.23-31 (resistors), l.55-63 (inductors) and `smatrix.py` l.88-96
(matched termination): the port and the resistance in `Vsq_Hz_by_freq`. -/
noncomputable def johnson (env : Env (Key B) K ℂ) : Elem (Key B) ℂ → Option (Port (Key B) × ℂ)
  | .one (.resistor R) A => some (A, R)
  | .one (.inductor R _) A => if R ≠ 0 then some (A, R) else none
  | .one .matched A => some (A, npreal env.Ze)
  | .two (.resistor R) A _ => some (A, R)
  | .two (.inductor R _) A _ => if R ≠ 0 then some (A, R) else none
  | _ => none

/-- `Vsq_Hz_by_freq` of the elements (`passive.py` l.28 and l.60, `smatrix.py` l.93). -/
def johnson_Vsq (kB T : ℝ) (R : ℂ) : ℂ := 4 * R * T * kB

/-- `noise.py` l.89-92, `VoltageFluctuation.noise_2pt_expectation`, of the Johnson noise (`sided = 'one-sided'`). -/
noncomputable def johnson_2pt (kB T : ℝ) (c : Pair (Key B) K (Src B)) : ℂ :=
  johnson_Vsq kB T c.nobj.R / conversion true

/-- The calls of `noise_pair_insert` of the fluctuations, `noise.py` l.80-87. -/
def johnson_calls (keys : Key B → List K) (flip : K → K) (js : List (Src B)) : List (Pair (Key B) K (Src B)) :=
  js.flatMap (fun j => pairs keys flip j.virt j)

end Noise
