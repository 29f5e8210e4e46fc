import Verif.Noise.JohnsonModel

/-!
# Model of the thermal noise of mechanical elements

Sources: `/repo/phasor/mechanical/passive.py` and `/repo/phasor/mechanical/noise.py`.

Not modelled: switching the noise off with `include_johnson_noise`.
-/

set_option linter.unusedSectionVars false

namespace Noise
open Py Circuit

variable {B K : Type} [DecidableEq B] [DecidableEq K]

/-- A `DisplacementFluctuation` of an element: its `p_virt.o`, its `port` and the element. -/
structure MSrc (B : Type) where
  virt : Key B
  port : Port (Key B)
  mob : Mob ℂ

/-- `johnson_noise` of the elements, `passive.py` l.29-37 (dampers) and l.55-65 (springs): none for springs without loss
angle and for the masses (l.75-81). -/
def Mob.noisy : Mob ℂ → Bool
  | .damper _ => true
  | .spring _ (some _) => true
  | .spring _ none => false
  | .mass _ => false

/-- The fluctuation of an element, at its port `pm_A`. -/
def mjohnson : Elem (Key B) ℂ → Option (Port (Key B) × Mob ℂ)
  | .mech (.one t A) => if Mob.noisy t then some (A, t) else none
  | .mech (.two t A _) => if Mob.noisy t then some (A, t) else none
  | _ => none

/-- `dsq_Hz_by_freq`, `passive.py` l.34 and l.62 (and `noise.py` l.47-49). -/
noncomputable def mjohnson_dsq (env : Env (Key B) K ℂ) (kB T : ℝ) (freq : ℂ) : Mob ℂ → ℂ
  | .damper r => 4 * T * kB / (r * (2 * env.pi * freq) ^ 2)
  | .spring c (some loss) => 4 * T * kB * loss freq / (2 * env.pi * freq * c)
  | _ => 0

/-- `noise.py` l.89-92, `DisplacementFluctuation.noise_2pt_expectation`, of this noise (`sided = 'one-sided'`). -/
noncomputable def mjohnson_2pt (env : Env (Key B) K ℂ) (kB T : ℝ) (c : Pair (Key B) K (MSrc B)) : ℂ :=
  mjohnson_dsq env kB T (env.freq c.pk1.2) c.nobj.mob / conversion true

/-- The calls of `noise_pair_insert` of the fluctuations, `noise.py` l.80-87. -/
def mjohnson_calls (keys : Key B → List K) (flip : K → K) (js : List (MSrc B)) : List (Pair (Key B) K (MSrc B)) :=
  js.flatMap (fun j => pairs keys flip j.virt j)

end Noise
