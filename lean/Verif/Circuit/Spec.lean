import Mathlib.Data.Finset.Filter
import Verif.Circuit.Model

/-!
# The laws of the elements

Voltages and currents are those of the waves: `V = i + o`, and the current flowing into the element
`I = (i - o) / Ze`.  The laws are the usual ones and refer neither to waves nor to scattering.
-/

set_option linter.unusedSectionVars false

namespace Circuit
open Py Inject

variable {P K F : Type} [DecidableEq P] [DecidableEq K] [Field F] [DecidableEq F]

/-- The ports of a mechanical element. -/
def Mech.ports : Mech P F → List (Port P)
  | .one _ A => [A]
  | .two _ A B => [A, B]
  | .cable _ _ _ A B => [A, B]
  | .zconv _ _ A B => [A, B]
  | .lever _ A B L => [A, B, L]
  | .xyz _ _ _ A B L => [A.X, A.Y, A.Z, B.X, B.Y, B.Z, L.X, L.Y, L.Z]

/-- The stiffness of a damper, a spring or a mass: the force for a unit displacement, with `s' = 2πi f`. -/
def Mob.Stiffness (env : Env P K F) (k : K) : Mob F → F
  | .damper r => r * (env.i2pi * env.freq k)
  | .spring c none => c
  | .spring c (some loss) => c + env.i * loss (env.freq k) * c
  | .mass m => m * (env.i2pi * env.freq k) ^ 2

/-- The law of a mechanical element for displacements `D` and forces `G` on its ports.  For the levers `D` of the ports
`A` and `B` are displacements, of `L` rotations, and `G` of `L` torques. -/
def Mech.Law (env : Env P K F) (k : K) (D G : Port P → F) : Mech P F → Prop
  | .one t A => G A = t.Stiffness env k * D A
  | .two t A B => G A = t.Stiffness env k * (D A - D B) ∧ G A + G B = 0
  | .cable l Loss rt A B =>
    let e := env.exp (-2 * env.i * env.pi * env.freq k * l) * (if Loss = 0 then 1 else rt (1 - Loss))
    D B - env.Ze * G B = e * (D A + env.Ze * G A) ∧ D A - env.Ze * G A = e * (D B + env.Ze * G B)
  | .zconv y eps A B => D A = D B ∧
    (env.i2pi * env.freq k / env.Ze + eps) * G A + (env.i2pi * env.freq k * y + eps) * G B = 0
  | .lever d A B L => D A - D B = d * D L ∧ G A + G B = 0 ∧ G L = -d * G A
  | .xyz dv _ _ A B L =>
    (D A.X - D B.X = dv.Y * D L.Z - dv.Z * D L.Y ∧ D A.Y - D B.Y = dv.Z * D L.X - dv.X * D L.Z ∧
      D A.Z - D B.Z = dv.X * D L.Y - dv.Y * D L.X) ∧
    (G A.X + G B.X = 0 ∧ G A.Y + G B.Y = 0 ∧ G A.Z + G B.Z = 0) ∧
    (G L.X = dv.Y * G A.Z - dv.Z * G A.Y ∧ G L.Y = dv.Z * G A.X - dv.X * G A.Z ∧ G L.Z = dv.X * G A.Y - dv.Y * G A.X)

/-- The ports of an element. -/
def Elem.ports : Elem P F → List (Port P)
  | .one _ A => [A]
  | .two _ A B => [A, B]
  | .connection ps => ps
  | .cable _ A B => [A, B]
  | .voltageSource _ _ A => [A]
  | .currentSource _ _ A => [A]
  | .voltageSourceBalanced _ _ _ _ A B => [A, B]
  | .currentSourceBalanced _ _ A B => [A, B]
  | .opAmp _ p n out => [p, n, out]
  | .mech m => m.ports

/-- The signal ports an element listens to. -/
def Elem.signals : Elem P F → List P
  | .voltageSource _ V _ => [V]
  | .currentSource _ p _ => [p]
  | .voltageSourceBalanced _ _ V p _ _ => [V, p]
  | .currentSourceBalanced _ p _ _ => [p]
  | _ => []

/-- The law of an element at the key `k`, for voltages `V` and currents `I` at its ports and signals `s`.
`s' = 2πi f` is the Laplace variable. -/
def Elem.Law (env : Env P K F) (k : K) (V I : Port P → F) (s : P → F) : Elem P F → Prop
  | .one (.resistor R) A => V A = R * I A
  | .one (.capacitor C) A => I A = env.i2pi * env.freq k * C * V A
  | .one (.inductor R L) A => V A = (R + env.i2pi * env.freq k * L) * I A
  | .one .matched A => V A = env.Ze * I A
  | .one .opened A => I A = 0
  | .one .shorted A => V A = 0
  | .two (.resistor R) A B => V A - V B = R * I A ∧ I A + I B = 0
  | .two (.capacitor C) A B => I A = env.i2pi * env.freq k * C * (V A - V B) ∧ I A + I B = 0
  | .two (.inductor R L) A B => V A - V B = (R + env.i2pi * env.freq k * L) * I A ∧ I A + I B = 0
  | .connection ps => (∀ p ∈ ps, ∀ q ∈ ps, V p = V q) ∧ (ps.map I).sum = 0
  | .cable l A B =>
    V B - env.Ze * I B = env.exp (-2 * env.i * env.pi * env.freq k * l) * (V A + env.Ze * I A) ∧
    V A - env.Ze * I A = env.exp (-2 * env.i * env.pi * env.freq k * l) * (V B + env.Ze * I B)
  | .voltageSource V_DC v A => V A = s v + if k = env.dc then V_DC else 0
  | .currentSource I_DC p A => I A = -(s p + if k = env.dc then I_DC else 0)
  | .voltageSourceBalanced V_DC I_DC v p A B =>
    V A - V B = (s v + if k = env.dc then V_DC else 0) ∧ I A + I B = -(s p + if k = env.dc then I_DC else 0)
  | .currentSourceBalanced I_DC p A B =>
    I A = -(s p + if k = env.dc then I_DC else 0) ∧ I B = -(s p + if k = env.dc then I_DC else 0)
  | .opAmp g p n out => V out = g (env.freq k) * (V p - V n) ∧ I p = 0 ∧ I n = 0
  | .mech m => m.Law env k V I

end Circuit
