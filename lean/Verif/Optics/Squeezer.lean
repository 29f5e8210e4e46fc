import Mathlib.Analysis.Real.Sqrt
import Mathlib.Analysis.SpecialFunctions.Log.Basic
import Mathlib.Analysis.SpecialFunctions.Pow.Real
import Verif.Optics.Model

/-!
# Model of the squeezer

Source: `/repo/phasor/optics/EZSqz.py`.

The constructor (l.25-183) takes eight optional parameters and computes the two gains and the loss which the couplings use.
`PTREE_ASSIGN(self).x = v` stores `v` as attribute `x` (base/bases.py l.117-145; the parameter tree is taken to be empty).  Numbers
of the constructor are real; a square root of a negative number and a logarithm of a number that is not positive, where numpy
warns and returns `nan`, are those of Mathlib, the theorems stay away from them.
The couplings (l.245-323) are in the style of `Verif.Optics.Model`.
-/

namespace Optics
open Py Inject Circuit

noncomputable section
open Classical

/-- The parameters of the constructor that describe the squeezing (l.28-35). -/
structure SqzArgs where
  loss : Option ℝ := none
  nonlinear_power_gain : Option ℝ := none
  nonlinear_field_gain : Option ℝ := none
  normalized_nonlinear_field_gain : Option ℝ := none
  rel_variance_1 : Option ℝ := none
  rel_variance_2 : Option ℝ := none
  sqzDB : Option ℝ := none
  antisqzDB : Option ℝ := none

/-- What the constructor stores as `used_...` (l.162-170). -/
structure SqzUsed where
  power_gain : ℝ
  field_gain_1 : ℝ
  field_gain_2 : ℝ
  normalized : ℝ
  loss : ℝ
  rel_variance_1 : Option ℝ
  rel_variance_2 : Option ℝ
  sqzDB : ℝ
  antisqzDB : ℝ

/-- `a / b` for python floats -/
def fdiv (a b : ℝ) : Except Err ℝ := if b = 0 then .error .zeroDivision else .ok (a / b)

/-- `check_all` (l.40-49) -/
def SqzArgs.all (a : SqzArgs) : List (Option ℝ) :=
  [a.nonlinear_power_gain, a.nonlinear_field_gain, a.normalized_nonlinear_field_gain, a.rel_variance_1, a.rel_variance_2, a.sqzDB,
    a.antisqzDB, a.loss]

/-- `assert all(x is None for x in (check_all - set(used)))` -/
def SqzArgs.only (a : SqzArgs) (used : List (Option ℝ)) : Except Err Unit :=
  if ∀ x ∈ a.all, x ∈ used ∨ x = none then .ok () else .error .assertion

/-- The part of the constructor for `subtype == 'variance'` (l.138-147, 153-170), after `rel_variance_1`, `rel_variance_2` are
attributes; `l1`, `l2` are the local variables of these names. -/
def sqz_variance (v1 v2 : ℝ) (l1 l2 : Option ℝ) (sqzDB antisqzDB : ℝ) : Except Err SqzUsed := do
  let V_d ← if v1 = 1 then .ok 0 else do
    let a ← fdiv (v1 - 1) (v2 - 1)
    let b ← fdiv (v2 - 1) (v1 - 1)
    .ok (a - b)
  let power_gain := (2 + Real.sqrt (4 + V_d ^ 2)) / 4
  let field_gain_1 := Real.sqrt power_gain
  let field_gain_2 := Real.sqrt (power_gain - 1)
  let normalized := 1 - 1 / field_gain_1
  let loss ← fdiv (1 - v1 * v2) (2 - v1 - v2)
  .ok ⟨power_gain, field_gain_1, field_gain_2, normalized, loss, l1, l2, sqzDB, antisqzDB⟩

/-- `EZSqz.__init__` (l.38-170).  In the branches of the gains, l.129 reads the attribute `nonlinear_field_gain_1`, which is assigned
nowhere; in the branch of `sqzDB`, l.139 reads the attribute `rel_variance_1`, which is assigned only later. -/
def sqz_init (a : SqzArgs) : Except Err SqzUsed :=
  match a.nonlinear_power_gain, a.nonlinear_field_gain, a.normalized_nonlinear_field_gain, a.rel_variance_1, a.sqzDB with
  | some g, _, _, _, _ => do
    a.only [some g, a.loss]
    .error .attributeError
  | none, some g, _, _, _ => do
    a.only [some g, a.loss]
    let _ ← fdiv 1 g
    .error .attributeError
  | none, none, some g, _, _ => do
    a.only [some g, a.loss]
    let _ ← fdiv 1 (1 - g)
    .error .attributeError
  | none, none, none, some v1, _ => do
    a.only [some v1, a.loss, a.rel_variance_2]
    let v2 ← match a.rel_variance_2 with
      | none => match a.loss with
        | none => fdiv 1 v1
        | some l => fdiv 1 (v1 - l)
      | some v2 => do
        let _ ← fdiv (1 - v1 * v2) (2 - v1 - v2)
        .ok v2
    sqz_variance v1 v2 (some v1) a.rel_variance_2 (-10 * Real.log v1 / Real.log 10) (10 * Real.log v2 / Real.log 10)
  | none, none, none, none, some s => do
    a.only [some s, a.antisqzDB]
    .error .attributeError
  | none, none, none, none, none => .error .runtime

end

variable {P O K F : Type} [DecidableEq P] [DecidableEq O] [DecidableEq K] [AddCommGroup K] [Field F] [StarRing F]
  [DecidableEq F]
variable (env : OEnv P O K F)

/-- An `EZSqz` (l.161-182): its ports, the entries of `Fkey_QC_center`, and the numbers the couplings use. -/
structure EZSqz (P O K F : Type) where
  po_Fr : Port P
  po_Bk : Port P
  LFr : Port P
  LBk : Port P
  okey : O
  ckey : K
  gain_1 : F
  gain_2 : F
  loss : F
  phi_sqz_deg : F

namespace EZSqz
variable (e : EZSqz P O K F)

/-- `kfrom.replace_keys({ClassicalFreqKey: 2*ckey - kckey}, RAISE)` and the same with `LOWER` (l.268-275) -/
def reflect (k : OKey O K) : OKey O K := { k with cls := e.ckey + e.ckey - k.cls, q := k.q.conj }

/-- `phi_cplC` (l.273, 276) -/
def phase : Quantum → F
  | .lower => env.exp (2 * -env.i2pi * e.phi_sqz_deg / 360)
  | .raise => env.exp (2 * env.i2pi * e.phi_sqz_deg / 360)

/-- The couplings of one port (l.264-311), with `tport = tmap[port]` and `lport = lmap[port]`. -/
def port_setup (port tport lport : Port P) : List (Coupling P (Key O K) F) :=
  (env.okeys port.i).flatMap fun k =>
    if k.opt ≠ e.okey then []
    else
      [.edge (on port.i k) (on tport.o k) (e.gain_1 * env.sqrt (1 - e.loss)),
        .edge (on port.i k) (on tport.o (e.reflect k)) (e.phase env k.q * e.gain_2 * env.sqrt (1 - e.loss)),
        .edge (on port.i k) (on lport.o k) (env.sqrt e.loss),
        .edge (on lport.i k) (on port.o k) (env.sqrt e.loss)]

/-- The couplings of one loss port (l.314-322). -/
def loss_setup (port : Port P) : List (Coupling P (Key O K) F) :=
  (env.okeys port.i).map fun k => .edge (on port.i k) (on port.o k) (env.sqrt (1 - e.loss))

/-- `EZSqz.system_setup_coupling` (l.245-323) -/
def setup : List (Coupling P (Key O K) F) :=
  (e.port_setup env e.po_Fr e.po_Bk e.LFr ++ e.port_setup env e.po_Bk e.po_Fr e.LBk) ++
    (e.loss_setup env e.LFr ++ e.loss_setup env e.LBk)

end EZSqz

end Optics
