import Mathlib.Algebra.Group.Basic
import Mathlib.Algebra.Order.Group.Abs
import Verif.Signal.StateSpace
import Verif.Signal.Filter

/-!
# Model of the elements of the signal domain

Sources: `/repo/phasor/signals/{siso_filter,amplifiers,mixer,RMS,signal_generator}.py`.

The couplings an element inserts are listed in the order of the insertions.  A signal key is a `DictKey` with the single
entry `ClassicalFreqKey`, so it is identified with its frequency key; frequency keys are an additive group `K`
(C01: the program's `+`, `-` and unary `-` obey the laws of a group on keys without zero entries, and `DC_is` holds of the
zero key alone).  `port_set_get` is a list of keys per port, in any order.
-/

namespace Signal
open Py Inject Circuit

variable {P K R F : Type} [DecidableEq P] [DecidableEq K] [AddCommGroup K] [AddCommGroup R] [LinearOrder R]
  [Field F] [StarRing F] [DecidableEq F]

/-- What the elements read from the system. -/
structure SEnv (P K R F : Type) where
  /-- `port_set_get` -/
  keys : P → List K
  /-- `reject_classical_frequency_order` (system.py l.227-245) -/
  reject : K → Bool
  /-- `classical_frequency_extract` (system.py l.272-277), a real number -/
  freq : K → R
  /-- `classical_frequency_extract_center` (system.py l.279-286) -/
  center : K → R
  /-- a real number as a number -/
  cast : R → F
  /-- `symbols.i` -/
  i : F
  /-- `symbols.math.exp` -/
  exp : F → F

variable (env : SEnv P K R F)

/-- `np.sign` -/
def sign (r : R) : F := if 0 < r then 1 else if r < 0 then -1 else 0

/-! ## filters -/

/-- A `TransferFunctionSISOBase` (siso_filter.py l.22-45) with its transfer function; no `F_cutoff` is infinity. -/
structure Siso (P R F : Type) where
  no_DC : Bool
  F_cutoff : Option R
  F_cutoff_low : R
  ps_In : P
  ps_Out : P
  filter_func : F → Except Err F

/-- siso_filter.py l.50-57, `filter_func_run`, for one frequency. -/
def Siso.filter_func_run (e : Siso P R F) (freq : F) : Except Err F := do
  let xfer ← e.filter_func freq
  return if e.no_DC = true ∧ freq = 0 then 0 else xfer

/-- siso_filter.py l.81-86, the keys passed over. -/
def Siso.skips (e : Siso P R F) (k : K) : Bool :=
  (match e.F_cutoff with
    | none => false
    | some c => decide (|env.center k| > c)) ||
  decide (|env.center k| < e.F_cutoff_low) || (e.no_DC && decide (env.center k = 0))

/-- siso_filter.py l.78-96, `system_setup_coupling`. -/
def Siso.setup (e : Siso P R F) : Except Err (List (Coupling P K F)) :=
  blocks ((env.keys e.ps_In).map (fun k =>
    if e.skips env k then .ok [] else do
      let pgain ← e.filter_func_run (env.cast (env.freq k))
      return [.edge (e.ps_In, k) (e.ps_Out, k) pgain]))

/-! ## amplifiers -/

/-- amplifiers.py l.40-45, `DistributionAmplifier.system_setup_coupling`; `gains` holds the ports `port.o` and gains. -/
def distribution_setup (ps_In : P) (gains : List (P × F)) : List (Coupling P K F) :=
  (env.keys ps_In).flatMap (fun k => gains.map (fun g => .edge (ps_In, k) (g.1, k) g.2))

/-- amplifiers.py l.77-82, `SummingAmplifier.system_setup_coupling`; `gains` holds the ports `port.i` and gains. -/
def summing_setup (ps_Out : P) (gains : List (P × F)) : List (Coupling P K F) :=
  gains.flatMap (fun g => (env.keys g.1).map (fun k => .edge (g.1, k) (ps_Out, k) g.2))

/-! ## sources -/

/-- A `SignalGenerator` (signal_generator.py l.22-75); `harmonics` holds the ports `OutH..`, indices and gains. -/
structure Generator (P K F : Type) where
  ps_Out : P
  f_key : K
  amplitude : F
  /-- the value stored for `amplitudeC` -/
  amplitudeC? : Option F
  phase_rad : F
  harmonics : List (P × Int × F)

/-- signal_generator.py l.52-57. -/
def Generator.amplitudeC (e : Generator P K F) : F := e.amplitudeC?.getD (star e.amplitude)

/-- signal_generator.py l.101-135, `system_setup_coupling`.  The branch `phase_rad is 0` (l.105-107, l.123-125) sets
`exp 0` to 1 and needs no separate treatment. -/
def Generator.setup (e : Generator P K F) : List (Coupling P K F) :=
  [.source (e.ps_Out, e.f_key) (env.exp (env.i * e.phase_rad) * e.amplitude),
    .source (e.ps_Out, -e.f_key) (env.exp (-env.i * e.phase_rad) * e.amplitudeC)] ++
  e.harmonics.flatMap (fun h =>
    [.source (h.1, h.2.1 • e.f_key) (env.exp (env.i * h.2.1 * e.phase_rad) * h.2.2),
      .source (h.1, (-h.2.1) • e.f_key) (env.exp (-env.i * h.2.1 * e.phase_rad) * star h.2.2)])

/-! ## products -/

/-- The loop over pairs of keys that mixer.py l.63-69, l.188-195 and l.211-218 share. -/
def pairs (p q : P) (body : K → K → K → List (Coupling P K F)) : List (Coupling P K F) :=
  (env.keys p).flatMap (fun k1 => (env.keys q).flatMap (fun k2 =>
    if env.reject (k1 + k2) then [] else body k1 k2 (k1 + k2)))

/-- mixer.py l.62-102, `Mixer.system_setup_coupling`. -/
def mixer_setup (LO ps_In ps_R_I ps_R_Q : P) : List (Coupling P K F) :=
  pairs env LO ps_In (fun k1 k2 kto =>
    if kto ≠ 0 then
      [.triplet (LO, k1) (ps_In, k2) (ps_R_I, kto) (1 / 2),
        .triplet (LO, k1) (ps_In, k2) (ps_R_Q, kto) (env.i * sign (env.freq k1) / 2)]
    else
      [.triplet (LO, k1) (ps_In, k2) (ps_R_I, kto) (1 / 4),
        .triplet (LO, k1) (ps_In, k2) (ps_R_Q, kto) (env.i * sign (env.freq k1) / 4)])

/-- mixer.py l.177-182. -/
def rotation (phase_rad : F) (k : K) : F :=
  if 0 < env.center k then env.exp (env.i * phase_rad)
  else if env.center k < 0 then env.exp (-env.i * phase_rad)
  else 1

/-- mixer.py l.173-234, `Modulator.system_setup_coupling`. -/
def modulator_setup (ps_In Mod_amp Mod_phase ps_Out : P) (phase_rad : F) : List (Coupling P K F) :=
  (env.keys ps_In).flatMap (fun k1 =>
    [.edge (ps_In, k1) (ps_Out, k1) (rotation env phase_rad k1)] ++
    (env.keys Mod_amp).flatMap (fun k2 =>
      if env.reject (k1 + k2) then [] else
        if k1 + k2 ≠ 0 then
          [.triplet (ps_In, k1) (Mod_amp, k2) (ps_Out, k1 + k2) (rotation env phase_rad k1 / 2)]
        else
          [.triplet (ps_In, k1) (Mod_amp, k2) (ps_Out, k1 + k2) (rotation env phase_rad k1 / 4)]) ++
    (env.keys Mod_phase).flatMap (fun k2 =>
      if env.reject (k1 + k2) then [] else
        if k1 + k2 ≠ 0 then
          [.triplet (ps_In, k1) (Mod_phase, k2) (ps_Out, k1 + k2)
            (rotation env phase_rad k1 * env.i * sign (env.freq k1) / 2)]
        else
          [.triplet (ps_In, k1) (Mod_phase, k2) (ps_Out, k1 + k2)
            (rotation env phase_rad k1 * env.i * sign (env.freq k1) / 4)]))

/-- mixer.py l.322-329: the second frequency is passed over unless it has the sign of the first. -/
def opposite (c1 c2 : R) : Bool :=
  if 0 < c1 then decide (c2 ≤ 0) else if c1 = 0 then true else decide (0 ≤ c2)

/-- mixer.py l.311-344, `Harmonic2Generator.system_setup_coupling`. -/
def harmonic2_setup (ps_In ps_Out : P) : List (Coupling P K F) :=
  (env.keys ps_In).flatMap (fun k1 => (env.keys ps_In).flatMap (fun k2 =>
    if opposite (env.center k1) (env.center k2) then [] else
      if env.reject (k1 + k2) then [] else
        [.triplet (ps_In, k1) (ps_In, k2) (ps_Out, k1 + k2) 1]))

/-- RMS.py l.52-73, the loop of `MeanSquareMixer.system_setup_coupling` with its set `already_keys`. -/
def mean_square_loop (ps_In MS : P) (already : List K) : List K → List (Coupling P K F)
  | [] => []
  | k :: ks =>
    if k ∈ already then mean_square_loop ps_In MS already ks
    else if k = 0 then
      .multEdge (ps_In, k) (MS, 0) 1 [(ps_In, k)] :: mean_square_loop ps_In MS (k :: already) ks
    else if env.reject (-k) then mean_square_loop ps_In MS (-k :: k :: already) ks
    else .triplet (ps_In, k) (ps_In, -k) (MS, 0) (1 / 2) :: mean_square_loop ps_In MS (-k :: k :: already) ks

/-- RMS.py l.49-74, `MeanSquareMixer.system_setup_coupling`. -/
def mean_square_setup (ps_In MS : P) : List (Coupling P K F) :=
  mean_square_loop env ps_In MS [] (env.keys ps_In)

/-- matrix_algorithm.py l.307-308: a bond from an output to an input carries every key of the output.  Simplification:
no test points on the bond (C54 treats them). -/
def wire_setup (pfrom pto : P) : List (Coupling P K F) :=
  (env.keys pfrom).map (fun k => .edge (pfrom, k) (pto, k) 1)

/-- The elements of a signal flow graph and the bonds between them. -/
inductive SElem (P K R F : Type)
  | siso (e : Siso P R F)
  | distribution (ps_In : P) (gains : List (P × F))
  | summing (ps_Out : P) (gains : List (P × F))
  | generator (e : Generator P K F)
  | mixer (LO ps_In ps_R_I ps_R_Q : P)
  | modulator (ps_In Mod_amp Mod_phase ps_Out : P) (phase_rad : F)
  | harmonic2 (ps_In ps_Out : P)
  | meanSquare (ps_In MS : P)
  | wire (pfrom pto : P)

/-- The couplings of an element. -/
def SElem.setup : SElem P K R F → Except Err (List (Coupling P K F))
  | siso e => e.setup env
  | distribution p g => .ok (distribution_setup env p g)
  | summing p g => .ok (summing_setup env p g)
  | generator e => .ok (e.setup env)
  | mixer a b c d => .ok (mixer_setup env a b c d)
  | modulator a b c d φ => .ok (modulator_setup env a b c d φ)
  | harmonic2 a b => .ok (harmonic2_setup env a b)
  | meanSquare a b => .ok (mean_square_setup env a b)
  | wire a b => .ok (wire_setup env a b)

end Signal
