import Verif.Circuit.Base
import Verif.Mech.Model

/-!
# Model of the electrical elements

Sources: `/repo/phasor/electronics/passive.py`, `/repo/phasor/electronics/smatrix.py`,
`/repo/phasor/electronics/elements.py`, `/repo/phasor/electronics/sources.py`,
`/repo/phasor/electronics/opamps.py`, `/repo/phasor/electronics/noise.py` and
`/repo/phasor/electronics/multimeter.py`.

An electrical port has an ingoing and an outgoing wave, the port keys `i` and `o`.  The model of an element is
the list of couplings its `system_setup_coupling` inserts.

Values are taken in a field: one frequency point, exact arithmetic; division by zero is an error.  Not modelled:
numpy arrays of frequencies, the noise spectra and the construction of the elements by `declarative`.
-/

set_option linter.unusedSectionVars false

namespace Circuit
open Py Inject

variable {P K F : Type} [DecidableEq P] [DecidableEq K] [Field F] [DecidableEq F]

variable (env : Env P K F)

/-! ## impedances -/

/-- `passive.py` l.20-21, `ResistorBase.impedance_by_freq`. -/
def resistor_impedance (R : F) (_freq : F) : F := R

/-- `passive.py` l.39-40, `CapacitorBase.admittance_by_freq`. -/
def capacitor_admittance (C : F) (freq : F) : F := env.i2pi * freq * C

/-- `passive.py` l.52-53, `InductorBase.impedance_by_freq`. -/
def inductor_impedance (R L : F) (freq : F) : F := R + env.i2pi * freq * L

/-! ## one port elements -/

/-- `passive.py` l.66-72, `TerminatorImpedance.S11_by_freq`. -/
def terminatorZ (Z : F) : Except Err F := pdiv (Z - env.Ze) (Z + env.Ze)

/-- `passive.py` l.75-81, `TerminatorAdmittance.S11_by_freq`. -/
def terminatorY (Y : F) : Except Err F := pdiv (1 - Y * env.Ze) (1 + Y * env.Ze)

/-- The one port classes (`passive.py` l.84-93, `smatrix.py` l.84-106); the mechanical `TerminatorOpen` and
`TerminatorShorted` (`mechanical/smatrix.py` l.83-93) are `opened` and `shorted`. -/
inductive OnePort (F : Type)
  | resistor (R : F)
  | capacitor (C : F)
  | inductor (R L : F)
  | matched
  | opened
  | shorted

/-- `S11_by_freq` of the classes. -/
def OnePort.S11 (freq : F) : OnePort F → Except Err F
  | resistor R => terminatorZ env (resistor_impedance R freq)
  | capacitor C => terminatorY env (capacitor_admittance env C freq)
  | inductor R L => terminatorZ env (inductor_impedance env R L freq)
  | matched => .ok 0
  | opened => .ok 1
  | shorted => .ok (-1)

/-! ## two port elements -/

/-- `passive.py` l.100-114, `SeriesImpedance`: `S11` and `S22`. -/
def seriesZ_r (Z : F) : Except Err F := pdiv Z (Z + env.Ze * 2)

/-- `passive.py` l.104-110, `SeriesImpedance`: `S12` and `S21`. -/
def seriesZ_t (Z : F) : Except Err F := pdiv (2 * env.Ze) (Z + env.Ze * 2)

/-- `passive.py` l.121-135, `SeriesAdmittance`: `S11` and `S22`. -/
def seriesY_r (Y : F) : Except Err F := pdiv 1 (1 + Y * env.Ze * 2)

/-- `passive.py` l.125-131, `SeriesAdmittance`: `S12` and `S21`. -/
def seriesY_t (Y : F) : Except Err F := pdiv (2 * Y * env.Ze) (1 + Y * env.Ze * 2)

/-- The series classes (`passive.py` l.138-147). -/
inductive TwoPort (F : Type)
  | resistor (R : F)
  | capacitor (C : F)
  | inductor (R L : F)

/-- `S11_by_freq` and `S22_by_freq`. -/
def TwoPort.Sr (freq : F) : TwoPort F → Except Err F
  | resistor R => seriesZ_r env (resistor_impedance R freq)
  | capacitor C => seriesY_r env (capacitor_admittance env C freq)
  | inductor R L => seriesZ_r env (inductor_impedance env R L freq)

/-- `S12_by_freq` and `S21_by_freq`. -/
def TwoPort.St (freq : F) : TwoPort F → Except Err F
  | resistor R => seriesZ_t env (resistor_impedance R freq)
  | capacitor C => seriesY_t env (capacitor_admittance env C freq)
  | inductor R L => seriesZ_t env (inductor_impedance env R L freq)

/-! ## connections and cables -/

/-- `elements.py` l.141-157, `Connection.system_setup_coupling`; the ports are numbered, `port1 is port2` compares
the numbers.  `mechanical/elements.py` l.160-176 is the same. -/
def connection_setup (ps : List (Port P)) : Except Err (List (Coupling P K F)) :=
  blocks (ps.zipIdx.flatMap (fun p1 => ps.zipIdx.map (fun p2 =>
    per_key env p1.1.i p2.1.o (fun _ =>
      if p1.2 = p2.2 then pdiv (2 - (ps.length : F)) (ps.length : F) else pdiv 2 (ps.length : F)))))

/-- `elements.py` l.165-166, `Cable.phase_advance`. -/
def phase_advance (length_ns freq : F) : F := env.exp (-2 * env.i * env.pi * freq * length_ns)

/-- `elements.py` l.180-196, `Cable.system_setup_coupling`. -/
def cable_setup (length_ns : F) (A B : Port P) : Except Err (List (Coupling P K F)) :=
  blocks [per_key env A.i B.o (fun k => .ok (phase_advance env length_ns (env.freq k))),
    per_key env B.i A.o (fun k => .ok (phase_advance env length_ns (env.freq k)))]

/-! ## sources -/

/-- `coherent_sources_insert` guarded by `if V_DC != 0`. -/
def dc_source (pto : P) (test val : F) : Except Err (List (Coupling P K F)) :=
  .ok (if test ≠ 0 then [Coupling.source (pto, env.dc) val] else [])

/-- `sources.py` l.45-64, `VoltageSource.system_setup_coupling`; `mechanical/sources.py` l.45-64, `DisplacementSource`, is
the same. -/
def voltage_source_setup (V_DC : F) (V : P) (A : Port P) : Except Err (List (Coupling P K F)) :=
  blocks [setup1 env (fun _ => .ok (-1)) A, dc_source env A.o V_DC V_DC, per_key env V A.o (fun _ => .ok 1)]

/-- `sources.py` l.99-118, `CurrentSource.system_setup_coupling`; `mechanical/sources.py` l.99-118, `ForceSource`, is the
same. -/
def current_source_setup (I_DC : F) (ps_In : P) (A : Port P) : Except Err (List (Coupling P K F)) :=
  blocks [setup1 env (fun _ => .ok 1) A, dc_source env A.o I_DC (I_DC * env.Ze),
    per_key env ps_In A.o (fun _ => .ok env.Ze)]

/-- `sources.py` l.178-239, `VoltageSourceBalanced.system_setup_coupling`; `mechanical/sources.py` l.178-239,
`DisplacementSourceBalanced`, is the same. -/
def voltage_source_balanced_setup (V_DC I_DC : F) (V ps_In : P) (A B : Port P) :
    Except Err (List (Coupling P K F)) :=
  blocks [setup2 env (fun _ => .ok 0) (fun _ => .ok 1) (fun _ => .ok 1) (fun _ => .ok 0) A B,
    dc_source env A.o V_DC (V_DC / 2), dc_source env B.o V_DC (-V_DC / 2),
    dc_source env A.o I_DC (env.Ze * I_DC / 2), dc_source env B.o I_DC (env.Ze * I_DC / 2),
    per_key env V A.o (fun _ => .ok (1 / 2)), per_key env V B.o (fun _ => .ok (-1 / 2)),
    per_key env ps_In A.o (fun _ => .ok (env.Ze / 2)), per_key env ps_In B.o (fun _ => .ok (env.Ze / 2))]

/-- `sources.py` l.283-314, `CurrentSourceBalanced.system_setup_coupling`; the DC source is inserted even when it
is zero.  `mechanical/sources.py` l.283-313, `ForceSourceBalanced`, is the same. -/
def current_source_balanced_setup (I_DC : F) (ps_In : P) (A B : Port P) : Except Err (List (Coupling P K F)) :=
  blocks [setup2 env (fun _ => .ok 1) (fun _ => .ok 0) (fun _ => .ok 0) (fun _ => .ok 1) A B,
    .ok [Coupling.source (A.o, env.dc) (env.Ze * I_DC)], .ok [Coupling.source (B.o, env.dc) (env.Ze * I_DC)],
    per_key env ps_In A.o (fun _ => .ok env.Ze), per_key env ps_In B.o (fun _ => .ok env.Ze)]

/-! ## amplifiers -/

/-- `opamps.py` l.45-95, `OpAmp.system_setup_coupling`. -/
def opamp_setup (gain_by_freq : F → F) (in_p in_n out : Port P) : Except Err (List (Coupling P K F)) :=
  let input_term : F := 1
  let output_term : F := -1
  blocks [per_key env in_p.i out.o (fun k => .ok (gain_by_freq (env.freq k) * (1 + input_term))),
    per_key env in_n.i out.o (fun k => .ok (-gain_by_freq (env.freq k) * (1 + input_term))),
    per_key env in_p.i in_p.o (fun _ => .ok input_term),
    per_key env in_n.i in_n.o (fun _ => .ok input_term),
    per_key env out.i out.o (fun _ => .ok output_term)]

/-- `opamps.py` l.128-179, `VAmp.system_setup_coupling`. -/
def vamp_setup (gain_by_freq : F → F) (Y_input Z_output : F) (in_n out : Port P) :
    Except Err (List (Coupling P K F)) :=
  blocks [per_key env in_n.i out.o (fun k => .ok (-gain_by_freq (env.freq k))),
    (env.keys in_n.i).mapM (fun k =>
      .ok (Coupling.edge (in_n.o, k) (out.o, k) (-gain_by_freq (env.freq k)))),
    per_key env in_n.i in_n.o (fun _ => terminatorY env Y_input),
    per_key env out.i out.o (fun _ => terminatorZ env Z_output)]

/-! ## the four port element -/

/-- `passive.py` l.218-224, `ddiv`. -/
def ddiv (num den : F) : Except Err F := if num ≠ 0 then pdiv num den else .ok 0

/-- The numerators and the denominator of `passive.py` l.185-199 for one frequency. -/
structure Z4 (F : Type) where
  N11 : F
  N12 : F
  N33 : F
  N34 : F
  N13 : F
  N31 : F
  D : F

/-- `passive.py` l.185-199. -/
def z4 (Ze Z11 Z12 Z21 Z22 : F) : Z4 F :=
  let Y := 1 / Ze
  let det := Z11 * Z22 - Z12 * Z12
  let tr := Z11 + Z22
  { N11 := Y * Z11 * Z12 * Z21 * (Y * Z22 + 2)
    N12 := 2 * Y * Z12 * Z21 * Z22 - 4 * det
    N33 := Y * Z22 * Z12 * Z21 * (Y * Z11 + 2)
    N34 := 2 * Y * Z12 * Z21 * Z11 - 4 * det
    N13 := -2 * Y * Z11 * Z22 * Z21
    N31 := -2 * Y * Z11 * Z22 * Z12
    D := Y ^ 2 * (Z11 * Z22 * Z12 * Z21) + 2 * Y * (Z12 * Z21) * tr - 4 * det }

/-- `passive.py` l.182-232, `Z2x2To4Port.system_setup_coupling`; the keys are those of port A for all ports. -/
def z2x2_setup (Z11 Z12 Z21 Z22 : F → F) (A B C D : Port P) : Except Err (List (Coupling P K F)) :=
  let row (p q : Port P) (num : Z4 F → F) : Except Err (List (Coupling P K F)) :=
    (env.keys A.i).mapM (fun k =>
      let f := env.freq k
      let z := z4 env.Ze (Z11 f) (Z12 f) (Z21 f) (Z22 f)
      (ddiv (num z) z.D).map (fun g => Coupling.edge (p.i, k) (q.o, k) g))
  blocks [row A A (·.N11), row A B (·.N12), row B A (·.N12), row B B (·.N11),
    row C C (·.N33), row C D (·.N34), row D C (·.N34), row D D (·.N33),
    row A C (·.N13), row A D (-·.N13), row B C (-·.N13), row B D (·.N13),
    row C A (·.N31), row C B (-·.N31), row D A (-·.N31), row D B (·.N31)]

/-! ## the elements -/

/-- The elements which own electrical or mechanical ports.  In a mechanical system displacements take the place of the
voltages and forces that of the currents. -/
inductive Elem (P F : Type) [Field F]
  | one (t : OnePort F) (A : Port P)
  | two (t : TwoPort F) (A B : Port P)
  | connection (ps : List (Port P))
  | cable (length_ns : F) (A B : Port P)
  | voltageSource (V_DC : F) (V : P) (A : Port P)
  | currentSource (I_DC : F) (ps_In : P) (A : Port P)
  | voltageSourceBalanced (V_DC I_DC : F) (V ps_In : P) (A B : Port P)
  | currentSourceBalanced (I_DC : F) (ps_In : P) (A B : Port P)
  | opAmp (gain_by_freq : F → F) (in_p in_n out : Port P)
  | mech (m : Mech P F)

/-- `system_setup_coupling` of the elements. -/
def Elem.setup : Elem P F → Except Err (List (Coupling P K F))
  | one t A => setup1 env (fun f => t.S11 env f) A
  | two t A B => setup2 env (fun f => t.Sr env f) (fun f => t.St env f) (fun f => t.St env f) (fun f => t.Sr env f) A B
  | connection ps => connection_setup env ps
  | cable l A B => cable_setup env l A B
  | voltageSource V_DC V A => voltage_source_setup env V_DC V A
  | currentSource I_DC p A => current_source_setup env I_DC p A
  | voltageSourceBalanced V_DC I_DC V p A B => voltage_source_balanced_setup env V_DC I_DC V p A B
  | currentSourceBalanced I_DC p A B => current_source_balanced_setup env I_DC p A B
  | opAmp g p n out => opamp_setup env g p n out
  | mech m => m.setup env

/-! ## fluctuations and readouts -/

/-- `noise.py` l.61-79, `VoltageFluctuation.system_setup_coupling`; `mechanical/noise.py` l.61-78, `DisplacementFluctuation`,
is the same. -/
def voltage_fluctuation_setup (p_virt : P) (port : Port P) : Except Err (List (Coupling P K F)) :=
  blocks [per_key env p_virt port.i (fun _ => .ok (1 / 2)), per_key env p_virt port.o (fun _ => .ok (-1 / 2))]

/-- `noise.py` l.145-164, `CurrentFluctuation.system_setup_coupling` with the default `portA` and `portB`. -/
def current_fluctuation_setup (p_virt : P) (port : Port P) : Except Err (List (Coupling P K F)) :=
  blocks [per_key env p_virt port.i (fun _ => .ok (1 / 2)), per_key env p_virt port.o (fun _ => .ok (1 / 2))]

/-- `multimeter.py` l.48-65, `VoltageReadout.system_setup_coupling`; `pre` and `post` are the ports made by
`ports_pre_get` and `ports_post_get`.  `mechanical/multimeter.py` l.51-67, `DisplacementReadout`, is the same. -/
def voltage_readout_setup (pre post : P) (terminal_N : Option (Port P)) (V : P) :
    Except Err (List (Coupling P K F)) :=
  blocks ([per_key env pre V (fun _ => .ok 1), per_key env post V (fun _ => .ok 1)] ++
    match terminal_N with
    | none => []
    | some N => [per_key env N.i V (fun _ => .ok (-1)), per_key env N.o V (fun _ => .ok (-1))])

/-- `multimeter.py` l.101-118, `CurrentReadout.system_setup_coupling`; `inward` is `direction == 'in'`.
`mechanical/multimeter.py` l.100-115, `ForceReadout`, is the same. -/
def current_readout_setup (inward : Bool) (terminal : Port P) (I : P) : Except Err (List (Coupling P K F)) :=
  let direction_cplg : F := if inward then 1 else -1
  blocks [per_key env terminal.i I (fun _ => (pdiv 1 env.Ze).map (fun g => direction_cplg * g)),
    per_key env terminal.o I (fun _ => (pdiv (-1) env.Ze).map (fun g => direction_cplg * g))]

end Circuit
