import Mathlib.Algebra.Group.Basic
import Mathlib.Algebra.Star.Basic
import Verif.Circuit.Model

/-!
# Model of the optical elements

Sources: `/repo/phasor/optics/{ports,space,laser,mirror,photodiode,circulator,polarization,selectors,modulators}.py` and
`/repo/phasor/optics/nonlinear_utilities.py` l.147-330.

The couplings an element inserts are listed in the order of the insertions.  A key of an optical port is a `DictKey` with
the four entries `OpticalFreqKey`, `ClassicalFreqKey`, `PolKEY` and `QuantumKey` (ports.py l.27-35), so it is a record of the
four; a key of a signal or mechanical port has the entry `ClassicalFreqKey` alone.  `kfrom.contains(LOWER)`,
`kfrom & PolS` and the like compare one entry.  Classical frequency keys are an additive group `K` (C01).  `port_set_get` is
a list of keys per port, in any order.  Numbers are elements of a field `F` with a conjugation; angles, powers, lengths and
the like are fixed by it in the theorems that need them real.  Simplifications: a single frequency point (the
`np.any` of mirror.py l.331-333 and others acts on one number); no symbolic values.
-/

namespace Optics
open Py Inject Circuit

/-- `PolKEY` (ports.py l.31-33) -/
inductive Pol
  | S
  | P
deriving DecidableEq

/-- `PolS` for `PolP` and back -/
def Pol.swap : Pol → Pol
  | S => P
  | P => S

/-- `QuantumKey` (ports.py l.27-29) -/
inductive Quantum
  | lower
  | raise
deriving DecidableEq

/-- the other one of `LOWER` and `RAISE` -/
def Quantum.conj : Quantum → Quantum
  | lower => raise
  | raise => lower

/-- A key of an optical port. -/
structure OKey (O K : Type) where
  opt : O
  cls : K
  pol : Pol
  q : Quantum
deriving DecidableEq

/-- A key of any port. -/
inductive Key (O K : Type)
  | opt (k : OKey O K)
  | sig (k : K)
deriving DecidableEq

variable {P O K F : Type} [DecidableEq P] [DecidableEq O] [DecidableEq K] [AddCommGroup K] [Field F] [StarRing F]
  [DecidableEq F]

/-- `(kfrom - LOWER) | RAISE` and `(kfrom - RAISE) | LOWER` -/
def OKey.conj (k : OKey O K) : OKey O K := { k with q := k.q.conj }

/-- `kfrom.without_keys(ClassicalFreqKey) | DictKey({ClassicalFreqKey: f})` -/
def OKey.at (k : OKey O K) (f : K) : OKey O K := { k with cls := f }

/-- What the elements read from the system. -/
structure OEnv (P O K F : Type) where
  /-- `port_set_get` of an optical port -/
  okeys : P → List (OKey O K)
  /-- `port_set_get` of a signal or mechanical port -/
  skeys : P → List K
  /-- `reject_classical_frequency_order` (system.py l.227-245) -/
  reject : K → Bool
  /-- `optical_frequency_extract(key)[0]` (system.py l.214-221), read off the entry `OpticalFreqKey` -/
  iwavelen_m : O → F
  /-- `optical_frequency_extract(key)[1]`, read off the entry `ClassicalFreqKey` -/
  freq : K → F
  /-- `symbols.i` -/
  i : F
  /-- `symbols.pi` -/
  pi : F
  /-- `symbols.i2pi` -/
  i2pi : F
  /-- `symbols.c_m_s` -/
  c_m_s : F
  /-- `symbols.math.exp` -/
  exp : F → F
  /-- `symbols.math.sqrt` -/
  sqrt : F → F
  /-- `symbols.math.cos` -/
  cos : F → F
  /-- `symbols.math.sin` -/
  sin : F → F

variable (env : OEnv P O K F)

/-- A node at an optical port. -/
abbrev on (p : P) (k : OKey O K) : P × Key O K := (p, .opt k)

/-- A node at a signal port. -/
abbrev sn (p : P) (k : K) : P × Key O K := (p, .sig k)

/-! ## spaces -/

/-- A `Space` (space.py l.14-51). -/
structure Space (P F : Type) where
  po_Fr : Port P
  po_Bk : Port P
  L_m : F
  L_detune_m : F

/-- space.py l.31-33, `phase_lower`. -/
def Space.phase_lower (e : Space P F) (iwavelen_m Fr : F) : F :=
  env.exp (-env.i2pi * (Fr * e.L_m / env.c_m_s + e.L_detune_m * iwavelen_m))

/-- space.py l.35-37, `phase_raise`. -/
def Space.phase_raise (e : Space P F) (iwavelen_m Fr : F) : F :=
  env.exp (env.i2pi * (Fr * e.L_m / env.c_m_s + e.L_detune_m * iwavelen_m))

/-- space.py l.65-70. -/
def Space.cplg (e : Space P F) (k : OKey O K) : F :=
  match k.q with
  | .lower => e.phase_lower env (env.iwavelen_m k.opt) (env.freq k.cls)
  | .raise => e.phase_raise env (env.iwavelen_m k.opt) (env.freq k.cls)

/-- space.py l.61-72, `system_setup_coupling`. -/
def Space.setup (e : Space P F) : List (Coupling P (Key O K) F) :=
  [(e.po_Fr, e.po_Bk), (e.po_Bk, e.po_Fr)].flatMap (fun pq =>
    (env.okeys pq.1.i).map (fun k => .edge (on pq.1.i k) (on pq.2.o k) (e.cplg env k)))

/-! ## lasers -/

/-- A `Laser` (laser.py l.18-76); `fkey` is split into its two entries. -/
structure Laser (P O K F : Type) where
  po_Fr : Port P
  power_W : F
  phase_rad : F
  pol : Pol
  opt : O
  cls : K

/-- The key `fkey | polk | q`. -/
def Laser.key (e : Laser P O K F) (q : Quantum) : OKey O K := ⟨e.opt, e.cls, e.pol, q⟩

/-- laser.py l.89-100, `system_setup_coupling`.  The branch `phase_rad is 0` sets `exp 0` to 1 and needs no separate
treatment. -/
def Laser.setup (e : Laser P O K F) : List (Coupling P (Key O K) F) :=
  [.source (on e.po_Fr.o (e.key .lower)) (env.sqrt e.power_W * env.exp (env.i * e.phase_rad)),
    .source (on e.po_Fr.o (e.key .raise)) (env.sqrt e.power_W * env.exp (-env.i * e.phase_rad))]

/-! ## modulation of light by signals and the back action -/

/-- The arguments of `modulations_fill_2optical_2classical` (nonlinear_utilities.py l.147-161) that do not change with the
key; `Stdcplg` and the like are complex numbers. -/
structure Mod (P F : Type) where
  pfrom : Port P
  ptoOpt : Option (Port P)
  in_port_classical : Option P
  out_port_classical : Option P
  Stdcplg : F
  StdcplgC : F
  CLcplg : F
  CLcplgC : F
  BAcplg : F
  BAcplgC : F
  include_through_coupling : Bool := true

/-- nonlinear_utilities.py l.198-206 and l.279-287: a sideband at `f`, unless its order is rejected. -/
def sideband (k : OKey O K) (f : K) : Option (OKey O K) := if env.reject f then none else some (k.at f)

/-- The loop over the keys of a signal port that nonlinear_utilities.py l.166-182 and l.255-266 share, with its set of
completed keys; the first loop passes over the zero key (`skipDC`), the second does not. -/
def pair_loop {C : Type} (all : List K) (skipDC : Bool) (emit : K → List C) (completed : List K) :
    List K → Except Err (List C)
  | [] => .ok []
  | lk :: lks =>
    if lk ∈ completed then pair_loop all skipDC emit completed lks
    else if skipDC = true ∧ -lk = lk then pair_loop all skipDC emit completed lks
    else if -lk ∉ all then .error .assertion
    else do
      let cs ← pair_loop all skipDC emit (-lk :: lk :: completed) lks
      return emit lk ++ cs

/-- nonlinear_utilities.py l.208-238, the triplets of one pair of signal keys. -/
def Mod.cl_pair (m : Mod P F) (k : OKey O K) (pto inp : P) (lk : K) : List (Coupling P (Key O K) F) :=
  match k.q with
  | .lower =>
    (match sideband env k (k.cls + lk) with
      | none => []
      | some kto => [.triplet (on m.pfrom.i k) (sn inp lk) (on pto kto) (m.Stdcplg * m.CLcplg)]) ++
    (match sideband env k (k.cls + -lk) with
      | none => []
      | some kto => [.triplet (on m.pfrom.i k) (sn inp (-lk)) (on pto kto) (m.Stdcplg * m.CLcplg)])
  | .raise =>
    (match sideband env k (k.cls + lk) with
      | none => []
      | some kto => [.triplet (on m.pfrom.i k) (sn inp (-lk)) (on pto kto) (m.StdcplgC * m.CLcplgC)]) ++
    (match sideband env k (k.cls + -lk) with
      | none => []
      | some kto => [.triplet (on m.pfrom.i k) (sn inp lk) (on pto kto) (m.StdcplgC * m.CLcplgC)])

/-- nonlinear_utilities.py l.162-238. -/
def Mod.cl (m : Mod P F) (k : OKey O K) : Except Err (List (Coupling P (Key O K) F)) :=
  match m.ptoOpt, m.in_port_classical with
  | some pto, some inp => pair_loop (env.skeys inp) true (m.cl_pair env k pto.o inp) [] (env.skeys inp)
  | _, _ => .ok []

/-- nonlinear_utilities.py l.239-249, the direct coupling. -/
def Mod.through (m : Mod P F) (k : OKey O K) : List (Coupling P (Key O K) F) :=
  match m.ptoOpt with
  | none => []
  | some pto =>
    if m.include_through_coupling then
      match k.q with
      | .lower => [.edge (on m.pfrom.i k) (on pto.o k) m.Stdcplg]
      | .raise => [.edge (on m.pfrom.i k) (on pto.o k) m.StdcplgC]
    else []

/-- nonlinear_utilities.py l.290-330, the edges of one pair of signal keys. -/
def Mod.ba_pair (m : Mod P F) (k : OKey O K) (out : P) (lk : K) : List (Coupling P (Key O K) F) :=
  match k.q with
  | .lower =>
    if -lk ≠ lk then
      (match sideband env k (k.cls + lk) with
        | none => []
        | some kto =>
          [.multEdge (on m.pfrom.i kto) (sn out lk) (m.Stdcplg * m.BAcplg) [on m.pfrom.i k.conj]]) ++
      (match sideband env k (k.cls + -lk) with
        | none => []
        | some kto =>
          [.multEdge (on m.pfrom.i kto) (sn out (-lk)) (m.Stdcplg * m.BAcplg) [on m.pfrom.i k.conj]])
    else
      (match sideband env k (k.cls + lk) with
        | none => []
        | some kto =>
          [.multEdge (on m.pfrom.i kto) (sn out lk) (m.Stdcplg * m.BAcplg / 2) [on m.pfrom.i k.conj]])
  | .raise =>
    if -lk ≠ lk then
      (match sideband env k (k.cls + lk) with
        | none => []
        | some kto =>
          [.multEdge (on m.pfrom.i kto) (sn out (-lk)) (m.StdcplgC * m.BAcplgC) [on m.pfrom.i k.conj]]) ++
      (match sideband env k (k.cls + -lk) with
        | none => []
        | some kto =>
          [.multEdge (on m.pfrom.i kto) (sn out lk) (m.StdcplgC * m.BAcplgC) [on m.pfrom.i k.conj]])
    else
      (match sideband env k (k.cls + lk) with
        | none => []
        | some kto =>
          [.multEdge (on m.pfrom.i kto) (sn out (-lk)) (m.StdcplgC * m.BAcplgC / 2) [on m.pfrom.i k.conj]])

/-- nonlinear_utilities.py l.251-330. -/
def Mod.ba (m : Mod P F) (k : OKey O K) : Except Err (List (Coupling P (Key O K) F)) :=
  match m.out_port_classical with
  | none => .ok []
  | some out => pair_loop (env.skeys out) false (m.ba_pair env k out) [] (env.skeys out)

/-- nonlinear_utilities.py l.147-330, `modulations_fill_2optical_2classical`. -/
def Mod.fill (m : Mod P F) (k : OKey O K) : Except Err (List (Coupling P (Key O K) F)) :=
  blocks [m.cl env k, .ok (m.through k), m.ba env k]

/-! ## mirrors -/

/-- The optical ports a mirror may own (mirror.py l.92-188). -/
inductive MPort
  | Fr | Bk | FrA | FrB | BkA | BkB | LFr | LBk | LFrA | LFrB | LBkA | LBkB
deriving DecidableEq

/-- A `Mirror` (mirror.py l.31-188). -/
structure Mirror (P F : Type) where
  flip_sign : Bool
  R_backscatter : F
  T_hr : F
  L_hr : F
  L_t : F
  phase_rad : F
  backscatter_phase_rad : F
  AOI_deg : F
  port : MPort → Port P
  /-- `Z.d.o` -/
  Zd : P
  /-- `Z.F.i` -/
  ZF : P

namespace Mirror
variable (m : Mirror P F)

/-- ports.py l.45-51, `is_4_port`, chooses between the ports of a mirror at an angle and the ports at normal incidence
(mirror.py l.92-188). -/
def at4 (four two : MPort) : Port P := if m.AOI_deg = 0 then m.port two else m.port four

def FrA : Port P := m.at4 .FrA .Fr
def FrB : Port P := m.at4 .FrB .Fr
def BkA : Port P := m.at4 .BkA .Bk
def BkB : Port P := m.at4 .BkB .Bk
def LFrA : Port P := m.at4 .LFrA .LFr
def LFrB : Port P := m.at4 .LFrB .LFr
def LBkA : Port P := m.at4 .LBkA .LBk
def LBkB : Port P := m.at4 .LBkB .LBk

/-- mirror.py l.210-217, a set: the four ports are two at normal incidence. -/
def ports_optical : List (Port P) := if m.AOI_deg = 0 then [m.FrA, m.BkA] else [m.FrA, m.BkA, m.FrB, m.BkB]

/-- mirror.py l.219-226 -/
def ports_optical_loss : List (Port P) :=
  if m.AOI_deg = 0 then [m.LFrA, m.LBkA] else [m.LFrA, m.LBkA, m.LFrB, m.LBkB]

/-- mirror.py l.228-230 -/
def has_loss : Bool := decide (m.L_hr ≠ 0) || decide (m.L_t ≠ 0)

/-- mirror.py l.320-322 -/
def T : F := m.T_hr - m.L_t
def L : F := m.L_hr + m.L_t
def R : F := 1 - m.T_hr - m.L_hr - m.R_backscatter

/-- mirror.py l.324-337 -/
def t : F := env.sqrt m.T
def l : F := env.sqrt m.L
def r : F := if m.flip_sign then -env.sqrt m.R else env.sqrt m.R
def rBS : F := if m.flip_sign then -env.sqrt m.R_backscatter else env.sqrt m.R_backscatter

/-- mirror.py l.339-344 -/
def mod_sign_map : Dict (Port P) F :=
  Dict.ofList [(m.FrA, 1), (m.BkA, -1), (m.FrB, 1), (m.BkB, -1)]

/-- mirror.py l.346-351 -/
def tmap : Dict (Port P) (Port P × F) :=
  Dict.ofList [(m.FrA, (m.BkA, m.t env)), (m.BkA, (m.FrA, m.t env)), (m.FrB, (m.BkB, m.t env)),
    (m.BkB, (m.FrB, m.t env))]

/-- mirror.py l.352-357 -/
def rmap : Dict (Port P) (Port P × F) :=
  Dict.ofList [(m.FrA, (m.FrB, m.r env)), (m.BkA, (m.BkB, -m.r env)), (m.FrB, (m.FrA, m.r env)),
    (m.BkB, (m.BkA, -m.r env))]

/-- mirror.py l.358-363: at normal incidence the entries of the `B` ports replace those of the `A` ports. -/
def rBSmap : Dict (Port P) (Port P × F) :=
  Dict.ofList [(m.FrA, (m.FrA, m.rBS env)), (m.FrB, (m.FrB, -m.rBS env)), (m.BkA, (m.BkA, -m.rBS env)),
    (m.BkB, (m.BkB, m.rBS env))]

/-- mirror.py l.364-369; the class attribute `unitary_loss` is `False`, so l.370-381 do not run. -/
def lmap : Dict (Port P) (Port P × F) :=
  Dict.ofList [(m.LFrA, (m.FrA, m.l env)), (m.LBkA, (m.BkA, m.l env)), (m.LFrB, (m.FrB, m.l env)),
    (m.LBkB, (m.BkB, m.l env))]

/-- mirror.py l.383-391; `couplingC` is the same number. -/
def coupling : F :=
  if m.AOI_deg ≠ 0 then
    if m.AOI_deg = 45 then 1 / env.sqrt 2 else env.cos (m.AOI_deg * env.pi / 180)
  else 1

/-- mirror.py l.418-448 and l.451-473: the reflection into `pto` with the amplitude `g`, shifted by `phase_rad` when
`test` is not zero. -/
def reflection (port pto : Port P) (g test mod_sign : F) (k : OKey O K) : Mod P F :=
  let index_coupling := -2 * m.coupling env * env.pi * 2 * env.iwavelen_m k.opt
  let force_coupling := -2 * m.coupling env
  { pfrom := port
    ptoOpt := some pto
    in_port_classical := some m.Zd
    out_port_classical := some m.ZF
    Stdcplg := if test ≠ 0 then g * env.exp (env.i * m.phase_rad) else g
    StdcplgC := if test ≠ 0 then g * env.exp (-env.i * m.phase_rad) else g
    CLcplg := mod_sign * env.i * index_coupling
    CLcplgC := mod_sign * -env.i * index_coupling
    BAcplg := mod_sign * force_coupling / env.c_m_s
    BAcplgC := mod_sign * force_coupling / env.c_m_s }

/-- mirror.py l.396-404 -/
def transmit (port : Port P) (k : OKey O K) : Except Err (List (Coupling P (Key O K) F)) :=
  if m.T ≠ 0 then do
    let v ← Dict.get (m.tmap env) port
    return [.edge (on port.i k) (on v.1.o k) v.2]
  else .ok []

/-- mirror.py l.406-416 -/
def lose (port : Port P) (k : OKey O K) : List (Coupling P (Key O K) F) :=
  if m.has_loss then
    match Dict.get? (m.lmap env) port with
    | none => []
    | some v => [.edge (on port.i k) (on v.1.o k) v.2]
  else []

/-- mirror.py l.423-448 -/
def reflect (port : Port P) (mod_sign : F) (k : OKey O K) : Except Err (List (Coupling P (Key O K) F)) := do
  let v ← Dict.get (m.rmap env) port
  if m.R ≠ 0 then (m.reflection env port v.1 v.2 m.phase_rad mod_sign k).fill env k else .ok []

/-- mirror.py l.450-473 -/
def backscatter (port : Port P) (mod_sign : F) (k : OKey O K) : Except Err (List (Coupling P (Key O K) F)) :=
  if m.R_backscatter ≠ 0 then do
    let v ← Dict.get (m.rBSmap env) port
    (m.reflection env port v.1 v.2 m.backscatter_phase_rad mod_sign k).fill env k
  else .ok []

/-- mirror.py l.478-488 -/
def loss_couplings : Except Err (List (Coupling P (Key O K) F)) :=
  if m.has_loss then
    blocks (m.ports_optical_loss.map (fun port =>
      match Dict.get? (m.lmap env) port with
      | none => .error .typeError
      | some v => .ok ((env.okeys port.i).map (fun k => .edge (on port.i k) (on v.1.o k) v.2))))
  else .ok []

/-- mirror.py l.393-473, the body of the loop over the optical ports. -/
def at_port (port : Port P) : Except Err (List (Coupling P (Key O K) F)) := do
  let mod_sign ← Dict.get m.mod_sign_map port
  blocks ((env.okeys port.i).map (fun k =>
    blocks [m.transmit env port k, .ok (m.lose env port k), m.reflect env port mod_sign k,
      m.backscatter env port mod_sign k]))

/-- mirror.py l.318-489, `system_setup_coupling`. -/
def setup : Except Err (List (Coupling P (Key O K) F)) :=
  blocks (m.ports_optical.map (m.at_port env) ++ [m.loss_couplings env])

end Mirror

/-! ## photodiodes -/

/-- photodiode.py l.80-99, `PD.system_setup_coupling`.  Simplification: `magic` is `False`, so `BA` is a port
(l.52-57). -/
def pd_setup (po_Fr : Port P) (BA Wpd : P) : Except Err (List (Coupling P (Key O K) F)) :=
  blocks ((env.okeys po_Fr.i).map (fun k =>
    Mod.fill env { pfrom := po_Fr, ptoOpt := none, in_port_classical := some BA, out_port_classical := some Wpd,
                   Stdcplg := 1, StdcplgC := 1, CLcplg := env.i, CLcplgC := -env.i, BAcplg := 1, BAcplgC := 1 } k))

/-- photodiode.py l.158-182, `MagicPD.system_setup_coupling`. -/
def magic_pd_setup (po_Fr po_Bk : Port P) (Wpd : P) : Except Err (List (Coupling P (Key O K) F)) :=
  blocks ((env.okeys po_Fr.i).map (fun k =>
    Mod.fill env { pfrom := po_Fr, ptoOpt := some po_Bk, in_port_classical := none, out_port_classical := some Wpd,
                   Stdcplg := 1, StdcplgC := 1, CLcplg := 0, CLcplgC := 0, BAcplg := 1, BAcplgC := 1 } k) ++
    [.ok ((env.okeys po_Bk.i).map (fun k => .edge (on po_Bk.i k) (on po_Fr.o k) 1))])

/-! ## modulators -/

/-- modulators.py l.87-117, `PM.system_setup_coupling`. -/
def pm_setup (po_Fr po_Bk : Port P) (Drv BA : P) : Except Err (List (Coupling P (Key O K) F)) :=
  blocks ([(po_Fr, po_Bk), (po_Bk, po_Fr)].map (fun pq => blocks ((env.okeys pq.1.i).map (fun k =>
    Mod.fill env { pfrom := pq.1, ptoOpt := some pq.2, in_port_classical := some Drv, out_port_classical := some BA,
                   Stdcplg := 1, StdcplgC := 1, CLcplg := env.i / 2, CLcplgC := -env.i / 2,
                   BAcplg := 1 / env.c_m_s, BAcplgC := 1 / env.c_m_s } k))))

/-- modulators.py l.125-155, `AM.system_setup_coupling`. -/
def am_setup (po_Fr po_Bk : Port P) (Drv BA : P) : Except Err (List (Coupling P (Key O K) F)) :=
  blocks ([(po_Fr, po_Bk), (po_Bk, po_Fr)].map (fun pq => blocks ((env.okeys pq.1.i).map (fun k =>
    Mod.fill env { pfrom := pq.1, ptoOpt := some pq.2, in_port_classical := some Drv, out_port_classical := some BA,
                   Stdcplg := 1, StdcplgC := 1, CLcplg := 1 / 2, CLcplgC := 1 / 2,
                   BAcplg := env.i / env.c_m_s, BAcplgC := -env.i / env.c_m_s } k))))

/-- modulators.py l.237-282, `AMPM.system_setup_coupling`. -/
def ampm_setup (po_Fr po_Bk : Port P) (DrvAM DrvPM : P) : Except Err (List (Coupling P (Key O K) F)) :=
  blocks ([(po_Fr, po_Bk), (po_Bk, po_Fr)].map (fun pq => blocks ((env.okeys pq.1.i).map (fun k => blocks
    [Mod.fill env { pfrom := pq.1, ptoOpt := some pq.2, in_port_classical := some DrvPM, out_port_classical := none,
                    Stdcplg := 1, StdcplgC := 1, CLcplg := env.i / 2, CLcplgC := -env.i / 2,
                    BAcplg := 1 / env.c_m_s, BAcplgC := 1 / env.c_m_s } k,
      Mod.fill env { pfrom := pq.1, ptoOpt := some pq.2, in_port_classical := some DrvAM, out_port_classical := none,
                     Stdcplg := 1, StdcplgC := 1, CLcplg := 1 / 2, CLcplgC := 1 / 2,
                     BAcplg := env.i / env.c_m_s, BAcplgC := -env.i / env.c_m_s,
                     include_through_coupling := false } k]))))

/-! ## circulators -/

/-- circulator.py l.47-53, `system_setup_coupling`; `port_list` has `N_ports` entries. -/
def circulator_setup (port_list : List (Port P)) : List (Coupling P (Key O K) F) :=
  port_list.zipIdx.flatMap (fun pi =>
    match port_list[(pi.2 + 1) % port_list.length]? with
    | none => []
    | some next => (env.okeys pi.1.i).map (fun k => .edge (on pi.1.i k) (on next.o k) 1))

/-! ## polarization -/

/-- A rotator (polarization.py l.17-47). -/
structure Rotator (P F : Type) where
  po_Fr : Port P
  po_Bk : Port P
  rotate_deg : F

/-- polarization.py l.119-149: the edges of one key, `c` staying in the polarization and `s` going over from
`PolS` to `PolP`. -/
def rotate_key (pfrom pto : P) (k : OKey O K) (c s : F) : List (Coupling P (Key O K) F) :=
  match k.pol with
  | .S => [.edge (on pfrom k) (on pto k) c, .edge (on pfrom k) (on pto { k with pol := .P }) s]
  | .P => [.edge (on pfrom k) (on pto k) c, .edge (on pfrom k) (on pto { k with pol := .S }) (-s)]

/-- polarization.py l.95-110: the edges of one key for a quarter turn. -/
def quarter_key (pfrom pto : P) (k : OKey O K) (s : F) : List (Coupling P (Key O K) F) :=
  match k.pol with
  | .S => [.edge (on pfrom k) (on pto { k with pol := .P }) s]
  | .P => [.edge (on pfrom k) (on pto { k with pol := .S }) (-s)]

/-- The common part of polarization.py l.75-151 (`BaseRotator`), l.156-231 (`PolarizationRotator`, the same text) and
l.237-303 (`FaradayRotator`): light entering at `po_Bk` is turned with the factor `back`. -/
def Rotator.run (e : Rotator P F) (back : F) : List (Coupling P (Key O K) F) :=
  let d := e.rotate_deg
  if d = 0 ∨ d = 180 ∨ d = -180 then
    let cplg : F := if d = 0 then 1 else -1
    [(e.po_Fr, e.po_Bk), (e.po_Bk, e.po_Fr)].flatMap (fun pq =>
      (env.okeys pq.1.i).map (fun k => .edge (on pq.1.i k) (on pq.2.o k) cplg))
  else if d = 90 ∨ d = -90 ∨ d = 270 ∨ d = -270 then
    let cplg : F := if d = 90 ∨ d = -270 then 1 else -1
    (env.okeys e.po_Fr.i).flatMap (fun k => quarter_key e.po_Fr.i e.po_Bk.o k cplg) ++
    (env.okeys e.po_Bk.i).flatMap (fun k => quarter_key e.po_Bk.i e.po_Fr.o k (back * cplg))
  else
    let c := env.cos (d / 180 * env.pi)
    let s := env.sin (d / 180 * env.pi)
    (env.okeys e.po_Fr.i).flatMap (fun k => rotate_key e.po_Fr.i e.po_Bk.o k c s) ++
    (env.okeys e.po_Bk.i).flatMap (fun k => rotate_key e.po_Bk.i e.po_Fr.o k c (back * s))

/-- polarization.py l.75-151 and l.156-231. -/
def Rotator.polarization (e : Rotator P F) : List (Coupling P (Key O K) F) := e.run env (-1)

/-- polarization.py l.237-303. -/
def Rotator.faraday (e : Rotator P F) : List (Coupling P (Key O K) F) := e.run env 1

/-- A `WavePlate` (polarization.py l.306-330). -/
structure WavePlate (P F : Type) where
  po_Fr : Port P
  po_Bk : Port P
  cplgP : F
  cplgPC? : Option F
  cplgS : F
  cplgSC? : Option F

/-- polarization.py l.322-324 -/
def WavePlate.cplgPC (e : WavePlate P F) : F := e.cplgPC?.getD (star e.cplgP)

/-- polarization.py l.326-328 -/
def WavePlate.cplgSC (e : WavePlate P F) : F := e.cplgSC?.getD (star e.cplgS)

/-- polarization.py l.363-382 -/
def WavePlate.cplg (e : WavePlate P F) (k : OKey O K) : F :=
  match k.pol, k.q with
  | .S, .lower => e.cplgS
  | .S, .raise => e.cplgSC
  | .P, .lower => e.cplgP
  | .P, .raise => e.cplgPC

/-- polarization.py l.360-387, `system_setup_coupling`. -/
def WavePlate.setup (e : WavePlate P F) : List (Coupling P (Key O K) F) :=
  [(e.po_Fr, e.po_Bk), (e.po_Bk, e.po_Fr)].flatMap (fun pq =>
    (env.okeys pq.1.i).map (fun k => .edge (on pq.1.i k) (on pq.2.o k) (e.cplg k)))

/-! ## selectors -/

/-- selectors.py l.52-64, `PolSelector.system_setup_coupling`. -/
def pol_selector_setup (po_Fr Bk_P Bk_S : Port P) : List (Coupling P (Key O K) F) :=
  (env.okeys po_Fr.i).map (fun k =>
    match k.pol with
    | .P => .edge (on po_Fr.i k) (on Bk_P.o k) 1
    | .S => .edge (on po_Fr.i k) (on Bk_S.o k) 1) ++
  (env.okeys Bk_P.i).map (fun k => .edge (on Bk_P.i k) (on po_Fr.o k) 1) ++
  (env.okeys Bk_S.i).map (fun k => .edge (on Bk_P.i k) (on po_Fr.o k) 1)

/-- selectors.py l.119-132, `GenericSelector.system_setup_coupling`; `port_map` holds the ports and the test
`key & kfrom`; `check` is `True`. -/
def selector_setup (po_Fr : Port P) (port_map : List (Port P × (OKey O K → Bool))) :
    Except Err (List (Coupling P (Key O K) F)) :=
  blocks ((env.okeys po_Fr.i).map (fun k =>
    if (port_map.filter (fun pt => pt.2 k)).length = 1 then
      .ok ((port_map.filter (fun pt => pt.2 k)).map (fun pt => .edge (on po_Fr.i k) (on pt.1.o k) 1))
    else .error .assertion) ++
    [.ok (port_map.flatMap (fun pt => (env.okeys pt.1.i).map (fun k => .edge (on pt.1.i k) (on po_Fr.o k) 1)))])

/-! ## bonds -/

/-- matrix_algorithm.py l.307-308: a bond from an output to an input carries every key of the output.  Simplification: no
test points on the bond. -/
def owire_setup (pfrom pto : P) : List (Coupling P (Key O K) F) :=
  (env.okeys pfrom).map (fun k => .edge (on pfrom k) (on pto k) 1)

/-- The same between signal or mechanical ports. -/
def swire_setup (pfrom pto : P) : List (Coupling P (Key O K) F) :=
  (env.skeys pfrom).map (fun k => .edge (sn pfrom k) (sn pto k) 1)

/-! ## mounted wave plates -/

/-- A `WavePlateMount` with the two rotators `coord_Fr` and `coord_Bk` and the plate (polarization.py l.407-431). -/
structure Mount (P F : Type) where
  coord_Fr_po_Fr : Port P
  coord_Fr_po_Bk : Port P
  plate_po_Fr : Port P
  plate_po_Bk : Port P
  coord_Bk_po_Fr : Port P
  coord_Bk_po_Bk : Port P
  rotate_deg : F
  cplgS : F
  cplgP : F

/-- polarization.py l.424 -/
def Mount.coord_Fr (m : Mount P F) : Rotator P F := ⟨m.coord_Fr_po_Fr, m.coord_Fr_po_Bk, m.rotate_deg⟩

/-- polarization.py l.425 -/
def Mount.coord_Bk (m : Mount P F) : Rotator P F := ⟨m.coord_Bk_po_Fr, m.coord_Bk_po_Bk, -m.rotate_deg⟩

/-- The plate: polarization.py l.390-405 leave `cplgPC` and `cplgSC` at their default. -/
def Mount.plate (m : Mount P F) : WavePlate P F := ⟨m.plate_po_Fr, m.plate_po_Bk, m.cplgP, none, m.cplgS, none⟩

/-- The couplings of the three elements and of the two bonds (polarization.py l.424-428). -/
def Mount.setup (m : Mount P F) : List (Coupling P (Key O K) F) :=
  [m.coord_Fr.polarization env, m.plate.setup env, m.coord_Bk.polarization env,
    owire_setup env m.coord_Fr_po_Bk.o m.plate_po_Fr.i, owire_setup env m.plate_po_Fr.o m.coord_Fr_po_Bk.i,
    owire_setup env m.plate_po_Bk.o m.coord_Bk_po_Fr.i, owire_setup env m.coord_Bk_po_Fr.o m.plate_po_Bk.i].flatten

/-- selectors.py l.174-181: the check that all elements of a stack have the same ports; the argument lists how many elements
have each of the ports.  Line 179 compares where it should assign. -/
def stack_check : Option ℕ → List ℕ → Except Err Unit
  | _, [] => .ok ()
  | pnum_cmn, pnum :: pnums =>
    if some pnum ≠ pnum_cmn then
      match pnum_cmn with
      | none => stack_check pnum_cmn pnums
      | some _ => .error .assertion
    else stack_check pnum_cmn pnums

/-! ## all elements -/

/-- The optical elements. -/
inductive OElem (P O K F : Type)
  | space (e : Space P F)
  | laser (e : Laser P O K F)
  | mirror (m : Mirror P F)
  | pd (po_Fr : Port P) (BA Wpd : P)
  | magicPD (po_Fr po_Bk : Port P) (Wpd : P)
  | pm (po_Fr po_Bk : Port P) (Drv BA : P)
  | am (po_Fr po_Bk : Port P) (Drv BA : P)
  | ampm (po_Fr po_Bk : Port P) (DrvAM DrvPM : P)
  | circulator (port_list : List (Port P))
  | rotator (e : Rotator P F)
  | faraday (e : Rotator P F)
  | wavePlate (e : WavePlate P F)
  | polSelector (po_Fr Bk_P Bk_S : Port P)
  | selector (po_Fr : Port P) (port_map : List (Port P × (OKey O K → Bool)))
  | owire (pfrom pto : P)
  | swire (pfrom pto : P)

/-- The couplings of an element. -/
def OElem.setup : OElem P O K F → Except Err (List (Coupling P (Key O K) F))
  | .space e => .ok (e.setup env)
  | .laser e => .ok (e.setup env)
  | .mirror m => m.setup env
  | .pd p b w => pd_setup env p b w
  | .magicPD p q w => magic_pd_setup env p q w
  | .pm p q d b => pm_setup env p q d b
  | .am p q d b => am_setup env p q d b
  | .ampm p q a b => ampm_setup env p q a b
  | .circulator l => .ok (circulator_setup env l)
  | .rotator e => .ok (e.polarization env)
  | .faraday e => .ok (e.faraday env)
  | .wavePlate e => .ok (e.setup env)
  | .polSelector p a b => .ok (pol_selector_setup env p a b)
  | .selector p l => selector_setup env p l
  | .owire a b => .ok (owire_setup env a b)
  | .swire a b => .ok (swire_setup env a b)

end Optics
