import Verif.Ports.Model
import Verif.Optics.Model
import Verif.Signal.Model

/-!
# Which keys the elements ask for: the methods `system_setup_ports`

Sources: `/repo/phasor/optics/nonlinear_utilities.py` l.11-145 and the methods `system_setup_ports_initial` and
`system_setup_ports` of `/repo/phasor/optics/{space,laser,vacuum,mirror,photodiode,modulators,circulator,polarization,
selectors}.py`, `/repo/phasor/signals/{siso_filter,amplifiers,signal_generator,mixer,RMS}.py`; of the electrical and mechanical
elements the pattern that they share.

A method is a list of loops (`Block`) in the order of the source, each with the port whose keys it runs over and the requests of
its body.  Simplifications
* the requests of a loop form a set: asking twice changes nothing (the second time the key is known), and the order is that of
  python sets, which is arbitrary;
* a key is an `OKey` at an optical port and a frequency key at any other port (`Optics.Key`); a loop passes over a key of
  the wrong kind, where the program would raise a `KeyError`.  `C93_kinds` shows that such keys do not occur;
* the tables `pmap`, `rmap`, … are read: a loop over `ports_optical` is a list of loops with the ports of the tables written out.
-/

namespace Fill
open Py Ports Optics Circuit

/-- One loop of a method `system_setup_ports`. -/
inductive Block (P κ : Type)
  /-- requests outside of any loop -/
  | always (rs : Finset (P × κ))
  /-- `for k in ports_algorithm.port_update_get(a): …` -/
  | each (a : P) (g : κ → Finset (P × κ))
  /-- the same with an assertion in the body -/
  | check (a : P) (ok : κ → Bool) (e : Err)
  /-- `for k1, k2 in ports_algorithm.symmetric_update(a, b): …`; `sel` is the choice made by `subset_second` -/
  | pair (a : P) (b : PortArg P) (sel : Option (κ → κ → Bool)) (g : κ → κ → Finset (P × κ))
  /-- the same where the body fails -/
  | checkPair (a b : P) (ok : κ → κ → Bool) (e : Err)
  /-- `for k1 in ports_algorithm.port_update_get(a): for k2 in ports_algorithm.port_full_get(b): …` -/
  | prod (a b : P) (g : κ → κ → Finset (P × κ))

section Blocks
variable {P κ : Type} [DecidableEq P] [DecidableEq κ]

/-- `subset_second` as `symmetric_update` calls it. -/
def subset (sel : Option (κ → κ → Bool)) : Option (Finset κ → κ → Finset κ) :=
  sel.map (fun s pool k1 => pool.filter (fun k2 => s k1 k2 = true))

/-- The requests of a loop. -/
def Block.run (v : View P κ) : Block P κ → Except Err (Finset (P × κ))
  | .always rs => .ok rs
  | .each a g => do
    let U ← v.update a
    .ok (U.biUnion g)
  | .check a ok e => do
    let U ← v.update a
    if ∀ k ∈ U, ok k = true then .ok ∅ else .error e
  | .pair a b sel g => do
    let pairs ← symmetric_update v (.one a) b (subset sel) none
    .ok (pairs.biUnion (fun x => g x.1 x.2))
  | .checkPair a b ok e => do
    let pairs ← symmetric_update v (.one a) (.one b) none none
    if ∀ x ∈ pairs, ok x.1 x.2 = true then .ok ∅ else .error e
  | .prod a b g => do
    let U ← v.update a
    let F ← v.full b
    .ok (U.biUnion (fun k1 => F.biUnion (fun k2 => g k1 k2)))

/-- The requests of a method. -/
def runs (v : View P κ) : List (Block P κ) → Except Err (Finset (P × κ))
  | [] => .ok ∅
  | b :: bs => do
    let x ← b.run v
    let y ← runs v bs
    .ok (x ∪ y)

/-- The ports whose keys a loop reads. -/
def Block.reads : Block P κ → List P
  | .always _ => []
  | .each a _ => [a]
  | .check a _ _ => [a]
  | .pair a (.one b) _ _ => [a, b]
  | .pair a (.many l) _ _ => a :: l
  | .checkPair a b _ _ => [a, b]
  | .prod a b _ => [a, b]

/-- `for k in port_update_get(a): port_coupling_needed(b, k)` -/
def copy (a b : P) : Block P κ := .each a (fun k => {(b, k)})

end Blocks

variable {P O K R F : Type} [DecidableEq P] [DecidableEq O] [DecidableEq K] [AddCommGroup K]
  [AddCommGroup R] [LinearOrder R] [Field F] [StarRing F] [DecidableEq F]

/-! ## `ports_fill_2optical_2classical` -/

/-- nonlinear_utilities.py l.29-32, l.129-132: the sideband that the signal key `l` makes of `k` -/
def up (k : OKey O K) (l : K) : K :=
  match k.q with
  | .lower => k.cls + l
  | .raise => k.cls - l

/-- nonlinear_utilities.py l.46-51, l.129-132: the key of which `l` makes the sideband `k` -/
def down (k : OKey O K) (l : K) : K :=
  match k.q with
  | .lower => k.cls - l
  | .raise => k.cls + l

section FillDefs
variable (reject : K → Bool)

/-- nonlinear_utilities.py l.24-26 -/
def fill_through (pfrom : P) (ptos : List P) : Block P (Key O K) :=
  .each pfrom (fun k => (ptos.map (fun p => (p, k))).toFinset)

/-- nonlinear_utilities.py l.28-40 -/
def fill_in (pfrom : P) (ptos : List P) (inp : P) : Block P (Key O K) :=
  .pair pfrom (.one inp) none (fun k l =>
    match k, l with
    | .opt k, .sig l =>
      if reject (up k l) then ∅
      else {(pfrom, .opt k), (inp, .sig l)} ∪
        (ptos.flatMap (fun p => [(p, .opt (k.at (up k l))), (p, .opt k)])).toFinset
    | _, _ => ∅)

/-- nonlinear_utilities.py l.41: the variable `ptoOpt` of the loops l.24 and l.38 is used behind them; when the list of ports is
empty it is not bound.  (For the second of several ports with an empty list it would hold a list, from l.90; the photodiode,
the only element with an empty list, has one port.) -/
def fill_unbound (pfrom : P) (ptos : List P) (inp : P) : List (Block P (Key O K)) :=
  if ptos = [] then
    [.checkPair pfrom inp (fun k l => match k, l with
      | .opt k, .sig l => reject (up k l)
      | _, _ => true) .unboundLocal]
  else []

/-- nonlinear_utilities.py l.43-55 -/
def fill_out (pfrom out : P) : Block P (Key O K) :=
  .pair pfrom (.one out) none (fun k l =>
    match k, l with
    | .opt k, .sig l => if reject (down k l) then ∅ else {(pfrom, .opt (k.at (down k l)).conj)}
    | _, _ => ∅)

/-- nonlinear_utilities.py l.57-70: the second key agrees with the first but for the frequency and has the other one of `LOWER` and
`RAISE`. -/
def partner (k1 k2 : Key O K) : Bool :=
  match k1, k2 with
  | .opt a, .opt b => decide (a.opt = b.opt ∧ a.pol = b.pol ∧ b.q = a.q.conj)
  | _, _ => false

/-- nonlinear_utilities.py l.76-79, the frequency of the beat of two keys -/
def beat (a b : OKey O K) : K :=
  match a.q with
  | .lower => a.cls - b.cls
  | .raise => b.cls - a.cls

/-- nonlinear_utilities.py l.71-88 -/
def fill_beat (pfrom out : P) : Block P (Key O K) :=
  .pair pfrom (.one pfrom) (some partner) (fun k1 k2 =>
    match k1, k2 with
    | .opt a, .opt b =>
      if reject (beat a b) then ∅ else {(out, .sig (beat a b))}
    | _, _ => ∅)

/-- nonlinear_utilities.py l.91-104: the second key agrees with the first but for the frequency. -/
def fellow (k1 k2 : Key O K) : Bool :=
  match k1, k2 with
  | .opt a, .opt b => decide (a.opt = b.opt ∧ a.pol = b.pol ∧ b.q = a.q)
  | _, _ => false

/-- nonlinear_utilities.py l.110-117, the frequency of the signal that makes `b` of `a` -/
def drive (a b : OKey O K) : K :=
  match a.q with
  | .lower => b.cls - a.cls
  | .raise => a.cls - b.cls

/-- nonlinear_utilities.py l.90, l.105-124 -/
def fill_drive (pfrom : P) (ptos : List P) (inp : P) : Block P (Key O K) :=
  .pair pfrom (.many ptos) (some fellow) (fun k1 k2 =>
    match k1, k2 with
    | .opt a, .opt b =>
      if a.q = b.q then
        if reject (drive a b) then ∅ else {(inp, .sig (drive a b))}
      else ∅
    | _, _ => ∅)

/-- nonlinear_utilities.py l.126-145 -/
def fill_back (pto : P) (pfroms : List P) (out : P) : Block P (Key O K) :=
  .pair pto (.one out) none (fun k l =>
    match k, l with
    | .opt k, .sig l =>
      if reject (down k l) then ∅ else (pfroms.map (fun p => (p, .opt (k.at (down k l))))).toFinset
    | _, _ => ∅)

/-- nonlinear_utilities.py l.11-145, `ports_fill_2optical_2classical`.  `ins` holds `port.i` and `pmap[port.i]` for the
`ports_in_optical`, `outs` holds `port.o` and `pmap[port.o]` for the `ports_out_optical`.  The loops l.71-88 and l.105-124 ask for
nothing without their signal port. -/
def fill (ins outs : List (P × List P)) (inp out : Option P) : List (Block P (Key O K)) :=
  ins.flatMap (fun x =>
    [fill_through x.1 x.2] ++
    (match inp with
      | none => []
      | some c => fill_in reject x.1 x.2 c :: fill_unbound reject x.1 x.2 c) ++
    (match out with
      | none => []
      | some c => [fill_out reject x.1 c, fill_beat reject x.1 c]) ++
    (match inp with
      | none => []
      | some c => [fill_drive reject x.1 x.2 c])) ++
  outs.flatMap (fun x =>
    match out with
    | none => []
    | some c => [fill_back reject x.1 x.2 c])

end FillDefs

/-! ## optical elements -/

/-- space.py l.53-59, polarization.py l.352-358: both directions between two ports. -/
def two_way (p q : Port P) : List (Block P (Key O K)) :=
  [copy p.i q.o, copy p.o q.i, copy q.i p.o, copy q.o p.i]

/-- laser.py l.80-87, vacuum.py l.24-31 -/
def ends (p : Port P) : List (Block P (Key O K)) := [copy p.o p.i, copy p.i p.o]

/-- mirror.py l.278-290, the loops of one port; the tables have the ports `t`, `l`, `r`, `b` for it -/
def mirror_port (T L Rf B : Bool) (port t l r b : Port P) : List (Block P (Key O K)) :=
  [copy port.i port.o] ++ (if T then [copy port.i t.o] else []) ++ (if L then [copy port.i l.o] else []) ++
    (if Rf then [copy port.i r.o] else []) ++ (if B then [copy port.i b.o] else []) ++
  [copy port.o port.i] ++ (if T then [copy port.o t.i] else []) ++ (if L then [copy port.o l.i] else []) ++
    (if Rf then [copy port.o r.i] else []) ++ (if B then [copy port.o b.i] else [])

/-- mirror.py l.298-305, the loops of one loss port (l.304 asks for `port.o` where `port.i` is meant) -/
def mirror_loss (port l : Port P) : List (Block P (Key O K)) :=
  [copy port.i port.o, copy port.i l.o, copy port.o port.o, copy port.o l.i]

/-- mirror.py l.232-316, `Mirror.system_setup_ports`.  At normal incidence the ports `A` and `B` are the same and their loops,
which the program runs once, are listed twice. -/
def mirror_ports (reject : K → Bool) (m : Mirror P F) : List (Block P (Key O K)) :=
  let T := decide (m.T ≠ 0)
  let Rf := decide (m.R ≠ 0)
  let B := decide (m.R_backscatter ≠ 0)
  mirror_port T m.has_loss Rf B m.FrA m.BkA m.LFrA m.FrB m.FrA ++
  mirror_port T m.has_loss Rf B m.BkA m.FrA m.LBkA m.BkB m.BkA ++
  mirror_port T m.has_loss Rf B m.FrB m.BkB m.LFrB m.FrA m.FrB ++
  mirror_port T m.has_loss Rf B m.BkB m.FrB m.LBkB m.BkA m.BkB ++
  (if m.has_loss then
    mirror_loss m.LFrA m.FrA ++ mirror_loss m.LBkA m.BkA ++ mirror_loss m.LFrB m.FrB ++ mirror_loss m.LBkB m.BkB
  else []) ++
  fill reject
    [(m.FrA.i, [m.FrB.o]), (m.BkA.i, [m.BkB.o]), (m.FrB.i, [m.FrA.o]), (m.BkB.i, [m.BkA.o])]
    [(m.FrA.o, [m.FrB.i]), (m.BkA.o, [m.BkB.i]), (m.FrB.o, [m.FrA.i]), (m.BkB.o, [m.BkA.i])]
    (some m.Zd) (some m.ZF)

/-- photodiode.py l.64-78, `PD.system_setup_ports` -/
def pd_ports (reject : K → Bool) (po_Fr : Port P) (BA Wpd : P) : List (Block P (Key O K)) :=
  fill reject [(po_Fr.i, [])] [] (some BA) (some Wpd)

/-- photodiode.py l.134-156, `MagicPD.system_setup_ports` -/
def magic_pd_ports (reject : K → Bool) (po_Fr po_Bk : Port P) (Wpd : P) : List (Block P (Key O K)) :=
  fill reject [(po_Fr.i, [po_Bk.o])] [(po_Bk.o, [po_Fr.i])] none (some Wpd) ++
    [copy po_Bk.i po_Fr.o, copy po_Bk.o po_Fr.i]

/-- modulators.py l.39-65, `system_setup_ports` of `PM` and `AM` -/
def pm_ports (reject : K → Bool) (po_Fr po_Bk : Port P) (Drv BA : P) : List (Block P (Key O K)) :=
  two_way po_Fr po_Bk ++
  fill reject [(po_Fr.i, [po_Bk.o]), (po_Bk.i, [po_Fr.o])] [(po_Fr.o, [po_Bk.i]), (po_Bk.o, [po_Fr.i])] (some Drv) (some BA)

/-- modulators.py l.199-235, `AMPM.system_setup_ports` -/
def ampm_ports (reject : K → Bool) (po_Fr po_Bk : Port P) (DrvAM DrvPM : P) : List (Block P (Key O K)) :=
  two_way po_Fr po_Bk ++
  fill reject [(po_Fr.i, [po_Bk.o]), (po_Bk.i, [po_Fr.o])] [(po_Fr.o, [po_Bk.i]), (po_Bk.o, [po_Fr.i])] (some DrvAM) none ++
  fill reject [(po_Fr.i, [po_Bk.o]), (po_Bk.i, [po_Fr.o])] [(po_Fr.o, [po_Bk.i]), (po_Bk.o, [po_Fr.i])] (some DrvPM) none

/-- circulator.py l.37-45 -/
def circulator_ports (port_list : List (Port P)) : List (Block P (Key O K)) :=
  port_list.zipIdx.flatMap (fun pi =>
    match port_list[(pi.2 + 1) % port_list.length]? with
    | none => []
    | some next => [copy pi.1.i next.o, copy next.o pi.1.i])

/-- polarization.py l.54-61: copies with the other polarization -/
def swapped (a b : P) : Block P (Key O K) :=
  .each a (fun k => match k with
    | .opt k => {(b, .opt { k with pol := k.pol.swap })}
    | _ => ∅)

/-- polarization.py l.66-67, l.69-70: copies with either polarization -/
def both (a b : P) : Block P (Key O K) :=
  .each a (fun k => match k with
    | .opt k => {(b, .opt { k with pol := .S }), (b, .opt { k with pol := .P })}
    | _ => ∅)

/-- polarization.py l.46-71, `BaseRotator.system_setup_ports` (inherited by the polarization and the Faraday rotator) -/
def rotator_ports (e : Rotator P F) : List (Block P (Key O K)) :=
  let d := e.rotate_deg
  if d = 0 ∨ d = 180 ∨ d = -180 then two_way e.po_Fr e.po_Bk
  else if d = 90 ∨ d = -90 ∨ d = 270 ∨ d = -270 then
    [swapped e.po_Fr.i e.po_Bk.o, swapped e.po_Fr.o e.po_Bk.i, swapped e.po_Bk.i e.po_Fr.o, swapped e.po_Bk.o e.po_Fr.i]
  else [both e.po_Fr.i e.po_Bk.o, both e.po_Fr.o e.po_Bk.i, both e.po_Bk.i e.po_Fr.o, both e.po_Bk.o e.po_Fr.i]

/-- selectors.py l.27-31, l.38-42: a key goes to the port of its polarization -/
def by_pol (a P' S' : P) : Block P (Key O K) :=
  .each a (fun k => match k with
    | .opt k => match k.pol with
      | .P => {(P', .opt k)}
      | .S => {(S', .opt k)}
    | _ => ∅)

/-- selectors.py l.26-48, `PolSelector.system_setup_ports` -/
def pol_selector_ports (po_Fr Bk_P Bk_S : Port P) : List (Block P (Key O K)) :=
  [by_pol po_Fr.i Bk_P.o Bk_S.o, copy Bk_P.i po_Fr.o, copy Bk_S.i po_Fr.o,
    by_pol po_Fr.o Bk_P.i Bk_S.i, copy Bk_P.o po_Fr.i, copy Bk_S.o po_Fr.i]

/-- selectors.py l.93-98, l.106-109: a key goes to the ports that select it -/
def by_test (a : P) (port_map : List (P × (OKey O K → Bool))) : Block P (Key O K) :=
  .each a (fun k => match k with
    | .opt k => ((port_map.filter (fun pt => pt.2 k)).map (fun pt => (pt.1, .opt k))).toFinset
    | _ => ∅)

/-- selectors.py l.88-117, `GenericSelector.system_setup_ports` with `check`; the assertion is in l.101 -/
def selector_ports (po_Fr : Port P) (port_map : List (Port P × (OKey O K → Bool))) : List (Block P (Key O K)) :=
  [by_test po_Fr.i (port_map.map (fun pt => (pt.1.o, pt.2))),
    .check po_Fr.i (fun k => match k with
      | .opt k => decide ((port_map.filter (fun pt => pt.2 k)).length = 1)
      | _ => true) .assertion] ++
  port_map.map (fun pt => copy pt.1.i po_Fr.o) ++
  [by_test po_Fr.o (port_map.map (fun pt => (pt.1.i, pt.2)))] ++
  port_map.map (fun pt => copy pt.1.o po_Fr.i)

/-- `system_setup_ports` of the optical elements. -/
def optical_ports (reject : K → Bool) : OElem P O K F → List (Block P (Key O K))
  | .space e => two_way e.po_Fr e.po_Bk
  | .laser e => ends e.po_Fr
  | .mirror m => mirror_ports reject m
  | .pd a b c => pd_ports reject a b c
  | .magicPD a b c => magic_pd_ports reject a b c
  | .pm a b c d => pm_ports reject a b c d
  | .am a b c d => pm_ports reject a b c d
  | .ampm a b c d => ampm_ports reject a b c d
  | .circulator l => circulator_ports l
  | .rotator e => rotator_ports e
  | .faraday e => rotator_ports e
  | .wavePlate e => two_way e.po_Fr e.po_Bk
  | .polSelector a b c => pol_selector_ports a b c
  | .selector a l => selector_ports a l
  | .owire _ _ => []
  | .swire _ _ => []

/-- `system_setup_ports_initial` of the optical elements (laser.py l.75-78). -/
def optical_initial : OElem P O K F → List (P × Key O K)
  | .laser e => [(e.po_Fr.o, .opt (e.key .lower)), (e.po_Fr.o, .opt (e.key .raise))]
  | _ => []

/-! ## signal elements -/

section SignalDefs
variable (reject : K → Bool) (center : K → R)

/-- siso_filter.py l.61-66, l.69-74, the keys passed over -/
def siso_skips (e : Signal.Siso P R F) (k : K) : Bool :=
  (match e.F_cutoff with
    | none => false
    | some c => decide (|center k| > c)) ||
  decide (|center k| < e.F_cutoff_low) || (e.no_DC && decide (center k = 0))

/-- siso_filter.py l.60-67, l.68-75 -/
def siso_copy (e : Signal.Siso P R F) (a b : P) : Block P (Key O K) :=
  .each a (fun k => match k with
    | .sig k => if siso_skips center e k then ∅ else {(b, .sig k)}
    | _ => ∅)

/-- The loops of the mixers: the key `f k1 k2`, unless it is rejected, is needed at the ports `ptos`. -/
def mix (a : P) (b : PortArg P) (f : K → K → K) (ptos : List P) : Block P (Key O K) :=
  .pair a b none (fun k1 k2 => match k1, k2 with
    | .sig k1, .sig k2 => if reject (f k1 k2) then ∅ else (ptos.map (fun p => (p, .sig (f k1 k2)))).toFinset
    | _, _ => ∅)

/-- mixer.py l.37-60, `Mixer.system_setup_ports` -/
def mixer_ports (LO ps_In ps_R_I ps_R_Q : P) : List (Block P (Key O K)) :=
  [mix reject LO (.one ps_In) (fun f1 f2 => f1 + f2) [ps_R_I, ps_R_Q],
    mix reject LO (.many [ps_R_I, ps_R_Q]) (fun f1 f2 => f2 - f1) [ps_In],
    mix reject ps_In (.many [ps_R_I, ps_R_Q]) (fun f1 f2 => f2 - f1) [LO]]

/-- mixer.py l.140-171, `Modulator.system_setup_ports` -/
def modulator_ports (ps_In Mod_amp Mod_phase ps_Out : P) : List (Block P (Key O K)) :=
  [copy ps_In ps_Out, copy ps_Out ps_In,
    mix reject ps_In (.many [Mod_amp, Mod_phase]) (fun f1 f2 => f1 + f2) [ps_Out],
    mix reject ps_Out (.one ps_In) (fun f2 f1 => f2 - f1) [Mod_amp, Mod_phase],
    mix reject ps_Out (.many [Mod_amp, Mod_phase]) (fun f2 f1 => f2 - f1) [ps_In]]

/-- mixer.py l.254-259, l.276-281: the second frequency is passed over -/
def against (c1 c2 : R) : Bool := if 0 < c1 then decide (c2 < 0) else decide (0 < c2)

/-- mixer.py l.247-309, `Harmonic2Generator.system_setup_ports` -/
def harmonic2_ports (ps_In ps_Out : P) : List (Block P (Key O K)) :=
  [.prod ps_In ps_In (fun k1 k2 => match k1, k2 with
      | .sig f1, .sig f2 =>
        if against (center f1) (center f2) then ∅ else if reject (f1 + f2) then ∅ else {(ps_Out, .sig (f1 + f2))}
      | _, _ => ∅),
    .prod ps_In ps_Out (fun k1 kto => match k1, kto with
      | .sig f1, .sig f2 =>
        if against (center f1) (center (f2 - f1)) then ∅ else if reject (f2 - f1) then ∅ else {(ps_In, .sig (f2 - f1))}
      | _, _ => ∅),
    .prod ps_Out ps_In (fun kto k1 => match kto, k1 with
      | .sig f2, .sig f1 =>
        if Signal.opposite (center f1) (center (f2 - f1)) then ∅
        else if reject (f2 - f1) then ∅ else {(ps_In, .sig (f2 - f1))}
      | _, _ => ∅)]

/-- RMS.py l.36-47, `MeanSquareMixer.system_setup_ports` -/
def mean_square_ports (ps_In MS : P) : List (Block P (Key O K)) :=
  [.each ps_In (fun k => match k with
      | .sig k => if reject (-k) then ∅ else {(ps_In, .sig (-k))}
      | _ => ∅),
    .always {(MS, .sig 0)}]

/-- `system_setup_ports` of the signal elements (`DistributionAmplifier` amplifiers.py l.29-38, `SummingAmplifier` l.66-75,
`SignalGenerator` signal_generator.py l.98-99). -/
def signal_ports : Signal.SElem P K R F → List (Block P (Key O K))
  | .siso e => [siso_copy center e e.ps_In e.ps_Out, siso_copy center e e.ps_Out e.ps_In]
  | .distribution p g => g.map (fun x => copy p x.1) ++ g.map (fun x => copy x.1 p)
  | .summing p g => g.map (fun x => copy p x.1) ++ g.map (fun x => copy x.1 p)
  | .generator _ => []
  | .mixer a b c d => mixer_ports reject a b c d
  | .modulator a b c d _ => modulator_ports reject a b c d
  | .harmonic2 a b => harmonic2_ports reject center a b
  | .meanSquare a b => mean_square_ports reject a b
  | .wire _ _ => []

end SignalDefs

/-- `system_setup_ports_initial` of the signal elements (signal_generator.py l.77-96). -/
def signal_initial : Signal.SElem P K R F → List (P × Key O K)
  | .generator e =>
    [(e.ps_Out, .sig e.f_key), (e.ps_Out, .sig (-e.f_key))] ++
    e.harmonics.flatMap (fun h => [(h.1, .sig (h.2.1 • e.f_key)), (h.1, .sig ((-h.2.1) • e.f_key))])
  | _ => []

/-! ## all elements -/

/-- The elements.  `linear` is an element that copies keys between its ports: a `VacuumTerminator` (vacuum.py l.24-31), an electrical
or mechanical element (electrical/elements.py, mechanical/elements.py and others: for every pair of ports `(a, b)`,
`for k in port_update_get(a): port_coupling_needed(b, k)`). -/
inductive FElem (P O K R F : Type)
  | optical (e : OElem P O K F)
  | signal (e : Signal.SElem P K R F)
  | linear (copies : List (P × P))

/-- The method `system_setup_ports`. -/
def FElem.ports (reject : K → Bool) (center : K → R) : FElem P O K R F → List (Block P (Key O K))
  | .optical e => optical_ports reject e
  | .signal e => signal_ports reject center e
  | .linear l => l.map (fun x => copy x.1 x.2)

/-- The method `system_setup_ports_initial`. -/
def FElem.initial : FElem P O K R F → List (P × Key O K)
  | .optical e => optical_initial e
  | .signal e => signal_initial e
  | .linear _ => []

end Fill
