import Verif.Optics.Mirror
import Verif.Optics.Selective

/-!
# Polarizing beamsplitters and the Faraday isolator (C132, C133)

Source: `/repo/phasor/optics/{selective_mirrors,polarization,selectors,faraday_isolator}.py`.  Networks are given by the equations of
their elements: a field takes at the output of a port what the element of the port sends there, and at the input what
the bonded output has.
-/

set_option linter.unusedSectionVars false

namespace Optics
open Py Inject Circuit

variable {P O K F : Type} [DecidableEq P] [DecidableEq O] [DecidableEq K] [AddCommGroup K] [Field F] [StarRing F]
  [DecidableEq F]

/-! ## model -/

/-- `port_set` of a stack at an angle, selective_mirrors.py l.33-38. -/
inductive Side
  | FrA | FrB | BkA | BkB
deriving DecidableEq

/-- The port of the mirrors of that name. -/
def Side.port : Side → MPort
  | FrA => .FrA | FrB => .FrB | BkA => .BkA | BkB => .BkB

/-- The loss port of the mirrors at that port. -/
def Side.loss : Side → MPort
  | FrA => .LFrA | FrB => .LFrB | BkA => .LBkA | BkB => .LBkB

/-- A `PolarizingBeamsplitter`, polarization.py l.458-503, with the ports of its selectors and of its two mirrors.
Simplification: `pass_polarization` is one of the two polarizations (another string leaves the object unfinished). -/
structure Pbs (P F : Type) where
  pass_polarization : Pol
  selection_defect : F
  rejection_defect : F
  select_loss : F
  reject_loss : F
  AOI_deg : F
  /-- `psel.po_Fr` of the selector of each port, selectors.py l.184-188 -/
  po : Side → Port P
  /-- `psel.port_map`, selectors.py l.81-85 -/
  sel : Side → Pol → Port P
  /-- the ports of the mirrors -/
  port : Pol → MPort → Port P
  Zd : Pol → P
  ZF : Pol → P

/-- `select_mirror` and `reject_mirror` as `mirror_S` and `mirror_P`, polarization.py l.476-503. -/
def Pbs.mirror (b : Pbs P F) (p : Pol) : Mirror P F where
  flip_sign := false
  R_backscatter := 0
  T_hr := if p = b.pass_polarization then 1 - b.selection_defect else b.rejection_defect
  L_hr := b.reject_loss
  L_t := b.select_loss
  phase_rad := 0
  backscatter_phase_rad := 0
  AOI_deg := b.AOI_deg
  port := b.port p
  Zd := b.Zd p
  ZF := b.ZF p

/-- `select_map`, selective_mirrors.py l.84-89, as the `port_map` of the selector at one port. -/
def Pbs.port_map (b : Pbs P F) (s : Side) : List (Port P × (OKey O K → Bool)) :=
  [(b.sel s .S, fun k => k.pol == .S), (b.sel s .P, fun k => k.pol == .P)]

/-- A Faraday isolator, faraday_isolator.py l.28-50. -/
structure Isolator (P F : Type) where
  pol_BS_in : Pbs P F
  faraday : Rotator P F
  lambda2 : Mount P F
  pol_BS_out : Pbs P F

/-- `pol_from` and `pol_to`, faraday_isolator.py l.18-26; `tree` is the entry `'pol_from'` of the `ctree`, which both of them read
and set.  Which of them `declarative` evaluates first is left open: `pol_to` if `late` holds. -/
def isolator_pols (late : Bool) (tree : Option Pol) (pol_from pol_to : Pol) : Pol × Pol :=
  let first := tree.getD (if late then pol_to else pol_from)
  let second := (some first).getD (if late then pol_from else pol_to)
  if late then (second, first) else (first, second)

/-- `__build__`, faraday_isolator.py l.28-50; of the parts given only the ports are used. -/
def Isolator.build (late : Bool) (tree : Option Pol) (pol_from pol_to : Pol) (n : Isolator P F) : Isolator P F :=
  let pols := isolator_pols late tree pol_from pol_to
  let pbs (p : Pol) (b : Pbs P F) : Pbs P F :=
    { b with pass_polarization := p, selection_defect := 0, rejection_defect := 0, select_loss := 0, reject_loss := 0, AOI_deg := 45 }
  { pol_BS_in := pbs pols.1 n.pol_BS_in
    faraday := { n.faraday with rotate_deg := 0 }
    lambda2 := { n.lambda2 with
      rotate_deg := (if pols.1 = pols.2 then -1 else 1) * 45 / 2
      cplgS := 1
      cplgP := -1 }
    pol_BS_out := pbs pols.2 n.pol_BS_out }

/-! ## fields -/

/-- The field at an output is what the couplings send there. -/
def Follows (cs : List (Coupling P (Key O K) F)) (x : P × Key O K → F) (p : P) : Prop :=
  ∀ k, x (p, .opt k) = (cs.map (fun c => c.into x (p, .opt k))).sum

/-- Two ports are bonded: each gets what the other sends. -/
def Bonded (x : P × Key O K → F) (p q : Port P) : Prop :=
  ∀ k, x (q.i, .opt k) = x (p.o, .opt k) ∧ x (p.i, .opt k) = x (q.o, .opt k)

/-- A field on a beamsplitter: the equations of the four selectors, of the two mirrors and of the bonds between them. -/
structure Pbs.Fits (env : OEnv P O K F) (b : Pbs P F) (x : P × Key O K → F) : Prop where
  aoi : b.AOI_deg ≠ 0
  sel : ∀ s, ∃ cs, selector_setup env (b.po s) (b.port_map s) = .ok cs ∧ Follows cs x (b.po s).o ∧
    ∀ p, Follows cs x (b.sel s p).o
  nodup : ∀ s, [(b.po s).o, (b.sel s .S).o, (b.sel s .P).o].Nodup
  within : ∀ s, Within env x (b.po s).i ∧ ∀ p, Within env x (b.sel s p).i
  mir : ∀ p, ∃ cs, (b.mirror p).setup env = .ok cs ∧ ∀ s : Side, Follows cs x (b.port p s.port).o
  still : ∀ p, (b.mirror p).Still env x
  bond : ∀ s p, Bonded x (b.sel s p) (b.port p s.port)
  /-- each mirror only has light of its polarization at its loss ports -/
  vac : ∀ p (s : Side) k, k.pol ≠ p → x ((b.port p s.loss).i, .opt k) = 0

variable {env : OEnv P O K F}

/-- What the selector at one side sends to a mirror, and out. -/
theorem Pbs.Fits.side {b : Pbs P F} {x : P × Key O K → F} (h : b.Fits env x) (s : Side) (k : OKey O K) :
    (∀ p, x ((b.port p s.port).i, .opt k) = if k.pol = p then x ((b.po s).i, .opt k) else 0) ∧
    x ((b.po s).o, .opt k) = x ((b.port .S s.port).o, .opt k) + x ((b.port .P s.port).o, .opt k) := by
  obtain ⟨cs, hc, ho, hs⟩ := h.sel s
  obtain ⟨_, h2, h3⟩ := C75_select hc (by simpa [Pbs.port_map] using h.nodup s) (h.within s).1
    (by
      intro pt hpt
      simp only [Pbs.port_map, List.mem_cons, List.not_mem_nil, or_false] at hpt
      rcases hpt with rfl | rfl
      · exact (h.within s).2 .S
      · exact (h.within s).2 .P)
  refine ⟨fun p => ?_, ?_⟩
  · rw [(h.bond s p k).1, hs p k]
    cases p
    · rw [h2 (b.sel s .S, fun k => k.pol == .S) (by simp [Pbs.port_map])]
      simp
    · rw [h2 (b.sel s .P, fun k => k.pol == .P) (by simp [Pbs.port_map])]
      simp
  · rw [ho k, h3]
    simp only [Pbs.port_map, List.map_cons, List.map_nil, List.sum_cons, List.sum_nil, add_zero]
    rw [(h.bond s .S k).2, (h.bond s .P k).2]

/-- **C132.**  Every polarization meets its own mirror: with the amplitudes `t`, `r` and `l` of that mirror, the light of a key at each port
is transmitted, reflected and replaced by loss as at that mirror, and nothing goes over into the other polarization. -/
theorem C132_scatter {b : Pbs P F} {x : P × Key O K → F} (h : b.Fits env x) (k : OKey O K) {T t r l : F}
    (hT : T = if k.pol = b.pass_polarization then 1 - b.selection_defect else b.rejection_defect)
    (ht : t = env.sqrt (T - b.select_loss)) (hr : r = env.sqrt (1 - T - b.reject_loss))
    (hl : l = env.sqrt (b.reject_loss + b.select_loss)) :
    x ((b.po .FrA).o, .opt k) = t * x ((b.po .BkA).i, .opt k) + r * x ((b.po .FrB).i, .opt k)
      + l * x ((b.port k.pol .LFrA).i, .opt k) ∧
    x ((b.po .FrB).o, .opt k) = t * x ((b.po .BkB).i, .opt k) + r * x ((b.po .FrA).i, .opt k)
      + l * x ((b.port k.pol .LFrB).i, .opt k) ∧
    x ((b.po .BkA).o, .opt k) = t * x ((b.po .FrA).i, .opt k) - r * x ((b.po .BkB).i, .opt k)
      + l * x ((b.port k.pol .LBkA).i, .opt k) ∧
    x ((b.po .BkB).o, .opt k) = t * x ((b.po .FrB).i, .opt k) - r * x ((b.po .BkA).i, .opt k)
      + l * x ((b.port k.pol .LBkB).i, .opt k) := by
  have key : ∀ p : Pol, ∃ t' r' : F, (k.pol = p → t' = t ∧ r' = r) ∧
      x ((b.port p .FrA).o, .opt k) = t' * x ((b.port p .BkA).i, .opt k) + r' * x ((b.port p .FrB).i, .opt k)
        + l * x ((b.port p .LFrA).i, .opt k) ∧
      x ((b.port p .FrB).o, .opt k) = t' * x ((b.port p .BkB).i, .opt k) + r' * x ((b.port p .FrA).i, .opt k)
        + l * x ((b.port p .LFrB).i, .opt k) ∧
      x ((b.port p .BkA).o, .opt k) = t' * x ((b.port p .FrA).i, .opt k) - r' * x ((b.port p .BkB).i, .opt k)
        + l * x ((b.port p .LBkA).i, .opt k) ∧
      x ((b.port p .BkB).o, .opt k) = t' * x ((b.port p .FrB).i, .opt k) - r' * x ((b.port p .BkA).i, .opt k)
        + l * x ((b.port p .LBkB).i, .opt k) := by
    intro p
    obtain ⟨cs, hc, hf⟩ := h.mir p
    obtain ⟨h1, h2, h3, h4⟩ := Mirror.C67_scatter env (h.still p) (show (b.mirror p).AOI_deg ≠ 0 from h.aoi) rfl rfl rfl rfl rfl hc k
    have hb : env.sqrt (b.mirror p).R_backscatter = 0 := (h.still p).sqrt0
    have htn : ∀ q, (b.mirror p).turn env (b.mirror p).phase_rad q = 1 := fun q => by
      simp [Mirror.turn, Pbs.mirror]
    have hfl : (if (b.mirror p).flip_sign = true then (-1 : F) else 1) = 1 := by simp [Pbs.mirror]
    rw [hb, htn, hfl, show (b.mirror p).backscatter_phase_rad = (b.mirror p).phase_rad from rfl, htn] at h1 h2 h3 h4
    refine ⟨env.sqrt ((b.mirror p).T_hr - b.select_loss), env.sqrt (1 - (b.mirror p).T_hr - b.reject_loss),
      fun hp => ⟨?_, ?_⟩, (hf .FrA k).trans (h1.trans ?_), (hf .FrB k).trans (h2.trans ?_),
      (hf .BkA k).trans (h3.trans ?_), (hf .BkB k).trans (h4.trans ?_)⟩
    · rw [ht, hT, hp]; rfl
    · rw [hr, hT, hp]; rfl
    all_goals
      rw [hl]
      simp only [Pbs.mirror, sub_zero, one_mul, mul_one, mul_zero, zero_mul, add_zero]
  have hin := fun s => (h.side s k).1
  have hout := fun s => (h.side s k).2
  obtain ⟨tS, rS, eS, a1, a2, a3, a4⟩ := key .S
  obtain ⟨tP, rP, eP, b1, b2, b3, b4⟩ := key .P
  have i1 : ∀ p, x ((b.port p .FrA).i, .opt k) = _ := hin .FrA
  have i2 : ∀ p, x ((b.port p .FrB).i, .opt k) = _ := hin .FrB
  have i3 : ∀ p, x ((b.port p .BkA).i, .opt k) = _ := hin .BkA
  have i4 : ∀ p, x ((b.port p .BkB).i, .opt k) = _ := hin .BkB
  have o1 : x ((b.po .FrA).o, .opt k) = x ((b.port .S .FrA).o, .opt k) + x ((b.port .P .FrA).o, .opt k) := hout .FrA
  have o2 : x ((b.po .FrB).o, .opt k) = x ((b.port .S .FrB).o, .opt k) + x ((b.port .P .FrB).o, .opt k) := hout .FrB
  have o3 : x ((b.po .BkA).o, .opt k) = x ((b.port .S .BkA).o, .opt k) + x ((b.port .P .BkA).o, .opt k) := hout .BkA
  have o4 : x ((b.po .BkB).o, .opt k) = x ((b.port .S .BkB).o, .opt k) + x ((b.port .P .BkB).o, .opt k) := hout .BkB
  have v := fun p s hp => h.vac p s k hp
  rw [o1, o2, o3, o4, a1, a2, a3, a4, b1, b2, b3, b4]
  simp only [i1, i2, i3, i4]
  cases hk : k.pol with
  | S =>
    have hne : k.pol ≠ Pol.P := by rw [hk]; decide
    have v1 := v .P .FrA hne; have v2 := v .P .FrB hne; have v3 := v .P .BkA hne; have v4 := v .P .BkB hne
    simp only [Side.loss] at v1 v2 v3 v4
    rw [v1, v2, v3, v4, (eS hk).1, (eS hk).2]
    simp
  | P =>
    have hne : k.pol ≠ Pol.S := by rw [hk]; decide
    have v1 := v .S .FrA hne; have v2 := v .S .FrB hne; have v3 := v .S .BkA hne; have v4 := v .S .BkB hne
    simp only [Side.loss] at v1 v2 v3 v4
    rw [v1, v2, v3, v4, (eP hk).1, (eP hk).2]
    simp

/-- **C132, in part.**  A beamsplitter without defects and losses passes one polarization from `A` to `A` and from `B` to `B` and reflects the
other one from `A` to `B`, with the opposite sign on the back.  Missing: losses, which no beamsplitter can have, see
`C132_loss_refuted`. -/
theorem C132_ideal_partial {b : Pbs P F} {x : P × Key O K → F} (h : b.Fits env x) (h1 : env.sqrt 1 = 1)
    (hsd : b.selection_defect = 0) (hrd : b.rejection_defect = 0) (hsl : b.select_loss = 0) (hrl : b.reject_loss = 0)
    (k : OKey O K) :
    (k.pol = b.pass_polarization →
      x ((b.po .FrA).o, .opt k) = x ((b.po .BkA).i, .opt k) ∧ x ((b.po .BkA).o, .opt k) = x ((b.po .FrA).i, .opt k) ∧
      x ((b.po .FrB).o, .opt k) = x ((b.po .BkB).i, .opt k) ∧ x ((b.po .BkB).o, .opt k) = x ((b.po .FrB).i, .opt k)) ∧
    (k.pol ≠ b.pass_polarization →
      x ((b.po .FrA).o, .opt k) = x ((b.po .FrB).i, .opt k) ∧ x ((b.po .FrB).o, .opt k) = x ((b.po .FrA).i, .opt k) ∧
      x ((b.po .BkA).o, .opt k) = -x ((b.po .BkB).i, .opt k) ∧ x ((b.po .BkB).o, .opt k) = -x ((b.po .BkA).i, .opt k)) := by
  obtain ⟨e1, e2, e3, e4⟩ := C132_scatter h k rfl rfl rfl rfl
  have h0 : env.sqrt 0 = 0 := (h.still .S).sqrt0
  rw [hsd, hrd, hsl, hrl] at e1 e2 e3 e4
  constructor
  · intro hp
    rw [if_pos hp] at e1 e2 e3 e4
    simp only [sub_zero, sub_self, add_zero, h0, h1, zero_mul, one_mul] at e1 e2 e3 e4
    exact ⟨e1, e3, e2, e4⟩
  · intro hp
    rw [if_neg hp] at e1 e2 e3 e4
    simp only [sub_zero, add_zero, h0, h1, zero_mul, one_mul, zero_add, zero_sub] at e1 e2 e3 e4
    exact ⟨e1, e2, e3, e4⟩

/-- **C132, refuted.**  Both mirrors get both losses (l.476-486).  With a loss for the rejected polarization the mirror that passes
would have to reflect a negative power unless it has a defect at least as large, and with a loss for the selected one
the mirror that rejects would have to transmit a negative power: no real amplitude has such a square. -/
theorem C132_loss_refuted (b : Pbs P ℝ) (p : Pol) :
    (p = b.pass_polarization → b.selection_defect < b.reject_loss →
      ∀ r : ℝ, r * r ≠ 1 - (b.mirror p).T_hr - (b.mirror p).L_hr - (b.mirror p).R_backscatter) ∧
    (p ≠ b.pass_polarization → b.rejection_defect < b.select_loss →
      ∀ t : ℝ, t * t ≠ (b.mirror p).T_hr - (b.mirror p).L_t) := by
  constructor
  · intro hp hlt r hr
    have := mul_self_nonneg r
    rw [hr] at this
    simp only [Pbs.mirror, if_pos hp] at this
    linarith
  · intro hp hlt t ht
    have := mul_self_nonneg t
    rw [ht] at this
    simp only [Pbs.mirror, if_neg hp] at this
    linarith

/-! ## the isolator -/

/-- A field on an isolator, with no light at the two inner ports that are not bonded. -/
structure Isolator.Fits (env : OEnv P O K F) (n : Isolator P F) (x : P × Key O K → F) : Prop where
  pbs_in : n.pol_BS_in.Fits env x
  pbs_out : n.pol_BS_out.Fits env x
  plate : n.lambda2.Fits env x
  plate_out : Follows (n.lambda2.setup env) x n.lambda2.coord_Fr_po_Fr.o ∧ Follows (n.lambda2.setup env) x n.lambda2.coord_Bk_po_Bk.o
  rot : Follows (n.faraday.faraday env) x n.faraday.po_Fr.o ∧ Follows (n.faraday.faraday env) x n.faraday.po_Bk.o
  rot_ne : n.faraday.po_Fr.o ≠ n.faraday.po_Bk.o
  rot_within : Within env x n.faraday.po_Fr.i ∧ Within env x n.faraday.po_Bk.i
  /-- faraday_isolator.py l.48-50 -/
  bonds : Bonded x (n.pol_BS_in.po .BkA) n.faraday.po_Fr ∧ Bonded x n.faraday.po_Bk n.lambda2.coord_Fr_po_Fr ∧
    Bonded x n.lambda2.coord_Bk_po_Bk (n.pol_BS_out.po .FrA)
  dark : ∀ k, x ((n.pol_BS_in.po .BkB).i, .opt k) = 0 ∧ x ((n.pol_BS_out.po .FrB).i, .opt k) = 0

/-- Beamsplitters without defects and losses that pass the polarization `p`, and a half-wave plate between them. -/
structure Isolator.Ideal (n : Isolator P F) (p : Pol) : Prop where
  pbs_in : n.pol_BS_in.pass_polarization = p ∧ n.pol_BS_in.selection_defect = 0 ∧ n.pol_BS_in.rejection_defect = 0 ∧
    n.pol_BS_in.select_loss = 0 ∧ n.pol_BS_in.reject_loss = 0
  pbs_out : n.pol_BS_out.pass_polarization = p ∧ n.pol_BS_out.selection_defect = 0 ∧ n.pol_BS_out.rejection_defect = 0 ∧
    n.pol_BS_out.select_loss = 0 ∧ n.pol_BS_out.reject_loss = 0
  plate : n.lambda2.cplgS = 1 ∧ n.lambda2.cplgP = -1

/-- Through the isolator both ways, for any angle `φ` of the rotator and `θ` of the plate. -/
theorem isolator_through (hA : Angles env) [CharZero F] (h1 : env.sqrt 1 = 1) {n : Isolator P F} {p : Pol}
    {x : P × Key O K → F} (h : n.Fits env x) (hi : n.Ideal p) {φ θ : F} (hφ : φ = n.faraday.rotate_deg / 180 * env.pi)
    (hθ : θ = n.lambda2.rotate_deg / 180 * env.pi) (k : OKey O K) (hk : k.pol = p) :
    x ((n.pol_BS_out.po .BkA).o, .opt k) = p.pick 1 (-1) * env.cos (2 * θ + φ) * x ((n.pol_BS_in.po .FrA).i, .opt k) ∧
    x ((n.pol_BS_in.po .FrA).o, .opt k) = p.pick 1 (-1) * env.cos (2 * θ - φ) * x ((n.pol_BS_out.po .BkA).i, .opt k) := by
  obtain ⟨o, f, pk, q⟩ := k
  dsimp only at hk
  subst hk
  obtain ⟨g1, g2, g3, g4, g5⟩ := hi.pbs_in
  obtain ⟨j1, j2, j3, j4, j5⟩ := hi.pbs_out
  have bin := fun k => C132_ideal_partial h.pbs_in h1 g2 g3 g4 g5 k
  have bout := fun k => C132_ideal_partial h.pbs_out h1 j2 j3 j4 j5 k
  obtain ⟨r1, _, _, r4, r5⟩ := C73_turn hA n.faraday h.rot_ne h.rot_within.1 h.rot_within.2 hφ o f q
  obtain ⟨r2, r3⟩ := r1 (n.faraday.faraday env) (by simp)
  obtain ⟨f1, f2⟩ := Mount.C74_half hA n.lambda2 hi.plate.1 hi.plate.2 h.plate hθ o f q (Or.inl rfl)
  obtain ⟨b1, b2⟩ := Mount.C74_half hA n.lambda2 hi.plate.1 hi.plate.2 h.plate hθ o f q (Or.inr rfl)
  rw [← h.plate_out.2] at f1 f2
  rw [← h.plate_out.1] at b1 b2
  rw [← h.rot.2] at r2 r3
  rw [← h.rot.1] at r4 r5
  obtain ⟨c1, c2, c3⟩ := h.bonds
  rw [(c1 _).1, (c1 _).1] at r2 r3
  rw [(c2 _).2, (c2 _).2] at r4 r5
  rw [(c2 _).1, (c2 _).1] at f1 f2
  rw [(c3 _).2, (c3 _).2] at b1 b2
  have hm : env.cos (2 * θ - φ) = env.cos (2 * θ) * env.cos φ + env.sin (2 * θ) * env.sin φ := by
    rw [sub_eq_add_neg, hA.cos_add, hA.cos_neg, hA.sin_neg]; ring
  rw [hA.cos_add, hm]
  have dk := fun p' => h.dark ⟨o, f, p', q⟩
  cases pk with
  | S =>
    have i1 := ((bin ⟨o, f, .S, q⟩).1 g1.symm)
    have i2 := ((bin ⟨o, f, .P, q⟩).2 (by rw [g1]; simp))
    have o1 := ((bout ⟨o, f, .S, q⟩).1 j1.symm)
    have o2 := ((bout ⟨o, f, .P, q⟩).2 (by rw [j1]; simp))
    rw [o1.2.1, i1.1, (c3 _).1, (c1 _).2, f1, r4, b1, b2, r2, r3, i1.2.1, i2.2.2.1, (dk .P).1, o1.1, o2.1, (dk .P).2]
    simp only [Pol.pick]
    constructor <;> ring
  | P =>
    have i1 := ((bin ⟨o, f, .P, q⟩).1 g1.symm)
    have i2 := ((bin ⟨o, f, .S, q⟩).2 (by rw [g1]; simp))
    have o1 := ((bout ⟨o, f, .P, q⟩).1 j1.symm)
    have o2 := ((bout ⟨o, f, .S, q⟩).2 (by rw [j1]; simp))
    rw [o1.2.1, i1.1, (c3 _).1, (c1 _).2, f2, r5, b1, b2, r2, r3, i1.2.1, i2.2.2.1, (dk .S).1, o1.1, o2.1, (dk .S).2]
    simp only [Pol.pick]
    constructor <;> ring

/-- **C133, in part.**  The isolator would isolate if its rotator turned by 45 degrees: with the plate at `-45/2` degrees all light of the
polarization passes forward and none of it backward.  Missing: the rotator of the code turns by nothing, see `C133_refuted`. -/
theorem C133_partial (hA : Angles env) [CharZero F] (h1 : env.sqrt 1 = 1) {n : Isolator P F} {p : Pol}
    {x : P × Key O K → F} (h : n.Fits env x) (hi : n.Ideal p) (hφ : n.faraday.rotate_deg = 45)
    (hθ : n.lambda2.rotate_deg = -45 / 2) (k : OKey O K) (hk : k.pol = p) :
    x ((n.pol_BS_out.po .BkA).o, .opt k) = (if p = .S then 1 else -1) * x ((n.pol_BS_in.po .FrA).i, .opt k) ∧
    x ((n.pol_BS_in.po .FrA).o, .opt k) = 0 := by
  obtain ⟨e1, e2⟩ := isolator_through hA h1 h hi rfl rfl k hk
  rw [hφ, hθ] at e1 e2
  have a1 : (2 : F) * (-45 / 2 / 180 * env.pi) + 45 / 180 * env.pi = 0 := by ring
  have a2 : (2 : F) * (-45 / 2 / 180 * env.pi) - 45 / 180 * env.pi = -(env.pi / 2) := by ring
  rw [a1, hA.cos_zero] at e1
  rw [a2, hA.cos_neg, hA.cos_half] at e2
  constructor
  · rw [e1]; cases p <;> simp [Pol.pick]
  · rw [e2]; ring

/-- **C133, refuted.**  The rotator of an isolator is built with its default angle, zero, so that nothing tells forward from backward: of
the light of the polarization passed, the same amplitude, half of the power, passes in both directions. -/
theorem C133_refuted (hA : Angles env) [CharZero F] (h1 : env.sqrt 1 = 1) (late : Bool) (tree : Option Pol) (pol_from pol_to : Pol)
    {n₀ n : Isolator P F} (hn : n = Isolator.build late tree pol_from pol_to n₀) {x : P × Key O K → F} (h : n.Fits env x) :
    ∃ c : F, c * c = 1 / 2 ∧ ∀ k : OKey O K, k.pol = n.pol_BS_in.pass_polarization →
      x ((n.pol_BS_out.po .BkA).o, .opt k) = c * x ((n.pol_BS_in.po .FrA).i, .opt k) ∧
      x ((n.pol_BS_in.po .FrA).o, .opt k) = c * x ((n.pol_BS_out.po .BkA).i, .opt k) := by
  have hi : n.Ideal n.pol_BS_in.pass_polarization := by
    subst hn; cases late <;> exact ⟨⟨rfl, rfl, rfl, rfl, rfl⟩, ⟨rfl, rfl, rfl, rfl, rfl⟩, rfl, rfl⟩
  have hf : n.faraday.rotate_deg = 0 := by subst hn; rfl
  have hm : n.lambda2.rotate_deg = -1 * 45 / 2 := by
    subst hn
    cases late
    · show (if tree.getD pol_from = tree.getD pol_from then (-1 : F) else 1) * 45 / 2 = _
      rw [if_pos rfl]
    · show (if tree.getD pol_to = tree.getD pol_to then (-1 : F) else 1) * 45 / 2 = _
      rw [if_pos rfl]
  set p := n.pol_BS_in.pass_polarization
  have a1 : (2 : F) * (-1 * 45 / 2 / 180 * env.pi) = -(env.pi / 4) := by ring
  have hc : env.cos (env.pi / 4) * env.cos (env.pi / 4) = 1 / 2 := by
    have s := hA.sq (env.pi / 4)
    have d := hA.cos_add (env.pi / 4) (env.pi / 4)
    rw [show env.pi / 4 + env.pi / 4 = env.pi / 2 by ring, hA.cos_half] at d
    linear_combination (1 / 2 : F) * s - (1 / 2 : F) * d
  refine ⟨p.pick 1 (-1) * env.cos (env.pi / 4), ?_, fun k hk => ?_⟩
  · rw [← hc]; cases p <;> simp [Pol.pick]
  · obtain ⟨e1, e2⟩ := isolator_through hA h1 h hi rfl rfl k hk
    rw [hf, hm, a1] at e1 e2
    simp only [zero_div, zero_mul, add_zero, sub_zero, hA.cos_neg] at e1 e2
    exact ⟨e1, e2⟩

/-- **C133, refuted.**  `pol_to` reads the entry of `pol_from`: whatever is asked for, light leaves in the polarization it enters. -/
theorem C133_pol_refuted (late : Bool) (tree : Option Pol) (pol_from pol_to : Pol) (n : Isolator P F) :
    (Isolator.build late tree pol_from pol_to n).pol_BS_out.pass_polarization
      = (Isolator.build late tree pol_from pol_to n).pol_BS_in.pass_polarization
    ∧ (pol_to ≠ pol_from →
      ¬((Isolator.build late tree pol_from pol_to n).pol_BS_in.pass_polarization = pol_from ∧
        (Isolator.build late tree pol_from pol_to n).pol_BS_out.pass_polarization = pol_to)) := by
  have h : (Isolator.build late tree pol_from pol_to n).pol_BS_out.pass_polarization
      = (Isolator.build late tree pol_from pol_to n).pol_BS_in.pass_polarization := by cases late <;> rfl
  exact ⟨h, fun hne hh => hne (hh.2.symm.trans (h.trans hh.1))⟩

end Optics
