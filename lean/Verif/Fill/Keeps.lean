import Mathlib.Algebra.Group.Subgroup.Basic
import Verif.Fill.Blocks
import Verif.Optics.Reality

/-! # The elements keep to the allowed keys -/

set_option linter.unusedSectionVars false

namespace Fill
open Py Ports Optics Circuit

variable {P O K R F : Type} [DecidableEq P] [DecidableEq O] [DecidableEq K] [AddCommGroup K]
  [AddCommGroup R] [LinearOrder R] [Field F] [StarRing F] [DecidableEq F]

/-- What a system allows: `reject` and `center` are `reject_classical_frequency_order` and `classical_frequency_extract_center`;
`kind` says which ports are optical (`some true`), which carry signals (`some false`), and which are never driven (`none`);
`opts` are the optical carriers with their polarizations and `G` the combinations of the classical frequencies of the system. -/
structure Rule (P O K R : Type) [AddCommGroup K] where
  reject : K → Bool
  center : K → R
  kind : P → Option Bool
  opts : O → Pol → Prop
  G : AddSubgroup K

/-- The keys allowed at a port: of its kind, with a carrier and frequencies of the system, and within the order limits. -/
def Rule.Good (A : Rule P O K R) (p : P) : Key O K → Prop
  | .opt k => A.kind p = some true ∧ A.opts k.opt k.pol ∧ k.cls ∈ A.G ∧ A.reject k.cls = false
  | .sig f => A.kind p = some false ∧ f ∈ A.G ∧ A.reject f = false

/-- The two ends of an optical port. -/
def Rule.Light (A : Rule P O K R) (p : Port P) : Prop := A.kind p.i = some true ∧ A.kind p.o = some true

/-- A port that carries signals. -/
def Rule.Sig (A : Rule P O K R) (p : P) : Prop := A.kind p = some false

/-- A frequency key that the system allows. -/
def Rule.Freq (A : Rule P O K R) (f : K) : Prop := f ∈ A.G ∧ A.reject f = false

/-- The polarization may be turned by an angle: by 0 or half a turn, or both polarizations are allowed. -/
def Rule.Turns (A : Rule P O K R) (d : F) : Prop :=
  (d = 0 ∨ d = 180 ∨ d = -180) ∨ ∀ o p p', A.opts o p → A.opts o p'

/-- An optical element has ports of the right kinds; a laser has an allowed key; every allowed key belongs to one port of a
selector; nothing drives the port `BA` of a photodiode. -/
def Rule.FitsO (A : Rule P O K R) : OElem P O K F → Prop
  | .space e => A.Light e.po_Fr ∧ A.Light e.po_Bk
  | .laser e => A.Light e.po_Fr ∧ A.opts e.opt e.pol ∧ A.Freq e.cls
  | .mirror m => (∀ a, A.Light (m.port a)) ∧ A.Sig m.Zd ∧ A.Sig m.ZF
  | .pd p b w => A.Light p ∧ A.kind b = none ∧ A.Sig w
  | .magicPD p q w => A.Light p ∧ A.Light q ∧ A.Sig w
  | .pm p q d b => A.Light p ∧ A.Light q ∧ A.Sig d ∧ A.Sig b
  | .am p q d b => A.Light p ∧ A.Light q ∧ A.Sig d ∧ A.Sig b
  | .ampm p q a b => A.Light p ∧ A.Light q ∧ A.Sig a ∧ A.Sig b
  | .circulator l => ∀ p ∈ l, A.Light p
  | .rotator e => (A.Light e.po_Fr ∧ A.Light e.po_Bk) ∧ A.Turns e.rotate_deg
  | .faraday e => (A.Light e.po_Fr ∧ A.Light e.po_Bk) ∧ A.Turns e.rotate_deg
  | .wavePlate e => A.Light e.po_Fr ∧ A.Light e.po_Bk
  | .polSelector p a b => A.Light p ∧ A.Light a ∧ A.Light b
  | .selector p l => A.Light p ∧ (∀ x ∈ l, A.Light x.1) ∧
      ∀ k : OKey O K, A.opts k.opt k.pol → A.Freq k.cls → (l.filter (fun pt => pt.2 k)).length = 1
  | .owire _ _ => True
  | .swire _ _ => True

/-- A signal element has signal ports; the frequencies of a generator are allowed. -/
def Rule.FitsS (A : Rule P O K R) : Signal.SElem P K R F → Prop
  | .siso e => A.Sig e.ps_In ∧ A.Sig e.ps_Out
  | .distribution p g => A.Sig p ∧ ∀ x ∈ g, A.Sig x.1
  | .summing p g => A.Sig p ∧ ∀ x ∈ g, A.Sig x.1
  | .generator e => A.Sig e.ps_Out ∧ A.Freq e.f_key ∧ A.Freq (-e.f_key) ∧
      ∀ h ∈ e.harmonics, A.Sig h.1 ∧ A.Freq (h.2.1 • e.f_key) ∧ A.Freq ((-h.2.1) • e.f_key)
  | .mixer a b c d => a ≠ b ∧ A.Sig a ∧ A.Sig b ∧ A.Sig c ∧ A.Sig d
  | .modulator a b c d _ => A.Sig a ∧ A.Sig b ∧ A.Sig c ∧ A.Sig d
  | .harmonic2 a b => A.Sig a ∧ A.Sig b
  | .meanSquare a b => A.Sig a ∧ A.Sig b ∧ A.reject 0 = false
  | .wire _ _ => True

/-- An element fits the system. -/
def Rule.Fits (A : Rule P O K R) : FElem P O K R F → Prop
  | .optical e => A.FitsO e
  | .signal e => A.FitsS e
  | .linear l => ∀ x ∈ l, A.kind x.1 = A.kind x.2

section Keeps
variable {A : Rule P O K R}

theorem good_move {p q : P} (h : A.kind p = A.kind q) {k : Key O K} (hk : A.Good p k) : A.Good q k := by
  cases k with
  | opt k => exact ⟨h ▸ hk.1, hk.2⟩
  | sig k => exact ⟨h ▸ hk.1, hk.2⟩

theorem keeps_copy {a b : P} (h : A.kind a = A.kind b) : (copy a b : Block P (Key O K)).Keeps A.Good := by
  intro k hk r hr
  rw [Finset.mem_singleton] at hr
  subst hr
  exact good_move h hk

theorem keeps_through {a : P} {ptos : List P} (h : ∀ q ∈ ptos, A.kind a = A.kind q) :
    (fill_through a ptos : Block P (Key O K)).Keeps A.Good := by
  intro k hk r hr
  rw [List.mem_toFinset, List.mem_map] at hr
  obtain ⟨q, hq, rfl⟩ := hr
  exact good_move (h q hq) hk

theorem good_at {p q : P} {k : OKey O K} (hk : A.Good p (.opt k)) (hq : A.kind q = some true) {f : K} (hf : f ∈ A.G)
    (hr : ¬ A.reject f = true) : A.Good q (.opt (k.at f)) := ⟨hq, hk.2.1, hf, Bool.eq_false_iff.2 hr⟩

theorem up_mem {k : OKey O K} {l : K} (hk : k.cls ∈ A.G) (hl : l ∈ A.G) : up k l ∈ A.G := by
  unfold up
  cases k.q
  · exact A.G.add_mem hk hl
  · exact A.G.sub_mem hk hl

theorem down_mem {k : OKey O K} {l : K} (hk : k.cls ∈ A.G) (hl : l ∈ A.G) : down k l ∈ A.G := by
  unfold down
  cases k.q
  · exact A.G.sub_mem hk hl
  · exact A.G.add_mem hk hl

theorem beat_mem {k l : OKey O K} (hk : k.cls ∈ A.G) (hl : l.cls ∈ A.G) : beat k l ∈ A.G := by
  unfold beat
  cases k.q
  · exact A.G.sub_mem hk hl
  · exact A.G.sub_mem hl hk

theorem drive_mem {k l : OKey O K} (hk : k.cls ∈ A.G) (hl : l.cls ∈ A.G) : drive k l ∈ A.G := by
  unfold drive
  cases k.q
  · exact A.G.sub_mem hl hk
  · exact A.G.sub_mem hk hl

theorem keeps_in {a inp : P} {ptos : List P} (ha : A.kind a = some true) (h : ∀ q ∈ ptos, A.kind q = some true) :
    (fill_in A.reject a ptos inp : Block P (Key O K)).Keeps A.Good := by
  intro q hq k1 k2 h1 h2 r hr
  rw [argPorts, List.mem_singleton] at hq
  subst hq
  cases k1 with
  | sig _ => simp at hr
  | opt k =>
  cases k2 with
  | opt _ => simp at hr
  | sig l =>
  dsimp only at hr
  split at hr
  · simp at hr
  rename_i hrej
  rw [Finset.mem_union, Finset.mem_insert, Finset.mem_singleton, List.mem_toFinset, List.mem_flatMap] at hr
  rcases hr with (rfl | rfl) | ⟨p, hp, hr⟩
  · exact h1
  · exact h2
  · simp only [List.mem_cons, List.not_mem_nil, or_false] at hr
    rcases hr with rfl | rfl
    · exact good_at h1 (h p hp) (up_mem h1.2.2.1 h2.2.1) hrej
    · exact good_move (ha.trans (h p hp).symm) h1

theorem keeps_unbound {a inp : P} {ptos : List P} (h : ptos = [] → A.kind inp = none) :
    ∀ b ∈ (fill_unbound A.reject a ptos inp : List (Block P (Key O K))), b.Keeps A.Good := by
  intro b hb
  unfold fill_unbound at hb
  split at hb
  · rename_i hp
    rw [List.mem_singleton] at hb
    subst hb
    intro k1 k2 _ h2
    cases k2 with
    | opt k => rw [Rule.Good, h hp] at h2; exact absurd h2.1 (by simp)
    | sig k => rw [Rule.Good, h hp] at h2; exact absurd h2.1 (by simp)
  · simp at hb

theorem keeps_out {a out : P} : (fill_out A.reject a out : Block P (Key O K)).Keeps A.Good := by
  intro q hq k1 k2 h1 h2 r hr
  rw [argPorts, List.mem_singleton] at hq
  subst hq
  cases k1 with
  | sig _ => simp at hr
  | opt k =>
  cases k2 with
  | opt _ => simp at hr
  | sig l =>
  dsimp only at hr
  split at hr
  · simp at hr
  rename_i hrej
  rw [Finset.mem_singleton] at hr
  subst hr
  exact ⟨h1.1, h1.2.1, down_mem h1.2.2.1 h2.2.1, Bool.eq_false_iff.2 hrej⟩

theorem keeps_beat {a out : P} (ho : A.kind out = some false) :
    (fill_beat A.reject a out : Block P (Key O K)).Keeps A.Good := by
  intro q hq k1 k2 h1 h2 r hr
  rw [argPorts, List.mem_singleton] at hq
  subst hq
  cases k1 with
  | sig _ => simp at hr
  | opt k =>
  cases k2 with
  | sig _ => simp at hr
  | opt l =>
  dsimp only at hr
  split at hr
  · simp at hr
  rename_i hrej
  rw [Finset.mem_singleton] at hr
  subst hr
  exact ⟨ho, beat_mem h1.2.2.1 h2.2.2.1, Bool.eq_false_iff.2 hrej⟩

theorem keeps_drive {a inp : P} {ptos : List P} (hi : A.kind inp = some false) :
    (fill_drive A.reject a ptos inp : Block P (Key O K)).Keeps A.Good := by
  intro q hq k1 k2 h1 h2 r hr
  cases k1 with
  | sig _ => simp at hr
  | opt k =>
  cases k2 with
  | sig _ => simp at hr
  | opt l =>
  dsimp only at hr
  split at hr
  swap
  · simp at hr
  split at hr
  · simp at hr
  rename_i hrej
  rw [Finset.mem_singleton] at hr
  subst hr
  exact ⟨hi, drive_mem h1.2.2.1 h2.2.2.1, Bool.eq_false_iff.2 hrej⟩

theorem keeps_drive_dead {a inp : P} : (fill_drive A.reject a [] inp : Block P (Key O K)).Keeps A.Good := by
  intro q hq
  simp [argPorts] at hq

theorem keeps_back {a out : P} {pfroms : List P} (h : ∀ q ∈ pfroms, A.kind q = some true) :
    (fill_back A.reject a pfroms out : Block P (Key O K)).Keeps A.Good := by
  intro q hq k1 k2 h1 h2 r hr
  rw [argPorts, List.mem_singleton] at hq
  subst hq
  cases k1 with
  | sig _ => simp at hr
  | opt k =>
  cases k2 with
  | opt _ => simp at hr
  | sig l =>
  dsimp only at hr
  split at hr
  · simp at hr
  rename_i hrej
  rw [List.mem_toFinset, List.mem_map] at hr
  obtain ⟨p, hp, rfl⟩ := hr
  exact good_at h1 (h p hp) (down_mem h1.2.2.1 h2.2.1) hrej

/-- The ports of `ports_fill_2optical_2classical` have the right kinds. -/
structure FillFits (A : Rule P O K R) (ins outs : List (P × List P)) (inp out : Option P) : Prop where
  hins : ∀ x ∈ ins, A.kind x.1 = some true ∧ ∀ q ∈ x.2, A.kind q = some true
  houts : ∀ x ∈ outs, ∀ q ∈ x.2, A.kind q = some true
  hinp : ∀ c, inp = some c → (A.kind c = some false ∧ ∀ x ∈ ins, x.2 ≠ []) ∨ (A.kind c = none ∧ ∀ x ∈ ins, x.2 = [])
  hout : ∀ c, out = some c → A.kind c = some false

theorem keeps_fill {ins outs : List (P × List P)} {inp out : Option P} (h : FillFits A ins outs inp out) :
    ∀ b ∈ (fill A.reject ins outs inp out : List (Block P (Key O K))), b.Keeps A.Good := by
  intro b hb
  unfold fill at hb
  simp only [List.mem_append, List.mem_flatMap] at hb
  rcases hb with ⟨x, hx, ((hb | hb) | hb) | hb⟩ | ⟨x, hx, hb⟩
  · rw [List.mem_singleton] at hb
    subst hb
    exact keeps_through (fun q hq => (h.hins x hx).1.trans ((h.hins x hx).2 q hq).symm)
  · cases inp with
    | none => simp at hb
    | some c =>
      rcases List.mem_cons.1 hb with rfl | hb
      · exact keeps_in (h.hins x hx).1 (h.hins x hx).2
      · rcases h.hinp c rfl with hc | hc
        · exact keeps_unbound (fun hp => absurd hp (hc.2 x hx)) b hb
        · exact keeps_unbound (fun _ => hc.1) b hb
  · cases out with
    | none => simp at hb
    | some c =>
      simp only [List.mem_cons, List.not_mem_nil, or_false] at hb
      rcases hb with rfl | rfl
      · exact keeps_out
      · exact keeps_beat (h.hout c rfl)
  · cases inp with
    | none => simp at hb
    | some c =>
      rw [List.mem_singleton] at hb
      subst hb
      rcases h.hinp c rfl with hc | hc
      · exact keeps_drive hc.1
      · rw [hc.2 x hx]
        exact keeps_drive_dead
  · cases out with
    | none => simp at hb
    | some c =>
      rw [List.mem_singleton] at hb
      subst hb
      exact keeps_back (h.houts x hx)

theorem keeps_swapped (ht : ∀ o p p', A.opts o p → A.opts o p') {a b : P} (h : A.kind b = some true) : (swapped a b : Block P (Key O K)).Keeps A.Good := by
  intro k hk r hr
  cases k with
  | sig _ => simp at hr
  | opt k =>
    rw [Finset.mem_singleton] at hr
    subst hr
    exact ⟨h, ht _ _ _ hk.2.1, hk.2.2⟩

theorem keeps_both (ht : ∀ o p p', A.opts o p → A.opts o p') {a b : P} (h : A.kind b = some true) : (both a b : Block P (Key O K)).Keeps A.Good := by
  intro k hk r hr
  cases k with
  | sig _ => simp at hr
  | opt k =>
    rw [Finset.mem_insert, Finset.mem_singleton] at hr
    rcases hr with rfl | rfl <;> exact ⟨h, ht _ _ _ hk.2.1, hk.2.2⟩

theorem keeps_by_pol {a p s : P} (hp : A.kind p = some true) (hs : A.kind s = some true) :
    (by_pol a p s : Block P (Key O K)).Keeps A.Good := by
  intro k hk r hr
  cases k with
  | sig _ => simp at hr
  | opt k =>
    dsimp only at hr
    split at hr <;> rw [Finset.mem_singleton] at hr <;> subst hr
    · exact ⟨hp, hk.2⟩
    · exact ⟨hs, hk.2⟩

theorem keeps_by_test {a : P} {l : List (P × (OKey O K → Bool))} (h : ∀ x ∈ l, A.kind x.1 = some true) :
    (by_test a l : Block P (Key O K)).Keeps A.Good := by
  intro k hk r hr
  cases k with
  | sig _ => simp at hr
  | opt k =>
    rw [List.mem_toFinset, List.mem_map] at hr
    obtain ⟨x, hx, rfl⟩ := hr
    exact ⟨h x (List.mem_filter.1 hx).1, hk.2⟩

theorem keeps_two_way {p q : Port P} (hp : A.Light p) (hq : A.Light q) :
    ∀ b ∈ (two_way p q : List (Block P (Key O K))), b.Keeps A.Good := by
  intro b hb
  simp only [two_way, List.mem_cons, List.not_mem_nil, or_false] at hb
  rcases hb with rfl | rfl | rfl | rfl <;> apply keeps_copy
  · exact hp.1.trans hq.2.symm
  · exact hp.2.trans hq.1.symm
  · exact hq.1.trans hp.2.symm
  · exact hq.2.trans hp.1.symm

theorem light_at4 {m : Mirror P F} (h : ∀ a, A.Light (m.port a)) (a b : MPort) : A.Light (m.at4 a b) := by
  unfold Mirror.at4
  split
  · exact h b
  · exact h a

theorem keeps_mirror_port {port t l r b : Port P} (T L Rf B : Bool) (hp : A.Light port) (ht : A.Light t) (hl : A.Light l)
    (hr : A.Light r) (hb : A.Light b) :
    ∀ x ∈ (mirror_port T L Rf B port t l r b : List (Block P (Key O K))), x.Keeps A.Good := by
  intro x hx
  have key : ∀ p q : P, A.kind p = some true → A.kind q = some true → (copy p q : Block P (Key O K)).Keeps A.Good :=
    fun p q h1 h2 => keeps_copy (h1.trans h2.symm)
  have opt : ∀ (c : Bool) (p q : P), A.kind p = some true → A.kind q = some true →
      x ∈ (if c = true then [copy p q] else [] : List (Block P (Key O K))) → x.Keeps A.Good := by
    intro c p q h1 h2 hx
    split at hx
    · rw [List.mem_singleton] at hx
      subst hx
      exact key p q h1 h2
    · simp at hx
  simp only [mirror_port, List.mem_append] at hx
  rcases hx with ((((((((hx | hx) | hx) | hx) | hx) | hx) | hx) | hx) | hx) | hx
  · rw [List.mem_singleton] at hx
    subst hx
    exact key _ _ hp.1 hp.2
  · exact opt _ _ _ hp.1 ht.2 hx
  · exact opt _ _ _ hp.1 hl.2 hx
  · exact opt _ _ _ hp.1 hr.2 hx
  · exact opt _ _ _ hp.1 hb.2 hx
  · rw [List.mem_singleton] at hx
    subst hx
    exact key _ _ hp.2 hp.1
  · exact opt _ _ _ hp.2 ht.1 hx
  · exact opt _ _ _ hp.2 hl.1 hx
  · exact opt _ _ _ hp.2 hr.1 hx
  · exact opt _ _ _ hp.2 hb.1 hx

theorem keeps_mirror_loss {port l : Port P} (hp : A.Light port) (hl : A.Light l) :
    ∀ x ∈ (mirror_loss port l : List (Block P (Key O K))), x.Keeps A.Good := by
  intro x hx
  simp only [mirror_loss, List.mem_cons, List.not_mem_nil, or_false] at hx
  rcases hx with rfl | rfl | rfl | rfl <;> apply keeps_copy
  · exact hp.1.trans hp.2.symm
  · exact hp.1.trans hl.2.symm
  · rfl
  · exact hp.2.trans hl.1.symm

theorem fits_mirror {m : Mirror P F} (h : ∀ a, A.Light (m.port a)) (hd : A.Sig m.Zd) (hF : A.Sig m.ZF) :
    FillFits A [(m.FrA.i, [m.FrB.o]), (m.BkA.i, [m.BkB.o]), (m.FrB.i, [m.FrA.o]), (m.BkB.i, [m.BkA.o])]
      [(m.FrA.o, [m.FrB.i]), (m.BkA.o, [m.BkB.i]), (m.FrB.o, [m.FrA.i]), (m.BkB.o, [m.BkA.i])]
      (some m.Zd) (some m.ZF) := by
  have h4 := light_at4 h
  refine ⟨?_, ?_, ?_, ?_⟩
  · intro x hx
    simp only [List.mem_cons, List.not_mem_nil, or_false] at hx
    rcases hx with rfl | rfl | rfl | rfl <;> exact ⟨(h4 _ _).1, fun q hq => by rw [List.mem_singleton.1 hq]; exact (h4 _ _).2⟩
  · intro x hx
    simp only [List.mem_cons, List.not_mem_nil, or_false] at hx
    rcases hx with rfl | rfl | rfl | rfl <;> (intro q hq; rw [List.mem_singleton.1 hq]; exact (h4 _ _).1)
  · rintro c ⟨⟩
    exact Or.inl ⟨hd, by simp⟩
  · rintro c ⟨⟩
    exact hF

theorem keeps_mirror {m : Mirror P F} (h : ∀ a, A.Light (m.port a)) (hd : A.Sig m.Zd) (hF : A.Sig m.ZF) :
    ∀ x ∈ (mirror_ports A.reject m : List (Block P (Key O K))), x.Keeps A.Good := by
  have h4 := light_at4 h
  intro x hx
  simp only [mirror_ports, List.mem_append] at hx
  rcases hx with ((((hx | hx) | hx) | hx) | hx) | hx
  · exact keeps_mirror_port _ _ _ _ (h4 _ _) (h4 _ _) (h4 _ _) (h4 _ _) (h4 _ _) x hx
  · exact keeps_mirror_port _ _ _ _ (h4 _ _) (h4 _ _) (h4 _ _) (h4 _ _) (h4 _ _) x hx
  · exact keeps_mirror_port _ _ _ _ (h4 _ _) (h4 _ _) (h4 _ _) (h4 _ _) (h4 _ _) x hx
  · exact keeps_mirror_port _ _ _ _ (h4 _ _) (h4 _ _) (h4 _ _) (h4 _ _) (h4 _ _) x hx
  · split at hx
    · simp only [List.mem_append] at hx
      rcases hx with ((hx | hx) | hx) | hx <;> exact keeps_mirror_loss (h4 _ _) (h4 _ _) x hx
    · simp at hx
  · exact keeps_fill (fits_mirror h hd hF) x hx

theorem fits_two {p q : Port P} {inp out : Option P} (hp : A.Light p) (hq : A.Light q) (hi : ∀ c, inp = some c → A.Sig c)
    (ho : ∀ c, out = some c → A.Sig c) :
    FillFits A [(p.i, [q.o]), (q.i, [p.o])] [(p.o, [q.i]), (q.o, [p.i])] inp out := by
  refine ⟨?_, ?_, ?_, ho⟩
  · intro x hx
    simp only [List.mem_cons, List.not_mem_nil, or_false] at hx
    rcases hx with rfl | rfl
    · exact ⟨hp.1, by simpa using hq.2⟩
    · exact ⟨hq.1, by simpa using hp.2⟩
  · intro x hx
    simp only [List.mem_cons, List.not_mem_nil, or_false] at hx
    rcases hx with rfl | rfl
    · simpa using hq.1
    · simpa using hp.1
  · intro c hc
    exact Or.inl ⟨hi c hc, by simp⟩

theorem keeps_rotator {e : Rotator P F} (hp : A.Light e.po_Fr) (hq : A.Light e.po_Bk) (ht : A.Turns e.rotate_deg) :
    ∀ x ∈ (rotator_ports e : List (Block P (Key O K))), x.Keeps A.Good := by
  intro x hx
  unfold rotator_ports at hx
  dsimp only at hx
  split_ifs at hx with h1 h2
  · exact keeps_two_way hp hq x hx
  · simp only [List.mem_cons, List.not_mem_nil, or_false] at hx
    rcases hx with rfl | rfl | rfl | rfl <;> apply keeps_swapped (ht.resolve_left h1)
    · exact hq.2
    · exact hq.1
    · exact hp.2
    · exact hp.1
  · simp only [List.mem_cons, List.not_mem_nil, or_false] at hx
    rcases hx with rfl | rfl | rfl | rfl <;> apply keeps_both (ht.resolve_left h1)
    · exact hq.2
    · exact hq.1
    · exact hp.2
    · exact hp.1

theorem keeps_optical {e : OElem P O K F} (h : A.FitsO e) :
    ∀ b ∈ optical_ports A.reject e, b.Keeps A.Good := by
  cases e with
  | space e => exact keeps_two_way h.1 h.2
  | laser e =>
    intro b hb
    simp only [optical_ports, ends, List.mem_cons, List.not_mem_nil, or_false] at hb
    rcases hb with rfl | rfl <;> apply keeps_copy
    · exact h.1.2.trans h.1.1.symm
    · exact h.1.1.trans h.1.2.symm
  | mirror m => exact keeps_mirror h.1 h.2.1 h.2.2
  | pd p b w =>
    have hf : FillFits A [(p.i, [])] [] (some b) (some w) := by
      refine ⟨?_, by simp, ?_, ?_⟩
      · simpa using h.1.1
      · rintro c ⟨⟩
        exact Or.inr ⟨h.2.1, by simp⟩
      · rintro c ⟨⟩
        exact h.2.2
    exact keeps_fill hf
  | magicPD p q w =>
    intro b hb
    simp only [optical_ports, magic_pd_ports, List.mem_append, List.mem_cons, List.not_mem_nil, or_false] at hb
    rcases hb with hb | rfl | rfl
    · refine keeps_fill ⟨?_, ?_, by simp, ?_⟩ b hb
      · simpa using ⟨h.1.1, h.2.1.2⟩
      · simpa using h.1.1
      · rintro c ⟨⟩
        exact h.2.2
    · exact keeps_copy (h.2.1.1.trans h.1.2.symm)
    · exact keeps_copy (h.2.1.2.trans h.1.1.symm)
  | pm p q d c =>
    intro b hb
    simp only [optical_ports, pm_ports, List.mem_append] at hb
    rcases hb with hb | hb
    · exact keeps_two_way h.1 h.2.1 b hb
    · refine keeps_fill (fits_two h.1 h.2.1 ?_ ?_) b hb <;> rintro c ⟨⟩
      · exact h.2.2.1
      · exact h.2.2.2
  | am p q d c =>
    intro b hb
    simp only [optical_ports, pm_ports, List.mem_append] at hb
    rcases hb with hb | hb
    · exact keeps_two_way h.1 h.2.1 b hb
    · refine keeps_fill (fits_two h.1 h.2.1 ?_ ?_) b hb <;> rintro c ⟨⟩
      · exact h.2.2.1
      · exact h.2.2.2
  | ampm p q d c =>
    intro b hb
    simp only [optical_ports, ampm_ports, List.mem_append] at hb
    rcases hb with (hb | hb) | hb
    · exact keeps_two_way h.1 h.2.1 b hb
    · refine keeps_fill (fits_two h.1 h.2.1 ?_ ?_) b hb <;> rintro c ⟨⟩
      exact h.2.2.1
    · refine keeps_fill (fits_two h.1 h.2.1 ?_ ?_) b hb <;> rintro c ⟨⟩
      exact h.2.2.2
  | circulator l =>
    intro b hb
    simp only [optical_ports, circulator_ports, List.mem_flatMap] at hb
    obtain ⟨pi, hpi, hb⟩ := hb
    have h1 := h _ (List.fst_mem_of_mem_zipIdx hpi)
    split at hb
    · simp at hb
    · rename_i next hn
      have h2 := h next (List.mem_of_getElem? hn)
      simp only [List.mem_cons, List.not_mem_nil, or_false] at hb
      rcases hb with rfl | rfl
      · exact keeps_copy (h1.1.trans h2.2.symm)
      · exact keeps_copy (h2.2.trans h1.1.symm)
  | rotator e => exact keeps_rotator h.1.1 h.1.2 h.2
  | faraday e => exact keeps_rotator h.1.1 h.1.2 h.2
  | wavePlate e => exact keeps_two_way h.1 h.2
  | polSelector p a c =>
    obtain ⟨h1, h2, h3⟩ := h
    intro b hb
    simp only [optical_ports, pol_selector_ports, List.mem_cons, List.not_mem_nil, or_false] at hb
    rcases hb with rfl | rfl | rfl | rfl | rfl | rfl
    · exact keeps_by_pol h2.2 h3.2
    · exact keeps_copy (h2.1.trans h1.2.symm)
    · exact keeps_copy (h3.1.trans h1.2.symm)
    · exact keeps_by_pol h2.1 h3.1
    · exact keeps_copy (h2.2.trans h1.1.symm)
    · exact keeps_copy (h3.2.trans h1.1.symm)
  | selector p l =>
    obtain ⟨h1, h2, h3⟩ := h
    intro b hb
    simp only [optical_ports, selector_ports, List.mem_append, List.mem_cons, List.not_mem_nil, or_false, List.mem_map] at hb
    rcases hb with (((rfl | rfl) | ⟨x, hx, rfl⟩) | rfl) | ⟨x, hx, rfl⟩
    · refine keeps_by_test ?_
      intro x hx
      obtain ⟨y, hy, rfl⟩ := List.mem_map.1 hx
      exact (h2 y hy).2
    · intro k hk
      cases k with
      | sig _ => rfl
      | opt k => exact decide_eq_true (h3 k hk.2.1 ⟨hk.2.2.1, hk.2.2.2⟩)
    · exact keeps_copy ((h2 x hx).1.trans h1.2.symm)
    · refine keeps_by_test ?_
      intro x hx
      obtain ⟨y, hy, rfl⟩ := List.mem_map.1 hx
      exact (h2 y hy).1
    · exact keeps_copy ((h2 x hx).2.trans h1.1.symm)
  | owire _ _ => simp [optical_ports]
  | swire _ _ => simp [optical_ports]

/-! ## signals -/

theorem keeps_siso {e : Signal.Siso P R F} {a b : P} (h : A.kind a = A.kind b) :
    (siso_copy A.center e a b : Block P (Key O K)).Keeps A.Good := by
  intro k hk r hr
  cases k with
  | opt _ => simp at hr
  | sig k =>
    dsimp only at hr
    split at hr
    · simp at hr
    · rw [Finset.mem_singleton] at hr
      subst hr
      exact good_move h hk

theorem keeps_mix {a : P} {b : PortArg P} {f : K → K → K} {ptos : List P} (hf : ∀ x y, x ∈ A.G → y ∈ A.G → f x y ∈ A.G)
    (h : ∀ p ∈ ptos, A.Sig p) : (mix A.reject a b f ptos : Block P (Key O K)).Keeps A.Good := by
  intro q _ k1 k2 h1 h2 r hr
  cases k1 with
  | opt _ => simp at hr
  | sig k1 =>
  cases k2 with
  | opt _ => simp at hr
  | sig k2 =>
    dsimp only at hr
    split at hr
    · simp at hr
    · rename_i hrej
      rw [List.mem_toFinset, List.mem_map] at hr
      obtain ⟨p, hp, rfl⟩ := hr
      exact ⟨h p hp, hf _ _ h1.2.1 h2.2.1, Bool.eq_false_iff.2 hrej⟩

theorem keeps_signal {e : Signal.SElem P K R F} (h : A.FitsS e) :
    ∀ b ∈ (signal_ports A.reject A.center e : List (Block P (Key O K))), b.Keeps A.Good := by
  intro b hb
  have hadd : ∀ x y, x ∈ A.G → y ∈ A.G → x + y ∈ A.G := fun _ _ => A.G.add_mem
  have hsub : ∀ x y, x ∈ A.G → y ∈ A.G → y - x ∈ A.G := fun _ _ h1 h2 => A.G.sub_mem h2 h1
  have hsub' : ∀ x y, x ∈ A.G → y ∈ A.G → x - y ∈ A.G := fun _ _ h1 h2 => A.G.sub_mem h1 h2
  cases e with
  | siso e =>
    simp only [signal_ports, List.mem_cons, List.not_mem_nil, or_false] at hb
    rcases hb with rfl | rfl
    · exact keeps_siso (h.1.trans h.2.symm)
    · exact keeps_siso (h.2.trans h.1.symm)
  | distribution p g =>
    simp only [signal_ports, List.mem_append, List.mem_map] at hb
    rcases hb with ⟨x, hx, rfl⟩ | ⟨x, hx, rfl⟩
    · exact keeps_copy (h.1.trans (h.2 x hx).symm)
    · exact keeps_copy ((h.2 x hx).trans h.1.symm)
  | summing p g =>
    simp only [signal_ports, List.mem_append, List.mem_map] at hb
    rcases hb with ⟨x, hx, rfl⟩ | ⟨x, hx, rfl⟩
    · exact keeps_copy (h.1.trans (h.2 x hx).symm)
    · exact keeps_copy ((h.2 x hx).trans h.1.symm)
  | generator e => simp [signal_ports] at hb
  | mixer a c d f =>
    obtain ⟨_, h1, h2, h3, h4⟩ := h
    simp only [signal_ports, mixer_ports, List.mem_cons, List.not_mem_nil, or_false] at hb
    rcases hb with rfl | rfl | rfl
    · exact keeps_mix hadd (by simpa using ⟨h3, h4⟩)
    · exact keeps_mix hsub (by simpa using h2)
    · exact keeps_mix hsub (by simpa using h1)
  | modulator a c d f φ =>
    obtain ⟨h1, h2, h3, h4⟩ := h
    simp only [signal_ports, modulator_ports, List.mem_cons, List.not_mem_nil, or_false] at hb
    rcases hb with rfl | rfl | rfl | rfl | rfl
    · exact keeps_copy (h1.trans h4.symm)
    · exact keeps_copy (h4.trans h1.symm)
    · exact keeps_mix hadd (by simpa using h4)
    · exact keeps_mix hsub' (by simpa using ⟨h2, h3⟩)
    · exact keeps_mix hsub' (by simpa using h1)
  | harmonic2 a c =>
    simp only [signal_ports, harmonic2_ports, List.mem_cons, List.not_mem_nil, or_false] at hb
    rcases hb with rfl | rfl | rfl <;> intro k1 k2 h1 h2 r hr <;> cases k1 <;> cases k2 <;> dsimp only at hr
    any_goals (exfalso; simpa using hr)
    all_goals
      split at hr
      · exact absurd hr (by simp)
      split at hr
      · exact absurd hr (by simp)
      rename_i hrej
      rw [Finset.mem_singleton] at hr
      subst hr
    · exact ⟨h.2, A.G.add_mem h1.2.1 h2.2.1, Bool.eq_false_iff.2 hrej⟩
    · exact ⟨h.1, A.G.sub_mem h2.2.1 h1.2.1, Bool.eq_false_iff.2 hrej⟩
    · exact ⟨h.1, A.G.sub_mem h1.2.1 h2.2.1, Bool.eq_false_iff.2 hrej⟩
  | meanSquare a c =>
    simp only [signal_ports, mean_square_ports, List.mem_cons, List.not_mem_nil, or_false] at hb
    rcases hb with rfl | rfl
    · intro k hk r hr
      cases k with
      | opt _ => simp at hr
      | sig k =>
        dsimp only at hr
        split at hr
        · simp at hr
        · rename_i hrej
          rw [Finset.mem_singleton] at hr
          subst hr
          exact ⟨h.1, A.G.neg_mem hk.2.1, Bool.eq_false_iff.2 hrej⟩
    · intro r hr
      rw [Finset.mem_singleton] at hr
      subst hr
      exact ⟨h.2.1, A.G.zero_mem, h.2.2⟩
  | wire _ _ => simp [signal_ports] at hb

/-- **The loops of an element that fits keep to the allowed keys.** -/
theorem keeps_ports {e : FElem P O K R F} (h : A.Fits e) : ∀ b ∈ e.ports A.reject A.center, b.Keeps A.Good := by
  cases e with
  | optical e => exact keeps_optical h
  | signal e => exact keeps_signal h
  | linear l =>
    intro b hb
    obtain ⟨x, hx, rfl⟩ := List.mem_map.1 hb
    exact keeps_copy (h x hx)

theorem keeps_initial {e : FElem P O K R F} (h : A.Fits e) : ∀ r ∈ e.initial, A.Good r.1 r.2 := by
  intro r hr
  cases e with
  | optical e =>
    cases e with
    | laser e =>
      simp only [FElem.initial, optical_initial, List.mem_cons, List.not_mem_nil, or_false] at hr
      rcases hr with rfl | rfl <;> exact ⟨h.1.2, h.2.1, h.2.2.1, h.2.2.2⟩
    | _ => simp [FElem.initial, optical_initial] at hr
  | signal e =>
    cases e with
    | generator e =>
      obtain ⟨h1, h2, h3, h4⟩ := h
      simp only [FElem.initial, signal_initial, List.mem_append, List.mem_cons, List.not_mem_nil, or_false,
        List.mem_flatMap] at hr
      rcases hr with (rfl | rfl) | ⟨x, hx, rfl | rfl⟩
      · exact ⟨h1, h2⟩
      · exact ⟨h1, h3⟩
      · exact ⟨(h4 x hx).1, (h4 x hx).2.1⟩
      · exact ⟨(h4 x hx).1, (h4 x hx).2.2⟩
    | _ => simp [FElem.initial, signal_initial] at hr
  | linear l => simp [FElem.initial] at hr

end Keeps

end Fill
