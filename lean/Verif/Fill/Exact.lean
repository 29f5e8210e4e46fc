import Verif.Fill.Even
import Verif.Fill.Targets

/-! # When the keys at the ports do not depend on the order -/

set_option linter.unusedSectionVars false

namespace Fill
open Py Ports Optics Circuit

section Needed
variable {E P κ : Type} [DecidableEq E] [DecidableEq P] [DecidableEq κ]

/-- The keys that are needed at the ports: those asked for initially (`init`), and those that the loops `bs` ask for on account of
needed keys, whenever these arrive.  A key that is needed at a port is needed at all ports bonded with it. -/
inductive Needed (S : Sys E P κ) (init : E → List (P × κ)) (bs : E → List (Block P κ)) : P → κ → Prop
  | start {o : E} {r : P × κ} {q : P} : o ∈ S.elements → r ∈ init o → S.Conn r.1 q → S.Port q → Needed S init bs q r.2
  | each {o : E} {a : P} {g : κ → Finset (P × κ)} {k : κ} {r : P × κ} {q : P} : .each a g ∈ bs o → Needed S init bs a k → r ∈ g k →
      S.Conn r.1 q → S.Port q → Needed S init bs q r.2
  | pair {o : E} {a : P} {b : PortArg P} {sel : Option (κ → κ → Bool)} {g : κ → κ → Finset (P × κ)} {p : P} {k1 k2 : κ} {r : P × κ}
      {q : P} : .pair a b sel g ∈ bs o → p ∈ argPorts b → Needed S init bs a k1 → Needed S init bs p k2 →
      (∀ s, sel = some s → s k1 k2 = true) → r ∈ g k1 k2 → S.Conn r.1 q → S.Port q → Needed S init bs q r.2
  | always {o : E} {rs : Finset (P × κ)} {b : Block P κ} {a : P} {k : κ} {r : P × κ} {q : P} : .always rs ∈ bs o → b ∈ bs o →
      a ∈ b.reads → Needed S init bs a k → r ∈ rs → S.Conn r.1 q → S.Port q → Needed S init bs q r.2

/-- The requests of a loop do not depend on the order in which the keys arrive: where `symmetric_update` does not select, all pairs
with a request would be selected; a loop over the pairs of keys of one port treats them alike. -/
def Block.Exact (Good : P → κ → Prop) : Block P κ → Prop
  | .pair a b sel g => ∀ q ∈ argPorts b, ∀ k1 k2, Good a k1 → Good q k2 → ∀ r ∈ g k1 k2,
      (PortArg.one a ≠ b → ∀ s, sel = some s → s k1 k2 = true) ∧
      (PortArg.one a = b → (∀ s, sel = some s → s k1 k2 = true) → (∀ s, sel = some s → s k2 k1 = true) ∧ r ∈ g k2 k1)
  | .prod _ _ _ => False
  | _ => True

variable {S : Sys E P κ} {init : E → List (P × κ)} {bs : E → List (Block P κ)} {Good : P → κ → Prop}

theorem needed_port {p : P} {k : κ} (h : Needed S init bs p k) : S.Port p := by
  cases h <;> assumption

theorem needed_good (hw : Within S Good) (hr : ∀ e, Runs S Good e (bs e))
    (hi : ∀ o ∈ S.elements, ∃ reqs, S.initial o = some reqs ∧ ∀ r, r ∈ reqs ↔ r ∈ init o)
    {p : P} {k : κ} (h : Needed S init bs p k) : Good p k := by
  induction h with
  | start ho hm hc hp =>
    obtain ⟨reqs, h1, h2⟩ := hi _ ho
    exact hw.bond _ _ _ (hw.init _ ho reqs h1 _ ((h2 _).2 hm)) hc hp
  | each hb _ hm hc hp ih => exact hw.bond _ _ _ ((hr _).keeps _ hb _ ih _ hm) hc hp
  | pair hb hpm _ _ _ hm hc hp ih1 ih2 => exact hw.bond _ _ _ ((hr _).keeps _ hb _ hpm _ _ ih1 ih2 _ hm) hc hp
  | always hb _ _ _ hm hc hp ih => exact hw.bond _ _ _ ((hr _).keeps _ hb _ hm) hc hp

/-- What is needed is found. -/
theorem needed_found (w : S.WF) (hw : Within S Good) (hr : ∀ e, Runs S Good e (bs e)) (hh : ∀ e, (S.handler e).isSome)
    (hi : ∀ o ∈ S.elements, ∃ reqs, S.initial o = some reqs ∧ ∀ r, r ∈ reqs ↔ r ∈ init o)
    (hx : ∀ e, ∀ b ∈ bs e, b.Exact Good) {X : P → κ → Prop} (hX : Closed S (Must S Good) X) {p : P} {k : κ}
    (h : Needed S init bs p k) : X p k := by
  have p2 : ∀ {a b : P} {k1 k2 : κ}, X a k1 → X b k2 → ∀ x ∈ [(a, k1), (b, k2)], X x.1 x.2 := by
    intro a b k1 k2 h1 h2 x hx
    simp only [List.mem_cons, List.not_mem_nil, or_false] at hx
    rcases hx with rfl | rfl
    · exact h1
    · exact h2
  have p1 : ∀ {a : P} {k1 : κ}, X a k1 → ∀ x ∈ [(a, k1)], X x.1 x.2 := by
    intro a k1 h1 x hx
    rw [List.mem_singleton] at hx
    subst hx
    exact h1
  induction h with
  | start ho hm hc hp =>
    obtain ⟨reqs, h1, h2⟩ := hi _ ho
    exact hX.init _ ho reqs h1 _ _ ((h2 _).2 hm) _ hc hp
  | @each o a g k r q hb _ hm hc hp ih => exact hX.rule o (hh o) _ _ _ ((hr o).each w hb hm) (p1 ih) q hc hp
  | @pair o a b sel g p k1 k2 r q hb hpm n1 n2 hs hm hc hp ih1 ih2 =>
    have hE := hx o _ hb p hpm k1 k2 (needed_good hw hr hi n1) (needed_good hw hr hi n2) r hm
    by_cases hab : PortArg.one a = b
    · subst hab
      rw [argPorts, List.mem_singleton] at hpm
      subst hpm
      obtain ⟨h1, h2⟩ := hE.2 rfl hs
      exact hX.rule o (hh o) _ _ _ ((hr o).pair_same w hb hm h2 (fun s h => ⟨hs s h, h1 s h⟩)) (p2 ih1 ih2) q hc hp
    · exact hX.rule o (hh o) _ _ _ ((hr o).pair w hb hab hpm hm hs) (p2 ih1 ih2) q hc hp
  | @always o rs b a k r q hb hb0 ha _ hm hc hp ih => exact hX.rule o (hh o) _ _ _ ((hr o).always w hb hb0 ha hm) (p1 ih) q hc hp

/-- Nothing else is asked for. -/
theorem needed_within (w : S.WF) (hw : Within S Good) (hr : ∀ e, Runs S Good e (bs e))
    (hi : ∀ o ∈ S.elements, ∃ reqs, S.initial o = some reqs ∧ ∀ r, r ∈ reqs ↔ r ∈ init o)
    (hx : ∀ e, ∀ b ∈ bs e, b.Exact Good)
    (ha : ∀ e rs, Block.always rs ∈ bs e → ∃ b ∈ bs e, ∃ a ∈ b.reads, ∃ k, Needed S init bs a k) :
    Within S (fun p k => Good p k ∧ ∀ q, S.Conn p q → S.Port q → Needed S init bs q k) where
  init := by
    intro o ho reqs h1 r hm
    obtain ⟨reqs', h2, h3⟩ := hi o ho
    refine ⟨hw.init o ho reqs h1 r hm, fun q hc hp => ?_⟩
    rw [h1] at h2
    cases h2
    exact .start ho ((h3 r).1 hm) hc hp
  bond := fun p q k hk hc hq => ⟨hw.bond p q k hk.1 hc hq, fun t ht hp => hk.2 t (hc.trans _ _ _ ht) hp⟩
  calls := by
    intro e ssp he v U F hs hg
    have hg1 : ∀ p k, S.Own e p → k ∈ U p ∨ k ∈ F p → Good p k := fun p k ho hk => (hg p k ho hk).1
    have hN : ∀ p k, S.Own e p → k ∈ U p ∨ k ∈ F p → Needed S init bs p k :=
      fun p k ho hk => (hg p k ho hk).2 p (.refl _) (w.own_port ho)
    obtain ⟨reqs, h1, h2⟩ := ((hr e).lists ssp he).requests (hr e).owns (hr e).keeps hs hg1
    refine ⟨reqs, h1, fun r hm => ?_⟩
    obtain ⟨b, hb, hy⟩ := (h2 r).1 hm
    refine ⟨known_good (v := v) hg1 (hr e).owns hb ((hr e).keeps b hb) hy, fun q hc hp => ?_⟩
    have hown := (hr e).owns b hb
    have hxb := hx e b hb
    cases b with
    | always rs =>
      obtain ⟨b0, hb0, a, hab, k, hk⟩ := ha e rs hb
      exact .always hb hb0 hab hk hy hc hp
    | each a g =>
      obtain ⟨k, hk, hm⟩ := hy
      exact .each hb (hN a k (hown a (by simp [Block.reads])) (Or.inl hk)) hm hc hp
    | check a ok e => exact hy.elim
    | pair a b sel g =>
      have hoa : S.Own e a := hown a ((reads_pair a b sel g a).2 (Or.inl rfl))
      have hoq : ∀ q ∈ argPorts b, S.Own e q := fun q hq => hown q ((reads_pair a b sel g q).2 (Or.inr hq))
      obtain ⟨k1, k2, hm, h | h⟩ := hy
      · obtain ⟨t, ht, hk2⟩ := h.2.1
        exact .pair hb ht (hN a k1 hoa (Or.inl h.1)) (hN t k2 (hoq t ht) hk2) h.2.2 hm hc hp
      · obtain ⟨t, ht, hk2⟩ := h.2.2
        refine .pair hb ht (hN a k1 hoa (Or.inr h.2.1)) (hN t k2 (hoq t ht) (Or.inl hk2)) ?_ hm hc hp
        exact (hxb t ht k1 k2 (hg1 a k1 hoa (Or.inr h.2.1)) (hg1 t k2 (hoq t ht) (Or.inl hk2)) r hm).1 h.1
    | checkPair a b ok e => exact hy.elim
    | prod a b g => exact hxb.elim

end Needed

variable {P O K R F : Type} [DecidableEq P] [DecidableEq O] [DecidableEq K] [AddCommGroup K]
  [AddCommGroup R] [LinearOrder R] [IsOrderedAddMonoid R] [Field F] [StarRing F] [DecidableEq F]

/-- There is one carrier, with one polarization. -/
def Rule.One (A : Rule P O K R) : Prop := ∀ o p o' p', A.opts o p → A.opts o' p' → o = o' ∧ p = p'

/-- The elements whose requests do not depend on the order: not a `Harmonic2Generator`; those that a signal can drive only if there
is one carrier with one polarization. -/
def Settled (A : Rule P O K R) : FElem P O K R F → Prop
  | .optical (.mirror _) => A.One
  | .optical (.pm _ _ _ _) => A.One
  | .optical (.am _ _ _ _) => A.One
  | .optical (.ampm _ _ _ _) => A.One
  | .signal (.modulator a _ _ d _) => a ≠ d
  | .signal (.harmonic2 _ _) => False
  | _ => True

section
variable {A : Rule P O K R}

theorem exact_copies {bs : List (Block P (Key O K))} (h : ∀ b ∈ bs, ∃ a c, b = copy a c) : ∀ b ∈ bs, b.Exact A.Good := by
  intro b hb
  obtain ⟨a, c, rfl⟩ := h b hb
  trivial

theorem exact_mix {p : P} {b : PortArg P} {f : K → K → K} {l : List P} (h : PortArg.one p ≠ b) :
    (mix A.reject p b f l : Block P (Key O K)).Exact A.Good := by
  intro q _ k1 k2 _ _ r _
  exact ⟨fun _ s hs => (nomatch hs), fun he => absurd he h⟩

/-- A loop over the pairs of a field and a signal. -/
theorem exact_mixed {a c : P} {g : OKey O K → K → Finset (P × Key O K)} :
    (Block.pair a (.one c) none (fun k l => match k, l with | .opt k, .sig l => g k l | _, _ => ∅) :
      Block P (Key O K)).Exact A.Good := by
  intro q hq k1 k2 h1 h2 r hr
  rw [argPorts, List.mem_singleton] at hq
  subst hq
  refine ⟨fun _ s hs => (nomatch hs), fun he => ?_⟩
  cases he
  cases k1 with
  | sig _ => simp at hr
  | opt k =>
  cases k2 with
  | opt _ => simp at hr
  | sig l =>
    have e1 := h1.1
    have e2 := h2.1
    rw [e1] at e2
    cases e2

theorem partner_symm {k1 k2 : Key O K} (h : partner k1 k2 = true) : partner k2 k1 = true := by
  cases k1 with
  | sig _ => simp [partner] at h
  | opt a =>
  cases k2 with
  | sig _ => simp [partner] at h
  | opt b =>
    simp only [partner, decide_eq_true_eq] at h ⊢
    refine ⟨h.1.symm, h.2.1.symm, ?_⟩
    rw [h.2.2]
    cases a.q <;> rfl

theorem exact_beat {a c : P} : (fill_beat A.reject a c : Block P (Key O K)).Exact A.Good := by
  intro q hq k1 k2 h1 h2 r hr
  refine ⟨fun h => ?_, fun _ hs => ?_⟩
  · rw [argPorts, List.mem_singleton] at hq
    exact absurd rfl h
  · have hp := hs _ rfl
    refine ⟨fun s hs' => by cases hs'; exact partner_symm hp, ?_⟩
    cases k1 with
    | sig _ => simp at hr
    | opt x =>
    cases k2 with
    | sig _ => simp at hr
    | opt y =>
      simp only [partner, decide_eq_true_eq] at hp
      have : beat y x = beat x y := by
        unfold beat
        rw [hp.2.2]
        cases x.q <;> rfl
      dsimp only at hr ⊢
      rw [this]
      exact hr

theorem exact_drive {a c : P} {l : List P} (h : A.One ∨ l = []) :
    (fill_drive A.reject a l c : Block P (Key O K)).Exact A.Good := by
  intro q hq k1 k2 h1 h2 r hr
  refine ⟨fun _ s hs => ?_, fun h => (nomatch h)⟩
  cases hs
  rcases h with h | rfl
  · cases k1 with
    | sig _ => simp at hr
    | opt x =>
    cases k2 with
    | sig _ => simp at hr
    | opt y =>
      dsimp only at hr
      by_cases hq' : x.q = y.q
      · simp only [fellow, decide_eq_true_eq]
        obtain ⟨e1, e2⟩ := h _ _ _ _ h1.2.1 h2.2.1
        exact ⟨e1, e2, hq'.symm⟩
      · rw [if_neg hq'] at hr
        simp at hr
  · simp [argPorts] at hq

theorem exact_fill {ins outs : List (P × List P)} {inp out : Option P} (h : A.One ∨ inp = none ∨ ∀ x ∈ ins, x.2 = []) :
    ∀ b ∈ (fill A.reject ins outs inp out : List (Block P (Key O K))), b.Exact A.Good := by
  intro b hb
  unfold fill at hb
  simp only [List.mem_append, List.mem_flatMap] at hb
  rcases hb with ⟨x, hx, ((hb | hb) | hb) | hb⟩ | ⟨x, hx, hb⟩
  · rw [List.mem_singleton] at hb
    subst hb
    trivial
  · cases inp with
    | none => simp at hb
    | some c =>
      rcases List.mem_cons.1 hb with rfl | hb
      · exact exact_mixed
      · unfold fill_unbound at hb
        split at hb
        · rw [List.mem_singleton] at hb
          subst hb
          trivial
        · simp at hb
  · cases out with
    | none => simp at hb
    | some c =>
      simp only [List.mem_cons, List.not_mem_nil, or_false] at hb
      rcases hb with rfl | rfl
      · exact exact_mixed
      · exact exact_beat
  · cases inp with
    | none => simp at hb
    | some c =>
      rw [List.mem_singleton] at hb
      subst hb
      refine exact_drive ?_
      rcases h with h | h | h
      · exact Or.inl h
      · cases h
      · exact Or.inr (h x hx)
  · cases out with
    | none => simp at hb
    | some c =>
      rw [List.mem_singleton] at hb
      subst hb
      exact exact_mixed

theorem exact_mirror (h : A.One) {m : Mirror P F} : ∀ x ∈ (mirror_ports A.reject m : List (Block P (Key O K))), x.Exact A.Good := by
  intro x hx
  unfold mirror_ports at hx
  simp only [List.mem_append] at hx
  rcases hx with ((((hx | hx) | hx) | hx) | hx) | hx
  · exact exact_copies (copies_mirror_port _ _ _ _ _ _ _ _ _) x hx
  · exact exact_copies (copies_mirror_port _ _ _ _ _ _ _ _ _) x hx
  · exact exact_copies (copies_mirror_port _ _ _ _ _ _ _ _ _) x hx
  · exact exact_copies (copies_mirror_port _ _ _ _ _ _ _ _ _) x hx
  · split at hx
    · simp only [List.mem_append] at hx
      rcases hx with ((hx | hx) | hx) | hx <;> exact exact_copies (copies_mirror_loss _ _) x hx
    · simp at hx
  · exact exact_fill (Or.inl h) x hx

theorem exact_rotator {e : Rotator P F} : ∀ x ∈ (rotator_ports e : List (Block P (Key O K))), x.Exact A.Good := by
  intro x hx
  unfold rotator_ports at hx
  dsimp only at hx
  split_ifs at hx
  · exact exact_copies (copies_two_way _ _) x hx
  · simp only [List.mem_cons, List.not_mem_nil, or_false] at hx
    rcases hx with rfl | rfl | rfl | rfl <;> trivial
  · simp only [List.mem_cons, List.not_mem_nil, or_false] at hx
    rcases hx with rfl | rfl | rfl | rfl <;> trivial

theorem exact_optical {e : OElem P O K F} (h : Settled A (.optical e : FElem P O K R F)) :
    ∀ b ∈ optical_ports A.reject e, b.Exact A.Good := by
  cases e with
  | space e => exact exact_copies (copies_two_way _ _)
  | laser e =>
    intro b hb
    simp only [optical_ports, ends, List.mem_cons, List.not_mem_nil, or_false] at hb
    rcases hb with rfl | rfl <;> trivial
  | mirror m => exact exact_mirror h
  | pd p b w =>
    intro x hx
    exact exact_fill (ins := [(p.i, [])]) (outs := []) (inp := some b) (out := some w) (Or.inr (Or.inr (by simp))) x hx
  | magicPD p q w =>
    intro b hb
    simp only [optical_ports, magic_pd_ports, List.mem_append, List.mem_cons, List.not_mem_nil, or_false] at hb
    rcases hb with hb | rfl | rfl
    · exact exact_fill (Or.inr (Or.inl rfl)) b hb
    · trivial
    · trivial
  | pm p q d c =>
    intro b hb
    simp only [optical_ports, pm_ports, List.mem_append] at hb
    rcases hb with hb | hb
    · exact exact_copies (copies_two_way _ _) b hb
    · exact exact_fill (Or.inl h) b hb
  | am p q d c =>
    intro b hb
    simp only [optical_ports, pm_ports, List.mem_append] at hb
    rcases hb with hb | hb
    · exact exact_copies (copies_two_way _ _) b hb
    · exact exact_fill (Or.inl h) b hb
  | ampm p q d c =>
    intro b hb
    simp only [optical_ports, ampm_ports, List.mem_append] at hb
    rcases hb with (hb | hb) | hb
    · exact exact_copies (copies_two_way _ _) b hb
    · exact exact_fill (Or.inl h) b hb
    · exact exact_fill (Or.inl h) b hb
  | circulator l =>
    intro b hb
    simp only [optical_ports, circulator_ports, List.mem_flatMap] at hb
    obtain ⟨pi, hpi, hb⟩ := hb
    split at hb
    · simp at hb
    · simp only [List.mem_cons, List.not_mem_nil, or_false] at hb
      rcases hb with rfl | rfl <;> trivial
  | rotator e => exact exact_rotator
  | faraday e => exact exact_rotator
  | wavePlate e => exact exact_copies (copies_two_way _ _)
  | polSelector p a c =>
    intro b hb
    simp only [optical_ports, pol_selector_ports, List.mem_cons, List.not_mem_nil, or_false] at hb
    rcases hb with rfl | rfl | rfl | rfl | rfl | rfl <;> trivial
  | selector p l =>
    intro b hb
    simp only [optical_ports, selector_ports, List.mem_append, List.mem_cons, List.not_mem_nil, or_false, List.mem_map] at hb
    rcases hb with (((rfl | rfl) | ⟨x, hx, rfl⟩) | rfl) | ⟨x, hx, rfl⟩ <;> trivial
  | owire _ _ => simp [optical_ports]
  | swire _ _ => simp [optical_ports]

theorem exact_signal {e : Signal.SElem P K R F} (hf : A.FitsS e) (h : Settled A (.signal e : FElem P O K R F)) :
    ∀ b ∈ (signal_ports A.reject A.center e : List (Block P (Key O K))), b.Exact A.Good := by
  cases e with
  | siso e =>
    intro b hb
    simp only [signal_ports, List.mem_cons, List.not_mem_nil, or_false] at hb
    rcases hb with rfl | rfl <;> trivial
  | distribution p g =>
    intro b hb
    simp only [signal_ports, List.mem_append, List.mem_map] at hb
    rcases hb with ⟨x, _, rfl⟩ | ⟨x, _, rfl⟩ <;> trivial
  | summing p g =>
    intro b hb
    simp only [signal_ports, List.mem_append, List.mem_map] at hb
    rcases hb with ⟨x, _, rfl⟩ | ⟨x, _, rfl⟩ <;> trivial
  | generator e => simp [signal_ports]
  | mixer a b c d =>
    intro x hx
    simp only [signal_ports, mixer_ports, List.mem_cons, List.not_mem_nil, or_false] at hx
    rcases hx with rfl | rfl | rfl
    · exact exact_mix (fun he => hf.1 (by injection he))
    · exact exact_mix (fun he => by cases he)
    · exact exact_mix (fun he => by cases he)
  | modulator a b c d t =>
    intro x hx
    simp only [signal_ports, modulator_ports, List.mem_cons, List.not_mem_nil, or_false] at hx
    rcases hx with rfl | rfl | rfl | rfl | rfl
    · trivial
    · trivial
    · exact exact_mix (fun he => by cases he)
    · exact exact_mix (fun he => h (by injection he with he; exact he.symm))
    · exact exact_mix (fun he => by cases he)
  | harmonic2 a b => exact h.elim
  | meanSquare a b =>
    intro x hx
    simp only [signal_ports, mean_square_ports, List.mem_cons, List.not_mem_nil, or_false] at hx
    rcases hx with rfl | rfl <;> trivial
  | wire a b => simp [signal_ports]

theorem exact_ports {e : FElem P O K R F} (hf : A.Fits e) (h : Settled A e) :
    ∀ b ∈ e.ports A.reject A.center, b.Exact A.Good := by
  cases e with
  | optical e => exact exact_optical h
  | signal e => exact exact_signal hf h
  | linear l =>
    intro b hb
    simp only [FElem.ports, List.mem_map] at hb
    obtain ⟨x, _, rfl⟩ := hb
    trivial

/-- The only element with requests outside of its loops. -/
theorem always_mem {e : FElem P O K R F} {rs : Finset (P × Key O K)} (h : Block.always rs ∈ e.ports A.reject A.center) :
    ∃ a b, e = .signal (.meanSquare a b) := by
  have hc : ∀ {bs : List (Block P (Key O K))}, (∀ b ∈ bs, ∃ a c, b = copy a c) → Block.always rs ∉ bs := by
    intro bs hbs hm
    obtain ⟨a, c, hac⟩ := hbs _ hm
    cases hac
  have hfill : ∀ ins outs inp out, Block.always rs ∉ (fill A.reject ins outs inp out : List (Block P (Key O K))) := by
    intro ins outs inp out hm
    unfold fill at hm
    simp only [List.mem_append, List.mem_flatMap] at hm
    rcases hm with ⟨x, hx, ((hb | hb) | hb) | hb⟩ | ⟨x, hx, hb⟩
    · simp [fill_through] at hb
    · cases inp with
      | none => simp at hb
      | some c => simp [fill_in, fill_unbound] at hb
    · cases out with
      | none => simp at hb
      | some c => simp [fill_out, fill_beat] at hb
    · cases inp with
      | none => simp at hb
      | some c => simp [fill_drive] at hb
    · cases out with
      | none => simp at hb
      | some c => simp [fill_back] at hb
  cases e with
  | linear l =>
    simp [FElem.ports, copy] at h
  | signal e =>
    cases e with
    | meanSquare a b => exact ⟨a, b, rfl⟩
    | _ => simp [FElem.ports, signal_ports, siso_copy, copy, mixer_ports, modulator_ports, harmonic2_ports, mix] at h
  | optical e =>
    exfalso
    cases e with
    | mirror m =>
      simp only [FElem.ports, optical_ports, mirror_ports, List.mem_append] at h
      rcases h with ((((hx | hx) | hx) | hx) | hx) | hx
      · exact hc (copies_mirror_port _ _ _ _ _ _ _ _ _) hx
      · exact hc (copies_mirror_port _ _ _ _ _ _ _ _ _) hx
      · exact hc (copies_mirror_port _ _ _ _ _ _ _ _ _) hx
      · exact hc (copies_mirror_port _ _ _ _ _ _ _ _ _) hx
      · split at hx
        · simp only [List.mem_append] at hx
          rcases hx with ((hx | hx) | hx) | hx <;> exact hc (copies_mirror_loss _ _) hx
        · simp at hx
      · exact hfill _ _ _ _ hx
    | circulator l =>
      simp only [FElem.ports, optical_ports, circulator_ports, List.mem_flatMap] at h
      obtain ⟨pi, hpi, hb⟩ := h
      split at hb <;> simp [copy] at hb
    | rotator e =>
      simp only [FElem.ports, optical_ports, rotator_ports] at h
      split_ifs at h <;> simp [two_way, copy, swapped, both] at h
    | faraday e =>
      simp only [FElem.ports, optical_ports, rotator_ports] at h
      split_ifs at h <;> simp [two_way, copy, swapped, both] at h
    | pd a b c => exact hfill [(a.i, [])] [] (some b) (some c) h
    | _ => simp [FElem.ports, optical_ports, two_way, ends, copy, magic_pd_ports, pm_ports, ampm_ports, hfill,
        pol_selector_ports, by_pol, by_test, selector_ports] at h

end

end Fill
