import Verif.Fill.Keeps

/-! # The elements ask for keys in conjugate pairs -/

set_option linter.unusedSectionVars false

namespace Fill
open Py Ports Optics Circuit

variable {P O K R F : Type} [DecidableEq P] [DecidableEq O] [DecidableEq K] [AddCommGroup K]
  [AddCommGroup R] [LinearOrder R] [IsOrderedAddMonoid R] [Field F] [StarRing F] [DecidableEq F]

/-- The order limits treat a frequency and its negative alike (C60_negation), and their center frequencies are opposite. -/
structure Rule.Odd (A : Rule P O K R) : Prop where
  reject : ∀ f, A.reject (-f) = A.reject f
  center : ∀ f, A.center (-f) = -A.center f

/-- The elements that treat a key and its conjugate alike: all but the `Harmonic2Generator`, and the selectors that do not tell
`LOWER` from `RAISE`. -/
def Plain : FElem P O K R F → Prop
  | .optical (.selector _ l) => ∀ x ∈ l, ∀ k : OKey O K, x.2 k.conj = x.2 k
  | .signal (.harmonic2 _ _) => False
  | _ => True

section
variable {A : Rule P O K R}

theorem even_copy {a b : P} : (copy a b : Block P (Key O K)).EvenB A.Good Key.conj := by
  intro k _ r hr
  rw [Finset.mem_singleton] at hr ⊢
  subst hr
  rfl

theorem even_through {a : P} {ptos : List P} : (fill_through a ptos : Block P (Key O K)).EvenB A.Good Key.conj := by
  intro k _ r hr
  rw [List.mem_toFinset, List.mem_map] at hr ⊢
  obtain ⟨q, hq, rfl⟩ := hr
  exact ⟨q, hq, rfl⟩

theorem conj_opt (k : OKey O K) : (Key.opt k).conj = .opt k.conj := rfl

theorem conj_sig (k : K) : (Key.sig k : Key O K).conj = .sig (-k) := rfl

theorem up_conj (k : OKey O K) (l : K) : up k.conj (-l) = up k l := by
  unfold up OKey.conj
  cases k.q <;> simp [Quantum.conj, sub_eq_add_neg]

theorem down_conj (k : OKey O K) (l : K) : down k.conj (-l) = down k l := by
  unfold down OKey.conj
  cases k.q <;> simp [Quantum.conj, sub_eq_add_neg]

theorem beat_conj (k l : OKey O K) : beat k.conj l.conj = -beat k l := by
  unfold beat OKey.conj
  cases k.q <;> simp [Quantum.conj]

theorem drive_conj (k l : OKey O K) : drive k.conj l.conj = -drive k l := by
  unfold drive OKey.conj
  cases k.q <;> simp [Quantum.conj]

theorem even_in {a inp : P} {ptos : List P} : (fill_in A.reject a ptos inp : Block P (Key O K)).EvenB A.Good Key.conj := by
  intro q _ k1 k2 _ _
  refine ⟨fun r hr => ?_, by simp⟩
  cases k1 with
  | sig _ => simp at hr
  | opt k =>
  cases k2 with
  | opt _ => simp at hr
  | sig l =>
  rw [conj_opt, conj_sig]
  dsimp only at hr ⊢
  rw [up_conj]
  split at hr
  · simp at hr
  rename_i hrej
  rw [if_neg hrej]
  rw [Finset.mem_union, Finset.mem_insert, Finset.mem_singleton, List.mem_toFinset, List.mem_flatMap] at hr ⊢
  rcases hr with (rfl | rfl) | ⟨p, hp, hr⟩
  · exact Or.inl (Or.inl rfl)
  · exact Or.inl (Or.inr rfl)
  · refine Or.inr ⟨p, hp, ?_⟩
    simp only [List.mem_cons, List.not_mem_nil, or_false] at hr ⊢
    rcases hr with rfl | rfl
    · exact Or.inl rfl
    · exact Or.inr rfl

theorem even_unbound {a inp : P} {ptos : List P} :
    ∀ b ∈ (fill_unbound A.reject a ptos inp : List (Block P (Key O K))), b.EvenB A.Good Key.conj := by
  intro b hb
  unfold fill_unbound at hb
  split at hb
  · rw [List.mem_singleton] at hb
    subst hb
    trivial
  · simp at hb

theorem even_out {a out : P} : (fill_out A.reject a out : Block P (Key O K)).EvenB A.Good Key.conj := by
  intro q _ k1 k2 _ _
  refine ⟨fun r hr => ?_, by simp⟩
  cases k1 with
  | sig _ => simp at hr
  | opt k =>
  cases k2 with
  | opt _ => simp at hr
  | sig l =>
  show _ ∈ (if A.reject (down k.conj (-l)) then ∅ else {(a, .opt (k.conj.at (down k.conj (-l))).conj)} : Finset (P × Key O K))
  dsimp only at hr
  rw [down_conj]
  split at hr
  · simp at hr
  rename_i hrej
  rw [if_neg hrej]
  rw [Finset.mem_singleton] at hr ⊢
  subst hr
  rfl

theorem conj_q (k : OKey O K) : k.conj.q = k.q.conj := rfl

theorem even_beat (hA : A.Odd) {a out : P} : (fill_beat A.reject a out : Block P (Key O K)).EvenB A.Good Key.conj := by
  intro q _ k1 k2 _ _
  refine ⟨fun r hr => ?_, ?_⟩
  · cases k1 with
    | sig _ => simp at hr
    | opt k =>
    cases k2 with
    | sig _ => simp at hr
    | opt l =>
    rw [conj_opt, conj_opt]
    dsimp only at hr ⊢
    rw [beat_conj, hA.reject]
    split at hr
    · simp at hr
    · rename_i hrej
      rw [if_neg hrej]
      rw [Finset.mem_singleton] at hr ⊢
      subst hr
      rfl
  · rintro s ⟨⟩ h
    cases k1 with
    | sig _ => cases h
    | opt k =>
    cases k2 with
    | sig _ => cases h
    | opt l =>
    obtain ⟨h1, h2, h3⟩ := of_decide_eq_true h
    exact decide_eq_true ⟨h1, h2, congrArg Quantum.conj h3⟩

theorem even_drive (hA : A.Odd) {a inp : P} {ptos : List P} :
    (fill_drive A.reject a ptos inp : Block P (Key O K)).EvenB A.Good Key.conj := by
  intro q _ k1 k2 _ _
  refine ⟨fun r hr => ?_, ?_⟩
  · cases k1 with
    | sig _ => simp at hr
    | opt k =>
    cases k2 with
    | sig _ => simp at hr
    | opt l =>
    rw [conj_opt, conj_opt]
    dsimp only at hr ⊢
    rw [drive_conj, hA.reject, conj_q, conj_q]
    split at hr
    swap
    · simp at hr
    rename_i hkl
    rw [if_pos (congrArg Quantum.conj hkl)]
    split at hr
    · simp at hr
    · rename_i hrej
      rw [if_neg hrej]
      rw [Finset.mem_singleton] at hr ⊢
      subst hr
      rfl
  · rintro s ⟨⟩ h
    cases k1 with
    | sig _ => cases h
    | opt k =>
    cases k2 with
    | sig _ => cases h
    | opt l =>
    obtain ⟨h1, h2, h3⟩ := of_decide_eq_true h
    exact decide_eq_true ⟨h1, h2, congrArg Quantum.conj h3⟩

theorem even_back {a out : P} {pfroms : List P} :
    (fill_back A.reject a pfroms out : Block P (Key O K)).EvenB A.Good Key.conj := by
  intro q _ k1 k2 _ _
  refine ⟨fun r hr => ?_, by simp⟩
  cases k1 with
  | sig _ => simp at hr
  | opt k =>
  cases k2 with
  | opt _ => simp at hr
  | sig l =>
  show _ ∈ (if A.reject (down k.conj (-l)) then ∅ else
    (pfroms.map (fun p => (p, .opt (k.conj.at (down k.conj (-l)))))).toFinset : Finset (P × Key O K))
  dsimp only at hr
  rw [down_conj]
  split at hr
  · simp at hr
  rename_i hrej
  rw [if_neg hrej]
  rw [List.mem_toFinset, List.mem_map] at hr ⊢
  obtain ⟨p, hp, rfl⟩ := hr
  exact ⟨p, hp, rfl⟩

theorem even_fill (hA : A.Odd) {ins outs : List (P × List P)} {inp out : Option P} :
    ∀ b ∈ (fill A.reject ins outs inp out : List (Block P (Key O K))), b.EvenB A.Good Key.conj := by
  intro b hb
  unfold fill at hb
  simp only [List.mem_append, List.mem_flatMap] at hb
  rcases hb with ⟨x, hx, ((hb | hb) | hb) | hb⟩ | ⟨x, hx, hb⟩
  · rw [List.mem_singleton] at hb
    subst hb
    exact even_through
  · cases inp with
    | none => simp at hb
    | some c =>
      rcases List.mem_cons.1 hb with rfl | hb
      · exact even_in
      · exact even_unbound b hb
  · cases out with
    | none => simp at hb
    | some c =>
      simp only [List.mem_cons, List.not_mem_nil, or_false] at hb
      rcases hb with rfl | rfl
      · exact even_out
      · exact even_beat hA
  · cases inp with
    | none => simp at hb
    | some c =>
      rw [List.mem_singleton] at hb
      subst hb
      exact even_drive hA
  · cases out with
    | none => simp at hb
    | some c =>
      rw [List.mem_singleton] at hb
      subst hb
      exact even_back

theorem even_swapped {a b : P} : (swapped a b : Block P (Key O K)).EvenB A.Good Key.conj := by
  intro k _ r hr
  cases k with
  | sig _ => simp at hr
  | opt k =>
    rw [Finset.mem_singleton] at hr
    subst hr
    exact Finset.mem_singleton_self _

theorem even_both {a b : P} : (both a b : Block P (Key O K)).EvenB A.Good Key.conj := by
  intro k _ r hr
  cases k with
  | sig _ => simp at hr
  | opt k =>
    rw [Finset.mem_insert, Finset.mem_singleton] at hr
    rcases hr with rfl | rfl
    · exact Finset.mem_insert_self _ _
    · exact Finset.mem_insert_of_mem (Finset.mem_singleton_self _)

theorem even_by_pol {a p s : P} : (by_pol a p s : Block P (Key O K)).EvenB A.Good Key.conj := by
  intro k _ r hr
  cases k with
  | sig _ => simp at hr
  | opt k =>
    show _ ∈ (match k.pol with
      | .P => {(p, .opt k.conj)}
      | .S => {(s, .opt k.conj)} : Finset (P × Key O K))
    dsimp only at hr
    cases hp : k.pol <;> rw [hp] at hr <;> dsimp only at hr ⊢ <;> rw [Finset.mem_singleton] at hr ⊢ <;> subst hr <;> rfl

theorem even_by_test {a : P} {l : List (P × (OKey O K → Bool))} (h : ∀ x ∈ l, ∀ k : OKey O K, x.2 k.conj = x.2 k) :
    (by_test a l : Block P (Key O K)).EvenB A.Good Key.conj := by
  intro k _ r hr
  cases k with
  | sig _ => simp at hr
  | opt k =>
    show _ ∈ ((l.filter (fun pt => pt.2 k.conj)).map (fun pt => (pt.1, Key.opt k.conj))).toFinset
    rw [List.mem_toFinset, List.mem_map] at hr ⊢
    obtain ⟨x, hx, rfl⟩ := hr
    obtain ⟨h1, h2⟩ := List.mem_filter.1 hx
    exact ⟨x, List.mem_filter.2 ⟨h1, by rw [h x h1]; exact h2⟩, rfl⟩

theorem even_copies {bs : List (Block P (Key O K))} (h : ∀ b ∈ bs, ∃ x y, b = copy x y) :
    ∀ b ∈ bs, b.EvenB A.Good Key.conj := by
  intro b hb
  obtain ⟨x, y, rfl⟩ := h b hb
  exact even_copy

theorem copies_two_way (p q : Port P) : ∀ b ∈ (two_way p q : List (Block P (Key O K))), ∃ x y, b = copy x y := by
  intro b hb
  simp only [two_way, List.mem_cons, List.not_mem_nil, or_false] at hb
  rcases hb with rfl | rfl | rfl | rfl <;> exact ⟨_, _, rfl⟩

theorem copies_mirror_port (T L Rf B : Bool) (port t l r b : Port P) :
    ∀ x ∈ (mirror_port T L Rf B port t l r b : List (Block P (Key O K))), ∃ y z, x = copy y z := by
  intro x hx
  have opt : ∀ (c : Bool) (p q : P), x ∈ (if c = true then [copy p q] else [] : List (Block P (Key O K))) →
      ∃ y z, x = copy y z := by
    intro c p q hx
    split at hx
    · rw [List.mem_singleton] at hx
      exact ⟨_, _, hx⟩
    · simp at hx
  simp only [mirror_port, List.mem_append] at hx
  rcases hx with ((((((((hx | hx) | hx) | hx) | hx) | hx) | hx) | hx) | hx) | hx
  · exact ⟨_, _, List.mem_singleton.1 hx⟩
  · exact opt _ _ _ hx
  · exact opt _ _ _ hx
  · exact opt _ _ _ hx
  · exact opt _ _ _ hx
  · exact ⟨_, _, List.mem_singleton.1 hx⟩
  · exact opt _ _ _ hx
  · exact opt _ _ _ hx
  · exact opt _ _ _ hx
  · exact opt _ _ _ hx

theorem copies_mirror_loss (port l : Port P) : ∀ x ∈ (mirror_loss port l : List (Block P (Key O K))), ∃ y z, x = copy y z := by
  intro x hx
  simp only [mirror_loss, List.mem_cons, List.not_mem_nil, or_false] at hx
  rcases hx with rfl | rfl | rfl | rfl <;> exact ⟨_, _, rfl⟩

theorem even_mirror (hA : A.Odd) {m : Mirror P F} :
    ∀ x ∈ (mirror_ports A.reject m : List (Block P (Key O K))), x.EvenB A.Good Key.conj := by
  intro x hx
  simp only [mirror_ports, List.mem_append] at hx
  rcases hx with ((((hx | hx) | hx) | hx) | hx) | hx
  · exact even_copies (copies_mirror_port _ _ _ _ _ _ _ _ _) x hx
  · exact even_copies (copies_mirror_port _ _ _ _ _ _ _ _ _) x hx
  · exact even_copies (copies_mirror_port _ _ _ _ _ _ _ _ _) x hx
  · exact even_copies (copies_mirror_port _ _ _ _ _ _ _ _ _) x hx
  · split at hx
    · simp only [List.mem_append] at hx
      rcases hx with ((hx | hx) | hx) | hx <;> exact even_copies (copies_mirror_loss _ _) x hx
    · simp at hx
  · exact even_fill hA x hx

theorem even_rotator {e : Rotator P F} : ∀ x ∈ (rotator_ports e : List (Block P (Key O K))), x.EvenB A.Good Key.conj := by
  intro x hx
  unfold rotator_ports at hx
  dsimp only at hx
  split_ifs at hx
  · exact even_copies (copies_two_way _ _) x hx
  · simp only [List.mem_cons, List.not_mem_nil, or_false] at hx
    rcases hx with rfl | rfl | rfl | rfl <;> exact even_swapped
  · simp only [List.mem_cons, List.not_mem_nil, or_false] at hx
    rcases hx with rfl | rfl | rfl | rfl <;> exact even_both

theorem even_optical (hA : A.Odd) {e : OElem P O K F} (h : Plain (.optical e : FElem P O K R F)) :
    ∀ b ∈ optical_ports A.reject e, b.EvenB A.Good Key.conj := by
  cases e with
  | space e => exact even_copies (copies_two_way _ _)
  | laser e =>
    refine even_copies ?_
    intro b hb
    simp only [optical_ports, ends, List.mem_cons, List.not_mem_nil, or_false] at hb
    rcases hb with rfl | rfl <;> exact ⟨_, _, rfl⟩
  | mirror m => exact even_mirror hA
  | pd p b w =>
    intro x hx
    exact even_fill hA (ins := [(p.i, [])]) (outs := []) (inp := some b) (out := some w) x hx
  | magicPD p q w =>
    intro b hb
    simp only [optical_ports, magic_pd_ports, List.mem_append, List.mem_cons, List.not_mem_nil, or_false] at hb
    rcases hb with hb | rfl | rfl
    · exact even_fill hA b hb
    · exact even_copy
    · exact even_copy
  | pm p q d c =>
    intro b hb
    simp only [optical_ports, pm_ports, List.mem_append] at hb
    rcases hb with hb | hb
    · exact even_copies (copies_two_way _ _) b hb
    · exact even_fill hA b hb
  | am p q d c =>
    intro b hb
    simp only [optical_ports, pm_ports, List.mem_append] at hb
    rcases hb with hb | hb
    · exact even_copies (copies_two_way _ _) b hb
    · exact even_fill hA b hb
  | ampm p q d c =>
    intro b hb
    simp only [optical_ports, ampm_ports, List.mem_append] at hb
    rcases hb with (hb | hb) | hb
    · exact even_copies (copies_two_way _ _) b hb
    · exact even_fill hA b hb
    · exact even_fill hA b hb
  | circulator l =>
    refine even_copies ?_
    intro b hb
    simp only [optical_ports, circulator_ports, List.mem_flatMap] at hb
    obtain ⟨pi, hpi, hb⟩ := hb
    split at hb
    · simp at hb
    · simp only [List.mem_cons, List.not_mem_nil, or_false] at hb
      rcases hb with rfl | rfl <;> exact ⟨_, _, rfl⟩
  | rotator e => exact even_rotator
  | faraday e => exact even_rotator
  | wavePlate e => exact even_copies (copies_two_way _ _)
  | polSelector p a c =>
    intro b hb
    simp only [optical_ports, pol_selector_ports, List.mem_cons, List.not_mem_nil, or_false] at hb
    rcases hb with rfl | rfl | rfl | rfl | rfl | rfl
    · exact even_by_pol
    · exact even_copy
    · exact even_copy
    · exact even_by_pol
    · exact even_copy
    · exact even_copy
  | selector p l =>
    intro b hb
    simp only [optical_ports, selector_ports, List.mem_append, List.mem_cons, List.not_mem_nil, or_false, List.mem_map] at hb
    rcases hb with (((rfl | rfl) | ⟨x, hx, rfl⟩) | rfl) | ⟨x, hx, rfl⟩
    · refine even_by_test ?_
      intro x hx
      obtain ⟨y, hy, rfl⟩ := List.mem_map.1 hx
      exact h y hy
    · trivial
    · exact even_copy
    · refine even_by_test ?_
      intro x hx
      obtain ⟨y, hy, rfl⟩ := List.mem_map.1 hx
      exact h y hy
    · exact even_copy
  | owire _ _ => simp [optical_ports]
  | swire _ _ => simp [optical_ports]

theorem even_siso (hA : A.Odd) {e : Signal.Siso P R F} {a b : P} :
    (siso_copy A.center e a b : Block P (Key O K)).EvenB A.Good Key.conj := by
  intro k _ r hr
  cases k with
  | opt _ => simp at hr
  | sig k =>
    have hs : siso_skips A.center e (-k) = siso_skips A.center e k := by
      unfold siso_skips
      rw [hA.center, abs_neg]
      simp
    show _ ∈ (if siso_skips A.center e (-k) then ∅ else {(b, .sig (-k))} : Finset (P × Key O K))
    rw [hs]
    dsimp only at hr
    split at hr
    · simp at hr
    · rename_i h
      rw [if_neg h]
      rw [Finset.mem_singleton] at hr ⊢
      subst hr
      rfl

theorem even_mix (hA : A.Odd) {a : P} {b : PortArg P} {f : K → K → K} {ptos : List P}
    (hf : ∀ x y, f (-x) (-y) = -f x y) : (mix A.reject a b f ptos : Block P (Key O K)).EvenB A.Good Key.conj := by
  intro q _ k1 k2 _ _
  refine ⟨fun r hr => ?_, by simp⟩
  cases k1 with
  | opt _ => simp at hr
  | sig k1 =>
  cases k2 with
  | opt _ => simp at hr
  | sig k2 =>
    show _ ∈ (if A.reject (f (-k1) (-k2)) then ∅ else (ptos.map (fun p => (p, .sig (f (-k1) (-k2))))).toFinset :
      Finset (P × Key O K))
    rw [hf, hA.reject]
    dsimp only at hr
    split at hr
    · simp at hr
    · rename_i h
      rw [if_neg h]
      rw [List.mem_toFinset, List.mem_map] at hr ⊢
      obtain ⟨p, hp, rfl⟩ := hr
      exact ⟨p, hp, rfl⟩

theorem even_signal (hA : A.Odd) {e : Signal.SElem P K R F} (h : Plain (.signal e : FElem P O K R F)) :
    ∀ b ∈ (signal_ports A.reject A.center e : List (Block P (Key O K))), b.EvenB A.Good Key.conj := by
  have hadd : ∀ x y : K, -x + -y = -(x + y) := fun x y => (neg_add x y).symm
  have hsub : ∀ x y : K, -y - -x = -(y - x) := fun x y => by abel
  have hsub' : ∀ x y : K, -x - -y = -(x - y) := fun x y => by abel
  intro b hb
  cases e with
  | siso e =>
    simp only [signal_ports, List.mem_cons, List.not_mem_nil, or_false] at hb
    rcases hb with rfl | rfl <;> exact even_siso hA
  | distribution p g =>
    simp only [signal_ports, List.mem_append, List.mem_map] at hb
    rcases hb with ⟨x, hx, rfl⟩ | ⟨x, hx, rfl⟩ <;> exact even_copy
  | summing p g =>
    simp only [signal_ports, List.mem_append, List.mem_map] at hb
    rcases hb with ⟨x, hx, rfl⟩ | ⟨x, hx, rfl⟩ <;> exact even_copy
  | generator e => simp [signal_ports] at hb
  | mixer a c d f =>
    simp only [signal_ports, mixer_ports, List.mem_cons, List.not_mem_nil, or_false] at hb
    rcases hb with rfl | rfl | rfl
    · exact even_mix hA hadd
    · exact even_mix hA hsub
    · exact even_mix hA hsub
  | modulator a c d f φ =>
    simp only [signal_ports, modulator_ports, List.mem_cons, List.not_mem_nil, or_false] at hb
    rcases hb with rfl | rfl | rfl | rfl | rfl
    · exact even_copy
    · exact even_copy
    · exact even_mix hA hadd
    · exact even_mix hA hsub'
    · exact even_mix hA hsub'
  | harmonic2 a c => exact h.elim
  | meanSquare a c =>
    simp only [signal_ports, mean_square_ports, List.mem_cons, List.not_mem_nil, or_false] at hb
    rcases hb with rfl | rfl
    · intro k _ r hr
      cases k with
      | opt _ => simp at hr
      | sig k =>
        show _ ∈ (if A.reject (- -k) then ∅ else {(a, .sig (- -k))} : Finset (P × Key O K))
        rw [hA.reject]
        dsimp only at hr
        split at hr
        · simp at hr
        · rename_i h
          rw [if_neg h]
          rw [Finset.mem_singleton] at hr ⊢
          subst hr
          rfl
    · intro r hr
      rw [Finset.mem_singleton] at hr ⊢
      subst hr
      rw [Prod.mk.injEq]
      exact ⟨rfl, congrArg Key.sig neg_zero⟩
  | wire _ _ => simp [signal_ports] at hb

theorem even_ports (hA : A.Odd) {e : FElem P O K R F} (h : Plain e) :
    ∀ b ∈ e.ports A.reject A.center, b.EvenB A.Good Key.conj := by
  cases e with
  | optical e => exact even_optical hA h
  | signal e => exact even_signal hA h
  | linear l =>
    intro b hb
    obtain ⟨x, hx, rfl⟩ := List.mem_map.1 hb
    exact even_copy

theorem even_initial {e : FElem P O K R F} : ∀ r ∈ e.initial, (r.1, Key.conj r.2) ∈ e.initial := by
  intro r hr
  cases e with
  | optical e =>
    cases e with
    | laser e =>
      simp only [FElem.initial, optical_initial, List.mem_cons, List.not_mem_nil, or_false] at hr ⊢
      rcases hr with rfl | rfl
      · exact Or.inr rfl
      · exact Or.inl rfl
    | _ => simp [FElem.initial, optical_initial] at hr
  | signal e =>
    cases e with
    | generator e =>
      simp only [FElem.initial, signal_initial, List.mem_append, List.mem_cons, List.not_mem_nil, or_false,
        List.mem_flatMap] at hr ⊢
      rcases hr with (rfl | rfl) | ⟨x, hx, rfl | rfl⟩
      · exact Or.inl (Or.inr rfl)
      · refine Or.inl (Or.inl ?_)
        rw [Prod.mk.injEq]
        exact ⟨rfl, congrArg Key.sig (neg_neg _)⟩
      · refine Or.inr ⟨x, hx, Or.inr ?_⟩
        rw [Prod.mk.injEq]
        exact ⟨rfl, congrArg Key.sig (neg_smul _ _).symm⟩
      · refine Or.inr ⟨x, hx, Or.inl ?_⟩
        rw [Prod.mk.injEq]
        refine ⟨rfl, congrArg Key.sig ?_⟩
        rw [neg_smul, neg_neg]
    | _ => simp [FElem.initial, signal_initial] at hr
  | linear l => simp [FElem.initial] at hr

end

end Fill
