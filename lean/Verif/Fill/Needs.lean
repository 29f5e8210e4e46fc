import Verif.Fill.Targets

/-! # The keys that the couplings of the elements need: all elements -/

set_option linter.unusedSectionVars false

namespace Fill
open Py Ports Optics Circuit Inject

variable {P O K R F : Type} [DecidableEq P] [DecidableEq O] [DecidableEq K] [AddCommGroup K]
  [AddCommGroup R] [LinearOrder R] [Field F] [StarRing F] [DecidableEq F]

section Optical
variable {A : Rule P O K R} {X : P → Key O K → Prop} {env : OEnv P O K F} {IsPort : P → Prop} {bs : List (Block P (Key O K))}

theorem swapped_io (h : Served IsPort bs X) {a b : P} (hb : swapped a b ∈ bs) {k : OKey O K} (hk : X a (.opt k)) (hp : IsPort b) :
    X b (.opt { k with pol := k.pol.swap }) :=
  h.each a _ hb (.opt k) hk (b, .opt { k with pol := k.pol.swap }) (by simp) hp

theorem both_io (h : Served IsPort bs X) {a b : P} (hb : both a b ∈ bs) {k : OKey O K} (hk : X a (.opt k)) (hp : IsPort b)
    (s : Pol) : X b (.opt { k with pol := s }) := by
  refine h.each a _ hb (.opt k) hk (b, .opt { k with pol := s }) ?_ hp
  cases s <;> simp

theorem quarter_targets (hs : Shows A X env) (h : Served IsPort bs X) {a b : P} (hb : swapped a b ∈ bs) {v : F}
    {c : Coupling P (Key O K) F} (hc : c ∈ (env.okeys a).flatMap (fun k => quarter_key a b k v)) (hp : IsPort c.target.1) :
    X c.target.1 c.target.2 := by
  rw [List.mem_flatMap] at hc
  obtain ⟨k, hk, hc⟩ := hc
  have hX := hs.okeys _ _ hk
  unfold quarter_key at hc
  cases hpol : k.pol <;> rw [hpol] at hc <;> dsimp only at hc <;> rw [List.mem_singleton] at hc <;> subst hc
  all_goals
    have := swapped_io h hb hX hp
    rw [hpol] at this
    exact this

theorem rotate_targets (hs : Shows A X env) (h : Served IsPort bs X) {a b : P} (hb : both a b ∈ bs) {v w : F}
    {c : Coupling P (Key O K) F} (hc : c ∈ (env.okeys a).flatMap (fun k => rotate_key a b k v w)) (hp : IsPort c.target.1) :
    X c.target.1 c.target.2 := by
  rw [List.mem_flatMap] at hc
  obtain ⟨k, hk, hc⟩ := hc
  have hX := hs.okeys _ _ hk
  unfold rotate_key at hc
  cases hpol : k.pol <;> rw [hpol] at hc <;> dsimp only at hc <;>
    simp only [List.mem_cons, List.not_mem_nil, or_false] at hc <;> rcases hc with rfl | rfl
  · have := both_io h hb hX hp k.pol
    exact this
  · exact both_io h hb hX hp _
  · have := both_io h hb hX hp k.pol
    exact this
  · exact both_io h hb hX hp _

theorem rotator_targets {e : Rotator P F} (h : Served IsPort (rotator_ports e) X) (hs : Shows A X env) {back : F}
    {c : Coupling P (Key O K) F} (hc : c ∈ e.run env back) (hp : IsPort c.target.1) : X c.target.1 c.target.2 := by
  unfold Rotator.run at hc
  unfold rotator_ports at h
  dsimp only at hc h
  by_cases h1 : e.rotate_deg = 0 ∨ e.rotate_deg = 180 ∨ e.rotate_deg = -180
  · rw [if_pos h1] at hc h
    exact both_ways (v := fun _ _ => if e.rotate_deg = 0 then 1 else -1) hs h (fun _ hb => hb) hc hp
  rw [if_neg h1] at hc h
  by_cases h2 : e.rotate_deg = 90 ∨ e.rotate_deg = -90 ∨ e.rotate_deg = 270 ∨ e.rotate_deg = -270
  · rw [if_pos h2] at hc h
    rcases List.mem_append.1 hc with hc | hc
    · exact quarter_targets hs h (by simp) hc hp
    · exact quarter_targets hs h (by simp) hc hp
  · rw [if_neg h2] at hc h
    rcases List.mem_append.1 hc with hc | hc
    · exact rotate_targets hs h (by simp) hc hp
    · exact rotate_targets hs h (by simp) hc hp

/-- A modulation in both directions between two ports. -/
theorem pairs_targets (hs : Shows A X env) (h : Served IsPort bs X) {p q : Port P} {inp : P} {out : Option P}
    (hb : ∀ b ∈ (fill A.reject [(p.i, [q.o]), (q.i, [p.o])] [(p.o, [q.i]), (q.o, [p.i])] (some inp) out :
      List (Block P (Key O K))), b ∈ bs) (hp : A.Light p) (hq : A.Light q) (hi : A.Sig inp) (m : Mod P F)
    {pq : Port P × Port P} (hpq : pq ∈ [(p, q), (q, p)]) (h1 : m.pfrom = pq.1) (h2 : m.ptoOpt = some pq.2)
    (h3 : m.in_port_classical = some inp) {k : OKey O K} (hk : k ∈ env.okeys pq.1.i) {cs : List (Coupling P (Key O K) F)}
    (hm : m.fill env k = .ok cs) {c : Coupling P (Key O K) F} (hc : c ∈ cs) (ht : IsPort c.target.1) :
    X c.target.1 c.target.2 := by
  have hX := hs.okeys _ _ hk
  have hl : A.Light pq.1 := by
    simp only [List.mem_cons, List.not_mem_nil, or_false] at hpq
    rcases hpq with rfl | rfl
    · exact hp
    · exact hq
  refine mod_targets hs h m hb (ptos := [pq.2.o]) ?_ ?_ ?_ (h1 ▸ hX) hm hc ht
  · rw [h1]
    simp only [List.mem_cons, List.not_mem_nil, or_false] at hpq
    rcases hpq with rfl | rfl <;> simp
  · intro pto hpt
    rw [h2] at hpt
    cases hpt
    simp
  · intro z pto hz _
    rw [h3] at hz
    cases hz
    exact ⟨rfl, h1 ▸ light_ne hl.1 hi⟩

/-- Every node that an optical element drives is a node of the system, if the system has the port. -/
theorem optical_targets {e : OElem P O K F} (hf : A.FitsO e) (h : Served IsPort (optical_ports A.reject e) X)
    (hs : Shows A X env) (hi : ∀ r ∈ optical_initial e, IsPort r.1 → X r.1 r.2)
    (hw : ∀ a b, e = .owire a b ∨ e = .swire a b → ∀ k, X a k → IsPort b → X b k)
    {cs : List (Coupling P (Key O K) F)} (hc : e.setup env = .ok cs) {c : Coupling P (Key O K) F} (hm : c ∈ cs)
    (hp : IsPort c.target.1) : X c.target.1 c.target.2 := by
  cases e with
  | space e =>
    cases hc
    exact both_ways hs h (fun _ hb => hb) hm hp
  | laser e =>
    cases hc
    unfold Laser.setup at hm
    simp only [List.mem_cons, List.not_mem_nil, or_false] at hm
    rcases hm with rfl | rfl
    · exact hi (e.po_Fr.o, .opt (e.key .lower)) (by simp [optical_initial]) hp
    · exact hi (e.po_Fr.o, .opt (e.key .raise)) (by simp [optical_initial]) hp
  | mirror m => exact mirror_targets hf h hs hc hm hp
  | pd p b w =>
    obtain ⟨k, hk, d, hd, hcd⟩ := mem_blocks_map hc hm
    exact fill_targets hs _ k (by rintro _ ⟨⟩) (by rintro _ _ _ ⟨⟩) hd hcd hp
  | magicPD p q w =>
    obtain ⟨b, hb, d, hd, hcd⟩ := mem_blocks hc hm
    have hX : (∀ b ∈ (fill A.reject [(p.i, [q.o])] [(q.o, [p.i])] none (some w) : List (Block P (Key O K))),
        b ∈ magic_pd_ports A.reject p q w) ∧ (Fill.copy q.i p.o : Block P (Key O K)) ∈ magic_pd_ports A.reject p q w := by
      unfold magic_pd_ports
      exact ⟨fun b hb => List.mem_append_left _ hb, List.mem_append_right _ (by simp)⟩
    rcases List.mem_append.1 hb with hb | hb
    · rw [List.mem_map] at hb
      obtain ⟨k, hk, rfl⟩ := hb
      refine mod_targets hs h _ hX.1 (ptos := [q.o]) (by simp) ?_ ?_ (hs.okeys _ _ hk) hd hcd hp
      · rintro _ ⟨⟩; simp
      · rintro _ _ ⟨⟩
    · rw [List.mem_singleton] at hb
      subst hb
      cases hd
      exact edges_targets hs (fun k hk ho => h.copy hX.2 hk ho) hcd hp
  | pm p q dr b =>
    obtain ⟨pq, hpq, d, hd, hcd⟩ := mem_blocks_map hc hm
    obtain ⟨k, hk, d2, hd2, hc2⟩ := mem_blocks_map hd hcd
    exact pairs_targets hs h (fun b hb => List.mem_append_right _ hb) hf.1 hf.2.1 hf.2.2.1 _ hpq rfl rfl rfl hk hd2 hc2 hp
  | am p q dr b =>
    obtain ⟨pq, hpq, d, hd, hcd⟩ := mem_blocks_map hc hm
    obtain ⟨k, hk, d2, hd2, hc2⟩ := mem_blocks_map hd hcd
    exact pairs_targets hs h (fun b hb => List.mem_append_right _ hb) hf.1 hf.2.1 hf.2.2.1 _ hpq rfl rfl rfl hk hd2 hc2 hp
  | ampm p q da dp =>
    obtain ⟨pq, hpq, d, hd, hcd⟩ := mem_blocks_map hc hm
    obtain ⟨k, hk, d2, hd2, hc2⟩ := mem_blocks_map hd hcd
    obtain ⟨b, hb, d3, hd3, hc3⟩ := mem_blocks hd2 hc2
    simp only [List.mem_cons, List.not_mem_nil, or_false] at hb
    rcases hb with rfl | rfl
    · exact pairs_targets hs h (fun b hb => List.mem_append_right _ hb) hf.1 hf.2.1 hf.2.2.2 _ hpq rfl rfl rfl hk hd3 hc3 hp
    · exact pairs_targets hs h (fun b hb => List.mem_append_left _ (List.mem_append_right _ hb)) hf.1 hf.2.1 hf.2.2.1 _ hpq
        rfl rfl rfl hk hd3 hc3 hp
  | circulator l =>
    cases hc
    unfold circulator_setup at hm
    rw [List.mem_flatMap] at hm
    obtain ⟨pi, hpi, hm⟩ := hm
    cases hn : l[(pi.2 + 1) % l.length]? with
    | none => rw [hn] at hm; simp at hm
    | some next =>
      rw [hn] at hm
      refine edges_targets hs (fun k hk ho => h.copy (b := next.o) ?_ hk ho) hm hp
      show _ ∈ circulator_ports l
      unfold circulator_ports
      rw [List.mem_flatMap]
      refine ⟨pi, hpi, ?_⟩
      rw [hn]
      simp
  | rotator e => cases hc; exact rotator_targets h hs hm hp
  | faraday e => cases hc; exact rotator_targets h hs hm hp
  | wavePlate e =>
    cases hc
    exact both_ways hs h (fun _ hb => hb) hm hp
  | polSelector p a b =>
    cases hc
    unfold pol_selector_setup at hm
    have hmem : ∀ x, x ∈ (pol_selector_ports p a b : List (Block P (Key O K))) →
        x ∈ optical_ports A.reject (.polSelector p a b : OElem P O K F) :=
      fun x hx => hx
    rw [List.mem_append, List.mem_append, List.mem_map, List.mem_map, List.mem_map] at hm
    rcases hm with (⟨k, hk, rfl⟩ | ⟨k, hk, rfl⟩) | ⟨k, hk, rfl⟩
    · have hX := hs.okeys _ _ hk
      have hb := hmem (by_pol p.i a.o b.o) (by simp [pol_selector_ports])
      cases hpol : k.pol with
      | P =>
        rw [hpol] at hp
        refine h.each p.i _ hb (.opt k) hX (a.o, .opt k) ?_ hp
        dsimp only
        rw [hpol]
        simp
      | S =>
        rw [hpol] at hp
        refine h.each p.i _ hb (.opt k) hX (b.o, .opt k) ?_ hp
        dsimp only
        rw [hpol]
        simp
    · exact h.copy (hmem (Fill.copy a.i p.o) (by simp [pol_selector_ports])) (hs.okeys _ _ hk) hp
    · exact h.copy (hmem (Fill.copy b.i p.o) (by simp [pol_selector_ports])) (hs.okeys _ _ hk) hp
  | selector p l =>
    have hmem : ∀ x, x ∈ (selector_ports p l : List (Block P (Key O K))) →
        x ∈ optical_ports A.reject (.selector p l : OElem P O K F) :=
      fun x hx => hx
    obtain ⟨b, hb, d, hd, hcd⟩ := mem_blocks hc hm
    rcases List.mem_append.1 hb with hb | hb
    · rw [List.mem_map] at hb
      obtain ⟨k, hk, rfl⟩ := hb
      have hX := hs.okeys _ _ hk
      split_ifs at hd
      cases hd
      rw [List.mem_map] at hcd
      obtain ⟨pt, hpt, rfl⟩ := hcd
      refine h.each p.i _ (hmem (by_test p.i (l.map (fun pt => (pt.1.o, pt.2)))) (by simp [selector_ports])) (.opt k) hX
        (pt.1.o, .opt k) ?_ hp
      rw [List.mem_filter] at hpt
      show _ ∈ (List.toFinset _ : Finset (P × Key O K))
      rw [List.mem_toFinset, List.mem_map]
      refine ⟨(pt.1.o, pt.2), ?_, rfl⟩
      rw [List.mem_filter, List.mem_map]
      exact ⟨⟨pt, hpt.1, rfl⟩, hpt.2⟩
    · rw [List.mem_singleton] at hb
      subst hb
      cases hd
      rw [List.mem_flatMap] at hcd
      obtain ⟨pt, hpt, hcd⟩ := hcd
      refine edges_targets hs (fun k hk ho => h.copy (hmem (Fill.copy pt.1.i p.o) ?_) hk ho) hcd hp
      unfold selector_ports
      refine List.mem_append_left _ (List.mem_append_left _ (List.mem_append_right _ ?_))
      rw [List.mem_map]
      exact ⟨pt, hpt, rfl⟩
  | owire a b =>
    cases hc
    exact edges_targets hs (fun k hk ho => hw a b (Or.inl rfl) _ hk ho) hm hp
  | swire a b =>
    cases hc
    unfold swire_setup at hm
    rw [List.mem_map] at hm
    obtain ⟨k, hk, rfl⟩ := hm
    exact hw a b (Or.inr rfl) _ (hs.skeys _ _ hk) hp

end Optical

/-! ## signal elements -/

/-- The environment of the signal elements shows the keys `X` and the order limits of the system. -/
structure ShowsS (A : Rule P O K R) (X : P → Key O K → Prop) (env : Signal.SEnv P K R F) : Prop where
  keys : ∀ p k, k ∈ env.keys p → X p (.sig k)
  reject : env.reject = A.reject
  center : env.center = A.center

section Sig
variable {A : Rule P O K R} {X : P → Key O K → Prop} {env : Signal.SEnv P K R F} {IsPort : P → Prop}
  {bs : List (Block P (Key O K))}

theorem mix_io (h : Served IsPort bs X) {a : P} {b : PortArg P} {f : K → K → K} {ptos : List P} (hb : mix A.reject a b f ptos ∈ bs)
    (hab : PortArg.one a ≠ b) {q : P} (hq : q ∈ argPorts b) {k1 k2 : K} (h1 : X a (.sig k1)) (h2 : X q (.sig k2))
    (hr : A.reject (f k1 k2) = false) {p : P} (hp : p ∈ ptos) (hpp : IsPort p) : X p (.sig (f k1 k2)) := by
  refine h.pair a b none _ hb hab q hq (.sig k1) (.sig k2) h1 h2 (by simp) (p, .sig (f k1 k2)) ?_ hpp
  show _ ∈ (if A.reject (f k1 k2) = true then ∅ else _ : Finset (P × Key O K))
  rw [if_neg (by rw [hr]; simp), List.mem_toFinset, List.mem_map]
  exact ⟨p, hp, rfl⟩

theorem mem_mean_square (a b : P) (ks already : List K) {c : Coupling P K F} (hc : c ∈ Signal.mean_square_loop env a b already ks) :
    c.target = (b, 0) ∧ ∃ k, k ∈ ks := by
  induction ks generalizing already with
  | nil => simp [Signal.mean_square_loop] at hc
  | cons k ks ih =>
    unfold Signal.mean_square_loop at hc
    refine ⟨?_, k, by simp⟩
    split_ifs at hc
    · exact (ih _ hc).1
    · rcases List.mem_cons.1 hc with rfl | hc
      · rfl
      · exact (ih _ hc).1
    · exact (ih _ hc).1
    · rcases List.mem_cons.1 hc with rfl | hc
      · rfl
      · exact (ih _ hc).1

/-- Every node that a signal element drives is a node of the system, if the system has the port. -/
theorem signal_targets {e : Signal.SElem P K R F} (hf : A.FitsS e) (h : Served IsPort (signal_ports A.reject A.center e) X)
    (hs : ShowsS A X env) (hi : ∀ r ∈ (signal_initial e : List (P × Key O K)), IsPort r.1 → X r.1 r.2)
    (hw : ∀ a b, e = .wire a b → ∀ k, X a k → IsPort b → X b k)
    {cs : List (Coupling P K F)} (hc : e.setup env = .ok cs) {c : Coupling P K F} (hm : c ∈ cs)
    (hp : IsPort c.target.1) : X c.target.1 (.sig c.target.2) := by
  cases e with
  | siso e =>
    obtain ⟨k, hk, d, hd, hcd⟩ := mem_blocks_map hc hm
    have hX := hs.keys _ _ hk
    split_ifs at hd with hsk
    · cases hd
      simp at hcd
    · cases hg : e.filter_func_run (env.cast (env.freq k)) with
      | error x => rw [hg] at hd; cases hd
      | ok v =>
        rw [hg] at hd
        cases hd
        rw [List.mem_singleton] at hcd
        subst hcd
        refine h.each e.ps_In _ (by simp [signal_ports]; exact Or.inl rfl) (.sig k) hX (e.ps_Out, .sig k) ?_ hp
        have he : siso_skips A.center e k = false := by
          rw [← Bool.not_eq_true]
          intro hh
          apply hsk
          unfold Signal.Siso.skips
          rw [hs.center]
          exact hh
        show _ ∈ (if siso_skips A.center e k = true then ∅ else _ : Finset (P × Key O K))
        rw [he]
        simp
  | distribution p g =>
    cases hc
    unfold Signal.distribution_setup at hm
    rw [List.mem_flatMap] at hm
    obtain ⟨k, hk, hm⟩ := hm
    rw [List.mem_map] at hm
    obtain ⟨x, hx, rfl⟩ := hm
    refine h.copy (a := p) ?_ (hs.keys _ _ hk) hp
    show _ ∈ (_ ++ _ : List _)
    exact List.mem_append_left _ (List.mem_map.2 ⟨x, hx, rfl⟩)
  | summing p g =>
    cases hc
    unfold Signal.summing_setup at hm
    rw [List.mem_flatMap] at hm
    obtain ⟨x, hx, hm⟩ := hm
    rw [List.mem_map] at hm
    obtain ⟨k, hk, rfl⟩ := hm
    refine h.copy (a := x.1) ?_ (hs.keys _ _ hk) hp
    show _ ∈ (_ ++ _ : List _)
    exact List.mem_append_right _ (List.mem_map.2 ⟨x, hx, rfl⟩)
  | generator e =>
    cases hc
    unfold Signal.Generator.setup at hm
    rcases List.mem_append.1 hm with hm | hm
    · simp only [List.mem_cons, List.not_mem_nil, or_false] at hm
      rcases hm with rfl | rfl
      · exact hi (e.ps_Out, .sig e.f_key) (by simp [signal_initial]) hp
      · exact hi (e.ps_Out, .sig (-e.f_key)) (by simp [signal_initial]) hp
    · rw [List.mem_flatMap] at hm
      obtain ⟨x, hx, hm⟩ := hm
      simp only [List.mem_cons, List.not_mem_nil, or_false] at hm
      rcases hm with rfl | rfl
      · refine hi (x.1, .sig (x.2.1 • e.f_key)) ?_ hp
        unfold signal_initial
        exact List.mem_append_right _ (List.mem_flatMap.2 ⟨x, hx, by simp⟩)
      · refine hi (x.1, .sig ((-x.2.1) • e.f_key)) ?_ hp
        unfold signal_initial
        exact List.mem_append_right _ (List.mem_flatMap.2 ⟨x, hx, by simp⟩)
  | mixer lo p ri rq =>
    cases hc
    unfold Signal.mixer_setup Signal.pairs at hm
    rw [List.mem_flatMap] at hm
    obtain ⟨k1, hk1, hm⟩ := hm
    rw [List.mem_flatMap] at hm
    obtain ⟨k2, hk2, hm⟩ := hm
    split at hm
    · simp at hm
    rename_i hrej
    have hr : A.reject (k1 + k2) = false := by
      rw [← hs.reject]
      exact Bool.eq_false_iff.2 hrej
    have hmix : ∀ q ∈ [ri, rq], IsPort q → X q (.sig (k1 + k2)) := by
      intro q hq hqp
      refine mix_io (f := fun a b => a + b) (a := lo) (b := .one p) (ptos := [ri, rq]) h ?_ ?_ (q := p) (by simp [argPorts])
        (hs.keys _ _ hk1) (hs.keys _ _ hk2) hr hq hqp
      · simp [signal_ports, mixer_ports]
      · simpa using hf.1
    dsimp only at hm
    split at hm <;> simp only [List.mem_cons, List.not_mem_nil, or_false] at hm <;> rcases hm with rfl | rfl <;>
      exact hmix _ (by simp [Coupling.target]) hp
  | modulator p ma mp o φ =>
    cases hc
    unfold Signal.modulator_setup at hm
    rw [List.mem_flatMap] at hm
    obtain ⟨k1, hk1, hm⟩ := hm
    have hmix : ∀ q ∈ [ma, mp], ∀ k2 ∈ env.keys q, ¬ env.reject (k1 + k2) = true → IsPort o → X o (.sig (k1 + k2)) := by
      intro q hq k2 hk2 hrej hpo
      have hr : A.reject (k1 + k2) = false := by
        rw [← hs.reject]
        exact Bool.eq_false_iff.2 hrej
      refine mix_io (f := fun a b => a + b) (a := p) (b := .many [ma, mp]) (ptos := [o]) h ?_ (by simp) (q := q) hq
        (hs.keys _ _ hk1) (hs.keys _ _ hk2) hr (by simp) hpo
      simp [signal_ports, modulator_ports]
    rw [List.mem_append, List.mem_append, List.mem_singleton, List.mem_flatMap, List.mem_flatMap] at hm
    rcases hm with (rfl | ⟨k2, hk2, hm⟩) | ⟨k2, hk2, hm⟩
    · refine h.copy (a := p) ?_ (hs.keys _ _ hk1) hp
      show Fill.copy p o ∈ modulator_ports A.reject p ma mp o
      simp [modulator_ports]
    · split at hm
      · simp at hm
      rename_i hrej
      split at hm <;> rw [List.mem_singleton] at hm <;> subst hm <;> exact hmix ma (by simp) k2 hk2 hrej hp
    · split at hm
      · simp at hm
      rename_i hrej
      split at hm <;> rw [List.mem_singleton] at hm <;> subst hm <;> exact hmix mp (by simp) k2 hk2 hrej hp
  | harmonic2 p o =>
    cases hc
    unfold Signal.harmonic2_setup at hm
    rw [List.mem_flatMap] at hm
    obtain ⟨k1, hk1, hm⟩ := hm
    rw [List.mem_flatMap] at hm
    obtain ⟨k2, hk2, hm⟩ := hm
    split at hm
    · simp at hm
    rename_i hopp
    split at hm
    · simp at hm
    rename_i hrej
    rw [List.mem_singleton] at hm
    subst hm
    rw [hs.center] at hopp
    rw [hs.reject] at hrej
    have hb : (harmonic2_ports A.reject A.center p o : List (Block P (Key O K))) = signal_ports A.reject A.center (.harmonic2 p o : Signal.SElem P K R F) := rfl
    rw [← hb] at h
    unfold harmonic2_ports at h
    have hag : against (A.center k1) (A.center k2) = false ∧ against (A.center k2) (A.center k1) = false := by
      unfold Signal.opposite at hopp
      unfold against
      split_ifs at hopp with c1 c2
      · have c2' : 0 < A.center k2 := by simpa using hopp
        rw [if_pos c1, if_pos c2']
        simp [le_of_lt c1, le_of_lt c2']
      · simp at hopp
      · have c2' : A.center k2 < 0 := by simpa using hopp
        rw [if_neg c1, if_neg (not_lt.2 (le_of_lt c2'))]
        simp [le_of_lt c2', not_lt.1 c1]
    refine h.prod p _ List.mem_cons_self (.sig k1) (.sig k2) (hs.keys _ _ hk1) (hs.keys _ _ hk2) (o, .sig (k1 + k2)) ?_ ?_ hp
    · show _ ∈ (if against (A.center k1) (A.center k2) = true then ∅ else if A.reject (k1 + k2) = true then ∅ else _ : Finset (P × Key O K))
      rw [if_neg (by rw [hag.1]; simp), if_neg hrej]
      simp
    · show _ ∈ (if against (A.center k2) (A.center k1) = true then ∅ else if A.reject (k2 + k1) = true then ∅ else
        {(o, Key.sig (k2 + k1))} : Finset (P × Key O K))
      rw [add_comm k2 k1, if_neg (by rw [hag.2]; simp), if_neg hrej]
      simp
  | meanSquare p o =>
    cases hc
    obtain ⟨ht, k, hk⟩ := mem_mean_square p o _ _ hm
    rw [ht] at hp ⊢
    have hb : (mean_square_ports A.reject p o : List (Block P (Key O K))) = signal_ports A.reject A.center
      (.meanSquare p o : Signal.SElem P K R F) := rfl
    rw [← hb] at h
    unfold mean_square_ports at h
    exact h.always {(o, .sig 0)} (by simp) _ List.mem_cons_self p (by simp [Block.reads]) (.sig k)
      (hs.keys _ _ hk) (o, .sig 0) (by simp) hp
  | wire a b =>
    cases hc
    unfold Signal.wire_setup at hm
    rw [List.mem_map] at hm
    obtain ⟨k, hk, rfl⟩ := hm
    exact hw a b rfl _ (hs.keys _ _ hk) hp

end Sig

/-! ## the couplings are found -/

/-- A system with keys in conjugate pairs raises no exception when the couplings of an optical element are set up. -/
theorem optical_ok {A : Rule P O K R} {env : OEnv P O K F} {e : OElem P O K F} (hf : A.FitsO e)
    (hk : ∀ p k, k ∈ env.okeys p → A.opts k.opt k.pol ∧ A.Freq k.cls) (hn : ∀ p k, k ∈ env.skeys p → -k ∈ env.skeys p) :
    ∃ cs, e.setup env = .ok cs := by
  have hfill : ∀ (m : Mod P F) (k : OKey O K), ∃ cs, m.fill env k = .ok cs :=
    fun m k => fill_ok env m k (fun p _ => hn p) (fun p _ => hn p)
  have hmap : ∀ {α : Type} (l : List α) (f : α → Except Err (List (Coupling P (Key O K) F))), (∀ a ∈ l, ∃ cs, f a = .ok cs) →
      ∃ cs, blocks (l.map f) = .ok cs := by
    intro α l f h
    apply blocks_ok
    intro b hb
    rw [List.mem_map] at hb
    obtain ⟨a, ha, rfl⟩ := hb
    exact h a ha
  cases e with
  | space e => exact ⟨_, rfl⟩
  | laser e => exact ⟨_, rfl⟩
  | mirror m => exact Mirror.setup_ok env (hn _) (hn _)
  | pd p b w => exact hmap _ _ (fun k _ => hfill _ _)
  | magicPD p q w =>
    refine blocks_ok (fun b hb => ?_)
    rcases List.mem_append.1 hb with hb | hb
    · rw [List.mem_map] at hb
      obtain ⟨k, _, rfl⟩ := hb
      exact hfill _ _
    · rw [List.mem_singleton] at hb
      exact ⟨_, hb⟩
  | pm p q d b => exact hmap _ _ (fun _ _ => hmap _ _ (fun k _ => hfill _ _))
  | am p q d b => exact hmap _ _ (fun _ _ => hmap _ _ (fun k _ => hfill _ _))
  | ampm p q a b =>
    refine hmap _ _ (fun _ _ => hmap _ _ (fun k _ => blocks_ok (fun b hb => ?_)))
    simp only [List.mem_cons, List.not_mem_nil, or_false] at hb
    rcases hb with rfl | rfl <;> exact hfill _ _
  | circulator l => exact ⟨_, rfl⟩
  | rotator e => exact ⟨_, rfl⟩
  | faraday e => exact ⟨_, rfl⟩
  | wavePlate e => exact ⟨_, rfl⟩
  | polSelector p a b => exact ⟨_, rfl⟩
  | selector p l =>
    refine blocks_ok (fun b hb => ?_)
    rcases List.mem_append.1 hb with hb | hb
    · rw [List.mem_map] at hb
      obtain ⟨k, hkm, rfl⟩ := hb
      obtain ⟨h1, h2⟩ := hk _ _ hkm
      exact ⟨_, if_pos (hf.2.2 k h1 h2)⟩
    · rw [List.mem_singleton] at hb
      exact ⟨_, hb⟩
  | owire a b => exact ⟨_, rfl⟩
  | swire a b => exact ⟨_, rfl⟩

/-- The injections are inserted without an exception when their targets are nodes of the system. -/
theorem insert_ok {κ : Type} [DecidableEq κ] (ports : Dict P (List κ)) (cs : List (Coupling P κ F))
    (h : ∀ c ∈ cs, ∀ l, Dict.get? ports c.target.1 = some l → c.target.2 ∈ l) :
    ∃ m, insert_all ports (cs.map Coupling.inj) = .ok m := by
  have hE : ∀ (c : Coupling P κ F) (m : Algo P κ F), m.ports = ports →
      (∀ l, Dict.get? ports c.target.1 = some l → c.target.2 ∈ l) → ∀ es : List (((P × κ) × (P × κ)) × Func P κ F),
      (∀ e ∈ es, e.1.2 = c.target) → ∃ m', es.foldlM (insert_edge c.inj) m = .ok m' ∧ m'.ports = ports := by
    intro c m hm hc es hes
    induction es generalizing m with
    | nil => exact ⟨m, rfl, hm⟩
    | cons e es ih =>
      have h1 : ∃ m1, insert_edge c.inj m e = .ok m1 ∧ m1.ports = ports := by
        unfold insert_edge
        rw [hes e (by simp), hm]
        cases hg : Dict.get? ports c.target.1 with
        | none => exact ⟨_, rfl, rfl⟩
        | some l => exact ⟨_, if_pos (hc l hg), rfl⟩
      obtain ⟨m1, h1, h1'⟩ := h1
      obtain ⟨m2, h2, h2'⟩ := ih m1 h1' (fun e he => hes e (by simp [he]))
      refine ⟨m2, ?_, h2'⟩
      rw [List.foldlM_cons, h1]
      exact h2
  have hS : ∀ (c : Coupling P κ F) (m : Algo P κ F), m.ports = ports →
      (∀ l, Dict.get? ports c.target.1 = some l → c.target.2 ∈ l) → ∀ es : List ((P × κ) × Func P κ F),
      (∀ e ∈ es, e.1 = c.target) → ∃ m', es.foldlM (insert_source c.inj) m = .ok m' ∧ m'.ports = ports := by
    intro c m hm hc es hes
    induction es generalizing m with
    | nil => exact ⟨m, rfl, hm⟩
    | cons e es ih =>
      have h1 : ∃ m1, insert_source c.inj m e = .ok m1 ∧ m1.ports = ports := by
        unfold insert_source
        rw [hes e (by simp), hm]
        cases hg : Dict.get? ports c.target.1 with
        | none => exact ⟨_, rfl, rfl⟩
        | some l => exact ⟨_, if_pos (hc l hg), rfl⟩
      obtain ⟨m1, h1, h1'⟩ := h1
      obtain ⟨m2, h2, h2'⟩ := ih m1 h1' (fun e he => hes e (by simp [he]))
      refine ⟨m2, ?_, h2'⟩
      rw [List.foldlM_cons, h1]
      exact h2
  have hset : ∀ {κ' V : Type} [DecidableEq κ'] (l : List (κ' × V)) (Q : κ' → Prop), (∀ x ∈ l, Q x.1) →
      ∀ x ∈ Dict.ofList l, Q x.1 := by
    intro κ' V _ l Q hl x hx
    have hx' : x.1 ∈ Dict.keys (Dict.ofList l) := List.mem_map.2 ⟨x, hx, rfl⟩
    have key : ∀ (l : List (κ' × V)) (d : Dict κ' V), (∀ k ∈ Dict.keys d, Q k) → (∀ x ∈ l, Q x.1) →
        ∀ k ∈ Dict.keys (Dict.update d l), Q k := by
      intro l
      induction l with
      | nil => intro d hd _ k hk; exact hd k hk
      | cons y l ih =>
        intro d hd hl k hk
        refine ih (Dict.set d y.1 y.2) ?_ (fun x hx => hl x (by simp [hx])) k hk
        intro j hj
        rw [Dict.keys_set] at hj
        split_ifs at hj
        · exact hd j hj
        · rcases List.mem_append.1 hj with hj | hj
          · exact hd j hj
          · rw [List.mem_singleton] at hj
            subst hj
            exact hl y (by simp)
    exact key l [] (by simp [Dict.keys]) hl x.1 hx'
  have hinj : ∀ c : Coupling P κ F, (∀ e ∈ c.inj.edges, e.1.2 = c.target) ∧ ∀ s ∈ c.inj.sources, s.1 = c.target := by
    intro c
    have e1 : ∀ {V : Type} (l : List (((P × κ) × (P × κ)) × V)), (∀ x ∈ l, x.1.2 = c.target) →
        ∀ x ∈ Dict.ofList l, x.1.2 = c.target := fun l hl => hset l (fun j => j.2 = c.target) hl
    have s1 : ∀ {V : Type} (l : List ((P × κ) × V)), (∀ x ∈ l, x.1 = c.target) → ∀ x ∈ Dict.ofList l, x.1 = c.target :=
      fun l hl => hset l (fun j => j = c.target) hl
    cases c <;> simp only [Coupling.inj, ConstantEdgeCoupling, ConstantSourceCoupling, MultiplicativeEdgeCoupling,
      MultiplicativeSourceCoupling, TripletCoupling, TripletNormCoupling, TripletNormsCoupling]
    all_goals try split_ifs
    all_goals
      constructor
      all_goals first
        | (refine e1 _ ?_; simp [Coupling.target])
        | (refine s1 _ ?_; simp [Coupling.target])
        | simp
  have key : ∀ (cs : List (Coupling P κ F)) (m : Algo P κ F), m.ports = ports →
      (∀ c ∈ cs, ∀ l, Dict.get? ports c.target.1 = some l → c.target.2 ∈ l) →
      ∃ m', (cs.map Coupling.inj).foldlM injection_insert m = .ok m' := by
    intro cs
    induction cs with
    | nil => intro m _ _; exact ⟨m, rfl⟩
    | cons c cs ih =>
      intro m hm h
      obtain ⟨m1, h1, h1'⟩ := hE c m hm (h c (by simp)) c.inj.edges (hinj c).1
      obtain ⟨m2, h2, h2'⟩ := hS c m1 h1' (h c (by simp)) c.inj.sources (hinj c).2
      obtain ⟨m3, h3⟩ := ih m2 h2' (fun d hd => h d (by simp [hd]))
      refine ⟨m3, ?_⟩
      rw [List.map_cons, List.foldlM_cons]
      have : injection_insert m c.inj = .ok m2 := by
        unfold injection_insert
        rw [h1]
        exact h2
      rw [this]
      exact h3
  exact key cs _ rfl h

end Fill
