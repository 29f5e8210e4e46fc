import Verif.Fill.Keeps
import Verif.Signal.Product

/-! # The keys that the couplings of the elements need -/

set_option linter.unusedSectionVars false

namespace Fill
open Py Ports Optics Circuit Inject

section Served
variable {E P κ : Type} [DecidableEq E] [DecidableEq P] [DecidableEq κ]

/-- The assignment `X` of keys to ports holds all that the loops `bs` are sure to ask for. -/
structure Served (IsPort : P → Prop) (bs : List (Block P κ)) (X : P → κ → Prop) : Prop where
  reads : ∀ b ∈ bs, ∀ p ∈ b.reads, IsPort p
  each : ∀ a g, Block.each a g ∈ bs → ∀ k, X a k → ∀ r ∈ g k, IsPort r.1 → X r.1 r.2
  pair : ∀ a b sel g, Block.pair a b sel g ∈ bs → PortArg.one a ≠ b → ∀ q ∈ argPorts b, ∀ k1 k2, X a k1 → X q k2 →
    (∀ s, sel = some s → s k1 k2 = true) → ∀ r ∈ g k1 k2, IsPort r.1 → X r.1 r.2
  same : ∀ a sel g, Block.pair a (.one a) sel g ∈ bs → ∀ k1 k2, X a k1 → X a k2 →
    (∀ s, sel = some s → s k1 k2 = true ∧ s k2 k1 = true) → ∀ r ∈ g k1 k2, r ∈ g k2 k1 → IsPort r.1 → X r.1 r.2
  prod : ∀ a g, Block.prod a a g ∈ bs → ∀ k1 k2, X a k1 → X a k2 → ∀ r ∈ g k1 k2, r ∈ g k2 k1 → IsPort r.1 → X r.1 r.2
  always : ∀ rs, Block.always rs ∈ bs → ∀ b ∈ bs, ∀ a ∈ b.reads, ∀ k, X a k → ∀ r ∈ rs, IsPort r.1 → X r.1 r.2

variable {S : Sys E P κ} {Good : P → κ → Prop} {e : E} {bs : List (Block P κ)}

theorem Runs.pair_same (w : S.WF) (h : Runs S Good e bs) {a : P} {sel : Option (κ → κ → Bool)}
    {g : κ → κ → Finset (P × κ)} (hb : .pair a (.one a) sel g ∈ bs) {k1 k2 : κ} {c : P × κ} (h12 : c ∈ g k1 k2)
    (h21 : c ∈ g k2 k1) (hs : ∀ s, sel = some s → s k1 k2 = true ∧ s k2 k1 = true) :
    Must S Good e [(a, k1), (a, k2)] c := by
  refine h.must w hb (by simp [reads_pair]) (by simp) ?_
  intro U F hk hn
  have h1 := hk (a, k1) (by simp)
  have h2 := hk (a, k2) (by simp)
  obtain ⟨x, hx, hn⟩ := hn
  simp only [List.mem_cons, List.not_mem_nil, or_false] at hx
  rcases hx with rfl | rfl
  · exact ⟨_, hb, k1, k2, h12, Or.inl ⟨hn, ⟨a, by simp [argPorts], h2⟩, fun s h => (hs s h).1⟩⟩
  · exact ⟨_, hb, k2, k1, h21, Or.inl ⟨hn, ⟨a, by simp [argPorts], h1⟩, fun s h => (hs s h).2⟩⟩

/-- What the worklist leaves at the ports of an element. -/
theorem Runs.served (w : S.WF) (h : Runs S Good e bs) (hh : (S.handler e).isSome) {X : P → κ → Prop}
    (hX : Closed S (Must S Good) X) : Served S.Port bs X := by
  have key : ∀ prem c, Must S Good e prem c → (∀ x ∈ prem, X x.1 x.2) → S.Port c.1 → X c.1 c.2 :=
    fun prem c hm hp hc => hX.rule e hh prem c.1 c.2 hm hp c.1 (.refl _) hc
  have p2 : ∀ {a b : P} {k1 k2 : κ}, X a k1 → X b k2 → ∀ x ∈ [(a, k1), (b, k2)], X x.1 x.2 := by
    intro a b k1 k2 h1 h2 x hx
    simp only [List.mem_cons, List.not_mem_nil, or_false] at hx
    rcases hx with rfl | rfl
    · exact h1
    · exact h2
  have p1 : ∀ {a : P} {k1 : κ}, X a k1 → ∀ x ∈ [(a, k1)], X x.1 x.2 := by
    intro a k1 h1 x hx
    rw [List.mem_singleton] at hx
    subst hx
    exact h1
  constructor
  · intro b hb p hp
    unfold Sys.Port
    rw [h.own b hb p hp]
    rfl
  · intro a g hb k hk r hr hp
    exact key _ r (h.each w hb hr) (p1 hk) hp
  · intro a b sel g hb hab q hq k1 k2 h1 h2 hs r hr hp
    exact key _ r (h.pair w hb hab hq hr hs) (p2 h1 h2) hp
  · intro a sel g hb k1 k2 h1 h2 hs r h12 h21 hp
    exact key _ r (h.pair_same w hb h12 h21 hs) (p2 h1 h2) hp
  · intro a g hb k1 k2 h1 h2 r h12 h21 hp
    exact key _ r (h.prod_same w hb h12 h21) (p2 h1 h2) hp
  · intro rs hb b hb0 a ha k hk r hr hp
    exact key _ r (h.always w hb hb0 ha hr) (p1 hk) hp

theorem Served.copy {IsPort : P → Prop} {X : P → κ → Prop} (h : Served IsPort bs X) {a b : P} (hb : Fill.copy a b ∈ bs) {k : κ}
    (hk : X a k) (hp : IsPort b) : X b k := h.each a _ hb k hk (b, k) (by simp) hp

theorem Served.port {IsPort : P → Prop} {X : P → κ → Prop} (h : Served IsPort bs X) {a b : P} (hb : Fill.copy a b ∈ bs) :
    IsPort a := h.reads _ hb a (by simp [Fill.copy, Block.reads])

end Served

/-! ## optical elements -/

variable {P O K R F : Type} [DecidableEq P] [DecidableEq O] [DecidableEq K] [AddCommGroup K]
  [AddCommGroup R] [LinearOrder R] [Field F] [StarRing F] [DecidableEq F]

theorem mem_blocks {κ : Type} [DecidableEq κ] {bs : List (Except Err (List (Coupling P κ F)))} {cs : List (Coupling P κ F)}
    (h : blocks bs = .ok cs) {c : Coupling P κ F} (hc : c ∈ cs) : ∃ b ∈ bs, ∃ d, b = .ok d ∧ c ∈ d := by
  induction bs generalizing cs with
  | nil => cases h; simp at hc
  | cons b bs ih =>
    obtain ⟨d, ds, hd, h', rfl⟩ := blocks_cons h
    rcases List.mem_append.1 hc with hc | hc
    · exact ⟨b, by simp, d, hd, hc⟩
    · obtain ⟨b', hb', r⟩ := ih h' hc
      exact ⟨b', by simp [hb'], r⟩

theorem mem_blocks_map {α κ : Type} [DecidableEq κ] {l : List α} {f : α → Except Err (List (Coupling P κ F))} {cs : List (Coupling P κ F)}
    (h : blocks (l.map f) = .ok cs) {c : Coupling P κ F} (hc : c ∈ cs) : ∃ a ∈ l, ∃ d, f a = .ok d ∧ c ∈ d := by
  obtain ⟨b, hb, d, hd, hcd⟩ := mem_blocks h hc
  rw [List.mem_map] at hb
  obtain ⟨a, ha, rfl⟩ := hb
  exact ⟨a, ha, d, hd, hcd⟩

theorem mem_pair_loop {C : Type} {all : List K} {skipDC : Bool} {emit : K → List C} {ks completed : List K} {cs : List C}
    (h : pair_loop all skipDC emit completed ks = .ok cs) {c : C} (hc : c ∈ cs) :
    ∃ lk ∈ ks, -lk ∈ all ∧ c ∈ emit lk := by
  induction ks generalizing completed cs with
  | nil => cases h; simp at hc
  | cons k ks ih =>
    have up : (∃ lk ∈ ks, -lk ∈ all ∧ c ∈ emit lk) → ∃ lk ∈ k :: ks, -lk ∈ all ∧ c ∈ emit lk := by
      rintro ⟨lk, h1, h2⟩
      exact ⟨lk, by simp [h1], h2⟩
    unfold pair_loop at h
    split_ifs at h with h1 h2 h3
    · exact up (ih h hc)
    · exact up (ih h hc)
    · cases hr : pair_loop all skipDC emit (-k :: k :: completed) ks with
      | error e => rw [hr] at h; cases h
      | ok d =>
        rw [hr] at h
        cases h
        rcases List.mem_append.1 hc with hc | hc
        · exact ⟨k, by simp, h3, hc⟩
        · exact up (ih hr hc)

/-- The environment shows the keys `X` and the order limits of the system. -/
structure Shows (A : Rule P O K R) (X : P → Key O K → Prop) (env : OEnv P O K F) : Prop where
  okeys : ∀ p k, k ∈ env.okeys p → X p (.opt k)
  skeys : ∀ p k, k ∈ env.skeys p → X p (.sig k)
  reject : env.reject = A.reject

section Optical
variable {A : Rule P O K R} {X : P → Key O K → Prop} {env : OEnv P O K F} {IsPort : P → Prop} {bs : List (Block P (Key O K))}

theorem mem_sideband {k : OKey O K} {f : K} {C : Type} {g : OKey O K → List C} {c : C}
    (hc : c ∈ (match sideband env k f with | none => [] | some kto => g kto)) : env.reject f = false ∧ c ∈ g (k.at f) := by
  unfold sideband at hc
  by_cases h : env.reject f = true
  · rw [if_pos h] at hc
    simp at hc
  · rw [if_neg h] at hc
    exact ⟨Bool.eq_false_iff.2 h, hc⟩

/-- The nodes that `modulations_fill_2optical_2classical` drives. -/
theorem fill_targets (hs : Shows A X env) (m : Mod P F) (k : OKey O K)
    (hthr : ∀ pto, m.ptoOpt = some pto → IsPort pto.o → X pto.o (.opt k))
    (hcl : ∀ pto inp l, m.ptoOpt = some pto → m.in_port_classical = some inp → X inp (.sig l) → A.reject (up k l) = false →
      IsPort pto.o → X pto.o (.opt (k.at (up k l))))
    {cs : List (Coupling P (Key O K) F)} (h : m.fill env k = .ok cs) {c : Coupling P (Key O K) F} (hc : c ∈ cs)
    (hp : IsPort c.target.1) : X c.target.1 c.target.2 := by
  obtain ⟨b, hb, d, hd, hcd⟩ := mem_blocks h hc
  simp only [List.mem_cons, List.not_mem_nil, or_false] at hb
  rcases hb with rfl | rfl | rfl
  · unfold Mod.cl at hd
    split at hd
    · rename_i pto inp hpt hi
      obtain ⟨lk, hlk, hneg, hcm⟩ := mem_pair_loop hd hcd
      have h1 := hs.skeys _ _ hlk
      have h2 := hs.skeys _ _ hneg
      have ha : ∀ l, X inp (.sig l) → env.reject (up k l) = false → IsPort pto.o → X pto.o (.opt (k.at (up k l))) :=
        fun l hl hr => hcl pto inp l hpt hi hl (by rw [← hs.reject]; exact hr)
      unfold Mod.cl_pair at hcm
      cases hq : k.q with
      | lower =>
        rw [hq] at hcm
        have e : ∀ l, up k l = k.cls + l := fun l => by unfold up; rw [hq]
        rcases List.mem_append.1 hcm with hcm | hcm
        · obtain ⟨hr, hcm⟩ := mem_sideband hcm
          rw [List.mem_singleton] at hcm
          subst hcm
          have := ha lk h1 (by rw [e]; exact hr) hp
          rw [e] at this
          exact this
        · obtain ⟨hr, hcm⟩ := mem_sideband hcm
          rw [List.mem_singleton] at hcm
          subst hcm
          have := ha (-lk) h2 (by rw [e]; exact hr) hp
          rw [e] at this
          exact this
      | raise =>
        rw [hq] at hcm
        have e : ∀ l, up k l = k.cls + -l := fun l => by unfold up; rw [hq]; exact sub_eq_add_neg _ _
        rcases List.mem_append.1 hcm with hcm | hcm
        · obtain ⟨hr, hcm⟩ := mem_sideband hcm
          rw [List.mem_singleton] at hcm
          subst hcm
          have := ha (-lk) h2 (by rw [e, neg_neg]; exact hr) hp
          rw [e, neg_neg] at this
          exact this
        · obtain ⟨hr, hcm⟩ := mem_sideband hcm
          rw [List.mem_singleton] at hcm
          subst hcm
          have := ha lk h1 (by rw [e]; exact hr) hp
          rw [e] at this
          exact this
    · cases hd
      simp at hcd
  · cases hd
    unfold Mod.through at hcd
    cases hpt : m.ptoOpt with
    | none => rw [hpt] at hcd; simp at hcd
    | some pto =>
      rw [hpt] at hcd
      dsimp only at hcd
      split at hcd
      · split at hcd <;>
        · rw [List.mem_singleton] at hcd
          subst hcd
          exact hthr pto hpt hp
      · simp at hcd
  · unfold Mod.ba at hd
    split at hd
    · cases hd
      simp at hcd
    · rename_i out ho
      obtain ⟨lk, hlk, hneg, hcm⟩ := mem_pair_loop hd hcd
      have h1 := hs.skeys _ _ hlk
      have h2 := hs.skeys _ _ hneg
      unfold Mod.ba_pair at hcm
      cases hq : k.q with
      | lower =>
        rw [hq] at hcm
        dsimp only at hcm
        split at hcm
        · rcases List.mem_append.1 hcm with hcm | hcm
          · have := (mem_sideband hcm).2
            rw [List.mem_singleton] at this
            subst this
            exact h1
          · have := (mem_sideband hcm).2
            rw [List.mem_singleton] at this
            subst this
            exact h2
        · have := (mem_sideband hcm).2
          rw [List.mem_singleton] at this
          subst this
          exact h1
      | raise =>
        rw [hq] at hcm
        dsimp only at hcm
        split at hcm
        · rcases List.mem_append.1 hcm with hcm | hcm
          · have := (mem_sideband hcm).2
            rw [List.mem_singleton] at this
            subst this
            exact h2
          · have := (mem_sideband hcm).2
            rw [List.mem_singleton] at this
            subst this
            exact h1
        · have := (mem_sideband hcm).2
          rw [List.mem_singleton] at this
          subst this
          exact h2

/-- The loops of `ports_fill_2optical_2classical` for one port. -/
theorem mem_fill_through {reject : K → Bool} {ins outs : List (P × List P)} {inp out : Option P} {x : P × List P}
    (hx : x ∈ ins) : (fill_through x.1 x.2 : Block P (Key O K)) ∈ fill reject ins outs inp out := by
  unfold fill
  refine List.mem_append_left _ (List.mem_flatMap.2 ⟨x, hx, ?_⟩)
  simp

theorem mem_fill_in {reject : K → Bool} {ins outs : List (P × List P)} {inp : P} {out : Option P} {x : P × List P}
    (hx : x ∈ ins) : (fill_in reject x.1 x.2 inp : Block P (Key O K)) ∈ fill reject ins outs (some inp) out := by
  unfold fill
  refine List.mem_append_left _ (List.mem_flatMap.2 ⟨x, hx, ?_⟩)
  simp

theorem mem_fill_beat {reject : K → Bool} {ins outs : List (P × List P)} {inp : Option P} {out : P} {x : P × List P}
    (hx : x ∈ ins) : (fill_beat reject x.1 out : Block P (Key O K)) ∈ fill reject ins outs inp (some out) := by
  unfold fill
  refine List.mem_append_left _ (List.mem_flatMap.2 ⟨x, hx, ?_⟩)
  simp

theorem Served.through (h : Served IsPort bs X) {a : P} {ptos : List P} (hb : fill_through a ptos ∈ bs) {p : P} (hp : p ∈ ptos)
    {k : Key O K} (hk : X a k) (hpp : IsPort p) : X p k :=
  h.each a _ hb k hk (p, k) (by rw [List.mem_toFinset, List.mem_map]; exact ⟨p, hp, rfl⟩) hpp

theorem Served.sideband (h : Served IsPort bs X) {a inp : P} {ptos : List P} (hb : fill_in A.reject a ptos inp ∈ bs) {p : P}
    (hp : p ∈ ptos) (hai : a ≠ inp) {k : OKey O K} {l : K} (hk : X a (.opt k)) (hl : X inp (.sig l))
    (hr : A.reject (up k l) = false) (hpp : IsPort p) : X p (.opt (k.at (up k l))) := by
  refine h.pair a (.one inp) none _ hb (by simpa using hai) inp (by simp [argPorts]) (.opt k) (.sig l) hk hl (by simp)
    (p, .opt (k.at (up k l))) ?_ hpp
  show _ ∈ (if A.reject (up k l) = true then ∅ else _ : Finset (P × Key O K))
  rw [if_neg (by rw [hr]; simp)]
  refine Finset.mem_union_right _ (List.mem_toFinset.2 (List.mem_flatMap.2 ⟨p, hp, by simp⟩))

theorem Served.beats (h : Served IsPort bs X) {a out : P} (hb : fill_beat A.reject a out ∈ bs) {k l : OKey O K}
    (hk : X a (.opt k)) (hl : X a (.opt l)) (hp : l.opt = k.opt ∧ l.pol = k.pol ∧ l.q = k.q.conj)
    (hr : A.reject (beat k l) = false) (hpp : IsPort out) : X out (.sig (beat k l)) := by
  have e : beat l k = beat k l := by
    unfold Fill.beat
    rw [hp.2.2]
    cases k.q <;> rfl
  have hkl : ∀ s : Key O K → Key O K → Bool, some partner = some s →
      s (.opt k) (.opt l) = true ∧ s (.opt l) (.opt k) = true := by
    rintro s ⟨⟩
    simp only [partner, decide_eq_true_eq]
    refine ⟨⟨hp.1.symm, hp.2.1.symm, hp.2.2⟩, hp.1, hp.2.1, ?_⟩
    rw [hp.2.2]
    cases k.q <;> rfl
  refine h.same a (some partner) _ hb (.opt k) (.opt l) hk hl hkl (out, .sig (Fill.beat k l)) ?_ ?_ hpp
  · show _ ∈ (if A.reject (Fill.beat k l) = true then ∅ else _ : Finset (P × Key O K))
    rw [if_neg (by rw [hr]; simp)]
    simp
  · show _ ∈ (if A.reject (Fill.beat l k) = true then ∅ else {(out, .sig (Fill.beat l k))} : Finset (P × Key O K))
    rw [e, if_neg (by rw [hr]; simp)]
    simp

theorem light_ne {p : P} {q : P} (hp : A.kind p = some true) (hq : A.Sig q) : p ≠ q := by
  rintro rfl
  rw [Rule.Sig, hp] at hq
  simp at hq

/-- The direct couplings between two ports. -/
theorem edges_targets {a b : P} {v : OKey O K → F} (hs : Shows A X env) (hX : ∀ k, X a (.opt k) → IsPort b → X b (.opt k))
    {c : Coupling P (Key O K) F} (hc : c ∈ (env.okeys a).map (fun k => Coupling.edge (on a k) (on b k) (v k)))
    (hp : IsPort c.target.1) : X c.target.1 c.target.2 := by
  rw [List.mem_map] at hc
  obtain ⟨k, hk, rfl⟩ := hc
  exact hX k (hs.okeys _ _ hk) hp

theorem two_way_io {p q : Port P} (h : Served IsPort bs X) (hb : ∀ b ∈ (two_way p q : List (Block P (Key O K))), b ∈ bs) :
    (∀ k, X p.i k → IsPort q.o → X q.o k) ∧ ∀ k, X q.i k → IsPort p.o → X p.o k :=
  ⟨fun _ hk => h.copy (hb (Fill.copy p.i q.o) (by simp [two_way])) hk,
    fun _ hk => h.copy (hb (Fill.copy q.i p.o) (by simp [two_way])) hk⟩

/-- The pairs of ports that spaces, rotators and wave plates couple. -/
theorem both_ways {p q : Port P} {v : Port P × Port P → OKey O K → F} (hs : Shows A X env) (h : Served IsPort bs X)
    (hb : ∀ b ∈ (two_way p q : List (Block P (Key O K))), b ∈ bs) {c : Coupling P (Key O K) F}
    (hc : c ∈ [(p, q), (q, p)].flatMap (fun pq => (env.okeys pq.1.i).map (fun k => .edge (on pq.1.i k) (on pq.2.o k) (v pq k))))
    (hp : IsPort c.target.1) : X c.target.1 c.target.2 := by
  obtain ⟨h1, h2⟩ := two_way_io h hb
  rw [List.mem_flatMap] at hc
  obtain ⟨pq, hpq, hc⟩ := hc
  simp only [List.mem_cons, List.not_mem_nil, or_false] at hpq
  rcases hpq with rfl | rfl
  · exact edges_targets hs (fun k => h1 (.opt k)) hc hp
  · exact edges_targets hs (fun k => h2 (.opt k)) hc hp

/-- A modulation between two ports, of a port with the loops of `ports_fill_2optical_2classical`. -/
theorem mod_targets (hs : Shows A X env) (h : Served IsPort bs X) (m : Mod P F) {ins outs : List (P × List P)}
    {inp out : Option P} (hb : ∀ b ∈ (fill A.reject ins outs inp out : List (Block P (Key O K))), b ∈ bs)
    {ptos : List P} (hx : (m.pfrom.i, ptos) ∈ ins) (hpt : ∀ pto, m.ptoOpt = some pto → pto.o ∈ ptos)
    (hin : ∀ c pto, m.in_port_classical = some c → m.ptoOpt = some pto → inp = some c ∧ m.pfrom.i ≠ c)
    {k : OKey O K} (hk : X m.pfrom.i (.opt k)) {cs : List (Coupling P (Key O K) F)} (hc : m.fill env k = .ok cs)
    {c : Coupling P (Key O K) F} (hcm : c ∈ cs) (hp : IsPort c.target.1) : X c.target.1 c.target.2 := by
  refine fill_targets hs m k ?_ ?_ hc hcm hp
  · intro pto ht hpo
    exact h.through (hb _ (mem_fill_through hx)) (hpt pto ht) hk hpo
  · intro pto c l ht hi hl hr hpo
    obtain ⟨rfl, hne⟩ := hin c pto hi ht
    exact h.sideband (hb _ (mem_fill_in hx)) (hpt pto ht) hne hk hl hr hpo

/-! ## mirrors -/

theorem get_ofList_mem {α β : Type} [DecidableEq α] {a b c d j : α} {u v w z y : β}
    (h : Dict.get? (Dict.ofList [(a, u), (b, v), (c, w), (d, z)]) j = some y) :
    (a = j ∧ u = y) ∨ (b = j ∧ v = y) ∨ (c = j ∧ w = y) ∨ (d = j ∧ z = y) := by
  rw [get4] at h
  split_ifs at h with h1 h2 h3 h4 <;> cases h <;> tauto

theorem get_get? {α β : Type} [DecidableEq α] {d : Dict α β} {j : α} {v : β} (h : Dict.get d j = .ok v) :
    Dict.get? d j = some v := by
  unfold Dict.get at h
  cases hg : Dict.get? d j with
  | none => rw [hg] at h; cases h
  | some w => rw [hg] at h; cases h; rfl

/-- The optical ports of a mirror. -/
def Side (m : Mirror P F) (p : Port P) : Prop := p = m.FrA ∨ p = m.BkA ∨ p = m.FrB ∨ p = m.BkB

/-- The pairs of ports that a mirror couples by reflection. -/
def Sides (m : Mirror P F) (p q : Port P) : Prop :=
  (p = m.FrA ∧ q = m.FrB) ∨ (p = m.BkA ∧ q = m.BkB) ∨ (p = m.FrB ∧ q = m.FrA) ∨ (p = m.BkB ∧ q = m.BkA)

theorem Sides.left {m : Mirror P F} {p q : Port P} (h : Sides m p q) : Side m p := by
  rcases h with ⟨rfl, _⟩ | ⟨rfl, _⟩ | ⟨rfl, _⟩ | ⟨rfl, _⟩ <;> simp [Side]

theorem Sides.symm {m : Mirror P F} {p q : Port P} (h : Sides m p q) : Sides m q p := by
  rcases h with ⟨rfl, rfl⟩ | ⟨rfl, rfl⟩ | ⟨rfl, rfl⟩ | ⟨rfl, rfl⟩ <;> simp [Sides]

theorem Sides.right {m : Mirror P F} {p q : Port P} (h : Sides m p q) : Side m q := h.symm.left

theorem mirror_targets {m : Mirror P F} (hf : A.FitsO (.mirror m : OElem P O K F)) (h : Served IsPort (mirror_ports A.reject m) X)
    (hs : Shows A X env) {cs : List (Coupling P (Key O K) F)} (hm : m.setup env = .ok cs) {c : Coupling P (Key O K) F}
    (hc : c ∈ cs) (hp : IsPort c.target.1) : X c.target.1 c.target.2 := by
  have hlight : ∀ p, Side m p → A.Light p := by
    intro p hp
    rcases hp with rfl | rfl | rfl | rfl <;> exact light_at4 hf.1 _ _
  have hfill : ∀ b ∈ (fill A.reject
      [(m.FrA.i, [m.FrB.o]), (m.BkA.i, [m.BkB.o]), (m.FrB.i, [m.FrA.o]), (m.BkB.i, [m.BkA.o])]
      [(m.FrA.o, [m.FrB.i]), (m.BkA.o, [m.BkB.i]), (m.FrB.o, [m.FrA.i]), (m.BkB.o, [m.BkA.i])]
      (some m.Zd) (some m.ZF) : List (Block P (Key O K))), b ∈ mirror_ports A.reject m := by
    intro b hb
    unfold mirror_ports
    exact List.mem_append_right _ hb
  have hport : ∀ b, b ∈ mirror_port (decide (m.T ≠ 0)) m.has_loss (decide (m.R ≠ 0)) (decide (m.R_backscatter ≠ 0))
        m.FrA m.BkA m.LFrA m.FrB m.FrA ∨
      b ∈ mirror_port (decide (m.T ≠ 0)) m.has_loss (decide (m.R ≠ 0)) (decide (m.R_backscatter ≠ 0))
        m.BkA m.FrA m.LBkA m.BkB m.BkA ∨
      b ∈ mirror_port (decide (m.T ≠ 0)) m.has_loss (decide (m.R ≠ 0)) (decide (m.R_backscatter ≠ 0))
        m.FrB m.BkB m.LFrB m.FrA m.FrB ∨
      b ∈ mirror_port (decide (m.T ≠ 0)) m.has_loss (decide (m.R ≠ 0)) (decide (m.R_backscatter ≠ 0))
        m.BkB m.FrB m.LBkB m.BkA m.BkB → b ∈ (mirror_ports A.reject m : List (Block P (Key O K))) := by
    intro b hb
    unfold mirror_ports
    simp only [List.mem_append]
    tauto
  have hloss : m.has_loss = true → ∀ b, b ∈ mirror_loss m.LFrA m.FrA ∨ b ∈ mirror_loss m.LBkA m.BkA ∨
      b ∈ mirror_loss m.LFrB m.FrB ∨ b ∈ mirror_loss m.LBkB m.BkB → b ∈ (mirror_ports A.reject m : List (Block P (Key O K))) := by
    intro hl b hb
    unfold mirror_ports
    simp only [List.mem_append, hl, if_true]
    tauto
  -- the loss couplings
  have hlm : m.has_loss = true → ∀ port v, Dict.get? (m.lmap env) port = some v → ∀ k, X port.i (.opt k) → IsPort v.1.o →
      X v.1.o (.opt k) := by
    intro hl port v hv k hk hpo
    rcases get_ofList_mem hv with ⟨rfl, rfl⟩ | ⟨rfl, rfl⟩ | ⟨rfl, rfl⟩ | ⟨rfl, rfl⟩
    · exact h.copy (hloss hl (Fill.copy m.LFrA.i m.FrA.o) (Or.inl (by simp [mirror_loss]))) hk hpo
    · exact h.copy (hloss hl (Fill.copy m.LBkA.i m.BkA.o) (Or.inr (Or.inl (by simp [mirror_loss])))) hk hpo
    · exact h.copy (hloss hl (Fill.copy m.LFrB.i m.FrB.o) (Or.inr (Or.inr (Or.inl (by simp [mirror_loss]))))) hk hpo
    · exact h.copy (hloss hl (Fill.copy m.LBkB.i m.BkB.o) (Or.inr (Or.inr (Or.inr (by simp [mirror_loss]))))) hk hpo
  -- the transmission
  have htm : m.T ≠ 0 → ∀ port v, Dict.get? (m.tmap env) port = some v → ∀ k, X port.i (.opt k) → IsPort v.1.o →
      X v.1.o (.opt k) := by
    intro hT port v hv k hk hpo
    rcases get_ofList_mem hv with ⟨rfl, rfl⟩ | ⟨rfl, rfl⟩ | ⟨rfl, rfl⟩ | ⟨rfl, rfl⟩
    · exact h.copy (hport (Fill.copy m.FrA.i m.BkA.o) (Or.inl (by simp [mirror_port, hT]))) hk hpo
    · exact h.copy (hport (Fill.copy m.BkA.i m.FrA.o) (Or.inr (Or.inl (by simp [mirror_port, hT])))) hk hpo
    · exact h.copy (hport (Fill.copy m.FrB.i m.BkB.o) (Or.inr (Or.inr (Or.inl (by simp [mirror_port, hT]))))) hk hpo
    · exact h.copy (hport (Fill.copy m.BkB.i m.FrB.o) (Or.inr (Or.inr (Or.inr (by simp [mirror_port, hT]))))) hk hpo
  -- the ends of a port hold the same keys
  have hend : ∀ p, Side m p → ∀ k, (X p.i k → X p.o k) ∧ (X p.o k → X p.i k) := by
    intro p hp k
    have hio : (Fill.copy p.i p.o : Block P (Key O K)) ∈ mirror_ports A.reject m ∧
        (Fill.copy p.o p.i : Block P (Key O K)) ∈ mirror_ports A.reject m := by
      rcases hp with rfl | rfl | rfl | rfl
      · exact ⟨hport _ (Or.inl (by simp [mirror_port])), hport _ (Or.inl (by simp [mirror_port]))⟩
      · exact ⟨hport _ (Or.inr (Or.inl (by simp [mirror_port]))), hport _ (Or.inr (Or.inl (by simp [mirror_port])))⟩
      · exact ⟨hport _ (Or.inr (Or.inr (Or.inl (by simp [mirror_port])))),
          hport _ (Or.inr (Or.inr (Or.inl (by simp [mirror_port]))))⟩
      · exact ⟨hport _ (Or.inr (Or.inr (Or.inr (by simp [mirror_port])))),
          hport _ (Or.inr (Or.inr (Or.inr (by simp [mirror_port]))))⟩
    exact ⟨fun hk => h.copy hio.1 hk (h.port hio.2), fun hk => h.copy hio.2 hk (h.port hio.1)⟩
  -- reflection and backscatter
  have hins : ∀ p q, Sides m p q →
      (p.i, [q.o]) ∈ [(m.FrA.i, [m.FrB.o]), (m.BkA.i, [m.BkB.o]), (m.FrB.i, [m.FrA.o]), (m.BkB.i, [m.BkA.o])] := by
    intro p q hpq
    rcases hpq with ⟨rfl, rfl⟩ | ⟨rfl, rfl⟩ | ⟨rfl, rfl⟩ | ⟨rfl, rfl⟩ <;> simp
  have hrefl : ∀ p q, Sides m p q →
      ∀ g t s k d, X p.i (.opt k) → (m.reflection env p q g t s k).fill env k = .ok d → c ∈ d → X c.target.1 c.target.2 := by
    intro p q hpq g t s k d hk hd hcd
    refine mod_targets hs h (m.reflection env p q g t s k) hfill (hins p q hpq) ?_ ?_ hk hd hcd hp
    · rintro pto ⟨⟩
      simp
    · rintro z pto ⟨⟩ ⟨⟩
      exact ⟨rfl, light_ne (hlight p hpq.left).1 hf.2.1⟩
  have hback : ∀ p q, Sides m p q →
      ∀ g t s k d, X p.i (.opt k) → (m.reflection env p p g t s k).fill env k = .ok d → c ∈ d → X c.target.1 c.target.2 := by
    intro p q hpq g t s k d hk hd hcd
    have hpm : Side m p := hpq.left
    have hqm : Side m q := hpq.right
    refine fill_targets hs (m.reflection env p p g t s k) k ?_ ?_ hd hcd hp
    · rintro pto ⟨⟩ _
      exact (hend p hpm _).1 hk
    · rintro pto inp l ⟨⟩ ⟨⟩ hl hr hpo
      have hqi : (fill_through q.i [p.o] : Block P (Key O K)) ∈ mirror_ports A.reject m :=
        hfill _ (mem_fill_through (hins q p hpq.symm))
      have hqo : IsPort q.o := by
        rcases hqm with rfl | rfl | rfl | rfl
        · exact h.port (hport (Fill.copy m.FrA.o m.FrA.i) (Or.inl (by simp [mirror_port])))
        · exact h.port (hport (Fill.copy m.BkA.o m.BkA.i) (Or.inr (Or.inl (by simp [mirror_port]))))
        · exact h.port (hport (Fill.copy m.FrB.o m.FrB.i) (Or.inr (Or.inr (Or.inl (by simp [mirror_port])))))
        · exact h.port (hport (Fill.copy m.BkB.o m.BkB.i) (Or.inr (Or.inr (Or.inr (by simp [mirror_port])))))
      have h1 : X q.o (.opt (k.at (up k l))) :=
        h.sideband (hfill _ (mem_fill_in (hins p q hpq))) (by simp) (light_ne (hlight p hpm).1 hf.2.1) hk hl hr hqo
      exact h.through hqi (by simp) ((hend q hqm _).2 h1) hpo
  obtain ⟨b, hb, d, hd, hcd⟩ := mem_blocks hm hc
  rw [List.mem_append, List.mem_map, List.mem_singleton] at hb
  rcases hb with ⟨port, hpm, rfl⟩ | rfl
  · have hpm' : Side m port := by
      unfold Mirror.ports_optical at hpm
      unfold Side
      split_ifs at hpm <;> simp only [List.mem_cons, List.not_mem_nil, or_false] at hpm
      · rcases hpm with h | h <;> simp [h]
      · exact hpm
    unfold Mirror.at_port at hd
    cases hsg : Dict.get m.mod_sign_map port with
    | error e => rw [hsg] at hd; cases hd
    | ok s =>
      rw [hsg] at hd
      obtain ⟨k, hk, d2, hd2, hc2⟩ := mem_blocks_map (P := P) (κ := Key O K) (F := F)
        (f := fun k => blocks [m.transmit env port k, .ok (m.lose env port k), m.reflect env port s k,
          m.backscatter env port s k]) hd hcd
      have hXk := hs.okeys _ _ hk
      obtain ⟨b, hb, d3, hd3, hc3⟩ := mem_blocks hd2 hc2
      simp only [List.mem_cons, List.not_mem_nil, or_false] at hb
      rcases hb with rfl | rfl | rfl | rfl
      · unfold Mirror.transmit at hd3
        split_ifs at hd3 with hT
        · cases hg : Dict.get (m.tmap env) port with
          | error e => rw [hg] at hd3; cases hd3
          | ok v =>
            rw [hg] at hd3
            cases hd3
            rw [List.mem_singleton] at hc3
            subst hc3
            exact htm hT port v (get_get? hg) k hXk hp
        · cases hd3
          simp at hc3
      · cases hd3
        unfold Mirror.lose at hc3
        split_ifs at hc3 with hl
        · cases hg : Dict.get? (m.lmap env) port with
          | none => rw [hg] at hc3; simp at hc3
          | some v =>
            rw [hg] at hc3
            dsimp only at hc3
            rw [List.mem_singleton] at hc3
            subst hc3
            exact hlm hl port v hg k hXk hp
        · simp at hc3
      · unfold Mirror.reflect at hd3
        cases hg : Dict.get (m.rmap env) port with
        | error e => rw [hg] at hd3; cases hd3
        | ok v =>
          rw [hg] at hd3
          replace hd3 : (if m.R ≠ 0 then (m.reflection env port v.1 v.2 m.phase_rad s k).fill env k else .ok []) = .ok d3 := hd3
          split_ifs at hd3 with hR
          · refine hrefl port v.1 ?_ _ _ _ k d3 hXk hd3 hc3
            rcases get_ofList_mem (get_get? hg) with ⟨rfl, rfl⟩ | ⟨rfl, rfl⟩ | ⟨rfl, rfl⟩ | ⟨rfl, rfl⟩ <;> simp [Sides]
          · cases hd3
            simp at hc3
      · unfold Mirror.backscatter at hd3
        split_ifs at hd3 with hB
        · cases hg : Dict.get (m.rBSmap env) port with
          | error e => rw [hg] at hd3; cases hd3
          | ok v =>
            rw [hg] at hd3
            replace hd3 : (m.reflection env port v.1 v.2 m.backscatter_phase_rad s k).fill env k = .ok d3 := hd3
            have hv : v.1 = port := by
              rcases get_ofList_mem (get_get? hg) with ⟨rfl, rfl⟩ | ⟨rfl, rfl⟩ | ⟨rfl, rfl⟩ | ⟨rfl, rfl⟩ <;> rfl
            rw [hv] at hd3
            rcases hpm' with rfl | rfl | rfl | rfl
            · exact hback m.FrA m.FrB (by simp [Sides]) _ _ _ k d3 hXk hd3 hc3
            · exact hback m.BkA m.BkB (by simp [Sides]) _ _ _ k d3 hXk hd3 hc3
            · exact hback m.FrB m.FrA (by simp [Sides]) _ _ _ k d3 hXk hd3 hc3
            · exact hback m.BkB m.BkA (by simp [Sides]) _ _ _ k d3 hXk hd3 hc3
        · cases hd3
          simp at hc3
  · unfold Mirror.loss_couplings at hd
    split_ifs at hd with hl
    · obtain ⟨port, _, d2, hd2, hc2⟩ := mem_blocks_map hd hcd
      cases hg : Dict.get? (m.lmap env) port with
      | none => rw [hg] at hd2; cases hd2
      | some v =>
        rw [hg] at hd2
        cases hd2
        exact edges_targets hs (fun k hk => hlm hl port v hg k hk) hc2 hp
    · cases hd
      simp at hcd

end Optical

end Fill
