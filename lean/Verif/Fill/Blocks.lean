import Verif.Fill.Tame
import Verif.Fill.Model

/-! # What the loops of `system_setup_ports` ask for -/

set_option linter.unusedSectionVars false

namespace Fill
open Py Ports

variable {E P κ : Type} [DecidableEq E] [DecidableEq P] [DecidableEq κ]

/-- The ports of an argument of `symmetric_update`. -/
def argPorts : PortArg P → List P
  | .one p => [p]
  | .many l => l

/-- The requests of a loop, in terms of the new keys `U` and the old keys `F` of the ports. -/
def Block.Yields (U F : P → Finset κ) (r : P × κ) : Block P κ → Prop
  | .always rs => r ∈ rs
  | .each a g => ∃ k ∈ U a, r ∈ g k
  | .check _ _ _ => False
  | .pair a b sel g => ∃ k1 k2, r ∈ g k1 k2 ∧
      ((k1 ∈ U a ∧ (∃ q ∈ argPorts b, k2 ∈ U q ∨ k2 ∈ F q) ∧ (∀ s, sel = some s → s k1 k2 = true)) ∨
        (PortArg.one a ≠ b ∧ k1 ∈ F a ∧ ∃ q ∈ argPorts b, k2 ∈ U q))
  | .checkPair _ _ _ _ => False
  | .prod a b g => ∃ k1 ∈ U a, ∃ k2, (k2 ∈ U b ∨ k2 ∈ F b) ∧ r ∈ g k1 k2

/-- The loop raises no exception. -/
def Block.Fine (U F : P → Finset κ) : Block P κ → Prop
  | .check a ok _ => ∀ k ∈ U a, ok k = true
  | .checkPair a b ok _ => ∀ k1 k2, (k1 ∈ U a ∨ k1 ∈ F a) → (k2 ∈ U b ∨ k2 ∈ F b) → ok k1 k2 = true
  | _ => True

theorem pool_list_ok (get : P → Except Err (Finset κ)) (A : P → Finset κ) (l : List P) (h : ∀ p ∈ l, get p = .ok (A p)) :
    ∃ s, pool_list get l = .ok s ∧ ∀ k, k ∈ s ↔ ∃ p ∈ l, k ∈ A p := by
  induction l with
  | nil => exact ⟨∅, rfl, by simp⟩
  | cons p l ih =>
    obtain ⟨s, h1, h2⟩ := ih (fun q hq => h q (List.mem_cons_of_mem _ hq))
    refine ⟨A p ∪ s, ?_, ?_⟩
    · unfold pool_list
      rw [h p (by simp), except_bind_ok', h1, except_bind_ok']
    · intro k
      simp [h2]

theorem pool_ok (get : P → Except Err (Finset κ)) (A : P → Finset κ) (b : PortArg P)
    (h : ∀ p ∈ argPorts b, get p = .ok (A p)) :
    ∃ s, pool get b = .ok s ∧ ∀ k, k ∈ s ↔ ∃ p ∈ argPorts b, k ∈ A p := by
  cases b with
  | one p => exact ⟨A p, h p (by simp [argPorts]), by simp [argPorts]⟩
  | many l => exact pool_list_ok get A l h

/-- What `symmetric_update` yields for a port and a port or a list of ports. -/
theorem symmetric_update_ok (v : View P κ) (a : P) (b : PortArg P) (sel : Option (κ → κ → Bool)) (U F : P → Finset κ)
    (hU : ∀ p, p = a ∨ p ∈ argPorts b → v.update p = .ok (U p)) (hF : ∀ p, p = a ∨ p ∈ argPorts b → v.set p = .ok (F p)) :
    ∃ pairs, symmetric_update v (.one a) b (subset sel) none = .ok pairs ∧ ∀ k1 k2, (k1, k2) ∈ pairs ↔
      ((k1 ∈ U a ∧ (∃ q ∈ argPorts b, k2 ∈ U q ∨ k2 ∈ F q) ∧ (∀ s, sel = some s → s k1 k2 = true)) ∨
        (PortArg.one a ≠ b ∧ k1 ∈ F a ∧ ∃ q ∈ argPorts b, k2 ∈ U q)) := by
  have hfull : ∀ p, p = a ∨ p ∈ argPorts b → v.full p = .ok (U p ∪ F p) := by
    intro p hp
    unfold View.full
    rw [hU p hp, except_bind_ok', hF p hp, except_bind_ok']
  obtain ⟨s1, h1, m1⟩ := pool_ok v.full (fun p => U p ∪ F p) b (fun p hp => hfull p (Or.inr hp))
  obtain ⟨s2, h2, m2⟩ := pool_ok v.update U b (fun p hp => hU p (Or.inr hp))
  have hUa := hU a (Or.inl rfl)
  have hFa := hF a (Or.inl rfl)
  have part1 : ∀ k1 k2, (k1, k2) ∈ (match subset sel with
      | some f => (U a).biUnion (fun k1 => (f s1 k1).image (fun k2 => (k1, k2)))
      | none => (U a).biUnion (fun k1 => s1.image (fun k2 => (k1, k2)))) ↔
      (k1 ∈ U a ∧ (∃ q ∈ argPorts b, k2 ∈ U q ∨ k2 ∈ F q) ∧ (∀ s, sel = some s → s k1 k2 = true)) := by
    intro k1 k2
    cases sel with
    | none =>
      simp only [subset, Option.map_none, Finset.mem_biUnion, Finset.mem_image, m1, Finset.mem_union, Prod.mk.injEq]
      constructor
      · rintro ⟨a1, ha, b1, hb, rfl, rfl⟩
        exact ⟨ha, hb, fun s hs => by cases hs⟩
      · rintro ⟨ha, hb, _⟩
        exact ⟨k1, ha, k2, hb, rfl, rfl⟩
    | some s =>
      simp only [subset, Option.map_some, Finset.mem_biUnion, Finset.mem_image, Finset.mem_filter, m1, Finset.mem_union,
        Prod.mk.injEq]
      constructor
      · rintro ⟨a1, ha, b1, ⟨hb, hs⟩, rfl, rfl⟩
        exact ⟨ha, hb, fun s' hs' => by cases hs'; exact hs⟩
      · rintro ⟨ha, hb, hs⟩
        exact ⟨k1, ha, k2, ⟨hb, hs s rfl⟩, rfl, rfl⟩
  unfold symmetric_update
  simp only [pool, update_get_arg] at *
  rw [hUa, except_bind_ok', h1, except_bind_ok', except_bind_ok']
  by_cases hab : PortArg.one a = b
  · rw [if_pos hab]
    refine ⟨_, rfl, fun k1 k2 => ?_⟩
    refine (part1 k1 k2).trans ?_
    simp [hab]
  · rw [if_neg hab, hFa, except_bind_ok', h2, except_bind_ok']
    refine ⟨_, rfl, fun k1 k2 => ?_⟩
    refine Finset.mem_union.trans (or_congr (part1 k1 k2) ?_)
    simp only [Finset.mem_biUnion, Finset.mem_image, m2, Prod.mk.injEq]
    constructor
    · rintro ⟨b1, hb, a1, ha, rfl, rfl⟩
      exact ⟨hab, ha, hb⟩
    · rintro ⟨_, ha, hb⟩
      exact ⟨k2, hb, k1, ha, rfl, rfl⟩

theorem reads_pair (a : P) (b : PortArg P) (sel : Option (κ → κ → Bool)) (g : κ → κ → Finset (P × κ)) (p : P) :
    p ∈ (Block.pair a b sel g).reads ↔ p = a ∨ p ∈ argPorts b := by
  cases b <;> simp [Block.reads, argPorts]

theorem Block.run_ok (v : View P κ) (U F : P → Finset κ) (b : Block P κ)
    (hU : ∀ p ∈ b.reads, v.update p = .ok (U p)) (hF : ∀ p ∈ b.reads, v.set p = .ok (F p)) (hf : b.Fine U F) :
    ∃ rs, b.run v = .ok rs ∧ ∀ r, r ∈ rs ↔ b.Yields U F r := by
  cases b with
  | always rs => exact ⟨rs, rfl, fun r => Iff.rfl⟩
  | each a g =>
    refine ⟨(U a).biUnion g, ?_, fun r => by simp [Block.Yields]⟩
    unfold Block.run
    dsimp only
    rw [hU a (by simp [Block.reads]), except_bind_ok']
  | check a ok e =>
    refine ⟨∅, ?_, fun r => by simp [Block.Yields]⟩
    unfold Block.run
    dsimp only
    rw [hU a (by simp [Block.reads]), except_bind_ok']
    exact if_pos (show ∀ k ∈ U a, ok k = true from hf)
  | pair a b sel g =>
    obtain ⟨pairs, h1, h2⟩ := symmetric_update_ok v a b sel U F (fun p hp => hU p ((reads_pair a b sel g p).2 hp))
      (fun p hp => hF p ((reads_pair a b sel g p).2 hp))
    refine ⟨pairs.biUnion (fun x => g x.1 x.2), ?_, fun r => ?_⟩
    · unfold Block.run
      dsimp only
      rw [h1, except_bind_ok']
    · simp only [Finset.mem_biUnion, Prod.exists, h2, Block.Yields]
      constructor
      · rintro ⟨k1, k2, h, hr⟩
        exact ⟨k1, k2, hr, h⟩
      · rintro ⟨k1, k2, hr, h⟩
        exact ⟨k1, k2, h, hr⟩
  | checkPair a b ok e =>
    obtain ⟨pairs, h1, h2⟩ := symmetric_update_ok v a (.one b) none U F
      (fun p hp => hU p (by simpa [Block.reads, argPorts] using hp))
      (fun p hp => hF p (by simpa [Block.reads, argPorts] using hp))
    refine ⟨∅, ?_, fun r => by simp [Block.Yields]⟩
    unfold Block.run
    dsimp only
    have h1' : symmetric_update v (.one a) (.one b) none none = .ok pairs := h1
    rw [h1', except_bind_ok', if_pos]
    rintro ⟨k1, k2⟩ hx
    refine hf k1 k2 ?_ ?_
    · rcases (h2 k1 k2).1 hx with h | h
      · exact Or.inl h.1
      · exact Or.inr h.2.1
    · rcases (h2 k1 k2).1 hx with h | h
      · obtain ⟨q, hq, hk⟩ := h.2.1
        rw [argPorts, List.mem_singleton] at hq
        exact hq ▸ hk
      · obtain ⟨q, hq, hk⟩ := h.2.2
        rw [argPorts, List.mem_singleton] at hq
        exact Or.inl (hq ▸ hk)
  | prod a b g =>
    refine ⟨(U a).biUnion (fun k1 => (U b ∪ F b).biUnion (fun k2 => g k1 k2)), ?_, fun r => ?_⟩
    · unfold Block.run View.full
      dsimp only
      rw [hU a (by simp [Block.reads]), except_bind_ok', hU b (by simp [Block.reads]), except_bind_ok',
        hF b (by simp [Block.reads]), except_bind_ok', except_bind_ok']
    · simp [Block.Yields]

theorem runs_ok (v : View P κ) (U F : P → Finset κ) (bs : List (Block P κ))
    (hU : ∀ b ∈ bs, ∀ p ∈ b.reads, v.update p = .ok (U p)) (hF : ∀ b ∈ bs, ∀ p ∈ b.reads, v.set p = .ok (F p))
    (hf : ∀ b ∈ bs, b.Fine U F) :
    ∃ rs, runs v bs = .ok rs ∧ ∀ r, r ∈ rs ↔ ∃ b ∈ bs, b.Yields U F r := by
  induction bs with
  | nil => exact ⟨∅, rfl, by simp⟩
  | cons b bs ih =>
    obtain ⟨x, hx, mx⟩ := b.run_ok v U F (hU b (by simp)) (hF b (by simp)) (hf b (by simp))
    obtain ⟨y, hy, my⟩ := ih (fun c hc => hU c (by simp [hc])) (fun c hc => hF c (by simp [hc]))
      (fun c hc => hf c (by simp [hc]))
    refine ⟨x ∪ y, ?_, fun r => by simp [mx, my]⟩
    unfold runs
    rw [hx, except_bind_ok', hy, except_bind_ok']

/-! ## Methods -/

/-- The method `ssp` makes the requests of the loops `bs`, in some order, or raises their exception. -/
def Lists (ssp : View P κ → Except Err (List (P × κ))) (bs : List (Block P κ)) : Prop :=
  ∀ v, match runs v bs with
    | .ok rs => ∃ l, ssp v = .ok l ∧ ∀ r, r ∈ l ↔ r ∈ rs
    | .error e => ssp v = .error e

/-- A loop keeps to the allowed keys. -/
def Block.Keeps (Good : P → κ → Prop) : Block P κ → Prop
  | .always rs => ∀ r ∈ rs, Good r.1 r.2
  | .each a g => ∀ k, Good a k → ∀ r ∈ g k, Good r.1 r.2
  | .check a ok _ => ∀ k, Good a k → ok k = true
  | .pair a b _ g => ∀ q ∈ argPorts b, ∀ k1 k2, Good a k1 → Good q k2 → ∀ r ∈ g k1 k2, Good r.1 r.2
  | .checkPair a b ok _ => ∀ k1 k2, Good a k1 → Good b k2 → ok k1 k2 = true
  | .prod a b g => ∀ k1 k2, Good a k1 → Good b k2 → ∀ r ∈ g k1 k2, Good r.1 r.2

/-- A loop treats `k` and `σ k` alike. -/
def Block.EvenB (Good : P → κ → Prop) (σ : κ → κ) : Block P κ → Prop
  | .always rs => ∀ r ∈ rs, (r.1, σ r.2) ∈ rs
  | .each a g => ∀ k, Good a k → ∀ r ∈ g k, (r.1, σ r.2) ∈ g (σ k)
  | .check _ _ _ => True
  | .pair a b sel g => ∀ q ∈ argPorts b, ∀ k1 k2, Good a k1 → Good q k2 →
      (∀ r ∈ g k1 k2, (r.1, σ r.2) ∈ g (σ k1) (σ k2)) ∧
      ∀ s, sel = some s → s k1 k2 = true → s (σ k1) (σ k2) = true
  | .checkPair _ _ _ _ => True
  | .prod a b g => ∀ k1 k2, Good a k1 → Good b k2 → ∀ r ∈ g k1 k2, (r.1, σ r.2) ∈ g (σ k1) (σ k2)

section Sys
variable {S : Sys E P κ} {Good : P → κ → Prop} {e : E} {ssp : View P κ → Except Err (List (P × κ))} {bs : List (Block P κ)}

theorem known_good {v : View P κ} {U F : P → Finset κ} (hg : ∀ p k, S.Own e p → k ∈ U p ∨ k ∈ F p → Good p k)
    (hown : ∀ b ∈ bs, ∀ p ∈ b.reads, S.Own e p) {b : Block P κ} (hb : b ∈ bs) (hk : b.Keeps Good) {r : P × κ}
    (hy : b.Yields U F r) : Good r.1 r.2 := by
  cases b with
  | always rs => exact hk r hy
  | each a g =>
    obtain ⟨k, hk', hr⟩ := hy
    exact hk k (hg a k (hown _ hb a (by simp [Block.reads])) (Or.inl hk')) r hr
  | check a ok e => exact hy.elim
  | pair a b sel g =>
    have ha : S.Own e a := hown _ hb a ((reads_pair a b sel g a).2 (Or.inl rfl))
    have hq : ∀ q ∈ argPorts b, S.Own e q := fun q hq => hown _ hb q ((reads_pair a b sel g q).2 (Or.inr hq))
    obtain ⟨k1, k2, hr, h | h⟩ := hy
    · obtain ⟨q, hqm, h2⟩ := h.2.1
      exact hk q hqm k1 k2 (hg a k1 ha (Or.inl h.1)) (hg q k2 (hq q hqm) h2) r hr
    · obtain ⟨q, hqm, h2⟩ := h.2.2
      exact hk q hqm k1 k2 (hg a k1 ha (Or.inr h.2.1)) (hg q k2 (hq q hqm) (Or.inl h2)) r hr
  | checkPair a b ok e => exact hy.elim
  | prod a b g =>
    obtain ⟨k1, h1, k2, h2, hr⟩ := hy
    exact hk k1 k2 (hg a k1 (hown _ hb a (by simp [Block.reads])) (Or.inl h1))
      (hg b k2 (hown _ hb b (by simp [Block.reads])) h2) r hr

theorem known_fine {U F : P → Finset κ} (hg : ∀ p k, S.Own e p → k ∈ U p ∨ k ∈ F p → Good p k)
    (hown : ∀ b ∈ bs, ∀ p ∈ b.reads, S.Own e p) {b : Block P κ} (hb : b ∈ bs) (hk : b.Keeps Good) : b.Fine U F := by
  cases b with
  | check a ok e => exact fun k hk' => hk k (hg a k (hown _ hb a (by simp [Block.reads])) (Or.inl hk'))
  | checkPair a b ok e =>
    exact fun k1 k2 h1 h2 => hk k1 k2 (hg a k1 (hown _ hb a (by simp [Block.reads])) h1)
      (hg b k2 (hown _ hb b (by simp [Block.reads])) h2)
  | always _ => trivial
  | each _ _ => trivial
  | pair _ _ _ _ => trivial
  | prod _ _ _ => trivial

/-- The method of an element whose loops keep to the allowed keys. -/
theorem Lists.requests (hl : Lists ssp bs) (hown : ∀ b ∈ bs, ∀ p ∈ b.reads, S.Own e p) (hk : ∀ b ∈ bs, b.Keeps Good)
    {v : View P κ} {U F : P → Finset κ} (hs : Sees S e v U F)
    (hg : ∀ p k, S.Own e p → k ∈ U p ∨ k ∈ F p → Good p k) :
    ∃ reqs, ssp v = .ok reqs ∧ ∀ r, r ∈ reqs ↔ ∃ b ∈ bs, b.Yields U F r := by
  obtain ⟨rs, h1, h2⟩ := runs_ok v U F bs (fun b hb p hp => hs.update p (hown b hb p hp))
    (fun b hb p hp => hs.set p (hown b hb p hp)) (fun b hb => known_fine hg hown hb (hk b hb))
  have := hl v
  rw [h1] at this
  obtain ⟨l, h3, h4⟩ := this
  exact ⟨l, h3, fun r => by rw [h4, h2]⟩

theorem Lists.good (hl : Lists ssp bs) (hown : ∀ b ∈ bs, ∀ p ∈ b.reads, S.Own e p) (hk : ∀ b ∈ bs, b.Keeps Good)
    {v : View P κ} {U F : P → Finset κ} (hs : Sees S e v U F)
    (hg : ∀ p k, S.Own e p → k ∈ U p ∨ k ∈ F p → Good p k) :
    ∃ reqs, ssp v = .ok reqs ∧ ∀ r ∈ reqs, Good r.1 r.2 := by
  obtain ⟨reqs, h1, h2⟩ := hl.requests hown hk hs hg
  refine ⟨reqs, h1, fun r hr => ?_⟩
  obtain ⟨b, hb, hy⟩ := (h2 r).1 hr
  exact known_good (v := v) hg hown hb (hk b hb) hy

theorem yields_even {U F : P → Finset κ} {σ : κ → κ} (hg : ∀ p k, S.Own e p → k ∈ U p ∨ k ∈ F p → Good p k)
    (hown : ∀ b ∈ bs, ∀ p ∈ b.reads, S.Own e p) {b : Block P κ} (hb : b ∈ bs) (he : b.EvenB Good σ)
    (hU : ∀ p k, S.Own e p → k ∈ U p → σ k ∈ U p) (hF : ∀ p k, S.Own e p → k ∈ F p → σ k ∈ F p) {r : P × κ}
    (hy : b.Yields U F r) : b.Yields U F (r.1, σ r.2) := by
  cases b with
  | always rs => exact he r hy
  | each a g =>
    have ha := hown _ hb a (by simp [Block.reads])
    obtain ⟨k, hk', hr⟩ := hy
    exact ⟨σ k, hU a k ha hk', he k (hg a k ha (Or.inl hk')) r hr⟩
  | check a ok e => exact hy.elim
  | pair a b sel g =>
    have ha : S.Own e a := hown _ hb a ((reads_pair a b sel g a).2 (Or.inl rfl))
    have hq : ∀ q ∈ argPorts b, S.Own e q := fun q hq => hown _ hb q ((reads_pair a b sel g q).2 (Or.inr hq))
    obtain ⟨k1, k2, hr, h | h⟩ := hy
    · obtain ⟨q, hqm, h2⟩ := h.2.1
      obtain ⟨e1, e2⟩ := he q hqm k1 k2 (hg a k1 ha (Or.inl h.1)) (hg q k2 (hq q hqm) h2)
      exact ⟨σ k1, σ k2, e1 r hr, Or.inl ⟨hU a k1 ha h.1,
        ⟨q, hqm, h2.imp (hU q k2 (hq q hqm)) (hF q k2 (hq q hqm))⟩, fun s hs => e2 s hs (h.2.2 s hs)⟩⟩
    · obtain ⟨q, hqm, h2⟩ := h.2.2
      obtain ⟨e1, _⟩ := he q hqm k1 k2 (hg a k1 ha (Or.inr h.2.1)) (hg q k2 (hq q hqm) (Or.inl h2))
      exact ⟨σ k1, σ k2, e1 r hr, Or.inr ⟨h.1, hF a k1 ha h.2.1, ⟨q, hqm, hU q k2 (hq q hqm) h2⟩⟩⟩
  | checkPair a b ok e => exact hy.elim
  | prod a b g =>
    have ha := hown _ hb a (by simp [Block.reads])
    have hbo := hown _ hb b (by simp [Block.reads])
    obtain ⟨k1, h1, k2, h2, hr⟩ := hy
    exact ⟨σ k1, hU a k1 ha h1, σ k2, h2.imp (hU b k2 hbo) (hF b k2 hbo),
      he k1 k2 (hg a k1 ha (Or.inl h1)) (hg b k2 hbo h2) r hr⟩

/-! ## What is sure to be asked for -/

/-- The loops of the element `e` are `bs`; it really owns the ports that it reads. -/
structure Runs (S : Sys E P κ) (Good : P → κ → Prop) (e : E) (bs : List (Block P κ)) : Prop where
  lists : ∀ ssp, S.handler e = some ssp → Lists ssp bs
  own : ∀ b ∈ bs, ∀ p ∈ b.reads, S.port_owners.get? p = some e
  keeps : ∀ b ∈ bs, b.Keeps Good

theorem Runs.owns (h : Runs S Good e bs) : ∀ b ∈ bs, ∀ p ∈ b.reads, S.Own e p :=
  fun b hb p hp => Or.inl (h.own b hb p hp)

theorem Runs.real (w : S.WF) (h : Runs S Good e bs) {b : Block P κ} (hb : b ∈ bs) {p : P} (hp : p ∈ b.reads) :
    e ∉ S.virtuals p := fun hv => (w.virt_port e p hv).2 (h.own b hb p hp)

/-- A rule that holds if the loops yield `c` whenever one of the premises is new. -/
theorem Runs.must (w : S.WF) (h : Runs S Good e bs) {prem : List (P × κ)} {c : P × κ} {b0 : Block P κ} (hb0 : b0 ∈ bs)
    (hp : ∀ x ∈ prem, x.1 ∈ b0.reads) (hne : prem ≠ [])
    (hy : ∀ U F : P → Finset κ, (∀ x ∈ prem, x.2 ∈ U x.1 ∨ x.2 ∈ F x.1) → (∃ x ∈ prem, x.2 ∈ U x.1) →
      ∃ b ∈ bs, b.Yields U F c) : Must S Good e prem c := by
  refine ⟨fun x hx => h.owns b0 hb0 _ (hp x hx), hne, ?_⟩
  intro ssp he v U F hs hg hk hn reqs hr
  obtain ⟨reqs', h1, h2⟩ := (h.lists ssp he).requests h.owns h.keeps hs hg
  rw [hr] at h1
  cases h1
  rw [h2]
  refine hy U F hk ?_
  obtain ⟨x, hx, h | h'⟩ := hn
  · exact ⟨x, hx, h⟩
  · exact absurd h' (h.real w hb0 (hp x hx))

theorem Runs.each (w : S.WF) (h : Runs S Good e bs) {a : P} {g : κ → Finset (P × κ)} (hb : .each a g ∈ bs) {k : κ} {c : P × κ}
    (hc : c ∈ g k) : Must S Good e [(a, k)] c := by
  refine h.must w hb (by simp [Block.reads]) (by simp) ?_
  intro U F _ hn
  exact ⟨_, hb, k, by simpa using hn, hc⟩

theorem Runs.pair (w : S.WF) (h : Runs S Good e bs) {a : P} {b : PortArg P} {sel : Option (κ → κ → Bool)}
    {g : κ → κ → Finset (P × κ)} (hb : .pair a b sel g ∈ bs) (hab : PortArg.one a ≠ b) {q : P} (hq : q ∈ argPorts b)
    {k1 k2 : κ} {c : P × κ} (hc : c ∈ g k1 k2) (hs : ∀ s, sel = some s → s k1 k2 = true) :
    Must S Good e [(a, k1), (q, k2)] c := by
  refine h.must w hb ?_ (by simp) ?_
  · intro x hx
    rw [reads_pair]
    simp only [List.mem_cons, List.not_mem_nil, or_false] at hx
    rcases hx with rfl | rfl
    · exact Or.inl rfl
    · exact Or.inr hq
  · intro U F hk hn
    have h1 := hk (a, k1) (by simp)
    have h2 := hk (q, k2) (by simp)
    dsimp only at h1 h2
    by_cases hu : k1 ∈ U a
    · exact ⟨_, hb, k1, k2, hc, Or.inl ⟨hu, ⟨q, hq, h2⟩, hs⟩⟩
    · refine ⟨_, hb, k1, k2, hc, Or.inr ⟨hab, h1.resolve_left hu, q, hq, ?_⟩⟩
      obtain ⟨x, hx, hn⟩ := hn
      simp only [List.mem_cons, List.not_mem_nil, or_false] at hx
      rcases hx with rfl | rfl
      · exact absurd hn hu
      · exact hn

theorem Runs.prod_same (w : S.WF) (h : Runs S Good e bs) {a : P} {g : κ → κ → Finset (P × κ)} (hb : .prod a a g ∈ bs)
    {k1 k2 : κ} {c : P × κ} (h12 : c ∈ g k1 k2) (h21 : c ∈ g k2 k1) : Must S Good e [(a, k1), (a, k2)] c := by
  refine h.must w hb (by simp [Block.reads]) (by simp) ?_
  intro U F hk hn
  have h1 := hk (a, k1) (by simp)
  have h2 := hk (a, k2) (by simp)
  obtain ⟨x, hx, hn⟩ := hn
  simp only [List.mem_cons, List.not_mem_nil, or_false] at hx
  rcases hx with rfl | rfl
  · exact ⟨_, hb, k1, hn, k2, h2, h12⟩
  · exact ⟨_, hb, k2, hn, k1, h1, h21⟩

/-- Requests outside of any loop are made whenever the method is called: when there is a new key at a port. -/
theorem Runs.always (w : S.WF) (h : Runs S Good e bs) {rs : Finset (P × κ)} (hb : .always rs ∈ bs) {b0 : Block P κ}
    (hb0 : b0 ∈ bs) {a : P} (ha : a ∈ b0.reads) {k : κ} {c : P × κ} (hc : c ∈ rs) : Must S Good e [(a, k)] c := by
  refine h.must w hb0 (by simpa using ha) (by simp) ?_
  intro U F _ _
  exact ⟨_, hb, hc⟩

end Sys

end Fill
