import Verif.Ports.Props

/-!
# The worklist with elements that keep to an assignment

The theorems of C40 ask the elements to obey a set of rules exactly.  The handlers of the elements of the library do not:
which keys they ask for also depends on the order in which keys arrive (`C40_subset_refuted`).  Here the elements only have
to keep to an assignment `Good` of allowed keys; what they are sure to ask for (`Must`) is then found at the ports in the
end.
-/

set_option linter.unusedSectionVars false

namespace Ports
open Py

variable {O P K : Type} [DecidableEq O] [DecidableEq P] [DecidableEq K]

/-- What `port_update_get` and `port_set_get` return for the ports of the element `e`. -/
structure Sees (S : Sys O P K) (e : O) (v : View P K) (U F : P → Finset K) : Prop where
  update : ∀ p, S.Own e p → v.update p = .ok (U p)
  set : ∀ p, S.Own e p → v.set p = .ok (F p)

/-- The elements keep to `Good`: they ask for nothing else initially, and as long as they see nothing else their
`system_setup_ports` raises no exception and asks for nothing else; bonds connect ports with the same allowed keys. -/
structure Within (S : Sys O P K) (Good : P → K → Prop) : Prop where
  init : ∀ el ∈ S.elements, ∀ reqs, S.initial el = some reqs → ∀ r ∈ reqs, Good r.1 r.2
  bond : ∀ p q k, Good p k → S.Conn p q → S.Port q → Good q k
  calls : ∀ e ssp, S.handler e = some ssp → ∀ (v : View P K) (U F : P → Finset K), Sees S e v U F →
    (∀ p k, S.Own e p → k ∈ U p ∨ k ∈ F p → Good p k) → ∃ reqs, ssp v = .ok reqs ∧ ∀ r ∈ reqs, Good r.1 r.2

/-- The element `e` is sure to ask for `c` whenever it sees all of `prem`, one of them new (a key at a port that it owns
virtually counts as new). -/
def Must (S : Sys O P K) (Good : P → K → Prop) (e : O) (prem : List (P × K)) (c : P × K) : Prop :=
  (∀ x ∈ prem, S.Own e x.1) ∧ prem ≠ [] ∧ ∀ ssp, S.handler e = some ssp → ∀ (v : View P K) (U F : P → Finset K),
    Sees S e v U F → (∀ p k, S.Own e p → k ∈ U p ∨ k ∈ F p → Good p k) →
    (∀ x ∈ prem, x.2 ∈ U x.1 ∨ x.2 ∈ F x.1) → (∃ x ∈ prem, x.2 ∈ U x.1 ∨ e ∈ S.virtuals x.1) →
    ∀ reqs, ssp v = .ok reqs → c ∈ reqs

/-- Everything allowed may be asked for. -/
def May (Good : P → K → Prop) : Rules O P K := fun _ _ c => Good c.1 c.2

theorem Within.closed {S : Sys O P K} {Good : P → K → Prop} (h : Within S Good) : Closed S (May Good) Good :=
  ⟨fun el hel reqs hr p k hpk q hc hq => h.bond p q k (h.init el hel reqs hr (p, k) hpk) hc hq,
   fun _ _ _ p k hg _ q hc hq => h.bond p q k hg hc hq⟩

theorem Within.between {S : Sys O P K} {Good : P → K → Prop} (h : Within S Good) :
    Between S (May Good) (Must S Good) := by
  refine ⟨fun e prem c hm => hm.1, ?_, fun e prem c hm => hm.2.1⟩
  intro e ssp he v U F hU hF hf
  have hg : ∀ p k, S.Own e p → k ∈ U p ∨ k ∈ F p → Good p k := fun p k hp hk => hf p k hp hk Good h.closed
  obtain ⟨reqs, h1, h2⟩ := h.calls e ssp he v U F ⟨hU, hF⟩ hg
  refine ⟨reqs, h1, fun r hr => ⟨[], h2 r hr, by simp⟩, ?_⟩
  intro prem c hm hk hn
  refine hm.2.2 ssp he v U F ⟨hU, hF⟩ hg hk ?_ reqs h1
  obtain ⟨x, hx, hx'⟩ := hn
  exact ⟨x, hx, hx'.imp id (fun hs => hs.1)⟩

theorem Within.no_error {S : Sys O P K} (w : S.WF) {Good : P → K → Prop} (h : Within S Good) (ch : Nat → Nat) (n : Nat) :
    ∃ r, run S ch n = .ok r := by
  obtain ⟨st, h1, I, hwo⟩ := initial_inv w h.between ch
  obtain ⟨r, h2, _⟩ := loop_ok w h.between ch n I hwo
  exact ⟨r, by unfold run; rw [h1, except_bind_ok', h2]⟩

theorem Within.final {S : Sys O P K} (w : S.WF) {Good : P → K → Prop} (h : Within S Good)
    (hh : ∀ p, S.Port p → ∃ e, S.Own e p ∧ (S.handler e).isSome)
    {ch : Nat → Nat} {n : Nat} {st : St O P K} (hr : run S ch n = .ok (some st)) :
    Closed S (Must S Good) (fun p k => Has st.port_cplgs p k) ∧
    (∀ p k, Has st.port_cplgs p k → Good p k) ∧
    (∀ p q k, Has st.port_cplgs p k → S.Conn p q → S.Port q → Has st.port_cplgs q k) ∧ Dom S st := by
  obtain ⟨st0, h1, I, hwo⟩ := initial_inv w h.between ch
  obtain ⟨r, h2, h3⟩ := loop_ok w h.between ch n I hwo
  unfold run at hr
  rw [h1, except_bind_ok', h2] at hr
  cases hr
  obtain ⟨I', hw⟩ := h3 st rfl
  obtain ⟨c1, c2, c3⟩ := final_between hh w I' hw
  exact ⟨c1, fun p k hp => c2 p k hp Good h.closed, c3, I'.dom⟩

theorem Within.terminates {S : Sys O P K} (w : S.WF) {Good : P → K → Prop} (h : Within S Good) (ch : Nat → Nat)
    (hfin : Set.Finite {x : P × K | Good x.1 x.2}) : ∃ n st, run S ch n = .ok (some st) := by
  obtain ⟨st, h1, I, hwo⟩ := initial_inv w h.between ch
  obtain ⟨n, st', h2⟩ := loop_ends w h.between ch hfin.toFinset
    (fun p k hf => by rw [Set.Finite.mem_toFinset]; exact hf Good h.closed) _ _ _ st I hwo (le_refl _) (le_refl _) (le_refl _)
  exact ⟨n, st', by unfold run; rw [h1, except_bind_ok', h2]⟩

/-! ## Symmetric assignments -/

/-- The elements treat the keys `k` and `σ k` alike. -/
structure Even (S : Sys O P K) (Good : P → K → Prop) (σ : K → K) : Prop where
  invol : ∀ k, σ (σ k) = k
  init : ∀ el ∈ S.elements, ∀ reqs, S.initial el = some reqs → ∀ r ∈ reqs, (r.1, σ r.2) ∈ reqs
  calls : ∀ e ssp, S.handler e = some ssp → ∀ (v : View P K) (U F : P → Finset K), Sees S e v U F →
    (∀ p k, S.Own e p → k ∈ U p ∨ k ∈ F p → Good p k) →
    (∀ p k, S.Own e p → k ∈ U p → σ k ∈ U p) → (∀ p k, S.Own e p → k ∈ F p → σ k ∈ F p) →
    ∀ reqs, ssp v = .ok reqs → ∀ r ∈ reqs, (r.1, σ r.2) ∈ reqs

/-- A state whose sets are their own images. -/
structure EvenSt (σ : K → K) (st : St O P K) : Prop where
  cplgs : ∀ p k, Has st.port_cplgs p k → Has st.port_cplgs p (σ k)
  update : ∀ o p k, Has st.port_cplgs_update (o, p) k → Has st.port_cplgs_update (o, p) (σ k)

theorem process_even {S : Sys O P K} (w : S.WF) {Good : P → K → Prop} (h : Within S Good) {σ : K → K} (hev : Even S Good σ)
    (ch : Nat → Nat) {st : St O P K} (d : Dom S st) (hX : ∀ q k, ¬ Has st.port_cplgs_updateX q k)
    (hown : ∀ o q k, Has st.port_cplgs_update (o, q) k → S.Own o q)
    (hs : ∀ q k, Known st q k → Forced S (May Good) q k) (he : EvenSt σ st)
    {c : O} (hco : ∃ p, S.Own c p) {st' : St O P K} (hp : process S ch st c = .ok st') : EvenSt σ st' := by
  cases hc : S.handler c with
  | none =>
    unfold process at hp
    rw [hc] at hp
    cases hp
    exact he
  | some ssp =>
    obtain ⟨st1, reqs, h0, hreq, _, _, _, _, _, _, hspec⟩ := process_ok w h.between ch d hX hown hs hc hco
    rw [h0] at hp
    cases hp
    have getD_mem : ∀ {κ : Type} [DecidableEq κ] (t : Dict κ (Finset K)) (x : κ) (k : K),
        k ∈ (t.get? x).getD ∅ ↔ Has t x k := by
      intro κ _ t x k
      unfold Has
      cases t.get? x <;> simp
    have hreqs : ∀ r ∈ reqs, (r.1, σ r.2) ∈ reqs := by
      refine hev.calls c ssp hc _ (fun p => (st.port_cplgs_update.get? (c, p)).getD ∅)
        (fun p => (st.port_cplgs.get? p).getD ∅) ⟨?_, ?_⟩ ?_ ?_ ?_ reqs hreq
      · intro p hp
        obtain ⟨v, hv, hg⟩ := get_of_isSome (d.update c p hp)
        show st.port_cplgs_update.get (c, p) = _
        rw [hg, hv]; rfl
      · intro p hp
        obtain ⟨v, hv, hg⟩ := get_of_isSome ((d.cplgs p).2 (w.own_port hp))
        show st.port_cplgs.get p = _
        rw [hg, hv]; rfl
      · intro p k _ hk
        rw [getD_mem, getD_mem] at hk
        exact hs p k (hk.elim (fun h => Or.inr ⟨c, h⟩) Or.inl) Good h.closed
      · intro p k _ hk
        rw [getD_mem] at hk ⊢
        exact he.update c p k hk
      · intro p k _ hk
        rw [getD_mem] at hk ⊢
        exact he.cplgs p k hk
    have hask : ∀ q k, Asked S reqs q k → Asked S reqs q (σ k) := by
      rintro q k ⟨p, hp, hpq⟩
      exact ⟨p, hreqs _ hp, hpq⟩
    have hcn : ∀ p k, ¬ Has st.port_cplgs p k → ¬ Has st.port_cplgs p (σ k) := by
      intro p k hk hk'
      have := he.cplgs p _ hk'
      rw [hev.invol] at this
      exact hk this
    have hun : ∀ o p k, ¬ Has st.port_cplgs_update (o, p) k → ¬ Has st.port_cplgs_update (o, p) (σ k) := by
      intro o p k hk hk'
      have := he.update o p _ hk'
      rw [hev.invol] at this
      exact hk this
    dsimp only at hspec
    obtain ⟨hA, hU, _⟩ := hspec
    have hnew : ∀ q k, ((S.Port q ∧ ¬ Has st.port_cplgs q k ∧ ¬ Has st.port_cplgs_update (c, q) k) ∧ Asked S reqs q k) →
        ((S.Port q ∧ ¬ Has st.port_cplgs q (σ k) ∧ ¬ Has st.port_cplgs_update (c, q) (σ k)) ∧ Asked S reqs q (σ k)) :=
      fun q k hk => ⟨⟨hk.1.1, hcn q k hk.1.2.1, hun c q k hk.1.2.2⟩, hask q k hk.2⟩
    constructor
    · intro p k hk
      rw [hA] at hk ⊢
      rcases hk with hk | hk | ⟨hv, hk⟩
      · exact Or.inl (he.cplgs p k hk)
      · exact Or.inr (Or.inl (he.update c p k hk))
      · exact Or.inr (Or.inr ⟨hv, hnew p k hk⟩)
    · intro o p k hk
      rw [hU] at hk ⊢
      by_cases hoc : o = c
      · rw [if_pos hoc] at hk ⊢
        exact ⟨hk.1, hnew p k hk.2⟩
      · rw [if_neg hoc] at hk ⊢
        rcases hk with hk | ⟨ho, hk⟩
        · exact Or.inl (he.update o p k hk)
        · exact Or.inr ⟨ho, hnew p k hk⟩

theorem loop_even {S : Sys O P K} (w : S.WF) {Good : P → K → Prop} (h : Within S Good) {σ : K → K} (hev : Even S Good σ)
    (ch : Nat → Nat) (n : Nat) {st st' : St O P K} (I : Inv S (May Good) (Must S Good) st)
    (hwo : ∀ o ∈ st.owners_update, ∃ p, S.Own o p) (he : EvenSt σ st) (hl : loop S ch n st = .ok (some st')) :
    EvenSt σ st' := by
  induction n generalizing st with
  | zero =>
    unfold loop at hl
    split at hl
    · cases hl; exact he
    · cases hl
  | succ n ih =>
    unfold loop at hl
    cases hp : pop (ch st.clock) st.owners_update with
    | none => rw [hp] at hl; cases hl; exact he
    | some cr =>
      obtain ⟨c, rest⟩ := cr
      rw [hp] at hl
      dsimp only at hl
      obtain ⟨st1, h1, I1, hwo1, _, _⟩ := step_ok w h.between ch I hwo (n := st.clock + 1) hp
      rw [h1, except_bind_ok'] at hl
      refine ih I1 hwo1 ?_ hl
      refine process_even w h hev ch (st := { st with owners_update := rest, clock := st.clock + 1 })
        ⟨I.dom.cplgs, I.dom.updateX, I.dom.update⟩ I.updateX I.own I.sound ⟨he.cplgs, he.update⟩ ?_ h1
      exact hwo c ((pop_some hp).1.mem_iff.2 (by simp))

theorem Within.even {S : Sys O P K} (w : S.WF) {Good : P → K → Prop} (h : Within S Good) {σ : K → K} (hev : Even S Good σ)
    {ch : Nat → Nat} {n : Nat} {st : St O P K} (hr : run S ch n = .ok (some st)) (p : P) (k : K) :
    Has st.port_cplgs p (σ k) ↔ Has st.port_cplgs p k := by
  have key : EvenSt σ st := by
    obtain ⟨st0, h1, I, hwo⟩ := initial_inv w h.between ch
    unfold run at hr
    rw [h1, except_bind_ok'] at hr
    refine loop_even w h hev ch n I hwo ?_ hr
    obtain ⟨d, hA, hX, hU, hW, hC⟩ := start_ok S
    obtain ⟨st1, h2, hf⟩ := setup_initial_ok w ch S.elements (Eff.refl d)
    rw [h1] at h2
    cases h2
    constructor
    · intro p k hk
      rw [hf.cplgs] at hk
      exact absurd hk (hA p k)
    · intro o p k hk
      rw [hf.update] at hk ⊢
      rcases hk with hk | ⟨⟨⟨hp, _, _⟩, hk⟩, ho⟩
      · exact absurd hk (hU _ _)
      · refine Or.inr ⟨⟨⟨hp, hA _ _, fun e _ => hU _ _⟩, ?_⟩, ho⟩
        rcases hk with hk | ⟨el, hel, reqs, hi, a, ha, hap⟩
        · exact hk.elim
        · exact Or.inr ⟨el, hel, reqs, hi, a, hev.init el hel reqs hi _ ha, hap⟩
  refine ⟨fun hk => ?_, key.cplgs p k⟩
  have := key.cplgs p _ hk
  rwa [hev.invol] at this

end Ports
