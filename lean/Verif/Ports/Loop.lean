import Mathlib.Data.Set.Finite.Basic
import Mathlib.Data.Finset.Card
import Mathlib.Data.Finset.Filter
import Mathlib.Data.Fintype.Card
import Mathlib.Order.WellFounded
import Verif.Ports.Basic

/-! # The worklist -/

set_option linter.unusedSectionVars false

namespace Ports
open Py

variable {O P K : Type} [DecidableEq O] [DecidableEq P] [DecidableEq K]

/-- The forwarding rules of the elements: `rules e prem (p, k)` says that element `e` needs key `k` at port `p` as soon as all the
keys `prem` are needed. -/
abbrev Rules (O P K : Type) := O → List (P × K) → P × K → Prop

/-- `p` is virtually owned by `e`, and `e` may itself be the one who asks for keys there. -/
def SelfFed (S : Sys O P K) (rules : Rules O P K) (e : O) (p : P) : Prop :=
  e ∈ S.virtuals p ∧ ∃ prem c, rules e prem c ∧ S.Conn c.1 p

/-- What the elements promise: the rules of an element concern its own ports, and whenever `system_setup_ports` is called it asks
for nothing but conclusions of rules whose premises are known, and for all those of which a premise is new.  (A premise at a port
that the element feeds itself as a virtual owner counts as new at every call, as when `port_full_get` is used.) -/
structure Obeys (S : Sys O P K) (rules : Rules O P K) : Prop where
  own : ∀ e prem c, rules e prem c → ∀ x ∈ prem, S.Own e x.1
  calls : ∀ e ssp, S.handler e = some ssp → ∀ (v : View P K) (U F : P → Finset K),
    (∀ p, S.Own e p → v.update p = .ok (U p)) → (∀ p, S.Own e p → v.set p = .ok (F p)) →
    ∃ reqs, ssp v = .ok reqs ∧
      (∀ r ∈ reqs, ∃ prem, rules e prem r ∧ ∀ x ∈ prem, x.2 ∈ U x.1 ∨ x.2 ∈ F x.1) ∧
      (∀ prem c, rules e prem c → (∀ x ∈ prem, x.2 ∈ U x.1 ∨ x.2 ∈ F x.1) →
        (∃ x ∈ prem, x.2 ∈ U x.1 ∨ SelfFed S rules e x.1) → c ∈ reqs)
  nonempty : ∀ e prem c, rules e prem c → prem ≠ []

/-- `X` contains what the elements ask for initially, and every conclusion of a rule whose premises are in `X`, at every port
connected to the one asked for. -/
structure Closed (S : Sys O P K) (rules : Rules O P K) (X : P → K → Prop) : Prop where
  init : ∀ el ∈ S.elements, ∀ reqs, S.initial el = some reqs → ∀ p k, (p, k) ∈ reqs →
    ∀ q, S.Conn p q → S.Port q → X q k
  rule : ∀ e, (S.handler e).isSome → ∀ prem p k, rules e prem (p, k) → (∀ x ∈ prem, X x.1 x.2) →
    ∀ q, S.Conn p q → S.Port q → X q k

/-- In every closed assignment. -/
def Forced (S : Sys O P K) (rules : Rules O P K) (p : P) (k : K) : Prop := ∀ X, Closed S rules X → X p k

theorem Forced.closed (S : Sys O P K) (rules : Rules O P K) : Closed S rules (Forced S rules) :=
  ⟨fun el hel reqs hr p k hpk q hc hq X hX => hX.init el hel reqs hr p k hpk q hc hq,
   fun e he prem p k hrl hp q hc hq X hX => hX.rule e he prem p k hrl (fun x hx => hp x hx X hX) q hc hq⟩

/-- The same promise with a margin: an element asks for nothing but conclusions of the rules `may`, and for all the conclusions
of the rules `must` of which a premise is new, as long as nothing is known but what `may` derives. -/
structure Between (S : Sys O P K) (may must : Rules O P K) : Prop where
  own : ∀ e prem c, must e prem c → ∀ x ∈ prem, S.Own e x.1
  calls : ∀ e ssp, S.handler e = some ssp → ∀ (v : View P K) (U F : P → Finset K),
    (∀ p, S.Own e p → v.update p = .ok (U p)) → (∀ p, S.Own e p → v.set p = .ok (F p)) →
    (∀ p k, S.Own e p → k ∈ U p ∨ k ∈ F p → Forced S may p k) →
    ∃ reqs, ssp v = .ok reqs ∧
      (∀ r ∈ reqs, ∃ prem, may e prem r ∧ ∀ x ∈ prem, x.2 ∈ U x.1 ∨ x.2 ∈ F x.1) ∧
      (∀ prem c, must e prem c → (∀ x ∈ prem, x.2 ∈ U x.1 ∨ x.2 ∈ F x.1) →
        (∃ x ∈ prem, x.2 ∈ U x.1 ∨ SelfFed S may e x.1) → c ∈ reqs)
  nonempty : ∀ e prem c, must e prem c → prem ≠ []

theorem Obeys.between {S : Sys O P K} {rules : Rules O P K} (h : Obeys S rules) : Between S rules rules :=
  ⟨h.own, fun e ssp he v U F hU hF _ => h.calls e ssp he v U F hU hF, h.nonempty⟩

/-- Somebody knows that `k` is needed at `q`. -/
def Known (st : St O P K) (q : P) (k : K) : Prop :=
  Has st.port_cplgs q k ∨ ∃ o, Has st.port_cplgs_update (o, q) k

/-- What holds whenever the loop of l.60 looks at its condition. -/
structure Inv (S : Sys O P K) (may must : Rules O P K) (st : St O P K) : Prop where
  dom : Dom S st
  current : st.current_element = none
  updateX : ∀ q k, ¬ Has st.port_cplgs_updateX q k
  nodup : st.owners_update.Nodup
  own : ∀ o q k, Has st.port_cplgs_update (o, q) k → S.Own o q
  awake : ∀ e q k, (S.handler e).isSome → Has st.port_cplgs_update (e, q) k → e ∈ st.owners_update
  sound : ∀ q k, Known st q k → Forced S may q k
  shared : ∀ o q k, Has st.port_cplgs_update (o, q) k → ¬ Has st.port_cplgs q k →
    ∀ o', S.Own o' q → Has st.port_cplgs_update (o', q) k
  init : ∀ el ∈ S.elements, ∀ reqs, S.initial el = some reqs → ∀ p k, (p, k) ∈ reqs →
    ∀ q, S.Conn p q → S.Port q → Known st q k
  spread : ∀ p q k, Known st p k → S.Conn p q → S.Port q → Known st q k
  fired : ∀ e, (S.handler e).isSome → ∀ prem p k, must e prem (p, k) →
    (∀ x ∈ prem, Has st.port_cplgs x.1 x.2 ∧ ¬ Has st.port_cplgs_update (e, x.1) x.2) →
    (∀ q, S.Conn p q → S.Port q → Known st q k) ∨
    (e ∈ st.owners_update ∧ ∃ x ∈ prem, SelfFed S may e x.1)

/-- The state after one element was processed. -/
theorem process_ok {S : Sys O P K} (w : S.WF) {may must : Rules O P K} (ob : Between S may must) (ch : Nat → Nat)
    {st : St O P K} (d : Dom S st) (hX : ∀ q k, ¬ Has st.port_cplgs_updateX q k)
    (hown : ∀ o q k, Has st.port_cplgs_update (o, q) k → S.Own o q)
    (hs : ∀ q k, Known st q k → Forced S may q k)
    {c : O} {ssp : View P K → Except Err (List (P × K))} (hc : S.handler c = some ssp) (hco : ∃ p, S.Own c p) :
    ∃ st' reqs, process S ch st c = .ok st' ∧ ssp (view { st with current_element := some c }) = .ok reqs ∧
      Dom S st' ∧ st'.current_element = none ∧
      (∀ q k, ¬ Has st'.port_cplgs_updateX q k) ∧
      (st.owners_update.Nodup → st'.owners_update.Nodup) ∧
      (∀ r ∈ reqs, ∃ prem, may c prem r ∧
        ∀ x ∈ prem, Has st.port_cplgs_update (c, x.1) x.2 ∨ Has st.port_cplgs x.1 x.2) ∧
      (∀ prem r, must c prem r →
        (∀ x ∈ prem, Has st.port_cplgs_update (c, x.1) x.2 ∨ Has st.port_cplgs x.1 x.2) →
        (∃ x ∈ prem, Has st.port_cplgs_update (c, x.1) x.2 ∨ SelfFed S may c x.1) → r ∈ reqs) ∧
      (let New := fun q k => (S.Port q ∧ ¬ Has st.port_cplgs q k ∧ ¬ Has st.port_cplgs_update (c, q) k) ∧
          Asked S reqs q k
       (∀ q k, Has st'.port_cplgs q k ↔ Has st.port_cplgs q k ∨ Has st.port_cplgs_update (c, q) k ∨
          (c ∈ S.virtuals q ∧ New q k)) ∧
       (∀ o q k, Has st'.port_cplgs_update (o, q) k ↔
          if o = c then S.port_owners.get? q = some c ∧ New q k
          else Has st.port_cplgs_update (o, q) k ∨ (S.Own o q ∧ New q k)) ∧
       (∀ o, o ∈ st'.owners_update ↔ o ∈ st.owners_update ∨ ∃ q k, New q k ∧ S.Own o q)) := by
  have dst : Dom S { st with current_element := some c } := ⟨d.cplgs, d.updateX, d.update⟩
  have getD_mem : ∀ {κ : Type} [DecidableEq κ] (t : Dict κ (Finset K)) (x : κ) (k : K),
      k ∈ (t.get? x).getD ∅ ↔ Has t x k := by
    intro κ _ t x k
    unfold Has
    cases t.get? x <;> simp
  obtain ⟨reqs, hr, hr1, hr2⟩ := ob.calls c ssp hc (view { st with current_element := some c })
    (fun p => (st.port_cplgs_update.get? (c, p)).getD ∅) (fun p => (st.port_cplgs.get? p).getD ∅)
    (by
      intro p hp
      obtain ⟨v, hv, hg⟩ := get_of_isSome (d.update c p hp)
      show st.port_cplgs_update.get (c, p) = _
      rw [hg, hv]; rfl)
    (by
      intro p hp
      obtain ⟨v, hv, hg⟩ := get_of_isSome ((d.cplgs p).2 (w.own_port hp))
      show st.port_cplgs.get p = _
      rw [hg, hv]; rfl)
    (by
      intro p k _ hk
      rw [getD_mem, getD_mem] at hk
      exact hs p k (hk.elim (fun h => Or.inr ⟨c, h⟩) Or.inl))
  simp only [getD_mem] at hr1 hr2
  obtain ⟨st1, h1, he⟩ := needed_all_ok w ch reqs (Eff.refl dst)
  have hfresh : ∀ q k, (Fresh S { st with current_element := some c } q k ∧ (False ∨ Asked S reqs q k)) ↔
      ((S.Port q ∧ ¬ Has st.port_cplgs q k ∧ ¬ Has st.port_cplgs_update (c, q) k) ∧ Asked S reqs q k) := by
    intro q k
    unfold Fresh
    simp
  have hupd := he.update
  have hupX := he.updateX
  have howns := he.owners
  simp only [hfresh] at hupd hupX howns
  have hcur1 : st1.current_element = some c := he.current
  have hcpl1 : st1.port_cplgs = st.port_cplgs := he.cplgs
  -- resolve
  obtain ⟨st2, g2, d2, c2, o2, a2, u2, x2⟩ := resolve_ports_ok (S := S) (e := c) ((S.owners_ports.get? c).getD [])
    (w.ports_nodup c) (fun p hp => by
      have := (w.ports c p).1 hp
      exact ⟨by simp [Sys.Port, this], Or.inl this⟩)
    (st := { st1 with current_element := none })
    ⟨he.dom.cplgs, he.dom.updateX, he.dom.update⟩
  obtain ⟨vl, hvl, hvg⟩ := get_of_isSome (w.virt_some c hco.choose hco.choose_spec)
  have hvirt : ∀ p, p ∈ vl ↔ c ∈ S.virtuals p := by
    intro p
    have := w.virt c p
    rwa [hvl, Option.getD_some] at this
  have hvnd : vl.Nodup := by
    have := w.virt_nodup c
    rwa [hvl, Option.getD_some] at this
  obtain ⟨st3, g3, d3, c3, o3, a3, u3, x3⟩ := resolve_ports_ok (S := S) (e := c) vl hvnd
    (fun p hp => ⟨(w.virt_port c p ((hvirt p).1 hp)).1, Or.inr ((hvirt p).1 hp)⟩) d2
  simp only [w.ports] at a2 u2 x2
  simp only [hvirt] at a3 u3 x3
  have excl : ∀ q, c ∈ S.virtuals q → S.port_owners.get? q ≠ some c := fun q h => (w.virt_port c q h).2
  refine ⟨st3, reqs, ?_, hr, d3, c3.trans c2, ?_, ?_, hr1, hr2, ?_, ?_, ?_⟩
  · unfold process
    rw [hc]
    dsimp only
    rw [hr, except_bind_ok', h1, except_bind_ok']
    unfold resolve_port_updates
    rw [hcur1]
    dsimp only
    rw [g2, except_bind_ok', hvg, except_bind_ok', g3]
  · intro q k
    rw [x3, x2, hupX]
    split
    · simp
    · split
      · simp
      · rename_i h1 h2
        rintro (h | ⟨_, o, ho, hco⟩)
        · exact hX q k h
        · cases hco
          exact h2 ho
  · intro hn
    rw [o3, o2]
    exact he.nodup hn
  · intro q k
    rw [a3, a2, u2, hcpl1]
    dsimp only
    rw [hupd]
    constructor
    · rintro ((h | ⟨h, h'⟩) | ⟨h, h'⟩)
      · exact Or.inl h
      · rcases h' with h' | ⟨hn, h' | ⟨_, h'⟩⟩
        · exact Or.inr (Or.inl h')
        · exact absurd h (excl q h')
        · exact absurd rfl h'
      · rw [if_neg (fun hh => excl q h hh.2)] at h'
        rcases h' with h' | ⟨hn, _⟩
        · exact Or.inr (Or.inl h')
        · exact Or.inr (Or.inr ⟨h, hn⟩)
    · rintro (h | h | ⟨h, hn⟩)
      · exact Or.inl (Or.inl h)
      · rcases hown c q k h with ho | ho
        · exact Or.inl (Or.inr ⟨ho, Or.inl h⟩)
        · refine Or.inr ⟨ho, ?_⟩
          rw [if_neg (fun hh => excl q ho hh.2)]
          exact Or.inl h
      · refine Or.inr ⟨h, ?_⟩
        rw [if_neg (fun hh => excl q h hh.2)]
        exact Or.inr ⟨hn, Or.inl h⟩
  · intro o q k
    rw [u3]
    by_cases hoc : o = c
    · subst hoc
      rw [if_pos rfl]
      by_cases hv : o ∈ S.virtuals q
      · rw [if_pos ⟨rfl, hv⟩, x2, if_neg (excl q hv), hupX]
        constructor
        · rintro (h | ⟨_, o', ho', hco⟩)
          · exact absurd h (hX q k)
          · cases hco
            exact absurd ho' (excl q hv)
        · rintro ⟨h, _⟩
          exact absurd h (excl q hv)
      · rw [if_neg (fun hh => hv hh.2), u2]
        by_cases hr : S.port_owners.get? q = some o
        · rw [if_pos ⟨rfl, hr⟩]
          dsimp only
          rw [hupX]
          constructor
          · rintro (h | ⟨h, _⟩)
            · exact absurd h (hX q k)
            · exact ⟨hr, h⟩
          · rintro ⟨_, h⟩
            exact Or.inr ⟨h, o, hr, rfl⟩
        · rw [if_neg (fun hh => hr hh.2)]
          dsimp only
          rw [hupd]
          constructor
          · rintro (h | ⟨_, h | ⟨h, _⟩⟩)
            · rcases hown o q k h with ho | ho
              · exact absurd ho hr
              · exact absurd ho hv
            · exact absurd h hv
            · exact absurd h hr
          · rintro ⟨h, _⟩
            exact absurd h hr
    · rw [if_neg hoc, if_neg (fun hh => hoc hh.1), u2, if_neg (fun hh => hoc hh.1)]
      dsimp only
      rw [hupd]
      refine or_congr_right ?_
      constructor
      · rintro ⟨hn, h | ⟨h, _⟩⟩
        · exact ⟨Or.inr h, hn⟩
        · exact ⟨Or.inl h, hn⟩
      · rintro ⟨h | h, hn⟩
        · exact ⟨hn, Or.inr ⟨h, fun e => hoc (Option.some.inj e).symm⟩⟩
        · exact ⟨hn, Or.inl h⟩
  · intro o
    rw [o3, o2]
    exact howns o

/-- One turn of the loop keeps the invariant, and makes progress. -/
theorem step_ok {S : Sys O P K} (w : S.WF) {may must : Rules O P K} (ob : Between S may must) (ch : Nat → Nat)
    {st : St O P K} (I : Inv S may must st) (hwo : ∀ o ∈ st.owners_update, ∃ p, S.Own o p)
    {c : O} {rest : List O} {n : Nat} (hp : pop (ch st.clock) st.owners_update = some (c, rest)) :
    ∃ st', process S ch { st with owners_update := rest, clock := n } c = .ok st' ∧ Inv S may must st' ∧
      (∀ o ∈ st'.owners_update, ∃ p, S.Own o p) ∧
      (∀ q k, Known st q k → Known st' q k) ∧
      ((S.handler c = none ∧ st'.owners_update = rest ∧ (∀ q k, Known st' q k → Known st q k)) ∨
       ((S.handler c).isSome ∧ ((∀ q k, Known st' q k → Known st q k) →
        ∀ o, (S.handler o).isSome → o ∈ st'.owners_update → o ∈ rest))) := by
  obtain ⟨hperm, _⟩ := pop_some hp
  have hmem : ∀ y, y ∈ st.owners_update ↔ y = c ∨ y ∈ rest := fun y => by rw [hperm.mem_iff, List.mem_cons]
  have hnd : (c :: rest).Nodup := hperm.nodup_iff.1 I.nodup
  obtain ⟨hcr, hrn⟩ := List.nodup_cons.1 hnd
  cases hc : S.handler c with
  | none =>
    refine ⟨{ st with owners_update := rest, clock := n }, by simp [process, hc], ?_, ?_, fun _ _ h => h,
      Or.inl ⟨rfl, rfl, fun _ _ h => h⟩⟩
    · refine ⟨⟨I.dom.cplgs, I.dom.updateX, I.dom.update⟩, I.current, I.updateX, hrn, I.own, ?_, I.sound, I.shared,
        I.init, I.spread, ?_⟩
      · intro e q k he h
        rcases (hmem e).1 (I.awake e q k he h) with rfl | h
        · rw [hc] at he; simp at he
        · exact h
      · intro e he prem p k hrl hx
        rcases I.fired e he prem p k hrl hx with h | ⟨h, h'⟩
        · exact Or.inl h
        · refine Or.inr ⟨?_, h'⟩
          rcases (hmem e).1 h with rfl | h
          · rw [hc] at he; simp at he
          · exact h
    · intro o ho
      exact hwo o ((hmem o).2 (Or.inr ho))
  | some ssp =>
    have hhc : (S.handler c).isSome := by simp [hc]
    obtain ⟨st', reqs, h0, _, dom', cur', X', nd', rq1, rq2, hspec⟩ := process_ok w ob ch
      (st := { st with owners_update := rest, clock := n })
      ⟨I.dom.cplgs, I.dom.updateX, I.dom.update⟩ I.updateX I.own I.sound hc (hwo c ((hmem c).2 (Or.inl rfl)))
    dsimp only at rq1 rq2 hspec
    obtain ⟨hA, hU, hW⟩ := hspec
    -- the new facts
    generalize hNew : (fun q k => (S.Port q ∧ ¬ Has st.port_cplgs q k ∧ ¬ Has st.port_cplgs_update (c, q) k) ∧
          Asked S reqs q k) = New at hA hU hW
    have hN : ∀ q k, New q k ↔ (S.Port q ∧ ¬ Has st.port_cplgs q k ∧ ¬ Has st.port_cplgs_update (c, q) k) ∧
          Asked S reqs q k := by intro q k; rw [← hNew]
    replace hA : ∀ q k, Has st'.port_cplgs q k ↔ Has st.port_cplgs q k ∨ Has st.port_cplgs_update (c, q) k ∨
          (c ∈ S.virtuals q ∧ New q k) := fun q k => by rw [hA, hN]
    replace hU : ∀ o q k, Has st'.port_cplgs_update (o, q) k ↔
          if o = c then S.port_owners.get? q = some c ∧ New q k
          else Has st.port_cplgs_update (o, q) k ∨ (S.Own o q ∧ New q k) := fun o q k => by rw [hU, hN]
    replace hW : ∀ o, o ∈ st'.owners_update ↔ o ∈ rest ∨ ∃ q k, New q k ∧ S.Own o q := fun o => by
      rw [hW]; simp only [hN]
    have hUne : ∀ o q k, o ≠ c → (Has st'.port_cplgs_update (o, q) k ↔
        Has st.port_cplgs_update (o, q) k ∨ (S.Own o q ∧ New q k)) := fun o q k h => by rw [hU, if_neg h]
    have hUc : ∀ q k, Has st'.port_cplgs_update (c, q) k ↔ S.port_owners.get? q = some c ∧ New q k :=
      fun q k => by rw [hU, if_pos rfl]
    have mono : ∀ q k, Known st q k → Known st' q k := by
      rintro q k (h | ⟨o, h⟩)
      · exact Or.inl ((hA q k).2 (Or.inl h))
      · by_cases hoc : o = c
        · subst hoc
          exact Or.inl ((hA q k).2 (Or.inr (Or.inl h)))
        · exact Or.inr ⟨o, (hUne o q k hoc).2 (Or.inl h)⟩
    have newKnown : ∀ q k, New q k → Known st' q k := by
      intro q k h
      obtain ⟨o, ho⟩ := Option.isSome_iff_exists.1 ((hN q k).1 h).1.1
      by_cases hoc : o = c
      · subst hoc
        exact Or.inr ⟨o, (hUc q k).2 ⟨ho, h⟩⟩
      · exact Or.inr ⟨o, (hUne o q k hoc).2 (Or.inr ⟨Or.inl ho, h⟩)⟩
    have askedKnown : ∀ q k, S.Port q → Asked S reqs q k → Known st' q k := by
      intro q k hq ha
      by_cases h1 : Has st.port_cplgs q k
      · exact mono q k (Or.inl h1)
      · by_cases h2 : Has st.port_cplgs_update (c, q) k
        · exact mono q k (Or.inr ⟨c, h2⟩)
        · exact newKnown q k ((hN q k).2 ⟨⟨hq, h1, h2⟩, ha⟩)
    have newForced : ∀ q k, New q k → Forced S may q k := by
      intro q k h
      obtain ⟨⟨hq, _, _⟩, p, hp, hpq⟩ := (hN q k).1 h
      obtain ⟨prem, hrl, hprem⟩ := rq1 _ hp
      refine (Forced.closed S may).rule c hhc prem p k hrl ?_ q hpq hq
      intro x hx
      rcases hprem x hx with h | h
      · exact I.sound _ _ (Or.inr ⟨c, h⟩)
      · exact I.sound _ _ (Or.inl h)
    have known' : ∀ q k, Known st' q k → Known st q k ∨ New q k := by
      rintro q k (h | ⟨o, h⟩)
      · rcases (hA q k).1 h with h | h | h
        · exact Or.inl (Or.inl h)
        · exact Or.inl (Or.inr ⟨c, h⟩)
        · exact Or.inr h.2
      · by_cases hoc : o = c
        · subst hoc
          exact Or.inr ((hUc q k).1 h).2
        · rcases (hUne o q k hoc).1 h with h | h
          · exact Or.inl (Or.inr ⟨o, h⟩)
          · exact Or.inr h.2
    refine ⟨st', h0, ⟨dom', cur', X', nd' hrn, ?_, ?_, ?_, ?_, ?_, ?_, ?_⟩, ?_, mono, Or.inr ⟨rfl, ?_⟩⟩
    · -- own
      intro o q k h
      by_cases hoc : o = c
      · subst hoc
        exact Or.inl ((hUc q k).1 h).1
      · rcases (hUne o q k hoc).1 h with h | h
        · exact I.own o q k h
        · exact h.1
    · -- awake
      intro e q k he h
      rw [hW]
      by_cases hoc : e = c
      · subst hoc
        obtain ⟨h1, h2⟩ := (hUc q k).1 h
        exact Or.inr ⟨q, k, h2, Or.inl h1⟩
      · rcases (hUne e q k hoc).1 h with h | h
        · rcases (hmem e).1 (I.awake e q k he h) with h | h
          · exact absurd h hoc
          · exact Or.inl h
        · exact Or.inr ⟨q, k, h.2, h.1⟩
    · -- sound
      intro q k h
      rcases known' q k h with h | h
      · exact I.sound q k h
      · exact newForced q k h
    · -- shared
      intro o q k h hnA o' ho'
      have hnA0 : ¬ Has st.port_cplgs q k := fun hh => hnA ((hA q k).2 (Or.inl hh))
      have hnUc : ¬ Has st.port_cplgs_update (c, q) k := fun hh => hnA ((hA q k).2 (Or.inr (Or.inl hh)))
      have fromNew : New q k → Has st'.port_cplgs_update (o', q) k := by
        intro hn
        by_cases hoc : o' = c
        · subst hoc
          rcases ho' with ho' | ho'
          · exact (hUc q k).2 ⟨ho', hn⟩
          · exact absurd ((hA q k).2 (Or.inr (Or.inr ⟨ho', hn⟩))) hnA
        · exact (hUne o' q k hoc).2 (Or.inr ⟨ho', hn⟩)
      by_cases hoc : o = c
      · subst hoc
        exact fromNew ((hUc q k).1 h).2
      · rcases (hUne o q k hoc).1 h with h | h
        · have := I.shared o q k h hnA0 o' ho'
          by_cases hoc' : o' = c
          · subst hoc'
            exact absurd this hnUc
          · exact (hUne o' q k hoc').2 (Or.inl this)
        · exact fromNew h.2
    · -- init
      intro el hel reqs' hr p k hpk q hpq hq
      exact mono q k (I.init el hel reqs' hr p k hpk q hpq hq)
    · -- spread
      intro p q k h hpq hq
      rcases known' p k h with h | h
      · exact mono q k (I.spread p q k h hpq hq)
      · obtain ⟨_, a, ha, hap⟩ := (hN p k).1 h
        exact askedKnown q k hq ⟨a, ha, hap.trans _ _ _ hpq⟩
    · -- fired
      intro e he prem p k hrl hx
      by_cases hec : e = c
      · subst hec
        by_cases hself : ∃ x ∈ prem, e ∈ S.virtuals x.1 ∧ New x.1 x.2
        · obtain ⟨x, hxm, hv, hn⟩ := hself
          right
          refine ⟨(hW e).2 (Or.inr ⟨x.1, x.2, hn, Or.inr hv⟩), x, hxm, hv, ?_⟩
          obtain ⟨_, p', hp', hpq'⟩ := (hN _ _).1 hn
          obtain ⟨prem', hrl', _⟩ := rq1 _ hp'
          exact ⟨prem', _, hrl', hpq'⟩
        · have hall : ∀ x ∈ prem, Has st.port_cplgs_update (e, x.1) x.2 ∨ Has st.port_cplgs x.1 x.2 := by
            intro x hxm
            rcases (hA _ _).1 (hx x hxm).1 with h | h | h
            · exact Or.inr h
            · exact Or.inl h
            · exact absurd ⟨x, hxm, h⟩ hself
          by_cases hnew : ∃ x ∈ prem, Has st.port_cplgs_update (e, x.1) x.2 ∨ SelfFed S may e x.1
          · left
            intro q hpq hq
            exact askedKnown q k hq ⟨p, rq2 prem (p, k) hrl hall hnew, hpq⟩
          · rcases I.fired e he prem p k hrl (fun x hxm => by
              refine ⟨(hall x hxm).resolve_left fun h => hnew ⟨x, hxm, Or.inl h⟩, fun h => hnew ⟨x, hxm, Or.inl h⟩⟩)
              with h | ⟨_, x, hxm, h⟩
            · left
              intro q hpq hq
              exact mono q k (h q hpq hq)
            · exact absurd ⟨x, hxm, Or.inr h⟩ hnew
      · rcases I.fired e he prem p k hrl (fun x hxm => by
          obtain ⟨h1, h2⟩ := hx x hxm
          have hoe := ob.own e prem _ hrl x hxm
          have hne : ¬ New x.1 x.2 := fun hn => h2 ((hUne e _ _ hec).2 (Or.inr ⟨hoe, hn⟩))
          have hnu : ¬ Has st.port_cplgs_update (e, x.1) x.2 := fun hn => h2 ((hUne e _ _ hec).2 (Or.inl hn))
          refine ⟨?_, hnu⟩
          rcases (hA _ _).1 h1 with h | h | h
          · exact h
          · by_contra hna
            exact hnu (I.shared c _ _ h hna e hoe)
          · exact absurd h.2 hne) with h | ⟨h, h'⟩
        · left
          intro q hpq hq
          exact mono q k (h q hpq hq)
        · right
          refine ⟨(hW e).2 (Or.inl ?_), h'⟩
          rcases (hmem e).1 h with h | h
          · exact absurd h hec
          · exact h
    · -- every owner on the list owns a port
      intro o ho
      rcases (hW o).1 ho with h | ⟨q, k, _, h⟩
      · exact hwo o ((hmem o).2 (Or.inr h))
      · exact ⟨q, h⟩
    · -- nothing new is known: only those that were waiting
      intro hk o ho hmo
      rcases (hW o).1 hmo with h | ⟨q, k, hn, hoq⟩
      · exact h
      · obtain ⟨⟨_, hnA, hnU⟩, _⟩ := (hN q k).1 hn
        rcases hk q k (newKnown q k hn) with h | ⟨o', h⟩
        · exact absurd h hnA
        · have := I.shared o' q k h hnA o hoq
          rcases (hmem o).1 (I.awake o q k ho this) with h' | h'
          · subst h'
            exact absurd this hnU
          · exact h'

/-! ## The initial requests -/

theorem setup_initial_ok {S : Sys O P K} (w : S.WF) (ch : Nat → Nat) (els : List O) {st0 st : St O P K}
    {R : P → K → Prop} (h : Eff S st0 R st) :
    ∃ st', setup_initial S ch els st = .ok st' ∧
      Eff S st0 (fun q k => R q k ∨ ∃ el ∈ els, ∃ reqs, S.initial el = some reqs ∧ Asked S reqs q k) st' := by
  induction els generalizing st R with
  | nil => exact ⟨st, rfl, h.congr fun q k _ => by simp⟩
  | cons el els ih =>
    unfold setup_initial
    cases hi : S.initial el with
    | none =>
      obtain ⟨st', h1, h2⟩ := ih h
      refine ⟨st', h1, h2.congr fun q k _ => or_congr_right ?_⟩
      simp [hi]
    | some reqs =>
      obtain ⟨st1, h1, he1⟩ := needed_all_ok w ch reqs h
      obtain ⟨st', h2, he2⟩ := ih he1
      refine ⟨st', by dsimp only; rw [h1, except_bind_ok', h2], he2.congr fun q k _ => ?_⟩
      rw [or_assoc]
      refine or_congr_right ?_
      simp [hi]

theorem initial_inv {S : Sys O P K} (w : S.WF) {may must : Rules O P K} (ob : Between S may must) (ch : Nat → Nat) :
    ∃ st, setup_initial S ch S.elements (start S) = .ok st ∧ Inv S may must st ∧
      (∀ o ∈ st.owners_update, ∃ p, S.Own o p) := by
  obtain ⟨d, hA, hX, hU, hW, hC⟩ := start_ok S
  obtain ⟨st, h1, he⟩ := setup_initial_ok w ch S.elements (Eff.refl d)
  have hfresh : ∀ q k, (Fresh S (start S) q k ∧
      (False ∨ ∃ el ∈ S.elements, ∃ reqs, S.initial el = some reqs ∧ Asked S reqs q k)) ↔
      (S.Port q ∧ ∃ el ∈ S.elements, ∃ reqs, S.initial el = some reqs ∧ Asked S reqs q k) := by
    intro q k
    unfold Fresh
    simp [hA, hC]
  have hupd := he.update
  have hupX := he.updateX
  have howns := he.owners
  simp only [hfresh] at hupd hupX howns
  have hA' : ∀ q k, ¬ Has st.port_cplgs q k := by
    intro q k; rw [he.cplgs]; exact hA q k
  have hU' : ∀ o q k, Has st.port_cplgs_update (o, q) k ↔
      (∃ el ∈ S.elements, ∃ reqs, S.initial el = some reqs ∧ Asked S reqs q k) ∧ S.Own o q := by
    intro o q k
    rw [hupd]
    constructor
    · rintro (h | ⟨⟨_, h⟩, h' | ⟨h', _⟩⟩)
      · exact absurd h (hU _ _)
      · exact ⟨h, Or.inr h'⟩
      · exact ⟨h, Or.inl h'⟩
    · rintro ⟨h, h'⟩
      refine Or.inr ⟨⟨w.own_port h', h⟩, ?_⟩
      rcases h' with h' | h'
      · exact Or.inr ⟨h', by rw [hC]; simp⟩
      · exact Or.inl h'
  refine ⟨st, h1, ⟨he.dom, he.current.trans hC, ?_, he.nodup (by rw [hW]; simp), ?_, ?_, ?_, ?_, ?_, ?_, ?_⟩, ?_⟩
  · intro q k
    rw [hupX]
    rintro (h | ⟨_, o, _, h⟩)
    · exact hX _ _ h
    · rw [hC] at h; cases h
  · intro o q k h
    exact ((hU' o q k).1 h).2
  · intro e q k _ h
    obtain ⟨h1, h2⟩ := (hU' e q k).1 h
    exact (howns e).2 (Or.inr ⟨q, k, ⟨w.own_port h2, h1⟩, h2⟩)
  · rintro q k (h | ⟨o, h⟩)
    · exact absurd h (hA' q k)
    · obtain ⟨⟨el, hel, reqs, hr, p, hp, hpq⟩, ho⟩ := (hU' o q k).1 h
      exact (Forced.closed S may).init el hel reqs hr p k hp q hpq (w.own_port ho)
  · intro o q k h _ o' ho'
    exact (hU' o' q k).2 ⟨((hU' o q k).1 h).1, ho'⟩
  · intro el hel reqs hr p k hpk q hpq hq
    obtain ⟨o, ho⟩ := Option.isSome_iff_exists.1 hq
    exact Or.inr ⟨o, (hU' o q k).2 ⟨⟨el, hel, reqs, hr, p, hpk, hpq⟩, Or.inl ho⟩⟩
  · rintro p q k (h | ⟨o, h⟩) hpq hq
    · exact absurd h (hA' p k)
    · obtain ⟨⟨el, hel, reqs, hr, a, ha, hap⟩, _⟩ := (hU' o p k).1 h
      obtain ⟨o', ho'⟩ := Option.isSome_iff_exists.1 hq
      exact Or.inr ⟨o', (hU' o' q k).2 ⟨⟨el, hel, reqs, hr, a, ha, hap.trans _ _ _ hpq⟩, Or.inl ho'⟩⟩
  · intro e he prem p k hrl hx
    obtain ⟨x, hxm⟩ := List.exists_mem_of_ne_nil _ (ob.nonempty e prem _ hrl)
    exact absurd (hx x hxm).1 (hA' _ _)
  · intro o ho
    rcases (howns o).1 ho with h | ⟨q, k, _, h⟩
    · rw [hW] at h; simp at h
    · exact ⟨q, h⟩

/-! ## The loop -/

theorem loop_ok {S : Sys O P K} (w : S.WF) {may must : Rules O P K} (ob : Between S may must) (ch : Nat → Nat) (n : Nat)
    {st : St O P K} (I : Inv S may must st) (hwo : ∀ o ∈ st.owners_update, ∃ p, S.Own o p) :
    ∃ r, loop S ch n st = .ok r ∧ ∀ st', r = some st' → Inv S may must st' ∧ st'.owners_update = [] := by
  induction n generalizing st with
  | zero =>
    unfold loop
    split
    · rename_i h
      exact ⟨_, rfl, fun st' e => by cases e; exact ⟨I, h⟩⟩
    · exact ⟨_, rfl, fun st' e => by cases e⟩
  | succ n ih =>
    unfold loop
    cases hp : pop (ch st.clock) st.owners_update with
    | none => exact ⟨_, rfl, fun st' e => by cases e; exact ⟨I, pop_none hp⟩⟩
    | some cr =>
      obtain ⟨c, rest⟩ := cr
      obtain ⟨st1, h1, I1, hwo1, _, _⟩ := step_ok w ob ch I hwo (n := st.clock + 1) hp
      dsimp only
      rw [h1, except_bind_ok']
      exact ih I1 hwo1

/-- Nothing is pending at the end: what is known has arrived. -/
theorem final_known {S : Sys O P K} {may must : Rules O P K}
    (hh : ∀ p, S.Port p → ∃ e, S.Own e p ∧ (S.handler e).isSome)
    (w : S.WF) {st : St O P K} (I : Inv S may must st) (hw : st.owners_update = []) :
    (∀ e q k, (S.handler e).isSome → ¬ Has st.port_cplgs_update (e, q) k) ∧
    (∀ q k, Known st q k → Has st.port_cplgs q k) := by
  have quiet : ∀ e q k, (S.handler e).isSome → ¬ Has st.port_cplgs_update (e, q) k := by
    intro e q k he h
    have := I.awake e q k he h
    rw [hw] at this
    simp at this
  refine ⟨quiet, ?_⟩
  rintro q k (h | ⟨o, h⟩)
  · exact h
  · by_contra hna
    obtain ⟨e, he, hs⟩ := hh q (w.own_port (I.own o q k h))
    exact quiet e q k hs (I.shared o q k h hna e he)

/-- At the end the assignment is closed under the rules that must be obeyed and under the bonds, and everything in it was derived by
the rules that may be used. -/
theorem final_between {S : Sys O P K} {may must : Rules O P K}
    (hh : ∀ p, S.Port p → ∃ e, S.Own e p ∧ (S.handler e).isSome)
    (w : S.WF) {st : St O P K} (I : Inv S may must st) (hw : st.owners_update = []) :
    Closed S must (fun p k => Has st.port_cplgs p k) ∧ (∀ p k, Has st.port_cplgs p k → Forced S may p k) ∧
    (∀ p q k, Has st.port_cplgs p k → S.Conn p q → S.Port q → Has st.port_cplgs q k) := by
  obtain ⟨quiet, known⟩ := final_known hh w I hw
  refine ⟨⟨?_, ?_⟩, fun p k h => I.sound p k (Or.inl h), ?_⟩
  · intro el hel reqs hr p k hpk q hpq hq
    exact known q k (I.init el hel reqs hr p k hpk q hpq hq)
  · intro e he prem p k hrl hx q hpq hq
    rcases I.fired e he prem p k hrl (fun x hxm => ⟨hx x hxm, quiet e _ _ he⟩) with h | ⟨h, _⟩
    · exact known q k (h q hpq hq)
    · rw [hw] at h
      simp at h
  · intro p q k h hpq hq
    exact known q k (I.spread p q k (Or.inl h) hpq hq)

end Ports
