import Mathlib.Data.List.FinRange
import Mathlib.Data.Fintype.Prod
import Mathlib.Tactic.FinCases
import Verif.Ports.Loop

/-!
# C40: port key propagation reaches the least closed assignment

`rules` are the forwarding rules of the elements, `Obeys` is what their `system_setup_ports` methods promise, `Closed` says that an
assignment of keys to ports contains what is asked for initially and whatever the rules derive, at every port that the bonds connect.
The stream `ch` decides every `set.pop`, so a theorem for all `ch` is a theorem for all processing orders.
-/

set_option linter.unusedSectionVars false

namespace Ports
open Py

variable {O P K : Type} [DecidableEq O] [DecidableEq P] [DecidableEq K]

/-! ## Elements that forward keys -/

/-- A `system_setup_ports` that copies keys: for every pair `(a, b)`, `for k in port_update_get(a): port_coupling_needed(b, k)`
(optics/space.py l.53-59 and many others).  `enum` lists the keys in the order of the sets. -/
def copyHandler (enum : List K) : List (P × P) → View P K → Except Err (List (P × K))
  | [], _ => .ok []
  | (a, b) :: l, v => do
    let s ← v.update a
    let rest ← copyHandler enum l v
    .ok ((enum.filter (· ∈ s)).map (fun k => (b, k)) ++ rest)

def copyRules (copies : List (P × P)) (prem : List (P × K)) (c : P × K) : Prop :=
  ∃ ab ∈ copies, ∃ k, prem = [(ab.1, k)] ∧ c = (ab.2, k)

theorem copyHandler_ok {enum : List K} (henum : ∀ k, k ∈ enum) (copies : List (P × P)) (v : View P K) (U : P → Finset K)
    (hU : ∀ ab ∈ copies, v.update ab.1 = .ok (U ab.1)) :
    ∃ reqs, copyHandler enum copies v = .ok reqs ∧
      ∀ r, r ∈ reqs ↔ ∃ ab ∈ copies, r.1 = ab.2 ∧ r.2 ∈ U ab.1 := by
  induction copies with
  | nil => exact ⟨[], rfl, by simp⟩
  | cons ab l ih =>
    obtain ⟨reqs, h1, h2⟩ := ih (fun x hx => hU x (List.mem_cons_of_mem _ hx))
    refine ⟨(enum.filter (· ∈ U ab.1)).map (fun k => (ab.2, k)) ++ reqs, ?_, ?_⟩
    · unfold copyHandler
      rw [hU ab (by simp), except_bind_ok', h1, except_bind_ok']
    · intro r
      rw [List.mem_append, h2]
      simp only [List.mem_map, List.mem_filter, henum, true_and, decide_eq_true_eq, List.mem_cons, exists_eq_or_imp]
      refine or_congr_left ?_
      constructor
      · rintro ⟨k, hk, rfl⟩
        exact ⟨rfl, hk⟩
      · rintro ⟨h, h'⟩
        exact ⟨r.2, h', Prod.ext h.symm rfl⟩

/-- A `system_setup_ports` that combines the keys of two ports:
`for k1, k2 in symmetric_update(p1, p2, subset_second, subset_first): port_coupling_needed(pto, f(k1, k2))`. -/
def mixHandler (enum : List K) (p1 p2 pto : P) (f : K → K → K)
    (second first : Option (Finset K → K → Finset K)) (v : View P K) : Except Err (List (P × K)) := do
  let pairs ← symmetric_update v (.one p1) (.one p2) second first
  .ok ((enum.flatMap (fun k1 => (enum.filter (fun k2 => (k1, k2) ∈ pairs)).map (fun k2 => (pto, f k1 k2)))))

def mixRules (p1 p2 pto : P) (f : K → K → K) (prem : List (P × K)) (c : P × K) : Prop :=
  ∃ k1 k2, prem = [(p1, k1), (p2, k2)] ∧ c = (pto, f k1 k2)

/-! ## `symmetric_update` -/

/-- For two different ports, `symmetric_update` yields every pair of known keys of which at least one is new, and nothing but pairs
of known keys. -/
theorem C40_symmetric_update (v : View P K) {p1 p2 : P} (hne : p1 ≠ p2) {U1 F1 U2 F2 : Finset K}
    (hU1 : v.update p1 = .ok U1) (hF1 : v.set p1 = .ok F1) (hU2 : v.update p2 = .ok U2) (hF2 : v.set p2 = .ok F2) :
    ∃ pairs, symmetric_update v (.one p1) (.one p2) none none = .ok pairs ∧
      (∀ k1 k2, (k1, k2) ∈ pairs → (k1 ∈ U1 ∨ k1 ∈ F1) ∧ (k2 ∈ U2 ∨ k2 ∈ F2) ∧ (k1 ∈ U1 ∨ k2 ∈ U2)) ∧
      (∀ k1 k2, (k1 ∈ U1 ∨ k1 ∈ F1) → (k2 ∈ U2 ∨ k2 ∈ F2) → (k1 ∈ U1 ∨ k2 ∈ U2) → (k1, k2) ∈ pairs) := by
  have hfull : v.full p2 = .ok (U2 ∪ F2) := by
    unfold View.full
    rw [hU2, except_bind_ok', hF2, except_bind_ok']
  refine ⟨(U1.biUnion fun a => (U2 ∪ F2).image fun b => (a, b)) ∪ (U2.biUnion fun b => F1.image fun a => (a, b)), ?_, ?_⟩
  · unfold symmetric_update
    simp only [pool, update_get_arg, hU1, hfull, hF1, hU2, except_bind_ok', PortArg.one.injEq, hne, if_false]
  · simp only [Finset.mem_union, Finset.mem_biUnion, Finset.mem_image, Prod.mk.injEq]
    constructor
    · rintro k1 k2 (⟨a, ha, b, hb, rfl, rfl⟩ | ⟨b, hb, a, ha, rfl, rfl⟩)
      · exact ⟨Or.inl ha, hb, Or.inl ha⟩
      · exact ⟨Or.inr ha, Or.inl hb, Or.inr hb⟩
    · rintro k1 k2 h1 h2 h3
      by_cases hk : k1 ∈ U1
      · exact Or.inl ⟨k1, hk, k2, h2, rfl, rfl⟩
      · exact Or.inr ⟨k2, h3.resolve_left hk, k1, h1.resolve_left hk, rfl, rfl⟩

/-- The hypotheses are met: one new key at each port, one old key at the first. -/
example : ∃ (v : View (Fin 2) (Fin 3)) (U1 F1 U2 F2 : Finset (Fin 3)), v.update 0 = .ok U1 ∧ v.set 0 = .ok F1 ∧
    v.update 1 = .ok U2 ∧ v.set 1 = .ok F2 ∧ U1 = {0} ∧ F1 = {1} ∧ U2 = {2} ∧ F2 = ∅ :=
  ⟨⟨fun p => if p = 0 then .ok {0} else .ok {2}, fun p => if p = 0 then .ok {1} else .ok ∅⟩, {0}, {1}, {2}, ∅,
    rfl, rfl, rfl, rfl, rfl, rfl, rfl, rfl⟩

/-- Asked for a port with itself, it yields every pair of known keys of which one is new in one of the two orders (l.220 skips the
other order). -/
theorem C40_symmetric_update_same (v : View P K) (p : P) {U F : Finset K}
    (hU : v.update p = .ok U) (hF : v.set p = .ok F) :
    ∃ pairs, symmetric_update v (.one p) (.one p) none none = .ok pairs ∧
      (∀ k1 k2, (k1, k2) ∈ pairs ↔ k1 ∈ U ∧ (k2 ∈ U ∨ k2 ∈ F)) ∧
      (∀ k1 k2, (k1 ∈ U ∨ k1 ∈ F) → (k2 ∈ U ∨ k2 ∈ F) → (k1 ∈ U ∨ k2 ∈ U) → (k1, k2) ∈ pairs ∨ (k2, k1) ∈ pairs) := by
  have hfull : v.full p = .ok (U ∪ F) := by
    unfold View.full
    rw [hU, except_bind_ok', hF, except_bind_ok']
  have key : ∀ k1 k2, (k1, k2) ∈ (U.biUnion fun a => (U ∪ F).image fun b => (a, b)) ↔ k1 ∈ U ∧ (k2 ∈ U ∨ k2 ∈ F) := by
    intro k1 k2
    simp only [Finset.mem_union, Finset.mem_biUnion, Finset.mem_image, Prod.mk.injEq]
    constructor
    · rintro ⟨a, ha, b, hb, rfl, rfl⟩
      exact ⟨ha, hb⟩
    · rintro ⟨h1, h2⟩
      exact ⟨k1, h1, k2, h2, rfl, rfl⟩
  refine ⟨_, ?_, key, ?_⟩
  · unfold symmetric_update
    simp only [pool, update_get_arg, hU, hfull, except_bind_ok', if_true]
  · intro k1 k2 h1 h2 h3
    rw [key, key]
    rcases h3 with h | h
    · exact Or.inl ⟨h, h2⟩
    · exact Or.inr ⟨h, h1⟩

/-- `symmetric_update` never works with a list of ports as its first argument: l.213 and l.217 use the list itself as a key. -/
theorem C40_list_refuted (v : View P K) (l : List P) (p2 : PortArg P) (s f : Option (Finset K → K → Finset K)) :
    ∀ pairs, symmetric_update v (.many l) p2 s f ≠ .ok pairs := by
  intro pairs h
  unfold symmetric_update at h
  cases h1 : pool v.update (.many l) with
  | error e => rw [h1] at h; cases h
  | ok a =>
    rw [h1, except_bind_ok'] at h
    cases h2 : pool v.full p2 with
    | error e => rw [h2] at h; cases h
    | ok b =>
      rw [h2, except_bind_ok'] at h
      cases h

/-! ## The main theorems -/

/-- Whatever the order: no exception is raised. -/
theorem C40_no_error {S : Sys O P K} (w : S.WF) {rules : Rules O P K} (hob : Obeys S rules) (ch : Nat → Nat) (n : Nat) :
    ∃ r, run S ch n = .ok r := by
  have ob := hob.between
  obtain ⟨st, h1, I, hwo⟩ := initial_inv w ob ch
  obtain ⟨r, h2, _⟩ := loop_ok w ob ch n I hwo
  exact ⟨r, by unfold run; rw [h1, except_bind_ok', h2]⟩

/-- When the loop ends, the keys of the ports contain what is asked for initially, are closed under the rules and the bonds, and
are contained in every assignment of which that is true. -/
theorem C40_least_partial {S : Sys O P K} (w : S.WF) {rules : Rules O P K} (ob : Obeys S rules)
    (hh : ∀ p, S.Port p → ∃ e, S.Own e p ∧ (S.handler e).isSome)
    {ch : Nat → Nat} {n : Nat} {st : St O P K} (h : run S ch n = .ok (some st)) :
    Closed S rules (fun p k => Has st.port_cplgs p k) ∧
    (∀ X, Closed S rules X → ∀ p k, Has st.port_cplgs p k → X p k) ∧
    (∀ p q k, Has st.port_cplgs p k → S.Conn p q → S.Port q → Has st.port_cplgs q k) := by
  obtain ⟨st0, h1, I, hwo⟩ := initial_inv w ob.between ch
  obtain ⟨r, h2, h3⟩ := loop_ok w ob.between ch n I hwo
  unfold run at h
  rw [h1, except_bind_ok', h2] at h
  cases h
  obtain ⟨I', hw⟩ := h3 st rfl
  obtain ⟨c1, c2, c3⟩ := final_between hh w I' hw
  exact ⟨c1, fun X hX p k hp => c2 p k hp X hX, c3⟩

/-- The result does not depend on the order. -/
theorem C40_order_partial {S : Sys O P K} (w : S.WF) {rules : Rules O P K} (ob : Obeys S rules)
    (hh : ∀ p, S.Port p → ∃ e, S.Own e p ∧ (S.handler e).isSome)
    {ch ch' : Nat → Nat} {n n' : Nat} {st st' : St O P K}
    (h : run S ch n = .ok (some st)) (h' : run S ch' n' = .ok (some st')) (p : P) :
    st.port_cplgs.get? p = st'.port_cplgs.get? p := by
  obtain ⟨c1, l1, _⟩ := C40_least_partial w ob hh h
  obtain ⟨c2, l2, _⟩ := C40_least_partial w ob hh h'
  have hiff : ∀ k, Has st.port_cplgs p k ↔ Has st'.port_cplgs p k := fun k => ⟨l1 _ c2 p k, l2 _ c1 p k⟩
  have dom : ∀ {ch : Nat → Nat} {n : Nat} {st : St O P K}, run S ch n = .ok (some st) → Dom S st := by
    intro ch n st h
    obtain ⟨st0, h1, I, hwo⟩ := initial_inv w ob.between ch
    obtain ⟨r, h2, h3⟩ := loop_ok w ob.between ch n I hwo
    unfold run at h
    rw [h1, except_bind_ok', h2] at h
    cases h
    exact (h3 st rfl).1.dom
  have hs : (st.port_cplgs.get? p).isSome ↔ (st'.port_cplgs.get? p).isSome := by
    rw [(dom h).cplgs, (dom h').cplgs]
  unfold Has at hiff
  cases ha : st.port_cplgs.get? p with
  | none =>
    cases hb : st'.port_cplgs.get? p with
    | none => rfl
    | some b => rw [ha, hb] at hs; simp at hs
  | some a =>
    cases hb : st'.port_cplgs.get? p with
    | none => rw [ha, hb] at hs; simp at hs
    | some b =>
      rw [ha, hb] at hiff
      simp only [Option.some.injEq, exists_eq_left'] at hiff
      rw [Finset.ext hiff]

/-! ### The loop ends -/

theorem loop_ends {S : Sys O P K} (w : S.WF) {may must : Rules O P K} (ob : Between S may must) (ch : Nat → Nat)
    (Fs : Finset (P × K)) (hFs : ∀ p k, Forced S may p k → (p, k) ∈ Fs) :
    ∀ (u h l : Nat) (st : St O P K), Inv S may must st → (∀ o ∈ st.owners_update, ∃ p, S.Own o p) →
      (open Classical in (Fs.filter (fun x => ¬ Known st x.1 x.2)).card) ≤ u →
      (st.owners_update.filter (fun o => (S.handler o).isSome)).length ≤ h →
      st.owners_update.length ≤ l → ∃ n st', loop S ch n st = .ok (some st') := by
  classical
  intro u
  induction u using Nat.strong_induction_on with
  | _ u ihu =>
  intro h
  induction h using Nat.strong_induction_on with
  | _ h ihh =>
  intro l
  induction l with
  | zero =>
    intro st I hwo _ _ hl
    exact ⟨0, st, by
      unfold loop
      rw [if_pos (List.length_eq_zero_iff.1 (by omega))]⟩
  | succ l ihl =>
    intro st I hwo hu hh hl
    cases hp : pop (ch st.clock) st.owners_update with
    | none => exact ⟨0, st, by unfold loop; rw [if_pos (pop_none hp)]⟩
    | some cr =>
      obtain ⟨c, rest⟩ := cr
      obtain ⟨hperm, hlen⟩ := pop_some hp
      obtain ⟨st1, h1, I1, hwo1, mono, hcase⟩ := step_ok w ob ch I hwo (n := st.clock + 1) hp
      have hperm' := hperm.filter (fun o => (S.handler o).isSome)
      have hflen := hperm'.length_eq
      suffices hs : ∃ n st', loop S ch n st1 = .ok (some st') by
        obtain ⟨n, st', hn⟩ := hs
        refine ⟨n + 1, st', ?_⟩
        unfold loop
        rw [hp]
        dsimp only
        rw [h1, except_bind_ok', hn]
      by_cases hk : ∀ q k, Known st1 q k → Known st q k
      · have heq : (Fs.filter (fun x => ¬ Known st1 x.1 x.2)) = (Fs.filter (fun x => ¬ Known st x.1 x.2)) := by
          apply Finset.filter_congr
          intro x _
          exact not_congr ⟨hk _ _, mono _ _⟩
        rcases hcase with ⟨hc, ho, _⟩ | ⟨hc, ho⟩
        · refine ihl st1 I1 hwo1 (by rw [heq]; exact hu) ?_ (by rw [ho]; omega)
          rw [List.filter_cons_of_neg (by simp [hc])] at hflen
          rw [ho]
          omega
        · rw [List.filter_cons_of_pos (by simpa using hc), List.length_cons] at hflen
          have hle : (st1.owners_update.filter (fun o => (S.handler o).isSome)).length ≤
              (rest.filter (fun o => (S.handler o).isSome)).length := by
            apply List.Subperm.length_le
            apply List.Nodup.subperm (I1.nodup.filter _)
            intro o hom
            obtain ⟨hom, hos⟩ := List.mem_filter.1 hom
            exact List.mem_filter.2 ⟨ho hk o hos hom, hos⟩
          exact ihh _ (by omega) st1.owners_update.length st1 I1 hwo1 (by rw [heq]; exact hu) (le_refl _) (le_refl _)
      · have hex : ∃ q k, Known st1 q k ∧ ¬ Known st q k := by
          by_contra hcon
          refine hk fun q k h1 => ?_
          by_contra h2
          exact hcon ⟨q, k, h1, h2⟩
        obtain ⟨q, k, hk1, hk2⟩ := hex
        have hlt : (Fs.filter (fun x => ¬ Known st1 x.1 x.2)).card < (Fs.filter (fun x => ¬ Known st x.1 x.2)).card := by
          apply Finset.card_lt_card
          rw [Finset.ssubset_iff_of_subset]
          · refine ⟨(q, k), ?_, ?_⟩
            · rw [Finset.mem_filter]
              exact ⟨hFs q k (I1.sound q k hk1), hk2⟩
            · rw [Finset.mem_filter]
              exact fun hh => hh.2 hk1
          · intro x hx
            rw [Finset.mem_filter] at hx ⊢
            exact ⟨hx.1, fun hh => hx.2 (mono _ _ hh)⟩
        exact ihu _ (by omega) _ st1.owners_update.length st1 I1 hwo1 (le_refl _) (le_refl _) (le_refl _)

/-- If only finitely many keys can ever be needed, the loop ends, in whatever order the elements are processed. -/
theorem C40_terminates {S : Sys O P K} (w : S.WF) {rules : Rules O P K} (ob : Obeys S rules) (ch : Nat → Nat)
    (X : P → K → Prop) (hX : Closed S rules X) (hfin : Set.Finite {x : P × K | X x.1 x.2}) :
    ∃ n st, run S ch n = .ok (some st) := by
  obtain ⟨st, h1, I, hwo⟩ := initial_inv w ob.between ch
  obtain ⟨n, st', h2⟩ := loop_ends w ob.between ch hfin.toFinset
    (fun p k hf => by rw [Set.Finite.mem_toFinset]; exact hf X hX) _ _ _ st I hwo (le_refl _) (le_refl _) (le_refl _)
  exact ⟨n, st', by unfold run; rw [h1, except_bind_ok', h2]⟩

/-! ## A system that meets the hypotheses

Element 0 is a space: it copies keys both ways between its ports 0, 1 (to the left) and 2, 3 (to the right).  Element 1 owns the
ports 4, 5, 6 and needs at 6 the sum of a key at 4 and a key at 5.  Port 2 is bonded to port 4. -/

def exCopies : List (Fin 7 × Fin 7) := [(0, 2), (2, 0), (1, 3), (3, 1)]

def exSys : Sys (Fin 2) (Fin 7) (Fin 4) where
  elements := [0, 1]
  port_owners := [(0, 0), (1, 0), (2, 0), (3, 0), (4, 1), (5, 1), (6, 1)]
  port_owners_virtual := []
  owners_ports := [(0, [0, 1, 2, 3]), (1, [4, 5, 6])]
  owners_ports_virtual := [(0, []), (1, [])]
  bond_pairs := [(2, [4])]
  initial e := if e = 0 then some [(0, 1), (3, 0)] else some [(5, 2)]
  handler e := if e = 0 then some (copyHandler [0, 1, 2, 3] exCopies)
    else some (mixHandler [0, 1, 2, 3] 4 5 6 (· + ·) none none)

def exRules : Rules (Fin 2) (Fin 7) (Fin 4) := fun e prem c =>
  if e = 0 then copyRules exCopies prem c else mixRules 4 5 6 (· + ·) prem c

theorem exSys_wf : exSys.WF := by
  constructor <;> (try unfold Sys.Own) <;> (try unfold Sys.Port) <;> decide

theorem exSys_obeys : Obeys exSys exRules := by
  have ho0 : ∀ ab ∈ exCopies, exSys.Own 0 ab.1 := by unfold Sys.Own; decide
  have hm4 : exSys.Own 1 4 := by unfold Sys.Own; decide
  have hm5 : exSys.Own 1 5 := by unfold Sys.Own; decide
  have hself : ∀ e p, ¬ SelfFed exSys exRules e p := by
    have hv : ∀ e p, e ∉ exSys.virtuals p := by decide
    exact fun e p h => hv e p h.1
  constructor
  · intro e prem c h
    unfold exRules at h
    split at h
    · rename_i he
      subst he
      obtain ⟨ab, hab, k, rfl, _⟩ := h
      intro x hx
      rw [List.mem_singleton.1 hx]
      exact ho0 ab hab
    · rename_i he
      have he1 : e = 1 := by omega
      subst he1
      obtain ⟨k1, k2, rfl, _⟩ := h
      intro x hx
      simp only [List.mem_cons, List.not_mem_nil, or_false] at hx
      rcases hx with rfl | rfl
      · exact hm4
      · exact hm5
  · intro e ssp he v U F hU hF
    unfold exSys at he
    dsimp only at he
    split at he
    · rename_i he0
      subst he0
      cases he
      obtain ⟨reqs, h1, h2⟩ := copyHandler_ok (enum := [0, 1, 2, 3]) (by decide) exCopies v U
        (fun ab hab => hU ab.1 (ho0 ab hab))
      refine ⟨reqs, h1, ?_, ?_⟩
      · intro r hr
        obtain ⟨ab, hab, hr1, hr2⟩ := (h2 r).1 hr
        refine ⟨[(ab.1, r.2)], ?_, ?_⟩
        · show copyRules exCopies _ _
          exact ⟨ab, hab, r.2, rfl, Prod.ext hr1 rfl⟩
        · intro x hx
          rw [List.mem_singleton.1 hx]
          exact Or.inl hr2
      · intro prem c hrl _ hnew
        obtain ⟨ab, hab, k, rfl, rfl⟩ : copyRules exCopies prem c := hrl
        obtain ⟨x, hx, h⟩ := hnew
        rw [List.mem_singleton.1 hx] at h
        exact (h2 _).2 ⟨ab, hab, rfl, h.resolve_right (hself _ _)⟩
    · rename_i he0
      have he1 : e = 1 := by omega
      subst he1
      cases he
      obtain ⟨pairs, h1, h2, h3⟩ := C40_symmetric_update v (p1 := 4) (p2 := 5) (by decide)
        (hU 4 hm4) (hF 4 hm4) (hU 5 hm5) (hF 5 hm5)
      have henum : ∀ k : Fin 4, k ∈ ([0, 1, 2, 3] : List (Fin 4)) := by decide
      refine ⟨_, by unfold mixHandler; rw [h1, except_bind_ok'], ?_, ?_⟩
      · intro r hr
        simp only [List.mem_flatMap, List.mem_map, List.mem_filter, decide_eq_true_eq] at hr
        obtain ⟨k1, _, k2, ⟨_, hk⟩, rfl⟩ := hr
        refine ⟨[(4, k1), (5, k2)], ⟨k1, k2, rfl, rfl⟩, ?_⟩
        obtain ⟨ha, hb, _⟩ := h2 k1 k2 hk
        intro x hx
        simp only [List.mem_cons, List.not_mem_nil, or_false] at hx
        rcases hx with rfl | rfl
        · exact ha
        · exact hb
      · intro prem c hrl hall hnew
        obtain ⟨k1, k2, rfl, rfl⟩ : mixRules 4 5 6 (· + ·) prem c := hrl
        simp only [List.mem_flatMap, List.mem_map, List.mem_filter, decide_eq_true_eq]
        refine ⟨k1, henum k1, k2, ⟨henum k2, h3 k1 k2 (hall (4, k1) (by simp)) (hall (5, k2) (by simp)) ?_⟩, rfl⟩
        obtain ⟨x, hx, h⟩ := hnew
        replace h := h.resolve_right (hself _ _)
        simp only [List.mem_cons, List.not_mem_nil, or_false] at hx
        rcases hx with rfl | rfl
        · exact Or.inl h
        · exact Or.inr h
  · intro e prem c h
    unfold exRules at h
    split at h
    · obtain ⟨ab, hab, k, rfl, _⟩ := h
      simp
    · obtain ⟨k1, k2, rfl, _⟩ := h
      simp

theorem exSys_handled : ∀ p, exSys.Port p → ∃ e, exSys.Own e p ∧ (exSys.handler e).isSome := by
  unfold Sys.Own Sys.Port
  decide

/-- The keys at a port when the loop ends. -/
def outcome (S : Sys O P K) (ch : Nat → Nat) (n : Nat) (p : P) : Option (Finset K) :=
  match run S ch n with
  | .ok (some st) => st.port_cplgs.get? p
  | _ => none

/-- The hypotheses of all the theorems are met together, and the result is not trivial: the key 1 asked for at port 0 gets to port
4 and, with the key 2 at port 5, the key 3 is needed at port 6; in two different orders. -/
example : exSys.WF ∧ Obeys exSys exRules ∧ (∀ p, exSys.Port p → ∃ e, exSys.Own e p ∧ (exSys.handler e).isSome) ∧
    outcome exSys (fun _ => 0) 9 6 = some {3} ∧ outcome exSys (fun n => n + 1) 9 6 = some {3} ∧
    outcome exSys (fun _ => 0) 9 4 = some {1} ∧ outcome exSys (fun _ => 0) 9 1 = some {0} :=
  ⟨exSys_wf, exSys_obeys, exSys_handled, by decide +kernel, by decide +kernel, by decide +kernel, by decide +kernel⟩

example : ∃ X, Closed exSys exRules X ∧ Set.Finite {x : Fin 7 × Fin 4 | X x.1 x.2} :=
  ⟨fun _ _ => True, ⟨fun _ _ _ _ _ _ _ _ _ _ => trivial, fun _ _ _ _ _ _ _ _ _ _ => trivial⟩, 
    (Finset.univ : Finset (Fin 7 × Fin 4)).finite_toSet.subset (fun x _ => by simp)⟩

/-! ## Where the property fails -/

/-- The promise without the provision for ports that an element feeds itself: the new keys of `port_update_get` only. -/
structure ObeysUpdates (S : Sys O P K) (rules : Rules O P K) : Prop where
  own : ∀ e prem c, rules e prem c → ∀ x ∈ prem, S.Own e x.1
  calls : ∀ e ssp, S.handler e = some ssp → ∀ (v : View P K) (U F : P → Finset K),
    (∀ p, S.Own e p → v.update p = .ok (U p)) → (∀ p, S.Own e p → v.set p = .ok (F p)) →
    ∃ reqs, ssp v = .ok reqs ∧
      (∀ r ∈ reqs, ∃ prem, rules e prem r ∧ ∀ x ∈ prem, x.2 ∈ U x.1 ∨ x.2 ∈ F x.1) ∧
      (∀ prem c, rules e prem c → (∀ x ∈ prem, x.2 ∈ U x.1 ∨ x.2 ∈ F x.1) → (∃ x ∈ prem, x.2 ∈ U x.1) → c ∈ reqs)
  nonempty : ∀ e prem c, rules e prem c → prem ≠ []

/-- Element 0 owns the ports 0, 1, 2 and does nothing.  Element 1 owns them virtually and copies from 0 to 1 and from 1 to 2. -/
def virtSys : Sys (Fin 2) (Fin 3) (Fin 1) where
  elements := [0, 1]
  port_owners := [(0, 0), (1, 0), (2, 0)]
  port_owners_virtual := [(0, [1]), (1, [1]), (2, [1])]
  owners_ports := [(0, [0, 1, 2])]
  owners_ports_virtual := [(0, []), (1, [0, 1, 2])]
  bond_pairs := []
  initial e := if e = 0 then some [(0, 0)] else none
  handler e := if e = 0 then some (copyHandler [0] []) else some (copyHandler [0] [(0, 1), (1, 2)])

def virtRules : Rules (Fin 2) (Fin 3) (Fin 1) := fun e prem c => e = 1 ∧ copyRules [(0, 1), (1, 2)] prem c

/-- The update of a virtual owner is lost when it asks for a key at a port that it owns virtually: the key goes into its own update
set (l.131-133), which is then merged and cleared at the end of the same call (l.86-91), so that `port_update_get` never shows it
(the TODO of signals/state_space.py l.89 is about this).  All the hypotheses hold but the provision for such ports, the loop ends,
and the result is not closed under the rules. -/
theorem C40_virtual_refuted : virtSys.WF ∧ ObeysUpdates virtSys virtRules ∧
    (∀ p, virtSys.Port p → ∃ e, virtSys.Own e p ∧ (virtSys.handler e).isSome) ∧
    ∃ st, run virtSys (fun _ => 0) 9 = .ok (some st) ∧ ¬ Closed virtSys virtRules (fun p k => Has st.port_cplgs p k) := by
  refine ⟨?_, ?_, ?_, ?_⟩
  · constructor <;> (try unfold Sys.Own) <;> (try unfold Sys.Port) <;> decide
  · have ho : ∀ ab ∈ ([(0, 1), (1, 2)] : List (Fin 3 × Fin 3)), virtSys.Own 1 ab.1 := by unfold Sys.Own; decide
    constructor
    · rintro e prem c ⟨rfl, ab, hab, k, rfl, _⟩ x hx
      rw [List.mem_singleton.1 hx]
      exact ho ab hab
    · intro e ssp he v U F hU hF
      unfold virtSys at he
      dsimp only at he
      split at he
      · rename_i he0
        subst he0
        cases he
        exact ⟨[], rfl, by simp, fun prem c h => absurd h.1 (by decide)⟩
      · rename_i he0
        have he1 : e = 1 := by omega
        subst he1
        cases he
        obtain ⟨reqs, h1, h2⟩ := copyHandler_ok (enum := [0]) (by decide) [(0, 1), (1, 2)] v U
          (fun ab hab => hU ab.1 (ho ab hab))
        refine ⟨reqs, h1, ?_, ?_⟩
        · intro r hr
          obtain ⟨ab, hab, hr1, hr2⟩ := (h2 r).1 hr
          refine ⟨[(ab.1, r.2)], ⟨rfl, ab, hab, r.2, rfl, Prod.ext hr1 rfl⟩, ?_⟩
          intro x hx
          rw [List.mem_singleton.1 hx]
          exact Or.inl hr2
        · rintro prem c ⟨_, ab, hab, k, rfl, rfl⟩ _ ⟨x, hx, h⟩
          rw [List.mem_singleton.1 hx] at h
          exact (h2 _).2 ⟨ab, hab, rfl, h⟩
    · rintro e prem c ⟨_, ab, hab, k, rfl, _⟩
      simp
  · unfold Sys.Own Sys.Port
    decide
  · have h1 : outcome virtSys (fun _ => 0) 9 1 = some {0} := by decide +kernel
    have h2 : outcome virtSys (fun _ => 0) 9 2 = some ∅ := by decide +kernel
    unfold outcome at h1 h2
    cases hr : run virtSys (fun _ => 0) 9 with
    | error e => rw [hr] at h1; cases h1
    | ok r =>
      cases r with
      | none => rw [hr] at h1; cases h1
      | some st =>
        rw [hr] at h1 h2
        refine ⟨st, rfl, fun hc => ?_⟩
        have := hc.rule 1 (by decide) [(1, 0)] 2 0 ⟨rfl, (1, 2), by simp, 0, rfl, rfl⟩ (fun x hx => by
          rw [List.mem_singleton.1 hx]
          exact ⟨{0}, h1, by simp⟩) 2 (Relation.EqvGen.refl _) (by unfold Sys.Port; decide)
        obtain ⟨s, hs, hm⟩ := this
        dsimp only at h2
        rw [h2] at hs
        cases hs
        simp at hm

/-- Element 0 owns port 0 and has no `system_setup_ports`. -/
def muteSys : Sys (Fin 1) (Fin 1) (Fin 1) where
  elements := [0]
  port_owners := [(0, 0)]
  port_owners_virtual := []
  owners_ports := [(0, [0])]
  owners_ports_virtual := [(0, [])]
  bond_pairs := []
  initial _ := some [(0, 0)]
  handler _ := none

/-- A port none of whose owners has a `system_setup_ports` never gets its keys: l.65-66 pass over the owner without
`resolve_port_updates`. -/
theorem C40_mute_refuted : muteSys.WF ∧ Obeys muteSys (fun _ _ _ => False) ∧
    ∃ st, run muteSys (fun _ => 0) 9 = .ok (some st) ∧
      ¬ Closed muteSys (fun _ _ _ => False) (fun p k => Has st.port_cplgs p k) := by
  refine ⟨?_, ?_, ?_⟩
  · constructor <;> (try unfold Sys.Own) <;> (try unfold Sys.Port) <;> decide
  · refine ⟨fun _ _ _ h => h.elim, fun e ssp h => ?_, fun _ _ _ h => h.elim⟩
    cases h
  · have h2 : outcome muteSys (fun _ => 0) 9 0 = some ∅ := by decide +kernel
    unfold outcome at h2
    cases hr : run muteSys (fun _ => 0) 9 with
    | error e => rw [hr] at h2; cases h2
    | ok r =>
      cases r with
      | none => rw [hr] at h2; cases h2
      | some st =>
        rw [hr] at h2
        refine ⟨st, rfl, fun hc => ?_⟩
        obtain ⟨s, hs, hm⟩ := hc.init 0 (by decide) _ rfl 0 0 (by simp) 0 (Relation.EqvGen.refl _) (by unfold Sys.Port; decide)
        dsimp only at h2
        rw [h2] at hs
        cases hs
        simp at hm

/-- Element 0 copies from port 0 to port 1, which is bonded to port 3; element 1 combines the keys at 2 and 3 with a selection
`subset_second` that refuses every pair, and no `subset_first`. -/
def subSys : Sys (Fin 2) (Fin 5) (Fin 2) where
  elements := [0, 1]
  port_owners := [(0, 0), (1, 0), (2, 1), (3, 1), (4, 1)]
  port_owners_virtual := []
  owners_ports := [(0, [0, 1]), (1, [2, 3, 4])]
  owners_ports_virtual := [(0, []), (1, [])]
  bond_pairs := [(1, [3])]
  initial e := if e = 0 then some [(0, 0)] else some [(2, 1)]
  handler e := if e = 0 then some (copyHandler [0, 1] [(0, 1)])
    else some (mixHandler [0, 1] 2 3 4 (· + ·) (some fun _ _ => ∅) none)

/-- With `subset_second` alone, as in optics/nonlinear_utilities.py l.105-109 and optics/hidden_variable_homodyne.py l.117-121, the
selection is applied to one half of the pairs only (l.211-219 but not l.240-243), and the result depends on the order in which the
elements are processed: the key 1 is needed at port 4 or not. -/
theorem C40_subset_refuted : subSys.WF ∧
    outcome subSys (fun _ => 0) 9 4 = some ∅ ∧ outcome subSys (fun _ => 1) 9 4 = some {1} := by
  refine ⟨?_, by decide +kernel, by decide +kernel⟩
  constructor <;> (try unfold Sys.Own) <;> (try unfold Sys.Port) <;> decide

end Ports
