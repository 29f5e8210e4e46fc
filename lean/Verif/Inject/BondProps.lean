import Mathlib.Logic.Relation
import Verif.Inject.SparsityProps
import Verif.Inject.Basic

/-!
# The links of the bonds (C54)
-/

set_option linter.unusedSectionVars false

namespace Inject
open Py

variable {P K : Type} [DecidableEq P] [DecidableEq K]

/-- the chain of ports a dictionary leads through -/
def Leads (d : Dict P P) : P → P → Prop := Relation.ReflTransGen (fun p q => Dict.get? d p = some q)

/-- `q` is where the chain from `p` stops -/
def LastOf (d : Dict P P) (p q : P) : Prop := Leads d p q ∧ Dict.get? d q = none

/-- The links of a bond from `pf` to `pt`: along the ports posted after `pf`, across, and along the ports
before `pt`. -/
inductive Link (post pre : Dict P P) (pf pt : P) : P → P → Prop
  | post {a b : P} : Leads post pf a → Dict.get? post a = some b → Link post pre pf pt a b
  | pre {a b : P} : Leads pre pt b → Dict.get? pre b = some a → Link post pre pf pt a b
  | across {a b : P} : LastOf post pf a → LastOf pre pt b → Link post pre pf pt a b

/-- a graph whose two dictionaries are sets and mirror each other -/
def Mirrored (g : SR (P × K)) : Prop := g.WF ∧ ∀ a b, b ∈ lst g.seq a ↔ a ∈ lst g.req b

theorem Mirrored.add {g : SR (P × K)} (h : Mirrored g) (a b : P × K) : Mirrored (g.add a b) := by
  refine ⟨SR.WF_add h.1 a b, ?_⟩
  intro c d
  rw [lst_add_seq, lst_add_req, h.2]
  exact or_congr_right and_comm

theorem bond_keys_spec (ks : List K) (p q : P) {g : SR (P × K)} (h : Mirrored g) :
    Mirrored (bond_keys ks p q g) ∧
    ∀ a b, b ∈ lst (bond_keys ks p q g).seq a ↔ b ∈ lst g.seq a ∨ (a.1 = p ∧ b.1 = q ∧ a.2 = b.2 ∧ a.2 ∈ ks) := by
  unfold bond_keys
  induction ks generalizing g with
  | nil => exact ⟨h, by simp⟩
  | cons k ks ih =>
    obtain ⟨h1, h2⟩ := ih (h.add (p, k) (q, k))
    refine ⟨h1, ?_⟩
    rintro ⟨a1, a2⟩ ⟨b1, b2⟩
    rw [List.foldl_cons, h2, lst_add_seq, or_assoc]
    apply or_congr_right
    simp only [Prod.mk.injEq, List.mem_cons]
    constructor
    · rintro (⟨⟨rfl, rfl⟩, rfl, rfl⟩ | ⟨rfl, rfl, rfl, hk⟩)
      · exact ⟨rfl, rfl, rfl, Or.inl rfl⟩
      · exact ⟨rfl, rfl, rfl, Or.inr hk⟩
    · rintro ⟨rfl, rfl, rfl, rfl | hk⟩
      · exact Or.inl ⟨⟨rfl, rfl⟩, rfl, rfl⟩
      · exact Or.inr ⟨rfl, rfl, rfl, hk⟩

theorem leads_head {d : Dict P P} {p q : P} (h : Dict.get? d p = some q) (c : P) :
    Leads d p c ↔ c = p ∨ Leads d q c := by
  unfold Leads
  constructor
  · intro hc
    rcases Relation.ReflTransGen.cases_head hc with rfl | ⟨q', hq', hc⟩
    · exact Or.inl rfl
    · rw [h] at hq'
      cases hq'
      exact Or.inr hc
  · rintro (rfl | hc)
    · exact .refl
    · exact .head h hc

theorem leads_stop {d : Dict P P} {p : P} (h : Dict.get? d p = none) (c : P) : Leads d p c ↔ c = p := by
  unfold Leads
  constructor
  · intro hc
    rcases Relation.ReflTransGen.cases_head hc with rfl | ⟨q', hq', hc⟩
    · rfl
    · rw [h] at hq'
      cases hq'
  · rintro rfl
    exact .refl

/-- the stop of a chain is unique -/
theorem lastOf_unique {d : Dict P P} {p q q' : P} (h : LastOf d p q) (h' : LastOf d p q') : q = q' := by
  obtain ⟨hq, hn⟩ := h
  induction hq using Relation.ReflTransGen.head_induction_on with
  | refl => exact ((leads_stop hn q').1 h'.1).symm
  | head h1 _ ih =>
    rcases (leads_head h1 q').1 h'.1 with rfl | hl
    · have := h'.2
      rw [h1] at this
      cases this
    · exact ih ⟨hl, h'.2⟩

theorem leads_last {d : Dict P P} {p q c : P} (h : LastOf d p q) (hc : Leads d p c) : Leads d c q := by
  induction hc using Relation.ReflTransGen.head_induction_on with
  | refl => exact h.1
  | head h1 _ ih =>
    rcases (leads_head h1 q).1 h.1 with rfl | hl
    · have := h.2
      rw [h1] at this
      cases this
    · exact ih ⟨hl, h.2⟩

theorem bond_post_spec (post : Dict P P) (ks : List K) (fuel : Nat) {p q : P} {g g' : SR (P × K)}
    (hm : Mirrored g) (h : bond_post post ks fuel p g = some (q, g')) :
    Mirrored g' ∧ LastOf post p q ∧
    ∀ a b, b ∈ lst g'.seq a ↔ b ∈ lst g.seq a ∨
      (a.2 = b.2 ∧ a.2 ∈ ks ∧ Leads post p a.1 ∧ Dict.get? post a.1 = some b.1) := by
  induction fuel generalizing p g with
  | zero => cases h
  | succ fuel ih =>
    unfold bond_post at h
    cases hp : Dict.get? post p with
    | none =>
      rw [hp] at h
      dsimp only at h
      rw [Option.some.injEq, Prod.mk.injEq] at h
      obtain ⟨rfl, rfl⟩ := h
      refine ⟨hm, ⟨.refl, hp⟩, ?_⟩
      intro a b
      constructor
      · exact Or.inl
      · rintro (h | ⟨_, _, h1, h2⟩)
        · exact h
        · rw [(leads_stop hp _).1 h1, hp] at h2
          cases h2
    | some p' =>
      rw [hp] at h
      dsimp only at h
      obtain ⟨k1, k2⟩ := bond_keys_spec ks p p' hm
      obtain ⟨h1, h2, h3⟩ := ih k1 h
      refine ⟨h1, ⟨(leads_head hp q).2 (Or.inr h2.1), h2.2⟩, ?_⟩
      intro a b
      rw [h3, k2, or_assoc, leads_head hp]
      apply or_congr_right
      constructor
      · rintro (⟨e1, e2, e3, e4⟩ | ⟨e1, e2, e3, e4⟩)
        · exact ⟨e3, e4, Or.inl e1, by rw [e1, e2]; exact hp⟩
        · exact ⟨e1, e2, Or.inr e3, e4⟩
      · rintro ⟨e1, e2, e3 | e3, e4⟩
        · rw [e3, hp] at e4
          injection e4 with e4
          exact Or.inl ⟨e3, e4.symm, e1, e2⟩
        · exact Or.inr ⟨e1, e2, e3, e4⟩

theorem bond_pre_spec (pre : Dict P P) (ks : List K) (fuel : Nat) {p q : P} {g g' : SR (P × K)}
    (hm : Mirrored g) (h : bond_pre pre ks fuel p g = some (q, g')) :
    Mirrored g' ∧ LastOf pre p q ∧
    ∀ a b, b ∈ lst g'.seq a ↔ b ∈ lst g.seq a ∨
      (a.2 = b.2 ∧ a.2 ∈ ks ∧ Leads pre p b.1 ∧ Dict.get? pre b.1 = some a.1) := by
  induction fuel generalizing p g with
  | zero => cases h
  | succ fuel ih =>
    unfold bond_pre at h
    cases hp : Dict.get? pre p with
    | none =>
      rw [hp] at h
      dsimp only at h
      rw [Option.some.injEq, Prod.mk.injEq] at h
      obtain ⟨rfl, rfl⟩ := h
      refine ⟨hm, ⟨.refl, hp⟩, ?_⟩
      intro a b
      constructor
      · exact Or.inl
      · rintro (h | ⟨_, _, h1, h2⟩)
        · exact h
        · rw [(leads_stop hp _).1 h1, hp] at h2
          cases h2
    | some p' =>
      rw [hp] at h
      dsimp only at h
      obtain ⟨k1, k2⟩ := bond_keys_spec ks p' p hm
      obtain ⟨h1, h2, h3⟩ := ih k1 h
      refine ⟨h1, ⟨(leads_head hp q).2 (Or.inr h2.1), h2.2⟩, ?_⟩
      intro a b
      rw [h3, k2, or_assoc, leads_head hp]
      apply or_congr_right
      constructor
      · rintro (⟨e1, e2, e3, e4⟩ | ⟨e1, e2, e3, e4⟩)
        · exact ⟨e3, e4, Or.inl e2, by rw [e1, e2]; exact hp⟩
        · exact ⟨e1, e2, Or.inr e3, e4⟩
      · rintro ⟨e1, e2, e3 | e3, e4⟩
        · rw [e3, hp] at e4
          injection e4 with e4
          exact Or.inl ⟨e4.symm, e3, e1, e2⟩
        · exact Or.inr ⟨e1, e2, e3, e4⟩

/-- links of bonds to several ports, where the source chain may already have been followed -/
theorem bond_tos_spec (post pre : Dict P P) (ks : List K) (fuel : Nat) (ptos : List P) {pf : P}
    {g g' : SR (P × K)} (hm : Mirrored g) (h : bond_tos post pre ks fuel ptos pf g = some g') :
    Mirrored g' ∧ (∀ pt ∈ ptos, (∃ q, LastOf post pf q) ∧ ∃ q, LastOf pre pt q) ∧
    ∀ a b, b ∈ lst g'.seq a ↔ b ∈ lst g.seq a ∨
      (a.2 = b.2 ∧ a.2 ∈ ks ∧ ∃ pt ∈ ptos, Link post pre pf pt a.1 b.1) := by
  induction ptos generalizing pf g with
  | nil =>
    rw [show bond_tos post pre ks fuel [] pf g = some g from rfl, Option.some.injEq] at h
    subst h
    exact ⟨hm, by simp⟩
  | cons pt ptos ih =>
    unfold bond_tos at h
    cases h1 : bond_post post ks fuel pf g with
    | none => rw [h1] at h; cases h
    | some r1 =>
      obtain ⟨q, g1⟩ := r1
      rw [h1] at h
      replace h : (bond_pre pre ks fuel pt g1 >>= fun r => bond_tos post pre ks fuel ptos q (bond_keys ks q r.1 r.2))
        = some g' := h
      cases h2 : bond_pre pre ks fuel pt g1 with
      | none => rw [h2] at h; cases h
      | some r2 =>
        obtain ⟨q', g2⟩ := r2
        rw [h2] at h
        replace h : bond_tos post pre ks fuel ptos q (bond_keys ks q q' g2) = some g' := h
        obtain ⟨a1, a2, a3⟩ := bond_post_spec post ks fuel hm h1
        obtain ⟨b1, b2, b3⟩ := bond_pre_spec pre ks fuel a1 h2
        obtain ⟨c1, c2⟩ := bond_keys_spec ks q q' b1
        obtain ⟨d1, d2, d3⟩ := ih c1 h
        -- following the chain again from its stop adds nothing
        have hq : ∀ p, LastOf post q p ↔ LastOf post pf p := by
          intro p
          constructor
          · rintro ⟨hl, hn⟩
            exact ⟨a2.1.trans hl, hn⟩
          · intro hp
            rw [lastOf_unique hp a2]
            exact ⟨.refl, a2.2⟩
        refine ⟨d1, ?_, ?_⟩
        · intro pt' hpt'
          rcases List.mem_cons.1 hpt' with rfl | hpt'
          · exact ⟨⟨q, a2⟩, q', b2⟩
          · exact ⟨⟨q, a2⟩, (d2 pt' hpt').2⟩
        · intro a b
          rw [d3, c2, b3, a3]
          constructor
          · rintro ((((h | h) | h) | h) | h)
            · exact Or.inl h
            · exact Or.inr ⟨h.1, h.2.1, pt, List.mem_cons_self, .post h.2.2.1 h.2.2.2⟩
            · exact Or.inr ⟨h.1, h.2.1, pt, List.mem_cons_self, .pre h.2.2.1 h.2.2.2⟩
            · obtain ⟨e1, e2, e3, e4⟩ := h
              rw [e1, e2]
              exact Or.inr ⟨e3, e4, pt, List.mem_cons_self, .across a2 b2⟩
            · obtain ⟨e1, e2, pt', hpt', hl⟩ := h
              refine Or.inr ⟨e1, e2, pt', List.mem_cons_of_mem _ hpt', ?_⟩
              cases hl with
              | post h1 h2 => exact .post (a2.1.trans h1) h2
              | pre h1 h2 => exact .pre h1 h2
              | across h1 h2 => exact .across ((hq _).1 h1) h2
          · rintro (h | ⟨e1, e2, pt', hpt', hl⟩)
            · exact Or.inl (Or.inl (Or.inl (Or.inl h)))
            · rcases List.mem_cons.1 hpt' with rfl | hpt'
              · cases hl with
                | post h1 h2 => exact Or.inl (Or.inl (Or.inl (Or.inr ⟨e1, e2, h1, h2⟩)))
                | pre h1 h2 => exact Or.inl (Or.inl (Or.inr ⟨e1, e2, h1, h2⟩))
                | across h1 h2 =>
                  exact Or.inl (Or.inr ⟨lastOf_unique h1 a2, lastOf_unique h2 b2, e1, e2⟩)
              · cases hl with
                | post h1 h2 => exact Or.inl (Or.inl (Or.inl (Or.inr ⟨e1, e2, h1, h2⟩)))
                | pre h1 h2 => exact Or.inr ⟨e1, e2, pt', hpt', .pre h1 h2⟩
                | across h1 h2 => exact Or.inr ⟨e1, e2, pt', hpt', .across ((hq _).2 h1) h2⟩

/-- **C54.**  The bonds built are, for every bonded pair of ports and every key of the source port, exactly the
links along the ports posted after the source port, across, and along the ports before the target port, with
the same key on both sides; the two dictionaries mirror each other. -/
theorem C54_bonds {ports : Dict P (List K)} {purge : P → P} {post pre : Dict P P} {fuel : Nat}
    {pairs : List (P × List P)} {g : SR (P × K)}
    (h : bonds_build ports purge post pre fuel pairs ⟨[], []⟩ = .ok (some g)) :
    g.WF ∧ (∀ a b, mem g.seq a b ↔ mem g.req b a) ∧
    ∀ a b, mem g.seq a b ↔ a.2 = b.2 ∧ ∃ pf ptos, (pf, ptos) ∈ pairs ∧ ∃ pt ∈ ptos, ∃ ks,
      Dict.get? ports (purge pf) = some ks ∧ a.2 ∈ ks ∧ Link post pre pf pt a.1 b.1 := by
  suffices H : ∀ g0 : SR (P × K), Mirrored g0 → bonds_build ports purge post pre fuel pairs g0 = .ok (some g) →
      Mirrored g ∧ ∀ a b, b ∈ lst g.seq a ↔ b ∈ lst g0.seq a ∨
        (a.2 = b.2 ∧ ∃ pf ptos, (pf, ptos) ∈ pairs ∧ ∃ pt ∈ ptos, ∃ ks,
          Dict.get? ports (purge pf) = some ks ∧ a.2 ∈ ks ∧ Link post pre pf pt a.1 b.1) by
    obtain ⟨h1, h2⟩ := H ⟨[], []⟩ ⟨⟨⟨Dict.WF_nil, by simp⟩, Dict.WF_nil, by simp⟩, by simp [lst]⟩ h
    refine ⟨h1.1, h1.2, ?_⟩
    intro a b
    refine (h2 a b).trans ?_
    simp [lst]
  clear h
  induction pairs with
  | nil =>
    intro g0 hm h
    unfold bonds_build at h
    rw [Except.ok.injEq, Option.some.injEq] at h
    subst h
    exact ⟨hm, by simp⟩
  | cons pr rest ih =>
    obtain ⟨pf, ptos⟩ := pr
    intro g0 hm h
    unfold bonds_build at h
    by_cases hp : ptos = []
    · rw [if_pos hp] at h
      obtain ⟨h1, h2⟩ := ih g0 hm h
      refine ⟨h1, ?_⟩
      intro a b
      rw [h2]
      apply or_congr_right
      apply and_congr_right
      intro _
      constructor
      · rintro ⟨pf', ptos', hpp, hr⟩
        exact ⟨pf', ptos', List.mem_cons_of_mem _ hpp, hr⟩
      · rintro ⟨pf', ptos', hpp, pt, hpt, hr⟩
        rcases List.mem_cons.1 hpp with he | hpp
        · rw [Prod.mk.injEq] at he
          rw [he.2, hp] at hpt
          simp at hpt
        · exact ⟨pf', ptos', hpp, pt, hpt, hr⟩
    · rw [if_neg hp] at h
      obtain ⟨ks, hks, h'⟩ := bind_ok_inv h
      have hks' : Dict.get? ports (purge pf) = some ks := by
        unfold Dict.get at hks
        split at hks
        · rename_i v hv
          injection hks with hks
          rw [hv, hks]
        · cases hks
      cases hb : bond_tos post pre ks fuel ptos pf g0 with
      | none => rw [hb] at h'; cases h'
      | some g1 =>
        rw [hb] at h'
        obtain ⟨t1, _, t3⟩ := bond_tos_spec post pre ks fuel ptos hm hb
        obtain ⟨h1, h2⟩ := ih g1 t1 h'
        refine ⟨h1, ?_⟩
        intro a b
        rw [h2, t3, or_assoc]
        apply or_congr_right
        constructor
        · rintro (⟨e1, e2, pt, hpt, hl⟩ | ⟨e1, pf', ptos', hpp, hr⟩)
          · exact ⟨e1, pf, ptos, List.mem_cons_self, pt, hpt, ks, hks', e2, hl⟩
          · exact ⟨e1, pf', ptos', List.mem_cons_of_mem _ hpp, hr⟩
        · rintro ⟨e1, pf', ptos', hpp, pt, hpt, ks', hk', e2, hl⟩
          rcases List.mem_cons.1 hpp with he | hpp
          · rw [Prod.mk.injEq] at he
            obtain ⟨rfl, rfl⟩ := he
            rw [hks', Option.some.injEq] at hk'
            subst hk'
            exact Or.inl ⟨e1, e2, pt, hpt, hl⟩
          · exact Or.inr ⟨e1, pf', ptos', hpp, pt, hpt, ks', hk', e2, hl⟩

theorem bonds_build_ends {ports : Dict P (List K)} {purge : P → P} {post pre : Dict P P} {fuel : Nat}
    {pairs : List (P × List P)} {g0 g : SR (P × K)} (hm : Mirrored g0)
    (h : bonds_build ports purge post pre fuel pairs g0 = .ok (some g)) :
    ∀ pf ptos, (pf, ptos) ∈ pairs → ∀ pt ∈ ptos, (∃ ks, Dict.get? ports (purge pf) = some ks) ∧
      (∃ q, LastOf post pf q) ∧ ∃ q, LastOf pre pt q := by
  induction pairs generalizing g0 with
  | nil => simp
  | cons pr rest ih =>
    obtain ⟨pf, ptos⟩ := pr
    unfold bonds_build at h
    by_cases hp : ptos = []
    · rw [if_pos hp] at h
      intro pf' ptos' hpp pt hpt
      rcases List.mem_cons.1 hpp with he | hpp
      · rw [Prod.mk.injEq] at he
        rw [he.2, hp] at hpt
        simp at hpt
      · exact ih hm h pf' ptos' hpp pt hpt
    · rw [if_neg hp] at h
      obtain ⟨ks, hks, h'⟩ := bind_ok_inv h
      cases hb : bond_tos post pre ks fuel ptos pf g0 with
      | none => rw [hb] at h'; cases h'
      | some g1 =>
        rw [hb] at h'
        obtain ⟨t1, t2, _⟩ := bond_tos_spec post pre ks fuel ptos hm hb
        intro pf' ptos' hpp pt hpt
        rcases List.mem_cons.1 hpp with he | hpp
        · rw [Prod.mk.injEq] at he
          obtain ⟨rfl, rfl⟩ := he
          refine ⟨⟨ks, ?_⟩, t2 pt hpt⟩
          unfold Dict.get at hks
          split at hks
          · rename_i v hv
            injection hks with hks
            rw [hv, hks]
          · cases hks
        · exact ih t1 h' pf' ptos' hpp pt hpt

/-- **C54**: every bonded pair is joined, for every key of the source port, by links leading from the source
port through the posted ports to the target port. -/
theorem C54_path {ports : Dict P (List K)} {purge : P → P} {post pre : Dict P P} {fuel : Nat}
    {pairs : List (P × List P)} {g : SR (P × K)}
    (h : bonds_build ports purge post pre fuel pairs ⟨[], []⟩ = .ok (some g))
    {pf pt : P} {ptos : List P} (hp : (pf, ptos) ∈ pairs) (hpt : pt ∈ ptos) :
    ∃ ks, Dict.get? ports (purge pf) = some ks ∧ ∀ k ∈ ks,
      Relation.ReflTransGen (mem g.seq) (pf, k) (pt, k) ∧
      ∀ p, Leads post pf p ∨ Leads pre pt p →
        Relation.ReflTransGen (mem g.seq) (pf, k) (p, k) ∧ Relation.ReflTransGen (mem g.seq) (p, k) (pt, k) := by
  obtain ⟨⟨ks, hks⟩, ⟨q, hq⟩, q', hq'⟩ :=
    bonds_build_ends ⟨⟨⟨Dict.WF_nil, by simp⟩, Dict.WF_nil, by simp⟩, by simp [lst]⟩ h pf ptos hp pt hpt
  obtain ⟨_, _, hiff⟩ := C54_bonds h
  refine ⟨ks, hks, ?_⟩
  intro k hk
  have link : ∀ a b, Link post pre pf pt a b → mem g.seq (a, k) (b, k) := fun a b hl =>
    (hiff _ _).2 ⟨rfl, pf, ptos, hp, pt, hpt, ks, hks, hk, hl⟩
  have hpost : ∀ p, Leads post pf p → Relation.ReflTransGen (mem g.seq) (pf, k) (p, k) := by
    intro p hl
    induction hl with
    | refl => exact .refl
    | tail h1 h2 ih => exact ih.tail (link _ _ (.post h1 h2))
  have hcross : Relation.ReflTransGen (mem g.seq) (pf, k) (q', k) :=
    (hpost q hq.1).tail (link _ _ (.across hq hq'))
  have hpre : ∀ p, Leads pre pt p → Relation.ReflTransGen (mem g.seq) (pf, k) (p, k) := by
    intro p hl
    have hp' := leads_last hq' hl
    induction hp' using Relation.ReflTransGen.head_induction_on with
    | refl => exact hcross
    | head h1 _ ih => exact (ih (hl.tail h1)).tail (link _ _ (.pre hl h1))
  have hpre' : ∀ p, Leads pre pt p → Relation.ReflTransGen (mem g.seq) (p, k) (pt, k) := by
    intro p hl
    induction hl with
    | refl => exact .refl
    | tail h1 h2 ih => exact .head (link _ _ (.pre h1 h2)) ih
  have hpost' : ∀ p, Leads post pf p → Relation.ReflTransGen (mem g.seq) (p, k) (pt, k) := by
    intro p hl
    have hp' := leads_last hq hl
    induction hp' using Relation.ReflTransGen.head_induction_on with
    | refl => exact .head (link _ _ (.across hq hq')) (hpre' q' hq'.1)
    | head h1 _ ih => exact .head (link _ _ (.post hl h1)) (ih (hl.tail h1))
  refine ⟨hpre pt .refl, ?_⟩
  rintro p (hl | hl)
  · exact ⟨hpost p hl, hpost' p hl⟩
  · exact ⟨hpre p hl, hpre' p hl⟩

/-! ## the chains made by `ports_post_get` and `ports_pre_get` end -/

/-- `system.py` l.163-167, `ports_post_get`: the port is a key together with the number
under `PostBondKey`, if there is one. -/
def ports_post_get {B : Type} [DecidableEq B] (d : Dict (B × Option Int) (B × Option Int)) (port : B × Option Int) :
    Dict (B × Option Int) (B × Option Int) := Dict.set d port (port.1, some (port.2.getD 0 + 1))

/-- `system.py` l.173-177, `ports_pre_get`. -/
def ports_pre_get {B : Type} [DecidableEq B] (d : Dict (B × Option Int) (B × Option Int)) (port : B × Option Int) :
    Dict (B × Option Int) (B × Option Int) := Dict.set d port (port.1, some (port.2.getD 0 - 1))

theorem bond_post_ends {post : Dict P P} {rank : P → Nat}
    (hr : ∀ p q, Dict.get? post p = some q → rank q < rank p) (ks : List K) {fuel : Nat} {p : P}
    (hf : rank p < fuel) (g : SR (P × K)) : ∃ q g', bond_post post ks fuel p g = some (q, g') ∧ rank q ≤ rank p := by
  induction fuel generalizing p g with
  | zero => cases hf
  | succ fuel ih =>
    unfold bond_post
    cases hp : Dict.get? post p with
    | none => exact ⟨p, g, rfl, le_refl _⟩
    | some q =>
      have := hr _ _ hp
      obtain ⟨q', g', h1, h2⟩ := ih (p := q) (by omega) (bond_keys ks p q g)
      exact ⟨q', g', h1, by omega⟩

theorem bond_pre_ends {pre : Dict P P} {rank : P → Nat}
    (hr : ∀ p q, Dict.get? pre p = some q → rank q < rank p) (ks : List K) {fuel : Nat} {p : P}
    (hf : rank p < fuel) (g : SR (P × K)) : ∃ q g', bond_pre pre ks fuel p g = some (q, g') := by
  induction fuel generalizing p g with
  | zero => cases hf
  | succ fuel ih =>
    unfold bond_pre
    cases hp : Dict.get? pre p with
    | none => exact ⟨p, g, rfl⟩
    | some q =>
      have := hr _ _ hp
      exact ih (p := q) (by omega) (bond_keys ks q p g)

theorem bond_tos_ends {post pre : Dict P P} {rank rank' : P → Nat}
    (hr : ∀ p q, Dict.get? post p = some q → rank q < rank p)
    (hr' : ∀ p q, Dict.get? pre p = some q → rank' q < rank' p) (ks : List K) {fuel : Nat} {ptos : List P} {pf : P}
    (hf : rank pf < fuel) (hf' : ∀ pt ∈ ptos, rank' pt < fuel) (g : SR (P × K)) :
    ∃ g', bond_tos post pre ks fuel ptos pf g = some g' := by
  induction ptos generalizing pf g with
  | nil => exact ⟨g, rfl⟩
  | cons pt ptos ih =>
    obtain ⟨q, g1, h1, hq⟩ := bond_post_ends hr ks hf g
    obtain ⟨q', g2, h2⟩ := bond_pre_ends hr' ks (hf' pt List.mem_cons_self) g1
    obtain ⟨g3, h3⟩ := ih (pf := q) (by omega) (fun p hp => hf' p (List.mem_cons_of_mem _ hp)) (bond_keys ks q q' g2)
    refine ⟨g3, ?_⟩
    unfold bond_tos
    simp only [h1, h2, Option.bind_eq_bind, Option.bind_some, h3]

theorem bonds_build_some {ports : Dict P (List K)} {purge : P → P} {post pre : Dict P P} {rank rank' : P → Nat}
    (hr : ∀ p q, Dict.get? post p = some q → rank q < rank p)
    (hr' : ∀ p q, Dict.get? pre p = some q → rank' q < rank' p) {fuel : Nat} {pairs : List (P × List P)}
    (hp : ∀ e ∈ pairs, (Dict.get? ports (purge e.1)).isSome ∧ rank e.1 < fuel ∧ ∀ pt ∈ e.2, rank' pt < fuel)
    (g : SR (P × K)) : ∃ g', bonds_build ports purge post pre fuel pairs g = .ok (some g') := by
  induction pairs generalizing g with
  | nil => exact ⟨g, rfl⟩
  | cons e rest ih =>
    obtain ⟨pf, ptos⟩ := e
    obtain ⟨h1, h2, h3⟩ := hp _ List.mem_cons_self
    unfold bonds_build
    split_ifs with hc
    · exact ih (fun e he => hp e (List.mem_cons_of_mem _ he)) g
    · obtain ⟨ks, hk⟩ := Option.isSome_iff_exists.1 h1
      obtain ⟨g1, hg1⟩ := bond_tos_ends hr hr' ks h2 h3 g
      simp only [Dict.get, hk, hg1, bind, Except.bind]
      exact ih (fun e he => hp e (List.mem_cons_of_mem _ he)) g1

theorem bounded {α : Type} (f : α → Nat) (l : List α) : ∃ n, ∀ a ∈ l, f a < n := by
  induction l with
  | nil => exact ⟨0, fun a h => absurd h List.not_mem_nil⟩
  | cons a l ih =>
    obtain ⟨n, hn⟩ := ih
    refine ⟨max (f a + 1) n, ?_⟩
    intro b hb
    rcases List.mem_cons.1 hb with rfl | hb
    · exact lt_of_lt_of_le (Nat.lt_succ_self _) (le_max_left _ _)
    · exact lt_of_lt_of_le (hn b hb) (le_max_right _ _)

theorem post_calls {B : Type} [DecidableEq B] (calls : List (B × Option Int)) (d : Dict (B × Option Int) (B × Option Int)) :
    ∀ p q, Dict.get? (calls.foldl ports_post_get d) p = some q →
      (p ∈ calls ∧ q.2.getD 0 = p.2.getD 0 + 1) ∨ Dict.get? d p = some q := by
  induction calls generalizing d with
  | nil => exact fun p q h => Or.inr h
  | cons c calls ih =>
    intro p q h
    rcases ih _ p q h with ⟨h1, h2⟩ | h1
    · exact Or.inl ⟨List.mem_cons_of_mem _ h1, h2⟩
    · unfold ports_post_get at h1
      rw [Dict.get?_set] at h1
      split_ifs at h1 with hc
      · cases h1
        subst hc
        exact Or.inl ⟨List.mem_cons_self, rfl⟩
      · exact Or.inr h1

theorem pre_calls {B : Type} [DecidableEq B] (calls : List (B × Option Int)) (d : Dict (B × Option Int) (B × Option Int)) :
    ∀ p q, Dict.get? (calls.foldl ports_pre_get d) p = some q →
      (p ∈ calls ∧ q.2.getD 0 = p.2.getD 0 - 1) ∨ Dict.get? d p = some q := by
  induction calls generalizing d with
  | nil => exact fun p q h => Or.inr h
  | cons c calls ih =>
    intro p q h
    rcases ih _ p q h with ⟨h1, h2⟩ | h1
    · exact Or.inl ⟨List.mem_cons_of_mem _ h1, h2⟩
    · unfold ports_pre_get at h1
      rw [Dict.get?_set] at h1
      split_ifs at h1 with hc
      · cases h1
        subst hc
        exact Or.inl ⟨List.mem_cons_self, rfl⟩
      · exact Or.inr h1

/-- **C54, the loops end.** For every sequence of test points and noise ports put after and before ports, the
`while True` loops of the bond linkages end, and no error is raised when every bonded port is in the system. -/
theorem C54_terminates {B : Type} [DecidableEq B] {ports : Dict (B × Option Int) (List K)} {purge : B × Option Int → B × Option Int}
    (posted pred : List (B × Option Int)) {pairs : List ((B × Option Int) × List (B × Option Int))}
    (hp : ∀ e ∈ pairs, (Dict.get? ports (purge e.1)).isSome) :
    ∃ fuel g, bonds_build ports purge (posted.foldl ports_post_get []) (pred.foldl ports_pre_get []) fuel pairs
      ⟨[], []⟩ = .ok (some g) := by
  obtain ⟨M, hM⟩ := bounded (fun p : B × Option Int => (p.2.getD 0).natAbs) posted
  obtain ⟨M', hM'⟩ := bounded (fun p : B × Option Int => (p.2.getD 0).natAbs) pred
  let rank : B × Option Int → Nat := fun p => (M + 1 - p.2.getD 0).toNat
  let rank' : B × Option Int → Nat := fun p => (M' + 1 + p.2.getD 0).toNat
  obtain ⟨n1, h1⟩ := bounded (fun e : (B × Option Int) × List (B × Option Int) => rank e.1) pairs
  obtain ⟨n2, h2⟩ := bounded rank' (pairs.flatMap (·.2))
  refine ⟨max n1 n2, bonds_build_some (rank := rank) (rank' := rank') ?_ ?_ ?_ _⟩
  · intro p q h
    rcases post_calls posted [] p q h with ⟨hm, hq⟩ | h
    · have := hM p hm
      show (M + 1 - q.2.getD 0).toNat < (M + 1 - p.2.getD 0).toNat
      omega
    · cases h
  · intro p q h
    rcases pre_calls pred [] p q h with ⟨hm, hq⟩ | h
    · have := hM' p hm
      show (M' + 1 + q.2.getD 0).toNat < (M' + 1 + p.2.getD 0).toNat
      omega
    · cases h
  · intro e he
    refine ⟨hp e he, lt_of_lt_of_le (h1 e he) (le_max_left _ _), ?_⟩
    intro pt hpt
    exact lt_of_lt_of_le (h2 pt (List.mem_flatMap.2 ⟨e, he, hpt⟩)) (le_max_right _ _)

/-- A dictionary which leads back to where it started keeps the loop going for ever: the numbers under
`PostBondKey` are needed. -/
theorem C54_cycle : ∀ fuel, bonds_build [((0 : Nat), [true])] id [(0, 0)] [] fuel [(0, [1])] ⟨[], []⟩ = .ok none := by
  have h : ∀ (fuel : Nat) (g : SR (Nat × Bool)), bond_post [((0 : Nat), 0)] [true] fuel 0 g = none := by
    intro fuel
    induction fuel with
    | zero => intro g; rfl
    | succ fuel ih => intro g; exact ih _
  intro fuel
  have h' : bond_tos [((0 : Nat), 0)] [] [true] fuel [1] 0 ⟨[], []⟩ = none := by
    unfold bond_tos
    rw [h]
    rfl
  unfold bonds_build
  rw [if_neg (by decide)]
  show (Dict.get [((0 : Nat), [true])] 0 >>= fun ks => _) = _
  rw [show Dict.get [((0 : Nat), [true])] 0 = .ok [true] from rfl, bind_ok, h']

/-! ## examples -/

/-- two test points after a port, one before another -/
example : ∀ e ∈ [((('a', none) : Char × Option Int), [(('b', none) : Char × Option Int)])],
    (Dict.get? [((('a', none) : Char × Option Int), [true])] (id e.1)).isSome := by decide

example : Dict.get? ([('a', none), ('a', some 1)].foldl ports_post_get ([] : Dict (Char × Option Int) (Char × Option Int))) ('a', some 1)
    = some ('a', some 2) := by decide

section Examples

/-- ports 0 and 3 bonded with two keys; port 1 is posted after 0, ports 4 and 5 come before 3; port 6 is
bonded to ports 3 and 7 -/
def bdPorts : Dict Nat (List Bool) := [(0, [false, true]), (6, [true])]
def bdPost : Dict Nat Nat := [(0, 1)]
def bdPre : Dict Nat Nat := [(3, 4), (4, 5)]
def bdPairs : List (Nat × List Nat) := [(0, [3]), (6, [3, 7])]

def bdRun : Except Err (Option (SR (Nat × Bool))) := bonds_build bdPorts id bdPost bdPre 5 bdPairs ⟨[], []⟩

/-- the hypotheses of `C54_bonds` and `C54_path` are met: the build ends, and leads from port 0 through 1, 5
and 4 to 3 -/
example : ∃ g, bdRun = .ok (some g) ∧ mem g.seq (0, true) (1, true) ∧ mem g.seq (1, true) (5, true) ∧
    mem g.seq (5, false) (4, false) ∧ mem g.seq (4, false) (3, false) ∧ ¬ mem g.seq (6, false) (7, false) ∧
    mem g.seq (6, true) (7, true) ∧ mem g.seq (6, true) (5, true) := by
  have h : (match bdRun with
      | .ok (some g) => decide (mem g.seq (0, true) (1, true) ∧ mem g.seq (1, true) (5, true) ∧
          mem g.seq (5, false) (4, false) ∧ mem g.seq (4, false) (3, false) ∧ ¬ mem g.seq (6, false) (7, false) ∧
          mem g.seq (6, true) (7, true) ∧ mem g.seq (6, true) (5, true))
      | _ => false) = true := by decide +kernel
  cases hr : bdRun with
  | error e => rw [hr] at h; cases h
  | ok r =>
    cases r with
    | none => rw [hr] at h; cases h
    | some g =>
      rw [hr] at h
      exact ⟨g, rfl, of_decide_eq_true h⟩

end Examples

end Inject
