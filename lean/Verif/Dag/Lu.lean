import Verif.Dag.Basic
import Mathlib.Tactic.Ring
import Mathlib.Tactic.LinearCombination
import Mathlib.Tactic.FieldSimp
import Mathlib.Algebra.BigOperators.Ring.Finset
import Mathlib.Algebra.BigOperators.Group.Finset.Piecewise

/-! # `reduceLU` -/

set_option linter.unusedSectionVars false

namespace Dag
open Py Graph

variable {M : Type} {V : Type} [DecidableEq M] [Field V] [DecidableEq V]

/-- All four listings are dictionaries of sets. -/
structure LD4 (d : D M V) : Prop where
  s : LD d.seq
  r : LD d.req
  a : LD d.alpha
  b : LD d.beta

/-- The stored value or 0. -/
def ev (d : D M V) (a b : M) : V := (Dict.get? d.em (a, b)).getD 0

theorem em_luUpd (sB rA : Bool) (d : D M V) (r s : M) (p : V) (a b : M) :
    Dict.get? (luUpd sB rA d r s p).em (a, b) =
      if r = a ∧ s = b then some (ev d a b + p) else Dict.get? d.em (a, b) := by
  have key : Dict.get? (luUpd sB rA d r s p).em (a, b) =
      Dict.get? (Dict.set d.em (r, s) (ev d r s + p)) (a, b) := by
    unfold luUpd ev
    cases h : Dict.get? d.em (r, s) <;> simp
  rw [key, Dict.get?_set]
  by_cases h : r = a ∧ s = b
  · obtain ⟨rfl, rfl⟩ := h
    simp
  · rw [if_neg h, if_neg]
    intro h'
    exact h ⟨congrArg Prod.fst h', congrArg Prod.snd h'⟩

/-- The effect of one inner loop. -/
structure Inner (sB rA : Bool) (n s : M) (p : V) (R : List M) (d d' : D M V) : Prop where
  seq : ∀ a b, b ∈ at' d'.seq a ↔ b ∈ at' d.seq a ∨ (sB = false ∧ rA = false ∧ a ∈ R ∧ b = s)
  req : ∀ a b, b ∈ at' d'.req a ↔ b ∈ at' d.req a ∨ (sB = false ∧ rA = false ∧ b ∈ R ∧ a = s)
  alpha : ∀ a b, b ∈ at' d'.alpha a ↔ b ∈ at' d.alpha a ∨ (rA = true ∧ b ∈ R ∧ a = s)
  beta : ∀ a b, b ∈ at' d'.beta a ↔ b ∈ at' d.beta a ∨ (sB = true ∧ a ∈ R ∧ b = s)
  em : ∀ a b, Dict.get? d'.em (a, b) = if a ∈ R ∧ b = s then some (ev d a b + p * ev d a n) else Dict.get? d.em (a, b)
  hr : ∀ a, Dict.has d.req a = true → Dict.has d'.req a = true
  hs : (∀ r ∈ R, rA = false → Dict.has d.seq r) → ∀ a, Dict.has d'.seq a = true ↔ Dict.has d.seq a = true
  ld : LD4 d → LD4 d'

theorem luInner_spec (sB rA : Bool) (n s : M) (p : V) (hs : s ≠ n) : ∀ (R : List M) (d : D M V), R.Nodup →
    (∀ r ∈ R, (Dict.get? d.em (r, n)).isSome) →
    ∃ d', luInner sB rA n s p R d = .ok d' ∧ Inner sB rA n s p R d d' := by
  intro R
  induction R with
  | nil =>
    intro d _ _
    exact ⟨d, rfl, by constructor <;> simp⟩
  | cons r rs ih =>
    intro d hnd hval
    obtain ⟨v, hv⟩ := Option.isSome_iff_exists.mp (hval r (by simp))
    have hrs : r ∉ rs := (List.nodup_cons.mp hnd).1
    have hsn : ∀ a, Dict.get? (luUpd sB rA d r s (p * v)).em (a, n) = Dict.get? d.em (a, n) := by
      intro a
      rw [em_luUpd, if_neg (fun h => hs h.2)]
    obtain ⟨d', hd', hi⟩ := ih (luUpd sB rA d r s (p * v)) (List.nodup_cons.mp hnd).2
      (fun q hq => by rw [hsn]; exact hval q (List.mem_cons_of_mem _ hq))
    refine ⟨d', ?_, ?_⟩
    · rw [luInner, get_ok hv]
      exact hd'
    · have hvn : ev d r n = v := by unfold ev; rw [hv]; rfl
      constructor
      · intro a b
        rw [hi.seq]
        have : b ∈ at' (luUpd sB rA d r s (p * v)).seq a ↔
            b ∈ at' d.seq a ∨ (sB = false ∧ rA = false ∧ r = a ∧ b = s) := by
          unfold luUpd
          cases sB <;> cases rA <;> simp [mem_ins]
        rw [this, List.mem_cons]
        have e : a = r ↔ r = a := eq_comm
        tauto
      · intro a b
        rw [hi.req]
        have : b ∈ at' (luUpd sB rA d r s (p * v)).req a ↔
            b ∈ at' d.req a ∨ (sB = false ∧ rA = false ∧ b = r ∧ a = s) := by
          unfold luUpd
          cases sB <;> cases rA <;> simp [mem_ins, eq_comm, and_comm]
        rw [this, List.mem_cons]
        tauto
      · intro a b
        rw [hi.alpha]
        have : b ∈ at' (luUpd sB rA d r s (p * v)).alpha a ↔
            b ∈ at' d.alpha a ∨ (rA = true ∧ b = r ∧ a = s) := by
          unfold luUpd
          cases sB <;> cases rA <;> simp [mem_ins, eq_comm, and_comm]
        rw [this, List.mem_cons]
        tauto
      · intro a b
        rw [hi.beta]
        have : b ∈ at' (luUpd sB rA d r s (p * v)).beta a ↔
            b ∈ at' d.beta a ∨ (sB = true ∧ r = a ∧ b = s) := by
          unfold luUpd
          cases sB <;> cases rA <;> simp [mem_ins]
        rw [this, List.mem_cons]
        have e : a = r ↔ r = a := eq_comm
        tauto
      · intro a b
        rw [hi.em]
        by_cases hb : b = s
        · subst hb
          by_cases har : a = r
          · subst har
            have h1 : ¬ (a ∈ rs ∧ b = b) := fun h => hrs h.1
            rw [if_neg h1, if_pos (by simp), em_luUpd, if_pos ⟨rfl, rfl⟩, hvn]
          · have e : ∀ c, c ≠ n ∨ True → Dict.get? (luUpd sB rA d r b (p * v)).em (a, c) = Dict.get? d.em (a, c) := by
              intro c _
              rw [em_luUpd, if_neg (fun h => har h.1.symm)]
            have h1 : (a ∈ rs ∧ b = b) ↔ (a ∈ r :: rs ∧ b = b) := by simp [har]
            unfold ev
            rw [e b (Or.inr trivial), e n (Or.inr trivial)]
            simp [har]
        · rw [if_neg (fun h => hb h.2), if_neg (fun h => hb h.2), em_luUpd, if_neg (fun h => hb h.2.symm)]
      · intro a ha
        apply hi.hr
        unfold luUpd
        cases sB <;> cases rA <;> simp [has_ins, ha]
      · intro h
        have h0 : ∀ a, Dict.has (luUpd sB rA d r s (p * v)).seq a = true ↔ Dict.has d.seq a = true := by
          intro a
          unfold luUpd
          cases sB <;> cases rA <;> simp [has_ins]
          intro e
          subst e
          exact h r (by simp) rfl
        intro a
        rw [hi.hs (fun q hq hf => (h0 q).mpr (h q (List.mem_cons_of_mem _ hq) hf)), h0]
      · intro h
        apply hi.ld
        unfold luUpd
        constructor
        · dsimp only; split
          · exact LD_ins h.s _ _
          · exact h.s
        · dsimp only; split
          · exact LD_ins h.r _ _
          · exact h.r
        · dsimp only; split
          · exact LD_ins h.a _ _
          · exact h.a
        · dsimp only; split
          · exact LD_ins h.b _ _
          · exact h.b

/-- The effect of one outer loop. -/
structure Outer (sB : Bool) (n : M) (c : V) (R RA S : List M) (d d' : D M V) : Prop where
  seq : ∀ a b, b ∈ at' d'.seq a ↔ b ∈ at' d.seq a ∨ (sB = false ∧ a ∈ R ∧ b ∈ S)
  req : ∀ a b, b ∈ at' d'.req a ↔ b ∈ at' d.req a ∨ (sB = false ∧ b ∈ R ∧ a ∈ S)
  alpha : ∀ a b, b ∈ at' d'.alpha a ↔ b ∈ at' d.alpha a ∨ (b ∈ RA ∧ a ∈ S)
  beta : ∀ a b, b ∈ at' d'.beta a ↔ b ∈ at' d.beta a ∨ (sB = true ∧ (a ∈ R ∨ a ∈ RA) ∧ b ∈ S)
  em : ∀ a b, Dict.get? d'.em (a, b) =
    if (a ∈ R ∨ a ∈ RA) ∧ b ∈ S then some (ev d a b + ev d n b * c * ev d a n) else Dict.get? d.em (a, b)
  hr : ∀ a, Dict.has d.req a = true → Dict.has d'.req a = true
  hs : (∀ r ∈ R, Dict.has d.seq r) → ∀ a, Dict.has d'.seq a = true ↔ Dict.has d.seq a = true
  ld : LD4 d → LD4 d'

theorem luOuter_spec (sB : Bool) (n : M) (c : V) (R RA : List M) (hR : R.Nodup) (hRA : RA.Nodup)
    (hdis : ∀ r ∈ R, r ∉ RA) (hn : n ∉ R) (hnA : n ∉ RA) : ∀ (S : List M) (d : D M V), S.Nodup → n ∉ S →
    (∀ r ∈ R, (Dict.get? d.em (r, n)).isSome) → (∀ r ∈ RA, (Dict.get? d.em (r, n)).isSome) →
    (∀ s ∈ S, (Dict.get? d.em (n, s)).isSome) →
    ∃ d', luOuter sB n c R RA S d = .ok d' ∧ Outer sB n c R RA S d d' := by
  intro S
  induction S with
  | nil =>
    intro d _ _ _ _ _
    exact ⟨d, rfl, by constructor <;> simp⟩
  | cons s ss ih =>
    intro d hnd hnS hvr hva hvs
    obtain ⟨v, hv⟩ := Option.isSome_iff_exists.mp (hvs s (by simp))
    have hsn : s ≠ n := fun h => hnS (by simp [h])
    obtain ⟨hss, hnd'⟩ := List.nodup_cons.mp hnd
    obtain ⟨d1, h1, i1⟩ := luInner_spec sB false n s (v * c) hsn R d hR hvr
    have e1n : ∀ a, Dict.get? d1.em (a, n) = Dict.get? d.em (a, n) := fun a => by
      rw [i1.em, if_neg (fun h => hsn h.2.symm)]
    obtain ⟨d2, h2, i2⟩ := luInner_spec sB true n s (v * c) hsn RA d1 hRA (fun r hr => by rw [e1n]; exact hva r hr)
    have e2n : ∀ a, Dict.get? d2.em (a, n) = Dict.get? d.em (a, n) := fun a => by
      rw [i2.em, if_neg (fun h => hsn h.2.symm), e1n]
    have e2s : ∀ b, Dict.get? d2.em (n, b) = Dict.get? d.em (n, b) := fun b => by
      rw [i2.em, if_neg (fun h => hnA h.1), i1.em, if_neg (fun h => hn h.1)]
    have hvn : ev d n s = v := by unfold ev; rw [hv]; rfl
    have e2 : ∀ a b, Dict.get? d2.em (a, b) = if (a ∈ R ∨ a ∈ RA) ∧ b = s then
        some (ev d a b + ev d n b * c * ev d a n) else Dict.get? d.em (a, b) := by
      intro a b
      rw [i2.em]
      by_cases hb : b = s
      · subst hb
        by_cases ha : a ∈ RA
        · have haR : a ∉ R := fun h => hdis a h ha
          rw [if_pos ⟨ha, rfl⟩, if_pos ⟨Or.inr ha, rfl⟩, hvn]
          have : ev d1 a b = ev d a b := by
            unfold ev; rw [i1.em, if_neg (fun h => haR h.1)]
          have h' : ev d1 a n = ev d a n := by unfold ev; rw [e1n]
          rw [this, h']
        · rw [if_neg (fun h => ha h.1), i1.em]
          by_cases haR : a ∈ R
          · rw [if_pos ⟨haR, rfl⟩, if_pos ⟨Or.inl haR, rfl⟩, hvn]
          · rw [if_neg (fun h => haR h.1), if_neg (fun h => h.1.elim haR ha)]
      · rw [if_neg (fun h => hb h.2), if_neg (fun h => hb h.2), i1.em, if_neg (fun h => hb h.2)]
    obtain ⟨d', hd', o⟩ := ih d2 hnd' (fun h => hnS (List.mem_cons_of_mem _ h)) (fun r hr => by rw [e2n]; exact hvr r hr)
      (fun r hr => by rw [e2n]; exact hva r hr) (fun q hq => by rw [e2s]; exact hvs q (List.mem_cons_of_mem _ hq))
    refine ⟨d', ?_, ?_⟩
    · rw [luOuter, get_ok hv]
      simp only [bind, Except.bind] at *
      rw [h1]
      dsimp only
      rw [h2]
      exact hd'
    · constructor
      · intro a b
        rw [o.seq, i2.seq, i1.seq, List.mem_cons]
        simp
        tauto
      · intro a b
        rw [o.req, i2.req, i1.req, List.mem_cons]
        simp
        tauto
      · intro a b
        rw [o.alpha, i2.alpha, i1.alpha, List.mem_cons]
        simp
        tauto
      · intro a b
        rw [o.beta, i2.beta, i1.beta, List.mem_cons]
        tauto
      · intro a b
        rw [o.em]
        by_cases hb : b = s
        · subst hb
          rw [if_neg (fun h => hss h.2), e2]
          simp
        · have e3 : Dict.get? d2.em (a, b) = Dict.get? d.em (a, b) := by rw [e2, if_neg (fun h => hb h.2)]
          have : ((a ∈ R ∨ a ∈ RA) ∧ b ∈ ss) ↔ ((a ∈ R ∨ a ∈ RA) ∧ b ∈ s :: ss) := by simp [hb]
          unfold ev
          rw [e3, e2n, e2s]
          simp only [this]
      · exact fun a ha => o.hr a (i2.hr a (i1.hr a ha))
      · intro h a
        have h1' := i1.hs (fun r hr _ => h r hr)
        have h2' := i2.hs (fun r hr hf => by simp at hf)
        rw [o.hs (fun r hr => (h2' r).mpr ((h1' r).mpr (h r hr))), h2', h1']
      · exact fun h => o.ld (i2.ld (i1.ld h))

theorem luDelSeq_spec (n : M) : ∀ (S : List M) (d : D M V), S.Nodup →
    (∀ s ∈ S, (Dict.get? d.em (n, s)).isSome) → (∀ s ∈ S, n ∈ at' d.req s) →
    ∃ d', luDelSeq n S d = .ok d' ∧ d'.seq = d.seq ∧ d'.alpha = d.alpha ∧ d'.beta = d.beta ∧
      (∀ a b, b ∈ at' d'.req a ↔ b ∈ at' d.req a ∧ ¬ (a ∈ S ∧ b = n)) ∧
      (∀ a b, Dict.get? d'.em (a, b) = if a = n ∧ b ∈ S then none else Dict.get? d.em (a, b)) ∧
      (∀ a, Dict.has d'.req a = true ↔ Dict.has d.req a = true) ∧
      (LD d.req → LD d'.req) := by
  intro S
  induction S with
  | nil =>
    intro d _ _ _
    exact ⟨d, rfl, rfl, rfl, rfl, by simp, by simp, fun _ => Iff.rfl, id⟩
  | cons s ss ih =>
    intro d hnd hv hr
    obtain ⟨hss, hnd'⟩ := List.nodup_cons.mp hnd
    obtain ⟨q, hq, hq1, hq2, hq3⟩ := rem_ok (hr s (by simp))
    obtain ⟨d', hd', e1, e2, e3, e4, e5, e6, e7⟩ := ih { d with em := Dict.erase d.em (n, s), req := q } hnd'
      (by
        intro t ht
        dsimp only
        rw [Dict.get?_erase, if_neg]
        · exact hv t (List.mem_cons_of_mem _ ht)
        · intro e
          rw [Prod.mk.injEq] at e
          exact hss (e.2 ▸ ht))
      (by
        intro t ht
        dsimp only
        rw [hq1]
        refine ⟨hr t (List.mem_cons_of_mem _ ht), fun e => hss (e.1 ▸ ht)⟩)
    refine ⟨d', ?_, e1, e2, e3, ?_, ?_, ?_, fun h => e7 (hq3 h)⟩
    · rw [luDelSeq, del_ok (hv s (by simp))]
      simp only [bind, Except.bind]
      rw [hq]
      exact hd'
    · intro a b
      rw [e4]
      dsimp only
      rw [hq1, List.mem_cons]
      tauto
    · intro a b
      rw [e5]
      dsimp only
      rw [Dict.get?_erase]
      by_cases ha : a = n
      · subst ha
        by_cases hb : b = s
        · subst hb; simp
        · rw [if_neg (fun e => hb (congrArg Prod.snd e).symm)]
          simp [hb]
      · rw [if_neg (fun e => ha (congrArg Prod.fst e).symm)]
        simp [ha]
    · intro a
      rw [e6]
      exact hq2 a

theorem luDelBeta_spec (n : M) : ∀ (S : List M) (d : D M V), S.Nodup →
    (∀ s ∈ S, (Dict.get? d.em (n, s)).isSome) →
    ∃ d', luDelBeta n S d = .ok d' ∧ d'.seq = d.seq ∧ d'.alpha = d.alpha ∧ d'.beta = d.beta ∧ d'.req = d.req ∧
      (∀ a b, Dict.get? d'.em (a, b) = if a = n ∧ b ∈ S then none else Dict.get? d.em (a, b)) := by
  intro S
  induction S with
  | nil =>
    intro d _ _
    exact ⟨d, rfl, rfl, rfl, rfl, rfl, by simp⟩
  | cons s ss ih =>
    intro d hnd hv
    obtain ⟨hss, hnd'⟩ := List.nodup_cons.mp hnd
    obtain ⟨d', hd', e1, e2, e3, e4, e5⟩ := ih { d with em := Dict.erase d.em (n, s) } hnd'
      (by
        intro t ht
        dsimp only
        rw [Dict.get?_erase, if_neg]
        · exact hv t (List.mem_cons_of_mem _ ht)
        · intro e
          rw [Prod.mk.injEq] at e
          exact hss (e.2 ▸ ht))
    refine ⟨d', ?_, e1, e2, e3, e4, ?_⟩
    · rw [luDelBeta, del_ok (hv s (by simp))]
      exact hd'
    · intro a b
      rw [e5]
      dsimp only
      rw [Dict.get?_erase]
      by_cases ha : a = n
      · subst ha
        by_cases hb : b = s
        · subst hb; simp
        · rw [if_neg (fun e => hb (congrArg Prod.snd e).symm)]
          simp [hb]
      · rw [if_neg (fun e => ha (congrArg Prod.fst e).symm)]
        simp [ha]

theorem luDelReq_spec (n : M) : ∀ (S : List M) (d : D M V), S.Nodup →
    (∀ s ∈ S, (Dict.get? d.em (s, n)).isSome) → (∀ s ∈ S, n ∈ at' d.seq s) →
    ∃ d', luDelReq n S d = .ok d' ∧ d'.req = d.req ∧ d'.alpha = d.alpha ∧ d'.beta = d.beta ∧
      (∀ a b, b ∈ at' d'.seq a ↔ b ∈ at' d.seq a ∧ ¬ (a ∈ S ∧ b = n)) ∧
      (∀ a b, Dict.get? d'.em (a, b) = if b = n ∧ a ∈ S then none else Dict.get? d.em (a, b)) ∧
      (∀ a, Dict.has d'.seq a = true ↔ Dict.has d.seq a = true) ∧
      (LD d.seq → LD d'.seq) := by
  intro S
  induction S with
  | nil =>
    intro d _ _ _
    exact ⟨d, rfl, rfl, rfl, rfl, by simp, by simp, fun _ => Iff.rfl, id⟩
  | cons s ss ih =>
    intro d hnd hv hr
    obtain ⟨hss, hnd'⟩ := List.nodup_cons.mp hnd
    obtain ⟨q, hq, hq1, hq2, hq3⟩ := rem_ok (hr s (by simp))
    obtain ⟨d', hd', e1, e2, e3, e4, e5, e6, e7⟩ := ih { d with em := Dict.erase d.em (s, n), seq := q } hnd'
      (by
        intro t ht
        dsimp only
        rw [Dict.get?_erase, if_neg]
        · exact hv t (List.mem_cons_of_mem _ ht)
        · intro e
          rw [Prod.mk.injEq] at e
          exact hss (e.1 ▸ ht))
      (by
        intro t ht
        dsimp only
        rw [hq1]
        refine ⟨hr t (List.mem_cons_of_mem _ ht), fun e => hss (e.1 ▸ ht)⟩)
    refine ⟨d', ?_, e1, e2, e3, ?_, ?_, ?_, fun h => e7 (hq3 h)⟩
    · rw [luDelReq, del_ok (hv s (by simp))]
      simp only [bind, Except.bind]
      rw [hq]
      exact hd'
    · intro a b
      rw [e4]
      dsimp only
      rw [hq1, List.mem_cons]
      tauto
    · intro a b
      rw [e5]
      dsimp only
      rw [Dict.get?_erase]
      by_cases hb : b = n
      · subst hb
        by_cases ha : a = s
        · subst ha; simp
        · rw [if_neg (fun e => ha (congrArg Prod.fst e).symm)]
          simp [ha]
      · rw [if_neg (fun e => hb (congrArg Prod.snd e).symm)]
        simp [hb]
    · intro a
      rw [e6]
      exact hq2 a

theorem luDelAlpha_spec (n : M) : ∀ (S : List M) (d : D M V), S.Nodup →
    (∀ s ∈ S, (Dict.get? d.em (s, n)).isSome) →
    ∃ d', luDelAlpha n S d = .ok d' ∧ d'.seq = d.seq ∧ d'.alpha = d.alpha ∧ d'.beta = d.beta ∧ d'.req = d.req ∧
      (∀ a b, Dict.get? d'.em (a, b) = if b = n ∧ a ∈ S then none else Dict.get? d.em (a, b)) := by
  intro S
  induction S with
  | nil =>
    intro d _ _
    exact ⟨d, rfl, rfl, rfl, rfl, rfl, by simp⟩
  | cons s ss ih =>
    intro d hnd hv
    obtain ⟨hss, hnd'⟩ := List.nodup_cons.mp hnd
    obtain ⟨d', hd', e1, e2, e3, e4, e5⟩ := ih { d with em := Dict.erase d.em (s, n) } hnd'
      (by
        intro t ht
        dsimp only
        rw [Dict.get?_erase, if_neg]
        · exact hv t (List.mem_cons_of_mem _ ht)
        · intro e
          rw [Prod.mk.injEq] at e
          exact hss (e.1 ▸ ht))
    refine ⟨d', ?_, e1, e2, e3, e4, ?_⟩
    · rw [luDelAlpha, del_ok (hv s (by simp))]
      exact hd'
    · intro a b
      rw [e5]
      dsimp only
      rw [Dict.get?_erase]
      by_cases hb : b = n
      · subst hb
        by_cases ha : a = s
        · subst ha; simp
        · rw [if_neg (fun e => ha (congrArg Prod.fst e).symm)]
          simp [ha]
      · rw [if_neg (fun e => hb (congrArg Prod.snd e).symm)]
        simp [hb]

/-- The node `n` without its self edge is cut out. -/
theorem luDelete_spec (n : M) (d : D M V) (hn : n ∉ at' d.seq n)
    (mir : ∀ r s, s ∈ at' d.seq r ↔ r ∈ at' d.req s) (ld : LD4 d)
    (hSB : ∀ s ∈ at' d.seq n, s ∉ at' d.beta n) (hRA : ∀ s ∈ at' d.req n, s ∉ at' d.alpha n)
    (hnB : n ∉ at' d.beta n)
    (vs : ∀ s ∈ at' d.seq n, (Dict.get? d.em (n, s)).isSome) (vb : ∀ s ∈ at' d.beta n, (Dict.get? d.em (n, s)).isSome)
    (vr : ∀ s ∈ at' d.req n, (Dict.get? d.em (s, n)).isSome) (va : ∀ s ∈ at' d.alpha n, (Dict.get? d.em (s, n)).isSome) :
    ∃ d', luDelete n d = .ok d' ∧
      (∀ a b, b ∈ at' d'.seq a ↔ b ∈ at' d.seq a ∧ a ≠ n ∧ b ≠ n) ∧
      (∀ a b, b ∈ at' d'.req a ↔ b ∈ at' d.req a ∧ a ≠ n ∧ b ≠ n) ∧
      (∀ a b, b ∈ at' d'.alpha a ↔ b ∈ at' d.alpha a ∧ a ≠ n) ∧
      (∀ a b, b ∈ at' d'.beta a ↔ b ∈ at' d.beta a ∧ a ≠ n) ∧
      (∀ a b, a ≠ n → b ≠ n → Dict.get? d'.em (a, b) = Dict.get? d.em (a, b)) ∧
      (∀ a, Dict.has d'.seq a = true ↔ Dict.has d.seq a = true ∧ a ≠ n) ∧
      (∀ a, Dict.has d'.req a = true ↔ Dict.has d.req a = true ∧ a ≠ n) ∧ LD4 d' := by
  obtain ⟨d1, h1, s1, a1, b1, r1, m1, k1, l1⟩ := luDelSeq_spec n (at' d.seq n) d (ld.s.nd n) vs
    (fun s hs => (mir n s).mp hs)
  obtain ⟨d2, h2, s2, a2, b2, r2, m2⟩ := luDelBeta_spec n (at' d.beta n)
    ({ d1 with seq := Dict.erase d1.seq n }) (ld.b.nd n) (by
      intro s hs
      dsimp only
      rw [m1, if_neg (fun h => hSB s h.2 hs)]
      exact vb s hs)
  have hr2 : ∀ x, x ∈ at' d2.req n ↔ x ∈ at' d.req n := by
    intro x
    rw [r2]
    dsimp only
    rw [r1]
    constructor
    · exact fun h => h.1
    · exact fun h => ⟨h, fun e => hn e.1⟩
  obtain ⟨d3, h3, r3, a3, b3, s3, m3, k3, l3⟩ := luDelReq_spec n (at' d2.req n)
    ({ d2 with beta := Dict.erase d2.beta n }) (by
      rw [r2]
      exact (l1 ld.r).nd n) (by
      intro s hs
      have hs' := (hr2 s).mp hs
      have hsn : s ≠ n := fun e => hn ((mir n n).mpr (e ▸ hs'))
      dsimp only
      rw [m2, if_neg (fun h => hsn h.1)]
      dsimp only
      rw [m1, if_neg (fun h => hsn h.1)]
      exact vr s hs') (by
      intro s hs
      have hs' := (hr2 s).mp hs
      have hsn : n ≠ s := fun e => hn ((mir n n).mpr (by rw [← e] at hs'; exact hs'))
      dsimp only
      rw [s2]
      dsimp only
      rw [at_erase, if_neg hsn, s1]
      exact (mir s n).mpr hs')
  have ha3 : d3.alpha = d.alpha := by rw [a3]; dsimp only; rw [a2]; exact a1
  have mem3 : ∀ a b, b ≠ n → a ≠ n → Dict.get? d3.em (a, b) = Dict.get? d.em (a, b) := by
    intro a b hb ha
    rw [m3, if_neg (fun h => hb h.1)]
    dsimp only
    rw [m2, if_neg (fun h => ha h.1)]
    dsimp only
    rw [m1, if_neg (fun h => ha h.1)]
  obtain ⟨d4, h4, s4, a4, b4, r4, m4⟩ := luDelAlpha_spec n (at' d3.alpha n)
    ({ d3 with req := Dict.erase d3.req n }) (by rw [ha3]; exact ld.a.nd n) (by
      intro s hs
      rw [ha3] at hs
      have hsR : s ∉ at' d.req n := fun h => hRA s h hs
      dsimp only
      rw [m3, if_neg (fun h => hsR ((hr2 s).mp h.2))]
      dsimp only
      by_cases hsn : s = n
      · subst hsn
        rw [m2, if_neg (fun h => hnB h.2)]
        dsimp only
        rw [m1, if_neg (fun h => hn h.2)]
        exact va _ hs
      · rw [m2, if_neg (fun h => hsn h.1)]
        dsimp only
        rw [m1, if_neg (fun h => hsn h.1)]
        exact va s hs)
  refine ⟨{ d4 with alpha := Dict.erase d4.alpha n }, ?_, ?_, ?_, ?_, ?_, ?_, ?_, ?_, ?_⟩
  · unfold luDelete
    rw [h1]
    simp only [bind, Except.bind]
    rw [show at' d1.beta n = at' d.beta n by rw [b1], h2]
    dsimp only
    rw [h3]
    dsimp only
    rw [h4]
    rfl
  · intro a b
    dsimp only
    rw [s4]
    dsimp only
    rw [s3]
    dsimp only
    rw [s2]
    dsimp only
    rw [at_erase, s1, hr2]
    by_cases ha : a = n
    · subst ha; simp
    · have ha' : n ≠ a := fun e => ha e.symm
      rw [if_neg ha']
      constructor
      · rintro ⟨h, hh⟩
        refine ⟨h, ha, fun e => hh ⟨?_, e⟩⟩
        subst e
        exact (mir _ _).mp h
      · rintro ⟨h, _, hb⟩
        exact ⟨h, fun e => hb e.2⟩
  · intro a b
    dsimp only
    rw [r4]
    dsimp only
    rw [at_erase, r3]
    dsimp only
    rw [r2]
    dsimp only
    by_cases ha : a = n
    · subst ha; simp
    · have ha' : n ≠ a := fun e => ha e.symm
      rw [if_neg ha', r1]
      constructor
      · rintro ⟨h, hh⟩
        refine ⟨h, ha, fun e => hh ⟨?_, e⟩⟩
        subst e
        exact (mir _ _).mpr h
      · rintro ⟨h, _, hb⟩
        exact ⟨h, fun e => hb e.2⟩
  · intro a b
    dsimp only
    rw [a4]
    dsimp only
    rw [at_erase, ha3]
    by_cases ha : a = n
    · subst ha; simp
    · have ha' : n ≠ a := fun e => ha e.symm
      simp [ha, ha']
  · intro a b
    dsimp only
    rw [b4]
    dsimp only
    rw [b3]
    dsimp only
    rw [at_erase, b2]
    dsimp only
    rw [b1]
    by_cases ha : a = n
    · subst ha; simp
    · have ha' : n ≠ a := fun e => ha e.symm
      simp [ha, ha']
  · intro a b ha hb
    dsimp only
    rw [m4, if_neg (fun h => hb h.1)]
    exact mem3 a b hb ha
  · intro a
    dsimp only
    rw [s4]
    dsimp only
    rw [k3]
    dsimp only
    rw [s2]
    dsimp only
    rw [has_erase, s1]
    constructor
    · exact fun h => ⟨h.2, fun e => h.1 e.symm⟩
    · exact fun h => ⟨fun e => h.2 e.symm, h.1⟩
  · intro a
    dsimp only
    rw [r4]
    dsimp only
    rw [has_erase, r3]
    dsimp only
    rw [r2]
    dsimp only
    rw [k1]
    constructor
    · exact fun h => ⟨h.2, fun e => h.1 e.symm⟩
    · exact fun h => ⟨fun e => h.2 e.symm, h.1⟩
  · constructor
    · dsimp only
      rw [s4]
      apply l3
      dsimp only
      rw [s2]
      dsimp only
      rw [s1]
      exact LD_erase ld.s n
    · dsimp only
      rw [r4]
      dsimp only
      rw [r3]
      dsimp only
      rw [r2]
      exact LD_erase (l1 ld.r) n
    · dsimp only
      rw [a4]
      dsimp only
      rw [ha3]
      exact LD_erase ld.a n
    · dsimp only
      rw [b4]
      dsimp only
      rw [b3]
      dsimp only
      rw [b2]
      dsimp only
      rw [b1]
      exact LD_erase ld.b n

/-- The effect of `reduceLU`. -/
structure LuEff (n : M) (v : V) (d d' : D M V) : Prop where
  seq : ∀ a b, b ∈ at' d'.seq a ↔ a ≠ n ∧ b ≠ n ∧ (b ∈ at' d.seq a ∨ (n ∈ at' d.seq a ∧ b ∈ at' d.seq n))
  req : ∀ a b, b ∈ at' d'.req a ↔ a ≠ n ∧ b ≠ n ∧ (b ∈ at' d.req a ∨ (b ∈ at' d.req n ∧ n ∈ at' d.req a))
  alpha : ∀ a b, b ∈ at' d'.alpha a ↔ a ≠ n ∧
    (b ∈ at' d.alpha a ∨ (b ∈ at' d.alpha n ∧ (a ∈ at' d.seq n ∨ a ∈ at' d.beta n)))
  beta : ∀ a b, b ∈ at' d'.beta a ↔ a ≠ n ∧
    (b ∈ at' d.beta a ∨ ((n ∈ at' d.seq a ∨ a ∈ at' d.alpha n) ∧ b ∈ at' d.beta n))
  em : ∀ a b, a ≠ n → b ≠ n → Dict.get? d'.em (a, b) =
    if (n ∈ at' d.seq a ∨ a ∈ at' d.alpha n) ∧ (b ∈ at' d.seq n ∨ b ∈ at' d.beta n) then
      some (ev d a b + ev d n b * (-1 / v) * ev d a n) else Dict.get? d.em (a, b)
  hs : ∀ a, Dict.has d'.seq a = true ↔ Dict.has d.seq a = true ∧ a ≠ n
  hr : ∀ a, Dict.has d.req a = true → a ≠ n → Dict.has d'.req a = true
  ld : LD4 d'

theorem Sound.ld4 {kind : M → Kind} {K : M → Prop} {d : D M V} (h : Sound kind K d) : LD4 d := ⟨h.ls, h.lr, h.la, h.lb⟩

theorem reduceLU_eff {kind : M → Kind} {K : M → Prop} {d : D M V} (h : Sound kind K d) {n : M} (hn : K n) {v : V}
    (hv : Dict.get? d.em (n, n) = some v) (hv0 : v ≠ 0) : ∃ d', reduceLU n d = .ok d' ∧ LuEff n v d d' := by
  have kn := h.ki n hn
  have nA : n ∉ at' d.alpha n := fun hh => by have := (h.ai _ _ hh).1; rw [kn] at this; cases this
  have nB : n ∉ at' d.beta n := fun hh => by have := (h.bi _ _ hh).1; rw [kn] at this; cases this
  have hself : n ∈ at' d.seq n := by
    rcases h.used n n (fun _ => hn) (fun _ => hn) (by rw [hv]; rfl) with hh | hh | hh
    · exact hh
    · exact (nB hh).elim
    · exact (nA hh).elim
  have hself' : n ∈ at' d.req n := (h.mir n n).mp hself
  obtain ⟨sq, hsq, sq1, sq2, sq3⟩ := rem_ok hself
  obtain ⟨rq, hrq, rq1, rq2, rq3⟩ := rem_ok hself'
  set d1 : D M V := { d with seq := sq, req := rq, em := Dict.erase d.em (n, n) } with hd1
  have s1 : ∀ a b, b ∈ at' d1.seq a ↔ b ∈ at' d.seq a ∧ ¬ (a = n ∧ b = n) := fun a b => sq1 a b
  have r1 : ∀ a b, b ∈ at' d1.req a ↔ b ∈ at' d.req a ∧ ¬ (a = n ∧ b = n) := fun a b => rq1 a b
  have e1 : ∀ a b, ¬ (a = n ∧ b = n) → Dict.get? d1.em (a, b) = Dict.get? d.em (a, b) := by
    intro a b hab
    show Dict.get? (Dict.erase d.em (n, n)) (a, b) = _
    rw [Dict.get?_erase, if_neg]
    intro e
    rw [Prod.mk.injEq] at e
    exact hab ⟨e.1.symm, e.2.symm⟩
  have ld1 : LD4 d1 := ⟨sq3 h.ls, rq3 h.lr, h.la, h.lb⟩
  have hS : luSelf n d = .ok (-1 / v, d1) := by
    unfold luSelf
    rw [get_ok hv]
    simp only [bind, Except.bind]
    rw [if_neg hv0, hsq]
    dsimp only
    rw [hrq]
    dsimp only
    rw [del_ok (by rw [hv]; rfl)]
    rfl
  have nS1 : n ∉ at' d1.seq n := fun hh => ((s1 n n).mp hh).2 ⟨rfl, rfl⟩
  have nR1 : n ∉ at' d1.req n := fun hh => ((r1 n n).mp hh).2 ⟨rfl, rfl⟩
  have disR : ∀ r, r ∈ at' d.req n → r ∉ at' d.alpha n := by
    intro r hr ha
    have k1 := (h.ai _ _ ha).1
    have k2 := h.ki r (h.si r n ((h.mir r n).mpr hr)).1
    rw [k1] at k2; cases k2
  have disS : ∀ s, s ∈ at' d.seq n → s ∉ at' d.beta n := by
    intro s hs hb
    have k1 := (h.bi _ _ hb).1
    have k2 := h.ki s (h.si n s hs).2
    rw [k1] at k2; cases k2
  have vR : ∀ r, r ∈ at' d1.req n → (Dict.get? d1.em (r, n)).isSome := by
    intro r hr
    have hrn : r ≠ n := fun e => nR1 (e ▸ hr)
    rw [e1 _ _ (fun hh => hrn hh.1)]
    exact h.val _ _ (Or.inl ((h.mir _ _).mpr ((r1 _ _).mp hr).1))
  have vA : ∀ r, r ∈ at' d.alpha n → (Dict.get? d1.em (r, n)).isSome := by
    intro r hr
    have hrn : r ≠ n := fun e => nA (e ▸ hr)
    rw [e1 _ _ (fun hh => hrn hh.1)]
    exact h.val _ _ (Or.inr (Or.inr hr))
  have vS : ∀ s, s ∈ at' d1.seq n → (Dict.get? d1.em (n, s)).isSome := by
    intro s hs
    have hsn : s ≠ n := fun e => nS1 (e ▸ hs)
    rw [e1 _ _ (fun hh => hsn hh.2)]
    exact h.val _ _ (Or.inl ((s1 _ _).mp hs).1)
  have vB : ∀ s, s ∈ at' d.beta n → (Dict.get? d1.em (n, s)).isSome := by
    intro s hs
    have hsn : s ≠ n := fun e => nB (e ▸ hs)
    rw [e1 _ _ (fun hh => hsn hh.2)]
    exact h.val _ _ (Or.inr (Or.inl hs))
  obtain ⟨d2, h2, o2⟩ := luOuter_spec false n (-1 / v) (at' d1.req n) (at' d1.alpha n) (ld1.r.nd n) (ld1.a.nd n)
    (fun r hr => disR r ((r1 _ _).mp hr).1) nR1 nA (at' d1.seq n) d1 (ld1.s.nd n) nS1 vR vA vS
  have ld2 := o2.ld ld1
  have r2n : ∀ r, r ∈ at' d2.req n ↔ r ∈ at' d1.req n := by
    intro r
    rw [o2.req]
    exact ⟨fun hh => hh.elim id (fun e => (nS1 e.2.2).elim), Or.inl⟩
  have a2n : ∀ r, r ∈ at' d2.alpha n ↔ r ∈ at' d.alpha n := by
    intro r
    rw [o2.alpha]
    exact ⟨fun hh => hh.elim id (fun e => (nS1 e.2).elim), Or.inl⟩
  have b2 : ∀ a b, b ∈ at' d2.beta a ↔ b ∈ at' d.beta a := by
    intro a b
    rw [o2.beta]
    exact ⟨fun hh => hh.elim id (fun e => by cases e.1), Or.inl⟩
  have s2n : ∀ s, s ∈ at' d2.seq n ↔ s ∈ at' d1.seq n := by
    intro s
    rw [o2.seq]
    exact ⟨fun hh => hh.elim id (fun e => (nR1 e.2.1).elim), Or.inl⟩
  have e2l : ∀ b, Dict.get? d2.em (n, b) = Dict.get? d1.em (n, b) := by
    intro b
    rw [o2.em, if_neg (fun hh => hh.1.elim nR1 nA)]
  have e2r : ∀ a, Dict.get? d2.em (a, n) = Dict.get? d1.em (a, n) := by
    intro a
    rw [o2.em, if_neg (fun hh => nS1 hh.2)]
  obtain ⟨d3, h3, o3⟩ := luOuter_spec true n (-1 / v) (at' d2.req n) (at' d2.alpha n) (ld2.r.nd n) (ld2.a.nd n)
    (fun r hr ha => disR r ((r1 _ _).mp ((r2n r).mp hr)).1 ((a2n r).mp ha)) (fun hh => nR1 ((r2n n).mp hh))
    (fun hh => nA ((a2n n).mp hh))
    (at' d2.beta n) d2 (ld2.b.nd n) (fun hh => nB ((b2 _ _).mp hh))
    (fun r hr => by rw [e2r]; exact vR r ((r2n r).mp hr))
    (fun r hr => by rw [e2r]; exact vA r ((a2n r).mp hr))
    (fun s hs => by rw [e2l]; exact vB s ((b2 _ _).mp hs))
  have ld3 := o3.ld ld2
  have s3 : ∀ a b, b ∈ at' d3.seq a ↔ b ∈ at' d1.seq a ∨ (a ∈ at' d1.req n ∧ b ∈ at' d1.seq n) := by
    intro a b
    rw [o3.seq, o2.seq]
    simp
  have r3 : ∀ a b, b ∈ at' d3.req a ↔ b ∈ at' d1.req a ∨ (b ∈ at' d1.req n ∧ a ∈ at' d1.seq n) := by
    intro a b
    rw [o3.req, o2.req]
    simp
  have a3 : ∀ a b, b ∈ at' d3.alpha a ↔ b ∈ at' d.alpha a ∨
      (b ∈ at' d.alpha n ∧ (a ∈ at' d1.seq n ∨ a ∈ at' d.beta n)) := by
    intro a b
    rw [o3.alpha, o2.alpha, a2n, b2]
    show (b ∈ at' d.alpha a ∨ b ∈ at' d.alpha n ∧ _) ∨ _ ↔ _
    tauto
  have b3 : ∀ a b, b ∈ at' d3.beta a ↔ b ∈ at' d.beta a ∨
      ((a ∈ at' d1.req n ∨ a ∈ at' d.alpha n) ∧ b ∈ at' d.beta n) := by
    intro a b
    rw [o3.beta, b2, b2, r2n, a2n]
    simp
  have mir1 : ∀ r s, s ∈ at' d1.seq r ↔ r ∈ at' d1.req s := by
    intro r s
    rw [s1, r1, h.mir]
    tauto
  have e3l : ∀ b, Dict.get? d3.em (n, b) = Dict.get? d1.em (n, b) := by
    intro b
    rw [o3.em, if_neg, e2l]
    rintro ⟨hh | hh, _⟩
    · exact nR1 ((r2n n).mp hh)
    · exact nA ((a2n n).mp hh)
  have e3r : ∀ a, Dict.get? d3.em (a, n) = Dict.get? d1.em (a, n) := by
    intro a
    rw [o3.em, if_neg (fun hh => nB ((b2 _ _).mp hh.2)), e2r]
  have s3n : ∀ s, s ∈ at' d3.seq n ↔ s ∈ at' d1.seq n := by
    intro s; rw [s3]; exact ⟨fun hh => hh.elim id (fun e => (nR1 e.1).elim), Or.inl⟩
  have r3n : ∀ s, s ∈ at' d3.req n ↔ s ∈ at' d1.req n := by
    intro s; rw [r3]; exact ⟨fun hh => hh.elim id (fun e => (nS1 e.2).elim), Or.inl⟩
  have a3n : ∀ s, s ∈ at' d3.alpha n ↔ s ∈ at' d.alpha n := by
    intro s; rw [a3]
    exact ⟨fun hh => hh.elim id (fun e => e.1), Or.inl⟩
  have b3n : ∀ s, s ∈ at' d3.beta n ↔ s ∈ at' d.beta n := by
    intro s; rw [b3]
    exact ⟨fun hh => hh.elim id (fun e => e.2), Or.inl⟩
  obtain ⟨d4, h4, s4, r4, a4, b4, m4, hs4, hr4, ld4⟩ := luDelete_spec n d3 (fun hh => nS1 ((s3n n).mp hh))
    (fun r s => by rw [s3, r3, mir1, mir1]) ld3
    (fun s hs hb => disS s ((s1 _ _).mp ((s3n s).mp hs)).1 ((b3n s).mp hb))
    (fun s hs hb => disR s ((r1 _ _).mp ((r3n s).mp hs)).1 ((a3n s).mp hb))
    (fun hh => nB ((b3n _).mp hh))
    (fun s hs => by rw [e3l]; exact vS s ((s3n s).mp hs))
    (fun s hs => by rw [e3l]; exact vB s ((b3n s).mp hs))
    (fun s hs => by rw [e3r]; exact vR s ((r3n s).mp hs))
    (fun s hs => by rw [e3r]; exact vA s ((a3n s).mp hs))
  refine ⟨d4, ?_, ?_⟩
  · unfold reduceLU
    rw [hS]
    simp only [bind, Except.bind]
    rw [h2]
    dsimp only
    rw [h3]
    exact h4
  · have hs1 : ∀ r ∈ at' d1.req n, Dict.has d1.seq r = true := by
      intro r hr
      rw [show Dict.has d1.seq r = Dict.has sq r from rfl, sq2]
      exact has_of_mem ((h.mir r n).mpr ((r1 _ _).mp hr).1)
    have hs2 := o2.hs hs1
    have hs3 := o3.hs (fun r hr => (hs2 r).mpr (hs1 r ((r2n r).mp hr)))
    constructor
    · intro a b
      rw [s4, s3, s1, s1, r1]
      have := h.mir a n
      by_cases ha : a = n <;> by_cases hb : b = n <;> simp [ha, hb, this]
    · intro a b
      rw [r4, r3, r1, r1, s1]
      have := h.mir n a
      by_cases ha : a = n <;> by_cases hb : b = n <;> simp [ha, hb, this]
    · intro a b
      rw [a4, a3, s1]
      by_cases ha : a = n <;> simp [ha]
    · intro a b
      rw [b4, b3, r1, h.mir]
      by_cases ha : a = n <;> simp [ha]
    · intro a b ha hb
      rw [m4 a b ha hb, o3.em]
      have eab : Dict.get? d1.em (a, b) = Dict.get? d.em (a, b) := e1 _ _ (fun hh => ha hh.1)
      have ean : ∀ {d' : D M V}, Dict.get? d'.em (a, n) = Dict.get? d1.em (a, n) → ev d' a n = ev d a n := by
        intro d' hh
        unfold ev; rw [hh, e1 _ _ (fun hh => ha hh.1)]
      have enb : ∀ {d' : D M V}, Dict.get? d'.em (n, b) = Dict.get? d1.em (n, b) → ev d' n b = ev d n b := by
        intro d' hh
        unfold ev; rw [hh, e1 _ _ (fun hh => hb hh.2)]
      have ra : (a ∈ at' d1.req n) ↔ n ∈ at' d.seq a := by
        rw [r1, h.mir]; exact ⟨fun e => e.1, fun e => ⟨e, fun e' => ha e'.2⟩⟩
      have sb : (b ∈ at' d1.seq n) ↔ b ∈ at' d.seq n := by
        rw [s1]; exact ⟨fun e => e.1, fun e => ⟨e, fun e' => hb e'.2⟩⟩
      by_cases hA : n ∈ at' d.seq a ∨ a ∈ at' d.alpha n
      · have c3 : a ∈ at' d2.req n ∨ a ∈ at' d2.alpha n := by rw [r2n, a2n, ra]; exact hA
        have c2 : a ∈ at' d1.req n ∨ a ∈ at' d1.alpha n := by rw [ra]; exact hA
        by_cases hB : b ∈ at' d.beta n
        · have c4 : b ∉ at' d1.seq n := fun e => disS b (sb.mp e) hB
          rw [if_pos ⟨c3, (b2 _ _).mpr hB⟩, if_pos ⟨hA, Or.inr hB⟩, ean (e2r a), enb (e2l b)]
          have : ev d2 a b = ev d a b := by
            unfold ev; rw [o2.em, if_neg (fun e => c4 e.2), eab]
          rw [this]
        · rw [if_neg (fun e => hB ((b2 _ _).mp e.2)), o2.em]
          by_cases hS' : b ∈ at' d.seq n
          · rw [if_pos ⟨c2, sb.mpr hS'⟩, if_pos ⟨hA, Or.inl hS'⟩, ean (d' := d1) rfl, enb (d' := d1) rfl]
            have : ev d1 a b = ev d a b := by unfold ev; rw [eab]
            rw [this]
          · rw [if_neg (fun e => hS' (sb.mp e.2)), if_neg (fun e => e.2.elim hS' hB), eab]
      · have c3 : ¬ (a ∈ at' d2.req n ∨ a ∈ at' d2.alpha n) := by rw [r2n, a2n, ra]; exact hA
        have c2 : ¬ (a ∈ at' d1.req n ∨ a ∈ at' d1.alpha n) := by rw [ra]; exact hA
        rw [if_neg (fun e => c3 e.1), o2.em, if_neg (fun e => c2 e.1), if_neg (fun e => hA e.1), eab]
    · intro a
      rw [hs4, hs3, hs2]
      show Dict.has sq a = true ∧ _ ↔ _
      rw [sq2]
    · intro a ha han
      rw [hr4]
      exact ⟨o3.hr a (o2.hr a ((rq2 a).mpr ha)), han⟩
    · exact ld4

end Dag
