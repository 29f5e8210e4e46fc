import Verif.Dag.LuSol
import Mathlib.Logic.Equiv.Basic
import Mathlib.Algebra.BigOperators.Group.Finset.Defs

/-! # Pivots -/

set_option linter.unusedSectionVars false

namespace Dag
open Py Graph

variable {M : Type} {V : Type} [DecidableEq M] [Field V] [DecidableEq V]

/-- The values of the edges of `n1` to `S` move from `p.1.em` to `p.2` under the name `n2`. -/
structure Mv (n1 n2 : M) (S : List M) (p p' : D M V × Dict (M × M) V) : Prop where
  em : ∀ a b, Dict.get? p'.1.em (a, b) = if a = n1 ∧ b ∈ S then none else Dict.get? p.1.em (a, b)
  em2 : ∀ a b, Dict.get? p'.2 (a, b) = if a = n2 ∧ b ∈ S then Dict.get? p.1.em (n1, b) else Dict.get? p.2 (a, b)
  wf : Dict.WF p.2 → Dict.WF p'.2
  seq : p'.1.seq = p.1.seq
  alpha : p'.1.alpha = p.1.alpha
  beta : p'.1.beta = p.1.beta
  hr : ∀ a, Dict.has p.1.req a = true → Dict.has p'.1.req a = true
  lr : LD p.1.req → LD p'.1.req

/-- One turn moves the edge to `s`, the rest those to `ss`. -/
theorem Mv.cons {n1 n2 s : M} {ss : List M} {d : D M V} {em2 : Dict (M × M) V} {rq : Dict M (List M)} {e : V}
    {p' : D M V × Dict (M × M) V} (hss : s ∉ ss) (hv : Dict.get? d.em (n1, s) = some e)
    (hrq : ∀ a, Dict.has d.req a = true → Dict.has rq a = true) (hl : LD d.req → LD rq)
    (h : Mv n1 n2 ss ({ d with em := Dict.erase d.em (n1, s), req := rq }, Dict.set em2 (n2, s) e) p') :
    Mv n1 n2 (s :: ss) (d, em2) p' := by
  constructor
  · intro a b
    rw [h.em]
    dsimp only
    rw [Dict.get?_erase]
    by_cases ha : a = n1
    · subst ha
      by_cases hb : b = s
      · subst hb; simp
      · rw [if_neg (c := (a, s) = (a, b)) (fun e => hb (Prod.mk.inj e).2.symm)]
        simp [hb]
    · rw [if_neg (c := (n1, s) = (a, b)) (fun e => ha (Prod.mk.inj e).1.symm)]
      simp [ha]
  · intro a b
    rw [h.em2]
    dsimp only
    rw [Dict.get?_erase, Dict.get?_set]
    by_cases ha : a = n2
    · subst ha
      by_cases hb : b = s
      · subst hb
        simp [hss, hv]
      · rw [if_neg (c := (a, s) = (a, b)) (fun e => hb (Prod.mk.inj e).2.symm),
          if_neg (c := (n1, s) = (n1, b)) (fun e => hb (Prod.mk.inj e).2.symm)]
        simp [hb]
    · rw [if_neg (c := (n2, s) = (a, b)) (fun e => ha (Prod.mk.inj e).1.symm)]
      simp [ha]
  · exact fun hw => h.wf (Dict.WF_set hw _ _)
  · exact h.seq
  · exact h.alpha
  · exact h.beta
  · exact fun a ha => h.hr a (hrq a ha)
  · exact fun hh => h.lr (hl hh)

theorem Mv.nil (n1 n2 : M) (p : D M V × Dict (M × M) V) : Mv n1 n2 [] p p := by
  constructor <;> simp

theorem pcSeq1_spec (n1 n2 : M) (hne : n1 ≠ n2) : ∀ (S : List M) (d : D M V) (em2 : Dict (M × M) V), S.Nodup →
    (∀ s ∈ S, (Dict.get? d.em (n1, s)).isSome) → (∀ s ∈ S, n1 ∈ at' d.req s) →
    ∃ p', pcSeq1 n1 n2 S (d, em2) = .ok p' ∧ Mv n1 n2 S (d, em2) p' ∧
      ∀ a b, b ∈ at' p'.1.req a ↔ (b ∈ at' d.req a ∧ ¬ (a ∈ S ∧ b = n1)) ∨ (a ∈ S ∧ b = n2) := by
  intro S
  induction S with
  | nil =>
    intro d em2 _ _ _
    exact ⟨_, rfl, Mv.nil _ _ _, by simp⟩
  | cons s ss ih =>
    intro d em2 hnd hv hr
    obtain ⟨hss, hnd'⟩ := List.nodup_cons.mp hnd
    obtain ⟨e, he⟩ := Option.isSome_iff_exists.mp (hv s (by simp))
    obtain ⟨q, hq, hq1, hq2, hq3⟩ := rem_ok (hr s (by simp))
    obtain ⟨p', hp, hm, hreq⟩ := ih { d with em := Dict.erase d.em (n1, s), req := ins q s n2 } (Dict.set em2 (n2, s) e)
      hnd' (by
        intro t ht
        dsimp only
        rw [Dict.get?_erase, if_neg]
        · exact hv t (List.mem_cons_of_mem _ ht)
        · intro e
          rw [Prod.mk.injEq] at e
          exact hss (e.2 ▸ ht))
      (by
        intro t ht
        dsimp only
        rw [mem_ins, hq1]
        exact Or.inl ⟨hr t (List.mem_cons_of_mem _ ht), fun e => hss (e.1 ▸ ht)⟩)
    refine ⟨p', ?_, Mv.cons hss he ?_ ?_ hm, ?_⟩
    · rw [pcSeq1, get_ok he]
      simp only [bind, Except.bind]
      rw [hq]
      exact hp
    · intro a ha
      rw [has_ins]
      exact Or.inr ((hq2 a).mpr ha)
    · exact fun hl => LD_ins (hq3 hl) _ _
    · intro a b
      rw [hreq]
      dsimp only
      rw [mem_ins, hq1]
      by_cases ha : a = s
      · subst ha
        simp [hss]
      · have : s ≠ a := fun e => ha e.symm
        simp [ha, this]

theorem pcBeta_spec (n1 n2 : M) : ∀ (S : List M) (d : D M V) (em2 : Dict (M × M) V), S.Nodup →
    (∀ s ∈ S, (Dict.get? d.em (n1, s)).isSome) →
    ∃ p', pcBeta n1 n2 S (d, em2) = .ok p' ∧ Mv n1 n2 S (d, em2) p' ∧ p'.1.req = d.req := by
  intro S
  induction S with
  | nil =>
    intro d em2 _ _
    exact ⟨_, rfl, Mv.nil _ _ _, rfl⟩
  | cons s ss ih =>
    intro d em2 hnd hv
    obtain ⟨hss, hnd'⟩ := List.nodup_cons.mp hnd
    obtain ⟨e, he⟩ := Option.isSome_iff_exists.mp (hv s (by simp))
    obtain ⟨p', hp, hm, hreq⟩ := ih { d with em := Dict.erase d.em (n1, s) } (Dict.set em2 (n2, s) e)
      hnd' (by
        intro t ht
        dsimp only
        rw [Dict.get?_erase, if_neg]
        · exact hv t (List.mem_cons_of_mem _ ht)
        · intro e
          rw [Prod.mk.injEq] at e
          exact hss (e.2 ▸ ht))
    refine ⟨p', ?_, Mv.cons hss he (fun _ h => h) (fun h => h) hm, hreq⟩
    rw [pcBeta, get_ok he]
    exact hp

theorem pcSeq2_spec (n1 n2 : M) (hne : n1 ≠ n2) (S1 : List M) : ∀ (S : List M) (d : D M V) (em2 : Dict (M × M) V), S.Nodup →
    (∀ s ∈ S, (Dict.get? d.em (n2, s)).isSome) → (∀ s ∈ S, s ∉ S1 → n2 ∈ at' d.req s) →
    ∃ p', pcSeq2 n1 n2 S1 S (d, em2) = .ok p' ∧ Mv n2 n1 S (d, em2) p' ∧
      ∀ a b, b ∈ at' p'.1.req a ↔ (b ∈ at' d.req a ∧ ¬ (a ∈ S ∧ a ∉ S1 ∧ b = n2)) ∨ (a ∈ S ∧ b = n1) := by
  intro S
  induction S with
  | nil =>
    intro d em2 _ _ _
    exact ⟨_, rfl, Mv.nil _ _ _, by simp⟩
  | cons s ss ih =>
    intro d em2 hnd hv hr
    obtain ⟨hss, hnd'⟩ := List.nodup_cons.mp hnd
    obtain ⟨e, he⟩ := Option.isSome_iff_exists.mp (hv s (by simp))
    obtain ⟨q, hq, hq1, hq2, hq3⟩ : ∃ q, pcReq n2 S1 s d.req = .ok q ∧
        (∀ x y, y ∈ at' q x ↔ y ∈ at' d.req x ∧ ¬ (x = s ∧ s ∉ S1 ∧ y = n2)) ∧
        (∀ x, Dict.has q x = true ↔ Dict.has d.req x = true) ∧ (LD d.req → LD q) := by
      by_cases h1 : s ∈ S1
      · refine ⟨d.req, by unfold pcReq; rw [if_neg (fun hh => hh h1)], ?_, fun _ => Iff.rfl, id⟩
        intro x y
        simp [h1]
      · obtain ⟨q, hq, hq1, hq2, hq3⟩ := rem_ok (hr s (by simp) h1)
        refine ⟨q, by unfold pcReq; rw [if_pos h1]; exact hq, ?_, hq2, hq3⟩
        intro x y
        rw [hq1]
        simp [h1]
    obtain ⟨p', hp, hm, hreq⟩ := ih { d with em := Dict.erase d.em (n2, s), req := ins q s n1 } (Dict.set em2 (n1, s) e)
      hnd' (by
        intro t ht
        dsimp only
        rw [Dict.get?_erase, if_neg]
        · exact hv t (List.mem_cons_of_mem _ ht)
        · intro e
          rw [Prod.mk.injEq] at e
          exact hss (e.2 ▸ ht))
      (by
        intro t ht h1
        dsimp only
        rw [mem_ins, hq1]
        exact Or.inl ⟨hr t (List.mem_cons_of_mem _ ht) h1, fun e => hss (e.1 ▸ ht)⟩)
    refine ⟨p', ?_, Mv.cons hss he ?_ ?_ hm, ?_⟩
    · rw [pcSeq2, get_ok he]
      simp only [bind, Except.bind]
      rw [hq]
      exact hp
    · intro a ha
      rw [has_ins]
      exact Or.inr ((hq2 a).mpr ha)
    · exact fun hl => LD_ins (hq3 hl) _ _
    · intro a b
      rw [hreq]
      dsimp only
      rw [mem_ins, hq1]
      by_cases ha : a = s
      · subst ha
        simp [hss]
      · have : s ≠ a := fun e => ha e.symm
        simp [ha, this]

/-- The effect of a column pivot. -/
structure SwapEff (n1 n2 : M) (d d' : D M V) : Prop where
  seq : ∀ a, at' d'.seq a = at' d.seq (Equiv.swap n1 n2 a)
  beta : ∀ a, at' d'.beta a = at' d.beta (Equiv.swap n1 n2 a)
  alpha : d'.alpha = d.alpha
  req : ∀ a b, b ∈ at' d'.req a ↔ Equiv.swap n1 n2 b ∈ at' d.req a
  em : ∀ a b, Dict.get? d'.em (a, b) = if a = n1 ∨ a = n2 then
      (if Listed d (Equiv.swap n1 n2 a) b then Dict.get? d.em (Equiv.swap n1 n2 a, b)
        else if Listed d a b then none else Dict.get? d.em (a, b))
    else Dict.get? d.em (a, b)
  hs : ∀ a, Dict.has d'.seq a = true ↔ n2 = a ∨ n1 = a ∨ Dict.has d.seq a = true
  hr : ∀ a, Dict.has d.req a = true → Dict.has d'.req a = true
  ld : LD4 d'

theorem check_ok {d : D M V} (mir : ∀ r s, s ∈ at' d.seq r ↔ r ∈ at' d.req s) (n : M) :
    check_graph_at_node d n = .ok () := by
  unfold check_graph_at_node
  rw [if_pos]
  rw [Bool.and_eq_true, List.all_eq_true, List.all_eq_true]
  exact ⟨fun s hs => by simpa using (mir _ _).mp hs, fun s hs => by simpa using (mir _ _).mpr hs⟩

theorem swap_mem (n1 n2 : M) (hne : n1 ≠ n2) {d : D M V} {S1 S2 : List M} (mir : ∀ r s, s ∈ at' d.seq r ↔ r ∈ at' d.req s)
    (h1 : S1 = at' d.seq n1) (h2 : S2 = at' d.seq n2) (a b : M) :
    ((((b ∈ at' d.req a ∧ ¬ (a ∈ S1 ∧ b = n1)) ∨ (a ∈ S1 ∧ b = n2)) ∧ ¬ (a ∈ S2 ∧ a ∉ S1 ∧ b = n2)) ∨ (a ∈ S2 ∧ b = n1))
      ↔ Equiv.swap n1 n2 b ∈ at' d.req a := by
  subst h1 h2
  rw [mir, mir]
  by_cases hb1 : b = n1
  · subst hb1
    rw [Equiv.swap_apply_left]
    simp [hne]
  · by_cases hb2 : b = n2
    · subst hb2
      rw [Equiv.swap_apply_right]
      simp [hb1]
      tauto
    · rw [Equiv.swap_apply_of_ne_of_ne hb1 hb2]
      simp [hb1, hb2]

theorem pivotCOL_eff {kind : M → Kind} {K : M → Prop} {d : D M V} (h : Sound kind K d) {n1 n2 : M} (hne : n1 ≠ n2)
    (h1 : K n1) (h2 : K n2) :
    ∃ d', pivotCOL n1 n2 d = .ok d' ∧ SwapEff n1 n2 d d' := by
  have k1 := h.ki n1 h1
  have k2 := h.ki n2 h2
  have dis : ∀ r s, s ∈ at' d.seq r → s ∉ at' d.beta r := by
    intro r s hs hb
    have q1 := (h.bi _ _ hb).1
    have q2 := h.ki s (h.si r s hs).2
    rw [q1] at q2; cases q2
  have vS : ∀ r s, s ∈ at' d.seq r → (Dict.get? d.em (r, s)).isSome := fun r s hs => h.val _ _ (Or.inl hs)
  have vB : ∀ r s, s ∈ at' d.beta r → (Dict.get? d.em (r, s)).isSome := fun r s hs => h.val _ _ (Or.inr (Or.inl hs))
  obtain ⟨⟨da, ea⟩, ha, ma, ra⟩ := pcSeq1_spec n1 n2 hne (at' d.seq n1) d [] (h.ls.nd n1) (vS n1)
    (fun s hs => (h.mir _ _).mp hs)
  have ema := ma.em
  have ema2 := ma.em2
  dsimp only at ema ema2 ra
  obtain ⟨⟨db, eb⟩, hb, mb, rb⟩ := pcBeta_spec n1 n2 (at' d.beta n1) da ea (h.lb.nd n1) (by
    intro s hs
    rw [ema, if_neg (fun e => dis _ _ e.2 hs)]
    exact vB _ _ hs)
  have emb := mb.em
  have emb2 := mb.em2
  dsimp only at emb emb2 rb
  have hne' : n2 ≠ n1 := fun e => hne e.symm
  obtain ⟨⟨dc, ec⟩, hc, mc, rc⟩ := pcSeq2_spec n1 n2 hne (at' d.seq n1) (at' d.seq n2) db eb (h.ls.nd n2) (by
    intro s hs
    rw [emb, if_neg (fun e => hne' e.1), ema, if_neg (fun e => hne' e.1)]
    exact vS _ _ hs) (by
    intro s hs hs1
    rw [rb, ra]
    exact Or.inl ⟨(h.mir _ _).mp hs, fun e => hne' e.2⟩)
  have emc := mc.em
  have emc2 := mc.em2
  dsimp only at emc emc2 rc
  obtain ⟨⟨de, ee⟩, he, me, re⟩ := pcBeta_spec n2 n1 (at' d.beta n2) dc ec (h.lb.nd n2) (by
    intro s hs
    rw [emc, if_neg (fun e => dis _ _ e.2 hs), emb, if_neg (fun e => hne' e.1), ema, if_neg (fun e => hne' e.1)]
    exact vB _ _ hs)
  have eme := me.em
  have eme2 := me.em2
  dsimp only at eme eme2 re
  have wfe : Dict.WF ee := me.wf (mc.wf (mb.wf (ma.wf Dict.WF_nil)))
  have sq : de.seq = d.seq := me.seq.trans (mc.seq.trans (mb.seq.trans ma.seq))
  have al : de.alpha = d.alpha := me.alpha.trans (mc.alpha.trans (mb.alpha.trans ma.alpha))
  have be : de.beta = d.beta := me.beta.trans (mc.beta.trans (mb.beta.trans ma.beta))
  have rq : ∀ a b, b ∈ at' de.req a ↔ Equiv.swap n1 n2 b ∈ at' d.req a := by
    intro a b
    rw [re, rc, rb, ra]
    exact swap_mem n1 n2 hne h.mir rfl rfl a b
  have atswap : ∀ (l : Dict M (List M)) a, at' (Dict.set (Dict.set l n1 (at' l n2)) n2 (at' l n1)) a
      = at' l (Equiv.swap n1 n2 a) := by
    intro l a
    rw [at_set, at_set]
    by_cases e2 : n2 = a
    · subst e2
      rw [if_pos rfl, Equiv.swap_apply_right]
    · rw [if_neg e2]
      by_cases e1 : n1 = a
      · subst e1
        rw [if_pos rfl, Equiv.swap_apply_left]
      · rw [if_neg e1, Equiv.swap_apply_of_ne_of_ne (fun e => e1 e.symm) (fun e => e2 e.symm)]
  set df : D M V := { de with
    seq := Dict.set (Dict.set de.seq n1 (at' d.seq n2)) n2 (at' d.seq n1)
    beta := Dict.set (Dict.set de.beta n1 (at' d.beta n2)) n2 (at' d.beta n1) } with hdf
  have fs : ∀ a, at' df.seq a = at' d.seq (Equiv.swap n1 n2 a) := by
    intro a
    show at' (Dict.set (Dict.set de.seq n1 (at' d.seq n2)) n2 (at' d.seq n1)) a = _
    rw [sq]; exact atswap d.seq a
  have fb : ∀ a, at' df.beta a = at' d.beta (Equiv.swap n1 n2 a) := by
    intro a
    show at' (Dict.set (Dict.set de.beta n1 (at' d.beta n2)) n2 (at' d.beta n1)) a = _
    rw [be]; exact atswap d.beta a
  have fm : ∀ r s, s ∈ at' df.seq r ↔ r ∈ at' df.req s := by
    intro r s
    rw [fs]
    show _ ↔ r ∈ at' de.req s
    rw [rq, h.mir]
  refine ⟨{ df with em := Dict.update df.em ee }, ?_, ?_⟩
  · unfold pivotCOL
    rw [check_ok h.mir, check_ok h.mir]
    simp only [bind, Except.bind]
    rw [ha]
    dsimp only
    rw [hb]
    dsimp only
    rw [hc]
    dsimp only
    rw [he]
    dsimp only
    rw [check_ok fm n1]
    dsimp only
    rw [check_ok fm n2]
    rfl
  · constructor
    · exact fs
    · exact fb
    · exact al
    · exact rq
    · intro a b
      show Dict.get? (Dict.update de.em ee) (a, b) = _
      rw [Dict.get?_update_of_WF _ wfe]
      have l1 : Listed d n1 b ↔ (b ∈ at' d.seq n1 ∨ b ∈ at' d.beta n1) := by
        unfold Listed
        have := h.notAlpha k1 b
        tauto
      have l2 : Listed d n2 b ↔ (b ∈ at' d.seq n2 ∨ b ∈ at' d.beta n2) := by
        unfold Listed
        have := h.notAlpha k2 b
        tauto
      by_cases a1 : a = n1
      · subst a1
        rw [if_pos (Or.inl rfl), Equiv.swap_apply_left]
        simp only [eme2, eme, emc2, emc, emb2, emb, ema2, ema]
        by_cases c1 : b ∈ at' d.seq a <;> by_cases c2 : b ∈ at' d.beta a <;> by_cases c3 : b ∈ at' d.seq n2 <;>
          by_cases c4 : b ∈ at' d.beta n2 <;> simp [l1, l2, c1, c2, c3, c4, hne, hne']
        all_goals
          first
          | exact (dis _ _ c3 c4).elim
          | exact (dis _ _ c1 c2).elim
          | (obtain ⟨w, hw⟩ := Option.isSome_iff_exists.mp (vS _ _ c3); simp [hw])
          | (obtain ⟨w, hw⟩ := Option.isSome_iff_exists.mp (vB _ _ c4); simp [hw])
      · by_cases a2 : a = n2
        · subst a2
          rw [if_pos (Or.inr rfl), Equiv.swap_apply_right]
          simp only [eme2, eme, emc2, emc, emb2, emb, ema2, ema]
          by_cases c1 : b ∈ at' d.seq a <;> by_cases c2 : b ∈ at' d.beta a <;> by_cases c3 : b ∈ at' d.seq n1 <;>
            by_cases c4 : b ∈ at' d.beta n1 <;> simp [l1, l2, c1, c2, c3, c4, hne, hne']
          all_goals
            first
            | exact (dis _ _ c3 c4).elim
            | exact (dis _ _ c1 c2).elim
            | (obtain ⟨w, hw⟩ := Option.isSome_iff_exists.mp (vS _ _ c3); simp [hw])
            | (obtain ⟨w, hw⟩ := Option.isSome_iff_exists.mp (vB _ _ c4); simp [hw])
        · rw [if_neg (fun e => e.elim a1 a2)]
          simp only [eme2, eme, emc2, emc, emb2, emb, ema2, ema]
          simp [a1, a2]
    · intro a
      show Dict.has (Dict.set (Dict.set de.seq n1 (at' d.seq n2)) n2 (at' d.seq n1)) a = true ↔ _
      rw [has_set, has_set, sq]
    · exact fun a hh => me.hr a (mc.hr a (mb.hr a (ma.hr a hh)))
    · constructor
      · show LD (Dict.set (Dict.set de.seq n1 (at' d.seq n2)) n2 (at' d.seq n1))
        rw [sq]
        exact LD_set (LD_set h.ls n1 (h.ls.nd n2)) n2 (h.ls.nd n1)
      · exact me.lr (mc.lr (mb.lr (ma.lr h.lr)))
      · show LD de.alpha
        rw [al]; exact h.la
      · show LD (Dict.set (Dict.set de.beta n1 (at' d.beta n2)) n2 (at' d.beta n1))
        rw [be]
        exact LD_set (LD_set h.lb n1 (h.lb.nd n2)) n2 (h.lb.nd n1)

end Dag
