import Verif.Graph.Basic
import Mathlib.Data.Fintype.Card
import Mathlib.Data.Finset.Card
import Mathlib.Data.Fintype.EquivFin

set_option linter.unusedSectionVars false

namespace Graph
open Py
variable {N : Type} {V : Type} [DecidableEq N]

/-! ## Coloring -/

theorem mem_foldl_cond (active : List N) : ∀ (es p : List N) (x : N),
    x ∈ es.foldl (fun p s => if s ∈ active then p else sadd p s) p ↔ x ∈ p ∨ (x ∈ es ∧ x ∉ active) := by
  intro es
  induction es with
  | nil => intro p x; simp
  | cons e es ih =>
    intro p x
    rw [List.foldl_cons, ih]
    by_cases h : e ∈ active
    · rw [if_pos h]
      simp only [List.mem_cons]
      constructor
      · rintro (h1 | ⟨h1, h2⟩)
        · exact Or.inl h1
        · exact Or.inr ⟨Or.inr h1, h2⟩
      · rintro (h1 | ⟨h1 | h1, h2⟩)
        · exact Or.inl h1
        · exact absurd (h1 ▸ h) h2
        · exact Or.inr ⟨h1, h2⟩
    · rw [if_neg h, mem_sadd]
      simp only [List.mem_cons]
      constructor
      · rintro ((h1 | h1) | ⟨h1, h2⟩)
        · exact Or.inl h1
        · exact Or.inr ⟨Or.inl h1, h1 ▸ h⟩
        · exact Or.inr ⟨Or.inr h1, h2⟩
      · rintro (h1 | ⟨h1 | h1, h2⟩)
        · exact Or.inl (Or.inl h1)
        · exact Or.inl (Or.inr h1)
        · exact Or.inr ⟨h1, h2⟩

theorem mem_foldl_sadd : ∀ (es p : List N) (x : N), x ∈ es.foldl sadd p ↔ x ∈ p ∨ x ∈ es := by
  intro es
  induction es with
  | nil => intro p x; simp
  | cons e es ih =>
    intro p x
    rw [List.foldl_cons, ih, mem_sadd]
    simp only [List.mem_cons]
    tauto

/-- Reachable from the set `S` along `emap`. -/
def ReachFrom (emap : N → List N) (S : List N) (x : N) : Prop :=
  ∃ s ∈ S, Relation.ReflTransGen (fun a b => b ∈ emap a) s x

theorem colorLoop_spec [Fintype N] {pick : List N → N} (hpick : ∀ l, l ≠ [] → pick l ∈ l) (emap : N → List N)
    (S : List N) : ∀ (fuel : Nat) (pending active : List N), active.Nodup →
    (∀ x ∈ pending, x ∉ active) →
    (∀ x, x ∈ pending ∨ x ∈ active → ReachFrom emap S x) →
    (∀ x ∈ S, x ∈ pending ∨ x ∈ active) →
    (∀ a ∈ active, ∀ b ∈ emap a, b ∈ pending ∨ b ∈ active) →
    Fintype.card N ≤ fuel + active.length →
    (colorLoop pick emap fuel pending active).1 = [] ∧
    ∀ x, x ∈ (colorLoop pick emap fuel pending active).2 ↔ ReachFrom emap S x := by
  have done : ∀ active : List N, (∀ x, x ∈ active → ReachFrom emap S x) → (∀ x ∈ S, x ∈ active) →
      (∀ a ∈ active, ∀ b ∈ emap a, b ∈ active) → ∀ x, x ∈ active ↔ ReachFrom emap S x := by
    intro active h1 h2 h3 x
    refine ⟨h1 x, ?_⟩
    rintro ⟨s, hs, hr⟩
    induction hr with
    | refl => exact h2 _ hs
    | tail _ h ih => exact h3 _ ih _ h
  intro fuel
  induction fuel with
  | zero =>
    intro pending active hnd hdis hre hS hcl hcard
    have hall : ∀ x, x ∈ active := by
      intro x
      have h1 : active.toFinset.card = active.length := List.toFinset_card_of_nodup hnd
      have h2 : active.toFinset = Finset.univ := by
        apply Finset.eq_univ_of_card
        have := Finset.card_le_univ active.toFinset
        omega
      have : x ∈ active.toFinset := by rw [h2]; exact Finset.mem_univ x
      simpa using this
    have hp : pending = [] := by
      cases pending with
      | nil => rfl
      | cons p ps => exact absurd (hall p) (hdis p (by simp))
    subst hp
    unfold colorLoop
    refine ⟨rfl, done active (fun x hx => hre x (Or.inr hx)) (fun x _ => hall x) (fun _ _ b _ => hall b)⟩
  | succ fuel ih =>
    intro pending active hnd hdis hre hS hcl hcard
    unfold colorLoop
    cases hp : pending with
    | nil =>
      subst hp
      simp only [List.isEmpty_nil, if_true, true_and]
      exact done active (fun x hx => hre x (Or.inr hx))
        (fun x hx => (hS x hx).resolve_left (by simp))
        (fun a ha b hb => (hcl a ha b hb).resolve_left (by simp))
    | cons p ps =>
      rw [← hp]
      have hne : pending ≠ [] := by rw [hp]; simp
      have hpk := hpick pending hne
      have hnode : pick pending ∉ active := hdis _ hpk
      simp only [show pending.isEmpty = false by rw [hp]; rfl, Bool.false_eq_true, if_false]
      have hmem : ∀ x, x ∈ sadd active (pick pending) ↔ x ∈ active ∨ x = pick pending :=
        mem_sadd active (pick pending)
      have hpend : ∀ x, x ∈ (emap (pick pending)).foldl (fun p s => if s ∈ sadd active (pick pending) then p
            else sadd p s) (pending.filter (· ≠ pick pending)) ↔
          (x ∈ pending ∧ x ≠ pick pending) ∨
            (x ∈ emap (pick pending) ∧ x ∉ active ∧ x ≠ pick pending) := by
        intro x
        rw [mem_foldl_cond, List.mem_filter, hmem]
        simp
      apply ih
      · exact nodup_sadd hnd _
      · intro x hx
        rw [hpend] at hx
        rw [hmem]
        rintro (h | h)
        · rcases hx with ⟨h1, _⟩ | ⟨_, h1, _⟩
          · exact hdis x h1 h
          · exact h1 h
        · rcases hx with ⟨_, h1⟩ | ⟨_, _, h1⟩
          · exact h1 h
          · exact h1 h
      · intro x hx
        rw [hpend, hmem] at hx
        rcases hx with (⟨h1, _⟩ | ⟨h1, _, _⟩) | h1 | h1
        · exact hre x (Or.inl h1)
        · obtain ⟨s, hs, hr⟩ := hre _ (Or.inl hpk)
          exact ⟨s, hs, hr.tail h1⟩
        · exact hre x (Or.inr h1)
        · subst h1; exact hre _ (Or.inl hpk)
      · intro x hx
        rw [hpend, hmem]
        by_cases h : x = pick pending
        · exact Or.inr (Or.inr h)
        · rcases hS x hx with h1 | h1
          · exact Or.inl (Or.inl ⟨h1, h⟩)
          · exact Or.inr (Or.inl h1)
      · intro a ha b hb
        rw [hpend, hmem]
        by_cases hbn : b = pick pending
        · exact Or.inr (Or.inr hbn)
        · by_cases hba : b ∈ active
          · exact Or.inr (Or.inl hba)
          · rcases (hmem a).1 ha with h1 | h1
            · rcases hcl a h1 b hb with h2 | h2
              · exact Or.inl (Or.inl ⟨h2, hbn⟩)
              · exact absurd h2 hba
            · subst h1
              exact Or.inl (Or.inr ⟨hb, hba, hbn⟩)
      · have : (sadd active (pick pending)).length = active.length + 1 := by
          unfold sadd
          rw [if_neg hnode]
          simp
        omega

theorem color_done [Fintype N] {pick : List N → N} (hpick : ∀ l, l ≠ [] → pick l ∈ l) (emap : N → List N)
    (S : List N) : (colorLoop pick emap (Fintype.card N) (S.foldl sadd []) []).1 = [] ∧
    ∀ x, x ∈ (colorLoop pick emap (Fintype.card N) (S.foldl sadd []) []).2 ↔ ReachFrom emap S x := by
  apply colorLoop_spec hpick emap S
  · simp
  · simp
  · intro x hx
    simp only [mem_foldl_sadd, List.not_mem_nil, false_or, or_false] at hx
    exact ⟨x, hx, Relation.ReflTransGen.refl⟩
  · intro x hx; left; rw [mem_foldl_sadd]; exact Or.inr hx
  · simp
  · simp

/-! ## Purging -/

theorem filter_true {l : List N} {n : N} (h : n ∉ l) : l.filter (· ≠ n) = l := by
  rw [List.filter_eq_self]
  intro a ha
  simp only [ne_eq, decide_eq_true_eq]
  rintro rfl
  exact h ha

theorem purgeSucc_spec (P : List N) (n : N) : ∀ (ss : List N) (g : G N V), ss.Nodup →
    (∀ s ∈ ss, s ∉ P → n ∈ g.pred s) →
    ∃ g', purgeSucc P n ss g = .ok g' ∧ g'.seq = g.seq ∧
      (∀ b, g'.pred b = if b ∈ ss ∧ b ∉ P then (g.pred b).filter (· ≠ n) else g.pred b) ∧
      (∀ a b, Dict.get? g'.em (a, b) = if a = n ∧ b ∈ ss then none else Dict.get? g.em (a, b)) ∧
      (Dict.WF g.req → Dict.WF g'.req) := by
  intro ss
  induction ss with
  | nil => intro g _ _; exact ⟨g, rfl, rfl, by simp, by simp, id⟩
  | cons s ss ih =>
    intro g hnd hpre
    obtain ⟨hs, hnd'⟩ := List.nodup_cons.1 hnd
    have hem : ∀ a b, Dict.get? (Dict.erase g.em (n, s)) (a, b) =
        if a = n ∧ b = s then none else Dict.get? g.em (a, b) := by
      intro a b
      rw [Dict.get?_erase]
      simp only [Prod.mk.injEq]
      by_cases h : a = n ∧ b = s
      · rw [if_pos h, if_pos ⟨h.1.symm, h.2.symm⟩]
      · rw [if_neg h, if_neg (fun hh => h ⟨hh.1.symm, hh.2.symm⟩)]
    unfold purgeSucc
    by_cases hsP : s ∈ P
    · simp only [hsP, not_true_eq_false, if_false]
      obtain ⟨g', he, h1, h2, h3, h4⟩ := ih { g with em := Dict.erase g.em (n, s) } hnd' (by
        intro s' hs' hp
        exact hpre s' (List.mem_cons_of_mem _ hs') hp)
      refine ⟨g', he, h1, ?_, ?_, h4⟩
      · intro b
        rw [h2]
        have hp : G.pred { g with em := Dict.erase g.em (n, s) } b = g.pred b := rfl
        rw [hp]
        by_cases hbs : b = s
        · subst hbs; simp [hsP]
        · simp [hbs]
      · intro a b
        rw [h3]
        dsimp only
        rw [hem]
        simp only [List.mem_cons]
        by_cases ha : a = n <;> by_cases hb : b = s <;> simp [ha, hb]
    · simp only [hsP, not_false_eq_true, if_true]
      have hmem : n ∈ G.pred { g with em := Dict.erase g.em (n, s) } s := hpre s (by simp) hsP
      have hwf : Dict.WF g.req → ∀ g1, G.reqRemove { g with em := Dict.erase g.em (n, s) } s n = .ok g1 →
          Dict.WF g1.req ∧ g1.seq = g.seq := by
        intro hw g1 h1
        unfold G.reqRemove at h1
        rw [sremove_ok hmem] at h1
        cases h1
        exact ⟨Dict.WF_set hw _ _, rfl⟩
      obtain ⟨g1, he1, hp1, hs1, hem1⟩ := G.reqRemove_ok _ hmem
      have hseq1 : g1.seq = g.seq := by
        unfold G.reqRemove at he1
        rw [sremove_ok hmem] at he1
        cases he1
        rfl
      have hp0 : ∀ b, G.pred { g with em := Dict.erase g.em (n, s) } b = g.pred b := fun _ => rfl
      simp only [hp0] at hp1
      obtain ⟨g', he, h1, h2, h3, h4⟩ := ih g1 hnd' (by
        intro s' hs' hp
        have hne : s ≠ s' := fun h => hs (h ▸ hs')
        rw [hp1, if_neg hne]
        exact hpre s' (List.mem_cons_of_mem _ hs') hp)
      refine ⟨g', ?_, h1.trans hseq1, ?_, ?_, fun hw => h4 (hwf hw g1 he1).1⟩
      · simp only [bind, Except.bind, he1]
        exact he
      · intro b
        rw [h2, hp1]
        by_cases hbs : b = s
        · subst hbs; simp [hsP, hs]
        · simp [hbs, Ne.symm hbs]
      · intro a b
        rw [h3, hem1]
        dsimp only
        rw [hem]
        simp only [List.mem_cons]
        by_cases ha : a = n <;> by_cases hb : b = s <;> simp [ha, hb]

theorem purgePred_spec (P : List N) (n : N) : ∀ (rs : List N) (g : G N V), rs.Nodup →
    (∀ r ∈ rs, r ∉ P → n ∈ g.succ r) →
    ∃ g', purgePred P n rs g = .ok g' ∧ g'.req = g.req ∧ g'.em = g.em ∧
      (∀ a, g'.succ a = if a ∈ rs ∧ a ∉ P then (g.succ a).filter (· ≠ n) else g.succ a) ∧
      (∀ a, Dict.has g'.seq a = Dict.has g.seq a) ∧
      (Dict.WF g.seq → Dict.WF g'.seq) := by
  intro rs
  induction rs with
  | nil => intro g _ _; exact ⟨g, rfl, rfl, rfl, by simp, fun _ => rfl, id⟩
  | cons r rs ih =>
    intro g hnd hpre
    obtain ⟨hr, hnd'⟩ := List.nodup_cons.1 hnd
    unfold purgePred
    by_cases hrP : r ∈ P
    · simp only [hrP, not_true_eq_false, if_false]
      obtain ⟨g', he, h1, h1', h2, h3, h4⟩ := ih g hnd' (fun r' hr' => hpre r' (List.mem_cons_of_mem _ hr'))
      refine ⟨g', he, h1, h1', ?_, h3, h4⟩
      intro a
      rw [h2]
      by_cases har : a = r
      · subst har; simp [hrP]
      · simp [har]
    · simp only [hrP, not_false_eq_true, if_true]
      have hmem : n ∈ g.succ r := hpre r (by simp) hrP
      have hseq : G.seqRemove g r n = .ok { g with seq := Dict.set g.seq r ((g.succ r).filter (· ≠ n)) } := by
        unfold G.seqRemove
        rw [sremove_ok hmem]
        rfl
      obtain ⟨g1, he1, hs1, hp1, hem1⟩ := G.seqRemove_ok _ hmem
      obtain ⟨g', he, h1, h1', h2, h3, h4⟩ := ih g1 hnd' (by
        intro r' hr' hp
        have hne : r ≠ r' := fun h => hr (h ▸ hr')
        rw [hs1, if_neg hne]
        exact hpre r' (List.mem_cons_of_mem _ hr') hp)
      have hg1 : g1 = { g with seq := Dict.set g.seq r ((g.succ r).filter (· ≠ n)) } := by
        rw [hseq] at he1
        exact (Except.ok.inj he1).symm
      refine ⟨g', ?_, ?_, ?_, ?_, ?_, ?_⟩
      · simp only [bind, Except.bind, he1]
        exact he
      · rw [h1, hg1]
      · rw [h1', hg1]
      · intro a
        rw [h2, hs1]
        by_cases har : a = r
        · subst har; simp [hrP, hr]
        · simp [har, Ne.symm har]
      · intro a
        rw [h3, hg1]
        unfold Dict.has
        dsimp only
        rw [Dict.get?_set]
        split
        · rename_i h
          subst h
          have : Dict.get? g.seq r ≠ none := by
            intro hc
            unfold G.succ at hmem
            rw [hc] at hmem
            simp at hmem
          cases hg : Dict.get? g.seq r with
          | none => exact absurd hg this
          | some v => rfl
        · rfl
      · intro hw
        apply h4
        rw [hg1]
        exact Dict.WF_set hw _ _

/-- State of the purge after the nodes of `D` are done. -/
structure PurgeState (P D : List N) (g0 g : G N V) : Prop where
  sub : ∀ n ∈ D, n ∈ P
  succ_eq : ∀ a, g.succ a = if a ∈ D then [] else if a ∈ P then g0.succ a else (g0.succ a).filter (· ∉ D)
  pred_eq : ∀ b, g.pred b = if b ∈ D then [] else if b ∈ P then g0.pred b else (g0.pred b).filter (· ∉ D)
  em_eq : ∀ a b, Dict.get? g.em (a, b) = if a ∈ D ∧ b ∈ g0.succ a then none else Dict.get? g0.em (a, b)
  has_eq : ∀ a, Dict.has g.seq a = (Dict.has g0.seq a && decide (a ∉ D))
  wf : Dict.WF g.seq ∧ Dict.WF g.req

theorem filter_not_mem_cons (l D : List N) (n : N) :
    (l.filter (· ∉ D)).filter (· ≠ n) = l.filter (· ∉ n :: D) := by
  rw [List.filter_filter]
  apply List.filter_congr
  intro x _
  simp only [List.mem_cons, not_or, ne_eq, Bool.decide_and]

theorem purgeSubgraph_spec {g0 : G N V} (mirror : ∀ a b, b ∈ g0.succ a ↔ a ∈ g0.pred b)
    (nds : ∀ a, (g0.succ a).Nodup) (ndp : ∀ a, (g0.pred a).Nodup) (P : List N) :
    ∀ (ns D : List N) (g : G N V), PurgeState P D g0 g → ns.Nodup → (∀ n ∈ ns, n ∈ P ∧ n ∉ D) →
    ∃ g', purgeSubgraph P ns g = .ok g' ∧ PurgeState P (ns.reverse ++ D) g0 g' := by
  intro ns
  induction ns with
  | nil => intro D g h _ _; exact ⟨g, rfl, by simpa using h⟩
  | cons n ns ih =>
    intro D g h hnd hns
    obtain ⟨hn, hnd'⟩ := List.nodup_cons.1 hnd
    obtain ⟨hnP, hnD⟩ := hns n (by simp)
    have hsn : g.succ n = g0.succ n := by rw [h.succ_eq, if_neg hnD, if_pos hnP]
    have hpn : g.pred n = g0.pred n := by rw [h.pred_eq, if_neg hnD, if_pos hnP]
    obtain ⟨g1, he1, hseq1, hpred1, hem1, hwf1⟩ := purgeSucc_spec P n (g.succ n) g (by rw [hsn]; exact nds n) (by
      intro s hs hsP
      rw [hsn] at hs
      have hsD : s ∉ D := fun h' => hsP (h.sub s h')
      rw [h.pred_eq, if_neg hsD, if_neg hsP, List.mem_filter]
      exact ⟨(mirror n s).1 hs, by simpa using hnD⟩)
    have hsucc1 : ∀ a, g1.succ a = g.succ a := fun a => by unfold G.succ; rw [hseq1]
    have hpn1 : (g1.delSeq n).pred n = g0.pred n := by
      rw [G.pred_delSeq, hpred1, if_neg (fun hh => hh.2 hnP), hpn]
    obtain ⟨g2, he2, hreq2, hem2, hsucc2, hhas2, hwf2⟩ := purgePred_spec P n ((g1.delSeq n).pred n) (g1.delSeq n)
      (by rw [hpn1]; exact ndp n) (by
      intro r hr hrP
      rw [hpn1] at hr
      have hrn : n ≠ r := fun hh => hrP (hh ▸ hnP)
      have hrD : r ∉ D := fun h' => hrP (h.sub r h')
      rw [G.succ_delSeq, if_neg hrn, hsucc1, h.succ_eq, if_neg hrD, if_neg hrP, List.mem_filter]
      exact ⟨(mirror r n).2 hr, by simpa using hnD⟩)
    have hpred2 : ∀ a, g2.pred a = g1.pred a := fun a => by unfold G.pred; rw [hreq2]; rfl
    rw [hpn1] at hsucc2
    rw [hsn] at hpred1 hem1
    have hst : PurgeState P (n :: D) g0 (g2.delReq n) := by
      refine ⟨?_, ?_, ?_, ?_, ?_, ?_⟩
      · intro m hm
        rcases List.mem_cons.1 hm with rfl | hm
        · exact hnP
        · exact h.sub m hm
      · intro a
        rw [G.succ_delReq, hsucc2, G.succ_delSeq, hsucc1]
        by_cases han : n = a
        · subst han; simp [hnP]
        · have han' : a ≠ n := Ne.symm han
          rw [if_neg han, h.succ_eq]
          by_cases haD : a ∈ D
          · simp [haD]
          · by_cases haP : a ∈ P
            · simp [haP, haD, han']
            · have hc : a ∉ n :: D := by simp [haD, han']
              simp only [haP, haD, hc, if_false, not_false_eq_true, and_true]
              rw [← filter_not_mem_cons]
              split
              · rfl
              · rename_i hna
                rw [filter_true]
                rw [List.mem_filter]
                rintro ⟨h1, _⟩
                exact hna ((mirror a n).1 h1)
      · intro b
        rw [G.pred_delReq, hpred2, hpred1]
        by_cases hbn : n = b
        · subst hbn; simp
        · have hbn' : b ≠ n := Ne.symm hbn
          rw [if_neg hbn, h.pred_eq]
          by_cases hbD : b ∈ D
          · simp [hbD]
          · by_cases hbP : b ∈ P
            · simp [hbP, hbD, hbn']
            · have hc : b ∉ n :: D := by simp [hbD, hbn']
              simp only [hbP, hbD, hc, if_false, not_false_eq_true, and_true]
              rw [← filter_not_mem_cons]
              split
              · rfl
              · rename_i hna
                rw [filter_true]
                rw [List.mem_filter]
                rintro ⟨h1, _⟩
                exact hna ((mirror n b).2 h1)
      · intro a b
        rw [G.em_delReq, hem2, G.em_delSeq, hem1, h.em_eq]
        by_cases han : a = n
        · subst han; simp [hnD]
        · simp [han]
      · intro a
        have e1 : Dict.has (g2.delReq n).seq a = Dict.has (g1.delSeq n).seq a := hhas2 a
        have e2 : Dict.has (g1.delSeq n).seq a = (Dict.has g.seq a && decide (a ≠ n)) := by
          unfold G.delSeq Dict.has
          dsimp only
          rw [Dict.get?_erase, hseq1]
          by_cases han : n = a
          · subst han; simp
          · simp [han, Ne.symm han]
        rw [e1, e2, h.has_eq]
        by_cases ha : a = n
        · simp [ha]
        · simp [ha]
      · constructor
        · exact hwf2 (Dict.WF_erase (hseq1 ▸ h.wf.1) _)
        · apply Dict.WF_erase
          rw [hreq2]
          exact hwf1 h.wf.2
    obtain ⟨g', he', hst'⟩ := ih (n :: D) (g2.delReq n) hst hnd' (by
      intro m hm
      obtain ⟨h1, h2⟩ := hns m (List.mem_cons_of_mem _ hm)
      refine ⟨h1, ?_⟩
      rw [List.mem_cons, not_or]
      exact ⟨fun hh => hn (hh ▸ hm), h2⟩)
    refine ⟨g', ?_, by simpa using hst'⟩
    unfold purgeSubgraph
    simp only [bind, Except.bind, he1, he2]
    exact he'

/-- What purging the nodes `P` leaves. -/
structure Purged (P : List N) (g0 g : G N V) : Prop where
  succ_eq : ∀ a, g.succ a = if a ∈ P then [] else (g0.succ a).filter (· ∉ P)
  pred_eq : ∀ b, g.pred b = if b ∈ P then [] else (g0.pred b).filter (· ∉ P)
  em_eq : ∀ a b, Dict.get? g.em (a, b) = if a ∈ P ∧ b ∈ g0.succ a then none else Dict.get? g0.em (a, b)
  has_eq : ∀ a, Dict.has g.seq a = (Dict.has g0.seq a && decide (a ∉ P))
  wf : Dict.WF g.seq ∧ Dict.WF g.req

theorem purge_spec {g0 : G N V} (mirror : ∀ a b, b ∈ g0.succ a ↔ a ∈ g0.pred b)
    (nds : ∀ a, (g0.succ a).Nodup) (ndp : ∀ a, (g0.pred a).Nodup) (hs : Dict.WF g0.seq) (hr : Dict.WF g0.req)
    {P : List N} (hP : P.Nodup) : ∃ g', purgeSubgraph P P g0 = .ok g' ∧ Purged P g0 g' := by
  have h0 : PurgeState P [] g0 g0 := by
    refine ⟨by simp, ?_, ?_, by simp, by simp, hs, hr⟩
    · intro a; simp
    · intro a; simp
  obtain ⟨g', he, h⟩ := purgeSubgraph_spec mirror nds ndp P P [] g0 h0 hP (by simp)
  refine ⟨g', he, ⟨?_, ?_, ?_, ?_, h.wf⟩⟩
  · intro a
    rw [h.succ_eq]
    by_cases ha : a ∈ P <;> simp [ha]
  · intro a
    rw [h.pred_eq]
    by_cases ha : a ∈ P <;> simp [ha]
  · intro a b; rw [h.em_eq]; simp
  · intro a; rw [h.has_eq]; simp

theorem touch_get (d : Dict N (List N)) (n c : N) : (Dict.get? (touch d n) c).getD [] = (Dict.get? d c).getD [] := by
  unfold touch
  split
  · rfl
  · rename_i h
    rw [Dict.get?_set]
    split
    · rename_i e
      subst e
      cases hg : Dict.get? d n with
      | none => rfl
      | some v => exact absurd (by unfold Dict.has; rw [hg]; rfl) h
    · rfl

theorem touch_wf {d : Dict N (List N)} (h : Dict.WF d) (n : N) : Dict.WF (touch d n) := by
  unfold touch
  split
  · exact h
  · exact Dict.WF_set h _ _

theorem touch_has (d : Dict N (List N)) (n c : N) : Dict.has (touch d n) c = (Dict.has d c || decide (c = n)) := by
  unfold touch
  by_cases h : Dict.has d n = true
  · rw [if_pos h]
    by_cases hc : c = n
    · subst hc; simp [h]
    · simp [hc]
  · rw [if_neg h]
    unfold Dict.has
    rw [Dict.get?_set]
    by_cases hc : n = c
    · subst hc; simp
    · simp [hc, Ne.symm hc]

theorem touch_foldl (l : List N) : ∀ (d : Dict N (List N)),
    (∀ c, (Dict.get? (l.foldl touch d) c).getD [] = (Dict.get? d c).getD []) ∧
    (Dict.WF d → Dict.WF (l.foldl touch d)) ∧
    (∀ c, Dict.has (l.foldl touch d) c = (Dict.has d c || decide (c ∈ l))) := by
  induction l with
  | nil => intro d; exact ⟨fun _ => rfl, id, by simp⟩
  | cons n l ih =>
    intro d
    obtain ⟨h1, h2, h3⟩ := ih (touch d n)
    refine ⟨fun c => ?_, fun h => h2 (touch_wf h n), fun c => ?_⟩
    · rw [List.foldl_cons, h1, touch_get]
    · rw [List.foldl_cons, h3, touch_has]
      simp only [List.mem_cons, Bool.or_assoc, Bool.decide_or]

/-- `color_purge` succeeds on a mirrored graph and purges the listed nodes that the start set does not
reach. -/
theorem color_purge_spec [Fintype N] {pick : List N → N} (hpick : ∀ l, l ≠ [] → pick l ∈ l) (forward : Bool)
    (S : List N) {g0 : G N V} (mirror : ∀ a b, b ∈ g0.succ a ↔ a ∈ g0.pred b)
    (nds : ∀ a, (g0.succ a).Nodup) (ndp : ∀ a, (g0.pred a).Nodup) (hs : Dict.WF g0.seq) (hr : Dict.WF g0.req) :
    ∃ (g' : G N V) (P : List N), color_purge pick forward S g0 = .ok g' ∧
      (∀ n, n ∈ P ↔ Dict.has g0.seq n = true ∧ ¬ ReachFrom (if forward then g0.succ else g0.pred) S n) ∧
      (∀ a, g'.succ a = if a ∈ P then [] else (g0.succ a).filter (· ∉ P)) ∧
      (∀ b, g'.pred b = if b ∈ P then [] else (g0.pred b).filter (· ∉ P)) ∧
      (∀ a b, Dict.get? g'.em (a, b) = if a ∈ P ∧ b ∈ g0.succ a then none else Dict.get? g0.em (a, b)) ∧
      (∀ a, Dict.has g'.seq a = true ↔ (Dict.has g0.seq a = true ∧ a ∉ P) ∨
        (forward = true ∧ ReachFrom g0.succ S a)) ∧
      Dict.WF g'.seq ∧ Dict.WF g'.req := by
  obtain ⟨_, hcol⟩ := color_done hpick (if forward then g0.succ else g0.pred) S
  unfold color_purge
  dsimp only
  generalize hr' : (colorLoop pick (if forward then g0.succ else g0.pred) (Fintype.card N) (S.foldl sadd []) []).2 = act
  rw [hr'] at hcol
  obtain ⟨t1, t2, t3⟩ := touch_foldl act g0.seq
  generalize hg1 : (if forward = true then ({ g0 with seq := act.foldl touch g0.seq } : G N V) else g0) = g1
  have hsucc1 : ∀ a, g1.succ a = g0.succ a := by
    intro a; subst hg1; split
    · exact t1 a
    · rfl
  have hpred1 : ∀ a, g1.pred a = g0.pred a := by
    intro a; subst hg1; split <;> rfl
  have hem1 : g1.em = g0.em := by subst hg1; split <;> rfl
  have hws : Dict.WF g1.seq := by subst hg1; split
                                  · exact t2 hs
                                  · exact hs
  have hwr : Dict.WF g1.req := by subst hg1; split <;> exact hr
  have hhas1 : ∀ a, Dict.has g1.seq a = true ↔ Dict.has g0.seq a = true ∨ (forward = true ∧ a ∈ act) := by
    intro a; subst hg1; split
    · rename_i hf; dsimp only; rw [t3]; simp [hf]
    · rename_i hf; simp [hf]
  have hP : ((Dict.keys g1.seq).filter (fun n => n ∉ act)).Nodup := List.Nodup.filter _ hws
  have hPm : ∀ n, n ∈ (Dict.keys g1.seq).filter (fun n => n ∉ act) ↔ Dict.has g0.seq n = true ∧ n ∉ act := by
    intro n
    rw [List.mem_filter, ← Dict.has_iff, hhas1]
    simp only [decide_eq_true_eq]
    tauto
  obtain ⟨g', he, h⟩ := purge_spec (g0 := g1) (by intro a b; rw [hsucc1, hpred1]; exact mirror a b)
    (fun a => by rw [hsucc1]; exact nds a) (fun a => by rw [hpred1]; exact ndp a) hws hwr hP
  refine ⟨g', (Dict.keys g1.seq).filter (fun n => n ∉ act), he, ?_, ?_, ?_, ?_, ?_, h.wf⟩
  · intro n; rw [hPm, hcol]
  · intro a; rw [h.succ_eq, hsucc1]
  · intro a; rw [h.pred_eq, hpred1]
  · intro a b; rw [h.em_eq, hsucc1, hem1]
  · intro a
    rw [h.has_eq, Bool.and_eq_true, hhas1, decide_eq_true_eq, hPm]
    have : forward = true → (a ∈ act ↔ ReachFrom g0.succ S a) := by
      intro hf; rw [hcol, hf]; rfl
    constructor
    · rintro ⟨h1 | ⟨h1, h2⟩, h3⟩
      · exact Or.inl ⟨h1, h3⟩
      · exact Or.inr ⟨h1, (this h1).1 h2⟩
    · rintro (⟨h1, h3⟩ | ⟨h1, h2⟩)
      · exact ⟨Or.inl h1, h3⟩
      · exact ⟨Or.inr ⟨h1, (this h1).2 h2⟩, fun hh => hh.2 ((this h1).2 h2)⟩

end Graph
