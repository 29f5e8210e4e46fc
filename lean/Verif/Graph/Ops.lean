import Verif.Graph.Prepare

set_option linter.unusedSectionVars false

namespace Graph
open Py
variable {N : Type} {V : Type} [DecidableEq N] [Field V] [DecidableEq V]

/-- Well formed dictionaries. -/
def WFG (g : G N V) : Prop := Dict.WF g.seq ∧ Dict.WF g.req

theorem WFG_seqRemove {g g' : G N V} {a b : N} (h : WFG g) (e : g.seqRemove a b = .ok g') : WFG g' := by
  unfold G.seqRemove at e
  cases hs : sremove (g.succ a) b with
  | error x => rw [hs] at e; cases e
  | ok s => rw [hs] at e; cases e; exact ⟨Dict.WF_set h.1 _ _, h.2⟩

theorem WFG_reqRemove {g g' : G N V} {a b : N} (h : WFG g) (e : g.reqRemove a b = .ok g') : WFG g' := by
  unfold G.reqRemove at e
  cases hs : sremove (g.pred a) b with
  | error x => rw [hs] at e; cases e
  | ok s => rw [hs] at e; cases e; exact ⟨h.1, Dict.WF_set h.2 _ _⟩

theorem WFG_delEdge {g g' : G N V} {a b : N} (h : WFG g) (e : g.delEdge a b = .ok g') : WFG g' := by
  unfold G.delEdge at e
  cases hs : Dict.del g.em (a, b) with
  | error x => rw [hs] at e; cases e
  | ok s => rw [hs] at e; cases e; exact h

theorem WFG_addEdge {st : St N V} (h : WFG st.g) (r s : N) (p : V) : WFG (addEdge st r s p).g := by
  unfold addEdge
  split
  · exact h
  · exact ⟨Dict.WF_set h.1 _ _, Dict.WF_set h.2 _ _⟩

theorem WFG_elimInner (n : N) (CLG : Option V) (s : N) (sedge : V) : ∀ (R : List N) (st st' : St N V), WFG st.g →
    elimInner n CLG s sedge R st = .ok st' → WFG st'.g := by
  intro R
  induction R with
  | nil => intro st st' h e; cases e; exact h
  | cons r R ih =>
    intro st st' h e
    unfold elimInner at e
    cases he : st.g.edge r n with
    | error x => rw [he] at e; cases e
    | ok v => rw [he] at e; exact ih _ _ (WFG_addEdge h _ _ _) e

theorem WFG_elimOuter (n : N) (CLG : Option V) (R : List N) : ∀ (S : List N) (st st' : St N V), WFG st.g →
    elimOuter n CLG R S st = .ok st' → WFG st'.g := by
  intro S
  induction S with
  | nil => intro st st' h e; cases e; exact h
  | cons s S ih =>
    intro st st' h e
    unfold elimOuter at e
    simp only [bind, Except.bind] at e
    cases he : st.g.edge n s with
    | error x => rw [he] at e; cases e
    | ok v =>
      rw [he] at e
      dsimp only at e
      cases h1 : elimInner n CLG s v R st with
      | error x => rw [h1] at e; cases e
      | ok st1 =>
        rw [h1] at e
        dsimp only at e
        cases h2 : st1.g.reqRemove s n with
        | error x => rw [h2] at e; cases e
        | ok g2 =>
          rw [h2] at e
          dsimp only at e
          cases h3 : g2.delEdge n s with
          | error x => rw [h3] at e; cases e
          | ok g3 =>
            rw [h3] at e
            exact ih _ _ (WFG_delEdge (WFG_reqRemove (WFG_elimInner n CLG s v R st st1 h h1) h2) h3) e

theorem WFG_elimPreds (n : N) : ∀ (R : List N) (g g' : G N V), WFG g → elimPreds n R g = .ok g' → WFG g' := by
  intro R
  induction R with
  | nil => intro g g' h e; cases e; exact h
  | cons r R ih =>
    intro g g' h e
    unfold elimPreds at e
    simp only [bind, Except.bind] at e
    cases h1 : g.delEdge r n with
    | error x => rw [h1] at e; cases e
    | ok g1 =>
      rw [h1] at e
      dsimp only at e
      cases h2 : g1.seqRemove r n with
      | error x => rw [h2] at e; cases e
      | ok g2 =>
        rw [h2] at e
        exact ih _ _ (WFG_seqRemove (WFG_delEdge h h1) h2) e

theorem WFG_elimSelf (n : N) {g : G N V} (h : WFG g) {c : Option V} {g' : G N V}
    (e : elimSelf n g = .ok (c, g')) : WFG g' := by
  unfold elimSelf at e
  split at e
  · simp only [bind, Except.bind] at e
    cases h1 : g.edge n n with
    | error x => rw [h1] at e; cases e
    | ok v =>
      rw [h1] at e
      dsimp only at e
      split at e
      · cases e
      · cases h2 : g.seqRemove n n with
        | error x => rw [h2] at e; cases e
        | ok g1 =>
          rw [h2] at e
          dsimp only at e
          cases h3 : g1.reqRemove n n with
          | error x => rw [h3] at e; cases e
          | ok g2 =>
            rw [h3] at e
            cases e
            exact WFG_reqRemove (WFG_seqRemove h h2) h3
  · cases e; exact h

theorem WFG_elim {st st' : St N V} {n : N} (h : WFG st.g) (e : elim st n = .ok st') : WFG st'.g := by
  unfold elim at e
  simp only [bind, Except.bind] at e
  cases h1 : elimSelf n st.g with
  | error x => rw [h1] at e; cases e
  | ok cg =>
    obtain ⟨c, g1⟩ := cg
    rw [h1] at e
    dsimp only at e
    cases h2 : elimOuter n c (g1.pred n) (g1.succ n) { st with g := g1 } with
    | error x => rw [h2] at e; cases e
    | ok st2 =>
      rw [h2] at e
      dsimp only at e
      cases h3 : elimPreds n (st2.g.pred n) st2.g with
      | error x => rw [h3] at e; cases e
      | ok g3 =>
        rw [h3] at e
        cases e
        have hw := WFG_elimPreds n _ _ _ (WFG_elimOuter n c _ _ _ _ (WFG_elimSelf n h h1) h2) h3
        exact ⟨Dict.WF_erase hw.1 _, Dict.WF_erase hw.2 _⟩

theorem inv_pre_purge {A : N → Prop} {g : G N V} (h : Inv A g) : Inv A (pre_purge g) := by
  have hs : ∀ a, (pre_purge g).succ a = g.succ a := by
    intro a
    rw [succ_pre_purge, List.filter_eq_self]
    exact fun b hb => h.bal.valued a b hb
  have hp : ∀ b, (pre_purge g).pred b = g.pred b := by
    intro b
    rw [pred_pre_purge, List.filter_eq_self]
    exact fun a ha => h.bal.valued a b ((h.bal.mirror a b).2 ha)
  have he : (pre_purge g).em = g.em := rfl
  refine ⟨⟨?_, ?_, ?_, ?_⟩, ?_, ?_⟩
  · intro a b; rw [hs, hp]; exact h.bal.mirror a b
  · intro a b; rw [hs, he]; exact h.bal.valued a b
  · intro a; rw [hs]; exact h.bal.nodup_succ a
  · intro a; rw [hp]; exact h.bal.nodup_pred a
  · intro a b; rw [hs, he]; exact h.used a b
  · intro a b; rw [hs]; exact h.alive a b

theorem WFG_pre_purge {g : G N V} (h : WFG g) : WFG (pre_purge g) := by
  constructor
  · show (Dict.keys _).Nodup
    unfold pre_purge
    dsimp only
    rw [keys_mapk g.seq (fun k v => v.filter (fun s => Dict.has g.em (k, s)))]
    exact h.1
  · show (Dict.keys _).Nodup
    unfold pre_purge
    dsimp only
    rw [keys_mapk g.req (fun k v => v.filter (fun r => Dict.has g.em (r, k)))]
    exact h.2

theorem elim_dead {A : N → Prop} {n : N} {st : St N V} (hI : Inv A st.g) (hn : ¬ A n) :
    ∃ st', elim st n = .ok st' ∧ Inv A st'.g := by
  have hs : st.g.succ n = [] := by
    by_contra h
    obtain ⟨c, hc⟩ := List.exists_mem_of_ne_nil _ h
    exact hn (hI.alive n c hc).1
  have hp : st.g.pred n = [] := by
    by_contra h
    obtain ⟨c, hc⟩ := List.exists_mem_of_ne_nil _ h
    exact hn (hI.alive c n ((hI.bal.mirror c n).2 hc)).2
  refine ⟨{ st with g := (st.g.delSeq n).delReq n }, ?_, ?_⟩
  · have h1 : elimSelf n st.g = .ok (none, st.g) := by
      unfold elimSelf
      rw [hs]
      rfl
    unfold elim
    simp only [h1, bind, Except.bind, hs, hp]
    unfold elimOuter
    dsimp only
    rw [hp]
    rfl
  · have e1 : ∀ a, ((st.g.delSeq n).delReq n).succ a = st.g.succ a := by
      intro a
      simp only [G.succ_delReq, G.succ_delSeq]
      split
      · rename_i h; rw [← h, hs]
      · rfl
    have e2 : ∀ a, ((st.g.delSeq n).delReq n).pred a = st.g.pred a := by
      intro a
      simp only [G.pred_delReq, G.pred_delSeq]
      split
      · rename_i h; rw [← h, hp]
      · rfl
    refine ⟨⟨?_, ?_, ?_, ?_⟩, ?_, ?_⟩
    · intro a b; dsimp only; rw [e1, e2]; exact hI.bal.mirror a b
    · intro a b; dsimp only; rw [e1]; exact hI.bal.valued a b
    · intro a; dsimp only; rw [e1]; exact hI.bal.nodup_succ a
    · intro a; dsimp only; rw [e2]; exact hI.bal.nodup_pred a
    · intro a b; dsimp only; rw [e1]; exact hI.used a b
    · intro a b; dsimp only; rw [e1]; exact hI.alive a b

/-- Every sequence of operations keeps the invariant and can only stop on a division by zero. -/
theorem runOps_spec [Fintype N] {pick : List N → N} (hpick : ∀ l, l ≠ [] → pick l ∈ l) : ∀ (ops : List (Op N))
    (g : G N V) (A : N → Prop), Inv A g → WFG g →
    runOps pick ops g = .error .zeroDivision ∨ ∃ g' A', runOps pick ops g = .ok g' ∧ Inv A' g' ∧ WFG g' := by
  intro ops
  induction ops with
  | nil => intro g A hI hw; exact Or.inr ⟨g, A, rfl, hI, hw⟩
  | cons op ops ih =>
    intro g A hI hw
    unfold runOps
    cases op with
    | prePurge => exact ih _ A (inv_pre_purge hI) (WFG_pre_purge hw)
    | purge f s =>
      obtain ⟨g', P, he, _, hI', ws, wr, _⟩ := purge_inv hpick f s hI hw.1 hw.2
      unfold Op.apply
      simp only [he, bind, Except.bind]
      exact ih _ _ hI' ⟨ws, wr⟩
    | reduce n =>
      simp only [Op.apply]
      by_cases hn : A n
      · rcases elim_spec (n := n) (st := ⟨g, []⟩) hI hn with ⟨_, he⟩ | ⟨_, st', he, hI', _⟩
        · left; rw [he]; rfl
        · rw [he]
          exact ih _ _ hI' (WFG_elim (st := ⟨g, []⟩) hw he)
      · obtain ⟨st', he, hI'⟩ := elim_dead (st := ⟨g, []⟩) hI hn
        rw [he]
        exact ih _ _ hI' (WFG_elim (st := ⟨g, []⟩) hw he)

end Graph
