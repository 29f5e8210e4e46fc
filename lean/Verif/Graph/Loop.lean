import Verif.Graph.Algebra
import Verif.Queue.Lemmas

set_option linter.unusedSectionVars false

namespace Graph
open Py
variable {N : Type} {V : Type} [DecidableEq N] [Field V] [DecidableEq V]

theorem mapM_ok {α β : Type} (f : α → Except Err β) : ∀ (l : List α), (∀ x ∈ l, ∃ y, f x = .ok y) →
    ∃ ys, l.mapM f = .ok ys := by
  intro l
  induction l with
  | nil => intro _; exact ⟨[], rfl⟩
  | cons x l ih =>
    intro h
    obtain ⟨y, hy⟩ := h x (by simp)
    obtain ⟨ys, hys⟩ := ih (fun z hz => h z (List.mem_cons_of_mem _ hz))
    refine ⟨y :: ys, ?_⟩
    rw [List.mapM_cons, hy, hys]
    rfl

theorem node_cost_ok (size : V → Nat) {g : G N V} (hB : Balanced g) (n : N) : ∃ c, node_cost size g n = .ok c := by
  unfold node_cost
  obtain ⟨s, hs⟩ := mapM_ok (fun e => g.edge n e) (g.succ n) (by
    intro e he
    obtain ⟨v, hv⟩ := Option.isSome_iff_exists.1 (hB.valued n e he)
    exact ⟨v, G.edge_ok _ hv⟩)
  obtain ⟨r, hr⟩ := mapM_ok (fun e => g.edge e n) (g.pred n) (by
    intro e he
    obtain ⟨v, hv⟩ := Option.isSome_iff_exists.1 (hB.valued e n ((hB.mirror e n).2 he))
    exact ⟨v, G.edge_ok _ hv⟩)
  simp only [hs, hr, bind, Except.bind]
  exact ⟨_, rfl⟩

/-- Refreshing costs keeps the queued nodes, and stops at a node whose cost is up to date. -/
theorem refresh_spec (lt : Nat × N → Nat × N → Bool) (size : V → Nat) {g : G N V} (hB : Balanced g) :
    ∀ (fuel : Nat) (invalid : List N) (q : List (Nat × N)) (cn : Nat × N), invalid.length ≤ fuel →
    ∃ inv' q' cn', refresh lt size g fuel invalid q cn = .ok (inv', q', cn') ∧
      ((cn' :: q').map Prod.snd).Perm ((cn :: q).map Prod.snd) ∧ cn'.2 ∉ inv' := by
  intro fuel
  induction fuel with
  | zero =>
    intro invalid q cn h
    refine ⟨invalid, q, cn, rfl, List.Perm.refl _, ?_⟩
    have : invalid = [] := List.eq_nil_of_length_eq_zero (Nat.le_zero.1 h)
    simp [this]
  | succ fuel ih =>
    intro invalid q cn h
    unfold refresh
    by_cases hc : cn.2 ∈ invalid
    · rw [if_pos hc]
      obtain ⟨c, hcost⟩ := node_cost_ok size hB cn.2
      rw [hcost]
      have hlen : (invalid.filter (· ≠ cn.2)).length ≤ fuel := by
        have : (invalid.filter (· ≠ cn.2)).length < invalid.length := by
          rw [List.length_filter_lt_length_iff_exists]
          exact ⟨cn.2, hc, by simp⟩
        omega
      obtain ⟨inv', q', cn', he, hp, hn⟩ := ih (invalid.filter (· ≠ cn.2))
        (Queue.heappushpop lt q (c, cn.2)).2 (Queue.heappushpop lt q (c, cn.2)).1 hlen
      refine ⟨inv', q', cn', he, hp.trans ?_, hn⟩
      have := (Queue.heappushpop_perm lt q (c, cn.2)).map Prod.snd
      simpa using this
    · rw [if_neg hc]
      exact ⟨invalid, q, cn, rfl, List.Perm.refl _, hc⟩

/-- What a run of reductions of the nodes `L` does to a graph. -/
structure Reduced (A : N → Prop) (g : G N V) (L : List N) (g' : G N V) : Prop where
  pivots : Pivots (W g) L
  inv : Inv (fun a => A a ∧ a ∉ L) g'
  gains : ∀ a b, W g' a b = elimAll (W g) L a b
  adj : ∀ a b, b ∈ g'.succ a ↔ a ∉ L ∧ b ∉ L ∧ Via (fun a b => b ∈ g.succ a) (· ∈ L) a b
  em_new : ∀ a b, (Dict.get? g'.em (a, b)).isSome → (Dict.get? g.em (a, b)).isSome ∨ (A a ∧ A b)

theorem Reduced.nil {A : N → Prop} {g : G N V} (hI : Inv A g) : Reduced A g [] g := by
  refine ⟨trivial, ?_, fun _ _ => rfl, ?_, fun _ _ => Or.inl⟩
  · simpa using hI
  · intro a b
    simp only [List.not_mem_nil, not_false_eq_true, true_and]
    constructor
    · exact fun h => .edge h
    · intro h
      cases h with
      | edge h => exact h
      | step _ h _ => exact absurd h (by simp)

theorem Reduced.cons {A : N → Prop} {n : N} {st st1 : St N V} {L : List N} {g' : G N V}
    (h0 : 1 - W st.g n n ≠ 0)
    (hW : ∀ a b, W st1.g a b = elimW (W st.g) n a b)
    (hadj : ∀ a b, b ∈ st1.g.succ a ↔ a ≠ n ∧ b ≠ n ∧ (b ∈ st.g.succ a ∨ (n ∈ st.g.succ a ∧ b ∈ st.g.succ n)))
    (hem : ∀ a b, (Dict.get? st1.g.em (a, b)).isSome → (Dict.get? st.g.em (a, b)).isSome ∨ (A a ∧ A b))
    (hnL : n ∉ L)
    (hR : Reduced (fun a => A a ∧ a ≠ n) st1.g L g') : Reduced A st.g (n :: L) g' := by
  have hWf : W st1.g = elimW (W st.g) n := by funext a b; exact hW a b
  have hadjf : (fun a b => b ∈ st1.g.succ a) = elimE (fun a b => b ∈ st.g.succ a) n := by
    funext a b; exact propext (hadj a b)
  refine ⟨⟨h0, hWf ▸ hR.pivots⟩, ?_, ?_, ?_, ?_⟩
  · have := hR.inv
    have e : (fun a => A a ∧ a ∉ n :: L) = (fun a => (A a ∧ a ≠ n) ∧ a ∉ L) := by
      funext a
      simp only [List.mem_cons, not_or, and_assoc, ne_eq]
    rw [e]; exact this
  · intro a b
    rw [hR.gains, hWf]; rfl
  · intro a b
    rw [hR.adj, hadjf]
    have hQ : (fun m => m = n ∨ (m ≠ n ∧ m ∈ L)) = (· ∈ n :: L) := by
      funext m
      simp only [List.mem_cons, eq_iff_iff, ne_eq]
      constructor
      · rintro (h | ⟨_, h⟩)
        · exact Or.inl h
        · exact Or.inr h
      · rintro (h | h)
        · exact Or.inl h
        · exact Or.inr ⟨fun e => hnL (e ▸ h), h⟩
    by_cases ha : a = n
    · subst ha
      simp only [List.mem_cons, true_or, not_true_eq_false, false_and, iff_false]
      rintro ⟨_, _, h⟩
      obtain ⟨⟨c, hc⟩, _⟩ := via_reach h
      exact hc.1 rfl
    · by_cases hb : b = n
      · subst hb
        simp only [List.mem_cons, true_or, not_true_eq_false, false_and, and_false, iff_false]
        rintro ⟨_, _, h⟩
        obtain ⟨_, ⟨c, hc⟩⟩ := via_reach h
        exact hc.2.1 rfl
      · rw [via_elim ha hb, hQ]
        simp [ha, hb]
  · intro a b h
    rcases hR.em_new a b h with h | h
    · exact hem a b h
    · exact Or.inr ⟨h.1.1, h.2.1⟩

/-- The main loop either divides by zero or reduces all queued nodes in some order. -/
theorem mainLoop_spec (lt : Nat × N → Nat × N → Bool) (size : V → Nat) :
    ∀ (fuel : Nat) (A : N → Prop) (q : List (Nat × N)) (st : St N V), q.length = fuel → Inv A st.g →
    (q.map Prod.snd).Nodup → (∀ n ∈ q.map Prod.snd, A n) →
    mainLoop lt size fuel q st = .error .zeroDivision ∨
    ∃ st' L, mainLoop lt size fuel q st = .ok st' ∧ L.Perm (q.map Prod.snd) ∧ Reduced A st.g L st'.g := by
  intro fuel
  induction fuel with
  | zero =>
    intro A q st hq hI _ _
    have : q = [] := List.eq_nil_of_length_eq_zero hq
    subst this
    exact Or.inr ⟨st, [], rfl, by simp, Reduced.nil hI⟩
  | succ fuel ih =>
    intro A q st hq hI hnd hA
    unfold mainLoop
    cases hpop : Queue.heappop lt q with
    | none =>
      have := (Queue.heappop_none lt).1 hpop
      subst this
      simp at hq
    | some r =>
      obtain ⟨cn, q1⟩ := r
      have hperm1 := Queue.heappop_perm lt hpop
      dsimp only
      obtain ⟨inv', q2, cn2, hre, hperm2, _⟩ := refresh_spec lt size hI.bal st.invalid.length st.invalid q1 cn
        (Nat.le_refl _)
      have hperm : ((cn2 :: q2).map Prod.snd).Perm (q.map Prod.snd) :=
        hperm2.trans (hperm1.map Prod.snd)
      have hnd2 : (cn2.2 :: q2.map Prod.snd).Nodup := by
        have := hperm.symm.nodup hnd
        simpa using this
      obtain ⟨hn2, hnd3⟩ := List.nodup_cons.1 hnd2
      have hAll : ∀ n ∈ (cn2 :: q2).map Prod.snd, A n := fun n hn => hA n (hperm.mem_iff.1 hn)
      have hAn : A cn2.2 := hAll _ (by simp)
      have hlen : q2.length = fuel := by
        have := hperm.length_eq
        simp at this
        omega
      rw [hre]
      simp only [bind, Except.bind]
      rcases elim_spec (n := cn2.2) (st := { st with invalid := inv' }) hI hAn with ⟨_, he⟩ |
        ⟨h0, st1, he, hI1, hW1, hadj1, hem1⟩
      · left
        rw [he]
      · rw [he]
        rcases ih (fun a => A a ∧ a ≠ cn2.2) q2 st1 hlen hI1 hnd3
          (fun n hn => ⟨hAll n (by simp only [List.map_cons, List.mem_cons]; exact Or.inr hn),
            fun h => hn2 (h ▸ hn)⟩) with hz | ⟨st', L, hok, hL, hR⟩
        · exact Or.inl hz
        · refine Or.inr ⟨st', cn2.2 :: L, hok, ?_, ?_⟩
          · exact (List.Perm.cons _ hL).trans (by simpa using hperm)
          · exact Reduced.cons (st := { st with invalid := inv' }) h0 hW1 hadj1 hem1
              (fun h => hn2 (hL.mem_iff.1 h)) hR

/-- The nodes the simplification reduces. -/
def interior (g : G N V) : List N :=
  (Dict.keys g.seq).filter (fun n => !((g.succ n).isEmpty || (g.pred n).isEmpty))

theorem mem_interior {g : G N V} {n : N} : n ∈ interior g ↔ g.succ n ≠ [] ∧ g.pred n ≠ [] := by
  unfold interior
  rw [List.mem_filter]
  simp only [Bool.not_or, Bool.and_eq_true, Bool.not_eq_true', List.isEmpty_eq_false_iff]
  constructor
  · exact fun h => h.2
  · intro h
    refine ⟨?_, h⟩
    rw [Dict.mem_keys_iff]
    by_contra hc
    apply h.1
    unfold G.succ
    cases hg : Dict.get? g.seq n with
    | none => rfl
    | some v => exact absurd (by simp [hg]) hc

theorem fillQueue_spec (lt : Nat × N → Nat × N → Bool) (size : V → Nat) {g : G N V} (hB : Balanced g) :
    ∀ (ns : List N) (q : List (Nat × N)), ∃ q', fillQueue lt size g ns q = .ok q' ∧
      (q'.map Prod.snd).Perm (ns.filter (fun n => !((g.succ n).isEmpty || (g.pred n).isEmpty)) ++ q.map Prod.snd) := by
  intro ns
  induction ns with
  | nil => intro q; exact ⟨q, rfl, by simp⟩
  | cons n ns ih =>
    intro q
    unfold fillQueue
    split
    · rename_i h
      obtain ⟨q', he, hp⟩ := ih q
      refine ⟨q', he, ?_⟩
      rw [List.filter_cons, if_neg (by simp [h])]
      exact hp
    · rename_i h
      obtain ⟨c, hc⟩ := node_cost_ok size hB n
      rw [hc]
      obtain ⟨q', he, hp⟩ := ih (Queue.heappush lt q (c, n))
      refine ⟨q', he, hp.trans ?_⟩
      rw [List.filter_cons, if_pos (by simpa using h)]
      have := (Queue.heappush_perm lt q (c, n)).map Prod.snd
      refine (List.Perm.append_left _ this).trans ?_
      simp only [List.map_cons]
      exact List.perm_middle

theorem foldl_id {α β : Type} (f : β → α → β) (b : β) : ∀ (l : List α), (∀ x ∈ l, f b x = b) → l.foldl f b = b := by
  intro l
  induction l with
  | nil => intro _; rfl
  | cons x l ih =>
    intro h
    rw [List.foldl_cons, h x (by simp)]
    exact ih (fun y hy => h y (List.mem_cons_of_mem _ hy))

theorem check_ok {g : G N V} (hB : Balanced g) (hs : Dict.WF g.seq) (hr : Dict.WF g.req) :
    check_seq_req_balance g = .ok g := by
  unfold check_seq_req_balance
  have hsucc : ∀ kv ∈ g.seq, g.succ kv.1 = kv.2 := by
    intro kv hkv
    unfold G.succ
    rw [Dict.get?_of_mem hs hkv]; rfl
  have hpred : ∀ kv ∈ g.req, g.pred kv.1 = kv.2 := by
    intro kv hkv
    unfold G.pred
    rw [Dict.get?_of_mem hr hkv]; rfl
  have ok1 : g.seq.all (fun kv => kv.2.all (fun s => decide (kv.1 ∈ g.pred s))) = true := by
    rw [List.all_eq_true]
    intro kv hkv
    rw [List.all_eq_true]
    intro s hs'
    rw [decide_eq_true_eq, ← hB.mirror, hsucc kv hkv]
    exact hs'
  have ok2 : g.req.all (fun kv => kv.2.all (fun r => decide (kv.1 ∈ g.succ r))) = true := by
    rw [List.all_eq_true]
    intro kv hkv
    rw [List.all_eq_true]
    intro s hs'
    rw [decide_eq_true_eq, hB.mirror, hpred kv hkv]
    exact hs'
  simp only [ok1, ok2, Bool.and_self, if_true]
  congr 1
  have : (g.seq.foldl (fun em kv => kv.2.foldl (fun em s =>
      if !em.isEmpty && !Dict.has em (kv.1, s) then Dict.set em (kv.1, s) 0 else em) em) g.em) = g.em := by
    apply foldl_id
    intro kv hkv
    apply foldl_id
    intro s hs'
    rw [if_neg]
    have : Dict.has g.em (kv.1, s) = true := hB.valued kv.1 s (by rw [hsucc kv hkv]; exact hs')
    simp [this]
  rw [this]

theorem simplify_spec (lt : Nat × N → Nat × N → Bool) (size : V → Nat) {A : N → Prop} {g : G N V} (hI : Inv A g)
    (hs : Dict.WF g.seq) (hr : Dict.WF g.req) :
    mgraph_simplify lt size g = .error .zeroDivision ∨
    ∃ g' L, mgraph_simplify lt size g = .ok g' ∧ L.Nodup ∧
      (∀ n, n ∈ L ↔ g.succ n ≠ [] ∧ g.pred n ≠ []) ∧ Reduced A g L g' := by
  unfold mgraph_simplify
  rw [check_ok hI.bal hs hr]
  obtain ⟨q, hq, hp⟩ := fillQueue_spec lt size hI.bal (Dict.keys g.seq) []
  have hp' : (q.map Prod.snd).Perm (interior g) := by simpa [interior] using hp
  have hnd : (interior g).Nodup := by
    unfold interior
    exact List.Nodup.filter _ hs
  simp only [bind, Except.bind, hq]
  rcases mainLoop_spec lt size q.length A q ⟨g, []⟩ rfl hI (hp'.symm.nodup hnd) (by
    intro n hn
    have := mem_interior.1 (hp'.mem_iff.1 hn)
    obtain ⟨s, hs⟩ := List.exists_mem_of_ne_nil _ this.1
    exact (hI.alive n s hs).1) with hz | ⟨st', L, hok, hL, hR⟩
  · left; rw [hz]
  · right
    rw [hok]
    refine ⟨st'.g, L, rfl, hL.symm.nodup (hp'.symm.nodup hnd), ?_, hR⟩
    intro n
    rw [(hL.trans hp').mem_iff, mem_interior]

end Graph
