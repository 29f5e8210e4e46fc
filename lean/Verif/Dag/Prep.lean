import Verif.Dag.Loop
import Verif.Graph.User

/-! # The preparation of the default solver -/

set_option linter.unusedSectionVars false

namespace Dag
open Py Graph

section general
variable {M : Type} {V : Type} [DecidableEq M]

theorem G_succ_eq (s r : Dict M (List M)) (e : Dict (M × M) V) (a : M) : (⟨s, r, e⟩ : G M V).succ a = at' s a := rfl
theorem G_pred_eq (s r : Dict M (List M)) (e : Dict (M × M) V) (a : M) : (⟨s, r, e⟩ : G M V).pred a = at' r a := rfl

theorem get?_filterk {X : Type} (q : M → Bool) (k : M) : ∀ (d : Dict M X),
    Dict.get? (d.filter (fun kv => q kv.1)) k = if q k = true then Dict.get? d k else none
  | [] => by simp [Dict.get?]
  | (a, x) :: d => by
    have ih := get?_filterk q k d
    rw [List.filter_cons]
    by_cases ha : q a = true
    · rw [if_pos ha, Dict.get?_cons, Dict.get?_cons]
      by_cases hk : a = k
      · subst hk; simp [ha]
      · rw [if_neg hk, if_neg hk, ih]
    · rw [if_neg ha, Dict.get?_cons, ih]
      by_cases hk : a = k
      · subst hk; simp [ha]
      · rw [if_neg hk]

theorem at_filter (q : M → Bool) (k : M) (d : Dict M (List M)) :
    at' (d.filter (fun kv => q kv.1)) k = if q k = true then at' d k else [] := by
  unfold at'
  rw [get?_filterk]
  split <;> rfl

theorem keys_filter {X : Type} (q : M → Bool) (k : M) (d : Dict M X) :
    k ∈ Dict.keys (d.filter (fun kv => q kv.1)) ↔ k ∈ Dict.keys d ∧ q k = true := by
  rw [Dict.mem_keys_iff, Dict.mem_keys_iff, get?_filterk]
  by_cases h : q k = true <;> simp [h]

theorem LD_filter {d : Dict M (List M)} (h : LD d) (q : M → Bool) : LD (d.filter (fun kv => q kv.1)) := by
  refine ⟨?_, fun a => ?_⟩
  · unfold Dict.WF Dict.keys
    exact h.wf.sublist (List.filter_sublist.map _)
  · rw [at_filter]
    split
    · exact h.nd a
    · exact List.nodup_nil

variable [Fintype M] {d : D M V}

/-- What `purge_reqless` does. -/
theorem purge_reqless_spec {pick : List M → M} (hpick : ∀ l, l ≠ [] → pick l ∈ l)
    (mir : ∀ r s, s ∈ at' d.seq r ↔ r ∈ at' d.req s) (ls : LD d.seq) (lr : LD d.req) :
    ∃ d', purge_reqless pick d = .ok d' ∧
      (∀ a b, b ∈ at' d'.seq a ↔ b ∈ at' d.seq a ∧ ReachFrom (at' d.seq) (Dict.keys d.alpha) a) ∧
      (∀ a b, a ∈ at' d'.req b ↔ b ∈ at' d.seq a ∧ ReachFrom (at' d.seq) (Dict.keys d.alpha) a) ∧
      (∀ a, Dict.has d'.seq a = true ↔ ReachFrom (at' d.seq) (Dict.keys d.alpha) a) ∧
      (∀ a b, ReachFrom (at' d.seq) (Dict.keys d.alpha) a → Dict.get? d'.em (a, b) = Dict.get? d.em (a, b)) ∧
      d'.alpha = d.alpha ∧ d'.beta = d.beta.filter (fun kv => !(at' d'.req kv.1).isEmpty) ∧ LD d'.seq ∧ LD d'.req := by
  obtain ⟨g', P, he, hP, hs, hp, hem, hk, ws, wr⟩ := color_purge_spec hpick true (Dict.keys d.alpha)
    (g0 := (⟨d.seq, d.req, d.em⟩ : G M V)) mir ls.nd lr.nd ls.wf lr.wf
  have hP' : ∀ n, n ∈ P ↔ Dict.has d.seq n = true ∧ ¬ ReachFrom (at' d.seq) (Dict.keys d.alpha) n := hP
  have hs' : ∀ a, at' g'.seq a = if a ∈ P then [] else (at' d.seq a).filter (· ∉ P) := hs
  have hp' : ∀ b, at' g'.req b = if b ∈ P then [] else (at' d.req b).filter (· ∉ P) := hp
  have reach : ∀ {a b}, b ∈ at' d.seq a → ReachFrom (at' d.seq) (Dict.keys d.alpha) a →
      ReachFrom (at' d.seq) (Dict.keys d.alpha) b := fun h ⟨s, h1, h2⟩ => ⟨s, h1, h2.tail h⟩
  have nP : ∀ {a b}, b ∈ at' d.seq a → (a ∉ P ↔ ReachFrom (at' d.seq) (Dict.keys d.alpha) a) := by
    intro a b h
    rw [hP']
    have := has_of_mem h
    constructor
    · intro q; by_contra hc; exact q ⟨this, hc⟩
    · rintro q ⟨_, q'⟩; exact q' q
  have nP' : ∀ {a}, ReachFrom (at' d.seq) (Dict.keys d.alpha) a → a ∉ P := fun q h => ((hP' _).mp h).2 q
  refine ⟨{ d with seq := g'.seq, req := g'.req, em := g'.em, beta := d.beta.filter (fun kv => !(g'.pred kv.1).isEmpty) },
    ?_, ?_, ?_, ?_, ?_, rfl, rfl, ⟨ws, ?_⟩, ⟨wr, ?_⟩⟩
  · unfold purge_reqless
    rw [he]
    rfl
  · intro a b
    show b ∈ at' g'.seq a ↔ _
    rw [hs']
    by_cases ha : a ∈ P
    · rw [if_pos ha]
      simp only [List.not_mem_nil, false_iff]
      rintro ⟨q1, q2⟩
      exact nP' q2 ha
    · rw [if_neg ha, List.mem_filter]
      constructor
      · rintro ⟨q1, _⟩
        exact ⟨q1, (nP q1).mp ha⟩
      · rintro ⟨q1, q2⟩
        exact ⟨q1, by simpa using nP' (reach q1 q2)⟩
  · intro a b
    show a ∈ at' g'.req b ↔ _
    rw [hp']
    by_cases hb : b ∈ P
    · rw [if_pos hb]
      simp only [List.not_mem_nil, false_iff]
      rintro ⟨q1, q2⟩
      exact nP' (reach q1 q2) hb
    · rw [if_neg hb, List.mem_filter]
      constructor
      · rintro ⟨q1, q2⟩
        have q1' := (mir _ _).mpr q1
        exact ⟨q1', (nP q1').mp (by simpa using q2)⟩
      · rintro ⟨q1, q2⟩
        exact ⟨(mir _ _).mp q1, by simpa using nP' q2⟩
  · intro a
    show Dict.has g'.seq a = true ↔ _
    rw [hk]
    constructor
    · rintro (⟨q1, q2⟩ | ⟨_, q⟩)
      · by_contra hc
        exact q2 ((hP' a).mpr ⟨q1, hc⟩)
      · exact q
    · exact fun q => Or.inr ⟨rfl, q⟩
  · intro a b q
    show Dict.get? g'.em (a, b) = _
    rw [hem, if_neg (fun h => nP' q h.1)]
  · intro a
    show (at' g'.seq a).Nodup
    rw [hs']
    split
    · exact List.nodup_nil
    · exact (ls.nd a).filter _
  · intro a
    show (at' g'.req a).Nodup
    rw [hp']
    split
    · exact List.nodup_nil
    · exact (lr.nd a).filter _

/-- What `purge_seqless` does when every listed target is a key. -/
theorem purge_seqless_spec {pick : List M → M} (hpick : ∀ l, l ≠ [] → pick l ∈ l)
    (mir : ∀ r s, s ∈ at' d.seq r ↔ r ∈ at' d.req s) (ls : LD d.seq) (lr : LD d.req)
    (hcl : ∀ a b, b ∈ at' d.seq a → Dict.has d.seq b = true) :
    ∃ d', purge_seqless pick d = .ok d' ∧
      (∀ a b, b ∈ at' d'.seq a ↔ b ∈ at' d.seq a ∧ ReachFrom (at' d.req) (Dict.keys d.beta) b) ∧
      (∀ a b, a ∈ at' d'.req b ↔ b ∈ at' d.seq a ∧ ReachFrom (at' d.req) (Dict.keys d.beta) b) ∧
      (∀ a, Dict.has d'.seq a = true ↔ Dict.has d.seq a = true ∧ ReachFrom (at' d.req) (Dict.keys d.beta) a) ∧
      (∀ a b, ReachFrom (at' d.req) (Dict.keys d.beta) a → Dict.get? d'.em (a, b) = Dict.get? d.em (a, b)) ∧
      (∀ a b, a ∉ Dict.keys d.seq → Dict.get? d'.em (a, b) = Dict.get? d.em (a, b)) ∧
      d'.beta = d.beta ∧ d'.alpha = d.alpha.filter (fun kv => !(at' d'.seq kv.1).isEmpty) ∧ LD d'.seq ∧ LD d'.req := by
  obtain ⟨g', P, he, hP, hs, hp, hem, hk, ws, wr⟩ := color_purge_spec hpick false (Dict.keys d.beta)
    (g0 := (⟨d.seq, d.req, d.em⟩ : G M V)) mir ls.nd lr.nd ls.wf lr.wf
  have hP' : ∀ n, n ∈ P ↔ Dict.has d.seq n = true ∧ ¬ ReachFrom (at' d.req) (Dict.keys d.beta) n := by
    intro n
    rw [hP]
    rfl
  have hs' : ∀ a, at' g'.seq a = if a ∈ P then [] else (at' d.seq a).filter (· ∉ P) := hs
  have hp' : ∀ b, at' g'.req b = if b ∈ P then [] else (at' d.req b).filter (· ∉ P) := hp
  have reach : ∀ {a b}, b ∈ at' d.seq a → ReachFrom (at' d.req) (Dict.keys d.beta) b →
      ReachFrom (at' d.req) (Dict.keys d.beta) a := fun h ⟨s, h1, h2⟩ => ⟨s, h1, h2.tail ((mir _ _).mp h)⟩
  have nP' : ∀ {a}, ReachFrom (at' d.req) (Dict.keys d.beta) a → a ∉ P := fun q h => ((hP' _).mp h).2 q
  have nP : ∀ {a}, Dict.has d.seq a = true → (a ∉ P ↔ ReachFrom (at' d.req) (Dict.keys d.beta) a) := by
    intro a h
    constructor
    · intro q; by_contra hc; exact q ((hP' a).mpr ⟨h, hc⟩)
    · exact nP'
  refine ⟨{ d with seq := g'.seq, req := g'.req, em := g'.em, alpha := d.alpha.filter (fun kv => !(g'.succ kv.1).isEmpty) },
    ?_, ?_, ?_, ?_, ?_, ?_, rfl, rfl, ⟨ws, ?_⟩, ⟨wr, ?_⟩⟩
  · unfold purge_seqless
    rw [he]
    rfl
  · intro a b
    show b ∈ at' g'.seq a ↔ _
    rw [hs']
    by_cases ha : a ∈ P
    · rw [if_pos ha]
      simp only [List.not_mem_nil, false_iff]
      rintro ⟨q1, q2⟩
      exact nP' (reach q1 q2) ha
    · rw [if_neg ha, List.mem_filter]
      constructor
      · rintro ⟨q1, q2⟩
        exact ⟨q1, (nP (hcl _ _ q1)).mp (by simpa using q2)⟩
      · rintro ⟨q1, q2⟩
        exact ⟨q1, by simpa using nP' q2⟩
  · intro a b
    show a ∈ at' g'.req b ↔ _
    rw [hp']
    by_cases hb : b ∈ P
    · rw [if_pos hb]
      simp only [List.not_mem_nil, false_iff]
      rintro ⟨q1, q2⟩
      exact nP' q2 hb
    · rw [if_neg hb, List.mem_filter]
      constructor
      · rintro ⟨q1, _⟩
        have q1' := (mir _ _).mpr q1
        exact ⟨q1', (nP (hcl _ _ q1')).mp hb⟩
      · rintro ⟨q1, q2⟩
        exact ⟨(mir _ _).mp q1, by simpa using nP' (reach q1 q2)⟩
  · intro a
    show Dict.has g'.seq a = true ↔ _
    rw [hk]
    constructor
    · rintro (⟨q1, q2⟩ | ⟨q, _⟩)
      · exact ⟨q1, (nP q1).mp q2⟩
      · cases q
    · exact fun ⟨q1, q2⟩ => Or.inl ⟨q1, nP' q2⟩
  · intro a b q
    show Dict.get? g'.em (a, b) = _
    rw [hem, if_neg (fun h => nP' q h.1)]
  · intro a b q
    show Dict.get? g'.em (a, b) = _
    rw [hem, if_neg (fun h => q ((Dict.has_iff _ _).mp ((hP' a).mp h.1).1))]
  · intro a
    show (at' g'.seq a).Nodup
    rw [hs']
    split
    · exact List.nodup_nil
    · exact (ls.nd a).filter _
  · intro a
    show (at' g'.req a).Nodup
    rw [hp']
    split
    · exact List.nodup_nil
    · exact (lr.nd a).filter _

end general

/-! ### The scattering step -/

section scat
variable {N : Type} {V : Type} [DecidableEq N] [Field V] [DecidableEq V]

theorem foldl_sadd_nodup : ∀ (l s : List N), s.Nodup → (l.foldl sadd s).Nodup
  | [], _, h => h
  | x :: l, s, h => foldl_sadd_nodup l (sadd s x) (nodup_sadd h x)

theorem scatterNode_spec {g g' : G N V} (hv : Valid g) (n : N) (h : scatterNode n g = .ok g') :
    Valid g' ∧ (∀ a b, Dict.get? g'.em (a, b) = if n = a ∧ n = b then some (gain g n n - 1) else Dict.get? g.em (a, b)) ∧
    (∀ a, Dict.has g'.seq a = true ↔ Dict.has g.seq a = true ∨ a = n) := by
  unfold scatterNode at h
  by_cases hn : n ∈ g.succ n
  · rw [if_pos hn] at h
    unfold G.edge at h
    cases hg : Dict.get? g.em (n, n) with
    | none => rw [Dict.get, hg] at h; cases h
    | some e =>
      rw [Dict.get, hg] at h
      cases h
      have hem : ∀ a b, Dict.get? (g.setEdge n n (e - 1)).em (a, b) = if n = a ∧ n = b then some (gain g n n - 1) else Dict.get? g.em (a, b) := by
        intro a b
        show Dict.get? (Dict.set g.em (n, n) (e - 1)) (a, b) = _
        rw [Dict.get?_set]
        unfold gain
        rw [hg]
        by_cases h1 : n = a <;> by_cases h2 : n = b <;> simp [h1, h2]
      refine ⟨⟨hv.ws, hv.wr, hv.nds, hv.ndp, ?_⟩, hem, ?_⟩
      · intro a b q
        rw [hem] at q
        split at q
        · rename_i hh
          obtain ⟨rfl, rfl⟩ := hh
          exact hv.listed n n (by rw [hg]; rfl)
        · exact hv.listed a b q
      · intro a
        show Dict.has g.seq a = true ↔ _
        constructor
        · exact Or.inl
        · rintro (q | rfl)
          · exact q
          · exact key_of_succ hn
  · rw [if_neg hn] at h
    cases h
    have hnone : Dict.get? g.em (n, n) = none := by
      cases hg : Dict.get? g.em (n, n) with
      | none => rfl
      | some e => exact absurd (hv.listed n n (by rw [hg]; rfl)).1 hn
    have hem : ∀ a b, Dict.get? (((g.setEdge n n (-1)).seqAdd n n).reqAdd n n).em (a, b) = if n = a ∧ n = b then some (gain g n n - 1) else Dict.get? g.em (a, b) := by
      intro a b
      show Dict.get? (Dict.set g.em (n, n) (-1)) (a, b) = _
      rw [Dict.get?_set]
      unfold gain
      rw [hnone]
      by_cases h1 : n = a <;> by_cases h2 : n = b <;> simp [h1, h2]
    have hsucc : ∀ a, (((g.setEdge n n (-1)).seqAdd n n).reqAdd n n).succ a = if n = a then sadd (g.succ n) n else g.succ a := by
      intro a
      simp only [G.succ_reqAdd, G.succ_seqAdd, G.succ_setEdge]
    have hpred : ∀ a, (((g.setEdge n n (-1)).seqAdd n n).reqAdd n n).pred a = if n = a then sadd (g.pred n) n else g.pred a := by
      intro a
      simp only [G.pred_reqAdd, G.pred_seqAdd, G.pred_setEdge]
    refine ⟨⟨Dict.WF_set hv.ws _ _, Dict.WF_set hv.wr _ _, ?_, ?_, ?_⟩, hem, ?_⟩
    · intro a
      rw [hsucc]
      split
      · exact nodup_sadd (hv.nds n) n
      · exact hv.nds a
    · intro a
      rw [hpred]
      split
      · exact nodup_sadd (hv.ndp n) n
      · exact hv.ndp a
    · intro a b q
      rw [hem] at q
      rw [hsucc, hpred]
      split at q
      · rename_i hh
        obtain ⟨rfl, rfl⟩ := hh
        simp [mem_sadd]
      · obtain ⟨q1, q2⟩ := hv.listed a b q
        constructor
        · split
          · rename_i hh; subst hh; rw [mem_sadd]; exact Or.inl q1
          · exact q1
        · split
          · rename_i hh; subst hh; rw [mem_sadd]; exact Or.inl q2
          · exact q2
    · intro a
      show Dict.has (Dict.set g.seq n _) a = true ↔ _
      rw [has_set]
      by_cases hh : n = a
      · subst hh; simp
      · simp [hh, Ne.symm hh]

theorem scatter_spec : ∀ (ns : List N) (g g' : G N V), ns.Nodup → Valid g → scatter ns g = .ok g' →
    Valid g' ∧ (∀ a b, Dict.get? g'.em (a, b) = if a ∈ ns ∧ a = b then some (gain g a a - 1) else Dict.get? g.em (a, b)) ∧
    (∀ a, Dict.has g'.seq a = true ↔ Dict.has g.seq a = true ∨ a ∈ ns) := by
  intro ns
  induction ns with
  | nil =>
    intro g g' _ hv h
    cases h
    exact ⟨hv, by simp, by simp⟩
  | cons n ns ih =>
    intro g g' hnd hv h
    obtain ⟨hn, hnd'⟩ := List.nodup_cons.mp hnd
    unfold scatter at h
    cases hs : scatterNode n g with
    | error e => rw [hs] at h; cases h
    | ok g1 =>
      rw [hs] at h
      obtain ⟨v1, e1, k1⟩ := scatterNode_spec hv n hs
      obtain ⟨v2, e2, k2⟩ := ih g1 g' hnd' v1 h
      refine ⟨v2, fun a b => ?_, fun a => ?_⟩
      · rw [e2, e1]
        have hga : a ∈ ns → gain g1 a a = gain g a a := by
          intro q
          unfold gain
          rw [e1, if_neg (fun hh => hn (by rw [hh.1]; exact q))]
        by_cases h1 : a = n
        · subst h1
          by_cases h2 : a = b
          · subst h2; simp [hn]
          · simp [hn, h2]
        · by_cases h2 : a ∈ ns
          · rw [hga h2]
            by_cases h3 : a = b
            · subst h3; simp [h1, h2, Ne.symm h1]
            · simp [h1, h2, h3, Ne.symm h1]
          · simp [h1, h2, Ne.symm h1]
      · rw [k2, k1, List.mem_cons, or_assoc]

/-- The node occurs in the graph. -/
def Key (g : G N V) (n : N) : Prop := Dict.has g.seq n = true ∨ Dict.has g.req n = true

instance (g : G N V) (n : N) : Decidable (Key g n) := by unfold Key; infer_instance

theorem scatterStep_spec {o : Opts} {g g' : G N V} (hv : Valid g) (ho : o.scattering = true)
    (h : scatterStep o g = .ok g') :
    Valid g' ∧ (∀ a b, Edge g' a b ↔ Edge g a b ∨ (a = b ∧ Key g a)) ∧
    (∀ a b, gain g' a b = gain g a b - if a = b ∧ Key g a then 1 else 0) ∧
    (∀ a, Dict.has g'.seq a = true ↔ Key g a) := by
  classical
  unfold scatterStep at h
  rw [if_pos ho] at h
  have hm : ∀ a, a ∈ (Dict.keys g.seq ++ Dict.keys g.req).foldl sadd [] ↔ Key g a := by
    intro a
    rw [mem_foldl_sadd, List.mem_append]
    unfold Key
    rw [Dict.has_iff, Dict.has_iff]
    simp
  obtain ⟨v, e, k⟩ := scatter_spec _ _ _ (foldl_sadd_nodup _ _ List.nodup_nil) hv h
  refine ⟨v, fun a b => ?_, fun a b => ?_, fun a => ?_⟩
  · unfold Edge
    rw [e]
    by_cases h1 : a = b
    · subst h1
      by_cases h2 : Key g a
      · rw [if_pos ⟨(hm a).mpr h2, rfl⟩]; simp [h2]
      · rw [if_neg (fun hh => h2 ((hm a).mp hh.1))]; simp [h2]
    · rw [if_neg (fun hh => h1 hh.2)]; simp [h1]
  · unfold gain
    rw [e]
    by_cases h2 : a = b ∧ Key g a
    · obtain ⟨rfl, h2⟩ := h2
      rw [if_pos ⟨(hm a).mpr h2, rfl⟩, if_pos ⟨rfl, h2⟩]
      rfl
    · rw [if_neg h2, if_neg (fun hh => h2 ⟨hh.2, (hm a).mp hh.1⟩), sub_zero]
  · rw [k, hm]
    unfold Key
    constructor
    · rintro (q | q)
      · exact Or.inl q
      · exact q
    · exact Or.inr

end scat
end Dag
