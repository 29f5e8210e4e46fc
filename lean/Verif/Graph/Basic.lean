import Verif.Graph.Spec

set_option linter.unusedSectionVars false

namespace Graph
open Py
variable {N : Type} {V : Type} [DecidableEq N]

theorem mem_sadd (s : List N) (x y : N) : y ∈ sadd s x ↔ y ∈ s ∨ y = x := by
  unfold sadd
  split
  · constructor
    · exact Or.inl
    · rintro (h | rfl) <;> assumption
  · simp

theorem nodup_sadd {s : List N} (h : s.Nodup) (x : N) : (sadd s x).Nodup := by
  unfold sadd
  split
  · exact h
  · rename_i hx
    rw [List.nodup_append]
    refine ⟨h, by simp, ?_⟩
    intro a ha b hb
    simp only [List.mem_singleton] at hb
    subst hb
    rintro rfl
    exact hx ha

theorem sremove_ok {s : List N} {x : N} (h : x ∈ s) : sremove s x = .ok (s.filter (· ≠ x)) := by
  unfold sremove; rw [if_pos h]

namespace G
variable (g : G N V)

@[simp] theorem succ_seqAdd (a b c : N) :
    (g.seqAdd a b).succ c = if a = c then sadd (g.succ a) b else g.succ c := by
  unfold seqAdd succ
  rw [Dict.get?_set]
  split <;> simp

@[simp] theorem pred_seqAdd (a b c : N) : (g.seqAdd a b).pred c = g.pred c := rfl
@[simp] theorem em_seqAdd (a b : N) : (g.seqAdd a b).em = g.em := rfl

@[simp] theorem pred_reqAdd (b a c : N) :
    (g.reqAdd b a).pred c = if b = c then sadd (g.pred b) a else g.pred c := by
  unfold reqAdd pred
  rw [Dict.get?_set]
  split <;> simp

@[simp] theorem succ_reqAdd (b a c : N) : (g.reqAdd b a).succ c = g.succ c := rfl
@[simp] theorem em_reqAdd (b a : N) : (g.reqAdd b a).em = g.em := rfl

@[simp] theorem succ_setEdge (a b : N) (v : V) (c : N) : (g.setEdge a b v).succ c = g.succ c := rfl
@[simp] theorem pred_setEdge (a b : N) (v : V) (c : N) : (g.setEdge a b v).pred c = g.pred c := rfl
theorem em_setEdge (a b : N) (v : V) : (g.setEdge a b v).em = Dict.set g.em (a, b) v := rfl

theorem seqRemove_ok {a b : N} (h : b ∈ g.succ a) : ∃ g', g.seqRemove a b = .ok g' ∧
    (∀ c, g'.succ c = if a = c then (g.succ a).filter (· ≠ b) else g.succ c) ∧
    (∀ c, g'.pred c = g.pred c) ∧ g'.em = g.em := by
  unfold seqRemove
  rw [sremove_ok h]
  refine ⟨_, rfl, ?_, fun _ => rfl, rfl⟩
  intro c
  unfold succ
  dsimp only
  rw [Dict.get?_set]
  split <;> simp

theorem reqRemove_ok {b a : N} (h : a ∈ g.pred b) : ∃ g', g.reqRemove b a = .ok g' ∧
    (∀ c, g'.pred c = if b = c then (g.pred b).filter (· ≠ a) else g.pred c) ∧
    (∀ c, g'.succ c = g.succ c) ∧ g'.em = g.em := by
  unfold reqRemove
  rw [sremove_ok h]
  refine ⟨_, rfl, ?_, fun _ => rfl, rfl⟩
  intro c
  unfold pred
  dsimp only
  rw [Dict.get?_set]
  split <;> simp

theorem delEdge_ok {a b : N} (h : (Dict.get? g.em (a, b)).isSome) : ∃ g', g.delEdge a b = .ok g' ∧
    (∀ c, g'.succ c = g.succ c) ∧ (∀ c, g'.pred c = g.pred c) ∧
    (∀ p, Dict.get? g'.em p = if (a, b) = p then none else Dict.get? g.em p) := by
  unfold delEdge Dict.del
  have : Dict.has g.em (a, b) = true := h
  rw [if_pos this]
  refine ⟨_, rfl, fun _ => rfl, fun _ => rfl, fun p => ?_⟩
  dsimp only
  rw [Dict.get?_erase]

theorem edge_ok {a b : N} {v : V} (h : Dict.get? g.em (a, b) = some v) : g.edge a b = .ok v := by
  unfold edge Dict.get
  rw [h]

@[simp] theorem succ_delSeq (n c : N) : (g.delSeq n).succ c = if n = c then [] else g.succ c := by
  unfold delSeq succ
  dsimp only
  rw [Dict.get?_erase]
  split <;> simp

@[simp] theorem pred_delSeq (n c : N) : (g.delSeq n).pred c = g.pred c := rfl
@[simp] theorem em_delSeq (n : N) : (g.delSeq n).em = g.em := rfl

@[simp] theorem pred_delReq (n c : N) : (g.delReq n).pred c = if n = c then [] else g.pred c := by
  unfold delReq pred
  dsimp only
  rw [Dict.get?_erase]
  split <;> simp

@[simp] theorem succ_delReq (n c : N) : (g.delReq n).succ c = g.succ c := rfl
@[simp] theorem em_delReq (n : N) : (g.delReq n).em = g.em := rfl

end G

/-! ## One elimination step -/

variable [Field V] [DecidableEq V]

/-- Invariant of the graph restricted to the nodes other than `n`; `A` are the nodes still alive. -/
structure Mid (A : N → Prop) (n : N) (g : G N V) : Prop where
  m1 : ∀ a b, a ≠ n → b ≠ n → (b ∈ g.succ a ↔ a ∈ g.pred b)
  m2 : ∀ a b, a ≠ n → b ≠ n → b ∈ g.succ a → (Dict.get? g.em (a, b)).isSome
  m3 : ∀ a b, a ≠ n → b ≠ n → A a → A b → (Dict.get? g.em (a, b)).isSome → b ∈ g.succ a
  m4 : ∀ a b, a ≠ n → b ≠ n → b ∈ g.succ a → A a ∧ A b
  m5 : ∀ a, (g.succ a).Nodup
  m6 : ∀ a, (g.pred a).Nodup

/-- Effect on the graph of rerouting the pairs `(a, b)` selected by `P` with products `p a b`. -/
structure Rerouted (n : N) (P : N → N → Prop) [∀ a b, Decidable (P a b)] (p : N → N → V) (g g' : G N V) :
    Prop where
  succ_iff : ∀ a b, b ∈ g'.succ a ↔ b ∈ g.succ a ∨ P a b
  pred_iff : ∀ a b, a ≠ n → (a ∈ g'.pred b ↔ a ∈ g.pred b ∨ P a b)
  succ_n : g'.succ n = g.succ n
  pred_n : g'.pred n = g.pred n
  em_to : ∀ a, Dict.get? g'.em (a, n) = Dict.get? g.em (a, n)
  W_eq : ∀ a b, a ≠ n → b ≠ n → W g' a b = W g a b + if P a b then p a b else 0
  em_new : ∀ a b, (Dict.get? g'.em (a, b)).isSome → (Dict.get? g.em (a, b)).isSome ∨ P a b

theorem addEdge_spec {A : N → Prop} {n : N} {st : St N V} (hM : Mid A n st.g) {r s : N} (hr : r ≠ n)
    (hs : s ≠ n) (hAr : A r) (hAs : A s) (p : V) :
    Mid A n (addEdge st r s p).g ∧
    Rerouted n (fun a b => a = r ∧ b = s) (fun _ _ => p) st.g (addEdge st r s p).g ∧
    (∀ b, Dict.get? (addEdge st r s p).g.em (n, b) = Dict.get? st.g.em (n, b)) ∧
    (∀ b, n ∈ (addEdge st r s p).g.pred b ↔ n ∈ st.g.pred b) := by
  unfold addEdge
  cases hg : Dict.get? st.g.em (r, s) with
  | some prev =>
    dsimp only
    have hmem : s ∈ st.g.succ r := hM.m3 r s hr hs hAr hAs (by simp [hg])
    have hem : ∀ a b, Dict.get? (st.g.setEdge r s (prev + p)).em (a, b) =
        if r = a ∧ s = b then some (prev + p) else Dict.get? st.g.em (a, b) := by
      intro a b
      rw [G.em_setEdge, Dict.get?_set]
      simp only [Prod.mk.injEq]
    refine ⟨⟨hM.m1, ?_, ?_, hM.m4, hM.m5, hM.m6⟩, ⟨?_, ?_, rfl, rfl, ?_, ?_, ?_⟩, ?_, ?_⟩
    · intro a b ha hb hab
      rw [hem]
      split
      · rfl
      · exact hM.m2 a b ha hb hab
    · intro a b ha hb hAa hAb he
      rw [hem] at he
      split at he
      · rename_i h; obtain ⟨rfl, rfl⟩ := h; exact hmem
      · exact hM.m3 a b ha hb hAa hAb he
    · intro a b
      simp only [G.succ_setEdge]
      constructor
      · exact Or.inl
      · rintro (h | ⟨rfl, rfl⟩)
        · exact h
        · exact hmem
    · intro a b ha
      simp only [G.pred_setEdge]
      constructor
      · exact Or.inl
      · rintro (h | ⟨rfl, rfl⟩)
        · exact h
        · exact (hM.m1 _ _ hr hs).1 hmem
    · intro a
      rw [hem, if_neg]
      rintro ⟨_, h⟩
      exact hs h
    · intro a b ha hb
      unfold W
      simp only [G.succ_setEdge, hem]
      by_cases h : r = a ∧ s = b
      · obtain ⟨rfl, rfl⟩ := h
        simp [hmem, hg]
      · have h' : ¬ (a = r ∧ b = s) := fun hh => h ⟨hh.1.symm, hh.2.symm⟩
        simp only [h, h', if_false, add_zero]
    · intro a b he
      rw [hem] at he
      split at he
      · rename_i h; exact Or.inr ⟨h.1.symm, h.2.symm⟩
      · exact Or.inl he
    · intro b
      rw [hem, if_neg]
      rintro ⟨h, _⟩
      exact hr h
    · intro b; rfl
  | none =>
    dsimp only
    have hnot : s ∉ st.g.succ r := by
      intro h
      have := hM.m2 r s hr hs h
      rw [hg] at this
      simp at this
    have hem : ∀ a b, Dict.get? (((st.g.setEdge r s p).seqAdd r s).reqAdd s r).em (a, b) =
        if r = a ∧ s = b then some p else Dict.get? st.g.em (a, b) := by
      intro a b
      rw [G.em_reqAdd, G.em_seqAdd, G.em_setEdge, Dict.get?_set]
      simp only [Prod.mk.injEq]
    have hsucc : ∀ a b, b ∈ (((st.g.setEdge r s p).seqAdd r s).reqAdd s r).succ a ↔
        b ∈ st.g.succ a ∨ (a = r ∧ b = s) := by
      intro a b
      simp only [G.succ_reqAdd, G.succ_seqAdd, G.succ_setEdge]
      by_cases h : r = a
      · subst h; simp [mem_sadd]
      · rw [if_neg h]; simp [Ne.symm h]
    have hpred : ∀ a b, a ∈ (((st.g.setEdge r s p).seqAdd r s).reqAdd s r).pred b ↔
        a ∈ st.g.pred b ∨ (a = r ∧ b = s) := by
      intro a b
      simp only [G.pred_reqAdd, G.pred_seqAdd, G.pred_setEdge]
      by_cases h : s = b
      · subst h; simp [mem_sadd]
      · rw [if_neg h]; simp [Ne.symm h]
    refine ⟨⟨?_, ?_, ?_, ?_, ?_, ?_⟩, ⟨hsucc, fun a b _ => hpred a b, ?_, ?_, ?_, ?_, ?_⟩, ?_, ?_⟩
    · intro a b ha hb
      rw [hsucc, hpred, hM.m1 a b ha hb]
    · intro a b ha hb hab
      rw [hem]
      split
      · rfl
      · rename_i h
        rcases (hsucc a b).1 hab with h2 | ⟨h2, h3⟩
        · exact hM.m2 a b ha hb h2
        · exact absurd ⟨h2.symm, h3.symm⟩ h
    · intro a b ha hb hAa hAb he
      rw [hsucc]
      rw [hem] at he
      split at he
      · rename_i h; exact Or.inr ⟨h.1.symm, h.2.symm⟩
      · exact Or.inl (hM.m3 a b ha hb hAa hAb he)
    · intro a b ha hb hab
      rcases (hsucc a b).1 hab with h2 | ⟨rfl, rfl⟩
      · exact hM.m4 a b ha hb h2
      · exact ⟨hAr, hAs⟩
    · intro a
      simp only [G.succ_reqAdd, G.succ_seqAdd, G.succ_setEdge]
      split
      · exact nodup_sadd (hM.m5 _) _
      · exact hM.m5 _
    · intro a
      simp only [G.pred_reqAdd, G.pred_seqAdd, G.pred_setEdge]
      split
      · exact nodup_sadd (hM.m6 _) _
      · exact hM.m6 _
    · simp only [G.succ_reqAdd, G.succ_seqAdd, G.succ_setEdge]
      rw [if_neg hr]
    · simp only [G.pred_reqAdd, G.pred_seqAdd, G.pred_setEdge]
      rw [if_neg hs]
    · intro a
      rw [hem, if_neg]
      rintro ⟨_, h⟩
      exact hs h
    · intro a b ha hb
      unfold W
      simp only [hsucc, hem]
      by_cases h : a = r ∧ b = s
      · obtain ⟨rfl, rfl⟩ := h
        simp [hnot]
      · have h' : ¬ (r = a ∧ s = b) := fun hh => h ⟨hh.1.symm, hh.2.symm⟩
        simp only [h, h', if_false, add_zero, or_false]
    · intro a b he
      rw [hem] at he
      split at he
      · rename_i h; exact Or.inr ⟨h.1.symm, h.2.symm⟩
      · exact Or.inl he
    · intro b
      rw [hem, if_neg]
      rintro ⟨h, _⟩
      exact hr h
    · intro b
      rw [hpred]
      constructor
      · rintro (h | ⟨h, _⟩)
        · exact h
        · exact absurd h.symm hr
      · exact Or.inl

theorem elimInner_spec {A : N → Prop} {n s : N} (CLG : Option V) (sedge : V) (hs : s ≠ n) (hAs : A s) :
    ∀ (R : List N) (st : St N V), Mid A n st.g → R.Nodup → (∀ r ∈ R, r ≠ n ∧ A r) →
    (∀ r ∈ R, (Dict.get? st.g.em (r, n)).isSome) →
    ∃ st', elimInner n CLG s sedge R st = .ok st' ∧ Mid A n st'.g ∧
      Rerouted n (fun a b => a ∈ R ∧ b = s) (fun a _ => prodEdge CLG sedge ((Dict.get? st.g.em (a, n)).getD 0))
        st.g st'.g ∧
      (∀ b, Dict.get? st'.g.em (n, b) = Dict.get? st.g.em (n, b)) ∧
      (∀ b, n ∈ st'.g.pred b ↔ n ∈ st.g.pred b) := by
  intro R
  induction R with
  | nil =>
    intro st hM _ _ _
    exact ⟨st, rfl, hM, ⟨by simp, by simp, rfl, rfl, fun _ => rfl, by simp, fun _ _ => Or.inl⟩, fun _ => rfl, fun _ => Iff.rfl⟩
  | cons r R ih =>
    intro st hM hnd hR hem
    obtain ⟨hrR, hnd'⟩ := List.nodup_cons.1 hnd
    obtain ⟨hrn, hAr⟩ := hR r (by simp)
    obtain ⟨redge, hredge⟩ := Option.isSome_iff_exists.1 (hem r (by simp))
    obtain ⟨hM1, hR1, hn1, hp1⟩ := addEdge_spec hM hrn hs hAr hAs (prodEdge CLG sedge redge)
    obtain ⟨st', he, hM2, hR2, hn2, hp2⟩ := ih (addEdge st r s (prodEdge CLG sedge redge)) hM1 hnd'
      (fun r' hr' => hR r' (List.mem_cons_of_mem _ hr'))
      (fun r' hr' => by rw [hR1.em_to]; exact hem r' (List.mem_cons_of_mem _ hr'))
    refine ⟨st', ?_, hM2, ⟨?_, ?_, ?_, ?_, ?_, ?_, ?_⟩, ?_, ?_⟩
    · unfold elimInner
      rw [G.edge_ok _ hredge]
      exact he
    · intro a b
      rw [hR2.succ_iff, hR1.succ_iff]
      simp only [List.mem_cons]
      tauto
    · intro a b ha
      rw [hR2.pred_iff a b ha, hR1.pred_iff a b ha]
      simp only [List.mem_cons]
      tauto
    · rw [hR2.succ_n, hR1.succ_n]
    · rw [hR2.pred_n, hR1.pred_n]
    · intro a; rw [hR2.em_to, hR1.em_to]
    · intro a b ha hb
      rw [hR2.W_eq a b ha hb, hR1.W_eq a b ha hb]
      simp only [hR1.em_to, List.mem_cons]
      by_cases har : a = r
      · subst har
        by_cases hbs : b = s
        · simp [hbs, hrR, hredge]
        · simp [hbs]
      · simp [har]
    · intro a b h
      simp only [List.mem_cons]
      rcases hR2.em_new a b h with h | h
      · rcases hR1.em_new a b h with h | h
        · exact Or.inl h
        · exact Or.inr ⟨Or.inl h.1, h.2⟩
      · exact Or.inr ⟨Or.inr h.1, h.2⟩
    · intro b; rw [hn2, hn1]
    · intro b; rw [hp2, hp1]

theorem elimOuter_spec {A : N → Prop} {n : N} (CLG : Option V) (R : List N) (hR : R.Nodup)
    (hRn : ∀ r ∈ R, r ≠ n ∧ A r) :
    ∀ (S : List N) (st : St N V), Mid A n st.g → S.Nodup → (∀ s ∈ S, s ≠ n ∧ A s) →
    (∀ r ∈ R, (Dict.get? st.g.em (r, n)).isSome) →
    (∀ s ∈ S, (Dict.get? st.g.em (n, s)).isSome) →
    (∀ s ∈ S, n ∈ st.g.pred s) →
    ∃ st', elimOuter n CLG R S st = .ok st' ∧ Mid A n st'.g ∧
      Rerouted n (fun a b => a ∈ R ∧ b ∈ S)
        (fun a b => prodEdge CLG ((Dict.get? st.g.em (n, b)).getD 0) ((Dict.get? st.g.em (a, n)).getD 0))
        st.g st'.g ∧
      (∀ b, n ∈ st'.g.pred b ↔ n ∈ st.g.pred b ∧ b ∉ S) := by
  intro S
  induction S with
  | nil =>
    intro st hM _ _ _ _ _
    exact ⟨st, rfl, hM, ⟨by simp, by simp, rfl, rfl, fun _ => rfl, by simp, fun _ _ => Or.inl⟩, by simp⟩
  | cons s S ih =>
    intro st hM hnd hS hemR hemS hpn
    obtain ⟨hsS, hnd'⟩ := List.nodup_cons.1 hnd
    obtain ⟨hsn, hAs⟩ := hS s (by simp)
    obtain ⟨sedge, hsedge⟩ := Option.isSome_iff_exists.1 (hemS s (by simp))
    obtain ⟨st1, he1, hM1, hR1, hn1, hp1⟩ := elimInner_spec CLG sedge hsn hAs R st hM hR hRn hemR
    have hpn1 : n ∈ st1.g.pred s := (hp1 s).2 (hpn s (by simp))
    obtain ⟨g2, he2, hpred2, hsucc2, hem2⟩ := st1.g.reqRemove_ok hpn1
    have hsome : (Dict.get? g2.em (n, s)).isSome := by rw [hem2, hn1, hsedge]; rfl
    obtain ⟨g3, he3, hsucc3, hpred3, hem3⟩ := g2.delEdge_ok hsome
    have hsucc : ∀ c, g3.succ c = st1.g.succ c := fun c => by rw [hsucc3, hsucc2]
    have hpred : ∀ c, g3.pred c = if s = c then (st1.g.pred s).filter (· ≠ n) else st1.g.pred c :=
      fun c => by rw [hpred3, hpred2]
    have hem : ∀ p, Dict.get? g3.em p = if (n, s) = p then none else Dict.get? st1.g.em p :=
      fun p => by rw [hem3, hem2]
    have hpredmem : ∀ a b, a ∈ g3.pred b ↔ a ∈ st1.g.pred b ∧ ¬ (b = s ∧ a = n) := by
      intro a b
      rw [hpred]
      by_cases h : s = b
      · subst h; simp
      · rw [if_neg h]; simp [Ne.symm h]
    have hM3 : Mid A n g3 := by
      refine ⟨?_, ?_, ?_, ?_, ?_, ?_⟩
      · intro a b ha hb
        rw [hsucc, hpredmem, hM1.m1 a b ha hb]
        simp [ha]
      · intro a b ha hb hab
        rw [hsucc] at hab
        rw [hem, if_neg (by simp [Ne.symm ha])]
        exact hM1.m2 a b ha hb hab
      · intro a b ha hb hAa hAb h
        rw [hem, if_neg (by simp [Ne.symm ha])] at h
        rw [hsucc]
        exact hM1.m3 a b ha hb hAa hAb h
      · intro a b ha hb hab
        rw [hsucc] at hab
        exact hM1.m4 a b ha hb hab
      · intro a; rw [hsucc]; exact hM1.m5 a
      · intro a; rw [hpred]; split
        · exact (hM1.m6 s).filter _
        · exact hM1.m6 a
    obtain ⟨st', he', hM', hR', hp'⟩ := ih { st1 with g := g3 } hM3 hnd'
      (fun s' hs' => hS s' (List.mem_cons_of_mem _ hs'))
      (fun r hr => by
        dsimp only
        rw [hem, if_neg (by simp [hsn]), hR1.em_to]; exact hemR r hr)
      (fun s' hs' => by
        dsimp only
        have : s ≠ s' := fun h => hsS (h ▸ hs')
        rw [hem, if_neg (by simp [this]), hn1]; exact hemS s' (List.mem_cons_of_mem _ hs'))
      (fun s' hs' => by
        dsimp only
        have : s' ≠ s := fun h => hsS (h ▸ hs')
        rw [hpredmem, hp1]
        exact ⟨hpn s' (List.mem_cons_of_mem _ hs'), by simp [this]⟩)
    dsimp only at hR' hp'
    refine ⟨st', ?_, hM', ⟨?_, ?_, ?_, ?_, ?_, ?_, ?_⟩, ?_⟩
    · unfold elimOuter
      rw [G.edge_ok _ hsedge]
      simp only [bind, Except.bind, he1, he2, he3]
      exact he'
    · intro a b
      rw [hR'.succ_iff, hsucc, hR1.succ_iff]
      simp only [List.mem_cons]
      tauto
    · intro a b ha
      rw [hR'.pred_iff a b ha, hpredmem, hR1.pred_iff a b ha]
      simp only [List.mem_cons]
      tauto
    · rw [hR'.succ_n, hsucc, hR1.succ_n]
    · rw [hR'.pred_n, hpred, if_neg hsn, hR1.pred_n]
    · intro a
      rw [hR'.em_to, hem, if_neg (by simp [hsn]), hR1.em_to]
    · intro a b ha hb
      have e1 : W g3 a b = W st1.g a b := by
        have : Dict.get? g3.em (a, b) = Dict.get? st1.g.em (a, b) := by
          rw [hem, if_neg (by simp [Ne.symm ha])]
        unfold W
        rw [hsucc, this]
      have e2 : Dict.get? g3.em (a, n) = Dict.get? st.g.em (a, n) := by
        rw [hem, if_neg (by simp [hsn]), hR1.em_to]
      rw [hR'.W_eq a b ha hb, e1, hR1.W_eq a b ha hb, e2]
      simp only [List.mem_cons]
      by_cases hbs : b = s
      · subst hbs
        by_cases haR : a ∈ R
        · simp [haR, hsS, hsedge]
        · simp [haR]
      · have e3 : Dict.get? g3.em (n, b) = Dict.get? st.g.em (n, b) := by
          rw [hem, if_neg (by simp [Ne.symm hbs]), hn1]
        simp [hbs, e3]
    · intro a b h
      simp only [List.mem_cons]
      rcases hR'.em_new a b h with h | h
      · rw [hem] at h
        split at h
        · simp at h
        · rcases hR1.em_new a b h with h | h
          · exact Or.inl h
          · exact Or.inr ⟨h.1, Or.inl h.2⟩
      · exact Or.inr ⟨h.1, Or.inr h.2⟩
    · intro b
      rw [hp', hpredmem, hp1]
      simp only [List.mem_cons]
      tauto

theorem elimPreds_spec {n : N} : ∀ (R : List N) (g : G N V), R.Nodup → (∀ r ∈ R, r ≠ n) →
    (∀ r ∈ R, (Dict.get? g.em (r, n)).isSome) → (∀ r ∈ R, n ∈ g.succ r) →
    ∃ g', elimPreds n R g = .ok g' ∧
      (∀ a, g'.pred a = g.pred a) ∧
      (∀ a, g'.succ a = if a ∈ R then (g.succ a).filter (· ≠ n) else g.succ a) ∧
      (∀ a b, b ≠ n → Dict.get? g'.em (a, b) = Dict.get? g.em (a, b)) ∧
      (∀ a b, (Dict.get? g'.em (a, b)).isSome → (Dict.get? g.em (a, b)).isSome) := by
  intro R
  induction R with
  | nil => intro g _ _ _ _; exact ⟨g, rfl, by simp, by simp, by simp, fun _ _ h => h⟩
  | cons r R ih =>
    intro g hnd hR hem hsucc
    obtain ⟨hrR, hnd'⟩ := List.nodup_cons.1 hnd
    have hrn := hR r (by simp)
    obtain ⟨g1, he1, hs1, hp1, hem1⟩ := g.delEdge_ok (hem r (by simp))
    have hn1 : n ∈ g1.succ r := by rw [hs1]; exact hsucc r (by simp)
    obtain ⟨g2, he2, hs2, hp2, hem2⟩ := g1.seqRemove_ok hn1
    have hS2 : ∀ c, g2.succ c = if r = c then (g.succ r).filter (· ≠ n) else g.succ c := by
      intro c; rw [hs2, hs1, hs1]
    obtain ⟨g', he', hp', hs', hem', hsub'⟩ := ih g2 hnd' (fun r' hr' => hR r' (List.mem_cons_of_mem _ hr'))
      (fun r' hr' => by
        have : r ≠ r' := fun h => hrR (h ▸ hr')
        rw [hem2, hem1, if_neg (by simp [this])]; exact hem r' (List.mem_cons_of_mem _ hr'))
      (fun r' hr' => by
        have : r ≠ r' := fun h => hrR (h ▸ hr')
        rw [hS2, if_neg this]; exact hsucc r' (List.mem_cons_of_mem _ hr'))
    refine ⟨g', ?_, ?_, ?_, ?_, ?_⟩
    · unfold elimPreds
      simp only [bind, Except.bind, he1, he2]
      exact he'
    · intro a; rw [hp', hp2, hp1]
    · intro a
      rw [hs', hS2]
      by_cases har : a = r
      · subst har; simp [hrR]
      · simp [har, Ne.symm har]
    · intro a b hb
      rw [hem' a b hb, hem2, hem1, if_neg]
      simp only [Prod.mk.injEq, not_and]
      intro _ h
      exact hb h.symm
    · intro a b h
      have := hsub' a b h
      rw [hem2, hem1] at this
      split at this
      · simp at this
      · exact this

/-- Invariant of the whole graph; `A` are the nodes still alive.  Values may be left over in `em` for
pairs that involve a dead node. -/
structure Inv (A : N → Prop) (g : G N V) : Prop where
  bal : Balanced g
  used : ∀ a b, A a → A b → (Dict.get? g.em (a, b)).isSome → b ∈ g.succ a
  alive : ∀ a b, b ∈ g.succ a → A a ∧ A b

/-- The gains after eliminating `n`. -/
def elimW (w : N → N → V) (n : N) (a b : N) : V :=
  if a = n ∨ b = n then 0 else w a b + w n b * (1 / (1 - w n n)) * w a n

/-- What the self loop stage does. -/
theorem elimSelf_spec {A : N → Prop} {n : N} {g : G N V} (hI : Inv A g) :
    (1 - W g n n = 0 ∧ elimSelf n g = .error .zeroDivision) ∨
    (1 - W g n n ≠ 0 ∧ ∃ CLG g', elimSelf n g = .ok (CLG, g') ∧
      (∀ s r, prodEdge CLG s r = s * (1 / (1 - W g n n)) * r) ∧
      (∀ a, g'.succ a = if n = a then (g.succ a).filter (· ≠ n) else g.succ a) ∧
      (∀ a, g'.pred a = if n = a then (g.pred a).filter (· ≠ n) else g.pred a) ∧
      g'.em = g.em) := by
  unfold elimSelf
  by_cases hn : n ∈ g.succ n
  · rw [if_pos hn]
    obtain ⟨v, hv⟩ := Option.isSome_iff_exists.1 (hI.bal.valued n n hn)
    have hW : W g n n = v := by unfold W; simp [hn, hv]
    simp only [bind, Except.bind, G.edge_ok _ hv]
    by_cases h0 : 1 - v = 0
    · left
      rw [hW]
      exact ⟨h0, by rw [if_pos h0]⟩
    · right
      rw [hW]
      refine ⟨h0, ?_⟩
      rw [if_neg h0]
      obtain ⟨g1, he1, hs1, hp1, hem1⟩ := g.seqRemove_ok hn
      have hpn : n ∈ g1.pred n := by rw [hp1]; exact (hI.bal.mirror n n).1 hn
      obtain ⟨g2, he2, hp2, hs2, hem2⟩ := g1.reqRemove_ok hpn
      refine ⟨some (1 / (1 - v)), g2, ?_, fun s r => rfl, ?_, ?_, by rw [hem2, hem1]⟩
      · simp only [he1, he2]; rfl
      · intro a; rw [hs2, hs1]
        by_cases h : n = a
        · subst h; simp
        · simp [h]
      · intro a; rw [hp2, hp1, hp1]
        by_cases h : n = a
        · subst h; simp
        · simp [h]
  · right
    rw [if_neg hn]
    have hW : W g n n = 0 := by unfold W; simp [hn]
    rw [hW]
    refine ⟨by simp, none, g, rfl, fun s r => by simp [prodEdge], ?_, ?_, rfl⟩
    · intro a
      by_cases h : n = a
      · subst h
        rw [if_pos rfl, List.filter_eq_self.2]
        intro b hb
        simp only [ne_eq, decide_eq_true_eq]
        rintro rfl
        exact hn hb
      · rw [if_neg h]
    · intro a
      by_cases h : n = a
      · subst h
        rw [if_pos rfl, List.filter_eq_self.2]
        intro b hb
        simp only [ne_eq, decide_eq_true_eq]
        rintro rfl
        exact hn ((hI.bal.mirror _ _).2 hb)
      · rw [if_neg h]

/-- One reduction either divides by zero, exactly when the self gain is 1, or succeeds: then the
invariant holds with `n` dead, adjacency only grows through `n`, and the gains are `elimW`. -/
theorem elim_spec {A : N → Prop} {n : N} {st : St N V} (hI : Inv A st.g) (hAn : A n) :
    (1 - W st.g n n = 0 ∧ elim st n = .error .zeroDivision) ∨
    (1 - W st.g n n ≠ 0 ∧ ∃ st', elim st n = .ok st' ∧ Inv (fun a => A a ∧ a ≠ n) st'.g ∧
      (∀ a b, W st'.g a b = elimW (W st.g) n a b) ∧
      (∀ a b, b ∈ st'.g.succ a ↔ a ≠ n ∧ b ≠ n ∧ (b ∈ st.g.succ a ∨ (n ∈ st.g.succ a ∧ b ∈ st.g.succ n))) ∧
      (∀ a b, (Dict.get? st'.g.em (a, b)).isSome → (Dict.get? st.g.em (a, b)).isSome ∨ (A a ∧ A b))) := by
  rcases elimSelf_spec (n := n) hI with ⟨h0, he⟩ | ⟨h0, CLG, g1, he, hprod, hs1, hp1, hem1⟩
  · left
    refine ⟨h0, ?_⟩
    unfold elim
    rw [he]; rfl
  · right
    refine ⟨h0, ?_⟩
    have hB := hI.bal
    have hSmem : ∀ s, s ∈ g1.succ n ↔ s ∈ st.g.succ n ∧ s ≠ n := by
      intro s; rw [hs1, if_pos rfl]; simp
    have hRmem : ∀ r, r ∈ g1.pred n ↔ r ∈ st.g.pred n ∧ r ≠ n := by
      intro r; rw [hp1, if_pos rfl]; simp
    have hM1 : Mid A n g1 := by
      refine ⟨?_, ?_, ?_, ?_, ?_, ?_⟩
      · intro a b ha hb
        rw [hs1, hp1, if_neg (Ne.symm ha), if_neg (Ne.symm hb)]
        exact hB.mirror a b
      · intro a b ha hb hab
        rw [hs1, if_neg (Ne.symm ha)] at hab
        rw [hem1]; exact hB.valued a b hab
      · intro a b ha hb hAa hAb h
        rw [hem1] at h
        rw [hs1, if_neg (Ne.symm ha)]
        exact hI.used a b hAa hAb h
      · intro a b ha hb hab
        rw [hs1, if_neg (Ne.symm ha)] at hab
        exact hI.alive a b hab
      · intro a; rw [hs1]; split
        · exact (hB.nodup_succ a).filter _
        · exact hB.nodup_succ a
      · intro a; rw [hp1]; split
        · exact (hB.nodup_pred a).filter _
        · exact hB.nodup_pred a
    have hRS : ∀ r ∈ g1.pred n, r ≠ n ∧ A r := by
      intro r hr
      obtain ⟨h1, h2⟩ := (hRmem r).1 hr
      exact ⟨h2, (hI.alive r n ((hB.mirror r n).2 h1)).1⟩
    have hSS : ∀ s ∈ g1.succ n, s ≠ n ∧ A s := by
      intro s hs
      obtain ⟨h1, h2⟩ := (hSmem s).1 hs
      exact ⟨h2, (hI.alive n s h1).2⟩
    have hemR : ∀ r ∈ g1.pred n, (Dict.get? g1.em (r, n)).isSome := by
      intro r hr
      rw [hem1]
      exact hB.valued r n ((hB.mirror r n).2 ((hRmem r).1 hr).1)
    have hemS : ∀ s ∈ g1.succ n, (Dict.get? g1.em (n, s)).isSome := by
      intro s hs
      rw [hem1]
      exact hB.valued n s ((hSmem s).1 hs).1
    have hpS : ∀ s ∈ g1.succ n, n ∈ g1.pred s := by
      intro s hs
      obtain ⟨h1, h2⟩ := (hSmem s).1 hs
      rw [hp1, if_neg (Ne.symm h2)]
      exact (hB.mirror n s).1 h1
    obtain ⟨st2, he2, hM2, hR2, hpn2⟩ := elimOuter_spec CLG (g1.pred n) (hM1.m6 n) hRS (g1.succ n)
      ⟨g1, st.invalid⟩ hM1 (hM1.m5 n) hSS hemR hemS hpS
    dsimp only at hR2 hpn2
    have hpn : st2.g.pred n = g1.pred n := hR2.pred_n
    obtain ⟨g3, he3, hp3, hs3, hem3, hsub3⟩ := elimPreds_spec (n := n) (st2.g.pred n) st2.g (hM2.m6 n)
      (by rw [hpn]; exact fun r hr => (hRS r hr).1)
      (by rw [hpn]; exact fun r hr => by rw [hR2.em_to]; exact hemR r hr)
      (by
        rw [hpn]
        intro r hr
        rw [hR2.succ_iff]
        left
        obtain ⟨h1, h2⟩ := (hRmem r).1 hr
        rw [hs1, if_neg (Ne.symm h2)]
        exact (hB.mirror r n).2 h1)
    rw [hpn] at hs3
    -- final graph
    have hfs : ∀ a b, b ∈ ((g3.delSeq n).delReq n).succ a ↔
        a ≠ n ∧ b ≠ n ∧ (b ∈ st.g.succ a ∨ (n ∈ st.g.succ a ∧ b ∈ st.g.succ n)) := by
      intro a b
      simp only [G.succ_delReq, G.succ_delSeq]
      by_cases han : n = a
      · subst han; simp
      · rw [if_neg han, hs3]
        have han' := Ne.symm han
        have hcore : b ∈ st2.g.succ a ↔ b ∈ st.g.succ a ∨
            ((a ∈ st.g.pred n) ∧ (b ∈ st.g.succ n ∧ b ≠ n)) := by
          rw [hR2.succ_iff, hs1, if_neg han, hRmem, hSmem]
          simp [han']
        by_cases hR : a ∈ g1.pred n
        · rw [if_pos hR, List.mem_filter]
          simp only [ne_eq, decide_eq_true_eq]
          rw [hcore, ← hB.mirror]
          have : n ∈ st.g.succ a := (hB.mirror a n).2 ((hRmem a).1 hR).1
          simp only [this, true_and, han', not_false_eq_true]
          tauto
        · rw [if_neg hR, hcore]
          have hna : a ∉ st.g.pred n := fun h => hR ((hRmem a).2 ⟨h, han'⟩)
          have hna' : n ∉ st.g.succ a := fun h => hna ((hB.mirror a n).1 h)
          simp only [hna, hna', false_and, or_false, ne_eq, han', not_false_eq_true, true_and]
          constructor
          · intro h
            refine ⟨?_, h⟩
            rintro rfl
            exact hna' h
          · exact fun h => h.2
    have hfp : ∀ a b, a ∈ ((g3.delSeq n).delReq n).pred b ↔
        a ≠ n ∧ b ≠ n ∧ (b ∈ st.g.succ a ∨ (n ∈ st.g.succ a ∧ b ∈ st.g.succ n)) := by
      intro a b
      simp only [G.pred_delReq, G.pred_delSeq]
      by_cases hbn : n = b
      · subst hbn; simp
      · have hbn' := Ne.symm hbn
        rw [if_neg hbn, hp3]
        by_cases han : a = n
        · subst han
          rw [hpn2, hSmem, hp1, if_neg hbn, ← hB.mirror]
          simp only [ne_eq, not_true_eq_false, false_and, iff_false]
          rintro ⟨h1, h2⟩
          exact h2 ⟨h1, hbn'⟩
        · rw [hR2.pred_iff a b han, hp1, if_neg hbn, hRmem, hSmem, ← hB.mirror, ← hB.mirror]
          simp [han, hbn']
    have hfem : ∀ a b, b ≠ n → Dict.get? ((g3.delSeq n).delReq n).em (a, b) = Dict.get? st2.g.em (a, b) := by
      intro a b hb
      simp only [G.em_delReq, G.em_delSeq]
      exact hem3 a b hb
    have hsucc2 : ∀ a b, a ≠ n → b ≠ n → (b ∈ ((g3.delSeq n).delReq n).succ a ↔ b ∈ st2.g.succ a) := by
      intro a b ha hb
      simp only [G.succ_delReq, G.succ_delSeq]
      rw [if_neg (Ne.symm ha), hs3]
      split
      · simp [hb]
      · rfl
    refine ⟨{ st2 with g := (g3.delSeq n).delReq n }, ?_, ⟨⟨?_, ?_, ?_, ?_⟩, ?_, ?_⟩, ?_, ?_, ?_⟩
    · unfold elim
      rw [he]
      simp only [bind, Except.bind, he2, he3]
      rfl
    · intro a b; rw [hfs, hfp]
    · intro a b hab
      dsimp only at hab ⊢
      obtain ⟨ha, hb, _⟩ := (hfs a b).1 hab
      rw [hfem a b hb]
      exact hM2.m2 a b ha hb ((hsucc2 a b ha hb).1 hab)
    · intro a
      simp only [G.succ_delReq, G.succ_delSeq]
      split
      · simp
      · rw [hs3]; split
        · exact (hM2.m5 a).filter _
        · exact hM2.m5 a
    · intro a
      simp only [G.pred_delReq, G.pred_delSeq]
      split
      · simp
      · rw [hp3]; exact hM2.m6 a
    · rintro a b ⟨hAa, ha⟩ ⟨hAb, hb⟩ h
      dsimp only at h ⊢
      rw [hfem a b hb] at h
      rw [hsucc2 a b ha hb]
      exact hM2.m3 a b ha hb hAa hAb h
    · intro a b hab
      dsimp only at hab
      obtain ⟨ha, hb, _⟩ := (hfs a b).1 hab
      obtain ⟨h1, h2⟩ := hM2.m4 a b ha hb ((hsucc2 a b ha hb).1 hab)
      exact ⟨⟨h1, ha⟩, h2, hb⟩
    · intro a b
      dsimp only
      unfold elimW
      by_cases hab : a = n ∨ b = n
      · rw [if_pos hab]
        unfold W
        rw [if_neg]
        rw [hfs]
        rintro ⟨ha, hb, _⟩
        rcases hab with h | h
        · exact ha h
        · exact hb h
      · rw [if_neg hab]
        obtain ⟨ha, hb⟩ := not_or.1 hab
        have e1 : W ((g3.delSeq n).delReq n) a b = W st2.g a b := by
          unfold W
          simp only [hsucc2 a b ha hb, hfem a b hb]
        have e2 : W g1 a b = W st.g a b := by
          unfold W
          rw [hs1, if_neg (Ne.symm ha), hem1]
        rw [e1, hR2.W_eq a b ha hb, e2, hprod, hem1]
        congr 1
        by_cases hP : a ∈ g1.pred n ∧ b ∈ g1.succ n
        · rw [if_pos hP]
          obtain ⟨p1, p2⟩ := hP
          have q1 : n ∈ st.g.succ a := (hB.mirror a n).2 ((hRmem a).1 p1).1
          have q2 := ((hSmem b).1 p2).1
          unfold W
          rw [if_pos q1, if_pos q2]
        · rw [if_neg hP]
          have : W st.g n b = 0 ∨ W st.g a n = 0 := by
            by_cases q2 : b ∈ st.g.succ n
            · right
              unfold W
              rw [if_neg]
              intro q1
              exact hP ⟨(hRmem a).2 ⟨(hB.mirror a n).1 q1, ha⟩, (hSmem b).2 ⟨q2, hb⟩⟩
            · left
              unfold W
              rw [if_neg q2]
          rcases this with h | h <;> simp [h]
    · intro a b
      exact hfs a b
    · intro a b h
      dsimp only [G.em_delReq, G.em_delSeq] at h
      rcases hR2.em_new a b (hsub3 a b h) with h | ⟨h1, h2⟩
      · left; rw [hem1] at h; exact h
      · exact Or.inr ⟨(hRS a h1).2, (hSS b h2).2⟩

end Graph
