import Verif.Dag.HouseCol
import Verif.Queue.Lemmas
import Verif.Graph.Purge

/-! # The loops of the default solver -/

set_option linter.unusedSectionVars false

namespace Dag
open Py Graph

variable {M : Type} {V : Type} {C : Type} [DecidableEq M] [Field V] [DecidableEq V]
variable {kind : M → Kind} {d d' : D M V} {A : Alg V}

/-- The node has no edge at all. -/
def Iso (d : D M V) (a : M) : Prop := at' d.seq a = [] ∧ at' d.req a = [] ∧ at' d.alpha a = [] ∧ at' d.beta a = []

/-- The invariant of the loops: a consistent system, present nodes being the keys of `seq`, which are keys of
`req` too. -/
structure LInv (kind : M → Kind) (d : D M V) : Prop where
  s : Sound kind (fun n => Dict.has d.seq n = true) d
  r : ∀ a, Dict.has d.seq a = true → Dict.has d.req a = true

theorem Sound.congr {K K' : M → Prop} (h : Sound kind K d) (e : ∀ a, K a ↔ K' a) : Sound kind K' d := by
  have : K = K' := funext fun a => propext (e a)
  rw [← this]; exact h

variable [Fintype M]

theorem Behav.congr {K K' : M → Prop} (e : ∀ a, K a ↔ K' a) (p : M → V) : Behav kind K d p ↔ Behav kind K' d p := by
  have : K = K' := funext fun a => propext (e a)
  rw [this]

/-- What a step of the loop does. -/
structure StepTo (kind : M → Kind) (d d' : D M V) : Prop where
  inv : LInv kind d'
  sub : ∀ a, Dict.has d'.seq a = true → Dict.has d.seq a = true
  iso : ∀ a, Dict.has d'.seq a = true → Iso d a → Iso d' a
  beh : ∀ p, Behav kind (fun n => Dict.has d.seq n = true) d p ↔ Behav kind (fun n => Dict.has d'.seq n = true) d' p

theorem StepTo.refl (h : LInv kind d) : StepTo kind d d := ⟨h, fun _ q => q, fun _ _ q => q, fun _ => Iff.rfl⟩

theorem StepTo.trans {d'' : D M V} (h1 : StepTo kind d d') (h2 : StepTo kind d' d'') : StepTo kind d d'' :=
  ⟨h2.inv, fun a q => h1.sub a (h2.sub a q), fun a q i => h2.iso a q (h1.iso a (h2.sub a q) i),
    fun p => (h1.beh p).trans (h2.beh p)⟩

theorem nil_of {l : List M} (h : ∀ b, b ∉ l) : l = [] := List.eq_nil_iff_forall_not_mem.mpr h

theorem reduceLU_ok {n : M} (h : reduceLU n d = .ok d') : ∃ v, Dict.get? d.em (n, n) = some v ∧ v ≠ 0 := by
  unfold reduceLU luSelf Dict.get at h
  cases hg : Dict.get? d.em (n, n) with
  | none => rw [hg] at h; cases h
  | some v =>
    refine ⟨v, rfl, fun h0 => ?_⟩
    rw [hg] at h
    subst h0
    simp [bind, Except.bind] at h

theorem step_lu (h : LInv kind d) {n : M} (hn : Dict.has d.seq n = true) (ho : reduceLU n d = .ok d') :
    StepTo kind d d' ∧ Dict.has d'.seq n ≠ true ∧ (∀ a, Dict.has d'.seq a = true ↔ Dict.has d.seq a = true ∧ a ≠ n) := by
  obtain ⟨v, hv, hv0⟩ := reduceLU_ok ho
  obtain ⟨d1, h1, e⟩ := reduceLU_eff h.s hn hv hv0
  rw [h1] at ho
  cases ho
  have hk := e.hs
  refine ⟨⟨⟨(sound_lu h.s hn e).congr (fun a => (hk a).symm), fun a q => ?_⟩, fun a q => ((hk a).mp q).1, fun a q i => ?_, fun p => ?_⟩,
    fun q => ((hk n).mp q).2 rfl, hk⟩
  · obtain ⟨q1, q2⟩ := (hk a).mp q
    exact e.hr a (h.r a q1) q2
  · obtain ⟨i1, i2, i3, i4⟩ := i
    refine ⟨nil_of fun b q => ?_, nil_of fun b q => ?_, nil_of fun b q => ?_, nil_of fun b q => ?_⟩
    · obtain ⟨_, _, q⟩ := (e.seq a b).mp q
      rw [i1] at q; simp at q
    · obtain ⟨_, _, q⟩ := (e.req a b).mp q
      rw [i2] at q; simp at q
    · obtain ⟨_, q⟩ := (e.alpha a b).mp q
      rw [i3, h.s.mir] at q
      simp only [List.not_mem_nil, false_or] at q
      rcases q.2 with q' | q'
      · rw [i2] at q'; cases q'
      · exact h.s.notBeta (h.s.ki a ((hk a).mp ‹_›).1) n q'
    · obtain ⟨_, q⟩ := (e.beta a b).mp q
      rw [i4, i1] at q
      simp only [List.not_mem_nil, false_or] at q
      exact h.s.notAlpha (h.s.ki a ((hk a).mp ‹_›).1) n q.1
  · rw [behav_lu h.s hn hv hv0 e p]
    exact Behav.congr (fun a => (hk a).symm) p

theorem step_swap (h : LInv kind d) {n1 n2 : M} (hne : n1 ≠ n2) (h1 : Dict.has d.seq n1 = true)
    (h2 : Dict.has d.seq n2 = true) (i1 : ¬ Iso d n1) (i2 : ¬ Iso d n2) :
    ∃ d', pivotCOL n1 n2 d = .ok d' ∧ StepTo kind d d' ∧ (∀ a, at' d'.seq a = at' d.seq (Equiv.swap n1 n2 a)) ∧
      (∀ a, Dict.has d'.seq a = true ↔ Dict.has d.seq a = true) := by
  obtain ⟨d', q, e⟩ := pivotCOL_eff h.s hne h1 h2
  have hk : ∀ a, Dict.has d'.seq a = true ↔ Dict.has d.seq a = true := by
    intro a
    rw [e.hs]
    constructor
    · rintro (rfl | rfl | q)
      · exact h2
      · exact h1
      · exact q
    · exact fun q => Or.inr (Or.inr q)
  refine ⟨d', q, ⟨⟨(sound_swap h.s h1 h2 e).congr (fun a => (hk a).symm), fun a q => e.hr a (h.r a ((hk a).mp q))⟩,
    fun a q => (hk a).mp q, fun a _ i => ?_, fun p => ?_⟩, e.seq, hk⟩
  · have n1' : a ≠ n1 := fun q => i1 (q ▸ i)
    have n2' : a ≠ n2 := fun q => i2 (q ▸ i)
    refine ⟨?_, nil_of fun b q => ?_, ?_, ?_⟩
    · rw [e.seq, Equiv.swap_apply_of_ne_of_ne n1' n2']; exact i.1
    · rw [e.req, i.2.1] at q; cases q
    · rw [e.alpha]; exact i.2.2.1
    · rw [e.beta, Equiv.swap_apply_of_ne_of_ne n1' n2']; exact i.2.2.2
  · rw [behav_swap h.s h1 h2 e p]
    exact Behav.congr (fun a => (hk a).symm) p

theorem step_hh (hA : A.Lawful) (h : LInv kind d) {into : M} {F : List M} (hF : F.Nodup) (hi : into ∉ F)
    (hl : ∀ k ∈ F ++ [into], into ∈ at' d.seq k) (ho : householderROW A into F d = .ok d') :
    StepTo kind d d' ∧ (∀ a, Dict.has d'.seq a = true ↔ Dict.has d.seq a = true) := by
  have iL : into ∈ F ++ [into] := by simp
  have hvec := hhVec_spec A into F hF hi (fun k hk => h.s.val _ _ (Or.inl (hl k (by simp [hk]))))
    (h.s.val _ _ (Or.inl (hl into iL)))
  have hz : A.abs (ev d into into) ≠ 0 := by
    intro q
    rw [if_pos q] at hvec
    unfold householderROW at ho
    rw [check_ok h.s.mir, hvec] at ho
    cases ho
  have hn : hhN A d into F ≠ 0 := by
    intro q
    rw [if_neg hz, if_pos q] at hvec
    unfold householderROW at ho
    rw [check_ok h.s.mir, hvec] at ho
    cases ho
  obtain ⟨d1, q, e⟩ := householderROW_eff A h.s hF hi hl hz hn
  rw [q] at ho
  cases ho
  have hk := e.hs
  refine ⟨⟨⟨(sound_hh h.s hl hi e).congr (fun a => (hk a).symm), fun a q => e.hr a (h.r a ((hk a).mp q))⟩,
    fun a q => (hk a).mp q, fun a _ i => ?_, fun p => ?_⟩, hk⟩
  · have haL : a ∉ F ++ [into] := fun q => by
      have := hl a q
      rw [i.1] at this; cases this
    have s1 : ∀ b, b ∉ at' d'.seq a := by
      intro b q
      rw [e.seq] at q
      rcases q.1 with q | q
      · rw [i.1] at q; cases q
      · exact haL q.1
    refine ⟨nil_of s1, nil_of fun b q => ?_, by rw [e.alpha]; exact i.2.2.1, nil_of fun b q => ?_⟩
    · rw [← e.mir, e.seq] at q
      rcases q.1 with q | ⟨_, q⟩
      · rw [h.s.mir, i.2.1] at q; cases q
      · apply q
        rw [lsum_congr (g := fun _ => 0)]
        · simp [lsum]
        · intro k _
          have : a ∉ at' d.seq k := fun q => by rw [h.s.mir, i.2.1] at q; cases q
          unfold sv
          rw [if_neg this, mul_zero]
    · rw [e.beta] at q
      rcases q with q | q
      · rw [i.2.2.2] at q; cases q
      · exact haL q.1
  · rw [← behav_hh hA h.s hF hl hi hz hn e p]
    exact Behav.congr (fun a => (hk a).symm) p

theorem step_luq (hA : A.Lawful) (h : LInv kind d) {n : M} (hn : Dict.has d.seq n = true) (big : M → Bool)
    (ho : reduceLUQ_row A big n d = .ok d') :
    StepTo kind d d' ∧ (∀ a, Dict.has d'.seq a = true → a = n → Iso d' a) := by
  unfold reduceLUQ_row at ho
  by_cases hr : (at' d.req n).isEmpty = true
  · rw [if_pos hr] at ho
    by_cases hb : ((at' d.seq n).isEmpty && (at' d.beta n).isEmpty && (at' d.alpha n).isEmpty) = true
    · rw [if_pos hb] at ho
      cases ho
      rw [Bool.and_eq_true, Bool.and_eq_true, List.isEmpty_iff, List.isEmpty_iff, List.isEmpty_iff] at hb
      rw [List.isEmpty_iff] at hr
      exact ⟨StepTo.refl h, fun a _ e => by subst e; exact ⟨hb.1.1, hr, hb.2, hb.1.2⟩⟩
    · rw [if_neg hb] at ho; cases ho
  · rw [if_neg hr] at ho
    split at ho
    · cases ho
    · set B := (at' d.req n).filter big with hB
      have hBn : B.Nodup := (h.s.lr.nd n).filter _
      have hBm : ∀ k ∈ B, n ∈ at' d.seq k := fun k hk => (h.s.mir _ _).mpr (List.mem_filter.mp hk).1
      have hBK : ∀ k ∈ B, Dict.has d.seq k = true := fun k hk => has_of_mem (hBm k hk)
      have hBI : ∀ k ∈ B, ¬ Iso d k := fun k hk i => by have := hBm k hk; rw [i.1] at this; cases this
      have hnI : ¬ Iso d n := fun i => hr (by rw [i.2.1]; rfl)
      have fin : ∀ {d1 : D M V}, StepTo kind d d1 → (∀ a, Dict.has d1.seq a = true ↔ Dict.has d.seq a = true) →
          reduceLU n d1 = .ok d' → StepTo kind d d' ∧ (∀ a, Dict.has d'.seq a = true → a = n → Iso d' a) := by
        intro d1 s k q
        obtain ⟨s2, n2, _⟩ := step_lu s.inv ((k n).mpr hn) q
        exact ⟨s.trans s2, fun a q e => absurd (e ▸ q) n2⟩
      -- the pivot element
      have hpiv : ∀ {l : List M}, l ≠ [] → l.headD n ∈ l := by
        intro l hl
        cases l with
        | nil => exact absurd rfl hl
        | cons x xs => simp
      by_cases hc : B.length ≥ 2
      · rw [if_pos hc] at ho
        have hne : B ≠ [] := fun e => by rw [e] at hc; simp at hc
        by_cases hall : (B.all fun kf => decide (n ∈ at' d.seq kf)) = true
        · rw [if_pos hall] at ho
          by_cases hnb : n ∉ B
          · rw [if_pos hnb] at ho
            have hp := hpiv hne
            have npv : n ≠ B.headD n := fun e => hnb (by rw [e]; exact hp)
            obtain ⟨d1, q1, s1, sq1, k1⟩ := step_swap h npv hn (hBK _ hp) hnI (hBI _ hp)
            dsimp only at ho
            rw [q1] at ho
            simp only [bind, Except.bind] at ho
            cases hh : householderROW A n (B.filter (· ≠ B.headD n)) d1 with
            | error err => rw [hh] at ho; cases ho
            | ok d2 =>
              rw [hh] at ho
              have hF : (B.filter (· ≠ B.headD n)).Nodup := hBn.filter _
              have hi : n ∉ B.filter (· ≠ B.headD n) := fun q => hnb (List.mem_filter.mp q).1
              obtain ⟨s2, k2⟩ := step_hh hA s1.inv hF hi (by
                intro k hk
                rw [List.mem_append, List.mem_singleton] at hk
                rw [sq1]
                rcases hk with hk | rfl
                · obtain ⟨hk1, hk2⟩ := List.mem_filter.mp hk
                  have : k ≠ n := fun e => hnb (e ▸ hk1)
                  rw [Equiv.swap_apply_of_ne_of_ne this (by simpa using hk2)]
                  exact hBm k hk1
                · rw [Equiv.swap_apply_left]
                  exact hBm _ hp) hh
              exact fin (s1.trans s2) (fun a => (k2 a).trans (k1 a)) ho
          · rw [if_neg hnb] at ho
            have hnb' : n ∈ B := by by_contra q; exact hnb q
            simp only [bind, Except.bind] at ho
            cases hh : householderROW A n (B.filter (· ≠ n)) d with
            | error err => rw [hh] at ho; cases ho
            | ok d2 =>
              rw [hh] at ho
              obtain ⟨s2, k2⟩ := step_hh hA h (hBn.filter _) (by simp) (by
                intro k hk
                rw [List.mem_append, List.mem_singleton] at hk
                rcases hk with hk | rfl
                · exact hBm k (List.mem_filter.mp hk).1
                · exact hBm _ hnb') hh
              exact fin s2 k2 ho
        · rw [if_neg hall] at ho; cases ho
      · rw [if_neg hc] at ho
        by_cases hc1 : B.length = 1
        · rw [if_pos hc1] at ho
          have hne : B ≠ [] := fun e => by rw [e] at hc1; simp at hc1
          by_cases hnb : n ∉ B
          · rw [if_pos hnb] at ho
            have hp := hpiv hne
            have npv : n ≠ B.headD n := fun e => hnb (by rw [e]; exact hp)
            obtain ⟨d1, q1, s1, sq1, k1⟩ := step_swap h npv hn (hBK _ hp) hnI (hBI _ hp)
            dsimp only at ho
            rw [q1] at ho
            exact fin s1 k1 ho
          · rw [if_neg hnb] at ho
            exact fin (StepTo.refl h) (fun _ => Iff.rfl) ho
        · rw [if_neg hc1] at ho
          exact fin (StepTo.refl h) (fun _ => Iff.rfl) ho

/-! ### The queues -/

theorem fill_spec (h : Heur M V C) : ∀ (ns : List M) (t : Nat) (q : List (C × M)),
    ((fill h t ns q).2.map Prod.snd).Perm (ns ++ q.map Prod.snd) := by
  intro ns
  induction ns with
  | nil => intro t q; exact List.Perm.refl _
  | cons n ns ih =>
    intro t q
    rw [fill]
    refine (ih _ _).trans ?_
    have := (Queue.heappush_perm h.lt q (h.cost t n, n)).map Prod.snd
    refine (this.append_left ns).trans ?_
    rw [List.map_cons]
    exact List.perm_middle

theorem touchReq_step (hs : Sound kind (fun n => Dict.has d.seq n = true) d) : StepTo kind d (touchReq d) ∧
    (touchReq d).seq = d.seq ∧ (touchReq d).em = d.em ∧ (touchReq d).alpha = d.alpha ∧ (touchReq d).beta = d.beta := by
  obtain ⟨t1, t2, t3⟩ := touch_foldl (Dict.keys d.seq) d.req
  have hr : ∀ a, at' (touchReq d).req a = at' d.req a := t1
  refine ⟨⟨⟨?_, ?_⟩, fun _ q => q, fun a _ i => ⟨i.1, by rw [hr]; exact i.2.1, i.2.2.1, i.2.2.2⟩, fun p => ?_⟩, rfl, rfl, rfl, rfl⟩
  · exact ⟨fun r s => by rw [hr]; exact hs.mir r s, hs.si, hs.ki, hs.ai, hs.bi, hs.val, hs.used, hs.ls,
      ⟨t2 hs.lr.wf, fun a => by rw [hr]; exact hs.lr.nd a⟩, hs.la, hs.lb⟩
  · intro a q
    show Dict.has ((Dict.keys d.seq).foldl touch d.req) a = true
    rw [t3, Bool.or_eq_true, decide_eq_true_eq]
    exact Or.inr ((Dict.has_iff _ _).mp q)
  · exact ⟨fun ⟨x, s, e⟩ => ⟨x, ⟨s.int, s.snk⟩, e⟩, fun ⟨x, s, e⟩ => ⟨x, ⟨s.int, s.snk⟩, e⟩⟩

theorem trivialLoop_spec (h : Heur M V C) : ∀ (fuel t : Nat) (q : List (C × M)) (d : D M V) (r : Nat × D M V),
    LInv kind d → (q.map Prod.snd).Nodup → (∀ n ∈ q.map Prod.snd, Dict.has d.seq n = true) →
    trivialLoop h fuel t q d = .ok r → StepTo kind d r.2 := by
  intro fuel
  induction fuel with
  | zero =>
    intro t q d r hi _ _ ho
    rw [trivialLoop] at ho
    cases ho
    exact StepTo.refl hi
  | succ fuel ih =>
    intro t q d r hi hnd hp ho
    rw [trivialLoop] at ho
    cases hq : Queue.heappop h.lt q with
    | none =>
      rw [hq] at ho
      cases ho
      exact StepTo.refl hi
    | some x =>
      obtain ⟨⟨c, n⟩, q'⟩ := x
      rw [hq] at ho
      dsimp only at ho
      have perm := (Queue.heappop_perm h.lt hq).map Prod.snd
      rw [List.map_cons] at perm
      have hnd' := perm.symm.nodup hnd
      obtain ⟨hn', hnd''⟩ := List.nodup_cons.mp hnd'
      have hp' : ∀ m ∈ q'.map Prod.snd, Dict.has d.seq m = true := fun m hm =>
        hp m (perm.subset (List.mem_cons_of_mem _ hm))
      have hpn : Dict.has d.seq n = true := hp n (perm.subset (by simp))
      cases hg : Dict.get? d.em (n, n) with
      | none => rw [hg] at ho; exact ih _ _ _ _ hi hnd'' hp' ho
      | some v =>
        rw [hg] at ho
        dsimp only at ho
        split at ho
        · exact ih _ _ _ _ hi hnd'' hp' ho
        · split at ho
          · exact ih _ _ _ _ hi hnd'' hp' ho
          · cases hl : reduceLU n d with
            | error e => rw [hl] at ho; cases ho
            | ok d1 =>
              rw [hl] at ho
              obtain ⟨s, _, k⟩ := step_lu hi hpn hl
              refine s.trans (ih _ _ _ _ s.inv hnd'' (fun m hm => ?_) ho)
              rw [k]
              exact ⟨hp' m hm, fun e => hn' (e ▸ hm)⟩

theorem simplify_trivial_spec (h : Heur M V C) {t : Nat} {r : Nat × D M V}
    (hi : Sound kind (fun n => Dict.has d.seq n = true) d) (ho : simplify_trivial h t d = .ok r) : StepTo kind d r.2 := by
  unfold simplify_trivial at ho
  obtain ⟨s, e1, e2, e3, e4⟩ := touchReq_step hi
  have perm := fill_spec h (Dict.keys (touchReq d).seq) t []
  simp only [List.map_nil, List.append_nil] at perm
  refine s.trans (trivialLoop_spec h _ _ _ _ _ s.inv (perm.symm.nodup s.inv.s.ls.wf) (fun n hn => ?_) ho)
  exact (Dict.has_iff _ _).mpr (perm.subset hn)

/-- Every present node with an edge is in the list. -/
def Cover (d : D M V) (l : List M) : Prop := ∀ a, Dict.has d.seq a = true → Iso d a ∨ a ∈ l

theorem Cover.mono {l l' : List M} (h : Cover d l) (hs : ∀ a ∈ l, Dict.has d.seq a = true → a ∈ l') : Cover d l' :=
  fun a q => (h a q).imp id (fun m => hs a m q)

theorem requeue_spec (h : Heur M V C) (d : D M V) : ∀ (ns : List M) (t : Nat) (q : List (C × M)),
    ∀ a ∈ q.map Prod.snd, a ∈ (requeue h d t ns q).2.map Prod.snd := by
  intro ns
  induction ns with
  | nil => intro t q a ha; exact ha
  | cons n ns ih =>
    intro t q a ha
    rw [requeue]
    split
    · apply ih
      have := (Queue.heappush_perm h.lt q (h.cost t n, n)).map Prod.snd
      exact this.symm.subset (List.mem_cons_of_mem _ ha)
    · exact ih _ _ _ ha

theorem popLive_spec (h : Heur M V C) (d : D M V) : ∀ (fuel : Nat) (q : List (C × M)), q.length ≤ fuel →
    (popLive h d fuel q = none → ∀ a ∈ q.map Prod.snd, Dict.has d.seq a ≠ true) ∧
    (∀ cn q', popLive h d fuel q = some (cn, q') → Dict.has d.seq cn.2 = true ∧
      ∀ a ∈ q.map Prod.snd, Dict.has d.seq a = true → a ∈ cn.2 :: q'.map Prod.snd) := by
  intro fuel
  induction fuel with
  | zero =>
    intro q hl
    have : q = [] := List.length_eq_zero_iff.mp (Nat.le_zero.mp hl)
    subst this
    exact ⟨fun _ a ha => (by simp at ha), fun cn q' e => (by rw [popLive] at e; cases e)⟩
  | succ fuel ih =>
    intro q hl
    rw [popLive]
    cases hq : Queue.heappop h.lt q with
    | none =>
      have := (Queue.heappop_none h.lt).mp hq
      subst this
      exact ⟨fun _ a ha => (by simp at ha), fun cn q' e => (by cases e)⟩
    | some x =>
      obtain ⟨cn, q'⟩ := x
      have perm := Queue.heappop_perm h.lt hq
      have pm := perm.map Prod.snd
      rw [List.map_cons] at pm
      have hl' : q'.length ≤ fuel := by
        have := perm.length_eq
        rw [List.length_cons] at this
        omega
      obtain ⟨h1, h2⟩ := ih q' hl'
      dsimp only
      by_cases hc : Dict.has d.seq cn.2 = true
      · rw [if_pos hc]
        refine ⟨fun e => (by cases e), fun cn' q'' e => ?_⟩
        cases e
        exact ⟨hc, fun a ha _ => pm.symm.subset ha⟩
      · rw [if_neg hc]
        refine ⟨fun e a ha => ?_, fun cn' q'' e => ?_⟩
        · rcases List.mem_cons.mp (pm.symm.subset ha) with rfl | ha
          · exact hc
          · exact h1 e a ha
        · obtain ⟨g1, g2⟩ := h2 cn' q'' e
          refine ⟨g1, fun a ha hk => ?_⟩
          rcases List.mem_cons.mp (pm.symm.subset ha) with rfl | ha
          · exact absurd hk hc
          · exact g2 a ha hk

theorem settle_spec (h : Heur M V C) (d : D M V) : ∀ (fuel t : Nat) (cn : C × M) (q : List (C × M)) (r : Nat × Option (M × List (C × M))),
    Dict.has d.seq cn.2 = true → Cover d (cn.2 :: q.map Prod.snd) → settle h d fuel t cn q = .ok r →
    (r.2 = none → Cover d []) ∧
    (∀ n q', r.2 = some (n, q') → Dict.has d.seq n = true ∧ Cover d (n :: q'.map Prod.snd)) := by
  intro fuel
  induction fuel with
  | zero => intro t cn q r _ _ ho; rw [settle] at ho; cases ho
  | succ fuel ih =>
    intro t cn q r hk hc ho
    rw [settle] at ho
    dsimp only at ho
    split at ho
    · have pm := (Queue.heappushpop_perm h.lt q (h.cost t cn.2, cn.2)).map Prod.snd
      rw [List.map_cons, List.map_cons] at pm
      dsimp only at pm
      set x := Queue.heappushpop h.lt q (h.cost t cn.2, cn.2) with hx
      have hc' : Cover d (x.1.2 :: x.2.map Prod.snd) := hc.mono (fun a ha _ => pm.symm.subset ha)
      by_cases hk' : Dict.has d.seq x.1.2 = true
      · rw [if_pos hk'] at ho
        exact ih _ _ _ _ hk' hc' ho
      · rw [if_neg hk'] at ho
        obtain ⟨p1, p2⟩ := popLive_spec h d x.2.length x.2 (le_refl _)
        cases hp : popLive h d x.2.length x.2 with
        | none =>
          rw [hp] at ho
          cases ho
          refine ⟨fun _ => hc'.mono (fun a ha hka => ?_), fun n q' e => (by cases e)⟩
          rcases List.mem_cons.mp ha with rfl | ha
          · exact absurd hka hk'
          · exact absurd hka (p1 hp a ha)
        | some y =>
          obtain ⟨cn', q'⟩ := y
          rw [hp] at ho
          obtain ⟨g1, g2⟩ := p2 cn' q' hp
          refine ih _ _ _ _ g1 (hc'.mono (fun a ha hka => ?_)) ho
          rcases List.mem_cons.mp ha with rfl | ha
          · exact absurd hka hk'
          · exact g2 a ha hka
    · cases ho
      refine ⟨fun e => (by cases e), fun n q' e => ?_⟩
      cases e
      exact ⟨hk, hc⟩

theorem badLoop_spec (hA : A.Lawful) (h : Heur M V C) (inv : Nat → List M) : ∀ (fuel t : Nat) (q : List (C × M)) (d d' : D M V),
    LInv kind d → Cover d (q.map Prod.snd) → badLoop h A inv fuel t q d = .ok d' → StepTo kind d d' ∧ Cover d' [] := by
  intro fuel
  induction fuel with
  | zero => intro t q d d' _ _ ho; rw [badLoop] at ho; cases ho
  | succ fuel ih =>
    intro t q d d' hi hc ho
    rw [badLoop] at ho
    by_cases hr : d.req.isEmpty = true
    · rw [if_pos hr] at ho
      cases ho
      refine ⟨StepTo.refl hi, fun a ha => ?_⟩
      have := hi.r a ha
      rw [List.isEmpty_iff.mp hr] at this
      cases this
    · rw [if_neg hr] at ho
      have hc1 : Cover d ((requeue h d t (inv t) q).2.map Prod.snd) := hc.mono (fun a ha _ => requeue_spec h d _ _ _ a ha)
      generalize requeue h d t (inv t) q = tq at ho hc1
      obtain ⟨t1, q1⟩ := tq
      dsimp only at ho hc1
      cases hq : Queue.heappop h.lt q1 with
      | none =>
        rw [hq] at ho
        cases ho
        have := (Queue.heappop_none h.lt).mp hq
        subst this
        exact ⟨StepTo.refl hi, hc1⟩
      | some x =>
        obtain ⟨cn, q2⟩ := x
        rw [hq] at ho
        dsimp only at ho
        have pm := (Queue.heappop_perm h.lt hq).map Prod.snd
        rw [List.map_cons] at pm
        have hc2 : Cover d (cn.2 :: q2.map Prod.snd) := hc1.mono (fun a ha _ => pm.symm.subset ha)
        by_cases hk : Dict.has d.seq cn.2 = true
        · rw [if_pos hk] at ho
          cases hs : settle h d fuel t1 cn q2 with
          | error e => rw [hs] at ho; cases ho
          | ok r =>
            rw [hs] at ho
            obtain ⟨s1, s2⟩ := settle_spec h d _ _ _ _ _ hk hc2 hs
            obtain ⟨t3, o⟩ := r
            cases o with
            | none =>
              cases ho
              exact ⟨StepTo.refl hi, s1 rfl⟩
            | some y =>
              obtain ⟨n, q3⟩ := y
              obtain ⟨g1, g2⟩ := s2 n q3 rfl
              simp only [bind, Except.bind] at ho
              cases hl : reduceLUQ_row A (h.big t3 n) n d with
              | error e => rw [hl] at ho; cases ho
              | ok d1 =>
                rw [hl] at ho
                obtain ⟨st, it⟩ := step_luq hA hi g1 _ hl
                obtain ⟨f1, f2⟩ := ih _ _ _ _ st.inv (by
                  intro a ha
                  rcases g2 a (st.sub a ha) with q | q
                  · exact Or.inl (st.iso a ha q)
                  · rcases List.mem_cons.mp q with rfl | q
                    · exact Or.inl (it _ ha rfl)
                    · exact Or.inr q) ho
                exact ⟨st.trans f1, f2⟩
        · rw [if_neg hk] at ho
          refine ih _ _ _ _ hi (hc2.mono (fun a ha hka => ?_)) ho
          rcases List.mem_cons.mp ha with rfl | ha
          · exact absurd hka hk
          · exact ha

theorem balance_fold (em : Dict (M × M) V) : ∀ (l : Dict M (List M)),
    (∀ kv ∈ l, ∀ s ∈ kv.2, Dict.has em (kv.1, s) = true) →
    l.foldl (fun em kv => kv.2.foldl (fun em s =>
      if !em.isEmpty && !Dict.has em (kv.1, s) then Dict.set em (kv.1, s) 0 else em) em) em = em := by
  intro l
  induction l with
  | nil => intro _; rfl
  | cons kv l ih =>
    intro h
    rw [List.foldl_cons]
    have inner : ∀ (ss : List M), (∀ s ∈ ss, Dict.has em (kv.1, s) = true) →
        ss.foldl (fun em s => if !em.isEmpty && !Dict.has em (kv.1, s) then Dict.set em (kv.1, s) 0 else em) em = em := by
      intro ss
      induction ss with
      | nil => intro _; rfl
      | cons s ss ihs =>
        intro hs
        rw [List.foldl_cons, if_neg (by simp [hs s (by simp)])]
        exact ihs (fun s' h' => hs s' (List.mem_cons_of_mem _ h'))
    rw [inner kv.2 (h kv (by simp))]
    exact ih (fun kv' h' => h kv' (List.mem_cons_of_mem _ h'))

theorem check_balance_spec {K : M → Prop} (h : Sound kind K d) : check_balance d = .ok d := by
  unfold check_balance check_seq_req_balance
  have m1 : ∀ kv ∈ d.seq, ∀ s ∈ kv.2, s ∈ at' d.seq kv.1 := by
    rintro ⟨a, l⟩ hkv s hs
    unfold at'
    rw [Dict.get?_of_mem h.ls.wf hkv]
    exact hs
  have m2 : ∀ kv ∈ d.req, ∀ s ∈ kv.2, s ∈ at' d.req kv.1 := by
    rintro ⟨a, l⟩ hkv s hs
    unfold at'
    rw [Dict.get?_of_mem h.lr.wf hkv]
    exact hs
  have e : ((d.seq.all fun kv => kv.2.all fun s => decide (kv.1 ∈ (⟨d.seq, d.req, d.em⟩ : G M V).pred s)) &&
      d.req.all fun kv => kv.2.all fun r => decide (kv.1 ∈ (⟨d.seq, d.req, d.em⟩ : G M V).succ r)) = true := by
    rw [Bool.and_eq_true, List.all_eq_true, List.all_eq_true]
    refine ⟨fun kv hkv => List.all_eq_true.mpr fun s hs => decide_eq_true ?_, fun kv hkv => List.all_eq_true.mpr fun s hs => decide_eq_true ?_⟩
    · exact (h.mir _ _).mp (m1 kv hkv s hs)
    · exact (h.mir _ _).mpr (m2 kv hkv s hs)
  dsimp only
  rw [if_pos e, balance_fold d.em d.seq (fun kv hkv s hs => h.val _ _ (Or.inl (m1 kv hkv s hs)))]
  rfl

/-- The simplification keeps the behaviour and leaves only isolated internal nodes. -/
theorem simplify_spec (hA : A.Lawful) (h : Heur M V C) (inv : Nat → List M) (fuel : Nat)
    (hi : Sound kind (fun n => Dict.has d.seq n = true) d) (ho : mgraph_simplify h A inv fuel d = .ok d') :
    StepTo kind d d' ∧ Cover d' [] := by
  unfold mgraph_simplify at ho
  rw [check_balance_spec hi] at ho
  simp only [bind, Except.bind] at ho
  cases h1 : simplify_trivial h 0 d with
  | error e => rw [h1] at ho; cases ho
  | ok r1 =>
    rw [h1] at ho
    have s1 := simplify_trivial_spec h hi h1
    dsimp only at ho
    cases h2 : simplify_trivial h r1.1 r1.2 with
    | error e => rw [h2] at ho; cases ho
    | ok r2 =>
      rw [h2] at ho
      have s2 := simplify_trivial_spec h s1.inv.s h2
      dsimp only at ho
      cases h3 : simplify_trivial h r2.1 r2.2 with
      | error e => rw [h3] at ho; cases ho
      | ok r3 =>
        rw [h3] at ho
        have s3 := simplify_trivial_spec h s2.inv.s h3
        dsimp only at ho
        unfold simplify_badguys at ho
        obtain ⟨s4, e1, _⟩ := touchReq_step s3.inv.s
        have perm := fill_spec h (Dict.keys (touchReq r3.2).seq) r3.1 []
        simp only [List.map_nil, List.append_nil] at perm
        obtain ⟨s5, c⟩ := badLoop_spec hA h inv fuel _ _ _ _ s4.inv (fun a ha =>
          Or.inr (perm.symm.subset ((Dict.has_iff _ _).mp ha))) ho
        exact ⟨((s1.trans s2).trans s3).trans (s4.trans s5), c⟩

/-- What the final system says about sources and sinks. -/
theorem behav_final (h : LInv kind d) (hc : Cover d []) (p : M → V) :
    Behav kind (fun n => Dict.has d.seq n = true) d p ↔
      ∀ b, kind b = .snk → p b = ∑ a, if kind a = .src then Cw d a b * p a else 0 := by
  have iso : ∀ a, Dict.has d.seq a = true → Iso d a := fun a ha => (hc a ha).resolve_right (by simp)
  have into : ∀ r t, Dict.has d.seq t = true → Cw d r t = 0 := by
    intro r t ht
    unfold Cw
    rw [if_neg]
    obtain ⟨i1, i2, i3, i4⟩ := iso t ht
    rintro (q | q | q)
    · rw [h.s.mir, i2] at q; cases q
    · exact h.s.notBeta (h.s.ki t ht) r q
    · rw [i3] at q; cases q
  have snk : ∀ (x : M → V) b, kind b = .snk → ∑ r, Cw d r b * x r = ∑ a, if kind a = .src then Cw d a b * x a else 0 := by
    intro x b hb
    apply Finset.sum_congr rfl
    intro r _
    split
    · rfl
    · rename_i hr
      have : Cw d r b = 0 := by
        unfold Cw
        rw [if_neg]
        rintro (q | q | q)
        · have := h.s.ki b (h.s.si _ _ q).2
          rw [hb] at this; cases this
        · rcases (h.s.bi _ _ q).2 with q' | q'
          · have := iso r q'
            rw [this.2.2.2] at q; cases q
          · exact hr q'.1
        · exact hr (h.s.ai _ _ q).1
      rw [this, zero_mul]
  constructor
  · rintro ⟨x, s, hx⟩ b hb
    rw [← hx b (by rw [hb]; exact Kind.noConfusion), s.snk b hb, snk x b hb]
    apply Finset.sum_congr rfl
    intro a _
    split
    · rename_i ha
      rw [hx a (by rw [ha]; exact Kind.noConfusion)]
    · rfl
  · intro hp
    refine ⟨p, ⟨fun t ht => ?_, fun b hb => ?_⟩, fun _ _ => rfl⟩
    · apply Finset.sum_eq_zero
      intro r _
      rw [into r t ht, zero_mul]
    · rw [snk p b hb]
      exact hp b hb

end Dag
