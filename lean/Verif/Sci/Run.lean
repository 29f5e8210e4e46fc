import Verif.Sci.Core

/-! # The results of a run -/

set_option linter.unusedSectionVars false

namespace Sci
open Py Graph Dag

variable {N : Type} {V : Type} [DecidableEq N] [Field V] [DecidableEq V] [Fintype N]
variable {K : N → Prop} {value : V} {outs inp : List N} {src : Option (Dict N V)} {g : G N V} {d : D (WN N) V}
variable {keys ka : List (WN N)}

theorem set_new {α β : Type} [DecidableEq α] : ∀ (m : Dict α β) (k : α) (v : β), k ∉ m.map Prod.fst → Dict.set m k v = m ++ [(k, v)] := by
  intro m
  induction m with
  | nil => intro k v _; rfl
  | cons a m ih =>
    obtain ⟨k', v'⟩ := a
    intro k v hk
    simp only [List.map_cons, List.mem_cons, not_or] at hk
    unfold Dict.set
    rw [if_neg (Ne.symm hk.1), ih k v hk.2]
    rfl

theorem ab_eq : ∀ (x : Coo V) (m : Dict (Nat × Nat) V), (m.map Prod.fst ++ x.map (fun t => (t.1, t.2.1))).Nodup →
    x.foldl (fun (m : Dict (Nat × Nat) V) t => Dict.set m (t.1, t.2.1) t.2.2) m = m ++ x.map (fun t => ((t.1, t.2.1), t.2.2)) := by
  intro x
  induction x with
  | nil => intro m _; simp
  | cons t x ih =>
    intro m hm
    rw [List.foldl_cons]
    have h1 : (t.1, t.2.1) ∉ m.map Prod.fst := by
      intro q
      rw [List.nodup_append] at hm
      exact hm.2.2 _ q _ (by simp) rfl
    rw [set_new _ _ _ h1, ih]
    · simp
    · simpa using hm

/-- The stored entry `t` is the response at the output `n` to the source `a`. -/
def Hit (keys ka : List (WN N)) (outs : List N) (t : (Nat × Nat) × V) (a : WN N) (n : N) : Prop :=
  ka[t.1.1]? = some a ∧ keys[t.1.2]? = some (.node n) ∧ n ∈ outs

/-- The values of the output edges. -/
def embOf (d : D (WN N) V) : Dict (WN N × WN N) V := (pairs d.beta).map (fun p => (p, (Dict.get? d.em p).getD 0))

section
variable (h : Prep K value outs inp src g d)
include h

theorem build_emb : build (beta_cell d.em) (pairs d.beta) = .ok (embOf d) := by
  apply build_of
  rintro ⟨a, b⟩ hp
  rw [mem_pairs h.lb.wf] at hp
  unfold beta_cell
  have := h.sound.val a b (Or.inr (Or.inl hp))
  unfold Dict.get
  cases hg : Dict.get? d.em (a, b) with
  | none => rw [hg] at this; cases this
  | some v => rfl

theorem beta_at {n : N} (hn : K n) : at' d.beta (.node n) = if n ∈ outs then [.out n] else [] := by
  have h1 : ∀ w, w ∈ at' d.beta (.node n) ↔ w = .out n ∧ n ∈ outs := by
    intro w
    rw [h.be]
    constructor
    · rintro ⟨t, e, _, rfl, ht⟩; cases e; exact ⟨rfl, ht⟩
    · rintro ⟨rfl, ht⟩; exact ⟨n, rfl, hn, rfl, ht⟩
  have nd := h.lb.nd (.node n)
  by_cases ho : n ∈ outs
  · rw [if_pos ho]
    cases hl : at' d.beta (.node n) with
    | nil =>
      have := (h1 (.out n)).mpr ⟨rfl, ho⟩
      rw [hl] at this
      simp at this
    | cons w ws =>
      rw [hl] at h1 nd
      have hw := ((h1 w).mp (by simp)).1
      cases ws with
      | nil => rw [hw]
      | cons w' ws =>
        have hw' := ((h1 w').mp (by simp)).1
        rw [hw, hw'] at nd
        simp at nd
  · rw [if_neg ho]
    apply List.eq_nil_iff_forall_not_mem.mpr
    intro w hw
    exact ho ((h1 w).mp hw).2

theorem emb_get {n : N} (hn : K n) (ho : n ∈ outs) : Dict.get (embOf d) (.node n, .out n) = .ok value := by
  have hp : (WN.node n, WN.out n) ∈ pairs d.beta := by
    rw [mem_pairs h.lb.wf, beta_at h hn, if_pos ho]
    simp
  have hwf : Dict.WF (embOf d) := by
    unfold Dict.WF Dict.keys embOf
    rw [List.map_map]
    have : (Prod.fst ∘ fun p : WN N × WN N => (p, (Dict.get? d.em p).getD 0)) = id := rfl
    rw [this, List.map_id]
    exact pairs_nodup h.lb
  have hm : ((WN.node n, WN.out n), (Dict.get? d.em (.node n, .out n)).getD 0) ∈ embOf d :=
    List.mem_map.mpr ⟨_, hp, rfl⟩
  unfold Dict.get
  rw [Dict.get?_of_mem hwf hm]
  rw [h.em _ _ (by rintro m e; cases e; exact hn)]
  simp [em0, ho]

theorem out_loop_spec : ∀ (ts : Dict (Nat × Nat) V) (d0 : D (WN N) V),
    (∀ t ∈ ts, t.1.1 < ka.length ∧ ∃ n, keys[t.1.2]? = some (.node n) ∧ K n) →
    ∃ d', out_loop keys ka d.beta (embOf d) ts d0 = .ok d' ∧
      (∀ a n, (∀ t ∈ ts, ¬ Hit keys ka outs t a n) → Dict.get? d'.em (a, .out n) = Dict.get? d0.em (a, .out n)) ∧
      (∀ a n t, t ∈ ts → Hit keys ka outs t a n → (∀ t' ∈ ts, Hit keys ka outs t' a n → t' = t) →
        Dict.get? d'.em (a, .out n) = some (t.2 * value)) ∧
      (∀ a w, w ∈ at' d'.beta a ↔ w ∈ at' d0.beta a ∨ ∃ n, w = .out n ∧ ∃ t ∈ ts, Hit keys ka outs t a n) := by
  intro ts
  induction ts with
  | nil =>
    intro d0 _
    exact ⟨d0, rfl, fun _ _ _ => rfl, fun _ _ _ q => by simp at q, fun a w => by simp⟩
  | cons t ts ih =>
    intro d0 hr
    obtain ⟨hr1, n, hr2, hn⟩ := hr t (by simp)
    have i1 : item ka t.1.1 = .ok ka[t.1.1] := item_ok hr1
    have i2 : item keys t.1.2 = .ok (.node n) := by unfold item; rw [hr2]
    by_cases ho : n ∈ outs
    · have e : out_turn keys ka d.beta (embOf d) d0 t = .ok { d0 with em := Dict.set d0.em (ka[t.1.1], .out n) (t.2 * value), beta := ins d0.beta ka[t.1.1] (.out n), alpha := ins d0.alpha (.out n) ka[t.1.1] } := by
        unfold out_turn
        rw [i1, i2]
        simp only [bind, Except.bind]
        rw [beta_at h hn, if_pos ho]
        dsimp only
        rw [emb_get h hn ho]
        rfl
      obtain ⟨d', e', p1, p2, p3⟩ := ih _ (fun t' ht' => hr t' (by simp [ht']))
      refine ⟨d', ?_, ?_, ?_, ?_⟩
      · unfold out_loop
        rw [e]
        exact e'
      · intro a m hm
        rw [p1 a m (fun t' ht' => hm t' (by simp [ht'])), Dict.get?_set_ne]
        intro q
        apply hm t (by simp)
        cases q
        exact ⟨List.getElem?_eq_getElem hr1, hr2, ho⟩
      · intro a m t' ht' hit hu
        by_cases hex : ∃ t'' ∈ ts, Hit keys ka outs t'' a m
        · obtain ⟨t'', k1, k2⟩ := hex
          have : t'' = t' := hu t'' (by simp [k1]) k2
          subst this
          exact p2 a m _ k1 k2 (fun q hq hh => hu q (by simp [hq]) hh)
        · have hh : ∀ q ∈ ts, ¬ Hit keys ka outs q a m := fun q hq hh => hex ⟨q, hq, hh⟩
          rw [p1 a m hh]
          rw [List.mem_cons] at ht'
          rcases ht' with rfl | ht'
          · have e1 : a = ka[t'.1.1] := by
              have := hit.1
              rw [List.getElem?_eq_getElem hr1] at this
              exact (Option.some.inj this).symm
            have e2 : m = n := by
              have := hit.2.1
              rw [hr2] at this
              cases this
              rfl
            subst e2
            rw [e1, Dict.get?_set_self]
          · exact absurd hit (hh t' ht')
      · intro a w
        rw [p3]
        dsimp only
        rw [mem_ins]
        constructor
        · rintro ((q | ⟨rfl, rfl⟩) | ⟨m, rfl, t', k1, k2⟩)
          · exact Or.inl q
          · exact Or.inr ⟨n, rfl, t, by simp, List.getElem?_eq_getElem hr1, hr2, ho⟩
          · exact Or.inr ⟨m, rfl, t', by simp [k1], k2⟩
        · rintro (q | ⟨m, rfl, t', k1, k2⟩)
          · exact Or.inl (Or.inl q)
          · rw [List.mem_cons] at k1
            rcases k1 with rfl | k1
            · left; right
              have e1 := k2.1
              rw [List.getElem?_eq_getElem hr1] at e1
              have e2 := k2.2.1
              rw [hr2] at e2
              cases e2
              exact ⟨Option.some.inj e1, rfl⟩
            · exact Or.inr ⟨m, rfl, t', k1, k2⟩
    · have e : out_turn keys ka d.beta (embOf d) d0 t = .ok d0 := by
        unfold out_turn
        rw [i1, i2]
        simp only [bind, Except.bind]
        rw [beta_at h hn, if_neg ho]
        rfl
      have no : ∀ a m, ¬ Hit keys ka outs t a m := by
        rintro a m ⟨_, q, q'⟩
        rw [hr2] at q
        cases q
        exact ho q'
      obtain ⟨d', e', p1, p2, p3⟩ := ih d0 (fun t' ht' => hr t' (by simp [ht']))
      refine ⟨d', ?_, ?_, ?_, ?_⟩
      · unfold out_loop
        rw [e]
        exact e'
      · intro a m hm
        exact p1 a m (fun t' ht' => hm t' (by simp [ht']))
      · intro a m t' ht' hit hu
        rw [List.mem_cons] at ht'
        rcases ht' with rfl | ht'
        · exact absurd hit (no a m)
        · exact p2 a m t' ht' hit (fun q hq hh => hu q (by simp [hq]) hh)
      · intro a w
        rw [p3]
        constructor
        · rintro (q | ⟨m, rfl, t', k1, k2⟩)
          · exact Or.inl q
          · exact Or.inr ⟨m, rfl, t', by simp [k1], k2⟩
        · rintro (q | ⟨m, rfl, t', k1, k2⟩)
          · exact Or.inl q
          · rw [List.mem_cons] at k1
            rcases k1 with rfl | k1
            · exact absurd k2 (no a m)
            · exact Or.inr ⟨m, rfl, t', k1, k2⟩

end

/-- The response of the kept node `n` to the source `a`. -/
noncomputable def resp (K : N → Prop) (keys ka : List (WN N)) (x : Coo V) (a : WN N) (n : N) : V :=
  open Classical in if a ∈ ka ∧ K n then entry x (ka.idxOf a) (keys.idxOf (.node n)) else 0

section
variable (h : Prep K value outs inp src g d) (hs : Sorted d keys ka) {L : Lib (WN N) V}
include h hs

/-- The result of the solve fills the maps. -/
theorem ab_spec {x : Coo V} (hreg : Regular keys.length (coo d keys)) (hr : ∀ t ∈ x, t.1 < ka.length ∧ t.2.1 < keys.length)
    (ho : (x.map (fun t => (t.1, t.2.1))).Nodup) :
    ∃ d', out_loop keys ka d.beta (embOf d)
        (x.foldl (fun (m : Dict (Nat × Nat) V) t => Dict.set m (t.1, t.2.1) t.2.2) []) { d with em := [] } = .ok d' ∧
      (∀ a n, (Dict.get? d'.em (a, .out n)).getD 0 = if n ∈ outs then resp K keys ka x a n * value else 0) ∧
      (∀ a n, (Dict.get? d'.em (a, .out n)).isSome ↔ .out n ∈ at' d'.beta a ∧ (∀ m, a ≠ .node m)) ∧
      (∀ i w, w ∈ at' d'.beta (.inp i) → ∃ n, w = .out n) := by
  classical
  rw [ab_eq x [] (by simpa using ho), List.nil_append]
  have hk := fun w hw => keys_only h hs hreg (w := w) hw
  have hts : ∀ t ∈ x.map (fun t => ((t.1, t.2.1), t.2.2)), t.1.1 < ka.length ∧ ∃ n, keys[t.1.2]? = some (.node n) ∧ K n := by
    intro t ht
    rw [List.mem_map] at ht
    obtain ⟨u, hu, rfl⟩ := ht
    obtain ⟨r1, r2⟩ := hr u hu
    refine ⟨r1, ?_⟩
    obtain ⟨n, e, hn⟩ := hk _ (List.getElem_mem r2)
    exact ⟨n, by rw [List.getElem?_eq_getElem r2, e], hn⟩
  obtain ⟨d', e, p1, p2, p3⟩ := out_loop_spec (d := d) h _ { d with em := [] } hts
  have hnd : x.Nodup := List.Nodup.of_map _ ho
  have hpos : ∀ t ∈ x, ∀ t' ∈ x, (t.1, t.2.1) = (t'.1, t'.2.1) → t = t' := fun t ht t' ht' e =>
    List.inj_on_of_nodup_map ho ht ht' e
  have pos : ∀ {u : Nat × Nat × V} {a n}, Hit keys ka outs ((u.1, u.2.1), u.2.2) a n → u.1 = ka.idxOf a ∧ u.2.1 = keys.idxOf (.node n) ∧ a ∈ ka ∧ K n := by
    rintro u a n ⟨q1, q2, -⟩
    dsimp only at q1 q2
    obtain ⟨l1, e1⟩ := List.getElem?_eq_some_iff.mp q1
    obtain ⟨l2, e2⟩ := List.getElem?_eq_some_iff.mp q2
    refine ⟨?_, ?_, ?_, ?_⟩
    · rw [← e1, (hs.nodupα h).idxOf_getElem]
    · rw [← e2, (hs.nodup h).idxOf_getElem]
    · rw [← e1]; exact List.getElem_mem _
    · obtain ⟨m, e, hm⟩ := hk _ (List.getElem_mem l2)
      rw [e2] at e
      cases e
      exact hm
  have uniq : ∀ {a n} {t : (Nat × Nat) × V}, t ∈ x.map (fun t => ((t.1, t.2.1), t.2.2)) → Hit keys ka outs t a n →
      ∀ t' ∈ x.map (fun t => ((t.1, t.2.1), t.2.2)), Hit keys ka outs t' a n → t' = t := by
    intro a n t ht k t' ht' k'
    rw [List.mem_map] at ht ht'
    obtain ⟨u, hu, rfl⟩ := ht
    obtain ⟨u', hu', rfl⟩ := ht'
    obtain ⟨a1, a2, -, -⟩ := pos k
    obtain ⟨b1, b2, -, -⟩ := pos k'
    rw [hpos u' hu' u hu (by rw [a1, a2, b1, b2])]
  refine ⟨d', e, fun a n => ?_, fun a n => ?_, fun i w hw => ?_⟩
  · by_cases hex : ∃ t ∈ x.map (fun t => ((t.1, t.2.1), t.2.2)), Hit keys ka outs t a n
    · obtain ⟨t, ht, hit⟩ := hex
      rw [p2 a n t ht hit (uniq ht hit), if_pos hit.2.2]
      rw [List.mem_map] at ht
      obtain ⟨u, hu, rfl⟩ := ht
      obtain ⟨a1, a2, a3, a4⟩ := pos hit
      unfold resp
      rw [if_pos ⟨a3, a4⟩]
      have := entry_at (row := fun u : Nat × Nat × V => u.1) (col := fun u => u.2.1) (val := fun u => u.2.2) hnd hu
        (fun q hq e1 e2 => hpos q hq u hu (by rw [e1, e2]))
      have e0 : x.map (fun q : Nat × Nat × V => (q.1, q.2.1, q.2.2)) = x := by simp
      rw [e0] at this
      rw [← a1, ← a2, this]
      rfl
    · have hno : ∀ t ∈ x.map (fun t => ((t.1, t.2.1), t.2.2)), ¬ Hit keys ka outs t a n := fun t ht hh => hex ⟨t, ht, hh⟩
      rw [p1 a n hno]
      by_cases hn : n ∈ outs
      · rw [if_pos hn]
        unfold resp
        split
        · rename_i hh
          rw [entry_off, zero_mul]
          · rfl
          · rintro u hu ⟨e1, e2⟩
            apply hno _ (List.mem_map.mpr ⟨u, hu, rfl⟩)
            refine ⟨?_, ?_, hn⟩
            · dsimp only
              rw [e1, List.getElem?_idxOf hh.1]
            · dsimp only
              rw [e2, List.getElem?_idxOf (hs.mem h hh.2)]
        · rw [zero_mul]; rfl
      · rw [if_neg hn]; rfl
  · rw [p3]
    constructor
    · intro hsome
      by_cases hex : ∃ t ∈ x.map (fun t => ((t.1, t.2.1), t.2.2)), Hit keys ka outs t a n
      · refine ⟨Or.inr ⟨n, rfl, hex⟩, ?_⟩
        rintro m rfl
        obtain ⟨t, ht, hit⟩ := hex
        rw [List.mem_map] at ht
        obtain ⟨u, hu, rfl⟩ := ht
        obtain ⟨s, q⟩ := (hs.memα h _).mp (pos hit).2.2.1
        obtain ⟨_, _, _, e | e⟩ := (h.al _ _).mp q <;> cases e.1
      · rw [p1 a n (fun t ht hh => hex ⟨t, ht, hh⟩)] at hsome
        cases hsome
    · rintro ⟨q | ⟨m, e', t, ht, hit⟩, hne⟩
      · obtain ⟨t, rfl, _⟩ := (h.be _ _).mp q
        exact absurd rfl (hne t)
      · cases e'
        rw [p2 a n t ht hit (uniq ht hit)]
        rfl
  · rw [p3] at hw
    rcases hw with q | ⟨n, rfl, _⟩
    · obtain ⟨t, e', _⟩ := (h.be _ _).mp q
      cases e'
    · exact ⟨n, rfl⟩

/-- Every column solves the system of its source. -/
theorem resp_solves {x : Coo V} (hreg : Regular keys.length (coo d keys))
    (hx : ∀ c < ka.length, ∀ r < keys.length, ∑ k ∈ Finset.range keys.length, entry (coo d keys) r k * entry x c k = entry (cooα d keys ka) r c)
    (a : WN N) (ha : ∀ n, a ≠ .node n) {t : N} (ht : K t) :
    ∑ r, gain g r t * resp K keys ka x a r = (em0 value outs inp src g a (.node t)).getD 0 := by
  classical
  by_cases hka : a ∈ ka
  · have := hx _ (List.idxOf_lt_length_of_mem hka) _ (List.idxOf_lt_length_of_mem (hs.mem h ht))
    rw [entry_cooα h hs hka ht, sum_rows h hs (fun w hw => keys_only h hs hreg hw)] at this
    refine Eq.trans ?_ this
    apply Finset.sum_congr rfl
    intro m _
    unfold resp
    by_cases hm : K m
    · rw [if_pos ⟨hka, hm⟩, if_pos hm, entry_coo h hs hm ht]
    · rw [if_neg (fun q => hm q.2), if_neg hm, mul_zero]
  · have h0 : (em0 value outs inp src g a (.node t)).getD 0 = 0 := by
      rw [← h.cw_em (fun n e => absurd e (ha n)) (by rintro n e; cases e; exact ht)]
      apply Cw_of_not
      rintro (q | q | q)
      · obtain ⟨_, _, e, _⟩ := (h.sq _ _).mp q
        exact ha _ e
      · obtain ⟨_, e, _⟩ := (h.be _ _).mp q
        exact ha _ e
      · exact hka ((hs.memα h a).mpr ⟨_, q⟩)
    rw [h0]
    apply Finset.sum_eq_zero
    intro m _
    unfold resp
    rw [if_neg (fun q => hka q.1), mul_zero]

end
end Sci
