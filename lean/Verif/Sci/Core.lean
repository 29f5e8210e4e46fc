import Verif.Sci.Basic
import Verif.Dag.Loop

/-! # What a run of the solver computes from the prepared system -/

set_option linter.unusedSectionVars false

namespace Sci
open Py Graph Dag

variable {N : Type} {V : Type} [DecidableEq N] [Field V] [DecidableEq V] [Fintype N]

/-- The `n × n` matrix `A` maps only 0 to 0. -/
def Regular (n : Nat) (A : Coo V) : Prop :=
  ∀ y : Nat → V, (∀ r < n, ∑ k ∈ Finset.range n, entry A r k * y k = 0) → ∀ k < n, y k = 0

/-- What is trusted about `spsolve` (in exact arithmetic): when it returns, the stored entries are in range and each place is
stored once, every column solves the system and the matrix is regular; it returns for regular matrices. -/
structure Exact (sp : Nat → Nat → Coo V → Coo V → Except Err (Coo V)) : Prop where
  range : ∀ {n m A b x}, sp n m A b = .ok x → ∀ t ∈ x, t.1 < m ∧ t.2.1 < n
  once : ∀ {n m A b x}, sp n m A b = .ok x → (x.map (fun t => (t.1, t.2.1))).Nodup
  solves : ∀ {n m A b x}, sp n m A b = .ok x → ∀ c < m, ∀ r < n,
    ∑ k ∈ Finset.range n, entry A r k * entry x c k = entry b r c
  regular : ∀ {n m A b x}, sp n m A b = .ok x → Regular n A
  returns : ∀ {n m A b}, 0 < n → 0 < m → (∀ t ∈ A, t.1 < n ∧ t.2.1 < n) → (∀ t ∈ b, t.1 < n ∧ t.2.1 < m) → Regular n A →
    ∃ x, sp n m A b = .ok x

/-- What is trusted about the calls: `set.pop` takes an element, a sort permutes. -/
structure Lawful (L : Lib (WN N) V) : Prop where
  pick : ∀ l, l ≠ [] → L.pick l ∈ l
  sortkeys : ∀ {l l'}, L.sortkeys l = .ok l' → l'.Perm l
  sortkeys_split : ∀ {l l'}, L.sortkeys_split l = .ok l' → l'.Perm l
  spsolve : Exact L.spsolve

section run
variable {K : N → Prop} {value : V} {outs inp : List N} {src : Option (Dict N V)} {g : G N V} {d : D (WN N) V}
variable {keys ka : List (WN N)}

/-- The entries of the matrix. -/
def coo (d : D (WN N) V) (keys : List (WN N)) : Coo V :=
  (pairs d.seq).map (fun p => (keys.idxOf p.2, keys.idxOf p.1, (Dict.get? d.em p).getD 0))

/-- The entries of the sources. -/
def cooα (d : D (WN N) V) (keys ka : List (WN N)) : Coo V :=
  (pairs d.alpha).map (fun p => (keys.idxOf p.1, ka.idxOf p.2, (Dict.get? d.em (p.2, p.1)).getD 0))

theorem nodup_all (L : List (WN N)) : (L.foldl sadd []).Nodup := foldl_sadd_nodup _ _ List.nodup_nil

theorem mem_all_keys (h : Prep K value outs inp src g d) {n : N} (hn : K n) : WN.node n ∈ all_keys d := by
  unfold all_keys
  rw [mem_foldl_sadd]
  right
  have := (h.hs _).mpr ⟨n, rfl, hn⟩
  rw [Dict.has_iff] at this
  simp only [List.mem_append]
  exact Or.inl (Or.inl (Or.inl this))

theorem mem_all_alpha (h : Prep K value outs inp src g d) (a : WN N) : a ∈ all_alpha d ↔ ∃ s, a ∈ at' d.alpha s := by
  unfold all_alpha
  rw [mem_foldl_sadd]
  simp only [List.not_mem_nil, false_or, List.mem_flatMap]
  constructor
  · rintro ⟨kv, h1, h2⟩
    refine ⟨kv.1, ?_⟩
    unfold at'
    rw [Dict.get?_of_mem h.la.wf h1]
    exact h2
  · rintro ⟨s, hs⟩
    unfold at' at hs
    cases hg : Dict.get? d.alpha s with
    | none => rw [hg] at hs; simp at hs
    | some l =>
      rw [hg] at hs
      exact ⟨(s, l), Dict.mem_of_get? hg, hs⟩

/-- The keys after the sorts. -/
structure Sorted (d : D (WN N) V) (keys ka : List (WN N)) : Prop where
  keys : keys.Perm (all_keys d)
  ka : ka.Perm (all_alpha d)

variable (h : Prep K value outs inp src g d) (hs : Sorted d keys ka)
include h hs

theorem Sorted.nodup : keys.Nodup := hs.keys.nodup_iff.mpr (nodup_all _)
theorem Sorted.nodupα : ka.Nodup := hs.ka.nodup_iff.mpr (nodup_all _)

theorem Sorted.mem {n : N} (hn : K n) : WN.node n ∈ keys := hs.keys.mem_iff.mpr (mem_all_keys h hn)

theorem Sorted.memα (a : WN N) : a ∈ ka ↔ ∃ s, a ∈ at' d.alpha s := by
  rw [hs.ka.mem_iff, mem_all_alpha h]

theorem idx_inj {w w' : WN N} {l : List (WN N)} (hw : w ∈ l) (e : l.idxOf w = l.idxOf w') : w = w' :=
  (List.idxOf_inj hw).mp e

theorem get_val {a b : WN N} (hl : Listed d a b) : Dict.get d.em (a, b) = .ok ((Dict.get? d.em (a, b)).getD 0) := by
  have := h.sound.val a b hl
  unfold Dict.get
  cases hg : Dict.get? d.em (a, b) with
  | none => rw [hg] at this; cases this
  | some v => rfl

theorem build_coo : build (cell d.em keys) (pairs d.seq) = .ok (coo d keys) := by
  apply build_of
  rintro ⟨a, b⟩ hp
  rw [mem_pairs h.ls.wf] at hp
  obtain ⟨r, t, rfl, rfl, _, k1, k2⟩ := (h.sq _ _).mp hp
  unfold cell
  rw [get_val h hs (Or.inl hp), index_ok (hs.mem h k1), index_ok (hs.mem h k2)]
  rfl

theorem build_cooα : build (alpha_cell d.em keys ka) (pairs d.alpha) = .ok (cooα d keys ka) := by
  apply build_of
  rintro ⟨s, a⟩ hp
  rw [mem_pairs h.la.wf] at hp
  obtain ⟨t, rfl, k, _⟩ := (h.al _ _).mp hp
  unfold alpha_cell
  rw [get_val h hs (Or.inr (Or.inr hp)), index_ok (hs.mem h k), index_ok ((hs.memα h a).mpr ⟨_, hp⟩)]
  rfl

theorem entry_coo {r t : N} (hr : K r) (ht : K t) : entry (coo d keys) (keys.idxOf (.node t)) (keys.idxOf (.node r)) = gain g r t := by
  have hgain : Cw d (.node r) (.node t) = gain g r t := by
    rw [h.cw_em (by rintro n e; cases e; exact hr) (by rintro n e; cases e; exact ht)]
    rfl
  by_cases hl : WN.node t ∈ at' d.seq (.node r)
  · have hp : (WN.node r, WN.node t) ∈ pairs d.seq := (mem_pairs h.ls.wf _ _).mpr hl
    have := entry_at (row := fun p : WN N × WN N => keys.idxOf p.2) (col := fun p => keys.idxOf p.1)
      (val := fun p => (Dict.get? d.em p).getD 0) (pairs_nodup h.ls) hp (by
        rintro ⟨a, b⟩ hq e1 e2
        rw [mem_pairs h.ls.wf] at hq
        obtain ⟨r', t', rfl, rfl, _, k1, k2⟩ := (h.sq _ _).mp hq
        rw [idx_inj h hs (hs.mem h k2) e1, idx_inj h hs (hs.mem h k1) e2])
    refine this.trans ?_
    rw [← hgain]
    unfold Cw
    exact (if_pos (show Listed d _ _ from Or.inl hl)).symm
  · rw [entry_off]
    · rw [← hgain, Cw_of_not]
      rintro (q | q | q)
      · exact hl q
      · obtain ⟨_, _, _, e, _⟩ := (h.be _ _).mp q
        cases e
      · obtain ⟨_, _, _, e | e⟩ := (h.al _ _).mp q <;> cases e.1
    · intro u hu e
      unfold coo at hu
      rw [List.mem_map] at hu
      obtain ⟨⟨a, b⟩, hq, rfl⟩ := hu
      rw [mem_pairs h.ls.wf] at hq
      obtain ⟨r', t', rfl, rfl, _, k1, k2⟩ := (h.sq _ _).mp hq
      dsimp only at e
      have e1 := idx_inj h hs (hs.mem h k2) e.1
      have e2 := idx_inj h hs (hs.mem h k1) e.2
      rw [e1, e2] at hq
      exact hl hq

theorem entry_cooα {a : WN N} {t : N} (ha : a ∈ ka) (ht : K t) :
    entry (cooα d keys ka) (keys.idxOf (.node t)) (ka.idxOf a) = (em0 value outs inp src g a (.node t)).getD 0 := by
  have hna : ∀ n, a ≠ .node n := by
    rintro n rfl
    obtain ⟨s, q⟩ := (hs.memα h _).mp ha
    obtain ⟨_, _, _, e | e⟩ := (h.al _ _).mp q <;> cases e.1
  have hc : Cw d a (.node t) = (em0 value outs inp src g a (.node t)).getD 0 :=
    h.cw_em (fun n e => absurd e (hna n)) (by rintro n e; cases e; exact ht)
  by_cases hl : a ∈ at' d.alpha (.node t)
  · have hp : (WN.node t, a) ∈ pairs d.alpha := (mem_pairs h.la.wf _ _).mpr hl
    have := entry_at (row := fun p : WN N × WN N => keys.idxOf p.1) (col := fun p => ka.idxOf p.2)
      (val := fun p => (Dict.get? d.em (p.2, p.1)).getD 0) (pairs_nodup h.la) hp (by
        rintro ⟨s, a'⟩ hq e1 e2
        rw [mem_pairs h.la.wf] at hq
        obtain ⟨t', rfl, k, _⟩ := (h.al _ _).mp hq
        rw [idx_inj h hs (hs.mem h k) e1, idx_inj h hs ((hs.memα h a').mpr ⟨_, hq⟩) e2])
    refine this.trans ?_
    rw [← hc]
    unfold Cw
    exact (if_pos (show Listed d _ _ from Or.inr (Or.inr hl))).symm
  · rw [entry_off]
    · rw [← hc, Cw_of_not]
      rintro (q | q | q)
      · obtain ⟨_, _, e, _⟩ := (h.sq _ _).mp q
        exact hna _ e
      · obtain ⟨_, e, _⟩ := (h.be _ _).mp q
        exact hna _ e
      · exact hl q
    · intro u hu e
      unfold cooα at hu
      rw [List.mem_map] at hu
      obtain ⟨⟨s, a'⟩, hq, rfl⟩ := hu
      rw [mem_pairs h.la.wf] at hq
      obtain ⟨t', rfl, k, _⟩ := (h.al _ _).mp hq
      dsimp only at e
      have e1 := idx_inj h hs (hs.mem h k) e.1
      have e2 := idx_inj h hs ((hs.memα h a').mpr ⟨_, hq⟩) e.2
      rw [e1, e2] at hq
      exact hl hq

/-- A key that is not a kept node would make a column of zeros. -/
theorem keys_only (hreg : Regular keys.length (coo d keys)) {w : WN N} (hw : w ∈ keys) : ∃ n, w = .node n ∧ K n := by
  by_contra hc
  have hlt : keys.idxOf w < keys.length := List.idxOf_lt_length_of_mem hw
  have := hreg (fun k => if k = keys.idxOf w then 1 else 0) (fun r _ => by
    rw [Finset.sum_eq_single (keys.idxOf w)]
    · rw [entry_off, zero_mul]
      intro u hu e
      unfold coo at hu
      rw [List.mem_map] at hu
      obtain ⟨⟨a, b⟩, hq, rfl⟩ := hu
      rw [mem_pairs h.ls.wf] at hq
      obtain ⟨r', t', rfl, rfl, _, k1, k2⟩ := (h.sq _ _).mp hq
      have e2 := idx_inj h hs (hs.mem h k1) e.2
      exact hc ⟨r', e2.symm, k1⟩
    · intro k _ hk
      rw [if_neg hk, mul_zero]
    · intro q; exact absurd (Finset.mem_range.mpr hlt) q) _ hlt
  rw [if_pos rfl] at this
  exact one_ne_zero this

/-- Sums over the rows are sums over the kept nodes. -/
theorem sum_rows (hk : ∀ w ∈ keys, ∃ n, w = .node n ∧ K n) (G : Nat → V) [DecidablePred K] :
    ∑ k ∈ Finset.range keys.length, G k = ∑ n, if K n then G (keys.idxOf (.node n)) else 0 := by
  rw [sum_range_list (hs.nodup h), ← Finset.sum_filter]
  rw [← List.sum_toFinset _ (hs.nodup h)]
  symm
  apply Finset.sum_bij (fun n _ => WN.node n)
  · intro n hn
    rw [List.mem_toFinset]
    exact hs.mem h (Finset.mem_filter.mp hn).2
  · intro a _ b _ e
    cases e
    rfl
  · intro w hw
    rw [List.mem_toFinset] at hw
    obtain ⟨n, rfl, hn⟩ := hk w hw
    exact ⟨n, Finset.mem_filter.mpr ⟨Finset.mem_univ _, hn⟩, rfl⟩
  · intro n _
    rfl

/-- A regular matrix has only the zero solution of the homogeneous system of the kept nodes. -/
theorem sys_unique (hreg : Regular keys.length (coo d keys)) {z : N → V} (h0 : ∀ n, ¬ K n → z n = 0)
    (hz : ∀ t, K t → ∑ r, gain g r t * z r = 0) : ∀ n, z n = 0 := by
  classical
  have hk := fun w hw => keys_only h hs hreg (w := w) hw
  intro n
  by_cases hn : K n
  · have hlt : keys.idxOf (.node n) < keys.length := List.idxOf_lt_length_of_mem (hs.mem h hn)
    have := hreg (fun k => match keys[k]? with
      | some (.node m) => z m
      | _ => 0) (fun r hr => by
        obtain ⟨t, e, ht⟩ := hk _ (List.getElem_mem hr)
        have er : r = keys.idxOf (.node t) := by
          rw [← e, (hs.nodup h).idxOf_getElem]
        rw [sum_rows h hs hk]
        refine Eq.trans ?_ (hz t ht)
        apply Finset.sum_congr rfl
        intro m _
        by_cases hm : K m
        · rw [if_pos hm, er, entry_coo h hs hm ht, List.getElem?_idxOf (hs.mem h hm)]
        · rw [if_neg hm, h0 m hm, mul_zero]) _ hlt
    simp only [List.getElem?_idxOf (hs.mem h hn)] at this
    exact this
  · exact h0 n hn

/-- The other way round. -/
theorem regular_of (hk : ∀ w ∈ keys, ∃ n, w = .node n ∧ K n)
    (hu : ∀ z : N → V, (∀ n, ¬ K n → z n = 0) → (∀ t, K t → ∑ r, gain g r t * z r = 0) → ∀ n, z n = 0) :
    Regular keys.length (coo d keys) := by
  classical
  intro y hy k hkl
  obtain ⟨n, e, hn⟩ := hk _ (List.getElem_mem hkl)
  have ek : k = keys.idxOf (.node n) := by rw [← e, (hs.nodup h).idxOf_getElem]
  have := hu (fun n => if K n then y (keys.idxOf (.node n)) else 0) (fun n hn => if_neg hn) (fun t ht => by
    have := hy _ (List.idxOf_lt_length_of_mem (hs.mem h ht))
    rw [sum_rows h hs hk] at this
    refine Eq.trans ?_ this
    apply Finset.sum_congr rfl
    intro m _
    by_cases hm : K m
    · rw [if_pos hm, if_pos hm, entry_coo h hs hm ht]
    · rw [if_neg hm, if_neg hm, mul_zero]) n
  rw [if_pos hn, ← ek] at this
  exact this

end run
end Sci
