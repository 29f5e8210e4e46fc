import Mathlib.Algebra.BigOperators.Ring.Finset
import Mathlib.Data.List.Nodup
import Verif.Circuit.Completion

/-!
# The pairing and the completion of the bonds
-/

set_option linter.unusedSectionVars false

namespace Circuit
open Py Inject

section Pairing
variable {T : Type} [DecidableEq T]

theorem pd_get_append {A V : Type} [DecidableEq A] (d e : Dict A V) (k : A) :
    Dict.get? (d ++ e) k = (Dict.get? d k).or (Dict.get? e k) := by
  induction d with
  | nil => rfl
  | cons kv d ih =>
    rw [List.cons_append, Dict.get?_cons, Dict.get?_cons]
    split_ifs
    · rfl
    · exact ih

theorem pd_erase_length {A V : Type} [DecidableEq A] (d : Dict A V) (k : A) : (Dict.erase d k).length ≤ d.length := by
  induction d with
  | nil => exact le_refl _
  | cons kv d ih =>
    obtain ⟨k', v⟩ := kv
    unfold Dict.erase
    split_ifs
    · exact le_trans ih (Nat.le_succ _)
    · exact Nat.succ_le_succ ih

theorem pair_loop_spec (fuel : Nat) (d : Dict (T × T) T) (hw : Dict.WF d) (hf : d.length ≤ fuel)
    (hb : (pair_loop fuel d).2 = []) :
    (∀ p q r, Dict.get? d (p, q) = some r → p ≠ q ∧ ∃ r', Dict.get? d (q, p) = some r') ∧
    ∀ a b, ((a, b) ∈ (pair_loop fuel d).1 ∨ (b, a) ∈ (pair_loop fuel d).1) ↔
      ∃ p q, Dict.get? d (p, q) = some a ∧ Dict.get? d (q, p) = some b := by
  induction fuel generalizing d with
  | zero =>
    obtain rfl : d = [] := List.length_eq_zero_iff.1 (Nat.le_zero.1 hf)
    simp [pair_loop]
  | succ fuel ih =>
    rcases List.eq_nil_or_concat d with rfl | ⟨d', e, rfl⟩
    · simp [pair_loop]
    rw [List.concat_eq_append] at *
    obtain ⟨⟨p1, p2⟩, r1⟩ := e
    unfold pair_loop at hb ⊢
    rw [List.getLast?_concat, List.dropLast_concat] at hb ⊢
    dsimp only at hb ⊢
    cases hg : Dict.get? d' (p2, p1) with
    | none => rw [hg] at hb; simp at hb
    | some r2 =>
      rw [hg] at hb
      dsimp only at hb ⊢
      have hwd : Dict.WF d' ∧ (p1, p2) ∉ Dict.keys d' := by
        unfold Dict.WF Dict.keys at hw ⊢
        rw [List.map_append, List.nodup_append] at hw
        refine ⟨hw.1, fun h => hw.2.2 _ h _ (List.mem_singleton.2 rfl) rfl⟩
      have hne : (p1, p2) ≠ (p2, p1) := by
        intro h
        rw [h] at hwd
        exact hwd.2 ((Dict.mem_keys_iff _ _).2 (by rw [hg]; rfl))
      have hp : p1 ≠ p2 := by
        rintro rfl
        exact hne rfl
      have hget : ∀ k, Dict.get? (d' ++ [((p1, p2), r1)]) k = if k = (p1, p2) then some r1 else
          if k = (p2, p1) then some r2 else Dict.get? (Dict.erase d' (p2, p1)) k := by
        intro k
        rw [pd_get_append, Dict.get?_erase]
        by_cases h1 : k = (p1, p2)
        · subst h1
          rw [if_pos rfl, (Dict.get?_eq_none_iff _ _).2 hwd.2, Dict.get?_cons, if_pos rfl]
          rfl
        · rw [if_neg h1, Dict.get?_cons, if_neg (fun h => h1 h.symm)]
          by_cases h2 : k = (p2, p1)
          · subst h2
            rw [if_pos rfl, hg]
            rfl
          · rw [if_neg h2, if_neg (fun h => h2 h.symm)]
            simp
      have hn1 : Dict.get? (Dict.erase d' (p2, p1)) (p1, p2) = none := by
        rw [Dict.get?_erase, if_neg hne.symm, Dict.get?_eq_none_iff]
        exact hwd.2
      have hn2 : Dict.get? (Dict.erase d' (p2, p1)) (p2, p1) = none := Dict.get?_erase_self ..
      obtain ⟨i1, i2⟩ := ih (Dict.erase d' (p2, p1)) (Dict.WF_erase hwd.1 _) (by
        refine le_trans (pd_erase_length _ _) ?_
        rw [List.length_append, List.length_singleton] at hf
        exact Nat.le_of_succ_le_succ hf) hb
      generalize Dict.erase d' (p2, p1) = d2 at *
      constructor
      · intro p q r hpq
        rw [hget] at hpq
        split_ifs at hpq with h1 h2
        · cases h1
          refine ⟨hp, r2, ?_⟩
          rw [hget, if_neg hne.symm, if_pos rfl]
        · cases h2
          refine ⟨hp.symm, r1, ?_⟩
          rw [hget, if_pos rfl]
        · obtain ⟨j1, r', j2⟩ := i1 p q r hpq
          refine ⟨j1, r', ?_⟩
          rw [hget, if_neg, if_neg]
          · exact j2
          · rintro h
            rw [h, hn2] at j2
            cases j2
          · rintro h
            rw [h, hn1] at j2
            cases j2
      · intro a b
        simp only [List.mem_cons, Prod.mk.injEq]
        constructor
        · rintro ((⟨rfl, rfl⟩ | h) | (⟨rfl, rfl⟩ | h))
          · exact ⟨p1, p2, by rw [hget, if_pos rfl], by rw [hget, if_neg hne.symm, if_pos rfl]⟩
          · obtain ⟨p, q, h1, h2⟩ := (i2 a b).1 (Or.inl h)
            refine ⟨p, q, ?_, ?_⟩
            · rw [hget, if_neg, if_neg]
              · exact h1
              · rintro h; rw [h, hn2] at h1; cases h1
              · rintro h; rw [h, hn1] at h1; cases h1
            · rw [hget, if_neg, if_neg]
              · exact h2
              · rintro h; rw [h, hn2] at h2; cases h2
              · rintro h; rw [h, hn1] at h2; cases h2
          · exact ⟨p2, p1, by rw [hget, if_neg hne.symm, if_pos rfl], by rw [hget, if_pos rfl]⟩
          · obtain ⟨p, q, h1, h2⟩ := (i2 a b).1 (Or.inr h)
            refine ⟨p, q, ?_, ?_⟩
            · rw [hget, if_neg, if_neg]
              · exact h1
              · rintro h; rw [h, hn2] at h1; cases h1
              · rintro h; rw [h, hn1] at h1; cases h1
            · rw [hget, if_neg, if_neg]
              · exact h2
              · rintro h; rw [h, hn2] at h2; cases h2
              · rintro h; rw [h, hn1] at h2; cases h2
        · rintro ⟨p, q, h1, h2⟩
          rw [hget] at h1 h2
          by_cases e1 : (p, q) = (p1, p2)
          · cases e1
            rw [if_pos rfl] at h1
            rw [if_neg hne.symm, if_pos rfl] at h2
            cases h1
            cases h2
            exact Or.inl (Or.inl ⟨rfl, rfl⟩)
          by_cases e2 : (p, q) = (p2, p1)
          · cases e2
            rw [if_neg hne.symm, if_pos rfl] at h1
            rw [if_pos rfl] at h2
            cases h1
            cases h2
            exact Or.inr (Or.inl ⟨rfl, rfl⟩)
          have e3 : (q, p) ≠ (p1, p2) := by
            intro h; cases h; exact e2 rfl
          have e4 : (q, p) ≠ (p2, p1) := by
            intro h; cases h; exact e1 rfl
          rw [if_neg e1, if_neg e2] at h1
          rw [if_neg e3, if_neg e4] at h2
          rcases (i2 a b).2 ⟨p, q, h1, h2⟩ with h | h
          · exact Or.inl (Or.inr h)
          · exact Or.inr (Or.inr h)

theorem pair_all_spec {d : Dict (T × T) T} (hw : Dict.WF d) {bs : List (T × T)} (h : pair_all d = .ok bs) :
    (∀ p q r, Dict.get? d (p, q) = some r → p ≠ q ∧ ∃ r', Dict.get? d (q, p) = some r') ∧
    ∀ a b, ((a, b) ∈ bs ∨ (b, a) ∈ bs) ↔ ∃ p q, Dict.get? d (p, q) = some a ∧ Dict.get? d (q, p) = some b := by
  unfold pair_all at h
  dsimp only at h
  split_ifs at h with hb
  injection h with h
  subst h
  exact pair_loop_spec _ d hw (le_refl _) hb

theorem pair_loop_ok (fuel : Nat) (d : Dict (T × T) T) (hw : Dict.WF d) (hf : d.length ≤ fuel)
    (h : ∀ p q r, Dict.get? d (p, q) = some r → p ≠ q ∧ ∃ r', Dict.get? d (q, p) = some r') :
    (pair_loop fuel d).2 = [] := by
  induction fuel generalizing d with
  | zero => rfl
  | succ fuel ih =>
    rcases List.eq_nil_or_concat d with rfl | ⟨d', e, rfl⟩
    · simp [pair_loop]
    rw [List.concat_eq_append] at *
    obtain ⟨⟨p1, p2⟩, r1⟩ := e
    have hwd : Dict.WF d' ∧ (p1, p2) ∉ Dict.keys d' := by
      unfold Dict.WF Dict.keys at hw ⊢
      rw [List.map_append, List.nodup_append] at hw
      refine ⟨hw.1, fun h => hw.2.2 _ h _ (List.mem_singleton.2 rfl) rfl⟩
    have hget : ∀ k, Dict.get? (d' ++ [((p1, p2), r1)]) k = if k = (p1, p2) then some r1 else Dict.get? d' k := by
      intro k
      rw [pd_get_append]
      by_cases h1 : k = (p1, p2)
      · subst h1
        rw [if_pos rfl, (Dict.get?_eq_none_iff _ _).2 hwd.2, Dict.get?_cons, if_pos rfl]
        rfl
      · rw [if_neg h1, Dict.get?_cons, if_neg (fun h => h1 h.symm)]
        simp
    unfold pair_loop
    rw [List.getLast?_concat, List.dropLast_concat]
    dsimp only
    obtain ⟨hp, r2, hr⟩ := h p1 p2 r1 (by rw [hget, if_pos rfl])
    have hne : (p2, p1) ≠ (p1, p2) := by
      intro h
      cases h
      exact hp rfl
    rw [hget, if_neg hne] at hr
    rw [hr]
    dsimp only
    refine ih _ (Dict.WF_erase hwd.1 _) ?_ ?_
    · refine le_trans (pd_erase_length _ _) ?_
      rw [List.length_append, List.length_singleton] at hf
      exact Nat.le_of_succ_le_succ hf
    · intro p q r hpq
      rw [Dict.get?_erase] at hpq
      split_ifs at hpq with h1
      have h2 : (p, q) ≠ (p1, p2) := by
        intro h2
        rw [h2, (Dict.get?_eq_none_iff _ _).2 hwd.2] at hpq
        cases hpq
      obtain ⟨j1, r', j2⟩ := h p q r (by rw [hget, if_neg h2]; exact hpq)
      refine ⟨j1, r', ?_⟩
      have h3 : (q, p) ≠ (p1, p2) := by
        intro h3
        cases h3
        exact h1 rfl
      have h4 : (p2, p1) ≠ (q, p) := by
        intro h4
        cases h4
        exact h2 rfl
      rw [hget, if_neg h3] at j2
      rw [Dict.get?_erase, if_neg h4, j2]

/-- The pairing succeeds exactly when every entry has its counterpart and none is paired with itself. -/
theorem pair_all_iff {d : Dict (T × T) T} (hw : Dict.WF d) : (∃ bs, pair_all d = .ok bs) ↔
    ∀ p q r, Dict.get? d (p, q) = some r → p ≠ q ∧ ∃ r', Dict.get? d (q, p) = some r' := by
  constructor
  · rintro ⟨bs, h⟩
    exact (pair_all_spec hw h).1
  · intro h
    refine ⟨(pair_loop (List.length d) d).1, ?_⟩
    unfold pair_all
    dsimp only
    rw [if_pos (pair_loop_ok _ d hw (le_refl _) h)]

end Pairing

/-! ## the completions of the ports -/

section Complete
variable {P : Type} [DecidableEq P]

/-- Ports, their bond partners, the sets of these in some order, and the ports of the connections. -/
structure Good (ps : List (Port P)) (part seto : Port P → List (Port P)) (conn : Port P → Nat → Port P) : Prop where
  nodup : ps.Nodup
  part_mem : ∀ p ∈ ps, ∀ q ∈ part p, q ∈ ps
  part_symm : ∀ p q, q ∈ part p → p ∈ part q
  set_nodup : ∀ p ∈ ps, (seto p).Nodup
  set_mem : ∀ p ∈ ps, ∀ q, q ∈ seto p ↔ q ∈ part p
  fresh : ∀ p ∈ ps, ∀ i, i ≤ (seto p).length → conn p i ∉ ps
  inj : ∀ p ∈ ps, ∀ q ∈ ps, ∀ i j, i ≤ (seto p).length → j ≤ (seto q).length → conn p i = conn q j → p = q ∧ i = j

variable (part seto : Port P → List (Port P)) (conn : Port P → Nat → Port P)

/-- what `bond_completion` of a port enters -/
def entries (p : Port P) : Dict (Port P × Port P) (Port P) :=
  match part p with
  | [q] => [((p, q), p)]
  | _ => ((p, conn p 0), p) :: ((conn p 0, p), conn p 0) ::
    (seto p).zipIdx.map (fun qi => ((p, qi.1), conn p (qi.2 + 1)))

/-- the connection `bond_completion` of a port makes -/
def conns (p : Port P) : List (List (Port P)) :=
  match part p with
  | [_] => []
  | _ => [(List.range ((seto p).length + 1)).map (conn p)]

/-- the port has a connection -/
def Multi (p : Port P) : Prop := ∀ q, part p ≠ [q]

/-- the port standing for `p` in its bond with `q` -/
def rep (p q : Port P) : Port P :=
  match part p with
  | [_] => p
  | _ => conn p ((seto p).idxOf q + 1)

variable {part seto conn}

theorem rep_single {p q r : Port P} (h : part p = [q]) : rep part seto conn p r = p := by
  unfold rep
  rw [h]

theorem rep_multi {p r : Port P} (h : Multi part p) : rep part seto conn p r = conn p ((seto p).idxOf r + 1) := by
  unfold rep
  split
  · rename_i q hq
    exact absurd hq (h q)
  · rfl

theorem conns_single {p q : Port P} (h : part p = [q]) : conns part seto conn p = [] := by
  unfold conns
  rw [h]

theorem conns_multi {p : Port P} (h : Multi part p) :
    conns part seto conn p = [(List.range ((seto p).length + 1)).map (conn p)] := by
  unfold conns
  split
  · rename_i q hq
    exact absurd hq (h q)
  · rfl

theorem entries_single {p q : Port P} (h : part p = [q]) : entries part seto conn p = [((p, q), p)] := by
  unfold entries
  rw [h]

theorem entries_multi {p : Port P} (h : Multi part p) :
    entries part seto conn p = ((p, conn p 0), p) :: ((conn p 0, p), conn p 0) ::
    (seto p).zipIdx.map (fun qi => ((p, qi.1), conn p (qi.2 + 1))) := by
  unfold entries
  split
  · rename_i q hq
    exact absurd hq (h q)
  · rfl

theorem single_or_multi (p : Port P) : (∃ q, part p = [q]) ∨ Multi part p := by
  by_cases h : ∃ q, part p = [q]
  · exact Or.inl h
  · exact Or.inr fun q hq => h ⟨q, hq⟩

theorem zipIdx_idxOf {α : Type} [DecidableEq α] {l : List α} (hn : l.Nodup) (a : α) (i : Nat) :
    (a, i) ∈ l.zipIdx ↔ a ∈ l ∧ i = l.idxOf a := by
  rw [List.mem_zipIdx_iff_getElem?]
  constructor
  · intro h
    replace h : l[i]? = some a := h
    obtain ⟨hi, h⟩ := List.getElem?_eq_some_iff.1 h
    refine ⟨h ▸ List.getElem_mem hi, ?_⟩
    subst h
    exact (hn.idxOf_getElem i hi).symm
  · rintro ⟨ha, rfl⟩
    exact List.getElem?_idxOf ha

theorem bond_completion_ok {st st' : Comp P} {p : Port P} (h : bond_completion part seto conn st p = .ok st') :
    part p ≠ [] ∧ st' = ⟨Dict.update st.raw (entries part seto conn p), st.conns ++ conns part seto conn p⟩ := by
  unfold bond_completion at h
  split at h
  · cases h
  · rename_i q hq
    injection h with h
    subst h
    rw [entries_single hq, conns_single hq, List.append_nil]
    exact ⟨by rw [hq]; simp, rfl⟩
  · rename_i h0 h1
    injection h with h
    subst h
    refine ⟨h0, ?_⟩
    rw [entries_multi h1, conns_multi h1]
    unfold Dict.update
    rw [List.foldl_cons, List.foldl_cons, List.foldl_map]

theorem complete_all_ok {ps : List (Port P)} {st st' : Comp P} (h : complete_all part seto conn ps st = .ok st') :
    (∀ p ∈ ps, part p ≠ []) ∧ st' = ⟨Dict.update st.raw (ps.flatMap (entries part seto conn)),
      st.conns ++ ps.flatMap (conns part seto conn)⟩ := by
  induction ps generalizing st with
  | nil =>
    injection h with h
    subst h
    refine ⟨fun _ h => (by cases h), ?_⟩
    rw [List.flatMap_nil, List.flatMap_nil, List.append_nil]
    rfl
  | cons p ps ih =>
    unfold complete_all at h
    obtain ⟨st1, h1, h2⟩ := bind_ok_inv h
    obtain ⟨j1, rfl⟩ := bond_completion_ok h1
    obtain ⟨j2, rfl⟩ := ih h2
    refine ⟨fun q hq => ?_, ?_⟩
    · rcases List.mem_cons.1 hq with rfl | hq
      · exact j1
      · exact j2 q hq
    · rw [List.flatMap_cons, List.flatMap_cons, List.append_assoc]
      unfold Dict.update
      rw [List.foldl_append]

variable {ps : List (Port P)}

theorem mem_entries (hg : Good ps part seto conn) {p : Port P} (hp : p ∈ ps) (a b r : Port P) :
    ((a, b), r) ∈ entries part seto conn p ↔ (a = p ∧ b ∈ part p ∧ r = rep part seto conn p b) ∨
      (Multi part p ∧ ((a = p ∧ b = conn p 0 ∧ r = p) ∨ (a = conn p 0 ∧ b = p ∧ r = conn p 0))) := by
  rcases single_or_multi (part := part) p with ⟨q, hq⟩ | hm
  · rw [entries_single hq, hq, List.mem_singleton, List.mem_singleton]
    constructor
    · intro h
      cases h
      exact Or.inl ⟨rfl, rfl, (rep_single hq).symm⟩
    · rintro (⟨rfl, rfl, rfl⟩ | ⟨h, -⟩)
      · rw [rep_single hq]
      · exact absurd hq (h q)
  · rw [entries_multi hm, List.mem_cons, List.mem_cons, List.mem_map]
    constructor
    · rintro (h | h | ⟨⟨c, i⟩, h1, h2⟩)
      · cases h
        exact Or.inr ⟨hm, Or.inl ⟨rfl, rfl, rfl⟩⟩
      · cases h
        exact Or.inr ⟨hm, Or.inr ⟨rfl, rfl, rfl⟩⟩
      · obtain ⟨h3, h4⟩ := (zipIdx_idxOf (hg.set_nodup p hp) c i).1 h1
        subst h4
        cases h2
        exact Or.inl ⟨rfl, (hg.set_mem _ hp _).1 h3, (rep_multi hm).symm⟩
    · rintro (⟨rfl, h1, rfl⟩ | ⟨-, ⟨rfl, rfl, rfl⟩ | ⟨rfl, rfl, rfl⟩⟩)
      · refine Or.inr (Or.inr ⟨(b, (seto a).idxOf b), ?_, ?_⟩)
        · exact (zipIdx_idxOf (hg.set_nodup a hp) _ _).2 ⟨(hg.set_mem a hp _).2 h1, rfl⟩
        · rw [rep_multi hm]
      · exact Or.inl rfl
      · exact Or.inr (Or.inl rfl)

theorem entries_WF (hg : Good ps part seto conn) : Dict.WF (ps.flatMap (entries part seto conn)) := by
  unfold Dict.WF Dict.keys
  rw [List.map_flatMap, List.nodup_flatMap]
  have h0 : ∀ p ∈ ps, ∀ k ∈ (entries part seto conn p).map Prod.fst,
      (k.1 = p ∨ (k.1 = conn p 0 ∧ k.2 = p)) := by
    intro p hp k hk
    obtain ⟨⟨⟨a, b⟩, r⟩, hk', rfl⟩ := List.mem_map.1 hk
    rcases (mem_entries hg hp a b r).1 hk' with ⟨h, -⟩ | ⟨-, ⟨h, -⟩ | ⟨h, h', -⟩⟩
    · exact Or.inl h
    · exact Or.inl h
    · exact Or.inr ⟨h, h'⟩
  constructor
  · intro p hp
    rcases single_or_multi (part := part) p with ⟨q, hq⟩ | hm
    · rw [entries_single hq]
      simp
    · rw [entries_multi hm, List.map_cons, List.map_cons, List.map_map]
      have hz : ((seto p).zipIdx.map (Prod.fst ∘ fun qi => ((p, qi.1), conn p (qi.2 + 1)))) =
          (seto p).map (fun q => (p, q)) := by
        conv_rhs => rw [← List.zipIdx_map_fst 0 (seto p)]
        rw [List.map_map]
        rfl
      rw [hz, List.nodup_cons, List.nodup_cons]
      have hf := hg.fresh p hp 0 (Nat.zero_le _)
      refine ⟨?_, ?_, ?_⟩
      · intro h
        rcases List.mem_cons.1 h with h | h
        · injection h with h1 h2
          exact hf (h1 ▸ hp)
        · obtain ⟨q, hq, h⟩ := List.mem_map.1 h
          injection h with h1 h2
          exact hf (h2 ▸ hg.part_mem p hp q ((hg.set_mem p hp q).1 hq))
      · intro h
        obtain ⟨q, hq, h⟩ := List.mem_map.1 h
        injection h with h1 h2
        exact hf (h1 ▸ hp)
      · exact (hg.set_nodup p hp).map (fun a b h => by injection h)
  · refine hg.nodup.pairwise_of_forall_ne ?_
    intro p hp q hq hpq
    rw [Function.onFun, List.disjoint_left]
    intro k hk hk'
    rcases h0 p hp k hk with h1 | ⟨h1, h2⟩ <;> rcases h0 q hq k hk' with h3 | ⟨h3, h4⟩
    · exact hpq (h1.symm.trans h3)
    · exact hg.fresh q hq 0 (Nat.zero_le _) (by rw [← h3, h1]; exact hp)
    · exact hg.fresh p hp 0 (Nat.zero_le _) (by rw [← h1, h3]; exact hq)
    · exact hpq (h2.symm.trans h4)

theorem entries_get (hg : Good ps part seto conn) (a b r : Port P) :
    Dict.get? (Dict.update [] (ps.flatMap (entries part seto conn))) (a, b) = some r ↔
      ∃ p ∈ ps, (a = p ∧ b ∈ part p ∧ r = rep part seto conn p b) ∨
      (Multi part p ∧ ((a = p ∧ b = conn p 0 ∧ r = p) ∨ (a = conn p 0 ∧ b = p ∧ r = conn p 0))) := by
  rw [Dict.get?_update_of_WF _ (entries_WF hg)]
  have : Dict.get? ([] : Dict (Port P × Port P) (Port P)) (a, b) = none := rfl
  rw [this, Option.or_none, ← Dict.mem_iff_get? (entries_WF hg), List.mem_flatMap]
  constructor
  · rintro ⟨p, hp, h⟩
    exact ⟨p, hp, (mem_entries hg hp a b r).1 h⟩
  · rintro ⟨p, hp, h⟩
    exact ⟨p, hp, (mem_entries hg hp a b r).2 h⟩

/-- the pairs of ports given to `bond_old` -/
def Pair (ps : List (Port P)) (part seto : Port P → List (Port P)) (conn : Port P → Nat → Port P) (a b : Port P) : Prop :=
  (∃ p ∈ ps, Multi part p ∧ ((a = p ∧ b = conn p 0) ∨ (a = conn p 0 ∧ b = p))) ∨
  ∃ p ∈ ps, ∃ q ∈ part p, a = rep part seto conn p q ∧ b = rep part seto conn q p

theorem pairs_iff (hg : Good ps part seto conn) {bs : List (Port P × Port P)}
    (h : pair_all (Dict.update [] (ps.flatMap (entries part seto conn))) = .ok bs) :
    (∀ p ∈ ps, p ∉ part p) ∧ ∀ a b, ((a, b) ∈ bs ∨ (b, a) ∈ bs) ↔ Pair ps part seto conn a b := by
  obtain ⟨h1, h2⟩ := pair_all_spec (Dict.WF_update Dict.WF_nil _) h
  constructor
  · intro p hp hpp
    exact (h1 p p _ ((entries_get hg _ _ _).2 ⟨p, hp, Or.inl ⟨rfl, hpp, rfl⟩⟩)).1 rfl
  · intro a b
    rw [h2]
    unfold Pair
    constructor
    · rintro ⟨u, v, hu, hv⟩
      obtain ⟨p, hp, hu⟩ := (entries_get hg _ _ _).1 hu
      obtain ⟨q, hq, hv⟩ := (entries_get hg _ _ _).1 hv
      rcases hu with ⟨rfl, e1, rfl⟩ | ⟨hm, ⟨rfl, rfl, rfl⟩ | ⟨rfl, rfl, rfl⟩⟩
      · have hvp := hg.part_mem _ hp _ e1
        rcases hv with ⟨rfl, f1, rfl⟩ | ⟨hm', ⟨rfl, f2, rfl⟩ | ⟨f1, f2, rfl⟩⟩
        · exact Or.inr ⟨u, hp, v, e1, rfl, rfl⟩
        · exact absurd (f2 ▸ hp) (hg.fresh _ hq 0 (Nat.zero_le _))
        · exact absurd (f1 ▸ hvp) (hg.fresh _ hq 0 (Nat.zero_le _))
      · have hf := hg.fresh _ hp 0 (Nat.zero_le _)
        rcases hv with ⟨f1, -⟩ | ⟨hm', ⟨f1, -⟩ | ⟨f1, f2, rfl⟩⟩
        · exact absurd (f1 ▸ hq) hf
        · exact absurd (f1 ▸ hq) hf
        · subst f2
          exact Or.inl ⟨a, hp, hm, Or.inl ⟨rfl, rfl⟩⟩
      · have hf := hg.fresh _ hp 0 (Nat.zero_le _)
        rcases hv with ⟨f0, f1, -⟩ | ⟨hm', ⟨f1, f2, rfl⟩ | ⟨f1, f2, rfl⟩⟩
        · exact absurd (hg.part_mem _ hq _ f1) hf
        · subst f1
          exact Or.inl ⟨_, hp, hm, Or.inr ⟨rfl, rfl⟩⟩
        · exact absurd (f2 ▸ hq) hf
    · rintro (⟨p, hp, hm, ⟨rfl, rfl⟩ | ⟨rfl, rfl⟩⟩ | ⟨p, hp, q, hq, rfl, rfl⟩)
      · exact ⟨a, conn a 0, (entries_get hg _ _ _).2 ⟨a, hp, Or.inr ⟨hm, Or.inl ⟨rfl, rfl, rfl⟩⟩⟩,
          (entries_get hg _ _ _).2 ⟨a, hp, Or.inr ⟨hm, Or.inr ⟨rfl, rfl, rfl⟩⟩⟩⟩
      · exact ⟨conn b 0, b, (entries_get hg _ _ _).2 ⟨b, hp, Or.inr ⟨hm, Or.inr ⟨rfl, rfl, rfl⟩⟩⟩,
          (entries_get hg _ _ _).2 ⟨b, hp, Or.inr ⟨hm, Or.inl ⟨rfl, rfl, rfl⟩⟩⟩⟩
      · exact ⟨p, q, (entries_get hg _ _ _).2 ⟨p, hp, Or.inl ⟨rfl, hq, rfl⟩⟩,
          (entries_get hg _ _ _).2 ⟨q, hg.part_mem _ hp _ hq, Or.inl ⟨rfl, hg.part_symm _ _ hq, rfl⟩⟩⟩

/-- The pairing succeeds when no port is bonded to itself. -/
theorem pairs_ok (hg : Good ps part seto conn) (hs : ∀ p ∈ ps, p ∉ part p) :
    ∃ bs, pair_all (Dict.update [] (ps.flatMap (entries part seto conn))) = .ok bs := by
  rw [pair_all_iff (Dict.WF_update Dict.WF_nil _)]
  intro a b r h
  obtain ⟨p, hp, h⟩ := (entries_get hg _ _ _).1 h
  rcases h with ⟨rfl, e1, rfl⟩ | ⟨hm, ⟨rfl, rfl, rfl⟩ | ⟨rfl, rfl, rfl⟩⟩
  · refine ⟨?_, _, (entries_get hg _ _ _).2 ⟨b, hg.part_mem _ hp _ e1, Or.inl ⟨rfl, hg.part_symm _ _ e1, rfl⟩⟩⟩
    rintro rfl
    exact hs a hp e1
  · refine ⟨?_, _, (entries_get hg _ _ _).2 ⟨_, hp, Or.inr ⟨hm, Or.inr ⟨rfl, rfl, rfl⟩⟩⟩⟩
    intro h
    exact hg.fresh _ hp 0 (Nat.zero_le _) (h ▸ hp)
  · refine ⟨?_, _, (entries_get hg _ _ _).2 ⟨_, hp, Or.inr ⟨hm, Or.inl ⟨rfl, rfl, rfl⟩⟩⟩⟩
    intro h
    exact hg.fresh _ hp 0 (Nat.zero_le _) (h.symm ▸ hp)

end Complete

end Circuit
