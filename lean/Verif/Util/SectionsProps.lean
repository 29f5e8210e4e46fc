import Verif.Util.Sections

/-!
# `phasor/utilities/np.py`: C122
-/

namespace Npu
open Py

theorem Good.mem {t : ℕ → Prop} {N lo : ℕ} {l : List (ℕ × ℕ)} (h : Good t N lo l) :
    ∀ x ∈ l, lo ≤ x.1 ∧ x.1 ≤ x.2 ∧ x.2 ≤ N ∧ t x.1 := by
  induction h with
  | nil _ => simp
  | last h1 h2 h3 h4 h5 =>
    intro x hx
    rw [List.mem_singleton] at hx
    subst hx
    exact ⟨h1, h2, le_rfl, h4 _ le_rfl h2⟩
  | cons h1 h2 h3 h4 h5 h6 h7 ih =>
    intro x hx
    rcases List.mem_cons.1 hx with rfl | hx
    · exact ⟨h1, by dsimp only; omega, h3, h5 _ le_rfl h2⟩
    · obtain ⟨a, b, c, d⟩ := ih x hx
      exact ⟨by omega, b, c, d⟩

theorem Good.pairwise {t : ℕ → Prop} {N lo : ℕ} {l : List (ℕ × ℕ)} (h : Good t N lo l) : l.Pairwise fun a b => a.2 < b.1 := by
  induction h with
  | nil _ => exact List.Pairwise.nil
  | last _ _ _ _ _ => exact List.pairwise_singleton _ _
  | cons h1 h2 h3 h4 h5 h6 h7 ih =>
    refine List.Pairwise.cons ?_ ih
    intro x hx
    obtain ⟨a, _, _, d⟩ := h7.mem x hx
    dsimp only
    rcases Nat.lt_or_eq_of_le a with h | h
    · exact h
    · rw [← h] at d; exact absurd d h6

theorem merge_mem {t : ℕ → Prop} {N : ℕ} (r : ℤ) {l : List (ℕ × ℕ)} : ∀ {lo s e : ℕ}, Good t N lo ((s, e) :: l) → ∀ s0, s0 ≤ s →
    ∀ x ∈ merge r s0 e l, s0 ≤ x.1 ∧ x.1 ≤ x.2 ∧ x.2 ≤ N := by
  induction l with
  | nil =>
    intro lo s e h s0 h0 x hx
    unfold merge at hx
    rw [List.mem_singleton] at hx
    subst hx
    have := h.mem (s, e) (by simp)
    dsimp only at this ⊢
    omega
  | cons y l ih =>
    obtain ⟨s', e'⟩ := y
    intro lo s e h s0 h0 x hx
    have h1 := h.mem (s, e) (by simp)
    have h2 := h.pairwise
    rw [List.pairwise_cons] at h2
    have h3 := h2.1 (s', e') (by simp)
    dsimp only at h1 h3
    cases h with
    | cons g1 g2 g3 g4 g5 g6 g7 =>
      unfold merge at hx
      split at hx
      · rcases List.mem_cons.1 hx with rfl | hx
        · dsimp only; omega
        · have := ih g7 s' le_rfl x hx
          omega
      · exact ih g7 s0 (by omega) x hx

theorem merge_pairwise {t : ℕ → Prop} {N : ℕ} (r : ℤ) {l : List (ℕ × ℕ)} : ∀ {lo s e : ℕ}, Good t N lo ((s, e) :: l) → ∀ s0, s0 ≤ s →
    (merge r s0 e l).Pairwise fun a b => a.2 < b.1 ∧ r < (b.1 : ℤ) - a.2 := by
  induction l with
  | nil => intro lo s e h s0 h0; exact List.pairwise_singleton _ _
  | cons y l ih =>
    obtain ⟨s', e'⟩ := y
    intro lo s e h s0 h0
    have h2 := h.pairwise
    rw [List.pairwise_cons] at h2
    have h3 := h2.1 (s', e') (by simp)
    dsimp only at h3
    have h1 := h.mem (s, e) (by simp)
    dsimp only at h1
    cases h with
    | cons g1 g2 g3 g4 g5 g6 g7 =>
      unfold merge
      split
      · refine List.Pairwise.cons ?_ (ih g7 s' le_rfl)
        intro x hx
        have := merge_mem r g7 s' le_rfl x hx
        dsimp only
        omega
      · exact ih g7 s0 (by omega)

/-- C122, in part: the assertion never fails, and the sections are, in their order, half open intervals that hold exactly the elements that
are on and, if a length `r` is given, those between two elements that are on with at most `r` others in between; neighbouring sections are
further apart than that.  Missing, since it is false (`C122_refuted`): the last element of the array, which is in no section. -/
theorem C122_sections_partial {barray : List Bool} (h : barray ≠ []) (reconnect_length : Option ℤ) :
    ∃ l, generate_sections barray reconnect_length = .ok l ∧
      (∀ i, (∃ x ∈ l, x.1 ≤ i ∧ i < x.2) ↔
        i + 1 < barray.length ∧ (barray[i]? = some true ∨ ∃ r ∈ reconnect_length, ∃ j k, j < i ∧ i < k ∧ barray[j]? = some true ∧
          barray[k]? = some true ∧ (k : ℤ) - j - 1 ≤ r)) ∧
      (∀ x ∈ l, x.1 ≤ x.2 ∧ x.2 < barray.length) ∧
      l.Pairwise (fun a b => a.2 < b.1 ∧ ∀ r ∈ reconnect_length, r < (b.1 : ℤ) - a.2) := by
  obtain ⟨l, h1, hg, h2⟩ := sections_good h
  have hn : 0 < barray.length := List.length_pos_iff.2 h
  have hlt : ∀ {i}, on barray i → i < barray.length := by
    intro i hi
    unfold on at hi
    exact (List.getElem?_eq_some_iff.1 hi).1
  cases reconnect_length with
  | none =>
    refine ⟨l, h1, ?_, ?_, ?_⟩
    · intro i
      have := covered_good hg i (Nat.zero_le _)
      unfold Covered at this
      rw [this]
      simp only [Option.mem_def, reduceCtorEq, false_and, exists_false, or_false]
      constructor
      · rintro ⟨a, b⟩
        have := hlt a
        exact ⟨by omega, a⟩
      · rintro ⟨a, b⟩
        exact ⟨b, by omega⟩
    · intro x hx
      have := hg.mem x hx
      omega
    · exact hg.pairwise.imp fun h => ⟨h, by simp⟩
  | some r =>
    rw [h2 r]
    refine ⟨_, rfl, ?_⟩
    cases l with
    | nil =>
      cases hg with
      | nil hg =>
        refine ⟨?_, by simp, by simp⟩
        intro i
        simp only [List.not_mem_nil, false_and, exists_false, Option.mem_def, Option.some.injEq, exists_eq_left', false_iff, not_and,
          not_or, not_exists]
        intro _
        exact ⟨hg i (by omega), fun j k _ _ hj => absurd hj (hg j (by omega))⟩
    | cons x l =>
      obtain ⟨s, e⟩ := x
      dsimp only
      rw [pairs_disconnects]
      have hs := hg.mem (s, e) (by simp)
      have hns : ∀ i, i < s → ¬ on barray i := by
        cases hg with
        | last _ _ h3 _ _ => exact fun i hi => h3 i (Nat.zero_le _) hi
        | cons _ _ _ h3 _ _ _ => exact fun i hi => h3 i (Nat.zero_le _) hi
      refine ⟨?_, ?_, ?_⟩
      · intro i
        have := covered_merge r hg s le_rfl i
        unfold Covered at this
        rw [this]
        simp only [Option.mem_def, Option.some.injEq, exists_eq_left']
        constructor
        · rintro (⟨a, b⟩ | ⟨a, b, c⟩)
          · omega
          · refine ⟨by omega, ?_⟩
            rcases c with c | ⟨j, k, _, c⟩
            · exact Or.inl c
            · exact Or.inr ⟨j, k, c⟩
        · rintro ⟨a, b⟩
          right
          rcases b with b | ⟨j, k, c1, c2, c3, c4, c5⟩
          · refine ⟨?_, by omega, Or.inl b⟩
            by_contra hc
            exact hns i (by omega) b
          · have : s ≤ j := by
              by_contra hc
              exact hns j (by omega) c3
            exact ⟨by omega, by omega, Or.inr ⟨j, k, this, c1, c2, c3, c4, c5⟩⟩
      · intro x hx
        have := merge_mem r hg s le_rfl x hx
        omega
      · exact (merge_pairwise r hg s le_rfl).imp fun h => ⟨h.1, fun r' hr => by rw [Option.mem_def, Option.some.injEq] at hr; subst hr; exact h.2⟩

/-- Read as half open intervals, the sections miss the last element; read as closed ones, they hold elements that are off. -/
theorem C122_refuted : ∃ (barray : List Bool) (l : List (ℕ × ℕ)), generate_sections barray none = .ok l ∧
    (∃ i : ℕ, barray[i]? = some true ∧ ¬ ∃ x ∈ l, x.1 ≤ i ∧ i < x.2) ∧ (∃ i : ℕ, barray[i]? = some false ∧ ∃ x ∈ l, x.1 ≤ i ∧ i ≤ x.2) :=
  ⟨[true, false, true], [(0, 1), (2, 2)], rfl, ⟨2, rfl, by simp⟩, ⟨1, rfl, (0, 1), by simp, by omega, by omega⟩⟩

/-! ## The complement -/

/-- The boundaries of the gaps after `e`. -/
def bounds (hi : ℕ) (e : ℕ) (l : List (ℕ × ℕ)) : List ℕ :=
  let d := e :: l.flatMap fun x => [x.1, x.2]
  if d.getLast? = some hi then d.dropLast else d ++ [hi]

theorem bounds_cons (hi e s e' : ℕ) (l : List (ℕ × ℕ)) : bounds hi e ((s, e') :: l) = e :: s :: bounds hi e' l := by
  unfold bounds
  simp only [List.flatMap_cons, List.cons_append, List.nil_append, List.getLast?_cons_cons]
  split
  · rw [List.dropLast_cons_of_ne_nil (by simp), List.dropLast_cons_of_ne_nil (by simp)]
  · rfl

theorem covered_bounds (hi : ℕ) (l : List (ℕ × ℕ)) : ∀ e, e ≤ hi → (∀ x ∈ l, e ≤ x.1 ∧ x.1 ≤ x.2 ∧ x.2 ≤ hi) →
    l.Pairwise (fun a b => a.2 ≤ b.1) → ∀ i, Covered (pairs (bounds hi e l)) i ↔ (e ≤ i ∧ i < hi) ∧ ¬ Covered l i := by
  induction l with
  | nil =>
    intro e he _ _ i
    unfold bounds
    by_cases h : e = hi
    · subst h
      simp [pairs, Covered]
    · simp [h, pairs, Covered]
  | cons x l ih =>
    obtain ⟨s, e'⟩ := x
    intro e he hm hp i
    rw [bounds_cons]
    show Covered ((e, s) :: pairs (bounds hi e' l)) i ↔ _
    rw [List.pairwise_cons] at hp
    have h0 := hm (s, e') (by simp)
    dsimp only at h0
    have hm' : ∀ x ∈ l, e' ≤ x.1 ∧ x.1 ≤ x.2 ∧ x.2 ≤ hi := by
      intro x hx
      have a := hp.1 x hx
      have b := hm x (List.mem_cons_of_mem _ hx)
      exact ⟨a, b.2⟩
    rw [covered_cons, covered_cons, ih e' (by omega) hm' hp.2 i]
    have hc : Covered l i → e' ≤ i := by
      rintro ⟨x, hx, h1, h2⟩
      have := hm' x hx
      omega
    dsimp only
    constructor
    · rintro (⟨a, b⟩ | ⟨⟨a, b⟩, c⟩)
      · refine ⟨by omega, ?_⟩
        rintro (d | d)
        · omega
        · have := hc d; omega
      · refine ⟨by omega, ?_⟩
        rintro (d | d)
        · omega
        · exact c d
    · rintro ⟨a, b⟩
      by_cases hs : i < s
      · exact Or.inl ⟨a.1, hs⟩
      · refine Or.inr ⟨⟨?_, a.2⟩, fun d => b (Or.inr d)⟩
        by_contra hc'
        exact b (Or.inl ⟨by omega, by omega⟩)

/-- C122: the antisections of ordered sections hold exactly the other indices between the start and the end. -/
theorem C122_antisections {idx_start idx_end : ℕ} {l : List (ℕ × ℕ)} (hm : ∀ x ∈ l, idx_start ≤ x.1 ∧ x.1 ≤ x.2 ∧ x.2 ≤ idx_end)
    (hp : l.Pairwise fun a b => a.2 ≤ b.1) (i : ℕ) :
    (∃ x ∈ generate_antisections idx_start idx_end l, x.1 ≤ i ∧ i < x.2) ↔
      (idx_start ≤ i ∧ i < idx_end) ∧ ¬ ∃ x ∈ l, x.1 ≤ i ∧ i < x.2 := by
  show Covered _ i ↔ _ ∧ ¬ Covered l i
  unfold generate_antisections
  cases l with
  | nil => simp [Covered]
  | cons x l =>
    obtain ⟨s, e⟩ := x
    rw [if_neg (by simp)]
    simp only [List.flatMap_cons, List.cons_append, List.nil_append, List.head?_cons, Option.some.injEq, List.tail_cons]
    have h0 := hm (s, e) (by simp)
    dsimp only at h0
    by_cases h : s = idx_start
    · rw [if_pos h]
      rw [List.pairwise_cons] at hp
      have hm' : ∀ x ∈ l, e ≤ x.1 ∧ x.1 ≤ x.2 ∧ x.2 ≤ idx_end := by
        intro x hx
        have a := hp.1 x hx
        have b := hm x (List.mem_cons_of_mem _ hx)
        exact ⟨a, b.2⟩
      have := covered_bounds idx_end l e (by omega) hm' hp.2 i
      unfold bounds at this
      rw [this, covered_cons]
      dsimp only
      constructor
      · rintro ⟨a, b⟩
        refine ⟨by omega, ?_⟩
        rintro (c | c)
        · omega
        · exact b c
      · rintro ⟨a, b⟩
        refine ⟨⟨?_, a.2⟩, fun c => b (Or.inr c)⟩
        by_contra hc
        exact b (Or.inl ⟨by omega, by omega⟩)
    · rw [if_neg h]
      have := covered_bounds idx_end ((s, e) :: l) idx_start (by omega) hm hp i
      unfold bounds at this
      exact this

/-- C122: the antisections over the whole array hold exactly the elements that the sections leave out. -/
theorem C122_complement {barray : List Bool} {reconnect_length : Option ℤ} {l : List (ℕ × ℕ)}
    (h : generate_sections barray reconnect_length = .ok l) (i : ℕ) :
    (∃ x ∈ generate_antisections 0 barray.length l, x.1 ≤ i ∧ i < x.2) ↔ i < barray.length ∧ ¬ ∃ x ∈ l, x.1 ≤ i ∧ i < x.2 := by
  have hne : barray ≠ [] := by
    rintro rfl
    simp [generate_sections] at h
  obtain ⟨l', h', _, h2, h3⟩ := C122_sections_partial hne reconnect_length
  rw [h] at h'
  cases h'
  rw [C122_antisections (fun x hx => ⟨Nat.zero_le _, (h2 x hx).1, (h2 x hx).2.le⟩) (h3.imp fun h => h.1.le) i]
  simp

example : generate_sections [false, true, true, false, false, true, false] (some 2) = .ok [(1, 6)] ∧
    generate_sections [false, true, true, false, false, true, false] (some 1) = .ok [(1, 3), (5, 6)] ∧
    generate_antisections 0 7 [(1, 3), (5, 6)] = [(0, 1), (3, 5), (6, 7)] := ⟨rfl, rfl, rfl⟩

end Npu
