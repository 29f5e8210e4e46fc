import Verif.Num.Model
import Mathlib.Data.Nat.Bitwise
import Mathlib.Data.List.Lex
import Mathlib.Data.List.Forall2
import Mathlib.Tactic.Ring

/-!
# C30, C31
-/

namespace Num
open Py

/-! ## C30 -/

theorem len37 : bit_lookup_37.length - 1 = 36 := by decide
theorem max37 : bit_lookup_37_max = 2 ^ 36 := by decide

/-- Powers of two below `2^36` are told apart by their remainder modulo 37, and the table has their exponents. -/
theorem lookup_pow {k : Nat} (hk : k < 36) (shift : Nat) : lookup (2 ^ k) shift = .ok (k + shift) := by
  have : ∀ k < 36, bit_lookup_37[2 ^ k % bit_lookup_37.length]? = some (some k) := by decide
  unfold lookup
  rw [this k hk]

theorem shiftLoop_pow (shift m k : Nat) :
    shiftLoop shift (2 ^ k * m) (2 ^ k) = (shift + 36 * (k / 36), 2 ^ (k % 36) * m, 2 ^ (k % 36)) := by
  induction k using Nat.strongRecOn generalizing shift with
  | ind k ih =>
    rw [shiftLoop]
    rw [len37, max37]
    by_cases hk : 36 ≤ k
    · have h1 : 2 ^ k ≥ 2 ^ 36 := Nat.pow_le_pow_right (by decide) hk
      rw [dif_pos h1, Nat.shiftRight_eq_div_pow, Nat.shiftRight_eq_div_pow]
      obtain ⟨j, rfl⟩ := Nat.exists_eq_add_of_le hk
      have e1 : 2 ^ (36 + j) / 2 ^ 36 = 2 ^ j := by
        rw [pow_add]; exact Nat.mul_div_cancel_left _ (by decide)
      have e2 : 2 ^ (36 + j) * m / 2 ^ 36 = 2 ^ j * m := by
        rw [pow_add, mul_assoc]; exact Nat.mul_div_cancel_left _ (by decide)
      rw [e1, e2, ih j (by omega)]
      have e3 : (36 + j) / 36 = 1 + j / 36 := by omega
      have e4 : (36 + j) % 36 = j % 36 := by omega
      rw [e3, e4]
      congr 1
      ring
    · have h1 : ¬ 2 ^ k ≥ 2 ^ 36 := by
        have : 2 ^ k < 2 ^ 36 := Nat.pow_lt_pow_right (by decide) (by omega)
        omega
      rw [dif_neg h1]
      have e3 : k / 36 = 0 := by omega
      have e4 : k % 36 = k := by omega
      rw [e3, e4]
      rfl

theorem lowbit (k m : Nat) : (((2 ^ k * (2 * m + 1)) ^^^ (2 ^ k * (2 * m + 1) - 1)) + 1) >>> 1 = 2 ^ k := by
  have h1 : 2 ^ k * (2 * m + 1) = 2 ^ (k + 1) * m + 2 ^ k := by ring
  have h2 : 2 ^ k * (2 * m + 1) - 1 = 2 ^ (k + 1) * m + (2 ^ k - 1) := by
    have : 0 < 2 ^ k := Nat.two_pow_pos k
    omega
  have hlt : 2 ^ k < 2 ^ (k + 1) := Nat.pow_lt_pow_right (by decide) (by omega)
  have hx : (2 ^ k * (2 * m + 1)) ^^^ (2 ^ k * (2 * m + 1) - 1) = 2 ^ (k + 1) - 1 := by
    apply Nat.eq_of_testBit_eq
    intro i
    rw [Nat.testBit_xor, h2, h1, Nat.testBit_two_pow_mul_add _ hlt, Nat.testBit_two_pow_mul_add _ (by omega),
      Nat.testBit_two_pow_sub_one]
    by_cases hi : i < k + 1
    · simp only [hi, if_true, Nat.testBit_two_pow_sub_one, Nat.testBit_two_pow]
      by_cases hik : k = i
      · subst hik; simp
      · have : i < k := by omega
        simp [hik, this]
    · simp [hi]
  rw [hx, Nat.shiftRight_eq_div_pow]
  have : 0 < 2 ^ (k + 1) := Nat.two_pow_pos _
  rw [Nat.sub_add_cancel this, pow_succ]
  simp

theorem clear_low (k m : Nat) : (2 ^ k * (2 * m + 1)) ^^^ 2 ^ k = 2 ^ (k + 1) * m := by
  have hlt : 2 ^ k < 2 ^ (k + 1) := Nat.pow_lt_pow_right (by decide) (by omega)
  apply Nat.eq_of_testBit_eq
  intro i
  have h1 : 2 ^ k * (2 * m + 1) = 2 ^ (k + 1) * m + 2 ^ k := by ring
  rw [Nat.testBit_xor, h1, Nat.testBit_two_pow_mul_add _ hlt, Nat.testBit_two_pow_mul, Nat.testBit_two_pow]
  by_cases hi : i < k + 1
  · have : ¬ i ≥ k + 1 := by omega
    simp [hi, this]
  · have h2 : i ≥ k + 1 := by omega
    have h3 : ¬ k = i := by omega
    simp [hi, h2, h3]

theorem odd_part (n : Nat) (hn : n ≠ 0) : ∃ k m, n = 2 ^ k * (2 * m + 1) := by
  induction n using Nat.strongRecOn with
  | ind n ih =>
    rcases Nat.even_or_odd' n with ⟨c, hc | hc⟩
    · obtain ⟨k, m, h⟩ := ih c (by omega) (by omega)
      exact ⟨k + 1, m, by rw [hc, h]; ring⟩
    · exact ⟨0, c, by omega⟩

theorem yieldLoop_spec (fuel shift num : Nat) (h : num ≤ fuel) :
    ∃ l, yieldLoop fuel shift num = .ok l ∧ l.Pairwise (· < ·) ∧ ∀ i, i ∈ l ↔ shift ≤ i ∧ num.testBit (i - shift) = true := by
  induction fuel generalizing shift num with
  | zero =>
    have : num = 0 := by omega
    subst this
    exact ⟨[], by unfold yieldLoop; rfl, List.Pairwise.nil, by simp⟩
  | succ fuel ih =>
    by_cases hn : num = 0
    · subst hn
      exact ⟨[], by unfold yieldLoop; rfl, List.Pairwise.nil, by simp⟩
    · obtain ⟨k, m, hkm⟩ := odd_part num hn
      subst hkm
      have hm : 2 ^ (k % 36) * (2 * m + 1) ^^^ 2 ^ (k % 36) ≤ fuel := by
        rw [clear_low]
        have h1 : 2 ^ (k % 36) ≤ 2 ^ k := Nat.pow_le_pow_right (by decide) (Nat.mod_le _ _)
        have h2 : 2 ^ (k % 36 + 1) * m = 2 ^ (k % 36) * (2 * m) := by ring
        have h3 : 2 ^ (k % 36) * (2 * m) ≤ 2 ^ k * (2 * m) := Nat.mul_le_mul_right _ h1
        have h4 : 2 ^ k * (2 * m + 1) = 2 ^ k * (2 * m) + 2 ^ k := by ring
        have h5 : 0 < 2 ^ k := Nat.two_pow_pos k
        omega
      obtain ⟨l, e, hp, hl⟩ := ih (shift + 36 * (k / 36)) _ hm
      refine ⟨(k % 36 + (shift + 36 * (k / 36))) :: l, ?_, ?_, ?_⟩
      · unfold yieldLoop
        simp only [hn, if_false, lowbit, shiftLoop_pow, lookup_pow (Nat.mod_lt k (by decide : 36 > 0)), e]
        rfl
      · refine List.Pairwise.cons ?_ hp
        intro a ha
        have := (hl a).mp ha
        rw [clear_low, Nat.testBit_two_pow_mul] at this
        simp only [Bool.and_eq_true, decide_eq_true_eq] at this
        omega
      · intro i
        have hk : k % 36 + (shift + 36 * (k / 36)) = shift + k := by omega
        rw [List.mem_cons, hl i, clear_low, Nat.testBit_two_pow_mul, Nat.testBit_two_pow_mul, hk]
        simp only [Bool.and_eq_true, decide_eq_true_eq]
        by_cases hik : i = shift + k
        · subst hik
          simp
        · constructor
          · rintro (q | ⟨h1, h2, h3⟩)
            · exact absurd q hik
            · refine ⟨by omega, by omega, ?_⟩
              have e : i - shift - k = (i - (shift + 36 * (k / 36)) - (k % 36 + 1)) + 1 := by omega
              rw [e, Nat.testBit_succ]
              have : (2 * m + 1) / 2 = m := by omega
              rw [this]
              exact h3
          · rintro ⟨h1, h2, h3⟩
            right
            refine ⟨by omega, by omega, ?_⟩
            have e : i - shift - k = (i - (shift + 36 * (k / 36)) - (k % 36 + 1)) + 1 := by omega
            rw [e, Nat.testBit_succ] at h3
            have : (2 * m + 1) / 2 = m := by omega
            rw [this] at h3
            exact h3

/-- **C30**: for every natural number `yield_bits_on` finishes without error and yields the positions of the set bits in
increasing order. -/
theorem C30_bits (num : Nat) :
    ∃ l, yield_bits_on num = .ok l ∧ l.Pairwise (· < ·) ∧ ∀ i, i ∈ l ↔ num.testBit i = true := by
  obtain ⟨l, h1, h2, h3⟩ := yieldLoop_spec num 0 num (Nat.le_refl _)
  exact ⟨l, h1, h2, fun i => by simpa using h3 i⟩

/-- A number with bits in two windows of 36. -/
example : yieldLoop 5 0 (2 ^ 80 + 2 ^ 37 + 2 ^ 36 + 5) = .ok [0, 2, 36, 37, 80] := by decide +kernel

/-! ## C31 -/

/-- All tuples with entries from the lists, in lexicographic order of positions. -/
def tuples {α : Type} : List (List α) → List (List α)
  | [] => [[]]
  | r :: rs => r.flatMap (fun v => (tuples rs).map (v :: ·))

theorem stackLoop_cons {α : Type} (rs : List (List α)) (fuel : Nat) (it : List α) (its : List (List α)) (tup : List α)
    (tups out : List (List α)) : stackLoop rs (fuel + 1) (it :: its) (tup :: tups) out =
      if its.length + 1 < rs.length then
        match it with
        | [] => stackLoop rs fuel its tups out
        | v :: rest =>
          match rs[its.length + 1]? with
          | none => .error .indexError
          | some r => stackLoop rs fuel (r :: rest :: its) ((tup ++ [v]) :: tup :: tups) out
      else stackLoop rs fuel its tups (out ++ it.map (fun v => tup ++ [v])) := by
  rw [stackLoop.eq_def]
  cases it <;> rfl

theorem stackLoop_spec {α : Type} (rs : List (List α)) (d : Nat) :
    ∀ (it : List α) (its : List (List α)) (tup : List α) (tups out : List (List α)), its.length + 1 + d = rs.length →
      ∃ F, ∀ fuel, stackLoop rs (F + fuel) (it :: its) (tup :: tups) out =
        stackLoop rs fuel its tups (out ++ it.flatMap (fun v => (tuples (rs.drop (its.length + 1))).map (fun t => tup ++ v :: t))) := by
  induction d with
  | zero =>
    intro it its tup tups out hd
    refine ⟨1, fun fuel => ?_⟩
    rw [Nat.add_comm, stackLoop_cons]
    have h1 : ¬ its.length + 1 < rs.length := by omega
    have h2 : rs.drop (its.length + 1) = [] := List.drop_eq_nil_of_le (by omega)
    simp only [h1, if_false, h2, tuples, List.map_cons, List.map_nil]
    congr 2
    induction it with
    | nil => rfl
    | cons v vs ih => simp [List.flatMap_cons, ih]
  | succ d ihd =>
    intro it
    have hr : ∀ (its : List (List α)), its.length + 1 + (d + 1) = rs.length →
        ∃ r, rs[its.length + 1]? = some r ∧ rs.drop (its.length + 1) = r :: rs.drop (its.length + 1 + 1) := by
      intro its hd
      have hlt : its.length + 1 < rs.length := by omega
      exact ⟨rs[its.length + 1], List.getElem?_eq_getElem hlt, (List.drop_eq_getElem_cons hlt)⟩
    induction it with
    | nil =>
      intro its tup tups out hd
      obtain ⟨r, h1, -⟩ := hr its hd
      refine ⟨1, fun fuel => ?_⟩
      rw [Nat.add_comm, stackLoop_cons]
      simp only [show its.length + 1 < rs.length by omega, if_true, h1, List.flatMap_nil, List.append_nil]
    | cons v rest ih =>
      intro its tup tups out hd
      obtain ⟨r, h1, h2⟩ := hr its hd
      obtain ⟨F1, e1⟩ := ihd r (rest :: its) (tup ++ [v]) (tup :: tups) out (by simp only [List.length_cons]; omega)
      obtain ⟨F2, e2⟩ := ih its tup tups (out ++ r.flatMap (fun w => (tuples (rs.drop ((rest :: its).length + 1))).map (fun t => (tup ++ [v]) ++ w :: t))) hd
      refine ⟨F1 + F2 + 1, fun fuel => ?_⟩
      rw [show F1 + F2 + 1 + fuel = (F1 + (F2 + fuel)) + 1 by omega, stackLoop_cons]
      simp only [show its.length + 1 < rs.length by omega, if_true, h1]
      rw [e1, e2]
      congr 1
      rw [List.append_assoc, List.flatMap_cons]
      congr 2
      rw [h2]
      simp only [tuples, List.map_flatMap, List.length_cons, List.map_map]
      congr 1
      funext w
      apply List.map_congr_left
      intro t _
      simp

theorem stackLoop_more {α : Type} (rs : List (List α)) :
    ∀ (fuel : Nat) (its tups out l : List (List α)), stackLoop rs fuel its tups out = .ok l →
      ∀ k, stackLoop rs (fuel + k) its tups out = .ok l := by
  intro fuel
  induction fuel with
  | zero => intro its tups out l h; cases h
  | succ fuel ih =>
    intro its tups out l h k
    rw [show fuel + 1 + k = (fuel + k) + 1 by omega]
    rw [stackLoop.eq_def] at h ⊢
    dsimp only at h ⊢
    split at h
    · exact h
    · cases h
    · split at h
      · rename_i h1
        simp only [h1, if_true]
        split at h
        · exact ih _ _ _ _ h k
        · split at h
          · cases h
          · exact ih _ _ _ _ h k
      · rename_i h1
        simp only [h1, if_false]
        exact ih _ _ _ _ h k

/-- `stackrange` on a nonempty tuple yields the tuples of the product in order: it finishes, and whenever it has finished
that is what it has yielded. -/
theorem stackrange_eq (rangetup : List (Rng Int)) (hne : rangetup ≠ []) :
    (∃ fuel, stackrange fuel rangetup = .ok (tuples (rangetup.map Rng.list))) ∧
    ∀ fuel l, stackrange fuel rangetup = .ok l → l = tuples (rangetup.map Rng.list) := by
  have key : ∃ fuel, stackrange fuel rangetup = .ok (tuples (rangetup.map Rng.list)) := by
    cases rangetup with
    | nil => exact absurd rfl hne
    | cons r rs =>
      obtain ⟨F, e⟩ := stackLoop_spec ((r :: rs).map Rng.list) rs.length r.list [] [] [] [] (by simp; omega)
      refine ⟨F + 1, ?_⟩
      unfold stackrange
      simp only [List.map_cons] at e ⊢
      rw [e 1, stackLoop]
      simp [tuples]
  refine ⟨key, fun fuel l h => ?_⟩
  obtain ⟨F, hF⟩ := key
  unfold stackrange at h hF
  cases hr : rangetup.map Rng.list with
  | nil => rw [hr] at h; cases h
  | cons r rs =>
    rw [hr] at h hF
    have h1 := stackLoop_more _ _ _ _ _ _ h F
    have h2 := stackLoop_more _ _ _ _ _ _ hF fuel
    rw [Nat.add_comm, h1] at h2
    cases h2
    rfl

theorem mem_tuples {α : Type} (rs : List (List α)) (t : List α) :
    t ∈ tuples rs ↔ List.Forall₂ (fun v r => v ∈ r) t rs := by
  induction rs generalizing t with
  | nil => simp [tuples]
  | cons r rs ih =>
    simp only [tuples, List.mem_flatMap, List.mem_map]
    constructor
    · rintro ⟨v, hv, s, hs, rfl⟩
      exact List.Forall₂.cons hv ((ih s).mp hs)
    · intro h
      cases h with
      | cons hv hs => exact ⟨_, hv, _, (ih _).mpr hs, rfl⟩

theorem tuples_sorted {α : Type} [LT α] (rs : List (List α)) (h : ∀ r ∈ rs, r.Pairwise (· < ·)) :
    (tuples rs).Pairwise (List.Lex (· < ·)) := by
  induction rs with
  | nil => simp [tuples]
  | cons r rs ih =>
    have hr := h r (List.mem_cons_self)
    have ih := ih (fun r' hr' => h r' (List.mem_cons_of_mem _ hr'))
    unfold tuples
    induction hr with
    | nil => exact List.Pairwise.nil
    | @cons v vs hv hvs ihr =>
      rw [List.flatMap_cons, List.pairwise_append]
      refine ⟨?_, ihr ?_, ?_⟩
      · rw [List.pairwise_map]
        exact ih.imp (fun h => List.Lex.cons h)
      · intro r' hr'
        rcases List.mem_cons.mp hr' with rfl | hr'
        · exact hvs
        · exact h r' (List.mem_cons_of_mem _ hr')
      · intro a ha b hb
        obtain ⟨s, -, rfl⟩ := List.mem_map.mp ha
        obtain ⟨w, hw, hb⟩ := List.mem_flatMap.mp hb
        obtain ⟨s', -, rfl⟩ := List.mem_map.mp hb
        exact List.Lex.rel (hv w hw)

/-- **C31**: on a nonempty shape `stackrange` finishes, and it yields exactly the index tuples within the shape, in strictly
increasing lexicographic order (so each once). -/
theorem C31_stackrange (shape : List Nat) (hne : shape ≠ []) :
    ∃ F l, stackrange F (shape.map (fun n : Nat => Rng.num (n : Int))) = .ok l ∧
      (∀ fuel l', stackrange fuel (shape.map (fun n : Nat => Rng.num (n : Int))) = .ok l' → l' = l) ∧
      (∀ t : List Int, t ∈ l ↔ List.Forall₂ (fun (v : Int) (n : Nat) => 0 ≤ v ∧ v < n) t shape) ∧
      l.Pairwise (List.Lex (· < ·)) := by
  have hne' : shape.map (fun n : Nat => Rng.num (α := Int) n) ≠ [] := by
    intro h; exact hne (List.map_eq_nil_iff.mp h)
  obtain ⟨⟨F, hF⟩, hu⟩ := stackrange_eq _ hne'
  refine ⟨F, _, hF, hu, fun t => ?_, tuples_sorted _ ?_⟩
  · rw [mem_tuples, List.map_map, List.forall₂_map_right_iff]
    have : ∀ (v : Int) (n : Nat), v ∈ (Rng.list ∘ fun n : Nat => Rng.num (α := Int) n) n ↔ 0 ≤ v ∧ v < (n : Int) := by
      intro v n
      simp only [Function.comp, Rng.list, Int.toNat_natCast, List.mem_map, List.mem_range]
      constructor
      · rintro ⟨a, ha, rfl⟩
        exact ⟨Int.natCast_nonneg a, Int.ofNat_lt.mpr ha⟩
      · rintro ⟨h1, h2⟩
        exact ⟨v.toNat, by omega, by simp [h1]⟩
    constructor
    · intro h; exact h.imp (fun v n hh => (this v n).mp hh)
    · intro h; exact h.imp (fun v n hh => (this v n).mpr hh)
  · intro r hr
    rw [List.map_map, List.mem_map] at hr
    obtain ⟨n, -, rfl⟩ := hr
    simp only [Function.comp, Rng.list, Int.toNat_natCast]
    rw [List.pairwise_map]
    exact (List.pairwise_lt_range).imp (fun h => Int.ofNat_lt.mpr h)

/-- **C31** for any iterables: exactly the tuples with entries from them (for repeated entries, as often as they can be picked). -/
theorem C31_iterables (rangetup : List (Rng Int)) (hne : rangetup ≠ []) :
    ∃ F l, stackrange F rangetup = .ok l ∧ (∀ fuel l', stackrange fuel rangetup = .ok l' → l' = l) ∧
      (∀ t : List Int, t ∈ l ↔ List.Forall₂ (fun v r => v ∈ r.list) t rangetup) ∧
      l.length = (rangetup.map (fun r => r.list.length)).prod := by
  obtain ⟨⟨F, hF⟩, hu⟩ := stackrange_eq _ hne
  refine ⟨F, _, hF, hu, fun t => ?_, ?_⟩
  · rw [mem_tuples, List.forall₂_map_right_iff]
  · rw [show (rangetup.map (fun r => r.list.length)) = (rangetup.map Rng.list).map List.length by simp]
    generalize rangetup.map Rng.list = rs
    induction rs with
    | nil => rfl
    | cons r rs ih =>
      simp only [tuples, List.length_flatMap, List.length_map, List.map_cons, List.prod_cons, ← ih]
      simp

/-- The claim needs a nonempty tuple: on the empty one, whose product has one element, the code fails. -/
theorem C31_empty (fuel : Nat) : stackrange fuel [] = .error .indexError := rfl

example : stackrange 20 [.num 2, .iter [5, 7], .num 1] = .ok [[0, 5, 0], [0, 7, 0], [1, 5, 0], [1, 7, 0]] := by decide +kernel
example : stackrange 20 [.num 2, .num 0, .num 3] = .ok [] := by decide +kernel

end Num
