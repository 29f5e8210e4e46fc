import Verif.Py.Dict
import Mathlib.Data.Int.Order.Basic
import Mathlib.Tactic.Linarith

/-!
# `phasor/utilities/np.py`: sections of an array of booleans, and C122
-/

namespace Npu
open Py

/-- `list(zip(args[0::2], args[1::2]))`. -/
def pairs : List ℕ → List (ℕ × ℕ)
  | a :: b :: l => (a, b) :: pairs l
  | _ => []

/-- `np.argwhere(barray[1:] ^ barray[:-1]).T[0, :] + 1`, l.240-241. -/
def changes (barray : List Bool) : List ℕ :=
  ((List.zipWith xor barray.tail barray.dropLast).zipIdx.filter (·.1)).map fun x => x.2 + 1

/-- The loop of l.254-259: the sections after the first, `eidx` being the end of the one before. -/
def disconnects (reconnect_length : ℤ) : ℕ → List (ℕ × ℕ) → List ℕ
  | _, [] => []
  | eidx, (sidx, e) :: l =>
    if (sidx : ℤ) - eidx > reconnect_length then eidx :: sidx :: disconnects reconnect_length e l else disconnects reconnect_length e l

/-- `sections[-1][-1]`. -/
def last_end : ℕ → List (ℕ × ℕ) → ℕ
  | e, [] => e
  | _, (_, e) :: l => last_end e l

/-- `generate_sections`, l.236-262. -/
def generate_sections (barray : List Bool) (reconnect_length : Option ℤ) : Except Err (List (ℕ × ℕ)) :=
  match barray.head?, barray.getLast? with
  | some first, some last =>
    let args := (if first then [0] else []) ++ changes barray ++ (if last then [barray.length - 1] else [])
    if args.length % 2 ≠ 0 then .error .assertion
    else
      match pairs args, reconnect_length with
      | (s, e) :: l, some r => .ok (pairs (s :: disconnects r e l ++ [last_end e l]))
      | sections, _ => .ok sections
  | _, _ => .error .indexError

/-- `generate_antisections`, l.264-280. -/
def generate_antisections (idx_start idx_end : ℕ) (sections : List (ℕ × ℕ)) : List (ℕ × ℕ) :=
  if sections = [] then [(idx_start, idx_end)]
  else
    let d := sections.flatMap fun x => [x.1, x.2]
    let d := if d.head? = some idx_start then d.tail else idx_start :: d
    let d := if d.getLast? = some idx_end then d.dropLast else d ++ [idx_end]
    pairs d

/-- The index is in one of the half open intervals. -/
def Covered (l : List (ℕ × ℕ)) (i : ℕ) : Prop := ∃ x ∈ l, x.1 ≤ i ∧ i < x.2


/-! ## The changes, from one place on -/

def chg : ℕ → Bool → List Bool → List ℕ
  | _, _, [] => []
  | p, a, b :: l => if a = b then chg (p + 1) b l else (p + 1) :: chg (p + 1) b l

theorem chg_eq (l : List Bool) : ∀ (p : ℕ) (a : Bool),
    (((List.zipWith xor l (a :: l).dropLast).zipIdx p).filter (·.1)).map (fun x => x.2 + 1) = chg p a l := by
  induction l with
  | nil => intro p a; rfl
  | cons b l ih =>
    intro p a
    rw [List.dropLast_cons_of_ne_nil (by simp), List.zipWith_cons_cons, List.zipIdx_cons, List.filter_cons]
    unfold chg
    have h := ih (p + 1) b
    cases a <;> cases b <;> simp_all

theorem changes_cons (a : Bool) (l : List Bool) : changes (a :: l) = chg 0 a l := chg_eq l 0 a

/-- What the sections of a predicate have to be, from `lo` on: they are the runs of the predicate, except that a run that reaches the last
index `N` ends there. -/
inductive Good (t : ℕ → Prop) (N : ℕ) : ℕ → List (ℕ × ℕ) → Prop
  | nil {lo} : (∀ i, lo ≤ i → ¬ t i) → Good t N lo []
  | last {lo s} : lo ≤ s → s ≤ N → (∀ i, lo ≤ i → i < s → ¬ t i) → (∀ i, s ≤ i → i ≤ N → t i) → (∀ i, N < i → ¬ t i) →
      Good t N lo [(s, N)]
  | cons {lo s e l} : lo ≤ s → s < e → e ≤ N → (∀ i, lo ≤ i → i < s → ¬ t i) → (∀ i, s ≤ i → i < e → t i) → ¬ t e → Good t N e l →
      Good t N lo ((s, e) :: l)

theorem Good.weaken {t : ℕ → Prop} {N lo lo' : ℕ} {l} (h : Good t N lo l) (hl : lo' ≤ lo) (hn : ∀ i, lo' ≤ i → i < lo → ¬ t i) :
    Good t N lo' l := by
  have key : ∀ {s}, (∀ i, lo ≤ i → i < s → ¬ t i) → ∀ i, lo' ≤ i → i < s → ¬ t i := by
    intro s h i h1 h2
    by_cases hi : i < lo
    · exact hn i h1 hi
    · exact h i (by omega) h2
  cases h with
  | nil h =>
    refine .nil fun i h1 => ?_
    by_cases hi : i < lo
    · exact hn i h1 hi
    · exact h i (by omega)
  | last a b c d e => exact .last (by omega) b (key c) d e
  | cons a b c d e f g => exact .cons (by omega) b c (key d) e f g

def tailEnd (p : ℕ) (a : Bool) (l : List Bool) : List ℕ := chg p a l ++ if (a :: l).getLast? = some true then [p + l.length] else []

theorem good_from (t : ℕ → Prop) (N : ℕ) : ∀ (l : List Bool) (p : ℕ) (a : Bool), p + l.length = N →
    (∀ i, p ≤ i → (t i ↔ (a :: l)[i - p]? = some true)) →
    (a = false → (tailEnd p a l).length % 2 = 0 ∧ Good t N p (pairs (tailEnd p a l))) ∧
    (a = true → (tailEnd p a l).length % 2 = 1 ∧ ∀ lo s, lo ≤ s → s ≤ p → (∀ i, lo ≤ i → i < s → ¬ t i) → (∀ i, s ≤ i → i ≤ p → t i) →
      Good t N lo (pairs (s :: tailEnd p a l))) := by
  intro l
  induction l with
  | nil =>
    intro p a hp ht
    constructor
    · intro ha
      subst ha
      refine ⟨rfl, ?_⟩
      refine Good.nil fun i hi => ?_
      rw [ht i hi]
      cases h : i - p <;> simp
    · intro ha
      subst ha
      refine ⟨rfl, fun lo s h1 h2 h3 h4 => ?_⟩
      have : p = N := by simpa using hp
      subst this
      refine Good.last h1 h2 h3 h4 fun i hi => ?_
      rw [ht i (by omega)]
      have : i - p = (i - p - 1) + 1 := by omega
      rw [this]
      simp
  | cons b l ih =>
    intro p a hp ht
    have hp' : p + 1 + l.length = N := by simp at hp; omega
    have ht' : ∀ i, p + 1 ≤ i → (t i ↔ (b :: l)[i - (p + 1)]? = some true) := by
      intro i hi
      rw [ht i (by omega), show i - p = (i - (p + 1)) + 1 by omega, List.getElem?_cons_succ]
    have hT : tailEnd p a (b :: l) = if a = b then tailEnd (p + 1) b l else (p + 1) :: tailEnd (p + 1) b l := by
      unfold tailEnd
      rw [List.getLast?_cons_cons, List.length_cons, show p + (l.length + 1) = p + 1 + l.length by omega]
      conv_lhs => unfold chg
      split <;> simp
    have hta : t p ↔ a = true := by rw [ht p le_rfl]; simp
    have htb : t (p + 1) ↔ b = true := by rw [ht' (p + 1) le_rfl]; simp
    obtain ⟨i1, i2⟩ := ih (p + 1) b hp' ht'
    rw [hT]
    constructor
    · intro ha
      subst ha
      have hn : ∀ i, p ≤ i → i < p + 1 → ¬ t i := by
        intro i h1 h2
        have : i = p := by omega
        subst this
        simp [hta]
      cases b with
      | false =>
        rw [if_pos rfl]
        obtain ⟨j1, j2⟩ := i1 rfl
        exact ⟨j1, j2.weaken (by omega) hn⟩
      | true =>
        rw [if_neg (by simp)]
        obtain ⟨j1, j2⟩ := i2 rfl
        refine ⟨by simp [List.length_cons]; omega, ?_⟩
        refine j2 p (p + 1) (by omega) le_rfl hn ?_
        intro i h1 h2
        have : i = p + 1 := by omega
        subst this
        simp [htb]
    · intro ha
      subst ha
      cases b with
      | true =>
        rw [if_pos rfl]
        obtain ⟨j1, j2⟩ := i2 rfl
        refine ⟨j1, fun lo s h1 h2 h3 h4 => j2 lo s h1 (by omega) h3 ?_⟩
        intro i h5 h6
        by_cases hi : i ≤ p
        · exact h4 i h5 hi
        · have : i = p + 1 := by omega
          subst this
          simp [htb]
      | false =>
        rw [if_neg (by simp)]
        obtain ⟨j1, j2⟩ := i1 rfl
        refine ⟨by simp [List.length_cons]; omega, fun lo s h1 h2 h3 h4 => ?_⟩
        show Good t N lo ((s, p + 1) :: pairs (tailEnd (p + 1) false l))
        refine Good.cons h1 (by omega) (by omega) h3 (fun i h5 h6 => h4 i h5 (by omega)) (by simp [htb]) j2

/-- The predicate of an array. -/
def on (barray : List Bool) (i : ℕ) : Prop := barray[i]? = some true

theorem sections_good {barray : List Bool} (h : barray ≠ []) :
    ∃ l, generate_sections barray none = .ok l ∧ Good (on barray) (barray.length - 1) 0 l ∧
      ∀ r, generate_sections barray (some r) = .ok (match l with
        | (s, e) :: l => pairs (s :: disconnects r e l ++ [last_end e l])
        | [] => []) := by
  obtain ⟨a, l, rfl⟩ := List.exists_cons_of_ne_nil h
  have hg := good_from (on (a :: l)) l.length l 0 a (by simp) (fun i _ => by simp [on])
  have hargs : (if a then [0] else []) ++ changes (a :: l) ++ (if ((a :: l).getLast?.getD false) then [(a :: l).length - 1] else []) =
      (if a then [0] else []) ++ tailEnd 0 a l := by
    rw [changes_cons, List.append_assoc]
    unfold tailEnd
    cases hl : (a :: l).getLast? with
    | none => simp at hl
    | some x => cases x <;> simp
  obtain ⟨x, hx⟩ : ∃ x, (a :: l).getLast? = some x := by
    cases hl : (a :: l).getLast? with
    | none => simp at hl
    | some x => exact ⟨x, rfl⟩
  rw [hx] at hargs
  simp only [Option.getD_some] at hargs
  have hlen : ((if a then [0] else []) ++ tailEnd 0 a l).length % 2 = 0 := by
    cases a with
    | false => simpa using (hg.1 rfl).1
    | true => have := (hg.2 rfl).1; simp; omega
  have hgood : Good (on (a :: l)) ((a :: l).length - 1) 0 (pairs ((if a then [0] else []) ++ tailEnd 0 a l)) := by
    cases a with
    | false => simpa using (hg.1 rfl).2
    | true =>
      refine (hg.2 rfl).2 0 0 le_rfl le_rfl (by omega) ?_
      intro i h1 h2
      have : i = 0 := by omega
      subst this
      simp [on]
  refine ⟨pairs ((if a then [0] else []) ++ tailEnd 0 a l), ?_, hgood, ?_⟩
  · unfold generate_sections
    rw [hx]
    simp only [List.head?_cons]
    rw [hargs, if_neg (by omega)]
    cases pairs ((if a then [0] else []) ++ tailEnd 0 a l) <;> rfl
  · intro r
    unfold generate_sections
    rw [hx]
    simp only [List.head?_cons]
    rw [hargs, if_neg (by omega)]
    cases pairs ((if a then [0] else []) ++ tailEnd 0 a l) <;> rfl

/-! ## Reconnection -/

def merge (r : ℤ) : ℕ → ℕ → List (ℕ × ℕ) → List (ℕ × ℕ)
  | s, e, [] => [(s, e)]
  | s, e, (s', e') :: l => if (s' : ℤ) - e > r then (s, e) :: merge r s' e' l else merge r s e' l

theorem pairs_disconnects (r : ℤ) (l : List (ℕ × ℕ)) : ∀ s e, pairs (s :: disconnects r e l ++ [last_end e l]) = merge r s e l := by
  induction l with
  | nil => intro s e; rfl
  | cons x l ih =>
    obtain ⟨s', e'⟩ := x
    intro s e
    unfold disconnects merge last_end
    split
    · rw [← ih]; rfl
    · rw [← ih]

theorem covered_cons (x : ℕ × ℕ) (l : List (ℕ × ℕ)) (i : ℕ) : Covered (x :: l) i ↔ (x.1 ≤ i ∧ i < x.2) ∨ Covered l i := by
  simp [Covered]

theorem covered_nil (i : ℕ) : ¬ Covered [] i := by simp [Covered]

theorem covered_good {t : ℕ → Prop} {N lo : ℕ} {l : List (ℕ × ℕ)} (h : Good t N lo l) (i : ℕ) (hi : lo ≤ i) :
    Covered l i ↔ t i ∧ i ≠ N := by
  induction h with
  | nil h => simp [covered_nil, h i hi]
  | last h1 h2 h3 h4 h5 =>
    rename_i lo s
    rw [covered_cons]
    simp only [covered_nil, or_false]
    constructor
    · intro h
      exact ⟨h4 i h.1 (by omega), by omega⟩
    · intro h
      have : s ≤ i := by
        by_contra hc
        exact h3 i hi (by omega) h.1
      refine ⟨this, ?_⟩
      by_contra hc
      exact h5 i (by omega) h.1
  | cons h1 h2 h3 h4 h5 h6 h7 ih =>
    rename_i lo s e l
    rw [covered_cons]
    constructor
    · rintro (h | h)
      · exact ⟨h5 i h.1 h.2, by omega⟩
      · by_cases hie : e ≤ i
        · exact (ih hie).1 h
        · exfalso
          have : ∀ {lo l}, Good t N lo l → Covered l i → lo ≤ i := by
            intro lo l hg
            induction hg with
            | nil _ => intro h; exact absurd h (covered_nil i)
            | last h1 _ _ _ _ => rw [covered_cons]; rintro (h | h); · omega
                                 · exact absurd h (covered_nil i)
            | cons h1 h2 _ _ _ _ _ ih => rw [covered_cons]; rintro (h | h); · omega
                                         · have := ih h; omega
          exact hie (this h7 h)
    · intro h
      by_cases hie : e ≤ i
      · exact Or.inr ((ih hie).2 h)
      · left
        refine ⟨?_, by omega⟩
        by_contra hc
        exact h4 i hi (by omega) h.1

/-- What reconnection fills: places between two elements that are on, at most `r` places apart. -/
def Filled (t : ℕ → Prop) (r : ℤ) (lo i : ℕ) : Prop := t i ∨ ∃ j k, lo ≤ j ∧ j < i ∧ i < k ∧ t j ∧ t k ∧ (k : ℤ) - j - 1 ≤ r

theorem covered_merge {t : ℕ → Prop} {N : ℕ} (r : ℤ) {l : List (ℕ × ℕ)} : ∀ {lo s e : ℕ}, Good t N lo ((s, e) :: l) → ∀ s0, s0 ≤ s → ∀ i,
    Covered (merge r s0 e l) i ↔ (s0 ≤ i ∧ i < s) ∨ (s ≤ i ∧ i < N ∧ Filled t r s i) := by
  induction l with
  | nil =>
    intro lo s e h s0 h0 i
    unfold merge
    rw [covered_cons]
    simp only [covered_nil, or_false]
    cases h with
    | last h1 h2 h3 h4 h5 =>
      constructor
      · intro h
        by_cases hi : i < s
        · exact Or.inl ⟨h.1, hi⟩
        · exact Or.inr ⟨by omega, h.2, Or.inl (h4 i (by omega) (by omega))⟩
      · rintro (h | h) <;> omega
    | cons h1 h2 h3 h4 h5 h6 h7 =>
      cases h7 with
      | nil h7 =>
        constructor
        · intro h
          by_cases hi : i < s
          · exact Or.inl ⟨h.1, hi⟩
          · exact Or.inr ⟨by omega, by omega, Or.inl (h5 i (by omega) (by omega))⟩
        · rintro (h | ⟨h, _, h'⟩)
          · omega
          · refine ⟨by omega, ?_⟩
            by_contra hc
            rcases h' with h' | ⟨j, k, _, h8, h9, _, h10, _⟩
            · exact h7 i (by omega) h'
            · exact h7 k (by omega) h10
  | cons x l ih =>
    obtain ⟨s', e'⟩ := x
    intro lo s e h s0 h0 i
    cases h with
    | cons h1 h2 h3 h4 h5 h6 h7 =>
      have hs' : e ≤ s' ∧ s' ≤ N ∧ t s' ∧ (∀ i, e ≤ i → i < s' → ¬ t i) := by
        cases h7 with
        | last a b c d f => exact ⟨a, b, d s' le_rfl b, c⟩
        | cons a b c d f g h => exact ⟨a, by omega, f s' le_rfl b, d⟩
      obtain ⟨k1, k2, k3, k4⟩ := hs'
      have hup : ∀ i, Filled t r s' i → Filled t r s i := by
        rintro i (h | ⟨j, k, a, b⟩)
        · exact Or.inl h
        · exact Or.inr ⟨j, k, by omega, b⟩
      have hdown : ∀ i, s' ≤ i → Filled t r s i → Filled t r s' i := by
        rintro i hi (h | ⟨j, k, a, b, c, d, f, g⟩)
        · exact Or.inl h
        · by_cases hj : s' ≤ j
          · exact Or.inr ⟨j, k, hj, b, c, d, f, g⟩
          · by_cases hii : i = s'
            · subst hii; exact Or.inl k3
            · exact Or.inr ⟨s', k, le_rfl, by omega, c, k3, f, by omega⟩
      unfold merge
      split
      · rename_i hr
        rw [covered_cons, ih h7 s' le_rfl i]
        constructor
        · rintro (⟨a, b⟩ | ⟨a, b⟩ | ⟨a, b, c⟩)
          · dsimp only at a b
            by_cases hi : i < s
            · exact Or.inl ⟨a, hi⟩
            · exact Or.inr ⟨by omega, by omega, Or.inl (h5 i (by omega) b)⟩
          · omega
          · exact Or.inr ⟨by omega, b, hup i c⟩
        · rintro (⟨a, b⟩ | ⟨a, b, c⟩)
          · left; dsimp only; omega
          · by_cases hi : i < e
            · left; dsimp only; omega
            · by_cases hi' : s' ≤ i
              · exact Or.inr (Or.inr ⟨hi', b, hdown i hi' c⟩)
              · exfalso
                rcases c with c | ⟨j, k, c1, c2, c3, c4, c5, c6⟩
                · exact k4 i (by omega) (by omega) c
                · have hj : j < e := by
                    by_contra hc
                    exact k4 j (by omega) (by omega) c4
                  have hk : s' ≤ k := by
                    by_contra hc
                    exact k4 k (by omega) (by omega) c5
                  omega
      · rename_i hr
        rw [ih h7 s0 (by omega) i]
        constructor
        · rintro (⟨a, b⟩ | ⟨a, b, c⟩)
          · by_cases hi : i < s
            · exact Or.inl ⟨a, hi⟩
            · refine Or.inr ⟨by omega, by omega, ?_⟩
              by_cases hi' : i < e
              · exact Or.inl (h5 i (by omega) hi')
              · exact Or.inr ⟨e - 1, s', by omega, by omega, b, h5 _ (by omega) (by omega), k3, by omega⟩
          · exact Or.inr ⟨by omega, b, hup i c⟩
        · rintro (⟨a, b⟩ | ⟨a, b, c⟩)
          · left; omega
          · by_cases hi' : s' ≤ i
            · exact Or.inr ⟨hi', b, hdown i hi' c⟩
            · left; omega

end Npu
