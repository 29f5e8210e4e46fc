import Mathlib.Data.List.Nodup
import Mathlib.Data.List.Basic
import Verif.Inject.Sparsity
import Verif.Inject.Basic

set_option linter.unusedSectionVars false

namespace Inject
open Py

variable {N κ : Type} [DecidableEq N] [DecidableEq κ]

/-! ## sets -/

theorem mem_frozenset {A : Type} [DecidableEq A] (l : List A) (a : A) : a ∈ frozenset l ↔ a ∈ l := by
  induction l with
  | nil => simp [frozenset]
  | cons b l ih =>
    unfold frozenset
    split
    · rename_i h
      rw [ih, List.mem_cons]
      constructor
      · exact Or.inr
      · rintro (rfl | h') <;> assumption
    · simp [ih]

theorem nodup_frozenset {A : Type} [DecidableEq A] (l : List A) : (frozenset l).Nodup := by
  induction l with
  | nil => simp [frozenset]
  | cons b l ih =>
    unfold frozenset
    split
    · exact ih
    · rename_i h
      rw [List.nodup_cons, mem_frozenset]
      exact ⟨h, ih⟩

theorem mem_sadd' (s : List N) (a b : N) : b ∈ Graph.sadd s a ↔ b ∈ s ∨ b = a := by
  unfold Graph.sadd
  split
  · rename_i h
    constructor
    · exact Or.inl
    · rintro (h' | rfl) <;> assumption
  · simp

theorem nodup_sadd' {s : List N} (h : s.Nodup) (a : N) : (Graph.sadd s a).Nodup := by
  unfold Graph.sadd
  split
  · exact h
  · rename_i h'
    rw [List.nodup_append]
    refine ⟨h, by simp, ?_⟩
    intro x hx y hy
    rw [List.mem_singleton] at hy
    subst hy
    rintro rfl
    exact h' hx

theorem mem_adds (s l : List N) (b : N) : b ∈ adds s l ↔ b ∈ s ∨ b ∈ l := by
  unfold adds
  induction l generalizing s with
  | nil => simp
  | cons a l ih =>
    rw [List.foldl_cons, ih, mem_sadd', List.mem_cons, or_assoc]

theorem nodup_adds {s : List N} (h : s.Nodup) (l : List N) : (adds s l).Nodup := by
  unfold adds
  induction l generalizing s with
  | nil => exact h
  | cons a l ih => exact ih (nodup_sadd' h a)

/-! ## lists in a defaultdict -/

/-- `d[z]` of a `defaultdict(list)`. -/
def lst {A B : Type} [DecidableEq A] (d : Dict A (List B)) (z : A) : List B := (Dict.get? d z).getD []

theorem lst_push {A B : Type} [DecidableEq A] (d : Dict A (List B)) (a : A) (b : B) (z : A) :
    lst (push d a b) z = lst d z ++ (if a = z then [b] else []) := by
  unfold lst push
  rw [Dict.get?_set]
  by_cases h : a = z
  · subst h; simp
  · simp [h]

theorem lst_pushes {A B : Type} [DecidableEq A] (l : List A) (hl : l.Nodup) (d : Dict A (List B))
    (b : B) (z : A) :
    lst (l.foldl (fun d a => push d a b) d) z = lst d z ++ (if z ∈ l then [b] else []) := by
  induction l generalizing d with
  | nil => simp
  | cons a l ih =>
    rw [List.nodup_cons] at hl
    rw [List.foldl_cons, ih hl.2, lst_push]
    by_cases h : a = z
    · subst h
      simp [hl.1]
    · simp [h, Ne.symm h]

theorem lst_erase {A B : Type} [DecidableEq A] (d : Dict A (List B)) (a z : A) :
    lst (Dict.erase d a) z = if a = z then [] else lst d z := by
  unfold lst
  rw [Dict.get?_erase]
  split <;> rfl

/-! ## closed form of the tables -/

/-- The nodes under which a rule is listed. -/
def keyset (r : Rule N) : List N :=
  if (frozenset r.nz).length = 0 then frozenset r.req else frozenset r.nz

theorem nodup_keyset (r : Rule N) : (keyset r).Nodup := by
  unfold keyset; split <;> exact nodup_frozenset _

theorem frozenset_length_zero (l : List N) : (frozenset l).length = 0 ↔ l = [] := by
  rw [List.length_eq_zero_iff]
  constructor
  · intro h
    by_contra hne
    obtain ⟨a, ha⟩ := List.exists_mem_of_ne_nil l hne
    have := (mem_frozenset l a).2 ha
    rw [h] at this
    simp at this
  · rintro rfl; rfl

theorem mem_keyset_of_nz {r : Rule N} (h : r.nz ≠ []) (z : N) : z ∈ keyset r ↔ z ∈ r.nz := by
  unfold keyset
  rw [if_neg (by rwa [frozenset_length_zero]), mem_frozenset]

def ordOf (r : Rule N) : Int := ((frozenset r.nz).length : Int)

/-- The entries of the inverse list of `z` for one key. -/
def entries (k : κ) (z : N) : Nat → List (Rule N) → List (Nat × κ × Rule N)
  | _, [] => []
  | n, r :: rs => (if z ∈ keyset r then [(n, k, r)] else []) ++ entries k z (n + 1) rs

theorem mem_entries (k : κ) (z : N) (rs : List (Rule N)) (n i : Nat) (k' : κ) (r : Rule N) :
    (i, k', r) ∈ entries k z n rs ↔ k' = k ∧ n ≤ i ∧ rs[i - n]? = some r ∧ z ∈ keyset r := by
  induction rs generalizing n with
  | nil => simp [entries]
  | cons a rs ih =>
    unfold entries
    rw [List.mem_append, ih]
    constructor
    · rintro (h | ⟨h1, h2, h3, h4⟩)
      · split at h
        · rename_i hz
          rw [List.mem_singleton] at h
          cases h
          simp [hz]
        · simp at h
      · refine ⟨h1, by omega, ?_, h4⟩
        have : i - n = (i - (n + 1)) + 1 := by omega
        rw [this, List.getElem?_cons_succ]
        exact h3
    · rintro ⟨h1, h2, h3, h4⟩
      by_cases hin : i = n
      · subst hin
        left
        rw [Nat.sub_self, List.getElem?_cons_zero] at h3
        injection h3 with h3
        subst h3 h1
        rw [if_pos h4]
        simp
      · right
        refine ⟨h1, by omega, ?_, h4⟩
        have : i - n = (i - (n + 1)) + 1 := by omega
        rw [this, List.getElem?_cons_succ] at h3
        exact h3

/-- an entry's counter -/
def slot (e : Nat × κ × Rule N) : κ × Nat := (e.2.1, e.1)

theorem nodup_entries (k : κ) (z : N) (rs : List (Rule N)) (n : Nat) :
    ((entries k z n rs).map slot).Nodup := by
  induction rs generalizing n with
  | nil => simp [entries]
  | cons a rs ih =>
    unfold entries
    rw [List.map_append, List.nodup_append]
    refine ⟨by split <;> simp, ih _, ?_⟩
    intro x hx y hy hxy
    subst hxy
    split at hx
    · simp only [List.map_cons, List.map_nil, List.mem_singleton] at hx
      subst hx
      obtain ⟨⟨i, k', r⟩, hm, he⟩ := List.mem_map.1 hy
      rw [mem_entries] at hm
      have : i = n := by
        have := congrArg Prod.snd he
        exact this
      omega
    · simp at hx

theorem tab_rules_spec (k : κ) (rs : List (Rule N)) (st : RuleSt N κ) :
    (rs.foldl (tab_rule k) st).ol = st.ol ++ rs.map ordOf ∧
    (∀ z, lst (rs.foldl (tab_rule k) st).inv z = lst st.inv z ++ entries k z st.ol.length rs) ∧
    (∀ o, o ∈ (rs.foldl (tab_rule k) st).outs ↔ o ∈ st.outs ∨ ∃ r ∈ rs, r.nz = [] ∧ o ∈ r.req) ∧
    ((rs.foldl (tab_rule k) st).any0 = true ↔ st.any0 = true ∨ ∃ r ∈ rs, r.nz = []) ∧
    (st.outs.Nodup → (rs.foldl (tab_rule k) st).outs.Nodup) := by
  induction rs generalizing st with
  | nil => simp [entries]
  | cons r rs ih =>
    rw [List.foldl_cons]
    obtain ⟨h1, h2, h3, h4, h5⟩ := ih (tab_rule k st r)
    refine ⟨?_, ?_, ?_, ?_, ?_⟩
    · rw [h1]
      simp [tab_rule, ordOf]
    · intro z
      rw [h2]
      have hl : (tab_rule k st r).ol.length = st.ol.length + 1 := by simp [tab_rule]
      rw [hl]
      have hi : lst (tab_rule k st r).inv z
          = lst st.inv z ++ (if z ∈ keyset r then [(st.ol.length, k, r)] else []) := by
        have := lst_pushes (keyset r) (nodup_keyset r) st.inv (st.ol.length, k, r) z
        rw [← this]
        unfold tab_rule keyset
        simp
      rw [hi, List.append_assoc]
      rfl
    · intro o
      rw [h3]
      have : o ∈ (tab_rule k st r).outs ↔ o ∈ st.outs ∨ (r.nz = [] ∧ o ∈ r.req) := by
        unfold tab_rule
        dsimp only
        by_cases h0 : r.nz = []
        · rw [if_pos ((frozenset_length_zero _).2 h0), mem_adds, mem_frozenset]
          simp [h0]
        · rw [if_neg (by rwa [frozenset_length_zero])]
          simp [h0]
      rw [this, or_assoc]
      simp only [List.mem_cons, exists_eq_or_imp]
    · rw [h4]
      have : (tab_rule k st r).any0 = true ↔ st.any0 = true ∨ r.nz = [] := by
        unfold tab_rule
        dsimp only
        by_cases h0 : r.nz = []
        · rw [if_pos ((frozenset_length_zero _).2 h0)]
          simp [h0]
        · rw [if_neg (by rwa [frozenset_length_zero])]
          simp [h0]
      rw [this, or_assoc]
      simp only [List.mem_cons, exists_eq_or_imp]
    · intro h
      apply h5
      unfold tab_rule
      dsimp only
      split
      · exact nodup_adds h _
      · exact h

/-- the rules of a key -/
def HasRule (rules : Dict κ (List (Rule N))) (k : κ) (r : Rule N) : Prop := r ∈ lst rules k

/-- rule `i` of a key -/
def ruleAt (rules : Dict κ (List (Rule N))) (k : κ) (i : Nat) : Option (Rule N) := (lst rules k)[i]?

theorem hasRule_iff (rules : Dict κ (List (Rule N))) (k : κ) (r : Rule N) :
    HasRule rules k r ↔ ∃ i : Nat, ruleAt rules k i = some r := List.mem_iff_getElem?

def ordAt (ord : Dict κ (List Int)) (k : κ) (i : Nat) : Option Int := (lst ord k)[i]?

theorem tab_keys_spec (rules : Dict κ (List (Rule N))) (hw : Dict.WF rules) (T : Tab N κ)
    (hT : ∀ k ∈ Dict.keys rules, Dict.get? T.ord k = none) :
    (∀ k, Dict.get? (rules.foldl tab_key T).ord k
        = ((Dict.get? rules k).map (fun rs => rs.map ordOf)).or (Dict.get? T.ord k)) ∧
    (∀ z, lst (rules.foldl tab_key T).inv z
        = lst T.inv z ++ rules.flatMap (fun kr => entries kr.1 z 0 kr.2)) ∧
    (∀ o, o ∈ (rules.foldl tab_key T).outs ↔ o ∈ T.outs ∨ ∃ k r, HasRule rules k r ∧ r.nz = [] ∧ o ∈ r.req) ∧
    (∀ k, k ∈ (rules.foldl tab_key T).zero ↔ k ∈ T.zero ∨ ∃ r, HasRule rules k r ∧ r.nz = []) ∧
    (T.outs.Nodup → (rules.foldl tab_key T).outs.Nodup) := by
  induction rules generalizing T with
  | nil => simp [HasRule, lst]
  | cons kr rules ih =>
    obtain ⟨k0, rs0⟩ := kr
    have hw' : k0 ∉ Dict.keys rules ∧ Dict.WF rules := by simpa [Dict.WF, Dict.keys] using hw
    rw [List.foldl_cons]
    obtain ⟨g1, g2, g3, g4, g5⟩ := tab_rules_spec k0 rs0 ⟨[], T.inv, T.outs, false⟩
    have hne : ∀ k ∈ Dict.keys rules, k0 ≠ k := by
      rintro k hk rfl; exact hw'.1 hk
    have hTord : ∀ k, Dict.get? (tab_key T (k0, rs0)).ord k
        = if k0 = k then some (rs0.map ordOf) else Dict.get? T.ord k := by
      intro k
      unfold tab_key
      dsimp only
      rw [Dict.get?_set, g1]
      simp
    obtain ⟨h1, h2, h3, h4, h5⟩ := ih hw'.2 (tab_key T (k0, rs0)) (by
      intro k hk
      rw [hTord, if_neg (hne k hk)]
      exact hT k (by simp only [Dict.keys, List.map_cons, List.mem_cons]; exact Or.inr hk))
    have hhas : ∀ k r, HasRule ((k0, rs0) :: rules) k r ↔ (k = k0 ∧ r ∈ rs0) ∨ HasRule rules k r := by
      intro k r
      unfold HasRule lst
      rw [Dict.get?_cons]
      by_cases hk : k0 = k
      · subst hk
        have : Dict.get? rules k0 = none := (Dict.get?_eq_none_iff _ _).2 hw'.1
        simp [this]
      · simp [hk, Ne.symm hk]
    refine ⟨?_, ?_, ?_, ?_, ?_⟩
    · intro k
      rw [h1, hTord, Dict.get?_cons]
      by_cases hk : k0 = k
      · subst hk
        have : Dict.get? rules k0 = none := (Dict.get?_eq_none_iff _ _).2 hw'.1
        simp [this]
      · simp [hk]
    · intro z
      rw [h2]
      have : lst (tab_key T (k0, rs0)).inv z = lst T.inv z ++ entries k0 z 0 rs0 := by
        have := g2 z
        unfold tab_key
        dsimp only at this ⊢
        rw [this]
        rfl
      rw [this, List.append_assoc, List.flatMap_cons]
    · intro o
      rw [h3]
      have : o ∈ (tab_key T (k0, rs0)).outs ↔ o ∈ T.outs ∨ ∃ r ∈ rs0, r.nz = [] ∧ o ∈ r.req := g3 o
      rw [this, or_assoc]
      apply or_congr_right
      constructor
      · rintro (⟨r, hr, hh⟩ | ⟨k, r, hr, hh⟩)
        · exact ⟨k0, r, (hhas _ _).2 (Or.inl ⟨rfl, hr⟩), hh⟩
        · exact ⟨k, r, (hhas _ _).2 (Or.inr hr), hh⟩
      · rintro ⟨k, r, hr, hh⟩
        rcases (hhas _ _).1 hr with ⟨_, hr'⟩ | hr
        · exact Or.inl ⟨r, hr', hh⟩
        · exact Or.inr ⟨k, r, hr, hh⟩
    · intro k
      rw [h4]
      have : k ∈ (tab_key T (k0, rs0)).zero ↔ k ∈ T.zero ∨ (k = k0 ∧ ∃ r ∈ rs0, r.nz = []) := by
        unfold tab_key
        dsimp only
        by_cases h0 : (List.foldl (tab_rule k0) { ol := [], inv := T.inv, outs := T.outs, any0 := false } rs0).any0 = true
        · rw [if_pos h0]
          have h0' := g4.1 h0
          simp only [Bool.false_eq_true, false_or] at h0'
          rw [List.mem_append, List.mem_singleton]
          exact or_congr_right ⟨fun h => ⟨h, h0'⟩, fun h => h.1⟩
        · rw [if_neg h0]
          have : ¬ ∃ r ∈ rs0, r.nz = [] := fun hh => h0 (g4.2 (Or.inr hh))
          constructor
          · exact Or.inl
          · rintro (h | h)
            · exact h
            · exact absurd h.2 this
      rw [this, or_assoc]
      apply or_congr_right
      constructor
      · rintro (⟨hk, r, hr, hh⟩ | ⟨r, hr, hh⟩)
        · exact ⟨r, (hhas _ _).2 (Or.inl ⟨hk, hr⟩), hh⟩
        · exact ⟨r, (hhas _ _).2 (Or.inr hr), hh⟩
      · rintro ⟨r, hr, hh⟩
        rcases (hhas _ _).1 hr with ⟨hk, hr⟩ | hr
        · exact Or.inl ⟨hk, r, hr, hh⟩
        · exact Or.inr ⟨r, hr, hh⟩
    · intro h
      exact h5 (g5 h)

/-- all entries of the inverse list of `z` -/
def inverse (rules : Dict κ (List (Rule N))) (z : N) : List (Nat × κ × Rule N) :=
  rules.flatMap (fun kr => entries kr.1 z 0 kr.2)

theorem mem_inverse {rules : Dict κ (List (Rule N))} (hw : Dict.WF rules) (z : N) (i : Nat) (k : κ)
    (r : Rule N) : (i, k, r) ∈ inverse rules z ↔ ruleAt rules k i = some r ∧ z ∈ keyset r := by
  unfold inverse ruleAt lst
  rw [List.mem_flatMap]
  constructor
  · rintro ⟨⟨k0, rs⟩, hm, he⟩
    rw [mem_entries] at he
    obtain ⟨rfl, _, h3, h4⟩ := he
    rw [Dict.get?_of_mem hw hm]
    exact ⟨by simpa using h3, h4⟩
  · rintro ⟨h3, h4⟩
    cases hg : Dict.get? rules k with
    | none => rw [hg] at h3; simp at h3
    | some rs =>
      rw [hg] at h3
      exact ⟨(k, rs), Dict.mem_of_get? hg, (mem_entries _ _ _ _ _ _ _).2
        ⟨rfl, Nat.zero_le _, by simpa using h3, h4⟩⟩

theorem nodup_inverse {rules : Dict κ (List (Rule N))} (hw : Dict.WF rules) (z : N) :
    ((inverse rules z).map slot).Nodup := by
  unfold inverse
  induction rules with
  | nil => simp
  | cons kr rules ih =>
    have hw' : kr.1 ∉ Dict.keys rules ∧ Dict.WF rules := by simpa [Dict.WF, Dict.keys] using hw
    rw [List.flatMap_cons, List.map_append, List.nodup_append]
    refine ⟨nodup_entries _ _ _ _, ih hw'.2, ?_⟩
    intro x hx y hy hxy
    subst hxy
    obtain ⟨⟨i, k, r⟩, hm, rfl⟩ := List.mem_map.1 hx
    rw [mem_entries] at hm
    obtain ⟨⟨i', k', r'⟩, hm', he⟩ := List.mem_map.1 hy
    have hm'' := (mem_inverse hw'.2 z i' k' r').1 hm'
    have hk : k' = k := congrArg Prod.fst he
    rw [hk, hm.1] at hm''
    unfold ruleAt lst at hm''
    have : Dict.get? rules kr.1 = none := (Dict.get?_eq_none_iff _ _).2 hw'.1
    rw [this] at hm''
    simp at hm''

theorem tab_build_spec (outs : List N) {rules : Dict κ (List (Rule N))} (hw : Dict.WF rules) :
    (∀ k i, ordAt (tab_build outs rules).ord k i = (ruleAt rules k i).map ordOf) ∧
    (∀ z, lst (tab_build outs rules).inv z = inverse rules z) ∧
    (∀ o, o ∈ (tab_build outs rules).outs ↔ o ∈ outs ∨ ∃ k r, HasRule rules k r ∧ r.nz = [] ∧ o ∈ r.req) ∧
    (∀ k, k ∈ (tab_build outs rules).zero ↔ ∃ r, HasRule rules k r ∧ r.nz = []) ∧
    (outs.Nodup → (tab_build outs rules).outs.Nodup) := by
  obtain ⟨h1, h2, h3, h4, h5⟩ := tab_keys_spec rules hw { outs := outs } (by simp)
  refine ⟨?_, ?_, h3, ?_, h5⟩
  · intro k i
    have : lst (tab_build outs rules).ord k = (lst rules k).map ordOf := by
      unfold lst tab_build
      rw [h1]
      cases Dict.get? rules k <;> simp
    unfold ordAt ruleAt
    rw [this, List.getElem?_map]
  · intro z
    unfold tab_build
    rw [h2]
    rfl
  · intro k
    unfold tab_build
    rw [h4]
    simp

/-! ## counting down -/

theorem dec_spec (ord : Dict κ (List Int)) (k : κ) (i : Nat) :
    (∀ k' i', ordAt (dec ord k i).2 k' i'
      = if k' = k ∧ i' = i then (ordAt ord k i).map (· - 1) else ordAt ord k' i') ∧
    ((dec ord k i).1 = 0 ↔ ordAt ord k i = some 1) := by
  constructor
  · intro k' i'
    unfold ordAt dec lst
    dsimp only
    rw [Dict.get?_set]
    by_cases hk : k = k'
    · subst hk
      rw [if_pos rfl, Option.getD_some, List.getElem?_set]
      by_cases hi : i = i'
      · subst hi
        rw [if_pos rfl, if_pos (And.intro rfl rfl : k = k ∧ i = i)]
        by_cases hlt : i < ((Dict.get? ord k).getD []).length
        · rw [if_pos hlt, List.getElem?_eq_getElem hlt]
          simp
        · rw [if_neg hlt, List.getElem?_eq_none (not_lt.1 hlt)]
          rfl
      · rw [if_neg hi, if_neg (fun h => hi h.2.symm)]
    · rw [if_neg hk, if_neg (fun h => hk h.1.symm)]
  · unfold ordAt dec lst
    dsimp only
    cases ((Dict.get? ord k).getD [])[i]? with
    | none => simp
    | some v =>
      simp only [Option.getD_some, Option.some.injEq]
      omega

theorem count_loop_spec {S : Type} (fire : S → κ → Rule N → S) (l : List (Nat × κ × Rule N))
    (hl : (l.map slot).Nodup) (ord : Dict κ (List Int)) (s : S) :
    (∀ k i, ordAt (count_loop fire l ord s).1 k i
      = if (k, i) ∈ l.map slot then (ordAt ord k i).map (· - 1) else ordAt ord k i) ∧
    (count_loop fire l ord s).2
      = (l.filter (fun e => ordAt ord e.2.1 e.1 = some 1)).foldl (fun s e => fire s e.2.1 e.2.2) s := by
  induction l generalizing ord s with
  | nil => simp [count_loop]
  | cons e l ih =>
    obtain ⟨i, k, r⟩ := e
    rw [List.map_cons, List.nodup_cons] at hl
    obtain ⟨d1, d2⟩ := dec_spec ord k i
    obtain ⟨h1, h2⟩ := ih hl.2 (dec ord k i).2 (if (dec ord k i).1 = 0 then fire s k r else s)
    have hslot : slot (i, k, r) = (k, i) := rfl
    rw [hslot] at hl
    constructor
    · intro k' i'
      unfold count_loop
      dsimp only
      rw [h1, d1, List.map_cons, hslot]
      by_cases hh : k' = k ∧ i' = i
      · obtain ⟨rfl, rfl⟩ := hh
        rw [if_neg hl.1, if_pos ⟨rfl, rfl⟩, if_pos List.mem_cons_self]
      · have hh' : (k', i') ≠ (k, i) := fun h => hh (by
          rw [Prod.mk.injEq] at h; exact h)
        rw [if_neg hh]
        by_cases hm : (k', i') ∈ l.map slot
        · rw [if_pos hm, if_pos (List.mem_cons_of_mem _ hm)]
        · rw [if_neg hm, if_neg (fun h => (List.mem_cons.1 h).elim hh' hm)]
    · unfold count_loop
      dsimp only
      rw [h2]
      have hfil : l.filter (fun e => ordAt (dec ord k i).2 e.2.1 e.1 = some 1)
          = l.filter (fun e => ordAt ord e.2.1 e.1 = some 1) := by
        apply List.filter_congr
        intro e he
        rw [d1, if_neg]
        rintro ⟨hk, hi⟩
        exact hl.1 (List.mem_map.2 ⟨e, he, by unfold slot; rw [hk, hi]⟩)
      rw [hfil, List.filter_cons]
      by_cases h0 : (dec ord k i).1 = 0
      · rw [if_pos h0, if_pos (by simpa using d2.1 h0), List.foldl_cons]
      · rw [if_neg h0, if_neg (by simpa using fun h => h0 (d2.2 h))]

/-! ## which rules fire -/

/-- all nodes a rule waits for are in `S` -/
def On (S : List N) (r : Rule N) : Prop := ∀ z ∈ r.nz, z ∈ S

instance (S : List N) (r : Rule N) : Decidable (On S r) := inferInstanceAs (Decidable (∀ z ∈ r.nz, z ∈ S))

/-- the number of nodes a rule still waits for -/
def waits (S : List N) (r : Rule N) : Nat := ((frozenset r.nz).filter (· ∉ S)).length

/-- the counters agree with the processed nodes -/
def OrdOk (rules : Dict κ (List (Rule N))) (S : List N) (ord : Dict κ (List Int)) : Prop :=
  ∀ k i r, ruleAt rules k i = some r →
    ∃ v : Int, ordAt ord k i = some v ∧ (r.nz = [] → v ≤ 0) ∧ (r.nz ≠ [] → v = (waits S r : Int))

/-- the inverse lists of the nodes not processed are complete -/
def InvOk (rules : Dict κ (List (Rule N))) (S : List N) (inv : Dict N (List (Nat × κ × Rule N))) : Prop :=
  ∀ z, z ∉ S → lst inv z = inverse rules z

theorem waits_zero (S : List N) (r : Rule N) : waits S r = 0 ↔ On S r := by
  unfold waits On
  rw [List.length_eq_zero_iff, List.filter_eq_nil_iff]
  constructor
  · intro h z hz
    have := h z ((mem_frozenset _ _).2 hz)
    simpa using this
  · intro h z hz
    simpa using h z ((mem_frozenset _ _).1 hz)

/-- processing `z` lowers the count of the rules waiting for it by one -/
theorem waits_sadd (S : List N) (r : Rule N) (z : N) (hz : z ∉ S) :
    waits S r = waits (Graph.sadd S z) r + (if z ∈ r.nz then 1 else 0) := by
  unfold waits
  have hnd := nodup_frozenset r.nz
  have hmem : z ∈ r.nz ↔ z ∈ frozenset r.nz := (mem_frozenset _ _).symm
  simp only [hmem]
  generalize frozenset r.nz = l at hnd ⊢
  induction l with
  | nil => simp
  | cons a l ih =>
    rw [List.nodup_cons] at hnd
    have ih' := ih hnd.2
    by_cases haz : a = z
    · subst haz
      have h1 : a ∈ Graph.sadd S a := (mem_sadd' _ _ _).2 (Or.inr rfl)
      rw [List.filter_cons, List.filter_cons, if_pos (by simpa using hz), if_neg (by simpa using h1),
        List.length_cons, ih', if_neg hnd.1, if_pos (by simp)]
    · have h1 : (a ∈ Graph.sadd S z) ↔ a ∈ S := by
        rw [mem_sadd']; simp [haz]
      have h2 : (z ∈ a :: l) ↔ z ∈ l := by simp [Ne.symm haz]
      by_cases haS : a ∈ S
      · rw [List.filter_cons, List.filter_cons, if_neg (by simpa using haS),
          if_neg (by simpa using h1.2 haS), ih']
        simp only [h2]
      · rw [List.filter_cons, List.filter_cons, if_pos (by simpa using haS),
          if_pos (by simpa using fun h => haS (h1.1 h)), List.length_cons, List.length_cons, ih']
        simp only [h2]
        omega

/-- the rules firing when `z` is processed: those waiting for nothing else -/
def fired (rules : Dict κ (List (Rule N))) (ord : Dict κ (List Int)) (z : N) : List (Nat × κ × Rule N) :=
  (inverse rules z).filter (fun e => ordAt ord e.2.1 e.1 = some 1)

theorem mem_fired {rules : Dict κ (List (Rule N))} (hw : Dict.WF rules) {S : List N}
    {ord : Dict κ (List Int)} (ho : OrdOk rules S ord) {z : N} (hz : z ∉ S) (i : Nat) (k : κ) (r : Rule N) :
    (i, k, r) ∈ fired rules ord z ↔
      ruleAt rules k i = some r ∧ ¬ On S r ∧ On (Graph.sadd S z) r := by
  unfold fired
  rw [List.mem_filter, mem_inverse hw]
  constructor
  · rintro ⟨⟨hr, hk⟩, ho1⟩
    replace ho1 : ordAt ord k i = some 1 := by simpa using ho1
    obtain ⟨v, hv, hv0, hv1⟩ := ho k i r hr
    rw [ho1] at hv
    injection hv with hv
    have hnz : r.nz ≠ [] := fun h => by have := hv0 h; omega
    have hw1 : waits S r = 1 := by have := hv1 hnz; omega
    rw [mem_keyset_of_nz hnz] at hk
    have hs := waits_sadd S r z hz
    rw [if_pos hk] at hs
    refine ⟨hr, ?_, ?_⟩
    · rw [← waits_zero]; omega
    · rw [← waits_zero]; omega
  · rintro ⟨hr, h1, h2⟩
    obtain ⟨v, hv, hv0, hv1⟩ := ho k i r hr
    have hnz : r.nz ≠ [] := by
      intro h
      apply h1
      intro z hz
      rw [h] at hz
      simp at hz
    have hs := waits_sadd S r z hz
    rw [(waits_zero _ _).2 h2] at hs
    have hne : waits S r ≠ 0 := fun h => h1 ((waits_zero _ _).1 h)
    have hzr : z ∈ r.nz := by
      by_contra hzr
      rw [if_neg hzr] at hs
      omega
    rw [if_pos hzr] at hs
    refine ⟨⟨hr, (mem_keyset_of_nz hnz z).2 hzr⟩, ?_⟩
    have : v = 1 := by rw [hv1 hnz, hs]; rfl
    rw [this] at hv
    simpa using hv

/-- the counters stay right -/
theorem ordOk_step {S' : Type} {rules : Dict κ (List (Rule N))} (hw : Dict.WF rules) {S : List N}
    {ord : Dict κ (List Int)} (ho : OrdOk rules S ord) {z : N} (hz : z ∉ S)
    (fire : S' → κ → Rule N → S') (s : S') :
    OrdOk rules (Graph.sadd S z) (count_loop fire (inverse rules z) ord s).1 := by
  intro k i r hr
  obtain ⟨h1, _⟩ := count_loop_spec fire (inverse rules z) (nodup_inverse hw z) ord s
  obtain ⟨v, hv, hv0, hv1⟩ := ho k i r hr
  have hmem : (k, i) ∈ (inverse rules z).map slot ↔ z ∈ keyset r := by
    rw [List.mem_map]
    constructor
    · rintro ⟨⟨i', k', r'⟩, hm, he⟩
      have hk : k' = k := congrArg Prod.fst he
      have hi : i' = i := congrArg Prod.snd he
      subst hk hi
      rw [mem_inverse hw, hr] at hm
      obtain ⟨hm1, hm2⟩ := hm
      injection hm1 with hm1
      subst hm1
      exact hm2
    · intro hm
      exact ⟨(i, k, r), (mem_inverse hw _ _ _ _).2 ⟨hr, hm⟩, rfl⟩
  rw [h1, hv]
  by_cases hk : z ∈ keyset r
  · rw [if_pos (hmem.2 hk)]
    refine ⟨v - 1, rfl, ?_, ?_⟩
    · intro h0
      have := hv0 h0
      omega
    · intro hnz
      have hs := waits_sadd S r z hz
      rw [if_pos ((mem_keyset_of_nz hnz z).1 hk)] at hs
      rw [hv1 hnz, hs]
      omega
  · rw [if_neg (fun h => hk (hmem.1 h))]
    refine ⟨v, rfl, hv0, ?_⟩
    intro hnz
    have hs := waits_sadd S r z hz
    rw [if_neg (fun h => hk ((mem_keyset_of_nz hnz z).2 h))] at hs
    rw [hv1 hnz, hs]
    omega

theorem ordOk_start {rules : Dict κ (List (Rule N))} (hw : Dict.WF rules) (outs : List N) :
    OrdOk rules [] (tab_build outs rules).ord := by
  intro k i r hr
  obtain ⟨h1, _⟩ := tab_build_spec outs hw
  rw [h1, hr]
  refine ⟨ordOf r, rfl, ?_, ?_⟩
  · intro h
    unfold ordOf
    rw [(frozenset_length_zero _).2 h]
    exact le_refl _
  · intro _
    unfold ordOf waits
    congr 1
    rw [List.filter_eq_self.2]
    simp

end Inject
