import Verif.KeyMat.Spec
import Mathlib.Tactic.Set

/-!
# Invariants of key spaces
-/

set_option linter.unusedSectionVars false

namespace KeyMat
open Py

variable {K V : Type} [LinearOrder K]

theorem mem_toSet (ks : List K) : ∀ (base : List K) (k : K), k ∈ toSet base ks ↔ k ∈ base ∨ k ∈ ks := by
  induction ks with
  | nil => intro base k; simp [toSet]
  | cons a ks ih =>
    intro base k
    unfold toSet
    rw [ih]
    by_cases h : a ∈ base
    · rw [if_pos h, List.mem_cons]
      constructor
      · rintro (h1 | h1)
        · exact Or.inl h1
        · exact Or.inr (Or.inr h1)
      · rintro (h1 | rfl | h1)
        · exact Or.inl h1
        · exact Or.inl h
        · exact Or.inr h1
    · rw [if_neg h, List.mem_cons, List.mem_append, List.mem_singleton, or_assoc]

theorem nodup_toSet (ks : List K) : ∀ (base : List K), base.Nodup → (toSet base ks).Nodup := by
  induction ks with
  | nil => intro base h; exact h
  | cons a ks ih =>
    intro base h
    unfold toSet
    apply ih
    by_cases ha : a ∈ base
    · rw [if_pos ha]; exact h
    · rw [if_neg ha, List.nodup_append]
      refine ⟨h, by simp, ?_⟩
      intro x hx y hy
      rw [List.mem_singleton] at hy
      subst hy
      rintro rfl
      exact ha hx

theorem toSet_nodup (ks : List K) : ∀ base : List K, (base ++ ks).Nodup → toSet base ks = base ++ ks := by
  induction ks with
  | nil => intro base _; simp [toSet]
  | cons a ks ih =>
    intro base h
    unfold toSet
    have ha : a ∉ base := by
      intro hm
      rw [List.nodup_append] at h
      exact h.2.2 a hm a (by simp) rfl
    rw [if_neg ha, ih _ (by simpa using h)]
    simp

theorem sorted_sort {ks : List K} (h : ks.Nodup) : Sorted ks (ks.insertionSort (· ≤ ·)) := by
  have hp := List.perm_insertionSort (· ≤ ·) ks
  refine ⟨?_, fun k => hp.mem_iff⟩
  have h1 : (ks.insertionSort (· ≤ ·)).Pairwise (· ≤ ·) := List.pairwise_insertionSort (· ≤ ·) ks
  have h2 : (ks.insertionSort (· ≤ ·)).Pairwise (· ≠ ·) := hp.nodup_iff.mpr h
  refine List.Pairwise.imp ?_ (List.Pairwise.and h1 h2)
  rintro a b ⟨h3, h4⟩
  exact lt_of_le_of_ne h3 h4

theorem Sorted.nodup {ks l : List K} (h : Sorted ks l) : l.Nodup :=
  List.Pairwise.imp (fun h => ne_of_lt h) h.1

theorem pairwise_ext : ∀ {l l' : List K}, l.Pairwise (· < ·) → l'.Pairwise (· < ·) → (∀ k, k ∈ l ↔ k ∈ l') → l = l'
  | [], [], _, _, _ => rfl
  | [], b :: l', _, _, h => by simpa using (h b)
  | a :: l, [], _, _, h => by simpa using (h a)
  | a :: l, b :: l', h1, h2, h => by
    rw [List.pairwise_cons] at h1 h2
    have hab : a = b := by
      have ha : a ∈ b :: l' := (h a).mp (by simp)
      have hb : b ∈ a :: l := (h b).mpr (by simp)
      rw [List.mem_cons] at ha hb
      rcases ha with ha | ha
      · exact ha
      rcases hb with hb | hb
      · exact hb.symm
      · exact absurd (lt_trans (h2.1 a ha) (h1.1 b hb)) (lt_irrefl _)
    subst hab
    congr 1
    apply pairwise_ext h1.2 h2.2
    intro k
    have := h k
    rw [List.mem_cons, List.mem_cons] at this
    constructor
    · intro hk
      rcases this.mp (Or.inr hk) with rfl | h3
      · exact absurd (h1.1 _ hk) (lt_irrefl _)
      · exact h3
    · intro hk
      rcases this.mpr (Or.inr hk) with rfl | h3
      · exact absurd (h2.1 _ hk) (lt_irrefl _)
      · exact h3

theorem Sorted.unique {ks l l' : List K} (h : Sorted ks l) (h' : Sorted ks l') : l = l' :=
  pairwise_ext h.1 h'.1 (fun k => (h.2 k).trans (h'.2 k).symm)

theorem Sorted.length {ks l : List K} (hn : ks.Nodup) (h : Sorted ks l) : l.length = ks.length := by
  have h1 := h.unique (sorted_sort hn)
  rw [h1, List.length_insertionSort]

/-! ### The index map -/

theorem enumerate_get (l : List K) : ∀ (i : Nat) (d : Dict K Nat) (k : K), l.Nodup →
    (k ∉ l → Dict.get? (enumerate i l d) k = Dict.get? d k) ∧
      ∀ j, l[j]? = some k → Dict.get? (enumerate i l d) k = some (i + j) := by
  induction l with
  | nil => intro i d k _; simp [enumerate]
  | cons a l ih =>
    intro i d k hn
    rw [List.nodup_cons] at hn
    unfold enumerate
    have h := ih (i + 1) (Dict.set d a i) k hn.2
    constructor
    · intro hk
      rw [List.mem_cons, not_or] at hk
      rw [h.1 hk.2, Dict.get?_set_ne _ _ (Ne.symm hk.1)]
    · intro j hj
      cases j with
      | zero =>
        have hak : a = k := by simpa using hj
        subst hak
        rw [h.1 hn.1, Dict.get?_set, if_pos rfl]
        rfl
      | succ j =>
        have hj' : l[j]? = some k := by simpa using hj
        rw [h.2 j hj']
        congr 1
        omega

theorem enumerate_iff {l : List K} (hn : l.Nodup) (k : K) (j : Nat) :
    Dict.get? (enumerate 0 l []) k = some j ↔ l[j]? = some k := by
  have h := enumerate_get l 0 [] k hn
  constructor
  · intro hg
    by_cases hk : k ∈ l
    · obtain ⟨n, hlt, hj⟩ := List.getElem_of_mem hk
      have hj' : l[n]? = some k := by rw [List.getElem?_eq_getElem hlt, hj]
      have := h.2 n hj'
      rw [hg, Nat.zero_add] at this
      rw [Option.some.inj this]
      exact hj'
    · rw [h.1 hk] at hg
      simp [Dict.get?] at hg
  · intro hj
    have := h.2 j hj
    rwa [Nat.zero_add] at this

/-- A space is in order: no key twice, and the two maps describe the sorted list of its keys. -/
structure SpaceOK (s : Space K) : Prop where
  nd : s.keys.Nodup
  so : ∀ km l, s.maps = some (km, l) → Sorted s.keys l
  im : ∀ km l, s.maps = some (km, l) → ∀ k j, Dict.get? km k = some j ↔ l[j]? = some k

theorem freeze_ok {s : Space K} (h : SpaceOK s) : SpaceOK s.freeze := by
  unfold Space.freeze
  cases hm : s.maps with
  | some m => exact h
  | none =>
    have hs := sorted_sort h.nd
    refine ⟨h.nd, ?_, ?_⟩
    · intro km l he
      simp only [Option.some.injEq, Prod.mk.injEq] at he
      obtain ⟨_, rfl⟩ := he
      exact hs
    · intro km l he k j
      simp only [Option.some.injEq, Prod.mk.injEq] at he
      obtain ⟨rfl, rfl⟩ := he
      exact enumerate_iff hs.nodup k j

theorem freeze_keys (s : Space K) : s.freeze.keys = s.keys := by
  unfold Space.freeze; split <;> rfl

theorem freeze_inv (s : Space K) : s.freeze.inv = s.inv := by
  unfold Space.freeze; split <;> rfl

theorem freeze_contra (s : Space K) : s.freeze.contra = s.contra := by
  unfold Space.freeze; split <;> rfl

theorem freeze_maps (s : Space K) : ∃ km l, s.freeze.maps = some (km, l) := by
  unfold Space.freeze
  cases hm : s.maps with
  | some m => exact ⟨m.1, m.2, hm⟩
  | none => exact ⟨_, _, rfl⟩

theorem freeze_frozen (s : Space K) : s.freeze.frozen = true := by
  obtain ⟨km, l, h⟩ := freeze_maps s
  unfold Space.frozen
  rw [h]; rfl

theorem freeze_of_frozen {s : Space K} (h : s.frozen = true) : s.freeze = s := by
  unfold Space.frozen at h
  unfold Space.freeze
  cases hm : s.maps with
  | some m => rfl
  | none => rw [hm] at h; cases h

theorem freeze_of_maps {s : Space K} {m} (h : s.maps = some m) : s.freeze = s := by
  apply freeze_of_frozen
  unfold Space.frozen
  rw [h]; rfl

theorem maps_of_frozen {s : Space K} (h : s.frozen = true) : ∃ km l, s.maps = some (km, l) := by
  unfold Space.frozen at h
  cases hm : s.maps with
  | some m => exact ⟨m.1, m.2, rfl⟩
  | none => rw [hm] at h; cases h

theorem init_ok (ks : List K) (fr c : Bool) (v : Option Nat) : SpaceOK (Space.init ks fr c v) := by
  unfold Space.init
  have h : SpaceOK ({ keys := toSet [] ks, contra := c, inv := v } : Space K) :=
    ⟨nodup_toSet ks [] (by simp), by simp, by simp⟩
  dsimp only
  split
  · exact freeze_ok h
  · exact h

theorem keysAdd_spec {s s' : Space K} {args : List K} (h : s.keysAdd args = .ok s') :
    (s.frozen = true ∧ s' = s ∧ ∀ k ∈ args, k ∈ s.keys) ∨
      (s.frozen = false ∧ s' = { s with keys := toSet s.keys args }) := by
  unfold Space.keysAdd at h
  split at h
  · rename_i hf
    split at h
    · rename_i ha
      left
      refine ⟨hf, (Except.ok.inj h).symm, ?_⟩
      intro k hk
      rw [List.all_eq_true] at ha
      simpa using ha k hk
    · cases h
  · rename_i hf
    right
    exact ⟨by simpa using hf, (Except.ok.inj h).symm⟩

theorem keysAdd_ok {s s' : Space K} {args : List K} (hs : SpaceOK s) (h : s.keysAdd args = .ok s') : SpaceOK s' := by
  rcases keysAdd_spec h with ⟨_, rfl, _⟩ | ⟨hf, rfl⟩
  · exact hs
  · refine ⟨nodup_toSet args s.keys hs.nd, ?_, ?_⟩
    · intro km l he
      unfold Space.frozen at hf
      rw [show s.maps = some (km, l) from he] at hf
      cases hf
    · intro km l he
      unfold Space.frozen at hf
      rw [show s.maps = some (km, l) from he] at hf
      cases hf

theorem keysAdd_mem {s s' : Space K} {args : List K} (h : s.keysAdd args = .ok s') (k : K) :
    k ∈ s'.keys ↔ k ∈ s.keys ∨ k ∈ args := by
  rcases keysAdd_spec h with ⟨_, rfl, ha⟩ | ⟨_, rfl⟩
  · constructor
    · exact Or.inl
    · rintro (h1 | h1)
      · exact h1
      · exact ha k h1
  · exact mem_toSet args s.keys k

/-! ### Growth of a space over time -/

/-- `s'` is a later state of the space `s`. -/
structure Le (s s' : Space K) : Prop where
  fr : s.frozen = true → s'.keys = s.keys ∧ s'.maps = s.maps
  ks : ∀ k ∈ s.keys, k ∈ s'.keys
  iv : ∀ j, s.inv = some j → s'.inv = some j
  ct : s'.contra = s.contra

theorem Le.refl (s : Space K) : Le s s := ⟨fun _ => ⟨rfl, rfl⟩, fun _ h => h, fun _ h => h, rfl⟩

theorem Le.frozen {s s' : Space K} (h : Le s s') (hf : s.frozen = true) : s'.frozen = true := by
  unfold Space.frozen at *
  rw [(h.fr hf).2]; exact hf

theorem Le.trans {a b c : Space K} (h : Le a b) (h' : Le b c) : Le a c := by
  refine ⟨?_, fun k hk => h'.ks k (h.ks k hk), fun j hj => h'.iv j (h.iv j hj), h'.ct.trans h.ct⟩
  intro hf
  have h1 := h.fr hf
  have h2 := h'.fr (h.frozen hf)
  exact ⟨h2.1.trans h1.1, h2.2.trans h1.2⟩

theorem freeze_le (s : Space K) : Le s s.freeze := by
  refine ⟨?_, ?_, ?_, freeze_contra s⟩
  · intro hf; rw [freeze_of_frozen hf]; exact ⟨rfl, rfl⟩
  · intro k hk; rwa [freeze_keys]
  · intro j hj; rwa [freeze_inv]

theorem keysAdd_le {s s' : Space K} {args : List K} (h : s.keysAdd args = .ok s') : Le s s' ∧ s'.inv = s.inv := by
  rcases keysAdd_spec h with ⟨_, rfl, ha⟩ | ⟨hf, rfl⟩
  · exact ⟨Le.refl _, rfl⟩
  · refine ⟨⟨?_, ?_, fun _ h => h, rfl⟩, rfl⟩
    · intro h'; rw [hf] at h'; cases h'
    · intro k hk; exact (mem_toSet args s.keys k).mpr (Or.inl hk)

/-! ### The heap of spaces -/

structure HeapOK (sp : List (Space K)) : Prop where
  ok : ∀ (i : Nat) (s : Space K), sp[i]? = some s → SpaceOK s
  lk : ∀ (i : Nat) (s : Space K) (j : Nat), sp[i]? = some s → s.inv = some j → s.frozen = true ∧
    ∃ s', sp[j]? = some s' ∧ s'.inv = some i ∧ s'.frozen = true ∧ s'.keys = s.keys ∧ s'.contra = !s.contra

def HLe (sp sp' : List (Space K)) : Prop := ∀ (i : Nat) (s : Space K), sp[i]? = some s → ∃ s', sp'[i]? = some s' ∧ Le s s'

theorem HLe.refl (sp : List (Space K)) : HLe sp sp := fun _ s h => ⟨s, h, Le.refl s⟩

theorem HLe.trans {a b c : List (Space K)} (h : HLe a b) (h' : HLe b c) : HLe a c := by
  intro i s hs
  obtain ⟨s1, h1, h2⟩ := h i s hs
  obtain ⟨s2, h3, h4⟩ := h' i s1 h1
  exact ⟨s2, h3, h2.trans h4⟩

theorem heap_set {sp : List (Space K)} (h : HeapOK sp) {i : Nat} {s s' : Space K} (hi : sp[i]? = some s)
    (hle : Le s s') (hok : SpaceOK s') (hinv : s'.inv = s.inv) : HeapOK (sp.set i s') ∧ HLe sp (sp.set i s') := by
  have hlt : i < sp.length := by
    rw [List.getElem?_eq_some_iff] at hi
    exact hi.1
  have hget : ∀ j, (sp.set i s')[j]? = if i = j then some s' else sp[j]? := by
    intro j
    rw [List.getElem?_set]
    by_cases hj : i = j
    · rw [if_pos hj, if_pos hj, if_pos hlt]
    · rw [if_neg hj, if_neg hj]
  have hle' : HLe sp (sp.set i s') := by
    intro j t hj
    rw [hget]
    by_cases hij : i = j
    · subst hij
      rw [hi] at hj
      cases hj
      exact ⟨s', by rw [if_pos rfl], hle⟩
    · exact ⟨t, by rw [if_neg hij]; exact hj, Le.refl t⟩
  refine ⟨⟨?_, ?_⟩, hle'⟩
  · intro j t hj
    rw [hget] at hj
    by_cases hij : i = j
    · rw [if_pos hij] at hj; cases hj; exact hok
    · rw [if_neg hij] at hj; exact h.ok j t hj
  · intro a t j ha htj
    -- the old state of `t`
    have hold : ∃ t0, sp[a]? = some t0 ∧ Le t0 t ∧ t0.inv = t.inv := by
      rw [hget] at ha
      by_cases hia : i = a
      · subst hia
        rw [if_pos rfl] at ha
        cases ha
        exact ⟨s, hi, hle, hinv.symm⟩
      · rw [if_neg hia] at ha
        exact ⟨t, ha, Le.refl t, rfl⟩
    obtain ⟨t0, h0, hle0, hinv0⟩ := hold
    obtain ⟨hf, u, hu, hui, huf, huk, huc⟩ := h.lk a t0 j h0 (hinv0.trans htj)
    refine ⟨hle0.frozen hf, ?_⟩
    obtain ⟨u', hu', hleu⟩ := hle' j u hu
    refine ⟨u', hu', hleu.iv a hui, hleu.frozen huf, ?_, ?_⟩
    · rw [(hleu.fr huf).1, (hle0.fr hf).1, huk]
    · rw [hleu.ct, hle0.ct, huc]

theorem freezeAt_get (sp : List (Space K)) (i j : Nat) :
    (freezeAt sp i)[j]? = if i = j then (sp[j]?).map Space.freeze else sp[j]? := by
  unfold freezeAt
  cases hi : sp[i]? with
  | none =>
    dsimp only
    by_cases hij : i = j
    · subst hij; rw [if_pos rfl, hi]; rfl
    · rw [if_neg hij]
  | some s =>
    dsimp only
    have hlt : i < sp.length := by
      rw [List.getElem?_eq_some_iff] at hi
      exact hi.1
    rw [List.getElem?_set]
    by_cases hij : i = j
    · subst hij; rw [if_pos rfl, if_pos rfl, if_pos hlt, hi]; rfl
    · rw [if_neg hij, if_neg hij]

theorem freezeAt_good {sp : List (Space K)} (h : HeapOK sp) (i : Nat) :
    HeapOK (freezeAt sp i) ∧ HLe sp (freezeAt sp i) := by
  unfold freezeAt
  cases hi : sp[i]? with
  | none => exact ⟨h, HLe.refl sp⟩
  | some s => exact heap_set h hi (freeze_le s) (freeze_ok (h.ok i s hi)) (freeze_inv s)

theorem freezeAt_self {sp : List (Space K)} {i : Nat} {s : Space K} (hi : sp[i]? = some s) (hf : s.frozen = true) :
    freezeAt sp i = sp := by
  apply List.ext_getElem?
  intro j
  rw [freezeAt_get]
  by_cases hij : i = j
  · subst hij
    rw [if_pos rfl, hi, Option.map_some, freeze_of_frozen hf]
  · rw [if_neg hij]

theorem keyMapAt_fst (sp : List (Space K)) (i : Nat) (k : K) : (keyMapAt sp i k).1 = freezeAt sp i := by
  unfold keyMapAt
  dsimp only
  split <;> rfl

theorem keyMapAt_frozen {sp : List (Space K)} {i : Nat} {s : Space K} {km l} (hi : sp[i]? = some s)
    (hm : s.maps = some (km, l)) (k : K) : keyMapAt sp i k = (sp, Dict.get km k) := by
  have hf : s.frozen = true := by unfold Space.frozen; rw [hm]; rfl
  unfold keyMapAt
  rw [freezeAt_self hi hf]
  dsimp only
  rw [hi]
  dsimp only
  unfold Space.keyMap
  rw [hm]

theorem keyMapAt_freeze (sp : List (Space K)) (i : Nat) (k : K) : keyMapAt (freezeAt sp i) i k = keyMapAt sp i k := by
  cases hi : sp[i]? with
  | none =>
    have : freezeAt sp i = sp := by unfold freezeAt; rw [hi]
    rw [this]
  | some s =>
    have h1 : (freezeAt sp i)[i]? = some s.freeze := by rw [freezeAt_get, if_pos rfl, hi]; rfl
    have h2 : freezeAt (freezeAt sp i) i = freezeAt sp i := freezeAt_self h1 (freeze_frozen s)
    unfold keyMapAt
    rw [h2]

theorem keysAddAt_good {sp sp' : List (Space K)} (h : HeapOK sp) {i : Nat} {args : List K}
    (he : keysAddAt sp i args = .ok sp') :
    HeapOK sp' ∧ HLe sp sp' ∧ ∀ s', sp'[i]? = some s' → ∀ k ∈ args, k ∈ s'.keys := by
  unfold keysAddAt at he
  cases hi : sp[i]? with
  | none => rw [hi] at he; cases he
  | some s =>
    rw [hi] at he
    dsimp only at he
    cases hk : s.keysAdd args with
    | error e => rw [hk] at he; cases he
    | ok s' =>
      rw [hk] at he
      replace he : sp.set i s' = sp' := Except.ok.inj he
      subst he
      obtain ⟨hle, hinv⟩ := keysAdd_le hk
      obtain ⟨h1, h2⟩ := heap_set h hi hle (keysAdd_ok (h.ok i s hi) hk) hinv
      refine ⟨h1, h2, ?_⟩
      intro t ht k hka
      have hlt : i < sp.length := by
        rw [List.getElem?_eq_some_iff] at hi
        exact hi.1
      rw [List.getElem?_set, if_pos rfl, if_pos hlt] at ht
      cases ht
      exact (keysAdd_mem hk k).mpr (Or.inr hka)

theorem append_good {sp : List (Space K)} (h : HeapOK sp) {s : Space K} (hs : SpaceOK s) (hi : s.inv = none) :
    HeapOK (sp ++ [s]) ∧ HLe sp (sp ++ [s]) := by
  have hle : HLe sp (sp ++ [s]) := by
    intro j t hj
    refine ⟨t, ?_, Le.refl t⟩
    have hlt : j < sp.length := by
      rw [List.getElem?_eq_some_iff] at hj
      exact hj.1
    rw [List.getElem?_append_left hlt]; exact hj
  have hcase : ∀ (j : Nat) (t : Space K), (sp ++ [s])[j]? = some t → sp[j]? = some t ∨ t = s := by
    intro j t hj
    by_cases hlt : j < sp.length
    · rw [List.getElem?_append_left hlt] at hj; exact Or.inl hj
    · rw [List.getElem?_append_right (by omega)] at hj
      have hm := List.mem_of_getElem? hj
      rw [List.mem_singleton] at hm
      exact Or.inr hm
  refine ⟨⟨?_, ?_⟩, hle⟩
  · intro j t hj
    rcases hcase j t hj with h1 | rfl
    · exact h.ok j t h1
    · exact hs
  · intro a t j ha htj
    rcases hcase a t ha with h1 | rfl
    · obtain ⟨hf, u, hu, hui, huf, huk, huc⟩ := h.lk a t j h1 htj
      obtain ⟨u', hu', hleu⟩ := hle j u hu
      exact ⟨hf, u', hu', hleu.iv a hui, hleu.frozen huf, by rw [(hleu.fr huf).1, huk], by rw [hleu.ct, huc]⟩
    · rw [hi] at htj; cases htj

theorem init_inv (ks : List K) (fr c : Bool) (v : Option Nat) : (Space.init ks fr c v).inv = v := by
  unfold Space.init
  dsimp only
  split
  · rw [freeze_inv]
  · rfl

theorem init_keys (ks : List K) (fr c : Bool) (v : Option Nat) : (Space.init ks fr c v).keys = toSet [] ks := by
  unfold Space.init
  dsimp only
  split
  · rw [freeze_keys]
  · rfl

theorem init_contra (ks : List K) (fr c : Bool) (v : Option Nat) : (Space.init ks fr c v).contra = c := by
  unfold Space.init
  dsimp only
  split
  · rw [freeze_contra]
  · rfl

theorem init_frozen (ks : List K) (c : Bool) (v : Option Nat) : (Space.init ks true c v).frozen = true := by
  unfold Space.init
  dsimp only; rw [if_pos rfl]; exact freeze_frozen _

/-- `inverse` keeps the heap in order. -/
theorem inverse_good {w : World K V} (h : HeapOK w.sp) (i : Nat) :
    HeapOK (inverse w i).1.sp ∧ HLe w.sp (inverse w i).1.sp := by
  unfold inverse
  cases hi : w.sp[i]? with
  | none => exact ⟨h, HLe.refl _⟩
  | some s =>
    dsimp only
    cases hv : s.inv with
    | some j => exact ⟨h, HLe.refl _⟩
    | none =>
      dsimp only
      have hlt : i < w.sp.length := by
        rw [List.getElem?_eq_some_iff] at hi
        exact hi.1
      have hsok := freeze_ok (h.ok i s hi)
      set s1 : Space K := { s.freeze with inv := some w.sp.length } with hs1
      set n := Space.init s.freeze.keys true (!s.freeze.contra) (some i) with hn
      have hs1ok : SpaceOK s1 := ⟨hsok.nd, hsok.so, hsok.im⟩
      have hs1fr : s1.frozen = true := freeze_frozen s
      have hs1le : Le s s1 := by
        have hl := freeze_le s
        refine ⟨hl.fr, hl.ks, ?_, hl.ct⟩
        intro j hj; rw [hv] at hj; cases hj
      have hget : ∀ j, (w.sp.set i s1 ++ [n])[j]? = if i = j then some s1 else if j = w.sp.length then some n else w.sp[j]? := by
        intro j
        by_cases hjl : j < w.sp.length
        · rw [List.getElem?_append_left (by simpa using hjl), List.getElem?_set]
          by_cases hij : i = j
          · rw [if_pos hij, if_pos hij, if_pos hlt]
          · rw [if_neg hij, if_neg hij, if_neg (by omega)]
        · rw [List.getElem?_append_right (by simpa using hjl), if_neg (by omega)]
          by_cases hje : j = w.sp.length
          · subst hje; rw [if_pos rfl]; simp
          · rw [if_neg hje, List.length_set]
            rw [List.getElem?_eq_none (by simp; omega), List.getElem?_eq_none (by omega)]
      have hle : HLe w.sp (w.sp.set i s1 ++ [n]) := by
        intro j t hj
        rw [hget]
        by_cases hij : i = j
        · subst hij
          rw [hi] at hj; cases hj
          exact ⟨s1, by rw [if_pos rfl], hs1le⟩
        · have hjl : j < w.sp.length := by
            rw [List.getElem?_eq_some_iff] at hj
            exact hj.1
          exact ⟨t, by rw [if_neg hij, if_neg (by omega)]; exact hj, Le.refl t⟩
      have hnk : n.keys = s1.keys := by
        rw [hn, init_keys, toSet_nodup _ _ (by simpa using hsok.nd)]
        rfl
      refine ⟨⟨?_, ?_⟩, hle⟩
      · intro j t hj
        rw [hget] at hj
        split at hj
        · cases hj; exact hs1ok
        · split at hj
          · cases hj; exact init_ok _ _ _ _
          · exact h.ok j t hj
      · intro a t j ha htj
        rw [hget] at ha
        split at ha
        · rename_i hia
          subst hia
          cases ha
          have hj : w.sp.length = j := by
            have : s1.inv = some w.sp.length := rfl
            rw [this] at htj
            exact Option.some.inj htj
          subst hj
          refine ⟨hs1fr, n, ?_, ?_, ?_, hnk, ?_⟩
          · rw [hget, if_neg (by omega), if_pos rfl]
          · rw [hn, init_inv]
          · rw [hn]; exact init_frozen _ _ _
          · rw [hn, init_contra]
        · split at ha
          · rename_i hia hal
            subst hal
            cases ha
            have hj : i = j := by
              rw [hn, init_inv] at htj
              exact Option.some.inj htj
            subst hj
            refine ⟨by rw [hn]; exact init_frozen _ _ _, s1, ?_, rfl, hs1fr, hnk.symm, ?_⟩
            · rw [hget, if_pos rfl]
            · rw [hn, init_contra]
              have : s1.contra = s.freeze.contra := rfl
              rw [this, Bool.not_not]
          · obtain ⟨hf, u, hu, hui, huf, huk, huc⟩ := h.lk a t j ha htj
            obtain ⟨u', hu', hleu⟩ := hle j u hu
            exact ⟨hf, u', hu', hleu.iv a hui, hleu.frozen huf, by rw [(hleu.fr huf).1, huk], by rw [hleu.ct, huc]⟩

end KeyMat
