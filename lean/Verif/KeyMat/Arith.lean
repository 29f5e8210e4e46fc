import Verif.KeyMat.Arrays
import Mathlib.Algebra.BigOperators.Ring.Finset
import Mathlib.Algebra.Ring.Int.Defs
import Mathlib.Tactic.Abel

/-!
# C27, C28: arithmetic of keyed matrices, and the way back from arrays
-/

set_option linter.unusedSectionVars false

namespace KeyMat
open Py

variable {K V : Type} [LinearOrder K]

theorem WF_cons {X Y : Type} [DecidableEq X] {k : X} {x : Y} {d : Dict X Y} (h : Dict.WF ((k, x) :: d)) :
    k ∉ Dict.keys d ∧ Dict.WF d := by
  unfold Dict.WF Dict.keys at h
  rw [List.map_cons, List.nodup_cons] at h
  exact h

/-! ### Sums -/

theorem addLoop_known [AddMonoid V] (l : Dict (K × K) V) : ∀ d : Dict (K × K) V, Dict.WF l → Dict.WF d →
    (∀ k ∈ Dict.keys l, k ∈ Dict.keys d) →
    ∃ d', addLoop l (.dict d) = .ok (.dict d') ∧ Dict.WF d' ∧ (∀ k, k ∈ Dict.keys d' ↔ k ∈ Dict.keys d) ∧
      ∀ a b, entry d' a b = entry d a b + entry l a b := by
  induction l with
  | nil =>
    intro d _ hd _
    refine ⟨d, rfl, hd, fun _ => Iff.rfl, fun a b => ?_⟩
    have : entry ([] : Dict (K × K) V) a b = 0 := rfl
    rw [this, add_zero]
  | cons kv l ih =>
    intro d hl hd hk
    obtain ⟨kk, x⟩ := kv
    obtain ⟨hn, hl'⟩ := WF_cons hl
    have hkd : kk ∈ Dict.keys d := hk kk (by simp [Dict.keys])
    unfold addLoop
    dsimp only
    rw [Dict.mem_keys_iff] at hkd
    obtain ⟨v, hv⟩ := Option.isSome_iff_exists.mp hkd
    rw [hv]
    dsimp only
    have hkeys : ∀ k, k ∈ Dict.keys (Dict.set d kk (v + x)) ↔ k ∈ Dict.keys d := by
      intro k
      rw [Dict.mem_keys_iff, Dict.mem_keys_iff, Dict.get?_set]
      split
      · rename_i h; subst h; rw [hv]; simp
      · rfl
    obtain ⟨d', h1, h2, h3, h4⟩ := ih (Dict.set d kk (v + x)) hl' (Dict.WF_set hd _ _)
      (fun k hk' => (hkeys k).mpr (hk k (List.mem_cons_of_mem _ hk')))
    refine ⟨d', h1, h2, fun k => (h3 k).trans (hkeys k), ?_⟩
    intro a b
    rw [h4]
    unfold entry
    rw [Dict.get?_set, Dict.get?_cons]
    dsimp only
    by_cases hab : kk = (a, b)
    · subst hab
      rw [if_pos rfl, if_pos rfl, (Dict.get?_eq_none_iff l _).mpr hn, hv]
      show v + x + 0 = v + x
      rw [add_zero]
    · rw [if_neg hab, if_neg hab]

theorem addLoop_entry [Add V] (l : Dict (K × K) V) (x : V) : ∀ d, addLoop l (.entry x) ≠ .ok (Premap.dict d) := by
  intro d
  cases l with
  | nil => intro h; cases h
  | cons kv l => intro h; cases h

theorem addLoop_unknown [Add V] (l : Dict (K × K) V) : ∀ d : Dict (K × K) V, (∃ k ∈ Dict.keys l, k ∉ Dict.keys d) →
    ∀ d', addLoop l (.dict d) ≠ .ok (.dict d') := by
  induction l with
  | nil => rintro d ⟨k, hk, _⟩; cases hk
  | cons kv l ih =>
    rintro d ⟨k, hk, hkd⟩ d'
    obtain ⟨kk, x⟩ := kv
    unfold addLoop
    dsimp only
    cases hv : Dict.get? d kk with
    | none => exact addLoop_entry l x d'
    | some v =>
      dsimp only
      apply ih
      refine ⟨k, ?_, ?_⟩
      · have : k = kk ∨ k ∈ Dict.keys l := by simpa [Dict.keys] using hk
        rcases this with rfl | h
        · rw [Dict.mem_keys_iff, hv] at hkd
          exact absurd rfl hkd
        · exact h
      · rw [Dict.mem_keys_iff, Dict.get?_set] at *
        split
        · rename_i h
          subst h
          rw [hv] at hkd
          exact fun _ => hkd rfl
        · exact hkd

/-- **C27 (part).** The sum of keyed matrices on the same spaces has the sums of the entries, when every entry of the second is
stored in the first too.  (Missing: other second operands, see `C27_add_fails`.) -/
theorem C27_add_partial [AddMonoid V] (a b : Mat K V) (ha : Dict.WF a.data) (hb : Dict.WF b.data) (hto : a.sto = b.sto)
    (hfrom : a.sfrom = b.sfrom) (hk : ∀ k ∈ Dict.keys b.data, k ∈ Dict.keys a.data) :
    ∃ d, matAdd a b = .ok (.dict d) ∧ Dict.WF d ∧ ∀ x y, entry d x y = entry a.data x y + entry b.data x y := by
  unfold matAdd
  rw [if_neg (not_not.mpr hto), if_neg (not_not.mpr hfrom)]
  obtain ⟨d, h1, h2, _, h4⟩ := addLoop_known b.data a.data hb ha hk
  exact ⟨d, h1, h2, h4⟩

/-- **C27 (disagreement).** As soon as the second matrix stores an entry that the first does not, the sum is not a keyed matrix
at all: `premap = value` (l.466) replaces the dictionary by the entry. -/
theorem C27_add_fails [Add V] (a b : Mat K V) (hk : ∃ k ∈ Dict.keys b.data, k ∉ Dict.keys a.data) :
    ∀ d, matAdd a b ≠ .ok (.dict d) := by
  intro d
  unfold matAdd
  split
  · intro h; cases h
  · split
    · intro h; cases h
    · exact addLoop_unknown b.data a.data hk d

example : matAdd (⟨0, 0, [((1, 1), (2 : Int))], none, none, [], none⟩ : Mat Nat Int) ⟨0, 0, [((1, 2), 3)], none, none, [], none⟩ =
    .ok (.entry 3) := by decide

example : matAdd (⟨0, 0, [((1, 1), (2 : Int)), ((1, 2), 5)], none, none, [], none⟩ : Mat Nat Int) ⟨0, 0, [((1, 2), 3)], none, none, [], none⟩ =
    .ok (.dict [((1, 1), 2), ((1, 2), 8)]) := by decide

theorem subLoop_spec [AddGroup V] (l : Dict (K × K) V) : ∀ d : Dict (K × K) V, Dict.WF l → Dict.WF d →
    Dict.WF (subLoop l d) ∧ (∀ k, k ∈ Dict.keys (subLoop l d) ↔ k ∈ Dict.keys d ∨ k ∈ Dict.keys l) ∧
      ∀ a b, entry (subLoop l d) a b = entry d a b - entry l a b := by
  induction l with
  | nil =>
    intro d _ hd
    refine ⟨hd, fun k => ?_, fun a b => ?_⟩
    · simp [subLoop, Dict.keys]
    · have : entry ([] : Dict (K × K) V) a b = 0 := rfl
      rw [this, sub_zero]
      rfl
  | cons kv l ih =>
    intro d hl hd
    obtain ⟨kk, x⟩ := kv
    obtain ⟨hn, hl'⟩ := WF_cons hl
    have key : ∀ y : V, y = (Dict.get? d kk).getD 0 - x → subLoop ((kk, x) :: l) d = subLoop l (Dict.set d kk y) →
        Dict.WF (subLoop ((kk, x) :: l) d) ∧
        (∀ k, k ∈ Dict.keys (subLoop ((kk, x) :: l) d) ↔ k ∈ Dict.keys d ∨ k ∈ Dict.keys ((kk, x) :: l)) ∧
        ∀ a b, entry (subLoop ((kk, x) :: l) d) a b = entry d a b - entry ((kk, x) :: l) a b := by
      intro y hy he
      rw [he]
      obtain ⟨h1, h2, h3⟩ := ih (Dict.set d kk y) hl' (Dict.WF_set hd _ _)
      refine ⟨h1, ?_, ?_⟩
      · intro k
        rw [h2]
        have : Dict.keys ((kk, x) :: l) = kk :: Dict.keys l := rfl
        rw [this, List.mem_cons, Dict.mem_keys_iff, Dict.mem_keys_iff (d := d), Dict.get?_set]
        by_cases hk : kk = k
        · subst hk
          rw [if_pos rfl]
          simp
        · rw [if_neg hk]
          constructor
          · rintro (h | h)
            · exact Or.inl h
            · exact Or.inr (Or.inr h)
          · rintro (h | h | h)
            · exact Or.inl h
            · exact absurd h.symm hk
            · exact Or.inr h
      · intro a b
        rw [h3]
        unfold entry
        rw [Dict.get?_set, Dict.get?_cons]
        dsimp only
        by_cases hab : kk = (a, b)
        · subst hab
          rw [if_pos rfl, if_pos rfl, (Dict.get?_eq_none_iff l _).mpr hn]
          show y - 0 = _
          rw [sub_zero, hy]
          rfl
        · rw [if_neg hab, if_neg hab]
    cases hv : Dict.get? d kk with
    | none =>
      refine key (-x) (by rw [hv]; exact (zero_sub x).symm) ?_
      rw [subLoop, hv]
    | some v =>
      refine key (v - x) (by rw [hv]; rfl) ?_
      rw [subLoop, hv]

/-- **C27.** The difference of keyed matrices on the same spaces has the differences of the entries, whatever is stored in
either. -/
theorem C27_sub [AddGroup V] (a b : Mat K V) (ha : Dict.WF a.data) (hb : Dict.WF b.data) (hto : a.sto = b.sto)
    (hfrom : a.sfrom = b.sfrom) :
    ∃ d, matSub a b = .ok d ∧ Dict.WF d ∧ (∀ k, k ∈ Dict.keys d ↔ k ∈ Dict.keys a.data ∨ k ∈ Dict.keys b.data) ∧
      ∀ x y, entry d x y = entry a.data x y - entry b.data x y := by
  unfold matSub
  rw [if_neg (not_not.mpr hto), if_neg (not_not.mpr hfrom)]
  exact ⟨_, rfl, subLoop_spec b.data a.data hb ha⟩

/-- Entrywise relations of keyed matrices are relations of their arrays. -/
theorem arrays_zip [Zero V] {kfs kts : List K} {d a b : Dict (K × K) V} {A B : List (List V)} (f : V → V → V)
    (h : ∀ x y, entry d x y = f (entry a x y) (entry b x y)) (hA : IsMatArray kfs kts a A) (hB : IsMatArray kfs kts b B) :
    IsMatArray kfs kts d (List.zipWith (List.zipWith f) A B) := by
  obtain ⟨lf, lt, hf, ht, rfl⟩ := hA
  obtain ⟨lf', lt', hf', ht', rfl⟩ := hB
  have e1 := hf.unique hf'
  have e2 := ht.unique ht'
  subst e1 e2
  refine ⟨lf, lt, hf, ht, ?_⟩
  have zz : ∀ {X Y Z : Type} (g : X → X → Y) (p q : Z → X) (l : List Z),
      List.zipWith g (l.map p) (l.map q) = l.map (fun z => g (p z) (q z)) := by
    intro X Y Z g p q l
    induction l with
    | nil => rfl
    | cons z l ih => rw [List.map_cons, List.map_cons, List.map_cons, List.zipWith_cons_cons, ih]
  rw [zz]
  apply List.map_congr_left
  intro kt _
  rw [zz]
  apply List.map_congr_left
  intro kf _
  exact (h kf kt).symm

/-- **C27.** The array of a difference is the difference of the arrays. -/
theorem C27_sub_array [AddGroup V] (a b : Mat K V) (ha : Dict.WF a.data) (hb : Dict.WF b.data) (hto : a.sto = b.sto)
    (hfrom : a.sfrom = b.sfrom) (kfs kts : List K) (A B : List (List V)) (hA : IsMatArray kfs kts a.data A)
    (hB : IsMatArray kfs kts b.data B) :
    ∃ d, matSub a b = .ok d ∧ IsMatArray kfs kts d (List.zipWith (List.zipWith (· - ·)) A B) := by
  obtain ⟨d, h1, _, _, h4⟩ := C27_sub a b ha hb hto hfrom
  exact ⟨d, h1, arrays_zip _ h4 hA hB⟩

example : matSub (⟨0, 0, [((1, 1), (2 : Int))], none, none, [], none⟩ : Mat Nat Int) ⟨0, 0, [((1, 2), 3), ((1, 1), 5)], none, none, [], none⟩ =
    .ok [((1, 1), -3), ((1, 2), -3)] := by decide

/-- Matrices on different spaces are not combined. -/
theorem C27_spaces [AddGroup V] (a b : Mat K V) (h : a.sto ≠ b.sto ∨ a.sfrom ≠ b.sfrom) :
    matAdd a b = .error .assertion ∧ matSub a b = .error .assertion := by
  unfold matAdd matSub
  by_cases h1 : a.sto = b.sto
  · have h2 := h.resolve_left (fun hh => hh h1)
    rw [if_neg (not_not.mpr h1), if_pos h2, if_neg (not_not.mpr h1), if_pos h2]
    exact ⟨rfl, rfl⟩
  · rw [if_pos h1, if_pos h1]
    exact ⟨rfl, rfl⟩

theorem eyeLoop_entry [Zero V] [One V] (ks : List K) : ∀ (d : Dict (K × K) V) (a b : K),
    entry (eyeLoop ks d) a b = if a = b ∧ a ∈ ks then 1 else entry d a b := by
  induction ks with
  | nil => intro d a b; simp [eyeLoop]
  | cons k ks ih =>
    intro d a b
    unfold eyeLoop
    rw [ih]
    by_cases h : a = b ∧ a ∈ ks
    · rw [if_pos h, if_pos ⟨h.1, List.mem_cons_of_mem _ h.2⟩]
    · rw [if_neg h]
      unfold entry
      rw [Dict.get?_set]
      by_cases hk : (k, k) = (a, b)
      · obtain ⟨rfl, rfl⟩ := Prod.mk.inj hk
        rw [if_pos rfl, if_pos ⟨rfl, by simp⟩]
        rfl
      · rw [if_neg hk, if_neg]
        rintro ⟨rfl, hm⟩
        rw [List.mem_cons] at hm
        rcases hm with rfl | hm
        · exact hk rfl
        · exact h ⟨rfl, hm⟩

/-- **C27.** `key_matrix_eye` is the identity on the keys of the space. -/
theorem C27_eye [Zero V] [One V] (s : Space K) (a b : K) : entry (eye s) a b = if a = b ∧ a ∈ s.keys then (1 : V) else 0 := by
  unfold eye
  rw [eyeLoop_entry]
  rfl

/-! ### Products -/

/-- A nested matrix as python builds it: no dictionary has a key twice. -/
def NWF (m : Nested K V) : Prop := Dict.WF m ∧ ∀ kv ∈ m, Dict.WF kv.2

theorem NWF.row {m : Nested K V} (h : NWF m) {a : K} {t : Dict K V} (ht : Dict.get? m a = some t) : Dict.WF t :=
  h.2 (a, t) (Dict.mem_of_get? ht)

section
variable [Semiring V]

theorem mulInner_get (x : V) (l : Dict K V) : ∀ acc : Dict K V, Dict.WF l → ∀ c,
    (Dict.get? (mulInner x l acc) c).getD 0 = (Dict.get? acc c).getD 0 + x * (Dict.get? l c).getD 0 := by
  induction l with
  | nil =>
    intro acc _ c
    show (Dict.get? acc c).getD 0 = (Dict.get? acc c).getD 0 + x * 0
    rw [mul_zero, add_zero]
  | cons kv l ih =>
    intro acc hl c
    obtain ⟨c0, y⟩ := kv
    obtain ⟨hn, hl'⟩ := WF_cons hl
    have key : ∀ z, z = (Dict.get? acc c0).getD 0 + x * y → mulInner x ((c0, y) :: l) acc = mulInner x l (Dict.set acc c0 z) →
        (Dict.get? (mulInner x ((c0, y) :: l) acc) c).getD 0 =
          (Dict.get? acc c).getD 0 + x * (Dict.get? ((c0, y) :: l) c).getD 0 := by
      intro z hz he
      rw [he, ih _ hl', Dict.get?_set, Dict.get?_cons]
      dsimp only
      by_cases hc : c0 = c
      · subst hc
        rw [if_pos rfl, if_pos rfl, (Dict.get?_eq_none_iff l c0).mpr hn]
        show z + x * 0 = _ + x * y
        rw [mul_zero, add_zero, hz]
      · rw [if_neg hc, if_neg hc]
    cases hv : Dict.get? acc c0 with
    | none =>
      refine key (x * y) (by rw [hv]; exact (zero_add _).symm) ?_
      rw [mulInner, hv]
    | some z =>
      refine key (z + x * y) (by rw [hv]; rfl) ?_
      rw [mulInner, hv]

theorem mulMid_get (other : Nested K V) (ho : NWF other) (t : Dict K V) : ∀ acc : Dict K V, Dict.WF t → ∀ (c : K) (S : Finset K),
    (∀ b ∈ Dict.keys t, b ∈ S) →
    (Dict.get? (mulMid other t acc) c).getD 0 =
      (Dict.get? acc c).getD 0 + ∑ b ∈ S, (Dict.get? t b).getD 0 * nEntry other b c := by
  induction t with
  | nil =>
    intro acc _ c S _
    show (Dict.get? acc c).getD 0 = _
    rw [Finset.sum_eq_zero, add_zero]
    intro b _
    show (0 : V) * _ = 0
    rw [zero_mul]
  | cons kv t ih =>
    intro acc ht c S hS
    obtain ⟨b0, x⟩ := kv
    obtain ⟨hn, ht'⟩ := WF_cons ht
    have hb0 : b0 ∈ S := hS b0 (by simp [Dict.keys])
    have hS' : ∀ b ∈ Dict.keys t, b ∈ S := fun b hb => hS b (List.mem_cons_of_mem _ hb)
    have hsum : ∑ b ∈ S, (Dict.get? ((b0, x) :: t) b).getD 0 * nEntry other b c =
        x * nEntry other b0 c + ∑ b ∈ S, (Dict.get? t b).getD 0 * nEntry other b c := by
      have : ∀ b ∈ S, (Dict.get? ((b0, x) :: t) b).getD 0 * nEntry other b c =
          (if b0 = b then x * nEntry other b c else 0) + (Dict.get? t b).getD 0 * nEntry other b c := by
        intro b _
        rw [Dict.get?_cons]
        dsimp only
        by_cases hb : b0 = b
        · subst hb
          rw [if_pos rfl, if_pos rfl, (Dict.get?_eq_none_iff t b0).mpr hn]
          show x * _ = _ + 0 * _
          rw [zero_mul, add_zero]
        · rw [if_neg hb, if_neg hb, zero_add]
      rw [Finset.sum_congr rfl this, Finset.sum_add_distrib, Finset.sum_ite_eq, if_pos hb0]
    rw [hsum]
    unfold mulMid
    cases hv : Dict.get? other b0 with
    | none =>
      dsimp only
      rw [ih acc ht' c S hS']
      have : nEntry other b0 c = 0 := by unfold nEntry; rw [hv]; rfl
      rw [this, mul_zero, zero_add]
    | some t0 =>
      dsimp only
      rw [ih _ ht' c S hS', mulInner_get x t0 acc (ho.row hv)]
      have : nEntry other b0 c = (Dict.get? t0 c).getD 0 := by unfold nEntry; rw [hv]; rfl
      rw [this, add_assoc]

theorem mulOuter_get (other : Nested K V) (m : Nested K V) : ∀ acc : Nested K V, Dict.WF m → ∀ a,
    Dict.get? (mulOuter other m acc) a = match Dict.get? m a with | some t => some (mulMid other t []) | none => Dict.get? acc a := by
  induction m with
  | nil => intro acc _ a; rfl
  | cons kv m ih =>
    intro acc hm a
    obtain ⟨a0, t⟩ := kv
    obtain ⟨hn, hm'⟩ := WF_cons hm
    unfold mulOuter
    rw [ih _ hm', Dict.get?_cons]
    dsimp only
    by_cases ha : a0 = a
    · subst ha
      rw [if_pos rfl, (Dict.get?_eq_none_iff m a0).mpr hn]
      dsimp only
      rw [Dict.get?_set, if_pos rfl]
    · rw [if_neg ha]
      cases Dict.get? m a with
      | some t' => rfl
      | none => dsimp only; rw [Dict.get?_set_ne _ _ ha]

/-- **C27.** The product of keyed matrices is the matrix product: the entry from `a` to `c` is the sum over the keys between.
(`S` is any set with all keys that the first matrix leads to.) -/
theorem C27_mul (m n : Nested K V) (hm : NWF m) (hn : NWF n) (a c : K) (S : Finset K)
    (hS : ∀ t, Dict.get? m a = some t → ∀ b ∈ Dict.keys t, b ∈ S) :
    nEntry (nMul m n) a c = ∑ b ∈ S, nEntry m a b * nEntry n b c := by
  have hrow : nEntry (nMul m n) a c = (Dict.get? (((match Dict.get? m a with | some t => some (mulMid n t []) | none => none) : Option (Dict K V)).getD []) c).getD 0 := by
    unfold nMul
    conv_lhs => unfold nEntry
    rw [mulOuter_get n m [] hm.1]
    rfl
  rw [hrow]
  cases hv : Dict.get? m a with
  | none =>
    dsimp only
    rw [Finset.sum_eq_zero]
    · rfl
    · intro b _
      have : nEntry m a b = 0 := by unfold nEntry; rw [hv]; rfl
      rw [this, zero_mul]
  | some t =>
    dsimp only
    have := mulMid_get n hn t [] (hm.row hv) c S (hS t hv)
    have h0 : (Dict.get? ([] : Dict K V) c).getD 0 = 0 := rfl
    rw [h0, zero_add] at this
    rw [Option.getD_some, this]
    apply Finset.sum_congr rfl
    intro b _
    have : nEntry m a b = (Dict.get? t b).getD 0 := by unfold nEntry; rw [hv]; rfl
    rw [this]

theorem scaleInner_get (c : V) (t : Dict K V) : ∀ acc : Dict K V, Dict.WF t → ∀ b,
    Dict.get? (scaleInner c t acc) b = match Dict.get? t b with | some x => some (x * c) | none => Dict.get? acc b := by
  induction t with
  | nil => intro acc _ b; rfl
  | cons kv t ih =>
    intro acc ht b
    obtain ⟨b0, x⟩ := kv
    obtain ⟨hn, ht'⟩ := WF_cons ht
    unfold scaleInner
    rw [ih _ ht', Dict.get?_cons]
    dsimp only
    by_cases hb : b0 = b
    · subst hb
      rw [if_pos rfl, (Dict.get?_eq_none_iff t b0).mpr hn]
      dsimp only
      rw [Dict.get?_set, if_pos rfl]
    · rw [if_neg hb]
      cases Dict.get? t b with
      | some x' => rfl
      | none => dsimp only; rw [Dict.get?_set_ne _ _ hb]

theorem nScale_get (c : V) (m : Nested K V) : ∀ acc : Nested K V, Dict.WF m → ∀ a,
    Dict.get? (nScale c m acc) a = match Dict.get? m a with | some t => some (scaleInner c t []) | none => Dict.get? acc a := by
  induction m with
  | nil => intro acc _ a; rfl
  | cons kv m ih =>
    intro acc hm a
    obtain ⟨a0, t⟩ := kv
    obtain ⟨hn, hm'⟩ := WF_cons hm
    unfold nScale
    rw [ih _ hm', Dict.get?_cons]
    dsimp only
    by_cases ha : a0 = a
    · subst ha
      rw [if_pos rfl, (Dict.get?_eq_none_iff m a0).mpr hn]
      dsimp only
      rw [Dict.get?_set, if_pos rfl]
    · rw [if_neg ha]
      cases Dict.get? m a with
      | some t' => rfl
      | none => dsimp only; rw [Dict.get?_set_ne _ _ ha]

/-- **C27.** The product with a number multiplies every entry by it. -/
theorem C27_scale (m : Nested K V) (hm : NWF m) (c : V) (a b : K) : nEntry (nScale c m []) a b = nEntry m a b * c := by
  unfold nEntry
  rw [nScale_get c m [] hm.1]
  cases hv : Dict.get? m a with
  | none =>
    show (0 : V) = 0 * c
    rw [zero_mul]
  | some t =>
    dsimp only
    rw [Option.getD_some, Option.getD_some, scaleInner_get c t [] (hm.row hv)]
    cases hb : Dict.get? t b with
    | none =>
      show (0 : V) = 0 * c
      rw [zero_mul]
    | some x => rfl

end

/-- **C27.** Item access of nested matrices: a stored entry is read back, others are not touched. -/
theorem C27_items [Zero V] (m : Nested K V) (a b : K) (x : V) :
    nGet (nSet m a b x) a b = .ok x ∧ ∀ a' b', (a', b') ≠ (a, b) → nEntry (nSet m a b x) a' b' = nEntry m a' b' := by
  constructor
  · unfold nGet nSet
    rw [Dget_of_get? (x := Dict.set ((Dict.get? m a).getD []) b x) (by rw [Dict.get?_set, if_pos rfl])]
    show Dict.get (Dict.set ((Dict.get? m a).getD []) b x) b = _
    exact Dget_of_get? (by rw [Dict.get?_set, if_pos rfl])
  · intro a' b' hne
    unfold nEntry nSet
    rw [Dict.get?_set]
    by_cases ha : a = a'
    · subst ha
      rw [if_pos rfl, Option.getD_some, Dict.get?_set_ne]
      rintro rfl
      exact hne rfl
    · rw [if_neg ha]

/-- **C27.** Deleting: the entry is gone, others are not touched, a row that has become empty is dropped; KeyError when there
was no entry. -/
theorem C27_delete [Zero V] (m : Nested K V) (a b : K) :
    ((∃ t, Dict.get? m a = some t ∧ b ∈ Dict.keys t) → ∃ m', nDel m a b = .ok m' ∧ nEntry m' a b = 0 ∧
        (∀ a' b', (a', b') ≠ (a, b) → nEntry m' a' b' = nEntry m a' b') ∧ Dict.get? m' a ≠ some []) ∧
      ((¬ ∃ t, Dict.get? m a = some t ∧ b ∈ Dict.keys t) → nDel m a b = .error .keyError) := by
  constructor
  · rintro ⟨t, ht, hb⟩
    have hdel : Dict.del t b = .ok (Dict.erase t b) := by
      unfold Dict.del
      rw [if_pos ((Dict.has_iff t b).mpr hb)]
    unfold nDel
    rw [ht]
    dsimp only
    rw [hdel]
    dsimp only
    by_cases he : (Dict.erase t b).isEmpty = true
    · rw [if_pos he]
      have he' : Dict.erase t b = [] := List.isEmpty_iff.mp he
      refine ⟨_, rfl, ?_, ?_, ?_⟩
      · unfold nEntry
        rw [Dict.get?_erase, if_pos rfl]
        rfl
      · intro a' b' hne
        unfold nEntry
        rw [Dict.get?_erase]
        by_cases ha : a = a'
        · subst ha
          rw [if_pos rfl, ht]
          have hbb : b ≠ b' := by rintro rfl; exact hne rfl
          have : Dict.get? (Dict.erase t b) b' = Dict.get? t b' := by rw [Dict.get?_erase, if_neg hbb]
          rw [he'] at this
          show (0 : V) = (Dict.get? t b').getD 0
          rw [← this]
          rfl
        · rw [if_neg ha]
      · rw [Dict.get?_erase, if_pos rfl]
        intro h; cases h
    · rw [if_neg he]
      refine ⟨_, rfl, ?_, ?_, ?_⟩
      · unfold nEntry
        rw [Dict.get?_set, if_pos rfl, Option.getD_some, Dict.get?_erase, if_pos rfl]
        rfl
      · intro a' b' hne
        unfold nEntry
        rw [Dict.get?_set]
        by_cases ha : a = a'
        · subst ha
          have hbb : b ≠ b' := by rintro rfl; exact hne rfl
          rw [if_pos rfl, ht, Option.getD_some, Option.getD_some, Dict.get?_erase, if_neg hbb]
        · rw [if_neg ha]
      · rw [Dict.get?_set, if_pos rfl]
        intro h
        apply he
        rw [Option.some.inj h]
        rfl
  · intro hno
    unfold nDel
    cases ht : Dict.get? m a with
    | none => rfl
    | some t =>
      dsimp only
      have hb : b ∉ Dict.keys t := fun hb => hno ⟨t, ht, hb⟩
      have hdel : Dict.del t b = .error .keyError := by
        unfold Dict.del
        rw [if_neg]
        rw [Dict.has_iff]; exact hb
      rw [hdel]

example : nMul ([(1, [(2, 3), (4, 5)])] : Nested Nat Int) [(2, [(7, 10)]), (4, [(7, 100), (8, 1)])] = [(1, [(7, 530), (8, 5)])] := by
  decide

example : NWF ([(1, [(2, 3), (4, 5)])] : Nested Nat Int) := by
  constructor
  · decide
  · intro kv h
    rw [List.mem_singleton] at h
    subst h
    decide

/-! ### C28: back from arrays -/

section
variable [Zero V] [DecidableEq V]

theorem mem_nonzero (l : List V) : ∀ (i j : Nat), j ∈ nonzero i l ↔ i ≤ j ∧ ∃ x, l[j - i]? = some x ∧ x ≠ 0 := by
  induction l with
  | nil => intro i j; simp [nonzero]
  | cons x l ih =>
    intro i j
    have hstep : (i + 1 ≤ j ∧ ∃ y, l[j - (i + 1)]? = some y ∧ y ≠ 0) ↔
        (i ≠ j ∧ i ≤ j ∧ ∃ y, (x :: l)[j - i]? = some y ∧ y ≠ 0) := by
      constructor
      · rintro ⟨h1, y, h2, h3⟩
        refine ⟨by omega, by omega, y, ?_, h3⟩
        have : j - i = (j - (i + 1)) + 1 := by omega
        rw [this]; simpa using h2
      · rintro ⟨h0, h1, y, h2, h3⟩
        refine ⟨by omega, y, ?_, h3⟩
        have : j - i = (j - (i + 1)) + 1 := by omega
        rw [this] at h2; simpa using h2
    unfold nonzero
    by_cases hx : x = 0
    · rw [if_pos hx, ih, hstep]
      constructor
      · rintro ⟨_, h⟩; exact h
      · rintro ⟨h1, y, h2, h3⟩
        refine ⟨?_, h1, y, h2, h3⟩
        rintro rfl
        rw [Nat.sub_self] at h2
        have : x = y := by simpa using h2
        exact h3 (this ▸ hx)
    · rw [if_neg hx, List.mem_cons, ih, hstep]
      constructor
      · rintro (rfl | ⟨_, h⟩)
        · exact ⟨le_refl _, x, by rw [Nat.sub_self]; rfl, hx⟩
        · exact h
      · rintro h
        by_cases hij : i = j
        · exact Or.inl hij.symm
        · exact Or.inr ⟨hij, h⟩

theorem mem_nonzero2 (A : List (List V)) : ∀ (i a b : Nat), (a, b) ∈ nonzero2 i A ↔
    i ≤ a ∧ ∃ x, (A[a - i]?).bind (fun r => r[b]?) = some x ∧ x ≠ 0 := by
  induction A with
  | nil => intro i a b; simp [nonzero2]
  | cons r A ih =>
    intro i a b
    unfold nonzero2
    rw [List.mem_append, List.mem_map, ih]
    constructor
    · rintro (⟨j, hj, he⟩ | ⟨h1, x, h2, h3⟩)
      · obtain ⟨rfl, rfl⟩ := Prod.mk.inj he
        obtain ⟨_, x, h2, h3⟩ := (mem_nonzero r 0 j).mp hj
        refine ⟨le_refl _, x, ?_, h3⟩
        rw [Nat.sub_self]
        simpa using h2
      · refine ⟨by omega, x, ?_, h3⟩
        have : a - i = (a - (i + 1)) + 1 := by omega
        rw [this]; simpa using h2
    · rintro ⟨h1, x, h2, h3⟩
      by_cases hia : i = a
      · subst hia
        left
        refine ⟨b, (mem_nonzero r 0 b).mpr ⟨Nat.zero_le _, x, ?_, h3⟩, rfl⟩
        rw [Nat.sub_self] at h2
        simpa using h2
      · right
        refine ⟨by omega, x, ?_, h3⟩
        have : a - i = (a - (i + 1)) + 1 := by omega
        rw [this] at h2; simpa using h2

theorem idxMap_at {s : Space K} {km l} (hm : s.maps = some (km, l)) (i : Nat) :
    s.idxMap i = match l[i]? with | some k => .ok k | none => .error .indexError := by
  unfold Space.idxMap
  rw [hm]
  dsimp only
  rw [if_pos (Int.natCast_nonneg i), if_pos (Int.natCast_nonneg i), Int.toNat_natCast]
  rfl

theorem nodup_index {l : List K} (hn : l.Nodup) {i j : Nat} {k : K} (hi : l[i]? = some k) (hj : l[j]? = some k) : i = j := by
  have h1 := lt_of_getElem? hi
  have h2 := lt_of_getElem? hj
  rw [List.getElem?_eq_getElem h1] at hi
  rw [List.getElem?_eq_getElem h2] at hj
  exact (List.Nodup.getElem_inj_iff hn).mp ((Option.some.inj hi).trans (Option.some.inj hj).symm)

theorem backVecLoop_spec {s : Space K} {km l} (hm : s.maps = some (km, l)) (hn : l.Nodup) (f : K → V) (is : List Nat) :
    ∀ d : Dict K V, Dict.WF d → (∀ i ∈ is, i < l.length) →
    ∃ d', backVecLoop s (l.map f) is d = .ok d' ∧ Dict.WF d' ∧
      ∀ k, ((∃ i ∈ is, l[i]? = some k) → Dict.get? d' k = some (f k)) ∧
        ((¬ ∃ i ∈ is, l[i]? = some k) → Dict.get? d' k = Dict.get? d k) := by
  induction is with
  | nil =>
    intro d hd _
    refine ⟨d, rfl, hd, fun k => ⟨?_, fun _ => rfl⟩⟩
    rintro ⟨i, hi, _⟩; cases hi
  | cons i is ih =>
    intro d hd hlt
    have hi := hlt i (by simp)
    have hk : l[i]? = some l[i] := List.getElem?_eq_getElem hi
    unfold backVecLoop
    rw [idxMap_at hm, hk]
    dsimp only
    rw [List.getElem?_map, hk]
    dsimp only [Option.map_some]
    obtain ⟨d', h1, h2, h3⟩ := ih (Dict.set d l[i] (f l[i])) (Dict.WF_set hd _ _) (fun j hj => hlt j (List.mem_cons_of_mem _ hj))
    refine ⟨d', h1, h2, ?_⟩
    intro k
    obtain ⟨h4, h5⟩ := h3 k
    constructor
    · rintro ⟨j, hj, hjk⟩
      by_cases hex : ∃ j ∈ is, l[j]? = some k
      · exact h4 hex
      · rw [h5 hex]
        rw [List.mem_cons] at hj
        rcases hj with rfl | hj
        · rw [hk] at hjk
          rw [Option.some.inj hjk, Dict.get?_set, if_pos rfl]
        · exact absurd ⟨j, hj, hjk⟩ hex
    · intro hno
      rw [h5 (fun ⟨j, hj, hjk⟩ => hno ⟨j, List.mem_cons_of_mem _ hj, hjk⟩)]
      rw [Dict.get?_set_ne]
      intro he
      exact hno ⟨i, by simp, by rw [hk, he]⟩

/-- **C28.** Rebuilding a vector from its array gives back its entries. -/
theorem C28_vector (s : Space K) (hs : s.keys.Nodup) (hmaps : s.maps = none ∨ SpaceOK s) (d : Dict K V) (arr : List V)
    (ha : IsVecArray s.keys d arr) (hk : ∀ k ∈ Dict.keys d, k ∈ s.keys) :
    ∃ d', backVec s arr = .ok d' ∧ Dict.WF d' ∧ (∀ k, (Dict.get? d' k).getD 0 = (Dict.get? d k).getD 0) ∧
      ∀ k x, Dict.get? d' k = some x → x ≠ 0 := by
  have hok : SpaceOK s := by
    rcases hmaps with h | h
    · exact ⟨hs, fun _ _ h' => (by rw [h] at h'; cases h'), fun _ _ h' => (by rw [h] at h'; cases h')⟩
    · exact h
  have hfok := freeze_ok hok
  obtain ⟨km, l, hm⟩ := freeze_maps s
  have hso := hfok.so km l hm
  rw [freeze_keys] at hso
  obtain ⟨l', hl', rfl⟩ := ha
  have hll := hl'.unique hso
  subst hll
  unfold backVec
  have hmem : ∀ j, j ∈ nonzero 0 (l'.map (fun k => (Dict.get? d k).getD 0)) ↔ ∃ k, l'[j]? = some k ∧ (Dict.get? d k).getD 0 ≠ 0 := by
    intro j
    rw [mem_nonzero]
    constructor
    · rintro ⟨_, x, h1, h2⟩
      rw [Nat.sub_zero, List.getElem?_map, Option.map_eq_some_iff] at h1
      obtain ⟨k, hk1, rfl⟩ := h1
      exact ⟨k, hk1, h2⟩
    · rintro ⟨k, h1, h2⟩
      exact ⟨Nat.zero_le _, _, by rw [Nat.sub_zero, List.getElem?_map, h1]; rfl, h2⟩
  obtain ⟨d', h1, h2, h3⟩ := backVecLoop_spec hm hso.nodup (fun k => (Dict.get? d k).getD 0)
    (nonzero 0 (l'.map (fun k => (Dict.get? d k).getD 0))) [] Dict.WF_nil (by
      intro j hj
      obtain ⟨k, hk1, _⟩ := (hmem j).mp hj
      exact lt_of_getElem? hk1)
  have hboth : ∀ k, ((Dict.get? d k).getD 0 ≠ 0 ∧ Dict.get? d' k = some ((Dict.get? d k).getD 0)) ∨
      ((Dict.get? d k).getD 0 = 0 ∧ Dict.get? d' k = none) := by
    intro k
    by_cases hz : (Dict.get? d k).getD 0 = 0
    · right
      refine ⟨hz, ?_⟩
      rw [(h3 k).2]
      · rfl
      · rintro ⟨i, hi, hik⟩
        obtain ⟨k', hk1, hk2⟩ := (hmem i).mp hi
        rw [hik] at hk1
        rw [← Option.some.inj hk1] at hk2
        exact hk2 hz
    · left
      refine ⟨hz, (h3 k).1 ?_⟩
      have hkd : k ∈ Dict.keys d := by
        rw [Dict.mem_keys_iff]
        cases hg : Dict.get? d k with
        | none => rw [hg] at hz; exact absurd rfl hz
        | some x => rfl
      obtain ⟨j, hlt, hj⟩ := List.getElem_of_mem ((hso.2 k).mpr (hk k hkd))
      have hj' : l'[j]? = some k := by rw [List.getElem?_eq_getElem hlt, hj]
      exact ⟨j, (hmem j).mpr ⟨k, hj', hz⟩, hj'⟩
  refine ⟨d', h1, h2, ?_, ?_⟩
  · intro k
    rcases hboth k with ⟨_, h⟩ | ⟨h0, h⟩
    · rw [h]; rfl
    · rw [h, h0]; rfl
  · intro k x hx
    rcases hboth k with ⟨h0, h⟩ | ⟨_, h⟩
    · rw [h] at hx
      rw [← Option.some.inj hx]; exact h0
    · rw [h] at hx; cases hx

theorem backMatLoop_spec {sf st : Space K} {kmf lf kmt lt} (hmf : sf.maps = some (kmf, lf)) (hmt : st.maps = some (kmt, lt))
    (hnf : lf.Nodup) (hnt : lt.Nodup) (F : K → K → V) (is : List (Nat × Nat)) : ∀ d : Dict (K × K) V, Dict.WF d →
    (∀ p ∈ is, p.1 < lf.length ∧ p.2 < lt.length) →
    ∃ d', backMatLoop sf st (lf.map (fun a => lt.map (fun b => F a b))) is d = .ok d' ∧ Dict.WF d' ∧
      ∀ a b, ((∃ p ∈ is, lf[p.1]? = some a ∧ lt[p.2]? = some b) → Dict.get? d' (a, b) = some (F a b)) ∧
        ((¬ ∃ p ∈ is, lf[p.1]? = some a ∧ lt[p.2]? = some b) → Dict.get? d' (a, b) = Dict.get? d (a, b)) := by
  induction is with
  | nil =>
    intro d hd _
    refine ⟨d, rfl, hd, fun a b => ⟨?_, fun _ => rfl⟩⟩
    rintro ⟨i, hi, _⟩; cases hi
  | cons p is ih =>
    intro d hd hlt
    obtain ⟨i, j⟩ := p
    have hi : i < lf.length := (hlt (i, j) (by simp)).1
    have hj : j < lt.length := (hlt (i, j) (by simp)).2
    have hki : lf[i]? = some lf[i] := List.getElem?_eq_getElem hi
    have hkj : lt[j]? = some lt[j] := List.getElem?_eq_getElem hj
    unfold backMatLoop
    rw [idxMap_at hmf, hki]
    dsimp only
    rw [idxMap_at hmt, hkj]
    dsimp only
    have hval : ((lf.map (fun a => lt.map (fun b => F a b)))[i]?).bind (fun r => r[j]?) = some (F lf[i] lt[j]) := by
      rw [List.getElem?_map, hki, Option.map_some, Option.bind_some, List.getElem?_map, hkj]
      rfl
    rw [hval]
    dsimp only
    obtain ⟨d', h1, h2, h3⟩ := ih (Dict.set d (lf[i], lt[j]) (F lf[i] lt[j])) (Dict.WF_set hd _ _)
      (fun q hq => hlt q (List.mem_cons_of_mem _ hq))
    refine ⟨d', h1, h2, ?_⟩
    intro a b
    obtain ⟨h4, h5⟩ := h3 a b
    constructor
    · rintro ⟨q, hq, hqa, hqb⟩
      by_cases hex : ∃ q ∈ is, lf[q.1]? = some a ∧ lt[q.2]? = some b
      · exact h4 hex
      · rw [h5 hex]
        rw [List.mem_cons] at hq
        rcases hq with rfl | hq
        · replace hqa : lf[i]? = some a := hqa
          replace hqb : lt[j]? = some b := hqb
          rw [hki] at hqa
          rw [hkj] at hqb
          rw [Option.some.inj hqa, Option.some.inj hqb, Dict.get?_set, if_pos rfl]
        · exact absurd ⟨q, hq, hqa, hqb⟩ hex
    · intro hno
      rw [h5 (fun ⟨q, hq, hqq⟩ => hno ⟨q, List.mem_cons_of_mem _ hq, hqq⟩)]
      rw [Dict.get?_set_ne]
      intro he
      obtain ⟨he1, he2⟩ := Prod.mk.inj he
      exact hno ⟨(i, j), by simp, by rw [← he1]; exact hki, by rw [← he2]; exact hkj⟩

/-- an array whose first axis follows `s1` and second axis `s2`, read by `backmap_array` -/
theorem backMat_spec {s1 s2 : Space K} (h1 : SpaceOK s1) (h2 : SpaceOK s2) {l1 l2 : List K} (hl1 : Sorted s1.keys l1)
    (hl2 : Sorted s2.keys l2) (F : K → K → V) (hF : ∀ a b, F a b ≠ 0 → a ∈ s1.keys ∧ b ∈ s2.keys) :
    ∃ d', backMat s1 s2 (l1.map (fun a => l2.map (fun b => F a b))) = .ok d' ∧ Dict.WF d' ∧ (∀ a b, entry d' a b = F a b) ∧
      ∀ a b x, Dict.get? d' (a, b) = some x → x ≠ 0 := by
  obtain ⟨km1, l1', hm1⟩ := freeze_maps s1
  obtain ⟨km2, l2', hm2⟩ := freeze_maps s2
  have hso1 := (freeze_ok h1).so km1 l1' hm1
  have hso2 := (freeze_ok h2).so km2 l2' hm2
  rw [freeze_keys] at hso1 hso2
  have e1 := hl1.unique hso1
  have e2 := hl2.unique hso2
  subst e1 e2
  unfold backMat
  set A := l1.map (fun a => l2.map (fun b => F a b)) with hA
  have hmem : ∀ i j, (i, j) ∈ nonzero2 0 A ↔ ∃ a b, l1[i]? = some a ∧ l2[j]? = some b ∧ F a b ≠ 0 := by
    intro i j
    rw [mem_nonzero2, Nat.sub_zero, hA, List.getElem?_map]
    constructor
    · rintro ⟨_, x, h3, h4⟩
      cases ha : l1[i]? with
      | none => rw [ha] at h3; cases h3
      | some a =>
        rw [ha, Option.map_some, Option.bind_some, List.getElem?_map, Option.map_eq_some_iff] at h3
        obtain ⟨b, hb, rfl⟩ := h3
        exact ⟨a, b, rfl, hb, h4⟩
    · rintro ⟨a, b, ha, hb, hz⟩
      refine ⟨Nat.zero_le _, F a b, ?_, hz⟩
      rw [ha, Option.map_some, Option.bind_some, List.getElem?_map, hb]
      rfl
  obtain ⟨d', h3, h4, h5⟩ := backMatLoop_spec hm1 hm2 hso1.nodup hso2.nodup F (nonzero2 0 A) [] Dict.WF_nil (by
    rintro ⟨i, j⟩ hp
    obtain ⟨a, b, ha, hb, _⟩ := (hmem i j).mp hp
    exact ⟨lt_of_getElem? ha, lt_of_getElem? hb⟩)
  have hboth : ∀ a b, (F a b ≠ 0 ∧ Dict.get? d' (a, b) = some (F a b)) ∨ (F a b = 0 ∧ Dict.get? d' (a, b) = none) := by
    intro a b
    by_cases hz : F a b = 0
    · right
      refine ⟨hz, ?_⟩
      rw [(h5 a b).2]
      · rfl
      · rintro ⟨⟨i, j⟩, hp, hia, hjb⟩
        obtain ⟨a', b', ha', hb', hz'⟩ := (hmem i j).mp hp
        replace hia : l1[i]? = some a := hia
        replace hjb : l2[j]? = some b := hjb
        rw [hia] at ha'
        rw [hjb] at hb'
        rw [← Option.some.inj ha', ← Option.some.inj hb'] at hz'
        exact hz' hz
    · left
      refine ⟨hz, (h5 a b).1 ?_⟩
      obtain ⟨hka, hkb⟩ := hF a b hz
      obtain ⟨i, hlt, hi⟩ := List.getElem_of_mem ((hso1.2 a).mpr hka)
      obtain ⟨j, hlt', hj⟩ := List.getElem_of_mem ((hso2.2 b).mpr hkb)
      have hi' : l1[i]? = some a := by rw [List.getElem?_eq_getElem hlt, hi]
      have hj' : l2[j]? = some b := by rw [List.getElem?_eq_getElem hlt', hj]
      exact ⟨(i, j), (hmem i j).mpr ⟨a, b, hi', hj', hz⟩, hi', hj'⟩
  refine ⟨d', h3, h4, ?_, ?_⟩
  · intro a b
    unfold entry
    rcases hboth a b with ⟨_, h⟩ | ⟨h0, h⟩
    · rw [h]; rfl
    · rw [h, h0]; rfl
  · intro a b x hx
    rcases hboth a b with ⟨h0, h⟩ | ⟨_, h⟩
    · rw [h] at hx
      rw [← Option.some.inj hx]; exact h0
    · rw [h] at hx; cases hx

theorem entry_known {d : Dict (K × K) V} {p q : K → Prop} (hk : ∀ k ∈ Dict.keys d, p k.1 ∧ q k.2) (a b : K)
    (h : entry d a b ≠ 0) : p a ∧ q b := by
  apply hk (a, b)
  rw [Dict.mem_keys_iff]
  unfold entry at h
  cases hg : Dict.get? d (a, b) with
  | none => rw [hg] at h; exact absurd rfl h
  | some x => rfl

/-- transposition of a list of rows of length `n` -/
def transpose (n : Nat) (A : List (List V)) : List (List V) := (List.range n).map (fun j => A.map (fun r => (r[j]?).getD 0))

theorem transpose_map (l1 l2 : List K) (F : K → K → V) :
    transpose l2.length (l1.map (fun a => l2.map (fun b => F a b))) = l2.map (fun b => l1.map (fun a => F a b)) := by
  unfold transpose
  apply List.ext_getElem?
  intro j
  rw [List.getElem?_map, List.getElem?_map]
  by_cases hj : j < l2.length
  · rw [List.getElem?_range hj, List.getElem?_eq_getElem hj, Option.map_some, Option.map_some, List.map_map]
    congr 1
    apply List.map_congr_left
    intro a _
    show ((l2.map (fun b => F a b))[j]?).getD 0 = _
    rw [List.getElem?_map, List.getElem?_eq_getElem hj]
    rfl
  · rw [List.getElem?_eq_none (by simpa using hj), List.getElem?_eq_none (by simpa using hj)]
    rfl

/-- **C28 (part).** `backmap_array` gives back the entries of a matrix when it is handed the transposed array `array_T`.
(Missing: the array itself, which it misreads; see `C28_swapped` and the counterexamples.) -/
theorem C28_transposed_partial (sf st : Space K) (hf : SpaceOK sf) (ht : SpaceOK st) (d : Dict (K × K) V) (A : List (List V))
    (hA : IsMatArray sf.keys st.keys d A) (hk : ∀ k ∈ Dict.keys d, k.1 ∈ sf.keys ∧ k.2 ∈ st.keys) :
    ∃ d', backMat sf st (transpose sf.keys.length A) = .ok d' ∧ Dict.WF d' ∧ ∀ a b, entry d' a b = entry d a b := by
  obtain ⟨lf, lt, hlf, hlt, rfl⟩ := hA
  have hlen : sf.keys.length = lf.length := (hlf.length hf.nd).symm
  have htr := transpose_map lt lf (fun kt kf => entry d kf kt)
  obtain ⟨d', h1, h2, h3, _⟩ := backMat_spec hf ht hlf hlt (fun a b => entry d a b) (fun a b h => entry_known hk a b h)
  refine ⟨d', ?_, h2, h3⟩
  rw [hlen]
  exact (congrArg (backMat sf st) htr).trans h1

/-- **C28 (disagreement).** Handed the array of a matrix from a space to itself, `backmap_array` gives the transposed matrix:
the entry from `a` to `b` becomes the one from `b` to `a`. -/
theorem C28_swapped (s : Space K) (hs : SpaceOK s) (d : Dict (K × K) V) (A : List (List V)) (hA : IsMatArray s.keys s.keys d A)
    (hk : ∀ k ∈ Dict.keys d, k.1 ∈ s.keys ∧ k.2 ∈ s.keys) :
    ∃ d', backMat s s A = .ok d' ∧ ∀ a b, entry d' a b = entry d b a := by
  obtain ⟨lf, lt, hlf, hlt, rfl⟩ := hA
  obtain ⟨d', h1, _, h3, _⟩ := backMat_spec hs hs hlt hlf (fun kt kf => entry d kf kt) (fun a b h =>
    (entry_known hk b a h).symm)
  exact ⟨d', h1, h3⟩

/-- `backmap_array_inv` labels the array of a matrix by its own axes, the new matrix leads from the target to the source space. -/
theorem C28_inverse (sf st : Space K) (hf : SpaceOK sf) (ht : SpaceOK st) (d : Dict (K × K) V) (A : List (List V))
    (hA : IsMatArray sf.keys st.keys d A) (hk : ∀ k ∈ Dict.keys d, k.1 ∈ sf.keys ∧ k.2 ∈ st.keys) :
    ∃ d', backMatInv sf st A = .ok d' ∧ ∀ a b, entry d' a b = entry d b a := by
  obtain ⟨lf, lt, hlf, hlt, rfl⟩ := hA
  obtain ⟨d', h1, _, h3, _⟩ := backMat_spec ht hf hlt hlf (fun kt kf => entry d kf kt) (fun a b h =>
    (entry_known hk b a h).symm)
  exact ⟨d', h1, h3⟩

end

/-- a space with two keys and its frozen form -/
def exSpace : Space Nat := Space.init [4, 2] true false none

theorem exSpace_ok : SpaceOK exSpace := init_ok _ _ _ _

/-- **C28 (disagreement).** The array of the matrix with the one entry (2 → 4) = 5 comes back as (4 → 2) = 5; the rebuilt matrix
is another one. -/
theorem C28_refuted : IsMatArray exSpace.keys exSpace.keys [((2, 4), (5 : Int))] [[0, 0], [5, 0]] ∧
    backMat exSpace exSpace ([[0, 0], [5, 0]] : List (List Int)) = .ok [((4, 2), 5)] ∧
    entry [((4, 2), (5 : Int))] 2 4 ≠ entry [((2, 4), (5 : Int))] 2 4 := by
  refine ⟨⟨[2, 4], [2, 4], ?_, ?_, by decide⟩, by decide, by decide⟩ <;>
  · refine ⟨by decide, ?_⟩
    intro k
    have : exSpace.keys = [4, 2] := by decide
    rw [this]
    simp [or_comm]

/-- Between spaces of different size the array of a matrix may even be refused. -/
theorem C28_refused : backMat exSpace (Space.init [3] true false none) ([[0, 6]] : List (List Int)) = .error .indexError := by decide

example : backMat exSpace exSpace (transpose 2 ([[0, 0], [5, 0]] : List (List Int))) = .ok [((2, 4), 5)] := by decide
example : backVec exSpace ([7, 0] : List Int) = .ok [(2, 7)] := by decide

end KeyMat
