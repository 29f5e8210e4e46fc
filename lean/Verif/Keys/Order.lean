import Mathlib.Data.Fintype.BigOperators
import Mathlib.Order.Interval.Finset.Basic
import Mathlib.Data.Int.Interval
import Mathlib.Algebra.Order.Group.Abs
import Mathlib.Algebra.Order.Group.Int
import Verif.Keys.Props

/-!
# The order limits of `phasor/system/system.py` (C60)

`reject_classical_frequency_order` (l.227-245), `reject_optical_frequency_order` (l.247-270),
`classical_frequency_extract` (l.272-277) and `classical_frequency_extract_center` (l.279-286).  The dictionary
`group_N` of the two first functions is never filled (l.239-240 is commented out), its loop (l.242-245) does nothing.
-/

universe u v

namespace Keys
open Py

section
variable {F : Type u} [DecidableEq F]

/-- system.py l.230-238, the loop of `reject_classical_frequency_order`; `order F` is `F.order`. -/
def rejectLoop (order : F → Option Int) (freq_order_max_default : Int) : List (F × Int) → Bool
  | [] => false
  | (f, n) :: rest =>
    let N_limit := match order f with
      | none => freq_order_max_default
      | some l => l
    let Na := |n|
    if Na > N_limit then true else rejectLoop order freq_order_max_default rest

/-- system.py l.227-245, `reject_classical_frequency_order`. -/
def reject_classical_frequency_order (order : F → Option Int) (freq_order_max_default : Int) (fkey : FrequencyKey F) : Bool :=
  rejectLoop order freq_order_max_default fkey.F_dict

/-- system.py l.254-262, the loop of `reject_optical_frequency_order`. -/
def rejectOpticalLoop (order : F → Option Int) : List (F × Int) → Bool
  | [] => false
  | (f, n) :: rest =>
    let N_limit := match order f with
      | none => 2
      | some l => l
    if n > N_limit then true
    else if n < 1 then true
    else rejectOpticalLoop order rest

/-- system.py l.247-270, `reject_optical_frequency_order`. -/
def reject_optical_frequency_order (order : F → Option Int) (fkey : FrequencyKey F) : Bool :=
  if fkey.F_dict.length = 0 then true else rejectOpticalLoop order fkey.F_dict

/-- system.py l.272-277, `classical_frequency_extract` (with `val F` for `F.F_Hz.val`) and l.279-286,
`classical_frequency_extract_center` (with `F.F_center_Hz`). -/
def classical_frequency_extract {R : Type v} [CommRing R] (val : F → R) (k : FrequencyKey F) : R :=
  k.F_dict.foldl (fun freq_Hz fn => freq_Hz + (fn.2 : R) * val fn.1) 0

/-! ## properties -/

/-- The limit on the multiplicity of a frequency. -/
def limit (order : F → Option Int) (default : Int) (f : F) : Int := (order f).getD default

theorem rejectLoop_iff (order : F → Option Int) (d : Int) (l : List (F × Int)) :
    rejectLoop order d l = true ↔ ∃ fn ∈ l, limit order d fn.1 < |fn.2| := by
  induction l with
  | nil => simp [rejectLoop]
  | cons a l ih =>
    obtain ⟨f, n⟩ := a
    have hl : (match order f with | none => d | some l => l) = limit order d f := by
      unfold limit
      cases order f <;> rfl
    rw [rejectLoop, hl]
    by_cases h : |n| > limit order d f
    · rw [if_pos h]
      simp only [true_iff]
      exact ⟨_, List.mem_cons_self, h⟩
    · rw [if_neg h, ih]
      constructor
      · rintro ⟨fn, hm, hf⟩
        exact ⟨fn, List.mem_cons_of_mem _ hm, hf⟩
      · rintro ⟨fn, hm, hf⟩
        rcases List.mem_cons.1 hm with e | e
        · subst e
          exact absurd hf h
        · exact ⟨fn, e, hf⟩

theorem rejectOpticalLoop_iff (order : F → Option Int) (l : List (F × Int)) :
    rejectOpticalLoop order l = false ↔ ∀ fn ∈ l, 1 ≤ fn.2 ∧ fn.2 ≤ limit order 2 fn.1 := by
  induction l with
  | nil => simp [rejectOpticalLoop]
  | cons a l ih =>
    obtain ⟨f, n⟩ := a
    have hl : (match order f with | none => 2 | some l => l) = limit order 2 f := by
      unfold limit
      cases order f <;> rfl
    rw [rejectOpticalLoop, hl]
    simp only [List.forall_mem_cons]
    by_cases h : n > limit order 2 f
    · rw [if_pos h]
      constructor
      · intro h'
        cases h'
      · rintro ⟨⟨_, h'⟩, _⟩
        exact absurd h' (not_le.2 h)
    · rw [if_neg h]
      by_cases h1 : n < 1
      · rw [if_pos h1]
        constructor
        · intro h'
          cases h'
        · rintro ⟨⟨h', _⟩, _⟩
          exact absurd h' (not_le.2 h1)
      · rw [if_neg h1, ih]
        exact ⟨fun h' => ⟨⟨not_lt.1 h1, not_lt.1 h⟩, h'⟩, fun h' => h'.2⟩

/-- **C60.**  A key is rejected exactly when it contains some frequency more often than the limit allows, in either
direction. -/
theorem C60_classical (order : F → Option Int) (d : Int) (hd : 0 ≤ d) (ho : ∀ f l, order f = some l → 0 ≤ l)
    (k : FrequencyKey F) (wk : k.WF) :
    reject_classical_frequency_order order d k = true ↔ ∃ f, (order f).getD d < |k.coef f| := by
  unfold reject_classical_frequency_order
  rw [rejectLoop_iff]
  constructor
  · rintro ⟨⟨f, n⟩, hm, hf⟩
    refine ⟨f, ?_⟩
    have : k.coef f = n := by
      unfold FrequencyKey.coef
      rw [Dict.get?_of_mem wk hm]
      rfl
    rw [this]
    exact hf
  · rintro ⟨f, hf⟩
    cases hg : Dict.get? k.F_dict f with
    | none =>
      have h0 : k.coef f = 0 := by
        unfold FrequencyKey.coef
        rw [hg]
        rfl
      rw [h0, abs_zero] at hf
      cases h : order f with
      | none =>
        rw [h] at hf
        exact absurd hf (not_lt.2 hd)
      | some l =>
        rw [h] at hf
        exact absurd hf (not_lt.2 (ho f l h))
    | some n =>
      refine ⟨(f, n), Dict.mem_of_get? hg, ?_⟩
      have : k.coef f = n := by
        unfold FrequencyKey.coef
        rw [hg]
        rfl
      rw [this] at hf
      exact hf

/-- **C60.**  Negating a key changes neither its acceptance nor the size of its frequency. -/
theorem C60_negation (order : F → Option Int) (d : Int) (hd : 0 ≤ d) (ho : ∀ f l, order f = some l → 0 ≤ l)
    (k : FrequencyKey F) (wk : k.WF) :
    reject_classical_frequency_order order d k.neg = reject_classical_frequency_order order d k := by
  rw [Bool.eq_iff_iff, C60_classical order d hd ho _ (FrequencyKey.WF_neg k), C60_classical order d hd ho _ wk]
  simp only [FrequencyKey.coef_neg wk, abs_neg]

/-- The frequency of a key is the one of `FrequencyKey.frequency` (C02). -/
theorem C60_extract {R : Type v} [CommRing R] (val : F → R) (k : FrequencyKey F) :
    classical_frequency_extract val k = k.frequency val := by
  rw [FrequencyKey.frequency_eq_sum]
  unfold classical_frequency_extract
  have key : ∀ (l : List (F × Int)) (s : R), l.foldl (fun freq_Hz fn => freq_Hz + (fn.2 : R) * val fn.1) s =
      s + (l.map (fun fn => val fn.1 * (fn.2 : R))).sum := by
    intro l
    induction l with
    | nil => intro s; simp
    | cons a l ih =>
      intro s
      rw [List.foldl_cons, ih, List.map_cons, List.sum_cons, mul_comm]
      ring
  rw [key, zero_add]

/-- **C60, finitely many keys.**  Over finitely many frequencies the accepted keys are finitely many: pairwise different
accepted keys number at most the product of `2·limit + 1` over the frequencies. -/
theorem C60_finite (order : F → Option Int) (d : Int) (hd : 0 ≤ d) (ho : ∀ f l, order f = some l → 0 ≤ l)
    (S : Finset F) (ks : List (FrequencyKey F)) (hw : ∀ k ∈ ks, k.WF ∧ k.ZeroFree)
    (hS : ∀ k ∈ ks, ∀ f, f ∉ S → k.coef f = 0) (hr : ∀ k ∈ ks, reject_classical_frequency_order order d k = false)
    (hne : ks.Pairwise (fun a b => a.eq b = false)) :
    (ks.length : Int) ≤ ∏ f ∈ S, (2 * (order f).getD d + 1) := by
  classical
  have hlim : ∀ f, 0 ≤ (order f).getD d := by
    intro f
    cases h : order f with
    | none => exact hd
    | some l => exact ho f l h
  let T : Finset (S → Int) := Fintype.piFinset (fun f : S => Finset.Icc (-(order f.1).getD d) ((order f.1).getD d))
  let φ : FrequencyKey F → (S → Int) := fun k f => k.coef f.1
  have hφT : ∀ k ∈ ks, φ k ∈ T := by
    intro k hk
    rw [Fintype.mem_piFinset]
    intro f
    rw [Finset.mem_Icc]
    have h1 : ¬ ∃ f, (order f).getD d < |k.coef f| := by
      rw [← C60_classical order d hd ho k (hw k hk).1, hr k hk]
      exact Bool.false_ne_true
    have h2 : |k.coef f.1| ≤ (order f.1).getD d := not_lt.1 (fun h => h1 ⟨f.1, h⟩)
    exact abs_le.1 h2
  have hnd : (ks.map φ).Nodup := by
    unfold List.Nodup
    rw [List.pairwise_map]
    refine hne.imp_of_mem ?_
    intro a b ha hb hab he
    have : a.eq b = true := by
      rw [FrequencyKey.eq_iff_coef (hw a ha).1 (hw b hb).1 (hw a ha).2 (hw b hb).2]
      intro f
      by_cases hf : f ∈ S
      · exact congrFun he ⟨f, hf⟩
      · rw [hS a ha f hf, hS b hb f hf]
    rw [this] at hab
    cases hab
  have hcard : ks.length ≤ T.card := by
    rw [← List.length_map (as := ks) φ, ← List.toFinset_card_of_nodup hnd]
    apply Finset.card_le_card
    intro g hg
    rw [List.mem_toFinset, List.mem_map] at hg
    obtain ⟨k, hk, rfl⟩ := hg
    exact hφT k hk
  have hT : (T.card : Int) = ∏ f ∈ S, (2 * (order f).getD d + 1) := by
    rw [Fintype.card_piFinset, Nat.cast_prod, ← Finset.prod_attach S]
    apply Finset.prod_congr rfl
    intro f _
    rw [Int.card_Icc, Int.toNat_of_nonneg (by have := hlim f.1; omega)]
    ring
  rw [← hT]
  exact_mod_cast hcard

/-- **C60, optical keys.**  An optical key without zero entries is accepted exactly when it is not empty and contains every
frequency between 0 and the limit times. -/
theorem C60_optical (order : F → Option Int) (ho : ∀ f l, order f = some l → 0 ≤ l) (k : FrequencyKey F) (wk : k.WF)
    (zk : k.ZeroFree) : reject_optical_frequency_order order k = false ↔
      (∃ f, k.coef f ≠ 0) ∧ ∀ f, 0 ≤ k.coef f ∧ k.coef f ≤ (order f).getD 2 := by
  have hmem : ∀ fn ∈ k.F_dict, k.coef fn.1 = fn.2 := by
    rintro ⟨f, n⟩ hm
    unfold FrequencyKey.coef
    rw [Dict.get?_of_mem wk hm]
    rfl
  have hget : ∀ f, k.coef f ≠ 0 → (f, k.coef f) ∈ k.F_dict := by
    intro f hf
    unfold FrequencyKey.coef at hf ⊢
    cases hg : Dict.get? k.F_dict f with
    | none =>
      rw [hg] at hf
      exact absurd rfl hf
    | some n => exact Dict.mem_of_get? hg
  unfold reject_optical_frequency_order
  by_cases h0 : k.F_dict.length = 0
  · rw [if_pos h0]
    have hnil := List.length_eq_zero_iff.1 h0
    constructor
    · intro h
      cases h
    · rintro ⟨⟨f, hf⟩, _⟩
      have := hget f hf
      rw [hnil] at this
      cases this
  · rw [if_neg h0, rejectOpticalLoop_iff]
    constructor
    · intro h
      constructor
      · obtain ⟨fn, hm⟩ := List.exists_mem_of_length_pos (Nat.pos_of_ne_zero h0)
        refine ⟨fn.1, ?_⟩
        rw [hmem fn hm]
        exact zk fn hm
      · intro f
        by_cases hf : k.coef f = 0
        · rw [hf]
          refine ⟨le_refl _, ?_⟩
          cases ho' : order f with
          | none => exact (by decide)
          | some l => exact ho f l ho'
        · have := h _ (hget f hf)
          exact ⟨by have := this.1; omega, this.2⟩
    · rintro ⟨_, h⟩ fn hm
      have h1 := h fn.1
      rw [hmem fn hm] at h1
      have := zk fn hm
      exact ⟨by omega, h1.2⟩

/-- **C60** fails for optical keys with zero entries: the key `{0: 1, 1: 0}` denotes the same combination as `{0: 1}`,
yet it is rejected and the other is not. -/
theorem C60_optical_refuted : ∃ (order : Nat → Option Int) (a b : FrequencyKey Nat), a.WF ∧ b.WF ∧
    (∀ f, a.coef f = b.coef f) ∧ reject_optical_frequency_order order a = false ∧
    reject_optical_frequency_order order b = true := by
  refine ⟨fun _ => none, ⟨[(0, 1)]⟩, ⟨[(0, 1), (1, 0)]⟩, ?_, ?_, ?_, by decide, by decide⟩
  · unfold FrequencyKey.WF Dict.WF; decide
  · unfold FrequencyKey.WF Dict.WF; decide
  · intro f
    simp only [FrequencyKey.coef, Dict.get?]
    split_ifs <;> rfl

/-- Non-trivial keys on both sides of the limits. -/
example : reject_classical_frequency_order (fun f : Nat => if f = 0 then some 2 else none) 10 ⟨[(0, -2), (1, 10)]⟩ = false ∧
    reject_classical_frequency_order (fun f : Nat => if f = 0 then some 2 else none) 10 ⟨[(0, -3)]⟩ = true ∧
    reject_optical_frequency_order (fun _ : Nat => none) ⟨[(0, 2)]⟩ = false ∧
    reject_optical_frequency_order (fun _ : Nat => none) ⟨[]⟩ = true := by decide

end
end Keys
