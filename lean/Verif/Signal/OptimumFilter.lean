import Verif.Signal.OptimumProps
import Verif.Py.Dict
import Mathlib.Analysis.Complex.Polynomial.Basic
import Mathlib.Algebra.BigOperators.Group.Multiset.Basic

/-!
# `phasor/signals/filters/legendre_filters.py`: the prototype of the "optimum" filter, and C120

The root finders `mp.polyroots` and `np.roots` are a parameter, with the contract `Factors`: they return all roots, with multiplicity.
-/

namespace Lgd
open Polynomial Py

/-- The contract of a root finder: the polynomial is its first coefficient times the product of `s - r` over the roots found. -/
def Factors (a : List ℤ) (l : List ℂ) : Prop := ∀ s : ℂ, polyval a s = ((a.headD 0 : ℤ) : ℂ) * (l.map fun r => s - r).prod

/-- `_roots`, l.100-129; `mp` is `mpmath_available`. -/
def roots_of (roots : List ℤ → List ℂ) (mp : Bool) (a : List ℤ) : Except Err (List ℂ) :=
  if mp then .ok (roots a) else if 25 < (a.length - 1) / 2 then .error .valueError else .ok (roots a)

/-- The list whose roots are asked for, l.143-148: `a[-1] = 1`, and the powers 2, 6, 10, … are negated. -/
def denominator (N : ℕ) : List ℤ :=
  let a := (optimum_poly N).dropLast ++ [1]
  a.mapIdx fun i x => if (a.length - 1 - i) % 4 = 2 then -x else x

/-- `legendreap(N)`, l.132-161: zeros, poles and gain. -/
noncomputable def legendreap (roots : List ℤ → List ℂ) (mp : Bool) (N : ℕ) : Except Err (List ℂ × List ℂ × ℝ) := do
  let p ← roots_of roots mp (denominator N)
  let p := p.filter fun r => r.re < 0
  .ok ([], p, (p.map fun r => ‖r‖).prod)

/-! ## The polynomial of the denominator -/

noncomputable def den (N : ℕ) : ℤ[X] := if N = 0 then 1 else 1 + (closed N).comp (-X ^ 2)

theorem denominator_length (N : ℕ) : (denominator N).length = 2 * N + 1 := by
  unfold denominator
  by_cases hN : N = 0
  · subst hN; rfl
  · simp [(C119_shape hN).1]

theorem den_coeff {N : ℕ} (hN : N ≠ 0) (i : ℕ) :
    (den N).coeff i = (if i = 0 then 1 else 0) + if 2 ∣ i then (-1) ^ (i / 2) * (closed N).coeff (i / 2) else 0 := by
  unfold den
  rw [if_neg hN, coeff_add, coeff_one]
  congr 1
  have h : (closed N).comp (-X ^ 2) = expand ℤ 2 ((closed N).comp (-X)) := by
    rw [expand_eq_comp_X_pow, comp_assoc]
    simp
  rw [h, coeff_expand (by norm_num)]
  by_cases h2 : 2 ∣ i
  · rw [if_pos h2, if_pos h2, show (-X : ℤ[X]) = C (-1) * X by simp, comp_C_mul_X_coeff, mul_comm]
  · rw [if_neg h2, if_neg h2]

theorem den_get {N : ℕ} (i : ℕ) (hi : i ≤ 2 * N) : (denominator N).getD (2 * N - i) 0 = (den N).coeff i := by
  by_cases hN : N = 0
  · subst hN
    have : i = 0 := by omega
    subst this
    simp [den, denominator, optimum_poly]
  have hl := (C119_shape hN).1
  have hlen : ((optimum_poly N).dropLast ++ [1]).length = 2 * N + 1 := by simp [hl]
  rw [List.getD_eq_getElem?_getD, den_coeff hN]
  unfold denominator
  dsimp only
  rw [List.getElem?_mapIdx, hlen, List.getElem?_append]
  have hdl : (optimum_poly N).dropLast.length = 2 * N := by simp [hl]
  rw [hdl]
  by_cases h0 : i = 0
  · subst h0
    rw [if_neg (by omega), if_pos rfl, if_pos (by omega)]
    have : (closed N).coeff 0 = 0 := by rw [coeff_zero_eq_eval_zero, closed_zero]
    simp [this]
  · rw [if_pos (by omega), List.getElem?_dropLast, if_pos (by omega), List.getElem?_eq_getElem (by omega), Option.map_some, Option.getD_some,
      optimum_get hN _ (by omega), if_neg h0, zero_add, show 2 * N + 1 - 1 - (2 * N - i) = i by omega]
    by_cases h2 : 2 ∣ i
    · rw [if_pos (show 2 ∣ 2 * N - i by omega), if_pos h2, show N - (2 * N - i) / 2 = i / 2 by omega]
      by_cases h4 : i % 4 = 2
      · rw [if_pos h4, Odd.neg_one_pow (by rw [Nat.odd_iff]; omega), neg_one_mul]
      · rw [if_neg h4, Even.neg_one_pow (by rw [Nat.even_iff]; omega), one_mul]
    · rw [if_neg (show ¬2 ∣ 2 * N - i by omega), if_neg h2]
      simp

theorem den_natDegree (N : ℕ) : (den N).natDegree ≤ 2 * N := by
  unfold den
  split
  · simp
  · rename_i hN
    refine (natDegree_add_le _ _).trans ?_
    rw [natDegree_one, natDegree_comp, closed_natDegree hN, natDegree_neg, natDegree_X_pow]
    omega

theorem polyval_den {R : Type*} [CommRing R] (N : ℕ) (s : R) : polyval (denominator N) s = aeval s (den N) := by
  rw [polyval_eq_sum, denominator_length, aeval_eq_sum_range' (n := 2 * N + 1) (by have := den_natDegree N; omega)]
  apply Finset.sum_congr rfl
  intro i hi
  have := Finset.mem_range.mp hi
  rw [zsmul_eq_mul, ← den_get i (by omega)]
  congr 3

/-- On the axis of frequencies the denominator is one more than the polynomial. -/
theorem den_axis (N : ℕ) (w : ℝ) : aeval (w * Complex.I) (den N) = ((1 + polyval (optimum_poly N) w : ℝ) : ℂ) := by
  by_cases hN : N = 0
  · subst hN
    simp [den, polyval, optimum_poly]
  · rw [polyval_optimum hN]
    unfold den
    rw [if_neg hN, map_add, map_one, aeval_comp, map_neg, map_pow, aeval_X]
    have h : -((w : ℂ) * Complex.I) ^ 2 = ((w ^ 2 : ℝ) : ℂ) := by
      rw [mul_pow, Complex.I_sq]
      push_cast
      ring
    rw [h]
    push_cast
    congr 1
    have := aeval_algebraMap_apply ℂ (w ^ 2) (closed N)
    simpa using this

theorem polyval_nonneg (N : ℕ) (w : ℝ) : 0 ≤ polyval (optimum_poly N) w := by
  by_cases hN : N = 0
  · subst hN; simp [polyval, optimum_poly]
  · obtain ⟨h0, -, hm, he⟩ := C119_monotone hN
    have key : ∀ w : ℝ, 0 ≤ w → 0 ≤ polyval (optimum_poly N) w := by
      intro w hw
      rcases hw.lt_or_eq with h | h
      · have := hm (Set.mem_Ici.mpr le_rfl) (Set.mem_Ici.mpr hw) h
        rw [h0] at this
        exact this.le
      · rw [← h, h0]
    rcases le_total 0 w with h | h
    · exact key w h
    · rw [← he]; exact key (-w) (by linarith)

/-! ## The roots -/

theorem den_neg (N : ℕ) (s : ℂ) : aeval (-s) (den N) = aeval s (den N) := by
  unfold den
  split
  · simp
  · simp [aeval_comp]

theorem den_conj (N : ℕ) (s : ℂ) : aeval ((starRingEnd ℂ) s) (den N) = (starRingEnd ℂ) (aeval s (den N)) := by
  have : (starRingEnd ℂ) (aeval s (den N)) = aeval ((starRingEnd ℂ) s) (den N) := by
    have h := (aeval_algHom_apply ((starRingEnd ℂ).toIntAlgHom) s (den N))
    simpa using h.symm
  exact this.symm

theorem head_ne (N : ℕ) : ((denominator N).headD 0) ≠ 0 := by
  have h := den_get (N := N) (2 * N) le_rfl
  rw [Nat.sub_self] at h
  have e : (denominator N).getD 0 0 = (denominator N).headD 0 := by
    cases denominator N <;> rfl
  rw [← e, h]
  by_cases hN : N = 0
  · subst hN; simp [den]
  · rw [den_coeff hN, if_neg (by omega), if_pos (by omega), zero_add, show 2 * N / 2 = N by omega]
    apply mul_ne_zero (pow_ne_zero _ (by norm_num))
    intro h0
    have h1 := closed_natDegree hN
    have : closed N = 0 := leadingCoeff_eq_zero.mp (by rw [leadingCoeff, h1, h0])
    rw [this, natDegree_zero] at h1
    exact hN h1.symm

/-- Two factorisations have the same roots. -/
theorem roots_unique {c d : ℂ} {m n : Multiset ℂ} (hc : c ≠ 0) (hd : d ≠ 0)
    (h : ∀ s : ℂ, c * (m.map fun r => s - r).prod = d * (n.map fun r => s - r).prod) : m = n := by
  have key : C c * (m.map fun r => X - C r).prod = C d * (n.map fun r => X - C r).prod := by
    apply Polynomial.funext
    intro s
    rw [eval_mul, eval_mul, eval_C, eval_C, eval_multiset_prod, eval_multiset_prod, Multiset.map_map, Multiset.map_map]
    simpa using h s
  have := congrArg Polynomial.roots key
  rwa [roots_C_mul _ hc, roots_C_mul _ hd, roots_multiset_prod_X_sub_C, roots_multiset_prod_X_sub_C] at this

theorem prod_neg (m : Multiset ℂ) (s : ℂ) : (m.map fun r => -s - r).prod = (-1) ^ Multiset.card m * ((m.map fun r => -r).map fun r => s - r).prod := by
  induction m using Multiset.induction_on with
  | empty => simp
  | cons a m ih =>
    simp only [Multiset.map_cons, Multiset.prod_cons, Multiset.card_cons, ih, pow_succ]
    ring

theorem norm_prod_eq (m : Multiset ℂ) : ‖m.prod‖ = (m.map fun z => ‖z‖).prod := by
  induction m using Multiset.induction_on with
  | empty => simp
  | cons a m ih => simp [ih]

/-- C120.  The prototype has no zeros and `N` poles, all of which are stable, and its response is `1 / (1 + L(w))` in power. -/
theorem C120_response (roots : List ℤ → List ℂ) (mp : Bool) (N : ℕ) (hr : Factors (denominator N) (roots (denominator N)))
    (h : mp = true ∨ N ≤ 25) :
    ∃ p k, legendreap roots mp N = .ok ([], p, k) ∧ p.length = N ∧ (∀ r ∈ p, r.re < 0) ∧ 0 < k ∧
      ∀ w : ℝ, (k / ‖(p.map fun r => w * Complex.I - r).prod‖) ^ 2 = 1 / (1 + polyval (optimum_poly N) w) := by
  set l := roots (denominator N) with hl
  set a : ℂ := (((denominator N).headD 0 : ℤ) : ℂ) with ha
  have hane : a ≠ 0 := by
    rw [ha]
    exact_mod_cast head_ne N
  have hF : ∀ s : ℂ, aeval s (den N) = a * ((l : Multiset ℂ).map fun r => s - r).prod := by
    intro s
    rw [← polyval_den, hr s, Multiset.map_coe, Multiset.prod_coe]
  -- the roots are symmetric
  have hneg : (l : Multiset ℂ).map (fun r => -r) = l := by
    refine roots_unique (c := a * (-1) ^ Multiset.card (l : Multiset ℂ)) (d := a) (mul_ne_zero hane (pow_ne_zero _ (by norm_num))) hane ?_
    intro s
    rw [mul_assoc, ← prod_neg, ← hF, ← hF, den_neg]
  have hconj : (l : Multiset ℂ).map (starRingEnd ℂ) = l := by
    refine roots_unique (c := a) (d := a) hane hane ?_
    intro s
    have h1 := den_conj N ((starRingEnd ℂ) s)
    rw [Complex.conj_conj, hF, hF, map_mul, map_multiset_prod, Multiset.map_map] at h1
    have h2 : (starRingEnd ℂ) a = a := by
      rw [ha]
      simp
    rw [h2] at h1
    rw [h1, Multiset.map_map]
    congr 2
    apply Multiset.map_congr rfl
    intro r _
    simp
  have haxis : ∀ r ∈ (l : Multiset ℂ), r.re ≠ 0 := by
    intro r hr0 hre
    have h1 : r = ((r.im : ℝ) : ℂ) * Complex.I := Complex.ext (by simp [hre]) (by simp)
    have h2 := hF r
    have h3 : ((l : Multiset ℂ).map fun x => r - x).prod = 0 := by
      apply Multiset.prod_eq_zero
      exact Multiset.mem_map.mpr ⟨r, hr0, sub_self r⟩
    rw [h3, mul_zero] at h2
    rw [h1, den_axis] at h2
    have h4 := polyval_nonneg N r.im
    have h5 : (1 + polyval (optimum_poly N) r.im : ℝ) = 0 := by exact_mod_cast h2
    linarith
  obtain ⟨p, hp⟩ : ∃ p, p = l.filter fun r => r.re < 0 := ⟨_, rfl⟩
  have hpm : (p : Multiset ℂ) = (l : Multiset ℂ).filter fun r => r.re < 0 := by
    rw [hp, Multiset.filter_coe]
  have hright : (l : Multiset ℂ).filter (fun r => ¬r.re < 0) = (p : Multiset ℂ).map fun r => -r := by
    conv_lhs => rw [← hneg]
    rw [Multiset.filter_map, hpm]
    congr 1
    apply Multiset.filter_congr
    intro r hr0
    have := haxis r hr0
    simp only [Function.comp_apply, Complex.neg_re, not_lt]
    constructor
    · intro h; exact lt_of_le_of_ne (by linarith) this
    · intro h; linarith
  have hsplit : (l : Multiset ℂ) = p + (p : Multiset ℂ).map fun r => -r := by
    rw [← hright, hpm]
    exact (Multiset.filter_add_not _ _).symm
  have hpconj : (p : Multiset ℂ).map (starRingEnd ℂ) = p := by
    rw [hpm]
    conv_rhs => rw [← hconj]
    rw [Multiset.filter_map]
    congr 1
  -- the response
  have hmag : ∀ w : ℝ, 1 + polyval (optimum_poly N) w = ‖a‖ * ‖(p.map fun r => w * Complex.I - r).prod‖ ^ 2 := by
    intro w
    have h1 := hF (w * Complex.I)
    rw [den_axis, hsplit, Multiset.map_add, Multiset.prod_add, Multiset.map_map] at h1
    have h2 := congrArg (fun z : ℂ => ‖z‖) h1
    simp only [norm_mul] at h2
    rw [Complex.norm_real, Real.norm_of_nonneg (by have := polyval_nonneg N w; linarith)] at h2
    have h3 : ‖((p : Multiset ℂ).map ((fun r => (w : ℂ) * Complex.I - r) ∘ fun r => -r)).prod‖ =
        ‖((p : Multiset ℂ).map fun r => (w : ℂ) * Complex.I - r).prod‖ := by
      conv_rhs => rw [← hpconj, Multiset.map_map]
      rw [norm_prod_eq, norm_prod_eq, Multiset.map_map, Multiset.map_map]
      congr 1
      apply Multiset.map_congr rfl
      intro r _
      simp only [Function.comp_apply]
      rw [← Complex.norm_conj]
      rw [← norm_neg]
      congr 1
      simp
      ring
    rw [h3] at h2
    rw [h2]
    simp only [Multiset.map_coe, Multiset.prod_coe]
    ring
  have hk0 : 0 < (p.map fun r => ‖r‖).prod := by
    apply List.prod_pos
    intro x hx
    obtain ⟨r, hr0, rfl⟩ := List.mem_map.mp hx
    rw [hp, List.mem_filter] at hr0
    have : r.re < 0 := by simpa using hr0.2
    rw [norm_pos_iff]
    intro h0
    rw [h0] at this
    simp at this
  have hk : (p.map fun r => ‖r‖).prod = ‖(p.map fun r => ((0 : ℝ) : ℂ) * Complex.I - r).prod‖ := by
    rw [← Multiset.prod_coe (p.map fun r => ((0 : ℝ) : ℂ) * Complex.I - r), norm_prod_eq, Multiset.map_coe, Multiset.prod_coe, List.map_map]
    congr 1
    apply List.map_congr_left
    intro r _
    simp
  refine ⟨p, (p.map fun r => ‖r‖).prod, ?_, ?_, ?_, hk0, ?_⟩
  · unfold legendreap roots_of
    rw [denominator_length]
    rcases h with h | h
    · simp only [h, if_true, bind, Except.bind]
      rw [hp]
    · by_cases hm : mp = true
      · simp only [hm, if_true, bind, Except.bind]
        rw [hp]
      · rw [if_neg hm, if_neg (by omega)]
        simp only [bind, Except.bind]
        rw [hp]
  · -- the number of poles
    have h1 : l.length = 2 * p.length := by
      have := congrArg Multiset.card hsplit
      rw [Multiset.card_add, Multiset.card_map, Multiset.coe_card, Multiset.coe_card] at this
      omega
    have h2 : l.length = 2 * N := by
      have hpoly : (den N).map (Int.castRingHom ℂ) = C a * ((l : Multiset ℂ).map fun r => X - C r).prod := by
        apply Polynomial.funext
        intro s
        have := hF s
        rw [eval_mul, eval_C, eval_multiset_prod, Multiset.map_map]
        rw [aeval_def, eval₂_eq_eval_map] at this
        simpa using this
      have hdeg := congrArg natDegree hpoly
      rw [natDegree_map_eq_of_injective (RingHom.injective_int _), natDegree_C_mul hane, natDegree_multiset_prod_X_sub_C_eq_card,
        Multiset.coe_card] at hdeg
      have hd : (den N).natDegree = 2 * N := by
        apply le_antisymm (den_natDegree N)
        apply le_natDegree_of_ne_zero
        rw [← den_get (2 * N) le_rfl, Nat.sub_self]
        have := head_ne N
        cases hden : denominator N with
        | nil => rw [hden] at this; exact absurd rfl this
        | cons x t => rw [hden] at this; exact this
      omega
    omega
  · intro r hr0
    rw [hp, List.mem_filter] at hr0
    simpa using hr0.2
  · intro w
    have h0 := hmag 0
    have h1 := hmag w
    rw [← hk] at h0
    have hz : polyval (optimum_poly N) (0 : ℝ) = 0 := by
      by_cases hN : N = 0
      · subst hN; simp [polyval, optimum_poly]
      · exact (C119_monotone hN).1
    rw [hz, add_zero] at h0
    have hpos : 0 < 1 + polyval (optimum_poly N) w := by have := polyval_nonneg N w; linarith
    have hDne : ‖(p.map fun r => (w : ℂ) * Complex.I - r).prod‖ ≠ 0 := by
      intro hD
      rw [hD] at h1
      norm_num at h1
      linarith
    generalize ‖(p.map fun r => (w : ℂ) * Complex.I - r).prod‖ = D at h1 hDne ⊢
    generalize (p.map fun r => ‖r‖).prod = k at h0 ⊢
    rw [div_pow, div_eq_div_iff (pow_ne_zero 2 hDne) hpos.ne', h1]
    linear_combination -D ^ 2 * h0

/-- C120.  Without mpmath an order above 25 is refused. -/
theorem C120_refused (roots : List ℤ → List ℂ) {N : ℕ} (h : 25 < N) : legendreap roots false N = .error .valueError := by
  unfold legendreap roots_of
  rw [denominator_length, if_neg (by decide), if_pos (by omega)]
  rfl

/-- C120.  The gain is 1 at zero frequency, falls strictly, and its square is 1/2 at the cut-off frequency 1. -/
theorem C120_gain (roots : List ℤ → List ℂ) (mp : Bool) {N : ℕ} (hN : N ≠ 0) (hr : Factors (denominator N) (roots (denominator N)))
    (h : mp = true ∨ N ≤ 25) :
    ∃ p k, legendreap roots mp N = .ok ([], p, k) ∧
      let gain := fun w : ℝ => k / ‖(p.map fun r => w * Complex.I - r).prod‖
      gain 0 = 1 ∧ gain 1 ^ 2 = 1 / 2 ∧ StrictAntiOn gain (Set.Ici 0) := by
  obtain ⟨p, k, h1, -, -, h4, h5⟩ := C120_response roots mp N hr h
  obtain ⟨m0, m1, m2, -⟩ := C119_monotone hN
  refine ⟨p, k, h1, ?_, ?_, ?_⟩
  · have := h5 0
    rw [m0, add_zero, div_one] at this
    have hnn : 0 ≤ k / ‖(p.map fun r => ((0 : ℝ) : ℂ) * Complex.I - r).prod‖ := div_nonneg h4.le (norm_nonneg _)
    exact (pow_eq_one_iff_of_nonneg hnn two_ne_zero).mp this
  · dsimp only
    rw [h5, m1]
    norm_num
  · intro x hx y hy hxy
    dsimp only
    have hm := m2 hx hy hxy
    have hnx := polyval_nonneg N x
    apply lt_of_pow_lt_pow_left₀ 2 (div_nonneg h4.le (norm_nonneg _))
    rw [h5, h5]
    exact one_div_lt_one_div_of_lt (by linarith) (by linarith)

/-- A root finder with the contract exists. -/
theorem factors_exists (N : ℕ) : ∃ l, Factors (denominator N) l := by
  obtain ⟨P, hP⟩ : ∃ P, P = (den N).map (Int.castRingHom ℂ) := ⟨_, rfl⟩
  have hsp := (IsAlgClosed.splits P).eq_prod_roots
  refine ⟨P.roots.toList, ?_⟩
  intro s
  have h1 : polyval (denominator N) s = P.eval s := by
    rw [polyval_den, aeval_def, eval₂_eq_eval_map, hP]
    rfl
  have hd : (den N).natDegree = 2 * N := by
    apply le_antisymm (den_natDegree N)
    apply le_natDegree_of_ne_zero
    rw [← den_get (2 * N) le_rfl, Nat.sub_self]
    have := head_ne N
    cases hden : denominator N with
    | nil => rw [hden] at this; exact absurd rfl this
    | cons x t => rw [hden] at this; exact this
  have h2 : P.leadingCoeff = (((denominator N).headD 0 : ℤ) : ℂ) := by
    rw [hP, leadingCoeff, natDegree_map_eq_of_injective (RingHom.injective_int _), hd, coeff_map, ← den_get (2 * N) le_rfl, Nat.sub_self]
    cases denominator N <;> simp
  rw [h1]
  conv_lhs => rw [hsp]
  rw [eval_mul, eval_C, eval_multiset_prod, h2, Multiset.map_map]
  congr 1
  conv_lhs => rw [← Multiset.coe_toList P.roots]
  rw [Multiset.map_coe, Multiset.prod_coe]
  simp

example : ∃ roots : List ℤ → List ℂ, Factors (denominator 5) (roots (denominator 5)) := by
  obtain ⟨l, hl⟩ := factors_exists 5
  exact ⟨fun _ => l, hl⟩

end Lgd
