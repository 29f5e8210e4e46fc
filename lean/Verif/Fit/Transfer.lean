import Mathlib.Analysis.SpecialFunctions.Log.Basic
import Mathlib.Analysis.Complex.Norm
import Mathlib.Tactic.Ring
import Mathlib.Tactic.FieldSimp
import Mathlib.Tactic.Linarith
import Mathlib.Tactic.Positivity

/-!
# Residuals of fits of transfer functions (C153)

Source: `/repo/phasor/fitting/casadi/transfer_functions.py` l.48-114.
-/

namespace Fit
open Complex

/-! ## model -/

/-- `residuals_model`, l.63-66 -/
inductive Resid
  | bias_balance | direct | subtract | magnitude
  deriving DecidableEq

/-- A point of the data: the readout of the model `AC_sensitivity`, the data `ACData` and the weights. -/
structure Point where
  readout : ℂ
  data : ℂ
  snr : ℝ
  snr_phase : ℝ

/-- The SNR limit, l.73-80. -/
noncomputable def limited (lim w : ℝ) : ℝ := if w < lim then 0 else w

/-- The residuals of a point, l.84-107; `w` is the limited weight.  `none` stands for infinities and NaN, which come from divisions by 0 and
from the logarithm of 0; rounding is not modelled. -/
noncomputable def residuals (m : Resid) (w : ℝ) (x : Point) : Option (ℝ × ℝ) :=
  if x.data = 0 then none
  else
    match m with
    | .direct => if x.readout = 0 then none else
        some (Real.log ‖x.readout / x.data‖, (x.readout / x.data).im / ‖x.readout / x.data‖)
    | .subtract => some ((x.readout / x.data - 1).re, (x.readout / x.data - 1).im)
    | .magnitude => if x.readout = 0 then none else some (Real.log ‖x.readout / x.data‖, 0)
    | .bias_balance => if w = 0 ∨ x.readout = 0 then none else
        let debias : ℂ := 1 / (w : ℂ) ^ 2
        let ratio := x.readout / x.data
        let upward := ratio - 1
        let downward := (1 / ratio - 1) * debias
        let debiased := (upward - downward) / (1 + debias)
        some (debiased.re, debiased.im)

/-- The two squares of a point in `casadi.dot`, l.111-113. -/
noncomputable def term (m : Resid) (lim : ℝ) (x : Point) : Option (ℝ × ℝ) :=
  (residuals m (limited lim x.snr) x).map fun r => ((r.1 * limited lim x.snr) ^ 2, (r.2 * limited lim x.snr_phase) ^ 2)

/-- `TransferACExpression.function`, l.72-114; how the readout is found (l.82) is not modelled. -/
noncomputable def function (m : Resid) (lim : ℝ) (xs : List Point) : Option ℝ :=
  (xs.mapM (term m lim)).map fun ts => (ts.map Prod.fst).sum + (ts.map Prod.snd).sum

/-! ## sums -/

theorem mapM_some {α β : Type} {f : α → Option β} : ∀ {xs : List α} {ts : List β}, xs.mapM f = some ts ↔ List.Forall₂ (fun x t => f x = some t) xs ts
  | [], ts => by
    simp only [List.mapM_nil, List.forall₂_nil_left_iff]
    exact ⟨fun h => (Option.some.inj h).symm, fun h => by rw [h]; rfl⟩
  | x :: xs, ts => by
    rw [List.mapM_cons]
    constructor
    · intro h
      cases hx : f x with
      | none => rw [hx] at h; cases h
      | some t =>
        rw [hx] at h
        cases hs : xs.mapM f with
        | none => rw [hs] at h; cases h
        | some ts' =>
          rw [hs] at h
          cases h
          exact .cons hx (mapM_some.1 hs)
    · intro h
      cases h with
      | cons h1 h2 =>
        rw [h1, mapM_some.2 h2]
        rfl

theorem sums_nonneg {m : Resid} {lim : ℝ} {xs : List Point} {ts : List (ℝ × ℝ)}
    (h : List.Forall₂ (fun x t => term m lim x = some t) xs ts) : 0 ≤ (ts.map Prod.fst).sum ∧ 0 ≤ (ts.map Prod.snd).sum := by
  induction h with
  | nil => simp
  | cons h1 _ ih =>
    unfold term at h1
    obtain ⟨r, -, rfl⟩ := Option.map_eq_some_iff.1 h1
    simp only [List.map_cons, List.sum_cons]
    exact ⟨add_nonneg (sq_nonneg _) ih.1, add_nonneg (sq_nonneg _) ih.2⟩

/-- The sum vanishes where all weighted residuals vanish. -/
theorem function_zero {m : Resid} {lim : ℝ} {xs : List Point} :
    function m lim xs = some 0 ↔ ∀ x ∈ xs, ∃ r, residuals m (limited lim x.snr) x = some r ∧
      (limited lim x.snr ≠ 0 → r.1 = 0) ∧ (limited lim x.snr_phase ≠ 0 → r.2 = 0) := by
  unfold function
  rw [Option.map_eq_some_iff]
  constructor
  · rintro ⟨ts, h, h0⟩
    rw [mapM_some] at h
    induction h with
    | nil => simp
    | @cons x t xs ts h1 h2 ih =>
      obtain ⟨n1, n2⟩ := sums_nonneg h2
      unfold term at h1
      obtain ⟨r, hr, rfl⟩ := Option.map_eq_some_iff.1 h1
      simp only [List.map_cons, List.sum_cons] at h0
      have s1 := sq_nonneg (r.1 * limited lim x.snr)
      have s2 := sq_nonneg (r.2 * limited lim x.snr_phase)
      intro y hy
      rcases List.mem_cons.1 hy with rfl | hy
      · refine ⟨r, hr, fun hw => ?_, fun hw => ?_⟩
        · exact (mul_eq_zero.1 (pow_eq_zero_iff (two_ne_zero) |>.1 (by linarith : (r.1 * limited lim y.snr) ^ 2 = 0))).resolve_right hw
        · exact (mul_eq_zero.1 (pow_eq_zero_iff (two_ne_zero) |>.1 (by linarith : (r.2 * limited lim y.snr_phase) ^ 2 = 0))).resolve_right hw
      · exact ih (by linarith) y hy
  · intro h
    induction xs with
    | nil => exact ⟨[], rfl, by simp⟩
    | cons x xs ih =>
      obtain ⟨ts, h1, h2⟩ := ih fun y hy => h y (List.mem_cons_of_mem _ hy)
      obtain ⟨r, hr, e1, e2⟩ := h x List.mem_cons_self
      refine ⟨_ :: ts, mapM_some.2 (.cons (by unfold term; rw [hr]; rfl) (mapM_some.1 h1)), ?_⟩
      have z1 : r.1 * limited lim x.snr = 0 := by
        by_cases hw : limited lim x.snr = 0
        · rw [hw, mul_zero]
        · rw [e1 hw, zero_mul]
      have z2 : r.2 * limited lim x.snr_phase = 0 := by
        by_cases hw : limited lim x.snr_phase = 0
        · rw [hw, mul_zero]
        · rw [e2 hw, zero_mul]
      simp only [List.map_cons, List.sum_cons, z1, z2]
      linarith

/-- Points with a weight that counts. -/
def Counts (lim : ℝ) (x : Point) : Prop := lim ≤ x.snr ∧ x.snr ≠ 0

theorem counts_iff {lim : ℝ} {x : Point} : limited lim x.snr ≠ 0 ↔ Counts lim x := by
  unfold limited Counts
  split_ifs with h
  · simp [not_le.2 h]
  · exact ⟨fun h' => ⟨not_lt.1 h, h'⟩, fun h' => h'.2⟩

/-! ## C153 -/

/-- **C153, sign.**  What is minimized is never negative. -/
theorem C153_nonneg {m : Resid} {lim : ℝ} {xs : List Point} {v : ℝ} (h : function m lim xs = some v) : 0 ≤ v := by
  unfold function at h
  obtain ⟨ts, h1, rfl⟩ := Option.map_eq_some_iff.1 h
  obtain ⟨a, b⟩ := sums_nonneg (mapM_some.1 h1)
  exact add_nonneg a b

/-- **C153, differences.**  With the default of the phase weights the model `subtract` is 0 only where the readout is the data, at all points whose
weight is not below the limit. -/
theorem C153_subtract {lim : ℝ} {xs : List Point} (hd : ∀ x ∈ xs, x.data ≠ 0) (hw : ∀ x ∈ xs, x.snr_phase = x.snr) :
    function .subtract lim xs = some 0 ↔ ∀ x ∈ xs, lim ≤ x.snr → x.snr ≠ 0 → x.readout = x.data := by
  rw [function_zero]
  refine forall₂_congr fun x hx => ?_
  have key : x.readout = x.data ↔ (x.readout / x.data - 1).re = 0 ∧ (x.readout / x.data - 1).im = 0 := by
    rw [← div_eq_one_iff_eq (hd x hx), ← sub_eq_zero, Complex.ext_iff]
    rfl
  unfold residuals
  rw [if_neg (hd x hx), hw x hx]
  simp only [Option.some.injEq, exists_eq_left']
  rw [counts_iff, key]
  exact ⟨fun h a b => ⟨h.1 ⟨a, b⟩, h.2 ⟨a, b⟩⟩, fun h => ⟨fun c => (h c.1 c.2).1, fun c => (h c.1 c.2).2⟩⟩

/-- **C153, magnitudes.**  The model `magnitude` is 0 only where the magnitudes agree. -/
theorem C153_magnitude {lim : ℝ} {xs : List Point} (hd : ∀ x ∈ xs, x.data ≠ 0) (hz : ∀ x ∈ xs, x.readout ≠ 0) :
    function .magnitude lim xs = some 0 ↔ ∀ x ∈ xs, lim ≤ x.snr → x.snr ≠ 0 → ‖x.readout‖ = ‖x.data‖ := by
  rw [function_zero]
  refine forall₂_congr fun x hx => ?_
  unfold residuals
  rw [if_neg (hd x hx)]
  dsimp only
  rw [if_neg (hz x hx)]
  simp only [Option.some.injEq, exists_eq_left']
  rw [counts_iff]
  have key : Real.log ‖x.readout / x.data‖ = 0 ↔ ‖x.readout‖ = ‖x.data‖ := by
    have h1 : 0 < ‖x.data‖ := norm_pos_iff.2 (hd x hx)
    have h2 : 0 < ‖x.readout‖ := norm_pos_iff.2 (hz x hx)
    rw [norm_div]
    constructor
    · intro h
      have := Real.eq_one_of_pos_of_log_eq_zero (div_pos h2 h1) h
      exact (div_eq_one_iff_eq h1.ne').1 this
    · intro h
      rw [h, div_self h1.ne', Real.log_one]
  rw [key]
  exact ⟨fun h a b => h.1 ⟨a, b⟩, fun h => ⟨fun c => h c.1 c.2, fun _ => trivial⟩⟩

/-- A number of magnitude 1 without an imaginary part. -/
theorem direct_zero {r : ℂ} (hr : r ≠ 0) : (Real.log ‖r‖ = 0 ∧ r.im / ‖r‖ = 0) ↔ r = 1 ∨ r = -1 := by
  have hn : 0 < ‖r‖ := norm_pos_iff.2 hr
  constructor
  · rintro ⟨h1, h2⟩
    have h1 := Real.eq_one_of_pos_of_log_eq_zero hn h1
    rw [h1, div_one] at h2
    have h3 : r.re * r.re + r.im * r.im = 1 := by
      have := Complex.normSq_eq_norm_sq r
      rw [h1, Complex.normSq_apply] at this
      linarith
    rw [h2] at h3
    rcases mul_self_eq_one_iff.1 (by linarith : r.re * r.re = 1) with h | h
    · exact Or.inl (Complex.ext h (by rw [h2]; rfl))
    · exact Or.inr (Complex.ext (by rw [h]; simp) (by rw [h2]; simp))
  · rintro (rfl | rfl) <;> simp

/-- **C153, partial**: the default model `direct` is 0 only where the readout is the data or its negative.  The full claim, that it is 0 only where the
readout is the data, is false: `C153_direct_refuted`. -/
theorem C153_direct_partial {lim : ℝ} {xs : List Point} (hd : ∀ x ∈ xs, x.data ≠ 0) (hz : ∀ x ∈ xs, x.readout ≠ 0)
    (hw : ∀ x ∈ xs, x.snr_phase = x.snr) :
    function .direct lim xs = some 0 ↔ ∀ x ∈ xs, lim ≤ x.snr → x.snr ≠ 0 → x.readout = x.data ∨ x.readout = -x.data := by
  rw [function_zero]
  refine forall₂_congr fun x hx => ?_
  have key := direct_zero (div_ne_zero (hz x hx) (hd x hx))
  rw [div_eq_one_iff_eq (hd x hx), div_eq_iff (hd x hx), neg_one_mul] at key
  unfold residuals
  rw [if_neg (hd x hx), hw x hx]
  dsimp only
  rw [if_neg (hz x hx)]
  simp only [Option.some.injEq, exists_eq_left']
  rw [counts_iff, ← key]
  exact ⟨fun h a b => ⟨h.1 ⟨a, b⟩, h.2 ⟨a, b⟩⟩, fun h => ⟨fun c => (h c.1 c.2).1, fun c => (h c.1 c.2).2⟩⟩

/-- **C153, refuted** for the default model: whatever the data, a model whose readout has the wrong sign at all points fits exactly. -/
theorem C153_direct_refuted (lim : ℝ) (xs : List Point) (hd : ∀ x ∈ xs, x.data ≠ 0 ∧ x.snr_phase = x.snr) :
    function .direct lim (xs.map fun x => { x with readout := -x.data }) = some 0 := by
  rw [C153_direct_partial]
  · intro x hx _ _
    obtain ⟨y, -, rfl⟩ := List.mem_map.1 hx
    exact Or.inr rfl
  · intro x hx
    obtain ⟨y, hy, rfl⟩ := List.mem_map.1 hx
    exact (hd y hy).1
  · intro x hx
    obtain ⟨y, hy, rfl⟩ := List.mem_map.1 hx
    exact neg_ne_zero.2 (hd y hy).1
  · intro x hx
    obtain ⟨y, hy, rfl⟩ := List.mem_map.1 hx
    exact (hd y hy).2

/-- **C153, partial**: the model `bias_balance` is 0 only where the readout is the data or, with the other sign, the data over the square of the SNR, if all
weights count.  The full claim is false: `C153_bias_refuted`, `C153_limit_refuted`. -/
theorem C153_bias_partial {lim : ℝ} {xs : List Point} (hd : ∀ x ∈ xs, x.data ≠ 0) (hz : ∀ x ∈ xs, x.readout ≠ 0)
    (hw : ∀ x ∈ xs, x.snr_phase = x.snr) (hc : ∀ x ∈ xs, lim ≤ x.snr ∧ x.snr ≠ 0) :
    function .bias_balance lim xs = some 0 ↔ ∀ x ∈ xs, x.readout = x.data ∨ x.readout = -x.data / (x.snr : ℂ) ^ 2 := by
  rw [function_zero]
  refine forall₂_congr fun x hx => ?_
  have hl : limited lim x.snr = x.snr := by
    unfold limited
    rw [if_neg (not_lt.2 (hc x hx).1)]
  have h0 := (hc x hx).2
  have hs : (x.snr : ℂ) ≠ 0 := Complex.ofReal_ne_zero.2 h0
  have hD := hd x hx
  have hZ := hz x hx
  have h1 : (1 : ℂ) + 1 / (x.snr : ℂ) ^ 2 ≠ 0 := by
    have h : (1 : ℂ) + 1 / (x.snr : ℂ) ^ 2 = ((1 + 1 / x.snr ^ 2 : ℝ) : ℂ) := by push_cast; rfl
    rw [h, Complex.ofReal_ne_zero]
    positivity
  have key : (x.readout / x.data - 1 - (1 / (x.readout / x.data) - 1) * (1 / (x.snr : ℂ) ^ 2)) / (1 + 1 / (x.snr : ℂ) ^ 2) = 0 ↔
      x.readout = x.data ∨ x.readout = -x.data / (x.snr : ℂ) ^ 2 := by
    rw [div_eq_zero_iff, or_iff_left h1]
    have e : x.readout / x.data - 1 - (1 / (x.readout / x.data) - 1) * (1 / (x.snr : ℂ) ^ 2) =
        (x.readout - x.data) * (x.readout + x.data / (x.snr : ℂ) ^ 2) / (x.readout * x.data) := by
      field_simp
      ring
    rw [e, div_eq_zero_iff, or_iff_left (mul_ne_zero hZ hD), mul_eq_zero, sub_eq_zero, neg_div, ← eq_neg_iff_add_eq_zero]
  unfold residuals
  rw [if_neg hD, hw x hx, hl]
  dsimp only
  rw [if_neg (by simp [h0, hZ])]
  simp only [Option.some.injEq, exists_eq_left']
  rw [← key, Complex.ext_iff]
  exact ⟨fun h => ⟨h.1 h0, h.2 h0⟩, fun h => ⟨fun _ => h.1, fun _ => h.2⟩⟩

/-- **C153, refuted** for `bias_balance`: with a readout of the other sign that is smaller by the square of the SNR it is 0 too. -/
theorem C153_bias_refuted {d : ℂ} (hd : d ≠ 0) {w : ℝ} (hw : 0 < w) :
    function .bias_balance 0 [⟨-d / (w : ℂ) ^ 2, d, w, w⟩] = some 0 ∧ -d / (w : ℂ) ^ 2 ≠ d := by
  have hs : (w : ℂ) ≠ 0 := Complex.ofReal_ne_zero.2 hw.ne'
  refine ⟨(C153_bias_partial (by simpa using hd) (by simp [hd, hs]) (by simp) (by simp [hw.le, hw.ne'])).2 (by simp), ?_⟩
  intro h
  rw [div_eq_iff (pow_ne_zero 2 hs)] at h
  have h : ((w ^ 2 : ℝ) : ℂ) = ((-1 : ℝ) : ℂ) := by
    push_cast
    exact mul_left_cancel₀ hd (by rw [← h]; ring)
  have := Complex.ofReal_inj.1 h
  nlinarith [sq_nonneg w]

/-- **C153, refuted** for `bias_balance` with a limit: if the weight of any point is below the limit nothing finite is minimized, whatever the readout. -/
theorem C153_limit_refuted {lim : ℝ} {xs : List Point} {x : Point} (hx : x ∈ xs) (hl : x.snr < lim) : function .bias_balance lim xs = none := by
  unfold function
  rw [Option.map_eq_none_iff]
  cases h : xs.mapM (term .bias_balance lim) with
  | none => rfl
  | some ts =>
    exfalso
    have h' := mapM_some.1 h
    clear h
    induction h' with
    | nil => simp at hx
    | @cons y t ys ts h1 _ ih =>
      rcases List.mem_cons.1 hx with rfl | hx
      · unfold term residuals limited at h1
        rw [if_pos hl] at h1
        by_cases hd : x.data = 0 <;> simp [hd] at h1
      · exact ih hx

/-- **C153, units.**  Scaling readout and data alike changes nothing. -/
theorem C153_scale (m : Resid) (lim : ℝ) {c : ℂ} (hc : c ≠ 0) (xs : List Point) :
    function m lim (xs.map fun x => { x with readout := c * x.readout, data := c * x.data }) = function m lim xs := by
  have h : ∀ x : Point, term m lim { x with readout := c * x.readout, data := c * x.data } = term m lim x := by
    intro x
    unfold term residuals
    dsimp only
    rw [mul_div_mul_left _ _ hc]
    simp only [mul_eq_zero, hc, false_or]
  unfold function
  congr 1
  induction xs with
  | nil => rfl
  | cons x xs ih => rw [List.map_cons, List.mapM_cons, List.mapM_cons, h, ih]

/-- The hypotheses are met together, and the results are not trivial. -/
example : ∃ xs : List Point, (∀ x ∈ xs, x.data ≠ 0) ∧ (∀ x ∈ xs, x.readout ≠ 0) ∧ (∀ x ∈ xs, x.snr_phase = x.snr) ∧
    (∀ x ∈ xs, 1 ≤ x.snr ∧ x.snr ≠ 0) ∧ function .subtract 1 xs ≠ some 0 ∧ function .direct 1 xs = some 0 := by
  have h1 : ∀ x ∈ [(⟨-I, I, 2, 2⟩ : Point)], x.data ≠ 0 := by simp
  have h2 : ∀ x ∈ [(⟨-I, I, 2, 2⟩ : Point)], x.readout ≠ 0 := by simp
  have h3 : ∀ x ∈ [(⟨-I, I, 2, 2⟩ : Point)], x.snr_phase = x.snr := by simp
  refine ⟨[⟨-I, I, 2, 2⟩], h1, h2, h3, by simp, ?_, (C153_direct_partial h1 h2 h3).2 (by simp)⟩
  rw [Ne, C153_subtract h1 h3]
  intro h
  have := congrArg Complex.im (h _ List.mem_cons_self (by norm_num) (by norm_num))
  norm_num at this

end Fit
