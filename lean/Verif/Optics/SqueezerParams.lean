import Mathlib.Tactic.FieldSimp
import Mathlib.Tactic.Linarith
import Mathlib.Tactic.Ring
import Mathlib.Tactic.NormNum
import Mathlib.Tactic.Positivity
import Verif.Optics.Squeezer

/-!
# The parameters of the squeezer (C114)
-/

namespace Optics
open Py

/-- What the stored numbers should say about each other: the gains are those of a two-photon process, the loss is one, and the
variances of the two quadratures are `v1` and `v2`, also in decibels (the relations of l.129-132). -/
structure SqzUsed.Agree (u : SqzUsed) (v1 v2 : ℝ) : Prop where
  loss_nonneg : 0 ≤ u.loss
  loss_lt : u.loss < 1
  gain_pos : 0 < u.field_gain_1 ∧ 0 < u.field_gain_2
  gains : u.field_gain_1 ^ 2 - u.field_gain_2 ^ 2 = 1
  power : u.power_gain = u.field_gain_1 ^ 2
  normalized : u.field_gain_1 * (1 - u.normalized) = 1
  var_1 : (1 - u.loss) * (u.field_gain_1 - u.field_gain_2) ^ 2 + u.loss = v1
  var_2 : (1 - u.loss) * (u.field_gain_1 + u.field_gain_2) ^ 2 + u.loss = v2
  dB_1 : (10 : ℝ) ^ (-u.sqzDB / 10) = v1
  dB_2 : (10 : ℝ) ^ (u.antisqzDB / 10) = v2

private theorem dB (v : ℝ) (h : 0 < v) : (10 : ℝ) ^ (-(-10 * Real.log v / Real.log 10) / 10) = v ∧
    (10 : ℝ) ^ (10 * Real.log v / Real.log 10 / 10) = v := by
  have hl : Real.log 10 ≠ 0 := (Real.log_pos (by norm_num)).ne'
  constructor <;>
  · rw [Real.rpow_def_of_pos (by norm_num)]
    refine Eq.trans (congrArg Real.exp ?_) (Real.exp_log h)
    field_simp

/-- the numbers for the deviations `a`, `b` of the variances from one -/
private theorem gains_of {a b : ℝ} (ha : 0 < a) (hab : a < b) :
    ∃ s : ℝ, 0 < s ∧ s ^ 2 = a * b ∧ (2 + Real.sqrt (4 + (b / a - a / b) ^ 2)) / 4 = ((a + b) / (2 * s)) ^ 2 ∧
      Real.sqrt (((a + b) / (2 * s)) ^ 2) = (a + b) / (2 * s) ∧
      Real.sqrt (((a + b) / (2 * s)) ^ 2 - 1) = (b - a) / (2 * s) := by
  have hb : 0 < b := ha.trans hab
  have hs : 0 < Real.sqrt (a * b) := Real.sqrt_pos.2 (mul_pos ha hb)
  have hss : Real.sqrt (a * b) ^ 2 = a * b := Real.sq_sqrt (mul_pos ha hb).le
  refine ⟨Real.sqrt (a * b), hs, hss, ?_, Real.sqrt_sq (by positivity), ?_⟩
  · have : 4 + (b / a - a / b) ^ 2 = (b / a + a / b) ^ 2 := by field_simp; ring
    rw [this, Real.sqrt_sq (by positivity), div_pow, mul_pow, hss]
    field_simp
    ring
  · have : ((a + b) / (2 * Real.sqrt (a * b))) ^ 2 - 1 = ((b - a) / (2 * Real.sqrt (a * b))) ^ 2 := by
      rw [div_pow, div_pow, mul_pow, hss]
      field_simp
      ring
    rw [this, Real.sqrt_sq (div_nonneg (by linarith) (by positivity))]

private theorem variance_eq {v1 v2 : ℝ} (h1 : v1 ≠ 1) (h2 : v2 ≠ 1) (h : 2 - v1 - v2 ≠ 0) (l1 l2 : Option ℝ) (d1 d2 : ℝ) {g G1 G2 : ℝ}
    (hg : (2 + Real.sqrt (4 + ((v1 - 1) / (v2 - 1) - (v2 - 1) / (v1 - 1)) ^ 2)) / 4 = g) (hG1 : Real.sqrt g = G1)
    (hG2 : Real.sqrt (g - 1) = G2) :
    sqz_variance v1 v2 l1 l2 d1 d2 = .ok ⟨g, G1, G2, 1 - 1 / G1, (1 - v1 * v2) / (2 - v1 - v2), l1, l2, d1, d2⟩ := by
  subst hg hG1 hG2
  unfold sqz_variance fdiv
  rw [if_neg h1, if_neg (sub_ne_zero.2 h2), if_neg (sub_ne_zero.2 h1), if_neg h]
  rfl

/-- The constructor for variances on the two sides of one. -/
private theorem variance_of {v1 v2 : ℝ} (h0 : 0 < v1) (h1 : v1 < 1) (h2 : 1 < v2) (h : 1 ≤ v1 * v2) (l1 l2 : Option ℝ) :
    (∃ u, sqz_variance v1 v2 l1 l2 (-10 * Real.log v1 / Real.log 10) (10 * Real.log v2 / Real.log 10) = .ok u ∧
      u.Agree v1 v2 ∧ u.loss = (1 - v1 * v2) / (2 - v1 - v2) ∧ u.rel_variance_1 = l1 ∧ u.rel_variance_2 = l2) ∧
    ∀ d1 d2, ∃ u, sqz_variance v2 v1 l1 l2 d1 d2 = .ok u ∧
      (1 - u.loss) * (u.field_gain_1 - u.field_gain_2) ^ 2 + u.loss = v1 := by
  obtain ⟨a, rfl⟩ : ∃ a, v1 = 1 - a := ⟨1 - v1, by ring⟩
  obtain ⟨b, rfl⟩ : ∃ b, v2 = 1 + b := ⟨v2 - 1, by ring⟩
  have ha : 0 < a := by linarith
  have hb : 0 < b := by linarith
  have hab : a < b := by nlinarith [mul_pos ha hb]
  obtain ⟨s, hs, hss, e1, e2, e3⟩ := gains_of ha hab
  have hba : b - a ≠ 0 := by linarith
  have hba0 : 0 < b - a := by linarith
  have hl : (1 - (1 - a) * (1 + b)) / (2 - (1 - a) - (1 + b)) = 1 - a * b / (b - a) := by
    rw [show 2 - (1 - a) - (1 + b) = -(b - a) by ring]
    field_simp
    ring
  have hl' : (1 - (1 + b) * (1 - a)) / (2 - (1 + b) - (1 - a)) = 1 - a * b / (b - a) := by
    rw [show 2 - (1 + b) - (1 - a) = -(b - a) by ring]
    field_simp
    ring
  have hm : ((a + b) / (2 * s) - (b - a) / (2 * s)) ^ 2 = a / b := by
    rw [← sub_div, div_pow, mul_pow, hss]
    field_simp
    ring
  have hp : ((a + b) / (2 * s) + (b - a) / (2 * s)) ^ 2 = b / a := by
    rw [← add_div, div_pow, mul_pow, hss]
    field_simp
    ring
  have q1 : (1 - (1 - a * b / (b - a))) * (a / b) + (1 - a * b / (b - a)) = 1 - a := by
    field_simp
    ring
  have q2 : (1 - (1 - a * b / (b - a))) * (b / a) + (1 - a * b / (b - a)) = 1 + b := by
    field_simp
    ring
  constructor
  · have key := variance_eq (v1 := 1 - a) (v2 := 1 + b) (by linarith) (by linarith) (by intro hh; apply hba; linarith) l1 l2
      (-10 * Real.log (1 - a) / Real.log 10) (10 * Real.log (1 + b) / Real.log 10)
      (g := ((a + b) / (2 * s)) ^ 2) (by
        rw [← e1]
        congr 4
        rw [show 1 - a - 1 = -a by ring, show 1 + b - 1 = b by ring, div_neg, neg_div]
        ring) e2 e3
    refine ⟨_, key, ⟨?_, ?_, ⟨by positivity, div_pos hba0 (by positivity)⟩, ?_, rfl, ?_, ?_, ?_, (dB _ h0).1, (dB _ (by linarith)).2⟩, rfl, rfl, rfl⟩
    · show 0 ≤ (1 - (1 - a) * (1 + b)) / (2 - (1 - a) - (1 + b))
      rw [hl, sub_nonneg, div_le_one hba0]
      linarith
    · show (1 - (1 - a) * (1 + b)) / (2 - (1 - a) - (1 + b)) < 1
      rw [hl]
      linarith [div_pos (mul_pos ha hb) hba0]
    · show ((a + b) / (2 * s)) ^ 2 - ((b - a) / (2 * s)) ^ 2 = 1
      rw [div_pow, div_pow, mul_pow, hss]
      field_simp
      ring
    · show (a + b) / (2 * s) * (1 - (1 - 1 / ((a + b) / (2 * s)))) = 1
      field_simp
      ring
    · show (1 - (1 - (1 - a) * (1 + b)) / (2 - (1 - a) - (1 + b))) * ((a + b) / (2 * s) - (b - a) / (2 * s)) ^ 2 +
        (1 - (1 - a) * (1 + b)) / (2 - (1 - a) - (1 + b)) = 1 - a
      rw [hl, hm, q1]
    · show (1 - (1 - (1 - a) * (1 + b)) / (2 - (1 - a) - (1 + b))) * ((a + b) / (2 * s) + (b - a) / (2 * s)) ^ 2 +
        (1 - (1 - a) * (1 + b)) / (2 - (1 - a) - (1 + b)) = 1 + b
      rw [hl, hp, q2]
  · intro d1 d2
    have key := variance_eq (v1 := 1 + b) (v2 := 1 - a) (by linarith) (by linarith) (by intro hh; apply hba; linarith) l1 l2
      d1 d2 (g := ((a + b) / (2 * s)) ^ 2) (by
        rw [← e1]
        congr 4
        rw [show 1 - a - 1 = -a by ring, show 1 + b - 1 = b by ring, div_neg, neg_div]
        ring) e2 e3
    refine ⟨_, key, ?_⟩
    show (1 - (1 - (1 + b) * (1 - a)) / (2 - (1 + b) - (1 - a))) * ((a + b) / (2 * s) - (b - a) / (2 * s)) ^ 2 +
        (1 - (1 + b) * (1 - a)) / (2 - (1 + b) - (1 - a)) = 1 - a
    rw [hl', hm, q1]

private theorem only_ok {a : SqzArgs} {used : List (Option ℝ)} (h : ∀ x ∈ a.all, x ∈ used ∨ x = none) : a.only used = .ok () :=
  if_pos h

/-- **C114**, part: two variances, the first one below and the second one above that of vacuum.  The product is at least one, as the
uncertainty relation demands.  A given loss is ignored.  Missing: all other ways of giving the parameters, which fail or do something
else, see the theorems below. -/
theorem C114_variances_partial (v1 v2 : ℝ) (l : Option ℝ) (h0 : 0 < v1) (h1 : v1 < 1) (h2 : 1 < v2) (h : 1 ≤ v1 * v2) :
    ∃ u, sqz_init { rel_variance_1 := some v1, rel_variance_2 := some v2, loss := l } = .ok u ∧ u.Agree v1 v2 ∧
      u.rel_variance_1 = some v1 ∧ u.rel_variance_2 = some v2 := by
  obtain ⟨⟨u, hu, ha, -, hv1, hv2⟩, -⟩ := variance_of h0 h1 h2 h (some v1) (some v2)
  refine ⟨u, ?_, ha, hv1, hv2⟩
  have hne : 2 - v1 - v2 ≠ 0 := by
    intro hh
    have : v2 = 2 - v1 := by linarith
    subst this
    nlinarith [sq_nonneg (v1 - 1), sub_pos.2 h1, mul_pos (sub_pos.2 h1) (sub_pos.2 h1)]
  unfold sqz_init
  simp only []
  rw [only_ok (by simp [SqzArgs.all])]
  simp only [bind, Except.bind, fdiv, if_neg hne]
  exact hu

/-- **C114**, part: the first variance alone, below that of vacuum; no loss. -/
theorem C114_pure_partial (v1 : ℝ) (h0 : 0 < v1) (h1 : v1 < 1) :
    ∃ u, sqz_init { rel_variance_1 := some v1 } = .ok u ∧ u.Agree v1 (1 / v1) ∧ u.loss = 0 ∧ u.rel_variance_1 = some v1 := by
  obtain ⟨⟨u, hu, ha, hl, hv1, hv2⟩, -⟩ := variance_of h0 h1 (one_lt_one_div h0 h1) (by rw [mul_one_div_cancel h0.ne']) (some v1) none
  refine ⟨u, ?_, ha, ?_, hv1⟩
  · unfold sqz_init
    simp only []
    rw [only_ok (by simp [SqzArgs.all])]
    simp only [bind, Except.bind, fdiv, if_neg h0.ne']
    exact hu
  · rw [hl, mul_one_div_cancel h0.ne', sub_self, zero_div]

/-- **C114** is false when a variance and a loss are given: the squeezer uses another loss, whatever the two are. -/
theorem C114_loss_refuted (v1 l : ℝ) (hl : 0 < l) (hv : l < v1) (h1 : v1 < 1) :
    ∃ u, sqz_init { rel_variance_1 := some v1, loss := some l } = .ok u ∧ u.loss ≠ l := by
  have hd : 0 < v1 - l := by linarith
  obtain ⟨⟨u, hu, ha, hu', hv1, hv2⟩, -⟩ := variance_of (hl.trans hv) h1 (one_lt_one_div hd (by linarith))
    (by rw [mul_one_div, le_div_iff₀ hd]; linarith) (some v1) none
  refine ⟨u, ?_, ?_⟩
  · unfold sqz_init
    simp only []
    rw [only_ok (by simp [SqzArgs.all])]
    simp only [bind, Except.bind, fdiv, if_neg hd.ne']
    exact hu
  · rw [hu']
    intro hh
    have hden : 2 - v1 - 1 / (v1 - l) ≠ 0 := by
      intro h'
      rw [h', div_zero] at hh
      linarith
    rw [div_eq_iff hden] at hh
    field_simp at hh
    have : l * ((v1 - l) * (2 - v1)) = 0 := by linarith
    rcases mul_eq_zero.1 this with h' | h'
    · linarith
    · rcases mul_eq_zero.1 h' with h' | h' <;> linarith

/-- **C114** is false for gains and for decibels: only variances can be given, everything else raises. -/
theorem C114_gain_refuted (a : SqzArgs) (h : a.nonlinear_power_gain ≠ none ∨ a.nonlinear_field_gain ≠ none ∨
    a.normalized_nonlinear_field_gain ≠ none ∨ a.rel_variance_1 = none) : ∃ e, sqz_init a = .error e := by
  have ho : ∀ used, a.only used = .ok () ∨ a.only used = .error .assertion := fun used => by
    unfold SqzArgs.only
    split_ifs <;> simp
  have hf : ∀ x y : ℝ, (∃ z, fdiv x y = .ok z) ∨ fdiv x y = .error .zeroDivision := fun x y => by
    unfold fdiv
    split_ifs <;> simp
  unfold sqz_init
  rcases hp : a.nonlinear_power_gain with _ | g
  · rcases hq : a.nonlinear_field_gain with _ | g
    · rcases hr : a.normalized_nonlinear_field_gain with _ | g
      · have hv : a.rel_variance_1 = none := by simpa [hp, hq, hr] using h
        rcases hs : a.sqzDB with _ | s
        · exact ⟨.runtime, by simp only [hv]⟩
        · simp only [hv]
          rcases ho [some s, a.antisqzDB] with h | h <;> rw [h] <;> exact ⟨_, rfl⟩
      · rcases ho [some g, a.loss] with h | h <;> simp only [] <;> rw [h]
        · rcases hf 1 (1 - g) with ⟨z, h⟩ | h <;> simp only [bind, Except.bind, h] <;> exact ⟨_, rfl⟩
        · exact ⟨_, rfl⟩
    · rcases ho [some g, a.loss] with h | h <;> simp only [] <;> rw [h]
      · rcases hf 1 g with ⟨z, h⟩ | h <;> simp only [bind, Except.bind, h] <;> exact ⟨_, rfl⟩
      · exact ⟨_, rfl⟩
  · rcases ho [some g, a.loss] with h | h <;> simp only [] <;> rw [h] <;> exact ⟨_, rfl⟩

/-- ... and in particular proper gains and decibels end in `AttributeError`. -/
theorem C114_attribute_refuted (g : ℝ) (hg : 1 < g) :
    sqz_init { nonlinear_power_gain := some g } = .error .attributeError ∧
    sqz_init { nonlinear_field_gain := some g } = .error .attributeError ∧
    sqz_init { normalized_nonlinear_field_gain := some (1 - 1 / g) } = .error .attributeError ∧
    sqz_init { sqzDB := some g } = .error .attributeError := by
  have h0 : g ≠ 0 := by linarith
  refine ⟨?_, ?_, ?_, ?_⟩ <;> unfold sqz_init <;> simp only [] <;> rw [only_ok (by simp [SqzArgs.all])]
  · rfl
  · simp only [bind, Except.bind, fdiv, if_neg h0]
  · have : 1 - (1 - 1 / g) ≠ 0 := by rw [sub_sub_cancel]; exact one_div_ne_zero h0
    simp only [bind, Except.bind, fdiv, if_neg this]
  · rfl

/-- **C114** is false without squeezing: the loss is zero divided by zero. -/
theorem C114_vacuum_refuted :
    sqz_init { rel_variance_1 := some 1, rel_variance_2 := some 1 } = .error .zeroDivision ∧
    sqz_init { rel_variance_1 := some 1 } = .error .zeroDivision := by
  constructor <;> unfold sqz_init <;> simp only [] <;> rw [only_ok (by simp [SqzArgs.all])]
  · simp only [bind, Except.bind, fdiv]
    norm_num
  · simp only [bind, Except.bind, fdiv, sqz_variance]
    norm_num

/-- **C114** is false when the first variance is the larger one: the squeezer then has the two exchanged. -/
theorem C114_order_refuted (v1 v2 : ℝ) (h0 : 0 < v2) (h1 : 1 < v1) (h2 : v2 < 1) (h : 1 ≤ v1 * v2) :
    ∃ u, sqz_init { rel_variance_1 := some v1, rel_variance_2 := some v2 } = .ok u ∧
      (1 - u.loss) * (u.field_gain_1 - u.field_gain_2) ^ 2 + u.loss = v2 := by
  obtain ⟨-, hh⟩ := variance_of h0 h2 h1 (by rw [mul_comm]; exact h) (some v1) (some v2)
  obtain ⟨u, hu, ha⟩ := hh (-10 * Real.log v1 / Real.log 10) (10 * Real.log v2 / Real.log 10)
  refine ⟨u, ?_, ha⟩
  have hne : 2 - v1 - v2 ≠ 0 := by
    intro hh
    have : v1 = 2 - v2 := by linarith
    subst this
    nlinarith [sub_pos.2 h2, mul_pos (sub_pos.2 h2) (sub_pos.2 h2)]
  unfold sqz_init
  simp only []
  rw [only_ok (by simp [SqzArgs.all])]
  simp only [bind, Except.bind, fdiv, if_neg hne]
  exact hu

/-- **C114** is false for the stored variances: the second one is not stored when it follows from the first. -/
theorem C114_recorded_refuted (v1 : ℝ) (h0 : 0 < v1) (h1 : v1 < 1) :
    ∃ u, sqz_init { rel_variance_1 := some v1 } = .ok u ∧ u.rel_variance_2 = none := by
  obtain ⟨⟨u, hu, -, -, -, hv2⟩, -⟩ := variance_of h0 h1 (one_lt_one_div h0 h1) (by rw [mul_one_div_cancel h0.ne']) (some v1) none
  refine ⟨u, ?_, hv2⟩
  unfold sqz_init
  simp only []
  rw [only_ok (by simp [SqzArgs.all])]
  simp only [bind, Except.bind, fdiv, if_neg h0.ne']
  exact hu

/-- Squeezed light with some loss: variances 1/2 and 3. -/
example : ∃ u, sqz_init { rel_variance_1 := some (1 / 2), rel_variance_2 := some 3 } = .ok u ∧ u.Agree (1 / 2) 3 :=
  let ⟨u, h, a, _⟩ := C114_variances_partial (1 / 2) 3 none (by norm_num) (by norm_num) (by norm_num) (by norm_num)
  ⟨u, h, a⟩

/-- Half the variance of vacuum. -/
example : ∃ u, sqz_init { rel_variance_1 := some (1 / 2) } = .ok u ∧ u.loss = 0 ∧ u.Agree (1 / 2) (1 / (1 / 2)) :=
  let ⟨u, h, a, l, _⟩ := C114_pure_partial (1 / 2) (by norm_num) (by norm_num)
  ⟨u, h, l, a⟩

/-- A loss of a quarter is turned into another one. -/
example : ∃ u, sqz_init { rel_variance_1 := some (1 / 2), loss := some (1 / 4) } = .ok u ∧ u.loss ≠ 1 / 4 :=
  C114_loss_refuted (1 / 2) (1 / 4) (by norm_num) (by norm_num) (by norm_num)

/-- The variances 2 and 1/2, in this order. -/
example : ∃ u, sqz_init { rel_variance_1 := some 2, rel_variance_2 := some (1 / 2) } = .ok u ∧
    (1 - u.loss) * (u.field_gain_1 - u.field_gain_2) ^ 2 + u.loss = 1 / 2 :=
  C114_order_refuted 2 (1 / 2) (by norm_num) (by norm_num) (by norm_num) (by norm_num)

end Optics
