import Mathlib.Algebra.BigOperators.Group.List.Basic
import Mathlib.Algebra.BigOperators.Ring.List
import Mathlib.Algebra.Star.Basic
import Mathlib.Tactic.LinearCombination
import Mathlib.Tactic.Ring
import Mathlib.Tactic.FieldSimp
import Verif.Signal.Filter

/-!
# What the zero-pole filters compute (C45)
-/

set_option linter.unusedSectionVars false

namespace Signal
open Py Inject

variable {F : Type} [Field F] [StarRing F] [DecidableEq F]

theorem bind_ok' {α β : Type} (a : α) (f : α → Except Err β) : (Except.ok a >>= f) = f a := rfl
theorem bind_err' {α β : Type} (e : Err) (f : α → Except Err β) : ((Except.error e : Except Err α) >>= f) = .error e := rfl

/-! ## the products -/

theorem pdiv_zero (a : F) : pdiv a 0 = .error .zeroDivision := by rw [pdiv, if_pos rfl]

theorem pdiv_ne {a b : F} (h : b ≠ 0) : pdiv a b = .ok (a / b) := by rw [pdiv, if_neg h]

theorem factor_zero (j f : F) : factor j f 0 = .error .zeroDivision := by
  rw [factor, pdiv_zero]
  rfl

theorem factor_ne {j f r : F} (h : r ≠ 0) : factor j f r = .ok (1 - j * f / r) := by
  rw [factor, pdiv_ne h]
  rfl

theorem factor2_zero (j f : F) : factor2 j f 0 = .error .zeroDivision := by
  rw [factor2, star_zero, pdiv_zero]
  rfl

theorem factor2_ne {j f r : F} (h : r ≠ 0) :
    factor2 j f r = .ok ((1 - j * f / star r) * (1 - j * f / r)) := by
  rw [factor2, pdiv_ne (fun h' => h (star_eq_zero.1 h')), pdiv_ne h]
  show Except.ok _ = _
  congr 2 <;> rw [div_mul_eq_mul_div, mul_comm]

theorem factors_ok {fac : F → Except Err F} {v : F → F} {l : List F} (h : ∀ r ∈ l, fac r = .ok (v r)) :
    ∀ x, factors fac x l = .ok (x * (l.map v).prod) := by
  induction l with
  | nil => intro x; rw [factors, List.map_nil, List.prod_nil, mul_one]
  | cons a l ih =>
    intro x
    rw [factors, h a List.mem_cons_self, bind_ok', ih (fun r hr => h r (List.mem_cons_of_mem _ hr)),
      List.map_cons, List.prod_cons, mul_assoc]

theorem root_xfer_ok {fac : F → Except Err F} {v : F → F} {l : List F} (h : ∀ r ∈ l, fac r = .ok (v r)) :
    root_xfer fac l = .ok (l.map v).prod := by
  cases l with
  | nil => rfl
  | cons a l =>
    rw [root_xfer, h a List.mem_cons_self, bind_ok', factors_ok (fun r hr => h r (List.mem_cons_of_mem _ hr)),
      List.map_cons, List.prod_cons]

theorem factors_err {fac : F → Except Err F} {e : Err} (ha : ∀ r, (∃ v, fac r = .ok v) ∨ fac r = .error e) :
    ∀ {l : List F}, (∃ r ∈ l, fac r = .error e) → ∀ x, factors fac x l = .error e := by
  intro l
  induction l with
  | nil => rintro ⟨r, hr, _⟩; cases hr
  | cons a l ih =>
    rintro ⟨r, hr, he⟩ x
    rw [factors]
    rcases ha a with ⟨v, hv⟩ | hv
    · rw [hv, bind_ok']
      rcases List.mem_cons.1 hr with h | h
      · rw [h] at he; rw [he] at hv; cases hv
      · exact ih ⟨r, h, he⟩ _
    · rw [hv]
      rfl

theorem root_xfer_err {fac : F → Except Err F} {e : Err} (ha : ∀ r, (∃ v, fac r = .ok v) ∨ fac r = .error e)
    {l : List F} (h : ∃ r ∈ l, fac r = .error e) : root_xfer fac l = .error e := by
  cases l with
  | nil => obtain ⟨r, hr, _⟩ := h; cases hr
  | cons a l =>
    rw [root_xfer]
    rcases ha a with ⟨v, hv⟩ | hv
    · rw [hv, bind_ok']
      obtain ⟨r, hr, he⟩ := h
      rcases List.mem_cons.1 hr with h | h
      · rw [h] at he; rw [he] at hv; cases hv
      · exact factors_err ha ⟨r, h, he⟩ _
    · rw [hv]
      rfl

theorem factor_cases (j f r : F) : (∃ v, factor j f r = .ok v) ∨ factor j f r = .error .zeroDivision := by
  by_cases h : r = 0
  · rw [h]; exact .inr (factor_zero j f)
  · exact .inl ⟨_, factor_ne h⟩

theorem factor2_cases (j f r : F) : (∃ v, factor2 j f r = .ok v) ∨ factor2 j f r = .error .zeroDivision := by
  by_cases h : r = 0
  · rw [h]; exact .inr (factor2_zero j f)
  · exact .inl ⟨_, factor2_ne h⟩

/-- the value of the product of the factors -/
theorem root1 (j f : F) (l : List F) : root_xfer (factor j f) l =
    if (0 : F) ∈ l then .error .zeroDivision else .ok (l.map (fun r => 1 - j * f / r)).prod := by
  by_cases h : (0 : F) ∈ l
  · rw [if_pos h]
    exact root_xfer_err (factor_cases j f) ⟨0, h, factor_zero j f⟩
  · rw [if_neg h]
    exact root_xfer_ok (fun r hr => factor_ne (fun h0 => h (h0 ▸ hr)))

theorem root2 (j f : F) (l : List F) : root_xfer (factor2 j f) l =
    if (0 : F) ∈ l then .error .zeroDivision else
      .ok (l.map (fun r => (1 - j * f / star r) * (1 - j * f / r))).prod := by
  by_cases h : (0 : F) ∈ l
  · rw [if_pos h]
    exact root_xfer_err (factor2_cases j f) ⟨0, h, factor2_zero j f⟩
  · rw [if_neg h]
    exact root_xfer_ok (fun r hr => factor2_ne (fun h0 => h (h0 ▸ hr)))

theorem real_roots_eq (l : List F) : real_roots l = if (∀ r ∈ l, star r = r) then .ok l else .error .assertion := by
  unfold real_roots
  by_cases h : ∀ r ∈ l, star r = r
  · rw [if_pos h, if_pos]
    exact List.all_eq_true.2 (fun r hr => decide_eq_true (h r hr))
  · rw [if_neg h, if_neg]
    intro h'
    exact h (fun r hr => of_decide_eq_true (List.all_eq_true.1 h' r hr))

/-- the numerator or the denominator of the transfer function: the real roots, the complex roots and their conjugates -/
def poly (j f : F) (re cx : List F) : F :=
  (re.map (fun r => 1 - j * f / r)).prod * (cx.map (fun r => (1 - j * f / star r) * (1 - j * f / r))).prod

theorem filter_eq (c : Cascade F) (j f : F) : c.filter_func j f =
    if (∀ r ∈ c.poles_r, star r = r) ∧ (∀ r ∈ c.zeros_r, star r = r) then
      if (0 : F) ∈ c.zeros_r ++ c.zeros_c ++ c.poles_r ++ c.poles_c then .error .zeroDivision
      else pdiv (poly j f c.zeros_r c.zeros_c) (poly j f c.poles_r c.poles_c)
    else .error .assertion := by
  unfold Cascade.filter_func
  rw [real_roots_eq, real_roots_eq]
  by_cases h1 : ∀ r ∈ c.poles_r, star r = r
  · by_cases h2 : ∀ r ∈ c.zeros_r, star r = r
    · rw [if_pos h1, if_pos h2, if_pos ⟨h1, h2⟩, bind_ok', bind_ok', root1, root2, root1, root2]
      by_cases e1 : (0 : F) ∈ c.zeros_r
      · rw [if_pos e1, bind_err', if_pos (by simp [e1])]
      by_cases e2 : (0 : F) ∈ c.zeros_c
      · rw [if_neg e1, if_pos e2, bind_ok', bind_err', if_pos (by simp [e2])]
      by_cases e3 : (0 : F) ∈ c.poles_r
      · rw [if_neg e1, if_neg e2, if_pos e3, bind_ok', bind_ok', bind_err', if_pos (by simp [e3])]
      by_cases e4 : (0 : F) ∈ c.poles_c
      · rw [if_neg e1, if_neg e2, if_neg e3, if_pos e4, bind_ok', bind_ok', bind_ok', bind_err', if_pos (by simp [e4])]
      rw [if_neg e1, if_neg e2, if_neg e3, if_neg e4, if_neg (by simp [e1, e2, e3, e4])]
      rfl
    · have h3 : ¬((∀ r ∈ c.poles_r, star r = r) ∧ ∀ r ∈ c.zeros_r, star r = r) := fun h => h2 h.2
      rw [if_pos h1, if_neg h2, if_neg h3]
      rfl
  · have h3 : ¬((∀ r ∈ c.poles_r, star r = r) ∧ ∀ r ∈ c.zeros_r, star r = r) := fun h => h1 h.1
    rw [if_neg h1, if_neg h3]
    rfl

theorem star_div_ (a b : F) : star (a / b) = star a / star b := map_div₀ (starRingEnd F) a b

theorem star_prod (l : List F) : star l.prod = (l.map star).prod := by
  induction l with
  | nil => simp
  | cons a l ih => rw [List.prod_cons, star_mul', ih, List.map_cons, List.prod_cons]

theorem poly_star {j f : F} (hj : star j = -j) (hf : star f = f) {re cx : List F} (hre : ∀ r ∈ re, star r = r) :
    poly j (-f) re cx = star (poly j f re cx) := by
  unfold poly
  rw [star_mul', star_prod, star_prod, List.map_map, List.map_map]
  congr 2
  · apply List.map_congr_left
    intro r hr
    show _ = star (1 - j * f / r)
    rw [star_sub, star_one, star_div_, star_mul', hj, hf, hre r hr]
    ring
  · apply List.map_congr_left
    intro r _
    show _ = star ((1 - j * f / star r) * (1 - j * f / r))
    rw [star_mul', star_sub, star_sub, star_one, star_div_, star_div_, star_mul', hj, hf, star_star]
    ring

theorem pdiv_star (a b : F) : pdiv (star a) (star b) = (pdiv a b).map star := by
  by_cases h : b = 0
  · rw [h, star_zero, pdiv_zero, pdiv_zero]
    rfl
  · rw [pdiv_ne h, pdiv_ne (fun h' => h (star_eq_zero.1 h'))]
    show _ = Except.ok (star (a / b))
    rw [star_div_]

theorem poly_zero_iff {j f : F} {re cx : List F} (h1 : (0 : F) ∉ re) (h2 : (0 : F) ∉ cx) :
    poly j f re cx = 0 ↔ j * f ∈ re ∨ j * f ∈ cx ∨ star (j * f) ∈ cx := by
  have hl : ∀ r : F, r ≠ 0 → (1 - j * f / r = 0 ↔ j * f = r) := by
    intro r hr
    rw [sub_eq_zero, eq_div_iff hr, one_mul]
    exact eq_comm
  unfold poly
  rw [mul_eq_zero, List.prod_eq_zero_iff, List.prod_eq_zero_iff, List.mem_map, List.mem_map]
  apply or_congr
  · constructor
    · rintro ⟨r, hr, h⟩
      rw [hl r (fun h0 => h1 (h0 ▸ hr))] at h
      exact h ▸ hr
    · intro h
      exact ⟨_, h, (hl _ (fun h0 => h1 (h0 ▸ h))).2 rfl⟩
  · constructor
    · rintro ⟨r, hr, h⟩
      have h0 : r ≠ 0 := fun h0 => h2 (h0 ▸ hr)
      rcases mul_eq_zero.1 h with h | h
      · rw [hl _ (fun h' => h0 (star_eq_zero.1 h'))] at h
        right
        rw [h, star_star]
        exact hr
      · rw [hl r h0] at h
        left
        exact h ▸ hr
    · rintro (h | h)
      · exact ⟨_, h, by rw [(hl _ (fun h0 => h2 (h0 ▸ h))).2 rfl, mul_zero]⟩
      · refine ⟨_, h, ?_⟩
        rw [star_star, (hl (j * f) ?_).2 rfl, zero_mul]
        intro h0
        rw [h0, star_zero] at h
        exact h2 h

/-! ## the properties of the cascade -/

/-- **C45.**  At `-f` a cascade gives the complex conjugate of its value at `f`, or the same exception.  No condition on the
lists of roots: a real root that is not real is an `AssertionError` at both frequencies. -/
theorem C45_conjugate (c : Cascade F) {j f : F} (hj : star j = -j) (hf : star f = f) :
    c.filter_func j (-f) = (c.filter_func j f).map star := by
  rw [filter_eq, filter_eq]
  by_cases hr : (∀ r ∈ c.poles_r, star r = r) ∧ ∀ r ∈ c.zeros_r, star r = r
  · rw [if_pos hr, if_pos hr]
    by_cases h0 : (0 : F) ∈ c.zeros_r ++ c.zeros_c ++ c.poles_r ++ c.poles_c
    · rw [if_pos h0, if_pos h0]
      rfl
    · rw [if_neg h0, if_neg h0, poly_star hj hf hr.1, poly_star hj hf hr.2, pdiv_star]
  · rw [if_neg hr, if_neg hr]
    rfl

/-- **C45, the transfer function.**  A value is returned exactly when the real roots are real, no root is zero and
`i f` is not a pole, and it is the product of the zeros' factors `1 - i f / r` over the poles'; each complex root comes
with its conjugate. -/
theorem C45_value (c : Cascade F) (j f v : F) :
    c.filter_func j f = .ok v ↔
      (∀ r ∈ c.poles_r, star r = r) ∧ (∀ r ∈ c.zeros_r, star r = r) ∧
      (0 : F) ∉ c.zeros_r ++ c.zeros_c ++ c.poles_r ++ c.poles_c ∧
      ((c.poles_r ++ c.poles_c ++ c.poles_c.map star).map (fun r => 1 - j * f / r)).prod ≠ 0 ∧
      v = ((c.zeros_r ++ c.zeros_c ++ c.zeros_c.map star).map (fun r => 1 - j * f / r)).prod /
        ((c.poles_r ++ c.poles_c ++ c.poles_c.map star).map (fun r => 1 - j * f / r)).prod := by
  have hp : ∀ re cx : List F, ((re ++ cx ++ cx.map star).map (fun r => 1 - j * f / r)).prod = poly j f re cx := by
    intro re cx
    unfold poly
    rw [List.map_append, List.map_append, List.prod_append, List.prod_append, List.map_map, mul_assoc]
    congr 1
    induction cx with
    | nil => simp
    | cons a cx ih =>
      simp only [List.map_cons, List.prod_cons, Function.comp_apply] at ih ⊢
      rw [← ih]
      ring
  rw [hp, hp, filter_eq]
  by_cases hr : (∀ r ∈ c.poles_r, star r = r) ∧ ∀ r ∈ c.zeros_r, star r = r
  · rw [if_pos hr]
    by_cases h0 : (0 : F) ∈ c.zeros_r ++ c.zeros_c ++ c.poles_r ++ c.poles_c
    · rw [if_pos h0]
      exact ⟨fun h => (nomatch h), fun h => absurd h0 h.2.2.1⟩
    · rw [if_neg h0]
      by_cases hd : poly j f c.poles_r c.poles_c = 0
      · rw [hd, pdiv_zero]
        exact ⟨fun h => (nomatch h), fun h => absurd rfl h.2.2.2.1⟩
      · rw [pdiv_ne hd]
        constructor
        · intro h
          injection h with h
          exact ⟨hr.1, hr.2, h0, hd, h.symm⟩
        · rintro ⟨_, _, _, _, rfl⟩
          rfl
  · rw [if_neg hr]
    exact ⟨fun h => (nomatch h), fun h => absurd ⟨h.1, h.2.1⟩ hr⟩

/-- **C45, the zeros and the poles.**  For a cascade of nonzero roots with real real roots: the division fails exactly
when `i f` is a pole or the conjugate of a complex pole, and the value is zero exactly when, besides, `i f` is a zero or the
conjugate of a complex zero. -/
theorem C45_roots (c : Cascade F) (j f : F) (hp : ∀ r ∈ c.poles_r, star r = r) (hz : ∀ r ∈ c.zeros_r, star r = r)
    (h0 : (0 : F) ∉ c.zeros_r ++ c.zeros_c ++ c.poles_r ++ c.poles_c) :
    (c.filter_func j f = .error .zeroDivision ↔
      j * f ∈ c.poles_r ∨ j * f ∈ c.poles_c ∨ star (j * f) ∈ c.poles_c) ∧
    (c.filter_func j f = .ok 0 ↔
      ¬(j * f ∈ c.poles_r ∨ j * f ∈ c.poles_c ∨ star (j * f) ∈ c.poles_c) ∧
      (j * f ∈ c.zeros_r ∨ j * f ∈ c.zeros_c ∨ star (j * f) ∈ c.zeros_c)) := by
  have h0' := h0
  simp only [List.mem_append, not_or] at h0'
  obtain ⟨⟨⟨e1, e2⟩, e3⟩, e4⟩ := h0'
  rw [← poly_zero_iff e3 e4, ← poly_zero_iff e1 e2, filter_eq, if_pos ⟨hp, hz⟩, if_neg h0]
  by_cases hd : poly j f c.poles_r c.poles_c = 0
  · rw [hd, pdiv_zero]
    exact ⟨⟨fun _ => rfl, fun _ => rfl⟩, ⟨fun h => (nomatch h), fun h => absurd rfl h.1⟩⟩
  · rw [pdiv_ne hd]
    refine ⟨⟨fun h => (nomatch h), fun h => absurd h hd⟩, ?_⟩
    constructor
    · intro h
      injection h with h
      rcases div_eq_zero_iff.1 h with h | h
      · exact ⟨hd, h⟩
      · exact absurd h hd
    · rintro ⟨_, h⟩
      rw [h, zero_div]

/-- **C45, the gain at zero frequency** is one. -/
theorem C45_dc (c : Cascade F) (j : F) (hp : ∀ r ∈ c.poles_r, star r = r) (hz : ∀ r ∈ c.zeros_r, star r = r)
    (h0 : (0 : F) ∉ c.zeros_r ++ c.zeros_c ++ c.poles_r ++ c.poles_c) : c.filter_func j 0 = .ok 1 := by
  rw [C45_value]
  have h1 : ∀ l : List F, (l.map (fun r => 1 - j * 0 / r)).prod = 1 := by
    intro l
    induction l with
    | nil => rfl
    | cons a l ih => rw [List.map_cons, List.prod_cons, ih, mul_zero, zero_div, sub_zero, one_mul]
  rw [h1, h1]
  exact ⟨hp, hz, h0, one_ne_zero, by rw [div_one]⟩

theorem poly_append (j f : F) (re re' cx cx' : List F) :
    poly j f (re ++ re') (cx ++ cx') = poly j f re cx * poly j f re' cx' := by
  unfold poly
  rw [List.map_append, List.map_append, List.prod_append, List.prod_append]
  ring

/-- **C45, cascades.**  Joining the root lists of two filters that have values multiplies the values. -/
theorem C45_cascade (c d : Cascade F) (j f : F) {v w : F} (hc : c.filter_func j f = .ok v)
    (hd : d.filter_func j f = .ok w) :
    Cascade.filter_func ⟨c.zeros_r ++ d.zeros_r, c.zeros_c ++ d.zeros_c, c.poles_r ++ d.poles_r,
      c.poles_c ++ d.poles_c⟩ j f = .ok (v * w) := by
  have key : ∀ (c : Cascade F) {v : F}, c.filter_func j f = .ok v →
      ((∀ r ∈ c.poles_r, star r = r) ∧ (∀ r ∈ c.zeros_r, star r = r)) ∧
      (0 : F) ∉ c.zeros_r ++ c.zeros_c ++ c.poles_r ++ c.poles_c ∧
      poly j f c.poles_r c.poles_c ≠ 0 ∧ v = poly j f c.zeros_r c.zeros_c / poly j f c.poles_r c.poles_c := by
    intro c v h
    rw [filter_eq] at h
    split_ifs at h with h1 h2
    refine ⟨h1, h2, ?_⟩
    unfold pdiv at h
    split_ifs at h with h3
    injection h with h
    exact ⟨h3, h.symm⟩
  obtain ⟨⟨a1, a2⟩, a3, a4, rfl⟩ := key c hc
  obtain ⟨⟨b1, b2⟩, b3, b4, rfl⟩ := key d hd
  rw [filter_eq, if_pos, if_neg]
  · dsimp only
    rw [poly_append, poly_append, pdiv_ne (mul_ne_zero a4 b4), div_mul_div_comm]
  · simp only [List.mem_append, not_or] at a3 b3 ⊢
    exact ⟨⟨⟨⟨a3.1.1.1, b3.1.1.1⟩, a3.1.1.2, b3.1.1.2⟩, a3.1.2, b3.1.2⟩, a3.2, b3.2⟩
  · constructor
    · intro r hr
      rcases List.mem_append.1 hr with h | h
      · exact a1 r h
      · exact b1 r h
    · intro r hr
      rcases List.mem_append.1 hr with h | h
      · exact a2 r h
      · exact b2 r h

/-! ## rational filters and the other transfer functions -/

/-- Symbols that go with the conjugation: `j` and `i2pi` are imaginary, `exp` commutes with it and `abs` is real. -/
structure Sym.Real (sym : Sym F) : Prop where
  j : star sym.j = -sym.j
  i2pi : star sym.i2pi = -sym.i2pi
  exp : ∀ z, star (sym.exp z) = sym.exp (star z)
  abs : ∀ z, star (sym.abs z) = sym.abs z

theorem normalise_star (r : Rational F) {sym : Sym F} (hs : sym.Real) (x : F) :
    r.normalise sym (star x) = (r.normalise sym x).map star := by
  unfold Rational.normalise
  by_cases h : r.gain_F_Hz = 0
  · rw [if_neg (not_not.2 h), if_neg (not_not.2 h)]
    rfl
  · rw [if_pos h, if_pos h]
    cases r.cascade.filter_func sym.j r.gain_F_Hz with
    | error e => rfl
    | ok v =>
      show pdiv (star x) (sym.abs v) = (pdiv x (sym.abs v)).map star
      rw [← pdiv_star, hs.abs]

/-- **C57, real impulse response.**  A rational filter with a real gain and a real delay gives at `-f` the conjugate of its
value at `f`, or the same exception. -/
theorem C57_conjugate (r : Rational F) {sym : Sym F} (hs : sym.Real) {f : F} (hf : star f = f) (hg : star r.gain = r.gain)
    (hd : ∀ d, r.delay_s = some d → star d = d) :
    r.filter_func sym (-f) = (r.filter_func sym f).map star := by
  have hpre : r.pre sym (-f) = star (r.pre sym f) := by
    unfold Rational.pre
    cases h : r.delay_s with
    | none => exact hg.symm
    | some d =>
      show r.gain * sym.exp (-sym.i2pi * -f * d) = star (r.gain * sym.exp (-sym.i2pi * f * d))
      rw [star_mul', hg, hs.exp, star_mul', star_mul', star_neg, hs.i2pi, hf, hd d h]
      congr 2
      ring
  unfold Rational.filter_func
  rw [C45_conjugate r.cascade hs.j hf, hpre]
  cases r.cascade.filter_func sym.j f with
  | error e => rfl
  | ok v =>
    show r.normalise sym (star v * star (r.pre sym f)) = (r.normalise sym (v * r.pre sym f)).map star
    rw [← star_mul', normalise_star r hs]

/-- **C58, the mechanical resonance** obeys its equation of motion: with `s = i 2 pi f`, the response `x` to a unit force
satisfies `m (s^2 + 2 pi FWHM s + (2 pi f0)^2) x = 1`. -/
theorem C58_resonance (sym : Sym F) (pi m w c f x : F) (hj : sym.j ^ 2 = -1)
    (h : mech_resonance sym pi m w c f = .ok x) :
    m * ((2 * pi * sym.j * f) ^ 2 + 2 * pi * w * (2 * pi * sym.j * f) + (2 * pi * c) ^ 2) * x = 1 := by
  unfold mech_resonance at h
  by_cases h1 : m * (2 * pi) ^ 2 = 0
  · rw [h1, pdiv_zero] at h
    cases h
  rw [pdiv_ne h1, bind_ok'] at h
  by_cases h2 : -(f ^ 2) + sym.j * w * f + c ^ 2 = 0
  · rw [h2, pdiv_zero] at h
    cases h
  rw [pdiv_ne h2] at h
  injection h with h
  rw [← h]
  have e : m * ((2 * pi * sym.j * f) ^ 2 + 2 * pi * w * (2 * pi * sym.j * f) + (2 * pi * c) ^ 2) =
      (m * (2 * pi) ^ 2) * (-(f ^ 2) + sym.j * w * f + c ^ 2) := by
    linear_combination m * (2 * pi) ^ 2 * f ^ 2 * hj
  rw [e]
  generalize m * (2 * pi) ^ 2 = a at h1
  generalize -(f ^ 2) + sym.j * w * f + c ^ 2 = b at h2
  field_simp

/-- **C58, the integrator has the wrong sign.**  A frequency modulation `v` (in Hz) at `f` is the derivative over `2 pi` of
the phase `p`, `i f p = v`; the integrator gives a phase with `i f p = -v`. -/
theorem C58_integrator_refuted (sym : Sym F) {f p : F} (h : integrator sym f = .ok p) : sym.j * f * p = -1 := by
  unfold integrator at h
  by_cases h1 : -sym.j * f = 0
  · rw [h1, pdiv_zero] at h
    cases h
  rw [pdiv_ne h1] at h
  injection h with h
  have : sym.j * f ≠ 0 := fun h0 => h1 (by rw [neg_mul, h0, neg_zero])
  rw [← h, neg_mul]
  field_simp
  rw [div_self this]

/-- **C58, what holds of the integrator (partial).**  Away from zero frequency it returns a value, inversely proportional to
the frequency and conjugate at `-f`.  Missing: the sign. -/
theorem C58_integrator_partial (sym : Sym F) (hs : sym.Real) {f : F} (hf : star f = f) (hf0 : f ≠ 0) (hj : sym.j ≠ 0) :
    (∃ p, integrator sym f = .ok p) ∧ integrator sym (-f) = (integrator sym f).map star := by
  have h1 : -sym.j * f ≠ 0 := mul_ne_zero (neg_ne_zero.2 hj) hf0
  refine ⟨⟨_, pdiv_ne h1⟩, ?_⟩
  unfold integrator
  rw [← pdiv_star, star_one, star_mul', star_neg, hs.j, hf]
  congr 1
  ring

end Signal
