import Mathlib.Data.List.Perm.Basic
import Mathlib.Algebra.BigOperators.Group.List.Basic
import Verif.Signal.FilterComplex

/-!
# Zeros, poles and gains of control loops (C139)

Source: `/repo/phasor/signals/power_loops.py`.  `scipy.signal.cheby1` and `butter` are parameters.  `scipy.signal.freqresp` is the quotient of
the products over zeros and poles at `1j * w`.  A division by zero raises where numpy returns infinities and nan.
-/

namespace PowerLoops
open Py Inject Signal Complex

noncomputable section

/-! ## model -/

/-- `(z, p, k)`. -/
structure Zpk where
  z : List ℂ
  p : List ℂ
  k : ℂ

/-- `scipy.signal.freqresp((z, p, k), w)[1]`. -/
def freqresp (s : Zpk) (w : ℝ) : Except Err ℂ :=
  pdiv (s.k * (s.z.map (fun r => I * w - r)).prod) (s.p.map (fun r => I * w - r)).prod

/-- `zpk_mult`, l.173-183; `np.concatenate` of nothing raises. -/
def zpk_mult (zpks : List Zpk) : Except Err Zpk :=
  if zpks = [] then .error .valueError
  else .ok ⟨zpks.flatMap Zpk.z, zpks.flatMap Zpk.p, zpks.foldl (fun ks s => ks * s.k) 1⟩

/-- `zpk_div`, l.186-200. -/
def zpk_div (N D : Zpk) : Except Err Zpk := do
  let k ← pdiv (1 * N.k) D.k
  return ⟨N.z ++ D.p, N.p ++ D.z, k⟩

/-- `z.extend(zpk[1]); p.extend(zpk[0]); k = k / zpk[2]`, l.22-24. -/
def over (s t : Zpk) : Except Err Zpk := do
  let k ← pdiv s.k t.k
  return ⟨s.z ++ t.p, s.p ++ t.z, k⟩

/-- `z.extend(zpk[0]); p.extend(zpk[1]); k = k * zpk[2]`, l.59-61. -/
def times (s t : Zpk) : Zpk := ⟨s.z ++ t.z, s.p ++ t.p, s.k * t.k⟩

/-- The end of the four filters, l.31-40, l.73-82, l.120-129 and l.161-170. -/
def finish (F_center shift : ℝ) (s : Zpk) : Except Err Zpk := do
  let x ← pdiv (F_center : ℂ) shift
  let t : Zpk := ⟨s.z.map (fun r => x * r), s.p.map (fun r => x * r), x * s.k⟩
  let hd ← freqresp t F_center
  let k ← pdiv t.k (‖hd‖ : ℝ)
  return ⟨t.z, t.p, k⟩

/-- `scipy.signal`'s analog designs: `cheby1(N, rp, Wn)` and `butter(N, Wn)`. -/
structure Designs where
  cheby1 : Nat → ℝ → ℝ → Zpk
  butter : Nat → ℝ → Zpk

/-- `cheby_boost_7`, l.11-40. -/
def cheby_boost_7 (d : Designs) (F_center shift : ℝ) : Except Err Zpk := do
  let s ← over ⟨[], [], 1⟩ (d.cheby1 7 0.2 1)
  finish F_center shift ⟨s.z ++ [-1 + I], s.p ++ [-0.1 + I] ++ List.replicate 7 (-0.01), s.k⟩

/-- `ledge_controller`, l.43-82. -/
def ledge_controller (d : Designs) (F_center shift : ℝ) (N : Nat) : Except Err Zpk := do
  let s ← over ⟨[], [], 1⟩ (d.cheby1 N 0.3 1)
  let s ← over (times s (d.cheby1 (N + 2) 0.3 1)) (d.butter 2 2)
  finish F_center shift (times s (d.cheby1 1 1 3))

/-- `ledge_boost`, l.85-129. -/
def ledge_boost (d : Designs) (F_center shift : ℝ) (N : Nat) : Except Err Zpk := do
  let s ← over ⟨[], [], 1⟩ (d.cheby1 N 0.3 1)
  let s ← over (times s (d.cheby1 (N + 2) 0.3 1)) (d.butter 3 2)
  let s := times s (d.cheby1 1 1 3)
  finish F_center shift ⟨s.z ++ [-2.4 + 1.5 * I] ++ [-2.4 - 1.5 * I], s.p ++ [-1.2 + 1.5 * I] ++ [-1.2 - 1.5 * I], s.k⟩

/-- `cheby_boost`, l.132-170. -/
def cheby_boost (d : Designs) (F_center shift : ℝ) : Except Err Zpk := do
  let s ← over ⟨[], [], 1⟩ (d.cheby1 3 0.2 0.8)
  let s ← over s (d.cheby1 3 0.2 1)
  finish F_center shift ⟨s.z ++ [-0.7 + I] ++ [-0.7 - I], s.p ++ [-0.2 + I] ++ [-0.2 - I] ++ List.replicate 6 (-0.01), s.k⟩

/-- `sort_roots`, l.203-216; numpy divides by zero without raising, to an infinity or to nan, neither of which is small. -/
def sort_roots : List ℂ → List ℝ × List ℂ × List ℂ
  | [] => ([], [], [])
  | root :: l =>
    let s := sort_roots l
    if root.re ≠ 0 ∧ |root.im / root.re| < 1 / 10 ^ 8 then (root.re :: s.1, s.2.1, s.2.2)
    else if root.im > 0 then (s.1, root :: s.2.1, s.2.2)
    else (s.1, s.2.1, root :: s.2.2)

/-- `zpk2rcpz_dict`, l.219-233, but for its gain, which nothing uses. -/
def zpk2rcpz (s : Zpk) : Cascade ℂ :=
  ⟨(sort_roots s.z).1.map (fun x : ℝ => (x : ℂ)), (sort_roots s.z).2.1, (sort_roots s.p).1.map (fun x : ℝ => (x : ℂ)), (sort_roots s.p).2.1⟩

/-- `zpk_convert`, l.255-267, to `'SRationalFilter'`, and the filter with these arguments (its delay is zero). -/
def zpk_convert (UGF : ℝ) (s : Zpk) : Rational ℂ := ⟨zpk2rcpz s, -1, some 0, UGF⟩

/-- `controller_20x1e9`, l.294-313, with `out = 'zpk'`. -/
def controller_20x1e9 (d : Designs) (UGF : ℝ) : Except Err Zpk := do
  let c ← ledge_controller d UGF 20 3
  let b1 ← ledge_boost d UGF 20 3
  let b2 ← ledge_boost d UGF 20 3
  let b3 ← ledge_boost d UGF 20 3
  let b4 ← ledge_boost d UGF 25 3
  let b5 ← ledge_boost d UGF 25 3
  let b6 ← ledge_boost d UGF 25 3
  zpk_mult [c, b1, b2, b3, b4, b5, b6, ⟨[-UGF], [-0.001], -0.7⟩,
    ⟨[-UGF * 3], [-UGF * 3 - 3 * I * UGF, -UGF * 3 + 3 * I * UGF], 3000⟩]

/-- `shift_to`, l.375-383. -/
def shift_to (s : Zpk) (to_freq : ℝ) : Zpk :=
  ⟨s.z.map (fun z => z + to_freq * I) ++ (s.z.map (fun z => z + to_freq * I)).map (starRingEnd ℂ) ++ [-(to_freq : ℂ) / 2],
   s.p.map (fun p => p + to_freq * I) ++ (s.p.map (fun p => p + to_freq * I)).map (starRingEnd ℂ) ++ [-(to_freq : ℂ) * 0.8], s.k ^ 2⟩

/-! ## responses -/

theorem ok_bind {α β : Type} (a : α) (f : α → Except Err β) : ((Except.ok a : Except Err α) >>= f) = f a := rfl

theorem bind_inv {α β : Type} {x : Except Err α} {f : α → Except Err β} {b : β} (h : (x >>= f) = .ok b) : ∃ a, x = .ok a ∧ f a = .ok b := by
  cases x with
  | error e => cases h
  | ok a => exact ⟨a, rfl, h⟩

theorem pdiv_iff {a b c : ℂ} : pdiv a b = .ok c ↔ b ≠ 0 ∧ c = a / b := by
  constructor
  · intro h
    by_cases hb : b = 0
    · rw [hb, pdiv_zero] at h
      cases h
    · rw [pdiv_ne hb] at h
      injection h with h
      exact ⟨hb, h.symm⟩
  · rintro ⟨hb, rfl⟩
    exact pdiv_ne hb

/-- The response: a product over the zeros over a product over the poles. -/
theorem freqresp_iff {s : Zpk} {w : ℝ} {h : ℂ} : freqresp s w = .ok h ↔ (s.p.map (fun r => I * w - r)).prod ≠ 0 ∧
    h = s.k * (s.z.map (fun r => I * w - r)).prod / (s.p.map (fun r => I * w - r)).prod := pdiv_iff

theorem foldl_gain (l : List Zpk) : ∀ a : ℂ, l.foldl (fun ks s => ks * s.k) a = a * (l.map Zpk.k).prod := by
  induction l with
  | nil => intro a; simp
  | cons s l ih =>
    intro a
    rw [List.foldl_cons, ih, List.map_cons, List.prod_cons, mul_assoc]

/-- **C139, products.**  The response of a product is the product of the responses. -/
theorem C139_mult {ss : List Zpk} {t : Zpk} (h : zpk_mult ss = .ok t) {w : ℝ} {hs : List ℂ}
    (hr : List.Forall₂ (fun s x => freqresp s w = .ok x) ss hs) : freqresp t w = .ok hs.prod := by
  unfold zpk_mult at h
  split_ifs at h with h0
  injection h with h
  subst h
  rw [foldl_gain, one_mul, freqresp_iff]
  clear h0
  show ((ss.flatMap Zpk.p).map (fun r => I * w - r)).prod ≠ 0 ∧ hs.prod =
    (ss.map Zpk.k).prod * ((ss.flatMap Zpk.z).map (fun r => I * w - r)).prod / ((ss.flatMap Zpk.p).map (fun r => I * w - r)).prod
  induction hr with
  | nil => simp
  | @cons s x ss hs hsx _ ih =>
    obtain ⟨h1, h2⟩ := freqresp_iff.1 hsx
    obtain ⟨i1, i2⟩ := ih
    rw [List.flatMap_cons, List.flatMap_cons, List.map_append, List.map_append, List.prod_append, List.prod_append, List.prod_cons,
      List.map_cons, List.prod_cons, i2, h2]
    refine ⟨mul_ne_zero h1 i1, ?_⟩
    field_simp

/-- A product of something is there. -/
theorem C139_mult_ok {ss : List Zpk} (h : ss ≠ []) : ∃ t, zpk_mult ss = .ok t := ⟨_, if_neg h⟩

/-- **C139, quotients.**  The response of a quotient is the quotient of the responses, where that of the divisor is not zero. -/
theorem C139_div {N D : Zpk} {w : ℝ} {n d : ℂ} (hN : freqresp N w = .ok n) (hD : freqresp D w = .ok d) (hd : d ≠ 0) :
    ∃ t, zpk_div N D = .ok t ∧ freqresp t w = .ok (n / d) := by
  obtain ⟨n1, n2⟩ := freqresp_iff.1 hN
  obtain ⟨d1, d2⟩ := freqresp_iff.1 hD
  have hk : D.k ≠ 0 := fun h0 => hd (by rw [d2, h0, zero_mul, zero_div])
  have hz : (D.z.map (fun r => I * w - r)).prod ≠ 0 := fun h0 => hd (by rw [d2, h0, mul_zero, zero_div])
  refine ⟨⟨N.z ++ D.p, N.p ++ D.z, 1 * N.k / D.k⟩, ?_, ?_⟩
  · unfold zpk_div
    rw [pdiv_ne hk]
    rfl
  · rw [freqresp_iff]
    show ((N.p ++ D.z).map (fun r => I * (w : ℂ) - r)).prod ≠ 0 ∧ n / d = 1 * N.k / D.k * ((N.z ++ D.p).map (fun r => I * (w : ℂ) - r)).prod /
      ((N.p ++ D.z).map (fun r => I * (w : ℂ) - r)).prod
    rw [List.map_append, List.map_append, List.prod_append, List.prod_append, n2, d2]
    refine ⟨mul_ne_zero n1 hz, ?_⟩
    field_simp

/-! ## filters of gain one -/

theorem finish_inv {F_center shift : ℝ} {s t : Zpk} (h : finish F_center shift s = .ok t) :
    ∃ x hd : ℂ, (shift : ℂ) ≠ 0 ∧ x = F_center / shift ∧
      freqresp ⟨s.z.map (fun r => x * r), s.p.map (fun r => x * r), x * s.k⟩ F_center = .ok hd ∧ hd ≠ 0 ∧
      t = ⟨s.z.map (fun r => x * r), s.p.map (fun r => x * r), x * s.k / (‖hd‖ : ℝ)⟩ := by
  unfold finish at h
  obtain ⟨x, hx, h⟩ := bind_inv h
  obtain ⟨hd, hhd, h⟩ := bind_inv h
  obtain ⟨k, hk, h⟩ := bind_inv h
  obtain ⟨x1, x2⟩ := pdiv_iff.1 hx
  obtain ⟨k1, rfl⟩ := pdiv_iff.1 hk
  injection h with h
  refine ⟨x, hd, x1, x2, hhd, fun h0 => k1 (by rw [h0]; simp), h.symm⟩

theorem gain_apart {z p : List ℂ} {k c : ℂ} {w : ℝ} {h : ℂ} (hr : freqresp ⟨z, p, k⟩ w = .ok h) : freqresp ⟨z, p, k / c⟩ w = .ok (h / c) := by
  obtain ⟨h1, h2⟩ := freqresp_iff.1 hr
  refine freqresp_iff.2 ⟨h1, ?_⟩
  rw [h2]
  show k * _ / _ / c = k / c * _ / _
  rw [div_mul_eq_mul_div, div_right_comm]

theorem finish_unity {F_center shift : ℝ} {s t : Zpk} (h : finish F_center shift s = .ok t) :
    ∃ x, freqresp t F_center = .ok x ∧ ‖x‖ = 1 := by
  obtain ⟨x, hd, -, -, h1, h2, rfl⟩ := finish_inv h
  refine ⟨_, gain_apart h1, ?_⟩
  rw [norm_div, Complex.norm_real, norm_norm]
  exact div_self (norm_ne_zero_iff.2 h2)

/-- **C139, gain one.**  The four filters have gain one at `F_center`, whatever the designs they are made of. -/
theorem C139_unity (d : Designs) (F_center shift : ℝ) (N : Nat) (t : Zpk) :
    (cheby_boost_7 d F_center shift = .ok t ∨ ledge_controller d F_center shift N = .ok t ∨ ledge_boost d F_center shift N = .ok t ∨
      cheby_boost d F_center shift = .ok t) → ∃ x, freqresp t F_center = .ok x ∧ ‖x‖ = 1 := by
  rintro (h | h | h | h)
  · obtain ⟨s, -, h⟩ := bind_inv h
    exact finish_unity h
  · obtain ⟨s, -, h⟩ := bind_inv h
    obtain ⟨s', -, h⟩ := bind_inv h
    exact finish_unity h
  · obtain ⟨s, -, h⟩ := bind_inv h
    obtain ⟨s', -, h⟩ := bind_inv h
    exact finish_unity h
  · obtain ⟨s, -, h⟩ := bind_inv h
    obtain ⟨s', -, h⟩ := bind_inv h
    exact finish_unity h

theorem prod_scale (x : ℂ) (w : ℂ) : ∀ l : List ℂ, ((l.map (fun r => x * r)).map (fun r => x * w - r)).prod =
    x ^ l.length * (l.map (fun r => w - r)).prod
  | [] => by simp
  | r :: l => by
    rw [List.map_cons, List.map_cons, List.prod_cons, prod_scale x w l, List.map_cons, List.prod_cons, List.length_cons, pow_succ]
    ring

/-- **C139, shape.**  The filter for one `F_center` has the shape of the filter for any other: its response at `F_center / shift` times a
frequency is a constant times the response there of the filter it is made of. -/
theorem C139_scale {F_center shift : ℝ} {s t : Zpk} (hF : F_center ≠ 0) (h : finish F_center shift s = .ok t) :
    ∃ c : ℂ, c ≠ 0 ∧ ∀ (w : ℝ) (x : ℂ), freqresp s w = .ok x → freqresp t (F_center / shift * w) = .ok (c * x) := by
  obtain ⟨x, hd, hs, hx, h1, h2, rfl⟩ := finish_inv h
  have hx0 : x ≠ 0 := by
    rw [hx]
    exact div_ne_zero (by exact_mod_cast hF) hs
  have hn : ((‖hd‖ : ℝ) : ℂ) ≠ 0 := by
    exact_mod_cast norm_ne_zero_iff.2 h2
  refine ⟨x ^ s.z.length / x ^ s.p.length * (x / (‖hd‖ : ℝ)), ?_, ?_⟩
  · have := pow_ne_zero s.z.length hx0
    have := pow_ne_zero s.p.length hx0
    positivity
  · intro w y hy
    obtain ⟨y1, y2⟩ := freqresp_iff.1 hy
    have hw : (I * ((F_center / shift * w : ℝ) : ℂ)) = x * (I * w) := by
      rw [hx]
      push_cast
      ring
    rw [freqresp_iff]
    show ((s.p.map (fun r => x * r)).map (fun r => I * ((F_center / shift * w : ℝ) : ℂ) - r)).prod ≠ 0 ∧ _ = x * s.k / (‖hd‖ : ℝ) *
      ((s.z.map (fun r => x * r)).map (fun r => I * ((F_center / shift * w : ℝ) : ℂ) - r)).prod /
      ((s.p.map (fun r => x * r)).map (fun r => I * ((F_center / shift * w : ℝ) : ℂ) - r)).prod
    rw [hw, prod_scale, prod_scale]
    have hp := pow_ne_zero s.p.length hx0
    refine ⟨mul_ne_zero hp y1, ?_⟩
    rw [y2]
    field_simp

/-! ## the gain of a controller -/

/-- **C139, the gain of a controller.**  The gain at `UGF` of `controller_20x1e9` is that of its last two factors only. -/
theorem C139_controller_partial {d : Designs} {U : ℝ} (hU : U ≠ 0) {t : Zpk} (h : controller_20x1e9 d U = .ok t) :
    ∃ x, freqresp t U = .ok x ∧ ‖x‖ ^ 2 = 0.98 * U ^ 2 / (U ^ 2 + 0.001 ^ 2) * (9 * 10 ^ 7 / (325 * U ^ 2)) := by
  unfold controller_20x1e9 at h
  obtain ⟨c, hc, h⟩ := bind_inv h
  obtain ⟨b1, hb1, h⟩ := bind_inv h
  obtain ⟨b2, hb2, h⟩ := bind_inv h
  obtain ⟨b3, hb3, h⟩ := bind_inv h
  obtain ⟨b4, hb4, h⟩ := bind_inv h
  obtain ⟨b5, hb5, h⟩ := bind_inv h
  obtain ⟨b6, hb6, h⟩ := bind_inv h
  obtain ⟨xc, c1, c2⟩ := C139_unity d U 20 3 c (Or.inr (Or.inl hc))
  obtain ⟨x1, e1, n1⟩ := C139_unity d U 20 3 b1 (Or.inr (Or.inr (Or.inl hb1)))
  obtain ⟨x2, e2, n2⟩ := C139_unity d U 20 3 b2 (Or.inr (Or.inr (Or.inl hb2)))
  obtain ⟨x3, e3, n3⟩ := C139_unity d U 20 3 b3 (Or.inr (Or.inr (Or.inl hb3)))
  obtain ⟨x4, e4, n4⟩ := C139_unity d U 25 3 b4 (Or.inr (Or.inr (Or.inl hb4)))
  obtain ⟨x5, e5, n5⟩ := C139_unity d U 25 3 b5 (Or.inr (Or.inr (Or.inl hb5)))
  obtain ⟨x6, e6, n6⟩ := C139_unity d U 25 3 b6 (Or.inr (Or.inr (Or.inl hb6)))
  have q7 : I * (U : ℂ) - (-0.001) ≠ 0 := fun h0 => by
    have := congrArg Complex.im h0
    simp at this
    exact hU this
  have q8 : (I * (U : ℂ) - (-U * 3 - 3 * I * U)) ≠ 0 := fun h0 => by
    have := congrArg Complex.re h0
    simp at this
    exact hU this
  have q9 : (I * (U : ℂ) - (-U * 3 + 3 * I * U)) ≠ 0 := fun h0 => by
    have := congrArg Complex.re h0
    simp at this
    exact hU this
  have e7 : freqresp ⟨[-(U : ℂ)], [-0.001], -0.7⟩ U = .ok (-0.7 * (I * U - -U) / (I * U - -0.001)) := by
    refine freqresp_iff.2 ⟨?_, ?_⟩
    · simpa using q7
    · simp
  have e8 : freqresp ⟨[-(U : ℂ) * 3], [-U * 3 - 3 * I * U, -U * 3 + 3 * I * U], 3000⟩ U =
      .ok (3000 * (I * U - -U * 3) / ((I * U - (-U * 3 - 3 * I * U)) * (I * U - (-U * 3 + 3 * I * U)))) := by
    refine freqresp_iff.2 ⟨?_, ?_⟩
    · rw [List.map_cons, List.map_cons, List.map_nil, List.prod_cons, List.prod_singleton]
      exact mul_ne_zero q8 q9
    · simp
  refine ⟨_, C139_mult h (hs := [xc, x1, x2, x3, x4, x5, x6, _, _]) (by
    repeat' constructor
    all_goals first | exact c1 | exact e1 | exact e2 | exact e3 | exact e4 | exact e5 | exact e6 | exact e7 | exact e8), ?_⟩
  simp only [List.prod_cons, List.prod_nil, mul_one, norm_mul, norm_div, c2, n1, n2, n3, n4, n5, n6, one_mul]
  have sq : ∀ z : ℂ, ‖z‖ ^ 2 = z.re ^ 2 + z.im ^ 2 := by
    intro z
    rw [← Complex.normSq_eq_norm_sq, Complex.normSq_apply]
    ring
  have s1 : ‖(-0.7 : ℂ)‖ ^ 2 = 0.49 := by rw [sq]; norm_num
  have s2 : ‖I * (U : ℂ) - -U‖ ^ 2 = 2 * U ^ 2 := by rw [sq]; simp; ring
  have s3 : ‖I * (U : ℂ) - -0.001‖ ^ 2 = U ^ 2 + 0.001 ^ 2 := by rw [sq]; simp; norm_num; ring
  have s4 : ‖(3000 : ℂ)‖ ^ 2 = 9 * 10 ^ 6 := by rw [sq]; norm_num
  have s5 : ‖I * (U : ℂ) - -U * 3‖ ^ 2 = 10 * U ^ 2 := by rw [sq]; simp; ring
  have s6 : ‖I * (U : ℂ) - (-U * 3 - 3 * I * U)‖ ^ 2 = 25 * U ^ 2 := by rw [sq]; simp; ring
  have s7 : ‖I * (U : ℂ) - (-U * 3 + 3 * I * U)‖ ^ 2 = 13 * U ^ 2 := by rw [sq]; simp; ring
  have : (‖(-0.7 : ℂ)‖ * ‖I * (U : ℂ) - -U‖ / ‖I * (U : ℂ) - -0.001‖ *
      (‖(3000 : ℂ)‖ * ‖I * (U : ℂ) - -U * 3‖ / (‖I * (U : ℂ) - (-U * 3 - 3 * I * U)‖ * ‖I * (U : ℂ) - (-U * 3 + 3 * I * U)‖))) ^ 2 =
      ‖(-0.7 : ℂ)‖ ^ 2 * ‖I * (U : ℂ) - -U‖ ^ 2 / ‖I * (U : ℂ) - -0.001‖ ^ 2 *
      (‖(3000 : ℂ)‖ ^ 2 * ‖I * (U : ℂ) - -U * 3‖ ^ 2 / (‖I * (U : ℂ) - (-U * 3 - 3 * I * U)‖ ^ 2 * ‖I * (U : ℂ) - (-U * 3 + 3 * I * U)‖ ^ 2)) := by
    ring
  rw [this, s1, s2, s3, s4, s5, s6, s7]
  have hU2 : U ^ 2 ≠ 0 := pow_ne_zero 2 hU
  field_simp
  norm_num

/-- **C139, `UGF` is not a unity gain frequency** (refuted): at `UGF = 1` the gain is more than 500. -/
theorem C139_unity_gain_refuted (d : Designs) (t : Zpk) (h : controller_20x1e9 d 1 = .ok t) : ∃ x, freqresp t 1 = .ok x ∧ 500 < ‖x‖ := by
  obtain ⟨x, h1, h2⟩ := C139_controller_partial one_ne_zero h
  refine ⟨x, h1, ?_⟩
  by_contra hn
  have : ‖x‖ ^ 2 ≤ 500 ^ 2 := pow_le_pow_left₀ (norm_nonneg x) (not_lt.1 hn) 2
  rw [h2] at this
  norm_num at this

/-! ## conversion -/

/-- The roots come in conjugate pairs, none is zero and none is almost real. -/
structure Paired (l : List ℂ) : Prop where
  conj : (l.map (starRingEnd ℂ)).Perm l
  ne : ∀ r ∈ l, r ≠ 0
  far : ∀ r ∈ l, r.im = 0 ∨ r.re = 0 ∨ 1 / 10 ^ 8 ≤ |r.im / r.re|

theorem sort_eq {l : List ℂ} (hne : ∀ r ∈ l, r ≠ 0) (hfar : ∀ r ∈ l, r.im = 0 ∨ r.re = 0 ∨ 1 / 10 ^ 8 ≤ |r.im / r.re|) :
    (sort_roots l).1.map (fun x : ℝ => (x : ℂ)) = l.filter (fun r => r.im = 0) ∧ (sort_roots l).2.1 = l.filter (fun r => 0 < r.im) ∧
      (sort_roots l).2.2 = l.filter (fun r => r.im < 0) := by
  induction l with
  | nil => exact ⟨rfl, rfl, rfl⟩
  | cons r l ih =>
    obtain ⟨i1, i2, i3⟩ := ih (fun q hq => hne q (List.mem_cons_of_mem _ hq)) (fun q hq => hfar q (List.mem_cons_of_mem _ hq))
    have hr := hne r List.mem_cons_self
    have hf := hfar r List.mem_cons_self
    unfold sort_roots
    rcases lt_trichotomy r.im 0 with him | him | him
    · have hc : ¬ (r.re ≠ 0 ∧ |r.im / r.re| < 1 / 10 ^ 8) := by
        rintro ⟨a, b⟩
        rcases hf with h | h | h
        · exact him.ne h
        · exact a h
        · exact absurd b (not_lt.2 h)
      simp only [if_neg hc, if_neg (not_lt.2 him.le), gt_iff_lt]
      refine ⟨?_, ?_, ?_⟩
      · rw [List.filter_cons_of_neg (by simpa using him.ne), i1]
      · rw [List.filter_cons_of_neg (by simpa using him.le), i2]
      · rw [List.filter_cons_of_pos (by simpa using him), i3]
    · have hre : r.re ≠ 0 := fun h0 => hr (Complex.ext h0 him)
      have hc : r.re ≠ 0 ∧ |r.im / r.re| < 1 / 10 ^ 8 := ⟨hre, by rw [him, zero_div, abs_zero]; positivity⟩
      simp only [if_pos hc]
      refine ⟨?_, ?_, ?_⟩
      · rw [List.filter_cons_of_pos (by simpa using him), List.map_cons, i1]
        congr 1
        exact Complex.ext rfl him.symm
      · rw [List.filter_cons_of_neg (by simpa using him.le), i2]
      · rw [List.filter_cons_of_neg (by simpa using him.ge), i3]
    · have hc : ¬ (r.re ≠ 0 ∧ |r.im / r.re| < 1 / 10 ^ 8) := by
        rintro ⟨a, b⟩
        rcases hf with h | h | h
        · exact him.ne' h
        · exact a h
        · exact absurd b (not_lt.2 h)
      simp only [if_neg hc, gt_iff_lt, if_pos him]
      refine ⟨?_, ?_, ?_⟩
      · rw [List.filter_cons_of_neg (by simpa using him.ne'), i1]
      · rw [List.filter_cons_of_pos (by simpa using him), i2]
      · rw [List.filter_cons_of_neg (by simpa using him.le), i3]

theorem filter_three (l : List ℂ) :
    (l.filter (fun r => r.im = 0) ++ l.filter (fun r => 0 < r.im) ++ l.filter (fun r => r.im < 0)).Perm l := by
  induction l with
  | nil => exact List.Perm.refl _
  | cons r l ih =>
    rcases lt_trichotomy r.im 0 with him | him | him
    · rw [List.filter_cons_of_neg (by simpa using him.ne), List.filter_cons_of_neg (by simpa using him.le),
        List.filter_cons_of_pos (by simpa using him)]
      exact List.perm_middle.trans (ih.cons r)
    · rw [List.filter_cons_of_pos (by simpa using him), List.filter_cons_of_neg (by simpa using him.le),
        List.filter_cons_of_neg (by simpa using him.ge)]
      exact ih.cons r
    · rw [List.filter_cons_of_neg (by simpa using him.ne'), List.filter_cons_of_pos (by simpa using him),
        List.filter_cons_of_neg (by simpa using him.le), List.append_assoc, List.cons_append]
      exact List.perm_middle.trans ((List.append_assoc _ _ _ ▸ ih).cons r)

/-- **C139, roots.**  Of paired roots the real ones, those above the axis and the conjugates of these are all. -/
theorem C139_sorted {l : List ℂ} (h : Paired l) :
    ((sort_roots l).1.map (fun x : ℝ => (x : ℂ)) ++ (sort_roots l).2.1 ++ (sort_roots l).2.1.map star).Perm l := by
  obtain ⟨i1, i2, -⟩ := sort_eq h.ne h.far
  rw [i1, i2]
  refine List.Perm.trans ?_ (filter_three l)
  refine List.Perm.append_left _ ?_
  have : (l.filter (fun r => 0 < r.im)).map star = (l.map (starRingEnd ℂ)).filter (fun r => r.im < 0) := by
    rw [List.filter_map]
    show (l.filter _).map (starRingEnd ℂ) = _
    congr 1
    refine List.filter_congr fun r _ => ?_
    simp
  rw [this]
  exact h.conj.filter _

theorem prod_neg (w : ℂ) : ∀ l : List ℂ, (∀ r ∈ l, r ≠ 0) →
    (l.map (fun r => I * w - r)).prod = (l.map (fun r => -r)).prod * (l.map (fun r => 1 - I * w / r)).prod
  | [], _ => by simp
  | r :: l, h => by
    have hr := h r List.mem_cons_self
    rw [List.map_cons, List.prod_cons, prod_neg w l (fun q hq => h q (List.mem_cons_of_mem _ hq)), List.map_cons, List.prod_cons,
      List.map_cons, List.prod_cons]
    have : I * w - r = -r * (1 - I * w / r) := by
      field_simp
      ring
    rw [this]
    ring

theorem prod_neg_ne {l : List ℂ} (h : ∀ r ∈ l, r ≠ 0) : (l.map (fun r => -r)).prod ≠ 0 := by
  rw [Ne, List.prod_eq_zero_iff, List.mem_map]
  rintro ⟨r, hr, h0⟩
  exact h r hr (neg_eq_zero.1 h0)

/-- The gain at zero frequency. -/
def dc (s : Zpk) : ℂ := s.k * (s.z.map (fun r => -r)).prod / (s.p.map (fun r => -r)).prod

theorem cascade_value {s : Zpk} (hz : Paired s.z) (hp : Paired s.p) {w : ℝ} {h : ℂ} (hr : freqresp s w = .ok h) :
    ∃ v, (zpk2rcpz s).filter_func I w = .ok v ∧ h = dc s * v := by
  obtain ⟨h1, h2⟩ := freqresp_iff.1 hr
  have hsz := C139_sorted hz
  have hsp := C139_sorted hp
  have hpz := (hsz.map (fun r => 1 - I * (w : ℂ) / r)).prod_eq
  have hpp := (hsp.map (fun r => 1 - I * (w : ℂ) / r)).prod_eq
  have hdz := prod_neg_ne hz.ne
  have hdp := prod_neg_ne hp.ne
  rw [prod_neg _ _ hp.ne] at h1
  have hq := right_ne_zero_of_mul h1
  refine ⟨_, (C45_value (zpk2rcpz s) I w _).2 ⟨?_, ?_, ?_, ?_, rfl⟩, ?_⟩
  · intro r hr'
    obtain ⟨x, -, rfl⟩ := List.mem_map.1 hr'
    exact Complex.conj_ofReal x
  · intro r hr'
    obtain ⟨x, -, rfl⟩ := List.mem_map.1 hr'
    exact Complex.conj_ofReal x
  · intro h0
    have hz0 : ∀ r, r ∈ (sort_roots s.z).1.map (fun x : ℝ => (x : ℂ)) ++ (sort_roots s.z).2.1 → r ≠ 0 := fun r hr' =>
      hz.ne r (hsz.subset (List.mem_append_left _ hr'))
    have hp0 : ∀ r, r ∈ (sort_roots s.p).1.map (fun x : ℝ => (x : ℂ)) ++ (sort_roots s.p).2.1 → r ≠ 0 := fun r hr' =>
      hp.ne r (hsp.subset (List.mem_append_left _ hr'))
    rw [List.append_assoc] at h0
    rcases List.mem_append.1 h0 with h0 | h0
    · exact hz0 0 h0 rfl
    · exact hp0 0 h0 rfl
  · exact hpp ▸ hq
  · show h = dc s * (List.prod (List.map _ ((sort_roots s.z).1.map (fun x : ℝ => (x : ℂ)) ++ (sort_roots s.z).2.1 ++ (sort_roots s.z).2.1.map star)) /
      List.prod (List.map _ ((sort_roots s.p).1.map (fun x : ℝ => (x : ℂ)) ++ (sort_roots s.p).2.1 ++ (sort_roots s.p).2.1.map star)))
    rw [hpz, hpp, h2, prod_neg _ _ hz.ne, prod_neg _ _ hp.ne]
    unfold dc
    field_simp

theorem dc_real {s : Zpk} (hz : Paired s.z) (hp : Paired s.p) (hk : (starRingEnd ℂ) s.k = s.k) : (starRingEnd ℂ) (dc s) = dc s := by
  have key : ∀ l : List ℂ, Paired l → (starRingEnd ℂ) (l.map (fun r => -r)).prod = (l.map (fun r => -r)).prod := by
    intro l hl
    have := (hl.conj.map (fun r => -r)).prod_eq
    rw [List.map_map] at this
    rw [map_list_prod, List.map_map, ← this]
    congr 2
  unfold dc
  rw [map_div₀, map_mul, hk, key _ hz, key _ hp]

/-- **C139, the filter of a controller.**  From paired roots and a real gain the filter with the converted arguments has, up to a sign that is
the same at all frequencies, the response over its magnitude at `UGF`. -/
theorem C139_convert {s : Zpk} (hz : Paired s.z) (hp : Paired s.p) (hk : (starRingEnd ℂ) s.k = s.k) {UGF : ℝ} (hU : UGF ≠ 0) {g : ℂ}
    (hg : freqresp s UGF = .ok g) (hg0 : g ≠ 0) :
    ∃ e : ℝ, (e = 1 ∨ e = -1) ∧ 0 < -e * (dc s).re ∧ ∀ (w : ℝ) (h : ℂ), freqresp s w = .ok h →
      (zpk_convert UGF s).filter_func csym w = .ok (e * h / (‖g‖ : ℝ)) := by
  obtain ⟨v, hv, hgv⟩ := cascade_value hz hp hg
  have hd0 : dc s ≠ 0 := left_ne_zero_of_mul (hgv ▸ hg0)
  have hv0 : v ≠ 0 := right_ne_zero_of_mul (hgv ▸ hg0)
  obtain ⟨x, hx⟩ : ∃ x : ℝ, dc s = x := ⟨(dc s).re, (Complex.conj_eq_iff_re.1 (dc_real hz hp hk)).symm⟩
  have hx0 : x ≠ 0 := fun h0 => hd0 (by rw [hx, h0, ofReal_zero])
  have main : ∀ e : ℝ, -e * x = |x| → ∀ (w : ℝ) (h : ℂ), freqresp s w = .ok h →
      (zpk_convert UGF s).filter_func csym w = .ok (e * h / (‖g‖ : ℝ)) := by
    intro e he w h hh
    obtain ⟨u, hu, hhu⟩ := cascade_value hz hp hh
    unfold Rational.filter_func
    have hUc : (zpk_convert UGF s).gain_F_Hz ≠ 0 := by
      show ((UGF : ℝ) : ℂ) ≠ 0
      exact_mod_cast hU
    have hno : ∀ y, (zpk_convert UGF s).normalise csym y = ((zpk2rcpz s).filter_func I UGF >>= fun y' => pdiv y (csym.abs y')) :=
      fun y => if_pos hUc
    simp only [hno]
    show ((zpk2rcpz s).filter_func I w >>= fun y => (zpk2rcpz s).filter_func I UGF >>= fun y' =>
      pdiv (y * (zpk_convert UGF s).pre csym w) (csym.abs y')) = _
    rw [hu, hv]
    show pdiv (u * (-1 * Complex.exp (-(2 * Real.pi * I) * w * 0))) ((‖v‖ : ℝ) : ℂ) = _
    have hvn : ((‖v‖ : ℝ) : ℂ) ≠ 0 := by exact_mod_cast norm_ne_zero_iff.2 hv0
    rw [pdiv_ne hvn, mul_zero, Complex.exp_zero, mul_one, hhu, hgv, hx, norm_mul, Complex.norm_real, Real.norm_eq_abs, ← he]
    push_cast
    have hxc : (x : ℂ) ≠ 0 := by exact_mod_cast hx0
    have hec : (e : ℂ) ≠ 0 := by
      intro h0
      have : e = 0 := by exact_mod_cast h0
      rw [this, neg_zero, zero_mul] at he
      exact hx0 (abs_eq_zero.1 he.symm)
    congr 1
    field_simp
  rcases lt_or_gt_of_ne hx0 with hneg | hpos
  · refine ⟨1, Or.inl rfl, ?_, main 1 (by rw [abs_of_neg hneg]; ring)⟩
    rw [hx, ofReal_re]
    linarith
  · refine ⟨-1, Or.inr rfl, ?_, main (-1) (by rw [abs_of_pos hpos]; ring)⟩
    rw [hx, ofReal_re]
    linarith

/-- **C139, lost roots** (refuted): a root at the origin or a single one below the real axis is lost, so a differentiator and a constant make
the same filter; a single one above the axis gets a partner. -/
theorem C139_lost_refuted (UGF : ℝ) : zpk_convert UGF ⟨[0], [], 1⟩ = zpk_convert UGF ⟨[], [], 1⟩ ∧
    zpk_convert UGF ⟨[-1 - I], [], 1⟩ = zpk_convert UGF ⟨[], [], 1⟩ ∧
    zpk_convert UGF ⟨[-1 + I], [], 1⟩ = zpk_convert UGF ⟨[-1 + I, -1 - I], [], 1⟩ := by
  refine ⟨?_, ?_, ?_⟩
  all_goals
    unfold zpk_convert zpk2rcpz
    simp [sort_roots]
  all_goals norm_num

/-- **C139, moved filters.**  `shift_to` a frequency makes the product of the response moved up and that moved down, with one more zero and pole. -/
theorem C139_shift {s : Zpk} (hk : (starRingEnd ℂ) s.k = s.k) {f w : ℝ} (hf : f ≠ 0) {a b : ℂ}
    (ha : freqresp s (w - f) = .ok a) (hb : freqresp s (-w - f) = .ok b) :
    freqresp (shift_to s f) w = .ok (a * (starRingEnd ℂ) b * (I * w + f / 2) / (I * w + 0.8 * f)) := by
  obtain ⟨a1, a2⟩ := freqresp_iff.1 ha
  obtain ⟨b1, b2⟩ := freqresp_iff.1 hb
  have up : ∀ l : List ℂ, ((l.map (fun z => z + f * I)).map (fun r => I * (w : ℂ) - r)).prod = (l.map (fun r => I * ((w - f : ℝ) : ℂ) - r)).prod := by
    intro l
    rw [List.map_map]
    congr 2
    funext r
    show I * (w : ℂ) - (r + f * I) = _
    push_cast
    ring
  have down : ∀ l : List ℂ, (((l.map (fun z => z + f * I)).map (starRingEnd ℂ)).map (fun r => I * (w : ℂ) - r)).prod =
      (starRingEnd ℂ) (l.map (fun r => I * ((-w - f : ℝ) : ℂ) - r)).prod := by
    intro l
    rw [List.map_map, List.map_map, map_list_prod, List.map_map]
    congr 2
    funext r
    show I * (w : ℂ) - (starRingEnd ℂ) (r + f * I) = (starRingEnd ℂ) (I * ((-w - f : ℝ) : ℂ) - r)
    rw [map_add, map_sub, map_mul, map_mul, conj_I, conj_ofReal, conj_ofReal]
    push_cast
    ring
  have hq : I * (w : ℂ) - -(f : ℂ) * 0.8 ≠ 0 := fun h0 => by
    have := congrArg Complex.re h0
    norm_num at this
    exact hf this
  have hb1 : (starRingEnd ℂ) (s.p.map (fun r => I * ((-w - f : ℝ) : ℂ) - r)).prod ≠ 0 := fun h0 => b1 (by simpa using congrArg (starRingEnd ℂ) h0)
  rw [freqresp_iff]
  unfold shift_to
  simp only [List.map_append, List.prod_append, up, down, List.map_cons, List.map_nil, List.prod_singleton]
  refine ⟨mul_ne_zero (mul_ne_zero a1 hb1) hq, ?_⟩
  have hden : I * (w : ℂ) + 0.8 * f = I * w - -(f : ℂ) * 0.8 := by ring
  have hnum : I * (w : ℂ) + f / 2 = I * w - -(f : ℂ) / 2 := by ring
  rw [hden, hnum, a2, b2, map_div₀, map_mul, hk]
  field_simp

/-! ## stable designs -/

/-- Zeros and poles in the left half plane and a gain. -/
structure Stable (s : Zpk) : Prop where
  z : ∀ r ∈ s.z, r.re < 0
  p : ∀ r ∈ s.p, r.re < 0
  k : s.k ≠ 0

theorem Stable.over {s t : Zpk} (hs : Stable s) (ht : Stable t) : ∃ u, over s t = .ok u ∧ Stable u := by
  refine ⟨⟨s.z ++ t.p, s.p ++ t.z, s.k / t.k⟩, ?_, ?_, ?_, div_ne_zero hs.k ht.k⟩
  · unfold PowerLoops.over
    rw [pdiv_ne ht.k]
    rfl
  · intro r hr
    rcases List.mem_append.1 hr with hr | hr
    · exact hs.z r hr
    · exact ht.p r hr
  · intro r hr
    rcases List.mem_append.1 hr with hr | hr
    · exact hs.p r hr
    · exact ht.z r hr

theorem Stable.times {s t : Zpk} (hs : Stable s) (ht : Stable t) : Stable (times s t) := by
  refine ⟨?_, ?_, mul_ne_zero hs.k ht.k⟩
  · intro r hr
    rcases List.mem_append.1 hr with hr | hr
    · exact hs.z r hr
    · exact ht.z r hr
  · intro r hr
    rcases List.mem_append.1 hr with hr | hr
    · exact hs.p r hr
    · exact ht.p r hr

theorem Stable.prod {l : List ℂ} (h : ∀ r ∈ l, r.re < 0) {x : ℝ} (hx : 0 < x) (w : ℝ) :
    ((l.map (fun r => (x : ℂ) * r)).map (fun r => I * (w : ℂ) - r)).prod ≠ 0 := by
  rw [Ne, List.prod_eq_zero_iff, List.map_map, List.mem_map]
  rintro ⟨r, hr, h0⟩
  have := congrArg Complex.re h0
  simp at this
  rcases this with h1 | h1
  · exact hx.ne' h1
  · exact (h r hr).ne h1

theorem Stable.finish {s : Zpk} (hs : Stable s) {F_center shift : ℝ} (hF : 0 < F_center) (hS : 0 < shift) :
    ∃ t, finish F_center shift s = .ok t ∧ Stable t := by
  have hSc : (shift : ℂ) ≠ 0 := by exact_mod_cast hS.ne'
  have hx : 0 < F_center / shift := div_pos hF hS
  have hxe : (F_center : ℂ) / shift = ((F_center / shift : ℝ) : ℂ) := by push_cast; rfl
  have hxc : ((F_center / shift : ℝ) : ℂ) ≠ 0 := by exact_mod_cast hx.ne'
  have hp := Stable.prod hs.p hx F_center
  have hz := Stable.prod hs.z hx F_center
  unfold PowerLoops.finish freqresp
  rw [pdiv_ne hSc, hxe]
  simp only [ok_bind]
  rw [pdiv_ne hp]
  simp only [ok_bind]
  have hkx := mul_ne_zero hxc hs.k
  have hn := norm_ne_zero_iff.2 (div_ne_zero (mul_ne_zero hkx hz) hp)
  rw [pdiv_ne (by exact_mod_cast hn)]
  refine ⟨_, rfl, ?_, ?_, div_ne_zero hkx (by exact_mod_cast hn)⟩
  · intro r hr
    obtain ⟨q, hq, rfl⟩ := List.mem_map.1 hr
    simpa using mul_neg_of_pos_of_neg hx (hs.z q hq)
  · intro r hr
    obtain ⟨q, hq, rfl⟩ := List.mem_map.1 hr
    simpa using mul_neg_of_pos_of_neg hx (hs.p q hq)

/-- Stable designs. -/
structure Designs.Stable (d : Designs) : Prop where
  cheby1 : ∀ N rp Wn, PowerLoops.Stable (d.cheby1 N rp Wn)
  butter : ∀ N Wn, PowerLoops.Stable (d.butter N Wn)

theorem Stable.one : Stable ⟨[], [], 1⟩ := ⟨by simp, by simp, one_ne_zero⟩

/-- **C139, stable filters.**  Of stable designs, at positive frequencies, the four filters are there and stable. -/
theorem C139_ok {d : Designs} (hd : d.Stable) {F_center shift : ℝ} (hF : 0 < F_center) (hS : 0 < shift) (N : Nat) :
    (∃ t, cheby_boost_7 d F_center shift = .ok t ∧ Stable t) ∧ (∃ t, ledge_controller d F_center shift N = .ok t ∧ Stable t) ∧
      (∃ t, ledge_boost d F_center shift N = .ok t ∧ Stable t) ∧ ∃ t, cheby_boost d F_center shift = .ok t ∧ Stable t := by
  have add : ∀ {s : Zpk} {z p : List ℂ}, Stable s → (∀ r ∈ z, r.re < 0) → (∀ r ∈ p, r.re < 0) → Stable ⟨s.z ++ z, s.p ++ p, s.k⟩ := by
    intro s z p hs hz hp
    refine ⟨?_, ?_, hs.k⟩
    · intro r hr
      rcases List.mem_append.1 hr with hr | hr
      · exact hs.z r hr
      · exact hz r hr
    · intro r hr
      rcases List.mem_append.1 hr with hr | hr
      · exact hs.p r hr
      · exact hp r hr
  refine ⟨?_, ?_, ?_, ?_⟩
  · obtain ⟨s, h1, hs⟩ := Stable.one.over (hd.cheby1 7 0.2 1)
    unfold cheby_boost_7
    rw [h1, ok_bind, List.append_assoc]
    refine Stable.finish (add hs ?_ ?_) hF hS
    · simp
    · simp [List.mem_replicate]
      norm_num
  · obtain ⟨s, h1, hs⟩ := Stable.one.over (hd.cheby1 N 0.3 1)
    obtain ⟨s', h2, hs'⟩ := (hs.times (hd.cheby1 (N + 2) 0.3 1)).over (hd.butter 2 2)
    unfold ledge_controller
    rw [h1, ok_bind, h2, ok_bind]
    exact Stable.finish (hs'.times (hd.cheby1 1 1 3)) hF hS
  · obtain ⟨s, h1, hs⟩ := Stable.one.over (hd.cheby1 N 0.3 1)
    obtain ⟨s', h2, hs'⟩ := (hs.times (hd.cheby1 (N + 2) 0.3 1)).over (hd.butter 3 2)
    unfold ledge_boost
    rw [h1, ok_bind, h2, ok_bind]
    simp only [List.append_assoc]
    refine Stable.finish (add (hs'.times (hd.cheby1 1 1 3)) ?_ ?_) hF hS
    · simp
      norm_num
    · simp
      norm_num
  · obtain ⟨s, h1, hs⟩ := Stable.one.over (hd.cheby1 3 0.2 0.8)
    obtain ⟨s', h2, hs'⟩ := hs.over (hd.cheby1 3 0.2 1)
    unfold cheby_boost
    rw [h1, ok_bind, h2, ok_bind]
    simp only [List.append_assoc]
    refine Stable.finish (add hs' ?_ ?_) hF hS
    · simp
      norm_num
    · simp [List.mem_replicate]
      norm_num

/-- So is the controller. -/
theorem C139_controller_ok {d : Designs} (hd : d.Stable) {U : ℝ} (hU : 0 < U) : ∃ t, controller_20x1e9 d U = .ok t := by
  obtain ⟨-, ⟨c, hc, -⟩, ⟨b, hb, -⟩, -⟩ := C139_ok hd hU (shift := 20) (by norm_num) 3
  obtain ⟨-, -, ⟨b', hb', -⟩, -⟩ := C139_ok hd hU (shift := 25) (by norm_num) 3
  unfold controller_20x1e9
  simp only [hc, hb, hb', ok_bind]
  exact C139_mult_ok (by simp)

/-- **C139, unpaired roots** (refuted): from a design whose roots come in pairs `cheby_boost_7` makes a filter whose zeros and whose poles do
not. -/
theorem C139_boost7_refuted {d : Designs} {F_center shift : ℝ} (hF : F_center ≠ 0) {t : Zpk} (h : cheby_boost_7 d F_center shift = .ok t)
    (hz : ((d.cheby1 7 0.2 1).z.map (starRingEnd ℂ)).Perm (d.cheby1 7 0.2 1).z)
    (hp : ((d.cheby1 7 0.2 1).p.map (starRingEnd ℂ)).Perm (d.cheby1 7 0.2 1).p) :
    ¬ (t.z.map (starRingEnd ℂ)).Perm t.z ∧ ¬ (t.p.map (starRingEnd ℂ)).Perm t.p := by
  unfold cheby_boost_7 at h
  obtain ⟨s, hs, h⟩ := bind_inv h
  unfold over at hs
  obtain ⟨k, -, hs⟩ := bind_inv hs
  injection hs with hs
  subst hs
  obtain ⟨x, hd, hS, hx, -, -, rfl⟩ := finish_inv h
  have hxr : (starRingEnd ℂ) x = x := by rw [hx, map_div₀, conj_ofReal, conj_ofReal]
  have hx0 : x ≠ 0 := by
    rw [hx]
    exact div_ne_zero (by exact_mod_cast hF) hS
  have unscale : ∀ l : List ℂ, ((l.map (fun r => x * r)).map (starRingEnd ℂ)).Perm (l.map (fun r => x * r)) → (l.map (starRingEnd ℂ)).Perm l := by
    intro l hl
    have e : (l.map (fun r => x * r)).map (starRingEnd ℂ) = (l.map (starRingEnd ℂ)).map (fun r => x * r) := by
      rw [List.map_map, List.map_map]
      congr 1
      funext r
      show (starRingEnd ℂ) (x * r) = x * (starRingEnd ℂ) r
      rw [map_mul, hxr]
    rw [e] at hl
    exact (List.map_perm_map_iff (fun a b hab => mul_left_cancel₀ hx0 hab)).1 hl
  constructor
  · intro hl
    have hl := unscale _ hl
    simp only [List.nil_append, List.map_append] at hl
    have := (List.perm_append_left_iff _).1 ((hp.symm.append_right _).trans hl)
    have := congrArg Complex.im (List.singleton_perm_singleton.1 (by simpa using this))
    norm_num at this
  · intro hl
    have hl := unscale _ hl
    simp only [List.nil_append, List.map_append, List.append_assoc] at hl
    have := (List.perm_append_left_iff _).1 ((hz.symm.append_right _).trans hl)
    have e : (List.replicate 7 (-0.01 : ℂ)).map (starRingEnd ℂ) = List.replicate 7 (-0.01) := by
      rw [List.map_replicate]
      congr 1
      apply Complex.ext <;> norm_num
    rw [e] at this
    have := (List.perm_append_right_iff _).1 this
    have := congrArg Complex.im (List.singleton_perm_singleton.1 (by simpa using this))
    norm_num at this

/-! ## examples -/

/-- A design all of whose filters are one pole. -/
def exDesigns : Designs := ⟨fun _ _ _ => ⟨[], [-1], 1⟩, fun _ _ => ⟨[], [-2], 2⟩⟩

example : Paired [-1, -1 + I, -1 - I] where
  conj := by
    simp only [List.map_cons, List.map_nil, map_neg, map_add, map_sub, map_one, conj_I]
    refine List.Perm.cons _ ?_
    rw [sub_neg_eq_add, ← sub_eq_add_neg]
    exact List.Perm.swap _ _ _
  ne := by
    intro r hr h0
    simp at hr
    rcases hr with rfl | rfl | rfl
    all_goals
      have := congrArg Complex.re h0
      simp at this
  far := by
    intro r hr
    simp at hr
    rcases hr with rfl | rfl | rfl
    all_goals norm_num

example : ∃ t, cheby_boost_7 exDesigns 3 1 = .ok t ∧ ((exDesigns.cheby1 7 0.2 1).p.map (starRingEnd ℂ)).Perm (exDesigns.cheby1 7 0.2 1).p := by
  obtain ⟨⟨t, ht, -⟩, -⟩ := C139_ok (d := exDesigns) ⟨fun _ _ _ => ⟨by simp [exDesigns], by simp [exDesigns], by simp [exDesigns]⟩,
    fun _ _ => ⟨by simp [exDesigns], by simp [exDesigns], by simp [exDesigns]⟩⟩ (F_center := 3) (shift := 1) (by norm_num) (by norm_num) 3
  exact ⟨t, ht, by simp [exDesigns]⟩

example : ∃ t, controller_20x1e9 exDesigns 3 = .ok t :=
  C139_controller_ok ⟨fun _ _ _ => ⟨by simp [exDesigns], by simp [exDesigns], by simp [exDesigns]⟩,
    fun _ _ => ⟨by simp [exDesigns], by simp [exDesigns], by simp [exDesigns]⟩⟩ (by norm_num)

end

end PowerLoops
