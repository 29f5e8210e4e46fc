import Mathlib.Tactic.FieldSimp
import Verif.Signal.Reality

/-!
# Mixers multiply signals (C61) and mean-square detectors square them (C62)

A signal with amplitudes `x k` is the function `x 0 + ½ Σ_{k ≠ 0} x k e(k)`; `e k` stands for the value of
`exp(2πi f_k t)` at any time and may be any character of the group of keys.
-/

set_option linter.unusedSectionVars false

namespace Signal
open Py Inject Circuit
open scoped List

variable {P K R F : Type} [DecidableEq P] [DecidableEq K] [AddCommGroup K] [AddCommGroup R] [LinearOrder R]
  [IsOrderedAddMonoid R] [Field F] [StarRing F] [DecidableEq F]

/-- The value of the signal with amplitudes `y` at the keys `ks`. -/
def wave (e : K → F) (ks : List K) (y : K → F) : F :=
  (ks.map (fun k => if k = 0 then y k else y k * e k / 2)).sum

theorem wave_congr (e : K → F) {ks : List K} {y z : K → F} (h : ∀ k ∈ ks, y k = z k) : wave e ks y = wave e ks z := by
  unfold wave
  congr 1
  apply List.map_congr_left
  intro k hk
  rw [h k hk]

theorem wave_add (e : K → F) (ks : List K) (y z : K → F) : wave e ks (fun k => y k + z k) = wave e ks y + wave e ks z := by
  unfold wave
  rw [← List.sum_map_add]
  congr 1
  apply List.map_congr_left
  intro k _
  dsimp only
  split_ifs
  · rfl
  · ring

theorem wave_zero (e : K → F) (ks : List K) : wave e ks (fun _ => (0 : F)) = 0 := by
  unfold wave
  apply List.sum_eq_zero
  intro a ha
  obtain ⟨k, _, rfl⟩ := List.mem_map.1 ha
  dsimp only
  split_ifs <;> ring

theorem wave_sum {α : Type} (e : K → F) (ks : List K) (l : List α) (f : α → K → F) :
    wave e ks (fun k => (l.map (fun a => f a k)).sum) = (l.map (fun a => wave e ks (f a))).sum := by
  induction l with
  | nil => exact wave_zero e ks
  | cons a l ih =>
    rw [List.map_cons, List.sum_cons, ← ih, ← wave_add]
    rfl

/-- A single amplitude. -/
theorem wave_single (e : K → F) {ks : List K} (hn : ks.Nodup) {m : K} (hm : m ∈ ks) (v : F) :
    wave e ks (fun k => if m = k then v else 0) = if m = 0 then v else v * e m / 2 := by
  unfold wave
  induction ks with
  | nil => cases hm
  | cons a l ih =>
    rw [List.map_cons, List.sum_cons]
    rcases List.mem_cons.1 hm with h | h
    · subst h
      have : (l.map (fun k => if k = 0 then (if m = k then v else 0) else (if m = k then v else 0) * e k / 2)).sum = 0 := by
        apply List.sum_eq_zero
        intro b hb
        obtain ⟨k, hk, rfl⟩ := List.mem_map.1 hb
        have hne : m ≠ k := fun h => (List.nodup_cons.1 hn).1 (h ▸ hk)
        simp only [if_neg hne]
        split_ifs <;> ring
      rw [this, add_zero]
      simp only [if_true]
    · have hne : m ≠ a := fun h' => (List.nodup_cons.1 hn).1 (h' ▸ h)
      rw [ih (List.nodup_cons.1 hn).2 h]
      simp [hne]

variable (env : SEnv P K R F)

/-- The loop over two sets of keys with one product per accepted pair, the weight of the first key being `w`. -/
def conv (w : K → F) (p q r : P) : List (Coupling P K F) :=
  (env.keys p).flatMap (fun k1 => (env.keys q).flatMap (fun k2 =>
    if env.reject (k1 + k2) then [] else
      if k1 + k2 ≠ 0 then [.triplet (p, k1) (q, k2) (r, k1 + k2) (w k1 / 2)]
      else [.triplet (p, k1) (q, k2) (r, k1 + k2) (w k1 / 4)]))

theorem wave_conv {e : K → F} (he0 : e 0 = 1) (he : ∀ k l, e (k + l) = e k * e l) (h2 : (2 : F) ≠ 0) (w : K → F) (p q r : P)
    {ks : List K} (hn : ks.Nodup)
    (hk : ∀ k1 ∈ env.keys p, ∀ k2 ∈ env.keys q, env.reject (k1 + k2) = false → k1 + k2 ∈ ks) (x : P × K → F) :
    wave e ks (fun m => total (conv env w p q r) x (r, m)) =
      ((env.keys p).map (fun k1 => ((env.keys q).map (fun k2 =>
        if env.reject (k1 + k2) then 0 else (w k1 * x (p, k1) * e k1 / 2) * (x (q, k2) * e k2 / 2))).sum)).sum := by
  have h4 : (4 : F) ≠ 0 := by
    intro h
    apply h2
    have : (2 : F) * 2 = 0 := by rw [← h]; norm_num
    exact mul_self_eq_zero.1 this
  have e1 : ∀ m, total (conv env w p q r) x (r, m) =
      ((env.keys p).map (fun k1 => ((env.keys q).map (fun k2 =>
        if env.reject (k1 + k2) then 0 else
          if k1 + k2 = m then (w k1 / (if k1 + k2 = 0 then 4 else 2)) * x (p, k1) * x (q, k2) else 0)).sum)).sum := by
    intro m
    unfold conv
    rw [total_flatMap]
    congr 1
    apply List.map_congr_left
    intro k1 _
    rw [total_flatMap]
    congr 1
    apply List.map_congr_left
    intro k2 _
    by_cases hr : env.reject (k1 + k2) = true
    · rw [if_pos hr, if_pos hr, total_nil]
    · rw [if_neg hr, if_neg hr]
      by_cases h0 : k1 + k2 = 0
      · rw [if_neg (not_not.2 h0), if_pos h0, total_single]
        show (if (r, k1 + k2) = (r, m) then w k1 / 4 * x (p, k1) * x (q, k2) else 0) = _
        simp only [Prod.mk.injEq, true_and]
      · rw [if_pos h0, if_neg h0, total_single]
        show (if (r, k1 + k2) = (r, m) then w k1 / 2 * x (p, k1) * x (q, k2) else 0) = _
        simp only [Prod.mk.injEq, true_and]
  rw [wave_congr e (fun m _ => e1 m), wave_sum]
  congr 1
  apply List.map_congr_left
  intro k1 h1
  rw [wave_sum]
  congr 1
  apply List.map_congr_left
  intro k2 hk2
  by_cases hr : env.reject (k1 + k2) = true
  · simp only [if_pos hr]
    exact wave_zero e ks
  · simp only [if_neg hr]
    rw [wave_single e hn (hk k1 h1 k2 hk2 (by simpa using hr))]
    by_cases h0 : k1 + k2 = 0
    · rw [if_pos h0, if_pos h0]
      have : e k1 * e k2 = 1 := by rw [← he, h0, he0]
      have h22 : (4 : F) = 2 * 2 := by norm_num
      rw [h22]
      field_simp
      linear_combination (-(w k1) * x (p, k1) * x (q, k2)) * this
    · rw [if_neg h0, if_neg h0, he]
      field_simp

/-! ## mixers -/

theorem mixer_I (LO pin rI rQ : P) (hIQ : rI ≠ rQ) (x : P × K → F) (m : K) :
    total (mixer_setup env LO pin rI rQ) x (rI, m) = total (conv env (fun _ => 1) LO pin rI) x (rI, m) := by
  unfold mixer_setup pairs conv
  rw [total_flatMap, total_flatMap]
  congr 1
  apply List.map_congr_left
  intro k1 _
  rw [total_flatMap, total_flatMap]
  congr 1
  apply List.map_congr_left
  intro k2 _
  by_cases hr : env.reject (k1 + k2) = true
  · rw [if_pos hr, if_pos hr]
  · rw [if_neg hr, if_neg hr]
    dsimp only
    have hz : ∀ (a b : P × K) (c : F), (Coupling.triplet a b (rQ, k1 + k2) c).into x (rI, m) = 0 := by
      intro a b c
      unfold Coupling.into
      rw [if_neg]
      intro h
      exact hIQ (congrArg Prod.fst h).symm
    by_cases h0 : k1 + k2 = 0
    · rw [if_neg (not_not.2 h0), if_neg (not_not.2 h0), total_cons, total_single, total_single, hz, add_zero]
    · rw [if_pos h0, if_pos h0, total_cons, total_single, total_single, hz, add_zero]

theorem mixer_Q (LO pin rI rQ : P) (hIQ : rI ≠ rQ) (x : P × K → F) (m : K) :
    total (mixer_setup env LO pin rI rQ) x (rQ, m) =
      total (conv env (fun k => env.i * sign (env.freq k)) LO pin rQ) x (rQ, m) := by
  unfold mixer_setup pairs conv
  rw [total_flatMap, total_flatMap]
  congr 1
  apply List.map_congr_left
  intro k1 _
  rw [total_flatMap, total_flatMap]
  congr 1
  apply List.map_congr_left
  intro k2 _
  by_cases hr : env.reject (k1 + k2) = true
  · rw [if_pos hr, if_pos hr]
  · rw [if_neg hr, if_neg hr]
    dsimp only
    have hz : ∀ (a b : P × K) (c : F), (Coupling.triplet a b (rI, k1 + k2) c).into x (rQ, m) = 0 := by
      intro a b c
      unfold Coupling.into
      rw [if_neg]
      intro h
      exact hIQ (congrArg Prod.fst h)
    by_cases h0 : k1 + k2 = 0
    · rw [if_neg (not_not.2 h0), if_neg (not_not.2 h0), total_cons, hz, zero_add]
    · rw [if_pos h0, if_pos h0, total_cons, hz, zero_add]

/-- Products of two sums. -/
theorem sum_mul_sum {α β : Type} (l : List α) (m : List β) (f : α → F) (g : β → F) :
    (l.map (fun a => (m.map (fun b => f a * g b)).sum)).sum = (l.map f).sum * (m.map g).sum := by
  induction l with
  | nil => simp
  | cons a l ih =>
    rw [List.map_cons, List.sum_cons, ih, List.map_cons, List.sum_cons, add_mul]
    congr 1
    exact sum_mul_left _ _ _

/-- Without a constant component every amplitude counts half. -/
theorem wave_no_DC {e : K → F} {ks : List K} {y : K → F} (h : y 0 = 0) :
    wave e ks y = (ks.map (fun k => y k * e k / 2)).sum := by
  unfold wave
  congr 1
  apply List.map_congr_left
  intro k _
  split_ifs with hk
  · rw [hk, h]
    ring
  · rfl

/-- The amplitudes shifted by a quarter period: `i` for positive and `-i` for negative frequencies. -/
def quarter (env : SEnv P K R F) (y : K → F) : K → F := fun k => env.i * sign (env.freq k) * y k

/-- **C61, with an order limit.**  The two outputs of a mixer carry, at every time, the product of the local oscillator (of
the local oscillator shifted by a quarter period) and the input, less the products of pairs whose sum exceeds the order
limit. -/
theorem C61_truncated {e : K → F} (he0 : e 0 = 1) (he : ∀ k l, e (k + l) = e k * e l) (h2 : (2 : F) ≠ 0)
    (LO pin rI rQ : P) (hIQ : rI ≠ rQ) (hnI : (env.keys rI).Nodup) (hnQ : (env.keys rQ).Nodup)
    (hkI : ∀ k1 ∈ env.keys LO, ∀ k2 ∈ env.keys pin, env.reject (k1 + k2) = false → k1 + k2 ∈ env.keys rI)
    (hkQ : ∀ k1 ∈ env.keys LO, ∀ k2 ∈ env.keys pin, env.reject (k1 + k2) = false → k1 + k2 ∈ env.keys rQ)
    {x : P × K → F}
    (hxI : ∀ m ∈ env.keys rI, x (rI, m) = total (mixer_setup env LO pin rI rQ) x (rI, m))
    (hxQ : ∀ m ∈ env.keys rQ, x (rQ, m) = total (mixer_setup env LO pin rI rQ) x (rQ, m)) :
    wave e (env.keys rI) (fun k => x (rI, k)) =
      ((env.keys LO).map (fun k1 => ((env.keys pin).map (fun k2 =>
        if env.reject (k1 + k2) then 0 else (x (LO, k1) * e k1 / 2) * (x (pin, k2) * e k2 / 2))).sum)).sum ∧
    wave e (env.keys rQ) (fun k => x (rQ, k)) =
      ((env.keys LO).map (fun k1 => ((env.keys pin).map (fun k2 =>
        if env.reject (k1 + k2) then 0 else
          (env.i * sign (env.freq k1) * x (LO, k1) * e k1 / 2) * (x (pin, k2) * e k2 / 2))).sum)).sum := by
  constructor
  · rw [wave_congr e hxI, wave_congr e (fun m _ => mixer_I env LO pin rI rQ hIQ x m),
      wave_conv env he0 he h2 _ LO pin rI hnI hkI]
    simp only [one_mul]
  · rw [wave_congr e hxQ, wave_congr e (fun m _ => mixer_Q env LO pin rI rQ hIQ x m),
      wave_conv env he0 he h2 _ LO pin rQ hnQ hkQ]

/-- **C61, part.**  When no sum of keys is rejected and neither input has a constant component, the in-phase output is the
product of the local oscillator and the input, the quadrature output the product of the shifted local oscillator and the
input.  Missing: inputs with a constant component, see `C61_refuted`. -/
theorem C61_partial {e : K → F} (he0 : e 0 = 1) (he : ∀ k l, e (k + l) = e k * e l) (h2 : (2 : F) ≠ 0)
    (LO pin rI rQ : P) (hIQ : rI ≠ rQ) (hnI : (env.keys rI).Nodup) (hnQ : (env.keys rQ).Nodup)
    (hkI : ∀ k1 ∈ env.keys LO, ∀ k2 ∈ env.keys pin, k1 + k2 ∈ env.keys rI)
    (hkQ : ∀ k1 ∈ env.keys LO, ∀ k2 ∈ env.keys pin, k1 + k2 ∈ env.keys rQ)
    (hr : ∀ k1 ∈ env.keys LO, ∀ k2 ∈ env.keys pin, env.reject (k1 + k2) = false)
    {x : P × K → F} (hL : x (LO, 0) = 0) (hi : x (pin, 0) = 0)
    (hxI : ∀ m ∈ env.keys rI, x (rI, m) = total (mixer_setup env LO pin rI rQ) x (rI, m))
    (hxQ : ∀ m ∈ env.keys rQ, x (rQ, m) = total (mixer_setup env LO pin rI rQ) x (rQ, m)) :
    wave e (env.keys rI) (fun k => x (rI, k)) =
      wave e (env.keys LO) (fun k => x (LO, k)) * wave e (env.keys pin) (fun k => x (pin, k)) ∧
    wave e (env.keys rQ) (fun k => x (rQ, k)) =
      wave e (env.keys LO) (quarter env (fun k => x (LO, k))) * wave e (env.keys pin) (fun k => x (pin, k)) := by
  obtain ⟨h1, h3⟩ := C61_truncated env he0 he h2 LO pin rI rQ hIQ hnI hnQ (fun a ha b hb _ => hkI a ha b hb)
    (fun a ha b hb _ => hkQ a ha b hb) hxI hxQ
  have drop : ∀ (f g : K → F), ((env.keys LO).map (fun k1 => ((env.keys pin).map (fun k2 =>
      if env.reject (k1 + k2) then 0 else f k1 * g k2)).sum)).sum =
      ((env.keys LO).map f).sum * ((env.keys pin).map g).sum := by
    intro f g
    rw [← sum_mul_sum]
    congr 1
    apply List.map_congr_left
    intro k1 hk1
    congr 1
    apply List.map_congr_left
    intro k2 hk2
    rw [hr k1 hk1 k2 hk2]
    rfl
  constructor
  · rw [h1, wave_no_DC (y := fun k => x (LO, k)) hL, wave_no_DC (y := fun k => x (pin, k)) hi]
    exact drop _ _
  · have hq : quarter env (fun k => x (LO, k)) 0 = 0 := by
      show _ * x (LO, 0) = 0
      rw [hL, mul_zero]
    rw [h3, wave_no_DC hq, wave_no_DC (y := fun k => x (pin, k)) hi]
    exact drop _ _

/-! ## modulators -/

theorem modulator_total (pin amp ph out : P) (φ : F) (x : P × K → F) (t : P × K) :
    total (modulator_setup env pin amp ph out φ) x t =
      total ((env.keys pin).map (fun k => Coupling.edge (pin, k) (out, k) (rotation env φ k))) x t +
      total (conv env (rotation env φ) pin amp out) x t +
      total (conv env (fun k => rotation env φ k * env.i * sign (env.freq k)) pin ph out) x t := by
  unfold modulator_setup conv
  rw [total_flatMap, total_flatMap, total_flatMap, total_map, ← List.sum_map_add, ← List.sum_map_add]
  congr 1
  apply List.map_congr_left
  intro k1 _
  rw [total_append, total_append, total_single]

/-- The amplitudes rotated by the phase of the modulator. -/
def rotated (env : SEnv P K R F) (φ : F) (y : K → F) : K → F := fun k => rotation env φ k * y k

/-- **C61, modulators, part.**  Without constant components and rejected sums, the output of a modulator is
`(1 + amplitude modulation)·input + (phase modulation)·(input shifted by a quarter period)`, the input being rotated by
`phase_rad`: a first-order modulation of amplitude and phase.  Missing: constant components, see `C61_modulator_refuted`. -/
theorem C61_modulator_partial {e : K → F} (he0 : e 0 = 1) (he : ∀ k l, e (k + l) = e k * e l) (h2 : (2 : F) ≠ 0)
    (pin amp ph out : P) (φ : F) (hn : (env.keys out).Nodup)
    (hk : ∀ k ∈ env.keys pin, k ∈ env.keys out)
    (hka : ∀ k1 ∈ env.keys pin, ∀ k2 ∈ env.keys amp, k1 + k2 ∈ env.keys out ∧ env.reject (k1 + k2) = false)
    (hkp : ∀ k1 ∈ env.keys pin, ∀ k2 ∈ env.keys ph, k1 + k2 ∈ env.keys out ∧ env.reject (k1 + k2) = false)
    {x : P × K → F} (hi : x (pin, 0) = 0) (ha : x (amp, 0) = 0) (hp : x (ph, 0) = 0)
    (hx : ∀ m ∈ env.keys out, x (out, m) = total (modulator_setup env pin amp ph out φ) x (out, m)) :
    wave e (env.keys out) (fun k => x (out, k)) =
      wave e (env.keys pin) (rotated env φ (fun k => x (pin, k))) * (1 + wave e (env.keys amp) (fun k => x (amp, k))) +
      wave e (env.keys pin) (quarter env (rotated env φ (fun k => x (pin, k)))) *
        wave e (env.keys ph) (fun k => x (ph, k)) := by
  rw [wave_congr e hx, wave_congr e (fun m _ => modulator_total env pin amp ph out φ x (out, m)), wave_add, wave_add,
    wave_conv env he0 he h2 _ pin amp out hn (fun a h b h' _ => (hka a h b h').1),
    wave_conv env he0 he h2 _ pin ph out hn (fun a h b h' _ => (hkp a h b h').1)]
  have hr0 : rotated env φ (fun k => x (pin, k)) 0 = 0 := by
    show _ * x (pin, 0) = 0
    rw [hi, mul_zero]
  have hq0 : quarter env (rotated env φ (fun k => x (pin, k))) 0 = 0 := by
    unfold quarter
    rw [hr0, mul_zero]
  have drop : ∀ (q : P), (∀ k1 ∈ env.keys pin, ∀ k2 ∈ env.keys q, env.reject (k1 + k2) = false) → ∀ (f g : K → F),
      ((env.keys pin).map (fun k1 => ((env.keys q).map (fun k2 =>
        if env.reject (k1 + k2) then 0 else f k1 * g k2)).sum)).sum =
      ((env.keys pin).map f).sum * ((env.keys q).map g).sum := by
    intro q hr f g
    rw [← sum_mul_sum]
    congr 1
    apply List.map_congr_left
    intro k1 hk1
    congr 1
    apply List.map_congr_left
    intro k2 hk2
    rw [hr k1 hk1 k2 hk2]
    rfl
  rw [drop amp (fun a h b h' => (hka a h b h').2), drop ph (fun a h b h' => (hkp a h b h').2), wave_no_DC hr0,
    wave_no_DC hq0, wave_no_DC (y := fun k => x (amp, k)) ha, wave_no_DC (y := fun k => x (ph, k)) hp]
  have hedge : wave e (env.keys out) (fun m =>
      total ((env.keys pin).map (fun k => Coupling.edge (pin, k) (out, k) (rotation env φ k))) x (out, m)) =
      ((env.keys pin).map (fun k => rotated env φ (fun k => x (pin, k)) k * e k / 2)).sum := by
    have e1 : ∀ m, total ((env.keys pin).map (fun k => Coupling.edge (pin, k) (out, k) (rotation env φ k))) x (out, m) =
        ((env.keys pin).map (fun k => if k = m then rotation env φ k * x (pin, k) else 0)).sum := by
      intro m
      rw [total_map]
      congr 1
      apply List.map_congr_left
      intro k _
      show (if (out, k) = (out, m) then rotation env φ k * x (pin, k) else 0) = _
      simp only [Prod.mk.injEq, true_and]
    rw [wave_congr e (fun m _ => e1 m), wave_sum]
    congr 1
    apply List.map_congr_left
    intro k hkk
    rw [wave_single e hn (hk k hkk)]
    split_ifs with h0
    · subst h0
      rw [hi, mul_zero, hr0]
      ring
    · rfl
  have hph : ((env.keys pin).map (fun k => rotation env φ k * env.i * sign (env.freq k) * x (pin, k) * e k / 2)) =
      (env.keys pin).map (fun k => quarter env (rotated env φ (fun k => x (pin, k))) k * e k / 2) := by
    apply List.map_congr_left
    intro k _
    unfold quarter rotated
    ring
  rw [hedge, hph]
  unfold rotated
  ring

/-! ## mean squares -/

/-- The coefficient of `e k` in the signal. -/
def coefficient (y : K → F) (k : K) : F := if k = 0 then y k else y k / 2

theorem sum_pick {ks : List K} (hn : ks.Nodup) {m : K} (hm : m ∈ ks) (already : List K) (ha : m ∉ already) (g : K → F) :
    (ks.map (fun k => if k ∈ already then 0 else g k)).sum =
      g m + (ks.map (fun k => if k ∈ m :: already then 0 else g k)).sum := by
  induction ks with
  | nil => cases hm
  | cons a l ih =>
    obtain ⟨hal, hl⟩ := List.nodup_cons.1 hn
    simp only [List.map_cons, List.sum_cons]
    rcases List.mem_cons.1 hm with h | h
    · subst h
      rw [if_neg ha, if_pos List.mem_cons_self, zero_add]
      congr 2
      apply List.map_congr_left
      intro k hk
      have hne : k ≠ m := fun h => hal (h ▸ hk)
      simp only [List.mem_cons, hne, false_or]
    · have hne : a ≠ m := fun h' => hal (h' ▸ h)
      rw [ih hl h]
      simp only [List.mem_cons, hne, false_or]
      ring

theorem sum_skip {ks : List K} {m : K} (hm : m ∉ ks) (already : List K) (g : K → F) :
    (ks.map (fun k => if k ∈ m :: already then 0 else g k)).sum =
      (ks.map (fun k => if k ∈ already then 0 else g k)).sum := by
  congr 1
  apply List.map_congr_left
  intro k hk
  have hne : k ≠ m := fun h => hm (h ▸ hk)
  simp only [List.mem_cons, hne, false_or]

theorem mean_square_sum (h2 : (2 : F) ≠ 0) (ht : ∀ k : K, -k = k → k = 0) (pin MS : P) (x : P × K → F) (ks : List K) :
    ∀ already : List K, ks.Nodup → (∀ k ∈ ks, env.reject (-k) = false) →
    (∀ k ∈ ks, k ∉ already → k ≠ 0 → -k ∈ ks ∧ -k ∉ already) →
    total (mean_square_loop env pin MS already ks) x (MS, 0) =
      (ks.map (fun k => if k ∈ already then 0 else
        coefficient (fun k => x (pin, k)) k * coefficient (fun k => x (pin, k)) (-k))).sum := by
  induction ks with
  | nil => intro already _ _ _; exact total_nil _ _
  | cons k ks ih =>
    intro already hn hr hc
    obtain ⟨hk, hn'⟩ := List.nodup_cons.1 hn
    have hr' : ∀ l ∈ ks, env.reject (-l) = false := fun l hl => hr l (List.mem_cons_of_mem _ hl)
    rw [mean_square_loop, List.map_cons, List.sum_cons]
    by_cases h1 : k ∈ already
    · rw [if_pos h1, if_pos h1, zero_add]
      apply ih _ hn' hr'
      intro l hl hla hl0
      obtain ⟨h3, h4⟩ := hc l (List.mem_cons_of_mem _ hl) hla hl0
      refine ⟨?_, h4⟩
      rcases List.mem_cons.1 h3 with h | h
      · exact absurd (h ▸ h1) h4
      · exact h
    rw [if_neg h1, if_neg h1]
    by_cases h0 : k = 0
    · rw [if_pos h0, total_cons, ih _ hn' hr', sum_skip hk]
      · subst h0
        congr 1
        show (if (MS, (0 : K)) = (MS, 0) then (1 : F) * ([(pin, (0 : K))].map x).prod * x (pin, 0) else 0) = _
        rw [if_pos rfl]
        unfold coefficient
        rw [if_pos rfl, if_pos neg_zero, neg_zero]
        simp
      · intro l hl hla hl0
        rw [List.mem_cons, not_or] at hla
        obtain ⟨h3, h4⟩ := hc l (List.mem_cons_of_mem _ hl) hla.2 hl0
        have hne : -l ≠ k := by
          rw [h0]
          exact neg_ne_zero.2 hl0
        refine ⟨(List.mem_cons.1 h3).resolve_left hne, ?_⟩
        rw [List.mem_cons, not_or]
        exact ⟨hne, h4⟩
    · rw [if_neg h0, if_neg (by rw [hr k List.mem_cons_self]; exact Bool.false_ne_true), total_cons]
      obtain ⟨h3, h4⟩ := hc k List.mem_cons_self h1 h0
      have hnk : -k ≠ k := fun h => h0 (ht k h)
      have h5 : -k ∈ ks := (List.mem_cons.1 h3).resolve_left hnk
      rw [ih _ hn' hr', sum_pick hn' h5 already h4]
      · have hskip : (ks.map (fun l => if l ∈ -k :: k :: already then 0 else
            coefficient (fun k => x (pin, k)) l * coefficient (fun k => x (pin, k)) (-l))).sum =
            (ks.map (fun l => if l ∈ -k :: already then 0 else
              coefficient (fun k => x (pin, k)) l * coefficient (fun k => x (pin, k)) (-l))).sum := by
          congr 1
          apply List.map_congr_left
          intro l hl
          have hne : l ≠ k := fun h => hk (h ▸ hl)
          simp only [List.mem_cons, hne, false_or]
        rw [hskip, ← add_assoc]
        congr 1
        show (if (MS, (0 : K)) = (MS, 0) then (1 / 2 : F) * x (pin, k) * x (pin, -k) else 0) = _
        rw [if_pos rfl]
        unfold coefficient
        rw [if_neg h0, if_neg (neg_ne_zero.2 h0), neg_neg, if_neg h0]
        field_simp
        ring
      · intro l hl hla hl0
        rw [List.mem_cons, List.mem_cons, not_or, not_or] at hla
        obtain ⟨h6, h7⟩ := hc l (List.mem_cons_of_mem _ hl) hla.2.2 hl0
        have hne : -l ≠ k := fun h => hla.1 (by rw [← h, neg_neg])
        refine ⟨(List.mem_cons.1 h6).resolve_left hne, ?_⟩
        rw [List.mem_cons, List.mem_cons, not_or, not_or]
        exact ⟨fun h => hla.2.1 (neg_inj.1 h), hne, h7⟩

/-- **C62.**  A mean-square detector gives the constant component of the square of its input: the sum of the products of
coefficients at opposite keys, whatever the order in which the keys are visited. -/
theorem C62_mean_square (h2 : (2 : F) ≠ 0) (ht : ∀ k : K, -k = k → k = 0) (pin MS : P)
    (hk : Balanced (env.keys pin)) (hr : ∀ k ∈ env.keys pin, env.reject (-k) = false) {x : P × K → F}
    (hx : x (MS, 0) = total (mean_square_setup env pin MS) x (MS, 0)) :
    x (MS, 0) = ((env.keys pin).map (fun k => ((env.keys pin).map (fun l =>
      if k + l = 0 then coefficient (fun k => x (pin, k)) k * coefficient (fun k => x (pin, k)) l else 0)).sum)).sum := by
  rw [hx]
  unfold mean_square_setup
  rw [mean_square_sum env h2 ht pin MS x _ [] hk.1 hr (fun k hm _ _ => ⟨hk.2 k hm, List.not_mem_nil⟩)]
  congr 1
  apply List.map_congr_left
  intro k hm
  rw [if_neg List.not_mem_nil]
  symm
  have hs := sum_unique (fun l : K => l)
    (fun l => coefficient (fun k => x (pin, k)) k * coefficient (fun k => x (pin, k)) l) (l := env.keys pin)
    (by rw [List.map_id']; exact hk.1) (hk.2 k hm)
  rw [← hs]
  congr 1
  apply List.map_congr_left
  intro l _
  have : k + l = 0 ↔ l = -k := by
    rw [add_comm, add_eq_zero_iff_eq_neg]
  simp only [this]

/-- For real signals the result is the usual one: `x₀² + ½ Σ |x_k|²` over the positive keys, here as a sum over all keys. -/
theorem C62_power (h2 : (2 : F) ≠ 0) (ht : ∀ k : K, -k = k → k = 0) (pin MS : P)
    (hk : Balanced (env.keys pin)) (hr : ∀ k ∈ env.keys pin, env.reject (-k) = false) {x : P × K → F}
    (hreal : ∀ k, x (pin, -k) = star (x (pin, k)))
    (hx : x (MS, 0) = total (mean_square_setup env pin MS) x (MS, 0)) :
    x (MS, 0) = ((env.keys pin).map (fun k =>
      if k = 0 then x (pin, 0) * star (x (pin, 0)) else x (pin, k) * star (x (pin, k)) / 4)).sum := by
  rw [hx]
  unfold mean_square_setup
  rw [mean_square_sum env h2 ht pin MS x _ [] hk.1 hr (fun k hm _ _ => ⟨hk.2 k hm, List.not_mem_nil⟩)]
  congr 1
  apply List.map_congr_left
  intro k _
  rw [if_neg List.not_mem_nil]
  unfold coefficient
  by_cases h0 : k = 0
  · subst h0
    have := hreal 0
    rw [neg_zero] at this
    rw [if_pos rfl, if_pos rfl, if_pos neg_zero, neg_zero]
    rw [← this]
  · rw [if_neg h0, if_neg h0, if_neg (neg_ne_zero.2 h0)]
    dsimp only
    rw [hreal]
    have h22 : (4 : F) = 2 * 2 := by norm_num
    rw [h22]
    field_simp

end Signal
