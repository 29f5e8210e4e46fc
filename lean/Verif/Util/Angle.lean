import Verif.Py.Dict
import Mathlib.Analysis.SpecialFunctions.Complex.Arg
import Mathlib.Algebra.Order.Floor.Ring
import Mathlib.Data.List.Forall2
import Mathlib.Tactic.Linarith
import Mathlib.Tactic.Ring
import Mathlib.Tactic.FieldSimp
import Mathlib.Tactic.Push

/-!
# Phases of transfer functions in plots (C156)

Source: `/repo/phasor/utilities/plots/loops_and_budgets.py` l.14-40.  `angle` is in radians (`deg = False`), `angleDeg` in degrees.
-/

namespace Util
open Py Complex

/-! ## model -/

/-- `np.unwrap`: the step between two phases; `mod` is the one of numpy, with results in `[0, 2π)`. -/
noncomputable def step (dd : ℝ) : ℝ :=
  let ddmod := (dd + Real.pi) - 2 * Real.pi * ⌊(dd + Real.pi) / (2 * Real.pi)⌋ - Real.pi
  if |dd| < Real.pi then dd else if ddmod = -Real.pi ∧ 0 < dd then Real.pi else ddmod

/-- `np.unwrap` after a phase `p` that has become `u` -/
noncomputable def unwrapFrom (p u : ℝ) : List ℝ → List ℝ
  | [] => []
  | q :: l => (u + step (q - p)) :: unwrapFrom q (u + step (q - p)) l

noncomputable def unwrap : List ℝ → List ℝ
  | [] => []
  | p :: l => p :: unwrapFrom p p l

/-- `np.max` and `np.min` of a list that is not empty -/
noncomputable def hi (l : List ℝ) : ℝ := l.tail.foldl max (l.headD 0)
noncomputable def lo (l : List ℝ) : ℝ := l.tail.foldl min (l.headD 0)

/-- `uw + c` -/
noncomputable def shift (c : ℝ) (l : List ℝ) : List ℝ := l.map (· + c)

/-- l.25-32 -/
noncomputable def recenter (l0 : List ℝ) : List ℝ :=
  let l1 := if hi l0 > Real.pi ∧ lo l0 > 0 then shift (-(2 * Real.pi)) l0 else l0
  let l2 := if lo l1 > 0.95 * Real.pi then shift (-(2 * Real.pi)) l1 else l1
  let l3 := if lo l2 < 2 * Real.pi then shift (2 * Real.pi) l2 else l2
  if hi l3 > 2 * Real.pi then shift (-(2 * Real.pi)) l3 else l3

/-- `angle` of an array, l.22-40; `np.max` of an empty array raises a ValueError, an index that is out of range an IndexError.  Indices are not negative. -/
noncomputable def angle (Y : List ℂ) (center_idx : Option ℕ) (unwrapped : Bool) : Except Err (List ℝ) :=
  if unwrapped then
    let uw := unwrap (Y.map arg)
    match center_idx with
    | none => if uw = [] then .error .valueError else .ok (recenter uw)
    | some i =>
      match uw[i]? with
      | none => .error .indexError
      | some c => .ok (shift (-(2 * Real.pi * ⌊c / (2 * Real.pi)⌋)) uw)
  else .ok (Y.map arg)

/-- with `deg = True`, l.37-38 -/
noncomputable def angleDeg (Y : List ℂ) (center_idx : Option ℕ) (unwrapped : Bool) : Except Err (List ℝ) :=
  (angle Y center_idx unwrapped).map (List.map (180 / Real.pi * ·))

/-- `angle` of a number, l.20-21 -/
noncomputable def angle1 (y : ℂ) : ℝ := arg y

/-! ## full turns -/

/-- Phases that differ by full turns. -/
def Turns (a b : ℝ) : Prop := ∃ k : ℤ, a = b + 2 * Real.pi * k

theorem Turns.refl (a : ℝ) : Turns a a := ⟨0, by simp⟩

theorem step_turns (dd : ℝ) : Turns (step dd) dd := by
  unfold step
  dsimp only
  split_ifs with h1 h2
  · exact Turns.refl _
  · obtain ⟨h2, -⟩ := h2
    exact ⟨1 - ⌊(dd + Real.pi) / (2 * Real.pi)⌋, by push_cast; linarith⟩
  · exact ⟨-⌊(dd + Real.pi) / (2 * Real.pi)⌋, by push_cast; ring⟩

theorem step_le (dd : ℝ) : |step dd| ≤ Real.pi := by
  have hp := Real.pi_pos
  unfold step
  dsimp only
  split_ifs with h1 h2
  · exact h1.le
  · rw [abs_of_pos hp]
  · have a1 := Int.floor_le ((dd + Real.pi) / (2 * Real.pi))
    have a2 := Int.lt_floor_add_one ((dd + Real.pi) / (2 * Real.pi))
    rw [le_div_iff₀ (by linarith)] at a1
    rw [div_lt_iff₀ (by linarith)] at a2
    rw [abs_le]
    constructor <;> linarith

theorem unwrapFrom_turns : ∀ (l : List ℝ) {p u : ℝ}, Turns u p → List.Forall₂ Turns (unwrapFrom p u l) l
  | [], _, _, _ => .nil
  | q :: l, p, u, ⟨k, hk⟩ => by
    obtain ⟨j, hj⟩ := step_turns (q - p)
    have h : Turns (u + step (q - p)) q := ⟨k + j, by rw [hk, hj]; push_cast; ring⟩
    exact .cons h (unwrapFrom_turns l h)

theorem unwrap_turns (l : List ℝ) : List.Forall₂ Turns (unwrap l) l := by
  cases l with
  | nil => exact .nil
  | cons p l => exact .cons (.refl p) (unwrapFrom_turns l (.refl p))

theorem shift_turns {l m : List ℝ} (h : List.Forall₂ Turns l m) (k : ℤ) : List.Forall₂ Turns (shift (2 * Real.pi * k) l) m := by
  unfold shift
  rw [List.forall₂_map_left_iff]
  refine h.imp ?_
  rintro a b ⟨j, rfl⟩
  exact ⟨j + k, by push_cast; ring⟩

theorem recenter_shift (l : List ℝ) : ∃ k : ℤ, recenter l = shift (2 * Real.pi * k) l := by
  have tw : ∀ (c : Prop) [Decidable c] (s : ℤ) (m : List ℝ), (∃ k : ℤ, m = shift (2 * Real.pi * k) l) →
      ∃ k : ℤ, (if c then shift (2 * Real.pi * s) m else m) = shift (2 * Real.pi * k) l := by
    rintro c _ s m ⟨k, rfl⟩
    split_ifs
    · refine ⟨k + s, ?_⟩
      unfold shift
      rw [List.map_map]
      refine List.map_congr_left fun a _ => ?_
      simp only [Function.comp]
      push_cast
      ring
    · exact ⟨k, rfl⟩
  have e1 : -(2 * Real.pi) = 2 * Real.pi * ((-1 : ℤ) : ℝ) := by push_cast; ring
  have e2 : shift (2 * Real.pi) = shift (2 * Real.pi * ((1 : ℤ) : ℝ)) := by push_cast; rw [mul_one]
  unfold recenter
  dsimp only
  rw [e1, e2]
  exact tw _ _ _ (tw _ _ _ (tw _ _ _ (tw _ _ _ ⟨0, by simp [shift]⟩)))

/-! ## C156 -/

theorem polar_of_turns {a : ℝ} {y : ℂ} (h : Turns a (arg y)) : (‖y‖ : ℂ) * exp (a * I) = y := by
  obtain ⟨k, rfl⟩ := h
  have e : ((arg y + 2 * Real.pi * k : ℝ) : ℂ) * I = arg y * I + k * (2 * Real.pi * I) := by push_cast; ring
  rw [e, Complex.exp_add, Complex.exp_int_mul_two_pi_mul_I, mul_one, Complex.norm_mul_exp_arg_mul_I]

/-- **C156, phase.**  Whatever the options, each value is its magnitude times the exponential of its phase. -/
theorem C156_phase {Y : List ℂ} {c : Option ℕ} {u : Bool} {l : List ℝ} (h : angle Y c u = .ok l) :
    List.Forall₂ (fun (a : ℝ) (y : ℂ) => (‖y‖ : ℂ) * exp (a * I) = y) l Y := by
  have hu : List.Forall₂ Turns l (Y.map arg) := by
    have ht := unwrap_turns (Y.map arg)
    unfold angle at h
    cases u with
    | false =>
      cases h
      exact List.forall₂_same.2 fun a _ => .refl a
    | true =>
      rw [if_pos rfl] at h
      dsimp only at h
      cases c with
      | none =>
        dsimp only at h
        split_ifs at h
        cases h
        obtain ⟨k, hk⟩ := recenter_shift (unwrap (Y.map arg))
        rw [hk]
        exact shift_turns ht k
      | some i =>
        dsimp only at h
        cases hi : (unwrap (Y.map arg))[i]? with
        | none => rw [hi] at h; cases h
        | some x =>
          rw [hi] at h
          cases h
          have := shift_turns ht (-⌊x / (2 * Real.pi)⌋)
          rwa [show 2 * Real.pi * ((-⌊x / (2 * Real.pi)⌋ : ℤ) : ℝ) = -(2 * Real.pi * ⌊x / (2 * Real.pi)⌋) by push_cast; ring] at this
  rw [List.forall₂_map_right_iff] at hu
  exact hu.imp fun _ _ => polar_of_turns

/-- **C156, phase** in degrees. -/
theorem C156_degrees {Y : List ℂ} {c : Option ℕ} {u : Bool} {l : List ℝ} (h : angleDeg Y c u = .ok l) :
    List.Forall₂ (fun (a : ℝ) (y : ℂ) => (‖y‖ : ℂ) * exp ((a * (Real.pi / 180) : ℝ) * I) = y) l Y := by
  unfold angleDeg at h
  cases ha : angle Y c u with
  | error e => rw [ha] at h; cases h
  | ok m =>
    rw [ha] at h
    cases h
    rw [List.forall₂_map_left_iff]
    refine (C156_phase ha).imp fun a y hy => ?_
    have e : 180 / Real.pi * a * (Real.pi / 180) = a := by
      have := Real.pi_ne_zero
      field_simp
    rwa [e]

/-- **C156, total.**  Without a center every array that is not empty has phases. -/
theorem C156_total {Y : List ℂ} (hY : Y ≠ []) : ∃ l, angle Y none true = .ok l := by
  have hl : (unwrap (Y.map arg)).length = Y.length := by
    rw [(unwrap_turns (Y.map arg)).length_eq, List.length_map]
  unfold angle
  rw [if_pos rfl]
  dsimp only
  rw [if_neg]
  · exact ⟨_, rfl⟩
  · intro h
    rw [h] at hl
    exact hY (List.eq_nil_of_length_eq_zero hl.symm)

example : ∃ l, angle [I, -I, 1] none true = .ok l ∧ List.Forall₂ (fun (a : ℝ) (y : ℂ) => (‖y‖ : ℂ) * exp (a * I) = y) l [I, -I, 1] := by
  obtain ⟨l, hl⟩ := C156_total (Y := [I, -I, 1]) (by simp)
  exact ⟨l, hl, C156_phase hl⟩

theorem unwrapFrom_chain : ∀ (l : List ℝ) (p u : ℝ), List.IsChain (fun a b => |b - a| ≤ Real.pi) (u :: unwrapFrom p u l)
  | [], _, _ => by simp [unwrapFrom]
  | q :: l, p, u => by
    rw [unwrapFrom, List.isChain_cons_cons]
    exact ⟨by rw [add_sub_cancel_left]; exact step_le _, unwrapFrom_chain l _ _⟩

/-- **C156, unwrapped.**  Unwrapped phases of neighbouring points differ by at most half a turn. -/
theorem C156_chain {Y : List ℂ} {c : Option ℕ} {l : List ℝ} (h : angle Y c true = .ok l) : List.IsChain (fun a b => |b - a| ≤ Real.pi) l := by
  have ht : List.IsChain (fun a b => |b - a| ≤ Real.pi) (unwrap (Y.map arg)) := by
    cases hY : Y.map arg with
    | nil => simp [unwrap]
    | cons p m => exact unwrapFrom_chain m p p
  have hs : ∀ t, List.IsChain (fun a b => |b - a| ≤ Real.pi) (shift t (unwrap (Y.map arg))) := by
    intro t
    unfold shift
    rw [List.isChain_map]
    refine ht.imp fun a b hab => ?_
    rwa [add_sub_add_right_eq_sub]
  unfold angle at h
  rw [if_pos rfl] at h
  dsimp only at h
  cases c with
  | none =>
    dsimp only at h
    split_ifs at h
    cases h
    obtain ⟨k, hk⟩ := recenter_shift (unwrap (Y.map arg))
    rw [hk]
    exact hs _
  | some i =>
    dsimp only at h
    cases hi : (unwrap (Y.map arg))[i]? with
    | none => rw [hi] at h; cases h
    | some x =>
      rw [hi] at h
      cases h
      exact hs _

/-- **C156, center.**  With a center the phase at the center is within one turn from 0. -/
theorem C156_center {Y : List ℂ} {i : ℕ} (hi : i < Y.length) :
    ∃ l a, angle Y (some i) true = .ok l ∧ l[i]? = some a ∧ 0 ≤ a ∧ a < 2 * Real.pi := by
  have hp := Real.pi_pos
  have hl : (unwrap (Y.map arg)).length = Y.length := by
    rw [(unwrap_turns (Y.map arg)).length_eq, List.length_map]
  unfold angle
  rw [if_pos rfl]
  dsimp only
  cases hx : (unwrap (Y.map arg))[i]? with
  | none =>
    rw [List.getElem?_eq_none_iff, hl] at hx
    omega
  | some x =>
    have a1 := Int.floor_le (x / (2 * Real.pi))
    have a2 := Int.lt_floor_add_one (x / (2 * Real.pi))
    rw [le_div_iff₀ (by linarith)] at a1
    rw [div_lt_iff₀ (by linarith)] at a2
    refine ⟨_, x + -(2 * Real.pi * ⌊x / (2 * Real.pi)⌋), rfl, ?_, by linarith, by linarith⟩
    unfold shift
    rw [List.getElem?_map, hx]
    rfl

theorem recenter_single {a : ℝ} (h : a ≤ 0.95 * Real.pi) : recenter [a] = if 0 < a then [a] else [a + 2 * Real.pi] := by
  have hp := Real.pi_pos
  have c1 : ¬(hi [a] > Real.pi ∧ lo [a] > 0) := by
    rintro ⟨h1, -⟩
    change a > Real.pi at h1
    linarith
  have c2 : ¬(lo [a] > 0.95 * Real.pi) := not_lt.2 h
  have c3 : lo [a] < 2 * Real.pi := by
    change a < 2 * Real.pi
    linarith
  unfold recenter
  dsimp only
  rw [if_neg c1, if_neg c2, if_pos c3]
  by_cases h0 : 0 < a
  · have c4 : hi (shift (2 * Real.pi) [a]) > 2 * Real.pi := by
      change a + 2 * Real.pi > 2 * Real.pi
      linarith
    rw [if_pos c4, if_pos h0]
    simp [shift]
  · have c4 : ¬(hi (shift (2 * Real.pi) [a]) > 2 * Real.pi) := by
      change ¬(a + 2 * Real.pi > 2 * Real.pi)
      linarith
    rw [if_neg c4, if_neg h0]
    rfl

theorem angle_single (y : ℂ) : angle [y] none true = .ok (recenter [arg y]) := rfl

/-- **C156, refuted** without a center: a positive number has the phase 0, and a whole turn if it is in an array. -/
theorem C156_positive_refuted {x : ℝ} (hx : 0 < x) : angle1 x = 0 ∧ angle [(x : ℂ)] none true = .ok [2 * Real.pi] ∧
    angle [(x : ℂ)] (some 0) true = .ok [0] := by
  have hp := Real.pi_pos
  have ha : arg (x : ℂ) = 0 := Complex.arg_ofReal_of_nonneg hx.le
  refine ⟨ha, ?_, ?_⟩
  · rw [angle_single, ha, recenter_single (by linarith), if_neg (lt_irrefl _), zero_add]
  · unfold angle
    rw [if_pos rfl]
    simp [ha, unwrap, unwrapFrom, shift]

/-- **C156, refuted** for neighbours: transfer functions that are as near to each other as one likes are shown a turn apart. -/
theorem C156_jump_refuted {t : ℝ} (h0 : 0 < t) (h1 : t < 1) :
    angle [exp ((t : ℝ) * I)] none true = .ok [t] ∧ angle [exp (((-t : ℝ) : ℂ) * I)] none true = .ok [-t + 2 * Real.pi] := by
  have hp := Real.two_le_pi
  have ha : ∀ s : ℝ, -Real.pi < s → s ≤ Real.pi → arg (exp ((s : ℂ) * I)) = s := fun s a b => by
    rw [Complex.arg_exp_mul_I, toIocMod_eq_self]
    exact ⟨a, by linarith⟩
  rw [angle_single, angle_single, ha t (by linarith) (by linarith), ha (-t) (by linarith) (by linarith),
    recenter_single (by linarith), recenter_single (by linarith), if_pos h0, if_neg (by linarith)]
  exact ⟨rfl, rfl⟩

/-- The hypotheses are met: two points with a center. -/
example : ∃ l a, angle [I, -I] (some 1) true = .ok l ∧ l[1]? = some a ∧ 0 ≤ a ∧ a < 2 * Real.pi := C156_center (by simp)

end Util
