import Verif.Py.Dict
import Mathlib.Analysis.SpecialFunctions.Complex.Arg
import Mathlib.Analysis.SpecialFunctions.Complex.Log
import Mathlib.Tactic.Linarith
import Mathlib.Tactic.FieldSimp
import Mathlib.Tactic.LinearCombination

/-!
# `phasor/utilities/np.py`: phases of complex data, and C123

Numbers are exact.  The division of l.90 is the true one (`from __future__ import division`), so that its result is no index.
-/

namespace Npu
open Py Real

/-- `np.where(cond(np.diff(raw_angle)))[0]`. -/
noncomputable def where_diff (cond : ℝ → Prop) [DecidablePred cond] (raw : List ℝ) : List ℕ :=
  (List.range (raw.length - 1)).filter fun i => cond (raw.getD (i + 1) 0 - raw.getD i 0)

/-- `shift_mod`, l.48-49. -/
def shift_mod (shiftmod val : ℤ) : Except Err ℤ :=
  if shiftmod = 0 then .error .zeroDivision else .ok ((shiftmod + val).fmod (2 * shiftmod) - shiftmod)

/-- The loop of l.50-66, with the lists from their ends; `value_mods` without the factor `2 * np.pi`. -/
def value_mods (shiftmod : ℤ) : ℤ → List ℕ → List ℕ → Except Err (List (ℕ × ℤ))
  | _, [], [] => .ok []
  | shift, u :: us, [] => do
    let shift ← shift_mod shiftmod (shift - 1)
    let l ← value_mods shiftmod shift us []
    .ok ((u + 1, shift) :: l)
  | shift, [], d :: ds => do
    let shift ← shift_mod shiftmod (shift + 1)
    let l ← value_mods shiftmod shift [] ds
    .ok ((d + 1, shift) :: l)
  | shift, u :: us, d :: ds =>
    if u > d then do
      let shift ← shift_mod shiftmod (shift - 1)
      let l ← value_mods shiftmod shift us (d :: ds)
      .ok ((u + 1, shift) :: l)
    else do
      let shift ← shift_mod shiftmod (shift + 1)
      let l ← value_mods shiftmod shift (u :: us) ds
      .ok ((d + 1, shift) :: l)
  termination_by _ us ds => us.length + ds.length

/-- `raw_angle *= 180./np.pi`. -/
noncomputable def to_deg (deg : Bool) (l : List ℝ) : List ℝ := if deg then l.map (· * (180 / π)) else l

/-- `continuous_phase`, l.41-98 (`op_idx` only matters in the lines that end in an error).  With no jumps, l.68-73; the average of no
numbers is `nan`, which is not below anything.  With jumps, l.75-98: `raw_angle[op_idx]` is the angle again after l.82-83, so that the loops
of l.84-87 do nothing, and the index of l.90 is a float. -/
noncomputable def continuous_phase (data : List ℂ) (sep : ℝ) (deg : Bool) (shiftmod : ℤ) : Except Err (List ℝ) := do
  let raw := data.map Complex.arg
  let mods ← value_mods shiftmod 0 (where_diff (fun d => d > |sep|) raw).reverse (where_diff (fun d => d < -|sep|) raw).reverse
  match mods with
  | [] => .ok (to_deg deg (if raw ≠ [] ∧ raw.sum / raw.length < -π / 4 then raw.map (· + π * 2) else raw))
  | _ :: _ => .error .indexError

/-- `x % y` of floats. -/
noncomputable def fmod (x y : ℝ) : ℝ := x - y * ⌊x / y⌋

/-- `mag_phase_signed`, l.129-134, for one number. -/
noncomputable def mag_phase_signed (v : ℂ) (deg : Bool) : ℝ × ℝ :=
  let ang := fmod (v.arg + π * 9 / 4) π - π / 4
  let mag := v * Complex.exp (-Complex.I * ang)
  (mag.re, if deg then 180 / π * ang else ang)

/-- `np.convolve([1, -1], l, mode='valid')`: one number gives two. -/
def convolve (l : List ℝ) : Except Err (List ℝ) :=
  match l with
  | [] => .error .valueError
  | [a] => .ok [a, -a]
  | _ => .ok (List.zipWith (fun b a => b - a) l.tail l)

/-- l.138-139. -/
noncomputable def wrap (d : ℝ) : ℝ :=
  let d := if d > 1 * π then d - 2 * π else d
  if d < -1 * π then d + 2 * π else d

/-- `F[-n:]`. -/
def last_n (n : ℕ) (F : List ℝ) : List ℝ := if n = 0 then F else F.drop (F.length - n)

/-- `group_delay`, l.136-141, for lists of equal length; `zeroDivision` stands for the infinite values that numpy puts where the
frequency does not change. -/
noncomputable def group_delay (F : List ℝ) (data : List ℂ) (mult : ℝ) : Except Err (List ℝ × List ℝ) := do
  let dang ← convolve (data.map Complex.arg)
  let dang := dang.map wrap
  let dF ← convolve F
  if 0 ∈ dF then .error .zeroDivision
  else .ok (last_n dang.length F, List.zipWith (fun a f => mult * a / f) dang dF)

/-! ## Jumps -/

theorem value_mods_cons {shiftmod shift : ℤ} {us ds : List ℕ} {l : List (ℕ × ℤ)} (h : value_mods shiftmod shift us ds = .ok l) :
    l = [] ↔ us = [] ∧ ds = [] := by
  have aux : ∀ {x : Except Err ℤ} {f : ℤ → Except Err (List (ℕ × ℤ))} {g : ℤ → ℕ × ℤ},
      (x >>= fun s => f s >>= fun l => Except.ok (g s :: l)) = .ok l → l ≠ [] := by
    intro x f g h
    cases x with
    | error e => cases h
    | ok s =>
      change (f s >>= fun l => Except.ok (g s :: l)) = _ at h
      cases hf : f s with
      | error e => rw [hf] at h; cases h
      | ok l' => rw [hf] at h; cases h; simp
  rw [value_mods.eq_def] at h
  split at h
  · cases h; simp
  · simpa using aux h
  · simpa using aux h
  · split at h
    · simpa using aux h
    · simpa using aux h

theorem value_mods_ok {shiftmod : ℤ} (hm : shiftmod ≠ 0) (us ds : List ℕ) : ∀ shift, ∃ l, value_mods shiftmod shift us ds = .ok l := by
  induction h : us.length + ds.length generalizing us ds with
  | zero =>
    intro shift
    have h1 : us = [] := List.eq_nil_of_length_eq_zero (by omega)
    have h2 : ds = [] := List.eq_nil_of_length_eq_zero (by omega)
    subst h1 h2
    exact ⟨[], by rw [value_mods.eq_def]⟩
  | succ n ih =>
    intro shift
    have step : ∀ v (us ds : List ℕ) (g : ℤ → ℕ × ℤ), us.length + ds.length = n → ∃ l, (shift_mod shiftmod v >>= fun s =>
        value_mods shiftmod s us ds >>= fun l => Except.ok (g s :: l)) = Except.ok l := by
      intro v us ds g hn
      unfold shift_mod
      rw [if_neg hm]
      change ∃ l, (value_mods shiftmod _ us ds >>= fun l => Except.ok (g _ :: l)) = Except.ok l
      obtain ⟨l, hl⟩ := ih us ds hn ((shiftmod + v).fmod (2 * shiftmod) - shiftmod)
      rw [hl]
      exact ⟨_, rfl⟩
    rw [value_mods.eq_def]
    cases us with
    | nil =>
      cases ds with
      | nil => simp at h
      | cons d ds => exact step _ _ _ _ (by simpa using h)
    | cons u us =>
      cases ds with
      | nil => exact step _ _ _ _ (by simpa using h)
      | cons d ds =>
        dsimp only
        split
        · exact step _ _ _ _ (by simp at h ⊢; omega)
        · exact step _ _ _ _ (by simp at h ⊢; omega)

theorem where_diff_nil {cond : ℝ → Prop} [DecidablePred cond] {raw : List ℝ} :
    where_diff cond raw = [] ↔ ∀ i, i + 1 < raw.length → ¬ cond (raw.getD (i + 1) 0 - raw.getD i 0) := by
  unfold where_diff
  rw [List.filter_eq_nil_iff]
  constructor
  · intro h i hi
    simpa using h i (List.mem_range.2 (by omega))
  · intro h i hi
    simpa using h i (by have := List.mem_range.1 hi; omega)

/-- The angle changes by more than `sep` from one number to the next. -/
def Jumps (data : List ℂ) (sep : ℝ) : Prop := ∃ i, i + 1 < data.length ∧ |sep| < |(data.getD (i + 1) 0).arg - (data.getD i 0).arg|

theorem getD_map_arg (data : List ℂ) (i : ℕ) : (data.map Complex.arg).getD i 0 = (data.getD i 0).arg := by
  rw [List.getD_eq_getElem?_getD, List.getD_eq_getElem?_getD, List.getElem?_map]
  cases data[i]? <;> simp

theorem no_jumps {data : List ℂ} {sep : ℝ} : ((where_diff (fun d => d > |sep|) (data.map Complex.arg)).reverse = [] ∧
    (where_diff (fun d => d < -|sep|) (data.map Complex.arg)).reverse = []) ↔ ¬ Jumps data sep := by
  rw [List.reverse_eq_nil_iff, List.reverse_eq_nil_iff, where_diff_nil, where_diff_nil]
  unfold Jumps
  push Not
  simp only [List.length_map, getD_map_arg]
  constructor
  · rintro ⟨h1, h2⟩ i hi
    rw [abs_le]
    have a := h1 i hi
    have b := h2 i hi
    constructor <;> linarith
  · intro h
    constructor <;> intro i hi
    · have := abs_le.1 (h i hi)
      linarith
    · have := abs_le.1 (h i hi)
      linarith

theorem continuous_eq {data : List ℂ} {sep : ℝ} {deg : Bool} {shiftmod : ℤ} (h : ¬ Jumps data sep) :
    continuous_phase data sep deg shiftmod = .ok (to_deg deg (if data.map Complex.arg ≠ [] ∧
      (data.map Complex.arg).sum / (data.map Complex.arg).length < -π / 4 then (data.map Complex.arg).map (· + π * 2)
      else data.map Complex.arg)) := by
  unfold continuous_phase
  obtain ⟨h1, h2⟩ := no_jumps.2 h
  dsimp only
  rw [h1, h2, value_mods.eq_def]
  rfl

/-- C123, refuted: `continuous_phase` fails on all data with a jump, that is whenever there is anything to make continuous. -/
theorem C123_continuous_refuted {data : List ℂ} {sep : ℝ} {deg : Bool} {shiftmod : ℤ} (hm : shiftmod ≠ 0)
    (h : ∃ i, i + 1 < data.length ∧ |sep| < |(data.getD (i + 1) 0).arg - (data.getD i 0).arg|) :
    continuous_phase data sep deg shiftmod = .error .indexError := by
  unfold continuous_phase
  obtain ⟨l, hl⟩ := value_mods_ok hm (where_diff (fun d => d > |sep|) (data.map Complex.arg)).reverse
    (where_diff (fun d => d < -|sep|) (data.map Complex.arg)).reverse 0
  dsimp only
  rw [hl]
  have := value_mods_cons hl
  rw [no_jumps] at this
  cases l with
  | nil => exact absurd h (this.1 rfl)
  | cons x l => rfl

/-- A quarter turn across the negative real axis, with the default `sep`. -/
example : continuous_phase [-1, -Complex.I] (1.01 * π) false 2 = .error .indexError := by
  refine C123_continuous_refuted (by norm_num) ⟨0, by simp, ?_⟩
  have := Real.pi_pos
  simp only [List.getD_cons_succ, List.getD_cons_zero, Complex.arg_neg_I, Complex.arg_neg_one]
  rw [abs_of_nonneg (by positivity), abs_of_neg (by linarith)]
  linarith

/-- C123, in part: without a jump the result has an angle of every number, and neighbouring angles differ by at most `sep`.  Missing, since
it is false (`C123_continuous_refuted`): data with jumps. -/
theorem C123_continuous_partial {data : List ℂ} {sep : ℝ} {shiftmod : ℤ}
    (h : ∀ i, i + 1 < data.length → |(data.getD (i + 1) 0).arg - (data.getD i 0).arg| ≤ |sep|) :
    ∃ r, continuous_phase data sep false shiftmod = .ok r ∧ continuous_phase data sep true shiftmod = .ok (r.map (· * (180 / π))) ∧
      r.length = data.length ∧ (∀ i < data.length, (‖data.getD i 0‖ : ℂ) * Complex.exp (r.getD i 0 * Complex.I) = data.getD i 0) ∧
      ∀ i, i + 1 < data.length → |r.getD (i + 1) 0 - r.getD i 0| ≤ |sep| := by
  have hj : ¬ Jumps data sep := by
    rintro ⟨i, h1, h2⟩
    exact absurd (h i h1) (not_le.2 h2)
  rw [continuous_eq hj, continuous_eq hj]
  refine ⟨_, rfl, rfl, ?_⟩
  dsimp only [to_deg]
  rw [if_neg (by simp)]
  split
  · refine ⟨by simp, ?_, ?_⟩
    · intro i hi
      have : ((data.map Complex.arg).map (· + π * 2)).getD i 0 = (data.getD i 0).arg + π * 2 := by
        rw [List.getD_eq_getElem?_getD, List.getElem?_map, List.getElem?_map, List.getD_eq_getElem?_getD, List.getElem?_eq_getElem hi]
        rfl
      rw [this]
      have e : (((data.getD i 0).arg + π * 2 : ℝ) : ℂ) * Complex.I = (data.getD i 0).arg * Complex.I + 2 * π * Complex.I := by
        push_cast; ring
      rw [e, Complex.exp_add, Complex.exp_two_pi_mul_I, mul_one]
      exact Complex.norm_mul_exp_arg_mul_I _
    · intro i hi
      have : ∀ k < data.length, ((data.map Complex.arg).map (· + π * 2)).getD k 0 = (data.getD k 0).arg + π * 2 := by
        intro k hk
        rw [List.getD_eq_getElem?_getD, List.getElem?_map, List.getElem?_map, List.getD_eq_getElem?_getD, List.getElem?_eq_getElem hk]
        rfl
      rw [this _ hi, this i (by omega)]
      have := h i hi
      rwa [add_sub_add_right_eq_sub]
  · refine ⟨by simp, ?_, ?_⟩
    · intro i hi
      rw [getD_map_arg]
      exact Complex.norm_mul_exp_arg_mul_I _
    · intro i hi
      rw [getD_map_arg, getD_map_arg]
      exact h i hi

/-! ## Signed magnitude -/

theorem fmod_bounds (x : ℝ) {y : ℝ} (hy : 0 < y) : 0 ≤ fmod x y ∧ fmod x y < y := by
  unfold fmod
  have h1 := Int.floor_le (x / y)
  have h2 := Int.lt_floor_add_one (x / y)
  rw [le_div_iff₀ hy] at h1
  rw [div_lt_iff₀ hy] at h2
  constructor <;> nlinarith

/-- The angle that `mag_phase_signed` takes. -/
noncomputable def ang_of (v : ℂ) : ℝ := fmod (v.arg + π * 9 / 4) π - π / 4

theorem exp_int_pi (k : ℤ) : Complex.exp ((k : ℂ) * π * Complex.I) = (-1 : ℂ) ^ k := by
  rw [mul_assoc, Complex.exp_int_mul, Complex.exp_pi_mul_I]

theorem mag_eq (v : ℂ) : ∃ k : ℤ, v * Complex.exp (-Complex.I * ang_of v) = ‖v‖ * (-1 : ℂ) ^ k := by
  refine ⟨⌊(v.arg + π * 9 / 4) / π⌋, ?_⟩
  generalize hk : ⌊(v.arg + π * 9 / 4) / π⌋ = k
  have ha : ((ang_of v : ℝ) : ℂ) = v.arg + 2 * π - π * k := by
    unfold ang_of fmod
    rw [hk]
    push_cast
    ring
  calc v * Complex.exp (-Complex.I * ang_of v)
      = (‖v‖ * Complex.exp (v.arg * Complex.I)) * Complex.exp (-Complex.I * ang_of v) := by rw [Complex.norm_mul_exp_arg_mul_I]
    _ = ‖v‖ * Complex.exp ((k : ℂ) * π * Complex.I - 2 * π * Complex.I) := by
      rw [ha, mul_assoc, ← Complex.exp_add]
      congr 2
      ring
    _ = _ := by rw [Complex.exp_sub, Complex.exp_two_pi_mul_I, div_one, exp_int_pi]

theorem mag_real (v : ℂ) : (((v * Complex.exp (-Complex.I * ang_of v)).re : ℝ) : ℂ) = v * Complex.exp (-Complex.I * ang_of v) := by
  obtain ⟨k, hk⟩ := mag_eq v
  rw [hk]
  rcases Int.even_or_odd k with h | h
  · rw [h.neg_one_zpow]; simp
  · rw [h.neg_one_zpow]; simp

/-- C123: the signed magnitude and the angle of `mag_phase_signed` make up the number again, and the angle is at least -45 and below 135
degrees. -/
theorem C123_signed (v : ℂ) :
    let r := mag_phase_signed v false
    (r.1 : ℂ) * Complex.exp (r.2 * Complex.I) = v ∧ -(π / 4) ≤ r.2 ∧ r.2 < 3 * π / 4 ∧
      mag_phase_signed v true = (r.1, 180 / π * r.2) := by
  have hb := fmod_bounds (v.arg + π * 9 / 4) Real.pi_pos
  refine ⟨?_, ?_, ?_, rfl⟩
  · show (((v * Complex.exp (-Complex.I * ang_of v)).re : ℝ) : ℂ) * Complex.exp ((ang_of v : ℝ) * Complex.I) = v
    rw [mag_real, mul_assoc, ← Complex.exp_add]
    have : -Complex.I * (ang_of v : ℂ) + ang_of v * Complex.I = 0 := by ring
    rw [this, Complex.exp_zero, mul_one]
  · show -(π / 4) ≤ fmod _ _ - π / 4
    linarith [hb.1]
  · show fmod _ _ - π / 4 < _
    linarith [hb.2]

/-- C123: no other signed magnitude and angle in that range do so. -/
theorem C123_signed_unique {v : ℂ} (hv : v ≠ 0) {m a : ℝ} (h : (m : ℂ) * Complex.exp (a * Complex.I) = v) (h1 : -(π / 4) ≤ a)
    (h2 : a < 3 * π / 4) : mag_phase_signed v false = (m, a) := by
  obtain ⟨g, g1, g2, -⟩ := C123_signed v
  generalize hr : mag_phase_signed v false = r at g g1 g2
  obtain ⟨m', a'⟩ := r
  dsimp only at g g1 g2
  have hm : m ≠ 0 := by rintro rfl; apply hv; rw [← h]; simp
  have hs : Real.sin (a - a') = 0 := by
    have e : (m : ℂ) * Complex.exp ((a - a' : ℝ) * Complex.I) = m' := by
      have : ((a - a' : ℝ) : ℂ) * Complex.I = a * Complex.I - a' * Complex.I := by push_cast; ring
      rw [this, Complex.exp_sub, ← mul_div_assoc, h, ← g, mul_div_assoc, div_self (Complex.exp_ne_zero _), mul_one]
    have := congrArg Complex.im e
    rw [Complex.im_ofReal_mul, Complex.exp_ofReal_mul_I_im, Complex.ofReal_im] at this
    rcases mul_eq_zero.1 this with h | h
    · exact absurd h hm
    · exact h
  have haa : a = a' := by
    rw [Real.sin_eq_zero_iff_of_lt_of_lt (by linarith) (by linarith)] at hs
    linarith
  subst haa
  have : (m : ℂ) = m' := by
    apply mul_right_cancel₀ (Complex.exp_ne_zero (a * Complex.I))
    rw [h, g]
  rw [Complex.ofReal_inj] at this
  rw [this]

example : mag_phase_signed (-1) false = (-1, 0) :=
  C123_signed_unique (by norm_num) (by simp) (by linarith [Real.pi_pos]) (by linarith [Real.pi_pos])

/-! ## Group delay -/

theorem wrap_spec {d : ℝ} (h1 : -(2 * π) < d) (h2 : d < 2 * π) :
    |wrap d| ≤ π ∧ ∃ k : ℤ, wrap d = d + 2 * π * k := by
  have hp := Real.pi_pos
  unfold wrap
  dsimp only
  split
  · rw [if_neg (by linarith)]
    refine ⟨by rw [abs_le]; constructor <;> linarith, -1, by push_cast; ring⟩
  · split
    · refine ⟨by rw [abs_le]; constructor <;> linarith, 1, by push_cast; ring⟩
    · refine ⟨by rw [abs_le]; constructor <;> linarith, 0, by push_cast; ring⟩

theorem zipWith_tail_getElem? (l : List ℝ) (i : ℕ) (h : i + 1 < l.length) :
    (List.zipWith (fun b a => b - a) l.tail l)[i]? = some (l.getD (i + 1) 0 - l.getD i 0) := by
  rw [List.getElem?_zipWith, List.getElem?_tail, List.getElem?_eq_getElem h, List.getElem?_eq_getElem (by omega : i < l.length)]
  simp [h, (by omega : i < l.length)]

theorem convolve_two {l : List ℝ} (h : 2 ≤ l.length) : convolve l = .ok (List.zipWith (fun b a => b - a) l.tail l) := by
  match l, h with
  | a :: b :: l, _ => rfl

/-- C123: the delays are the changes of the phase, taken the short way round, over those of the frequency; there is one less than there
are frequencies, at all but the first. -/
theorem C123_delay {F : List ℝ} {data : List ℂ} (hl : F.length = data.length) (h2 : 2 ≤ F.length)
    (hF : ∀ i, i + 1 < F.length → F.getD (i + 1) 0 ≠ F.getD i 0) (mult : ℝ) :
    ∃ D, group_delay F data mult = .ok (F.tail, D) ∧ D.length + 1 = F.length ∧
      ∀ i, i + 1 < F.length → ∃ d : ℝ, D.getD i 0 = mult * d / (F.getD (i + 1) 0 - F.getD i 0) ∧ |d| ≤ π ∧
        Complex.exp (d * Complex.I) = Complex.exp ((data.getD (i + 1) 0).arg * Complex.I) / Complex.exp ((data.getD i 0).arg * Complex.I) := by
  have hdl : (data.map Complex.arg).length = F.length := by rw [List.length_map, hl]
  have hz : (0 : ℝ) ∉ List.zipWith (fun b a => b - a) F.tail F := by
    intro h
    obtain ⟨i, hi⟩ := List.mem_iff_getElem?.1 h
    have hi' : i + 1 < F.length := by
      have := (List.getElem?_eq_some_iff.1 hi).1
      rw [List.length_zipWith, List.length_tail] at this
      omega
    rw [zipWith_tail_getElem? _ _ hi'] at hi
    have := Option.some.inj hi
    exact hF i hi' (by linarith)
  refine ⟨List.zipWith (fun a f => mult * a / f) ((List.zipWith (fun b a => b - a) (data.map Complex.arg).tail (data.map Complex.arg)).map wrap)
    (List.zipWith (fun b a => b - a) F.tail F), ?_, ?_, ?_⟩
  · unfold group_delay
    rw [convolve_two (by omega), convolve_two h2]
    change (if _ then _ else _) = _
    rw [if_neg hz]
    congr 2
    unfold last_n
    have hlen : ((List.zipWith (fun b a => b - a) (data.map Complex.arg).tail (data.map Complex.arg)).map wrap).length = F.length - 1 := by
      rw [List.length_map, List.length_zipWith, List.length_tail, hdl]
      omega
    rw [hlen, if_neg (by omega), show F.length - (F.length - 1) = 1 by omega, List.drop_one]
  · simp only [List.length_zipWith, List.length_map, List.length_tail]
    omega
  · intro i hi
    have hg : (List.zipWith (fun a f => mult * a / f) ((List.zipWith (fun b a => b - a) (data.map Complex.arg).tail
        (data.map Complex.arg)).map wrap) (List.zipWith (fun b a => b - a) F.tail F))[i]? =
        some (mult * wrap ((data.getD (i + 1) 0).arg - (data.getD i 0).arg) / (F.getD (i + 1) 0 - F.getD i 0)) := by
      rw [List.getElem?_zipWith, List.getElem?_map, zipWith_tail_getElem? _ _ (by omega), zipWith_tail_getElem? _ _ hi]
      simp only [Option.map_some, getD_map_arg]
    refine ⟨wrap ((data.getD (i + 1) 0).arg - (data.getD i 0).arg), ?_, ?_, ?_⟩
    · rw [List.getD_eq_getElem?_getD, hg]
      rfl
    all_goals
      have a1 := Complex.neg_pi_lt_arg (data.getD (i + 1) 0)
      have a2 := Complex.arg_le_pi (data.getD (i + 1) 0)
      have b1 := Complex.neg_pi_lt_arg (data.getD i 0)
      have b2 := Complex.arg_le_pi (data.getD i 0)
      obtain ⟨w1, k, w2⟩ := wrap_spec (d := (data.getD (i + 1) 0).arg - (data.getD i 0).arg) (by linarith) (by linarith)
    · exact w1
    · rw [w2, ← Complex.exp_sub]
      have : (((data.getD (i + 1) 0).arg - (data.getD i 0).arg + 2 * π * k : ℝ) : ℂ) * Complex.I =
          ((data.getD (i + 1) 0).arg * Complex.I - (data.getD i 0).arg * Complex.I) + k * (2 * π * Complex.I) := by
        push_cast; ring
      rw [this, Complex.exp_add, Complex.exp_int_mul_two_pi_mul_I, mul_one]

theorem exp_arg {v : ℂ} (hv : v ≠ 0) : Complex.exp (v.arg * Complex.I) = v / ‖v‖ := by
  have h : (‖v‖ : ℂ) ≠ 0 := by simpa using hv
  rw [eq_div_iff h, mul_comm, Complex.norm_mul_exp_arg_mul_I]

/-- C123: for a pure delay, sampled in steps of less than half a turn, every delay found is the true one. -/
theorem C123_pure_delay {F : List ℝ} {data : List ℂ} (hl : F.length = data.length) (h2 : 2 ≤ F.length)
    (hF : ∀ i, i + 1 < F.length → F.getD (i + 1) 0 ≠ F.getD i 0) {A : ℂ} (hA : A ≠ 0) {tau : ℝ}
    (hd : ∀ i < F.length, data.getD i 0 = A * Complex.exp (Complex.I * tau * F.getD i 0))
    (hs : ∀ i, i + 1 < F.length → |tau * (F.getD (i + 1) 0 - F.getD i 0)| < π) (mult : ℝ) :
    group_delay F data mult = .ok (F.tail, List.replicate (F.length - 1) (mult * tau)) := by
  obtain ⟨D, h, hlen, hD⟩ := C123_delay hl h2 hF mult
  rw [h]
  congr 2
  refine List.eq_replicate_iff.2 ⟨by omega, ?_⟩
  intro x hx
  obtain ⟨i, hi⟩ := List.mem_iff_getElem?.1 hx
  have hi' : i + 1 < F.length := by
    have := (List.getElem?_eq_some_iff.1 hi).1
    omega
  obtain ⟨d, e1, e2, e3⟩ := hD i hi'
  rw [List.getD_eq_getElem?_getD, hi, Option.getD_some] at e1
  have hne : F.getD (i + 1) 0 - F.getD i 0 ≠ 0 := sub_ne_zero.2 (hF i hi')
  have hstep := hs i hi'
  have hexp : Complex.exp (d * Complex.I) = Complex.exp ((tau * (F.getD (i + 1) 0 - F.getD i 0) : ℝ) * Complex.I) := by
    have hn : ∀ k < F.length, data.getD k 0 ≠ 0 ∧ (‖data.getD k 0‖ : ℂ) = ‖A‖ := by
      intro k hk
      rw [hd k hk]
      refine ⟨mul_ne_zero hA (Complex.exp_ne_zero _), ?_⟩
      rw [norm_mul, show Complex.I * (tau : ℂ) * (F.getD k 0 : ℂ) = ((tau * F.getD k 0 : ℝ) : ℂ) * Complex.I by push_cast; ring,
        Complex.norm_exp_ofReal_mul_I, mul_one]
    have hA' : (‖A‖ : ℂ) ≠ 0 := by simpa using hA
    rw [e3, exp_arg (hn _ hi').1, exp_arg (hn i (by omega)).1, (hn _ hi').2, (hn i (by omega)).2, div_div_div_cancel_right₀ hA',
      hd _ hi', hd i (by omega), mul_div_mul_left _ _ hA, ← Complex.exp_sub]
    congr 1
    push_cast
    ring
  have hdd : d = tau * (F.getD (i + 1) 0 - F.getD i 0) := by
    rw [Complex.exp_eq_exp_iff_exists_int] at hexp
    obtain ⟨n, hn⟩ := hexp
    have hn' : d = tau * (F.getD (i + 1) 0 - F.getD i 0) + n * (2 * π) := by
      have h3 : ((d : ℝ) : ℂ) * Complex.I = ((tau * (F.getD (i + 1) 0 - F.getD i 0) + n * (2 * π) : ℝ) : ℂ) * Complex.I := by
        rw [hn]; push_cast; ring
      have := mul_right_cancel₀ Complex.I_ne_zero h3
      exact_mod_cast this
    have hp := Real.pi_pos
    rw [abs_lt] at hstep
    rw [abs_le] at e2
    have n1 : (n : ℝ) < 1 := by
      by_contra hc
      push Not at hc
      nlinarith
    have n2 : (-1 : ℝ) < n := by
      by_contra hc
      push Not at hc
      nlinarith
    have : n = 0 := by
      have a : n < 1 := by exact_mod_cast n1
      have b : -1 < n := by exact_mod_cast n2
      omega
    rw [hn', this]
    simp
  rw [e1, hdd]
  field_simp

example : group_delay [0, 1] [1, Complex.exp Complex.I] 3 = .ok ([1], [3]) := by
  have hp := Real.two_le_pi
  have h := C123_pure_delay (F := [0, 1]) (data := [1, Complex.exp Complex.I]) rfl (by simp) (by
    intro i hi
    have : i = 0 := by simpa using hi
    subst this
    simp) (A := 1) one_ne_zero (tau := 1) (by
    intro i hi
    have : i = 0 ∨ i = 1 := by simp at hi; omega
    rcases this with rfl | rfl <;> simp) (by
    intro i hi
    have : i = 0 := by simpa using hi
    subst this
    simp
    linarith) 3
  simpa using h

/-- C123, refuted for a single frequency: two delays at one frequency. -/
theorem C123_single_refuted : group_delay [1] [Complex.I] 1 = .ok ([1], [π / 2, π / 2]) := by
  have hp := Real.pi_pos
  unfold group_delay convolve
  simp only [List.map_cons, List.map_nil, Complex.arg_I]
  have w1 : wrap (π / 2) = π / 2 := by
    unfold wrap
    dsimp only
    rw [if_neg (show ¬ π / 2 > 1 * π by linarith), if_neg (show ¬ π / 2 < -1 * π by linarith)]
  have w2 : wrap (-(π / 2)) = -(π / 2) := by
    unfold wrap
    dsimp only
    rw [if_neg (show ¬ -(π / 2) > 1 * π by linarith), if_neg (show ¬ -(π / 2) < -1 * π by linarith)]
  change (if _ then _ else _) = _
  rw [if_neg (by norm_num)]
  simp [last_n, w1, w2]

end Npu
