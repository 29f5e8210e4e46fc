import Mathlib.Tactic.LinearCombination
import Mathlib.Tactic.FieldSimp
import Mathlib.Data.List.Infix
import Verif.Beam.Basic

/-!
# Polarization in a ring of mirrors (C138)

Source: `/repo/phasor/optics/tools/polizarization_circulation.py`.  Arrays of three numbers are `V3`; numbers are real, so that the division by
the length of a vector that is zero raises where numpy returns nan.
-/

namespace Circulation
open Py Alm

variable {V : Type} [Field V] [LinearOrder V]

/-! ## model -/

/-- An array of three numbers. -/
@[ext] structure V3 (V : Type) where
  x : V
  y : V
  z : V

namespace V3

/-- `a + b`. -/
def add (a b : V3 V) : V3 V := ⟨a.x + b.x, a.y + b.y, a.z + b.z⟩

/-- `a - b`. -/
def sub (a b : V3 V) : V3 V := ⟨a.x - b.x, a.y - b.y, a.z - b.z⟩

/-- `k * a`. -/
def smul (k : V) (a : V3 V) : V3 V := ⟨k * a.x, k * a.y, k * a.z⟩

/-- `np.dot`. -/
def dot (a b : V3 V) : V := a.x * b.x + a.y * b.y + a.z * b.z

/-- `np.cross`. -/
def cross (a b : V3 V) : V3 V := ⟨a.y * b.z - a.z * b.y, a.z * b.x - a.x * b.z, a.x * b.y - a.y * b.x⟩

end V3

open V3

/-- `normalize`, l.6-7; the second argument of `old_div` is the length, of a float. -/
def normalize (sqrt : V → Except Err V) (v : V3 V) : Except Err (V3 V) := do
  let n ← sqrt (dot v v)
  let x ← pydiv v.x n
  let y ← pydiv v.y n
  let z ← pydiv v.z n
  return ⟨x, y, z⟩

/-- `project_away`, l.9-11. -/
def project_away (v N : V3 V) : V3 V := sub v (smul (dot v N) N)

/-- `reflect_through`, l.13-16. -/
def reflect_through (v N : V3 V) : V3 V := sub v (smul (dot v N) (smul 2 N))

/-- The loops of l.25-29 and of l.36-40: the unit vectors from each of a list of vectors to the next. -/
def steps (sqrt : V → Except Err V) : V3 V → List (V3 V) → Except Err (List (V3 V))
  | _, [] => .ok []
  | prev, p :: l => do
    let v ← normalize sqrt (sub p prev)
    let vs ← steps sqrt p l
    return v :: vs

/-- `np.roll(_, -1, axis = 0)`. -/
def roll {α : Type} : List α → List α
  | [] => []
  | a :: l => l ++ [a]

/-- The four entries of the result of `polarization_circulation`. -/
structure Jones (V : Type) where
  pp : V
  ps : V
  sp : V
  ss : V

/-- `polarization_circulation`, l.43-62, of the pointings and the normals. -/
def jones (sqrt : V → Except Err V) (v_s N_s : List (V3 V)) : Except Err (Jones V) :=
  match v_s.getLast?, v_s.head? with
  | some vl, some v0 => do
    let pol_p ← normalize sqrt (project_away vl v0)
    let pol_s ← normalize sqrt (cross pol_p v0)
    let pol_p_new := (roll N_s).foldl reflect_through pol_p
    let pol_s_new := (roll N_s).foldl reflect_through pol_s
    return ⟨dot pol_p_new pol_p, dot pol_p_new pol_s, dot pol_s_new pol_p, dot pol_s_new pol_s⟩
  | _, _ => .error .indexError

/-- The normals, l.34-41. -/
def normals (sqrt : V → Except Err V) (v_s : List (V3 V)) : Except Err (List (V3 V)) :=
  match v_s.getLast? with
  | none => .error .indexError
  | some vl => steps sqrt vl v_s

/-- The pointings, l.23-31: each is from a position to the next one. -/
def pointings (sqrt : V → Except Err V) (p_s : List (V3 V)) : Except Err (List (V3 V)) :=
  match p_s.getLast? with
  | none => .error .indexError
  | some pl => do
    let v_s ← steps sqrt pl p_s
    return roll v_s

/-- `polarization_circulation`, l.19-63. -/
def polarization_circulation (sqrt : V → Except Err V) (p_s : List (V3 V)) : Except Err (Jones V) := do
  let v_s ← pointings sqrt p_s
  let N_s ← normals sqrt v_s
  jones sqrt v_s N_s

/-! ## unit vectors -/

theorem bind_inv {α β : Type} {x : Except Err α} {f : α → Except Err β} {b : β} (h : (x >>= f) = .ok b) : ∃ a, x = .ok a ∧ f a = .ok b := by
  cases x with
  | error e => cases h
  | ok a => exact ⟨a, rfl, h⟩

theorem dot_pos {v : V3 ℝ} (h : v ≠ ⟨0, 0, 0⟩) : 0 < dot v v := by
  have h0 : 0 ≤ dot v v := by unfold dot; nlinarith [mul_self_nonneg v.x, mul_self_nonneg v.y, mul_self_nonneg v.z]
  rcases h0.lt_or_eq with h1 | h1
  · exact h1
  · exfalso
    apply h
    unfold dot at h1
    ext
    · exact mul_self_eq_zero.1 (by nlinarith [mul_self_nonneg v.x, mul_self_nonneg v.y, mul_self_nonneg v.z])
    · exact mul_self_eq_zero.1 (by nlinarith [mul_self_nonneg v.x, mul_self_nonneg v.y, mul_self_nonneg v.z])
    · exact mul_self_eq_zero.1 (by nlinarith [mul_self_nonneg v.x, mul_self_nonneg v.y, mul_self_nonneg v.z])

theorem dot_nonneg (v : V3 ℝ) : 0 ≤ dot v v := by
  unfold dot
  nlinarith [mul_self_nonneg v.x, mul_self_nonneg v.y, mul_self_nonneg v.z]

/-- **C138, normalize.**  What is normalized is a positive multiple of the result, whose length is one. -/
theorem C138_normalize (v w : V3 ℝ) : normalize rsqrt v = .ok w ↔ dot w w = 1 ∧ ∃ r : ℝ, 0 < r ∧ v = smul r w := by
  constructor
  · intro h
    unfold normalize at h
    rw [rsqrt_ok (dot_nonneg v)] at h
    by_cases h0 : Real.sqrt (dot v v) = 0
    · have : (pydiv v.x (Real.sqrt (dot v v)) : Except Err ℝ) = .error .zeroDivision := if_pos h0
      rw [bind_ok, this] at h
      cases h
    · rw [bind_ok, pydiv_ok h0, pydiv_ok h0, pydiv_ok h0] at h
      have hw : w = ⟨v.x / Real.sqrt (dot v v), v.y / Real.sqrt (dot v v), v.z / Real.sqrt (dot v v)⟩ := by
        injection h with h
        exact h.symm
      have hs := Real.sq_sqrt (dot_nonneg v)
      subst hw
      refine ⟨?_, Real.sqrt (dot v v), lt_of_le_of_ne (Real.sqrt_nonneg _) (Ne.symm h0), ?_⟩
      · show v.x / _ * (v.x / _) + v.y / _ * (v.y / _) + v.z / _ * (v.z / _) = 1
        field_simp
        rw [hs]
        unfold dot
        ring
      · ext
        · show v.x = _ * (v.x / _)
          field_simp
        · show v.y = _ * (v.y / _)
          field_simp
        · show v.z = _ * (v.z / _)
          field_simp
  · rintro ⟨h1, r, hr, rfl⟩
    have hd : dot (smul r w) (smul r w) = r ^ 2 := by
      unfold dot at h1 ⊢
      unfold smul
      linear_combination r ^ 2 * h1
    unfold normalize
    rw [hd, rsqrt_ok (sq_nonneg r), Real.sqrt_sq hr.le, bind_ok, pydiv_ok hr.ne', pydiv_ok hr.ne', pydiv_ok hr.ne']
    show Except.ok _ = _
    congr 1
    ext
    · exact mul_div_cancel_left₀ _ hr.ne'
    · exact mul_div_cancel_left₀ _ hr.ne'
    · exact mul_div_cancel_left₀ _ hr.ne'

theorem normalize_ex {v : V3 ℝ} (h : v ≠ ⟨0, 0, 0⟩) : ∃ w, normalize rsqrt v = .ok w := by
  have hp := dot_pos h
  have h0 : Real.sqrt (dot v v) ≠ 0 := (Real.sqrt_pos.2 hp).ne'
  unfold normalize
  rw [rsqrt_ok hp.le, bind_ok, pydiv_ok h0, pydiv_ok h0, pydiv_ok h0]
  exact ⟨_, rfl⟩

theorem normalize_zero {v : V3 ℝ} (h : v = ⟨0, 0, 0⟩) : normalize rsqrt v = .error .zeroDivision := by
  subst h
  have hd : dot (⟨0, 0, 0⟩ : V3 ℝ) ⟨0, 0, 0⟩ = 0 := by unfold dot; ring
  unfold normalize
  rw [hd, rsqrt_ok le_rfl, Real.sqrt_zero, bind_ok]
  have : (pydiv (0 : ℝ) 0 : Except Err ℝ) = .error .zeroDivision := if_pos rfl
  show (pydiv (0 : ℝ) 0 >>= _) = _
  rw [this]
  rfl

/-! ## mirrors -/

/-- **C138, reflections.**  A reflection through a unit vector keeps lengths and angles, turns a frame over and is its own inverse. -/
theorem C138_reflect {N : V3 ℝ} (h : dot N N = 1) (a b : V3 ℝ) :
    dot (reflect_through a N) (reflect_through b N) = dot a b ∧
      cross (reflect_through a N) (reflect_through b N) = smul (-1) (reflect_through (cross a b) N) ∧
      reflect_through (reflect_through a N) N = a := by
  unfold dot at h
  refine ⟨?_, ?_, ?_⟩
  · simp only [dot, reflect_through, sub, smul]
    linear_combination 4 * (a.x * N.x + a.y * N.y + a.z * N.z) * (b.x * N.x + b.y * N.y + b.z * N.z) * h
  · ext
    · simp only [cross, dot, reflect_through, sub, smul]
      linear_combination (-2 * (a.y * b.z - a.z * b.y)) * h
    · simp only [cross, dot, reflect_through, sub, smul]
      linear_combination (-2 * (a.z * b.x - a.x * b.z)) * h
    · simp only [cross, dot, reflect_through, sub, smul]
      linear_combination (-2 * (a.x * b.y - a.y * b.x)) * h
  · ext
    · simp only [dot, reflect_through, sub, smul]
      linear_combination (4 * (a.x * N.x + a.y * N.y + a.z * N.z) * N.x) * h
    · simp only [dot, reflect_through, sub, smul]
      linear_combination (4 * (a.x * N.x + a.y * N.y + a.z * N.z) * N.y) * h
    · simp only [dot, reflect_through, sub, smul]
      linear_combination (4 * (a.x * N.x + a.y * N.y + a.z * N.z) * N.z) * h

/-- **C138, mirrors.**  The mirror between two pointings reflects the first into the second. -/
theorem C138_mirror {v w N : V3 ℝ} (hv : dot v v = 1) (hw : dot w w = 1) (h : normalize rsqrt (sub v w) = .ok N) :
    dot N N = 1 ∧ reflect_through w N = v := by
  obtain ⟨hN, r, hr, e⟩ := (C138_normalize _ _).1 h
  refine ⟨hN, ?_⟩
  have ex : v.x = w.x + r * N.x := by have := congrArg V3.x e; simp only [sub, smul] at this; linarith
  have ey : v.y = w.y + r * N.y := by have := congrArg V3.y e; simp only [sub, smul] at this; linarith
  have ez : v.z = w.z + r * N.z := by have := congrArg V3.z e; simp only [sub, smul] at this; linarith
  have hd : r = -2 * dot w N := by
    have : r * (r + 2 * dot w N) = 0 := by
      unfold dot at hv hw hN ⊢
      rw [ex, ey, ez] at hv
      linear_combination hv - hw - r ^ 2 * hN
    rcases mul_eq_zero.1 this with h0 | h0
    · exact absurd h0 hr.ne'
    · linarith
  ext
  · simp only [reflect_through, sub, smul]
    rw [ex]
    linear_combination (-N.x) * hd
  · simp only [reflect_through, sub, smul]
    rw [ey]
    linear_combination (-N.y) * hd
  · simp only [reflect_through, sub, smul]
    rw [ez]
    linear_combination (-N.z) * hd

theorem reflect_add (a b N : V3 ℝ) : reflect_through (add a b) N = add (reflect_through a N) (reflect_through b N) := by
  ext <;> simp only [reflect_through, sub, smul, dot, add] <;> ring

theorem reflect_smul (k : ℝ) (a N : V3 ℝ) : reflect_through (smul k a) N = smul k (reflect_through a N) := by
  ext <;> simp only [reflect_through, sub, smul, dot] <;> ring

/-- Reflections one after the other. -/
noncomputable def refl (l : List (V3 ℝ)) (a : V3 ℝ) : V3 ℝ := l.foldl reflect_through a

theorem refl_add : ∀ (l : List (V3 ℝ)) (a b : V3 ℝ), refl l (add a b) = add (refl l a) (refl l b)
  | [], _, _ => rfl
  | N :: l, a, b => by
    show refl l (reflect_through (add a b) N) = _
    rw [reflect_add, refl_add l]
    rfl

theorem refl_smul : ∀ (l : List (V3 ℝ)) (k : ℝ) (a : V3 ℝ), refl l (smul k a) = smul k (refl l a)
  | [], _, _ => rfl
  | N :: l, k, a => by
    show refl l (reflect_through (smul k a) N) = _
    rw [reflect_smul, refl_smul l]
    rfl

theorem refl_dot : ∀ (l : List (V3 ℝ)), (∀ N ∈ l, dot N N = 1) → ∀ a b : V3 ℝ, dot (refl l a) (refl l b) = dot a b
  | [], _, _, _ => rfl
  | N :: l, h, a, b => by
    show dot (refl l (reflect_through a N)) (refl l (reflect_through b N)) = _
    rw [refl_dot l (fun M hM => h M (List.mem_cons_of_mem _ hM)), (C138_reflect (h N List.mem_cons_self) a b).1]

theorem smul_smul (j k : ℝ) (a : V3 ℝ) : smul j (smul k a) = smul (j * k) a := by
  ext <;> simp only [smul] <;> ring

theorem refl_cross : ∀ (l : List (V3 ℝ)), (∀ N ∈ l, dot N N = 1) → ∀ a b : V3 ℝ,
    cross (refl l a) (refl l b) = smul ((-1) ^ l.length) (refl l (cross a b))
  | [], _, a, b => by
    show cross a b = smul (1 : ℝ) (cross a b)
    ext <;> simp only [smul] <;> ring
  | N :: l, h, a, b => by
    show cross (refl l (reflect_through a N)) (refl l (reflect_through b N)) = smul _ (refl l (reflect_through (cross a b) N))
    rw [refl_cross l (fun M hM => h M (List.mem_cons_of_mem _ hM)), (C138_reflect (h N List.mem_cons_self) a b).2.1, refl_smul, smul_smul,
      List.length_cons, pow_succ]

theorem refl_append (l m : List (V3 ℝ)) (a : V3 ℝ) : refl (l ++ m) a = refl m (refl l a) := List.foldl_append

/-! ## the ring -/

theorem steps_cons {prev p : V3 ℝ} {l vs : List (V3 ℝ)} (h : steps rsqrt prev (p :: l) = .ok vs) :
    ∃ v r, vs = v :: r ∧ normalize rsqrt (sub p prev) = .ok v ∧ steps rsqrt p l = .ok r := by
  unfold steps at h
  obtain ⟨v, h1, h⟩ := bind_inv h
  obtain ⟨r, h2, h⟩ := bind_inv h
  injection h with h
  exact ⟨v, r, h.symm, h1, h2⟩

theorem steps_mk {prev p v : V3 ℝ} {l r : List (V3 ℝ)} (h1 : normalize rsqrt (sub p prev) = .ok v) (h2 : steps rsqrt p l = .ok r) :
    steps rsqrt prev (p :: l) = .ok (v :: r) := by
  unfold steps
  rw [h1, bind_ok, h2]
  rfl

theorem steps_unit : ∀ {l : List (V3 ℝ)} {prev : V3 ℝ} {vs : List (V3 ℝ)}, steps rsqrt prev l = .ok vs →
    vs.length = l.length ∧ ∀ v ∈ vs, dot v v = 1
  | [], prev, vs, h => by
    injection h with h
    subst h
    exact ⟨rfl, fun v hv => absurd hv (List.not_mem_nil)⟩
  | p :: l, prev, vs, h => by
    obtain ⟨v, r, rfl, h1, h2⟩ := steps_cons h
    obtain ⟨i1, i2⟩ := steps_unit h2
    refine ⟨by rw [List.length_cons, List.length_cons, i1], fun u hu => ?_⟩
    rcases List.mem_cons.1 hu with rfl | hu
    · exact ((C138_normalize _ _).1 h1).1
    · exact i2 u hu

/-- The mirrors send the first pointing through all others. -/
theorem steps_refl : ∀ {vs : List (V3 ℝ)} {v : V3 ℝ} {Ns : List (V3 ℝ)}, steps rsqrt v vs = .ok Ns → dot v v = 1 →
    (∀ u ∈ vs, dot u u = 1) → refl Ns v = (v :: vs).getLast (List.cons_ne_nil _ _)
  | [], v, Ns, h, _, _ => by
    injection h with h
    subst h
    rfl
  | u :: vs, v, Ns, h, hv, hu => by
    obtain ⟨N, Nr, rfl, h1, h2⟩ := steps_cons h
    have hu0 := hu u List.mem_cons_self
    have := steps_refl h2 hu0 (fun w hw => hu w (List.mem_cons_of_mem _ hw))
    show refl Nr (reflect_through v N) = _
    rw [(C138_mirror hu0 hv h1).2, this, List.getLast_cons_cons]

theorem steps_append : ∀ {l : List (V3 ℝ)} {p q : V3 ℝ} {vs : List (V3 ℝ)} {w : V3 ℝ}, steps rsqrt p l = .ok vs →
    normalize rsqrt (sub q ((p :: l).getLast (List.cons_ne_nil _ _))) = .ok w → steps rsqrt p (l ++ [q]) = .ok (vs ++ [w])
  | [], p, q, vs, w, h, hw => by
    injection h with h
    subst h
    exact steps_mk hw rfl
  | c :: l, p, q, vs, w, h, hw => by
    obtain ⟨v, r, rfl, h1, h2⟩ := steps_cons h
    rw [List.getLast_cons_cons] at hw
    exact steps_mk h1 (steps_append h2 hw)

/-- What there is when the matrix is. -/
theorem parts {p_s : List (V3 ℝ)} {J : Jones ℝ} (h : polarization_circulation rsqrt p_s = .ok J) :
    ∃ p0 l w0 vr v0 rest N0 Nr P S, p_s = p0 :: l ∧
      normalize rsqrt (sub p0 ((p0 :: l).getLast (List.cons_ne_nil _ _))) = .ok w0 ∧ steps rsqrt p0 l = .ok vr ∧
      vr ++ [w0] = v0 :: rest ∧ normalize rsqrt (sub v0 w0) = .ok N0 ∧ steps rsqrt v0 rest = .ok Nr ∧
      normalize rsqrt (project_away w0 v0) = .ok P ∧ normalize rsqrt (cross P v0) = .ok S ∧
      J = ⟨dot (refl (Nr ++ [N0]) P) P, dot (refl (Nr ++ [N0]) P) S, dot (refl (Nr ++ [N0]) S) P, dot (refl (Nr ++ [N0]) S) S⟩ := by
  unfold polarization_circulation at h
  obtain ⟨v_s, hv, h⟩ := bind_inv h
  obtain ⟨N_s, hN, hJ⟩ := bind_inv h
  cases p_s with
  | nil => cases hv
  | cons p0 l =>
    unfold pointings at hv
    rw [List.getLast?_eq_getLast_of_ne_nil (List.cons_ne_nil _ _)] at hv
    obtain ⟨raw, hraw, hv⟩ := bind_inv hv
    obtain ⟨w0, vr, rfl, h1, h2⟩ := steps_cons hraw
    injection hv with hv
    replace hv : vr ++ [w0] = v_s := hv
    subst hv
    unfold normals at hN
    rw [List.getLast?_concat] at hN
    unfold jones at hJ
    rw [List.getLast?_concat] at hJ
    cases hc : vr ++ [w0] with
    | nil => exact absurd hc (by simp)
    | cons v0 rest =>
      rw [hc] at hN hJ
      obtain ⟨N0, Nr, rfl, h3, h4⟩ := steps_cons hN
      obtain ⟨P, hP, hJ⟩ := bind_inv hJ
      obtain ⟨S, hS, hJ⟩ := bind_inv hJ
      injection hJ with hJ
      exact ⟨p0, l, w0, vr, v0, rest, N0, Nr, P, S, rfl, h1, h2, hc, h3, h4, hP, hS, hJ.symm⟩

/-- The frame of the polarizations. -/
theorem frame {w0 v0 P S : V3 ℝ} (hv : dot v0 v0 = 1) (hP : normalize rsqrt (project_away w0 v0) = .ok P)
    (hS : normalize rsqrt (cross P v0) = .ok S) : dot P P = 1 ∧ dot P v0 = 0 ∧ S = cross P v0 := by
  obtain ⟨hP1, r, hr, e⟩ := (C138_normalize _ _).1 hP
  have hPv : dot P v0 = 0 := by
    have ex := congrArg V3.x e
    have ey := congrArg V3.y e
    have ez := congrArg V3.z e
    simp only [project_away, sub, smul, dot] at ex ey ez
    have : r * dot P v0 = 0 := by
      unfold dot at hv ⊢
      linear_combination (-v0.x) * ex - v0.y * ey - v0.z * ez - (w0.x * v0.x + w0.y * v0.y + w0.z * v0.z) * hv
    exact (mul_eq_zero.1 this).resolve_left hr.ne'
  refine ⟨hP1, hPv, ?_⟩
  have h1 : dot (cross P v0) (cross P v0) = 1 := by
    unfold dot at hP1 hv hPv ⊢
    simp only [cross]
    linear_combination (v0.x * v0.x + v0.y * v0.y + v0.z * v0.z) * hP1 + hv - (P.x * v0.x + P.y * v0.y + P.z * v0.z) * hPv
  have : normalize rsqrt (cross P v0) = .ok (cross P v0) := by
    refine (C138_normalize _ _).2 ⟨h1, 1, one_pos, ?_⟩
    ext <;> simp only [smul] <;> ring
  rw [this] at hS
  injection hS with hS
  exact hS.symm

/-- What a vector across the beam is in the frame. -/
theorem expand {P v q : V3 ℝ} (hP : dot P P = 1) (hv : dot v v = 1) (hPv : dot P v = 0) (hq : dot q v = 0) :
    q = add (smul (dot q P) P) (smul (dot q (cross P v)) (cross P v)) := by
  unfold dot at hP hv hPv hq
  ext
  · simp only [add, smul, dot, cross]
    linear_combination (-q.x * (v.x * v.x + v.y * v.y + v.z * v.z)) * hP + (-q.x + (q.x * P.x + q.y * P.y + q.z * P.z) * P.x) * hv +
      (q.x * (P.x * v.x + P.y * v.y + P.z * v.z) - (q.x * v.x + q.y * v.y + q.z * v.z) * P.x - (q.x * P.x + q.y * P.y + q.z * P.z) * v.x) *
        hPv + (P.x * P.x + P.y * P.y + P.z * P.z) * v.x * hq
  · simp only [add, smul, dot, cross]
    linear_combination (-q.y * (v.x * v.x + v.y * v.y + v.z * v.z)) * hP + (-q.y + (q.x * P.x + q.y * P.y + q.z * P.z) * P.y) * hv +
      (q.y * (P.x * v.x + P.y * v.y + P.z * v.z) - (q.x * v.x + q.y * v.y + q.z * v.z) * P.y - (q.x * P.x + q.y * P.y + q.z * P.z) * v.y) *
        hPv + (P.x * P.x + P.y * P.y + P.z * P.z) * v.y * hq
  · simp only [add, smul, dot, cross]
    linear_combination (-q.z * (v.x * v.x + v.y * v.y + v.z * v.z)) * hP + (-q.z + (q.x * P.x + q.y * P.y + q.z * P.z) * P.z) * hv +
      (q.z * (P.x * v.x + P.y * v.y + P.z * v.z) - (q.x * v.x + q.y * v.y + q.z * v.z) * P.z - (q.x * P.x + q.y * P.y + q.z * P.z) * v.z) *
        hPv + (P.x * P.x + P.y * P.y + P.z * P.z) * v.z * hq

theorem dot_add (a b c : V3 ℝ) : dot (add a b) c = dot a c + dot b c := by simp only [dot, add]; ring
theorem dot_smul (k : ℝ) (a c : V3 ℝ) : dot (smul k a) c = k * dot a c := by simp only [dot, smul]; ring
theorem dot_comm (a b : V3 ℝ) : dot a b = dot b a := by simp only [dot]; ring

theorem pyth {P v q : V3 ℝ} (hP : dot P P = 1) (hv : dot v v = 1) (hPv : dot P v = 0) (hq : dot q v = 0) :
    dot q P ^ 2 + dot q (cross P v) ^ 2 = dot q q := by
  have e := expand hP hv hPv hq
  have h : dot q q = dot (add (smul (dot q P) P) (smul (dot q (cross P v)) (cross P v))) q := by rw [← e]
  rw [h, dot_add, dot_smul, dot_smul, dot_comm P q, dot_comm (cross P v) q]
  ring

/-- The ring of mirrors. -/
theorem ring_parts {p_s : List (V3 ℝ)} {J : Jones ℝ} (h : polarization_circulation rsqrt p_s = .ok J) :
    ∃ p0 l w0 vr v0 rest N0 Nr P, p_s = p0 :: l ∧
      normalize rsqrt (sub p0 ((p0 :: l).getLast (List.cons_ne_nil _ _))) = .ok w0 ∧ steps rsqrt p0 l = .ok vr ∧
      vr ++ [w0] = v0 :: rest ∧ normalize rsqrt (sub v0 w0) = .ok N0 ∧ steps rsqrt v0 rest = .ok Nr ∧
      normalize rsqrt (project_away w0 v0) = .ok P ∧
      dot w0 w0 = 1 ∧ dot v0 v0 = 1 ∧ (∀ u ∈ rest, dot u u = 1) ∧ (∀ N ∈ Nr ++ [N0], dot N N = 1) ∧
      (Nr ++ [N0]).length = p_s.length ∧ refl (Nr ++ [N0]) v0 = v0 ∧ dot P P = 1 ∧ dot P v0 = 0 ∧
      J.pp = dot (refl (Nr ++ [N0]) P) P ∧ J.ps = dot (refl (Nr ++ [N0]) P) (cross P v0) ∧
      J.sp = dot (refl (Nr ++ [N0]) (cross P v0)) P ∧ J.ss = dot (refl (Nr ++ [N0]) (cross P v0)) (cross P v0) := by
  obtain ⟨p0, l, w0, vr, v0, rest, N0, Nr, P, S, hp, h1, h2, hc, h3, h4, hP, hS, hJ⟩ := parts h
  have hw0 : dot w0 w0 = 1 := ((C138_normalize _ _).1 h1).1
  obtain ⟨hlen, hvr⟩ := steps_unit h2
  have hall : ∀ u ∈ v0 :: rest, dot u u = 1 := by
    intro u hu
    rw [← hc] at hu
    rcases List.mem_append.1 hu with hu | hu
    · exact hvr u hu
    · rw [List.mem_singleton.1 hu]
      exact hw0
  have hv0 := hall v0 List.mem_cons_self
  have hrest : ∀ u ∈ rest, dot u u = 1 := fun u hu => hall u (List.mem_cons_of_mem _ hu)
  obtain ⟨hNlen, hNr⟩ := steps_unit h4
  obtain ⟨hN0, hm⟩ := C138_mirror hv0 hw0 h3
  have hlast : (v0 :: rest).getLast (List.cons_ne_nil _ _) = w0 := by
    have : ∀ (a : List (V3 ℝ)) (ha : a ≠ []), a = vr ++ [w0] → a.getLast ha = w0 := by
      rintro a ha rfl
      exact List.getLast_concat
    exact this _ _ hc.symm
  obtain ⟨hP1, hPv, rfl⟩ := frame hv0 hP hS
  subst hJ
  refine ⟨p0, l, w0, vr, v0, rest, N0, Nr, P, hp, h1, h2, hc, h3, h4, hP, hw0, hv0, hrest, ?_, ?_, ?_, hP1, hPv, rfl, rfl, rfl, rfl⟩
  · intro N hN
    rcases List.mem_append.1 hN with hN | hN
    · exact hNr N hN
    · rw [List.mem_singleton.1 hN]
      exact hN0
  · have := congrArg List.length hc
    rw [List.length_append, List.length_singleton, List.length_cons] at this
    rw [List.length_append, List.length_singleton, hp, List.length_cons]
    omega
  · rw [refl_append, steps_refl h4 hv0 hrest, hlast]
    exact hm

theorem sign_sq (n : Nat) : ((-1 : ℝ) ^ n) * (-1) ^ n = 1 := by
  rw [← mul_pow]
  norm_num

/-- The second polarization follows the first. -/
theorem second {l : List (V3 ℝ)} (hl : ∀ N ∈ l, dot N N = 1) {P v : V3 ℝ} (hT : refl l v = v) :
    refl l (cross P v) = smul ((-1) ^ l.length) (cross (refl l P) v) := by
  have h := refl_cross l hl P v
  rw [hT] at h
  rw [h, smul_smul, sign_sq]
  ext <;> simp only [smul] <;> ring

/-- **C138, a turn or a mirror image.**  The matrix of a ring of `n` mirrors is orthogonal and its determinant is `(-1) ^ n`: it is a rotation
for an even number of mirrors and a mirror image for an odd one. -/
theorem C138_jones {p_s : List (V3 ℝ)} {J : Jones ℝ} (h : polarization_circulation rsqrt p_s = .ok J) :
    J.pp ^ 2 + J.ps ^ 2 = 1 ∧ J.sp = -(-1) ^ p_s.length * J.ps ∧ J.ss = (-1) ^ p_s.length * J.pp ∧
      J.pp * J.ss - J.ps * J.sp = (-1) ^ p_s.length := by
  obtain ⟨p0, l, w0, vr, v0, rest, N0, Nr, P, hp, -, -, -, -, -, -, hw0, hv0, -, hN, hlen, hT, hP1, hPv, e1, e2, e3, e4⟩ := ring_parts h
  have hS := second hN (P := P) hT
  have hq : dot (refl (Nr ++ [N0]) P) v0 = 0 := by
    have := refl_dot _ hN P v0
    rw [hT] at this
    rw [this, hPv]
  have h1 : J.pp ^ 2 + J.ps ^ 2 = 1 := by
    rw [e1, e2, pyth hP1 hv0 hPv hq, refl_dot _ hN, hP1]
  have h3 : J.sp = -(-1) ^ p_s.length * J.ps := by
    rw [e3, hS, dot_smul, e2, hlen]
    have : dot (cross (refl (Nr ++ [N0]) P) v0) P = -dot (refl (Nr ++ [N0]) P) (cross P v0) := by
      simp only [dot, cross]
      ring
    rw [this]
    ring
  have h4 : J.ss = (-1) ^ p_s.length * J.pp := by
    rw [e4, hS, dot_smul, e1, hlen]
    have : dot (cross (refl (Nr ++ [N0]) P) v0) (cross P v0) =
        dot (refl (Nr ++ [N0]) P) P * dot v0 v0 - dot (refl (Nr ++ [N0]) P) v0 * dot P v0 := by
      simp only [dot, cross]
      ring
    rw [this, hv0, hPv]
    ring
  refine ⟨h1, h3, h4, ?_⟩
  rw [h3, h4]
  linear_combination (-1) ^ p_s.length * h1

/-- **C138, the defect.**  The polarization defect `1 - pp ^ 2` is the power in the other polarization. -/
theorem C138_defect {p_s : List (V3 ℝ)} {J : Jones ℝ} (h : polarization_circulation rsqrt p_s = .ok J) :
    1 - J.pp ^ 2 = J.ps ^ 2 ∧ 1 - J.ss ^ 2 = J.sp ^ 2 ∧ J.ps ^ 2 = J.sp ^ 2 := by
  obtain ⟨h1, h2, h3, -⟩ := C138_jones h
  have := sign_sq p_s.length
  refine ⟨by linarith, ?_, ?_⟩
  · rw [h2, h3]
    linear_combination -(-1) ^ p_s.length * (-1) ^ p_s.length * h1 - this
  · rw [h2]
    linear_combination -J.ps ^ 2 * this

/-! ## planes -/

theorem steps_plane {u : V3 ℝ} {c : ℝ} : ∀ {l : List (V3 ℝ)} {prev : V3 ℝ} {vs : List (V3 ℝ)}, steps rsqrt prev l = .ok vs →
    dot prev u = c → (∀ p ∈ l, dot p u = c) → ∀ v ∈ vs, dot v u = 0
  | [], prev, vs, h, _, _ => by
    injection h with h
    subst h
    exact fun v hv => absurd hv List.not_mem_nil
  | p :: l, prev, vs, h, h0, hl => by
    obtain ⟨v, r, rfl, h1, h2⟩ := steps_cons h
    intro w hw
    rcases List.mem_cons.1 hw with rfl | hw
    · exact norm_plane h1 (by
        have := hl p List.mem_cons_self
        simp only [dot, sub] at *
        linarith)
    · exact steps_plane h2 (hl p List.mem_cons_self) (fun q hq => hl q (List.mem_cons_of_mem _ hq)) w hw
where
  norm_plane {v w u : V3 ℝ} (h : normalize rsqrt v = .ok w) (h0 : dot v u = 0) : dot w u = 0 := by
    obtain ⟨-, r, hr, rfl⟩ := (C138_normalize _ _).1 h
    rw [dot_smul] at h0
    exact (mul_eq_zero.1 h0).resolve_left hr.ne'

/-- **C138, flat rings.**  If the mirrors are in a plane the polarization along the normal of it stays and the other one stays or, of an odd
number of mirrors, changes its sign: nothing is mixed. -/
theorem C138_planar {p_s : List (V3 ℝ)} {J : Jones ℝ} (h : polarization_circulation rsqrt p_s = .ok J) {u : V3 ℝ} (hu : u ≠ ⟨0, 0, 0⟩)
    {c : ℝ} (hp_s : ∀ p ∈ p_s, dot p u = c) : J = ⟨(-1) ^ p_s.length, 0, 0, 1⟩ := by
  obtain ⟨j1, j2, j3, -⟩ := C138_jones h
  obtain ⟨p0, l, w0, vr, v0, rest, N0, Nr, P, hp, h1, h2, hc, h3, h4, hP, hw0, hv0, -, hN, hlen, hT, hP1, hPv, e1, e2, e3, e4⟩ := ring_parts h
  have hp0 : dot p0 u = c := hp_s _ (by rw [hp]; exact List.mem_cons_self)
  have hl : ∀ p ∈ l, dot p u = c := fun p hp' => hp_s _ (by rw [hp]; exact List.mem_cons_of_mem _ hp')
  have hlast : dot ((p0 :: l).getLast (List.cons_ne_nil _ _)) u = c := hp_s _ (by rw [hp]; exact List.getLast_mem _)
  have hw0u : dot w0 u = 0 := steps_plane.norm_plane h1 (by
    simp only [dot, sub] at *
    linarith)
  have hvru := steps_plane h2 hp0 hl
  have hall : ∀ w ∈ v0 :: rest, dot w u = 0 := by
    intro w hw
    rw [← hc] at hw
    rcases List.mem_append.1 hw with hw | hw
    · exact hvru w hw
    · rw [List.mem_singleton.1 hw]
      exact hw0u
  have hv0u := hall v0 List.mem_cons_self
  have hNu : ∀ N ∈ Nr ++ [N0], dot N u = 0 := by
    intro N hN'
    rcases List.mem_append.1 hN' with hN' | hN'
    · exact steps_plane h4 hv0u (fun q hq => hall q (List.mem_cons_of_mem _ hq)) N hN'
    · rw [List.mem_singleton.1 hN']
      exact steps_plane.norm_plane h3 (by
        simp only [dot, sub] at *
        linarith)
  have hPu : dot P u = 0 := steps_plane.norm_plane hP (by
    simp only [project_away, dot, sub, smul] at *
    linear_combination hw0u - (w0.x * v0.x + w0.y * v0.y + w0.z * v0.z) * hv0u)
  have hTu : ∀ m : List (V3 ℝ), (∀ N ∈ m, dot N u = 0) → refl m u = u := by
    intro m
    induction m with
    | nil => intro _; rfl
    | cons N m ih =>
      intro hm
      have : reflect_through u N = u := by
        have h0 : dot u N = 0 := by rw [dot_comm]; exact hm N List.mem_cons_self
        unfold reflect_through
        rw [h0]
        ext <;> simp only [sub, smul] <;> ring
      show refl m (reflect_through u N) = u
      rw [this]
      exact ih (fun M hM => hm M (List.mem_cons_of_mem _ hM))
  have hex := expand hP1 hv0 hPv (q := u) (by rw [dot_comm]; exact hv0u)
  rw [dot_comm u P, hPu] at hex
  have hk : dot u (cross P v0) ≠ 0 := by
    intro h0
    apply hu
    rw [hex, h0]
    ext <;> simp only [add, smul] <;> ring
  have huS : cross P v0 = smul (1 / dot u (cross P v0)) u := by
    have e : smul (1 / dot u (cross P v0)) u =
        smul (1 / dot u (cross P v0)) (add (smul 0 P) (smul (dot u (cross P v0)) (cross P v0))) := by rw [← hex]
    rw [e]
    generalize dot u (cross P v0) = k at hk
    ext <;> simp only [add, smul] <;> field_simp <;> ring
  have hTS : refl (Nr ++ [N0]) (cross P v0) = cross P v0 := by
    rw [huS, refl_smul, hTu _ hNu]
  have hSP : dot (cross P v0) P = 0 := by simp only [dot, cross]; ring
  have hSS : dot (cross P v0) (cross P v0) = 1 := by
    have : dot (cross P v0) (cross P v0) = dot P P * dot v0 v0 - dot P v0 * dot P v0 := by
      simp only [dot, cross]
      ring
    rw [this, hP1, hv0, hPv]
    ring
  have s1 : J.ss = 1 := by rw [e4, hTS, hSS]
  have s2 : J.sp = 0 := by rw [e3, hTS, hSP]
  have hsq := sign_sq p_s.length
  have s3 : J.pp = (-1) ^ p_s.length := by
    rw [s1] at j3
    linear_combination (-1) ^ p_s.length * (-j3) - J.pp * hsq
  have s4 : J.ps = 0 := by
    rw [s2] at j2
    linear_combination (-1) ^ p_s.length * j2 - J.ps * hsq
  cases J
  simp only at s1 s2 s3 s4
  rw [s1, s2, s3, s4]

/-! ## where the ring begins -/

/-- A rotation turns all polarizations by the same angle. -/
theorem same_angle {l : List (V3 ℝ)} (hl : ∀ N ∈ l, dot N N = 1) (heven : Even l.length) {P v q : V3 ℝ} (hT : refl l v = v)
    (hP : dot P P = 1) (hv : dot v v = 1) (hPv : dot P v = 0) (hq : dot q v = 0) (hqq : dot q q = 1) :
    dot (refl l q) q = dot (refl l P) P := by
  have hS := second hl (P := P) hT
  rw [heven.neg_one_pow] at hS
  have hPq : dot (refl l P) v = 0 := by
    have := refl_dot _ hl P v
    rw [hT] at this
    rw [this, hPv]
  have hpy := pyth hP hv hPv hq
  rw [hqq] at hpy
  have e := expand hP hv hPv hq
  generalize dot q P = α at hpy e
  generalize dot q (cross P v) = β at hpy e
  subst e
  rw [refl_add, refl_smul, refl_smul, hS]
  generalize refl l P = T at hPq
  have h1 : dot (cross T v) P = -dot T (cross P v) := by simp only [dot, cross]; ring
  have h2 : dot (cross T v) (cross P v) = dot T P := by
    have : dot (cross T v) (cross P v) = dot T P * dot v v - dot T v * dot P v := by simp only [dot, cross]; ring
    rw [this, hv, hPv]
    ring
  have h3 : dot (add (smul α T) (smul β (smul 1 (cross T v)))) (add (smul α P) (smul β (cross P v))) =
      α ^ 2 * dot T P + α * β * dot T (cross P v) + α * β * dot (cross T v) P + β ^ 2 * dot (cross T v) (cross P v) := by
    simp only [dot, add, smul]
    ring
  rw [h3, h1, h2]
  linear_combination dot T P * hpy

theorem last_append (a b : V3 ℝ) (l : List (V3 ℝ)) (h : a :: (l ++ [b]) ≠ []) : (a :: (l ++ [b])).getLast h = b := by
  have : ∀ (m : List (V3 ℝ)) (hm : m ≠ []), m = (a :: l) ++ [b] → m.getLast hm = b := by
    rintro m hm rfl
    exact List.getLast_concat
  exact this _ h rfl

/-- **C138, where the ring begins.**  For an even number of mirrors the defect of polarization is the same from whichever mirror on. -/
theorem C138_start {p_s : List (V3 ℝ)} {J J' : Jones ℝ} (h : polarization_circulation rsqrt p_s = .ok J)
    (h' : polarization_circulation rsqrt (p_s.tail ++ p_s.head?.toList) = .ok J') (heven : Even p_s.length) : J'.pp = J.pp := by
  obtain ⟨p0, l, w0, vr, v0, rest, N0, Nr, P, hp, h1, h2, hc, h3, h4, hP, hw0, hv0, hrest, hN, hlen, hT, hP1, hPv, e1, -, -, -⟩ := ring_parts h
  obtain ⟨q0, m, w0', vr', v0', rest', N0', Nr', P', hp', h1', h2', hc', h3', h4', hP', hw0', hv0', -, hN', -, -, hP1', hPv', e1', -, -, -⟩ :=
    ring_parts h'
  subst hp
  replace hp' : l ++ [p0] = q0 :: m := hp'
  cases l with
  | nil => exact absurd heven (show ¬ Even 1 by decide)
  | cons p1 l =>
    have hp'' : p1 :: (l ++ [p0]) = q0 :: m := hp'
    injection hp'' with ea eb
    subst ea eb
    obtain ⟨a, vr2, rfl, g1, g2⟩ := steps_cons h2
    have hc2 : a :: (vr2 ++ [w0]) = v0 :: rest := hc
    injection hc2 with ea eb
    subst ea eb
    -- the pointings
    rw [last_append] at h1'
    have ew : w0' = a := by rw [g1] at h1'; injection h1' with h; exact h.symm
    subst ew
    rw [List.getLast_cons_cons] at h1
    have hst := steps_append g2 h1
    rw [hst] at h2'
    injection h2' with ev
    subst ev
    -- the normals
    cases hr : vr2 ++ [w0] with
    | nil => exact absurd hr (by simp)
    | cons b rest2 =>
      rw [hr] at hc' h4 hrest
      have hc3 : b :: (rest2 ++ [w0']) = v0' :: rest' := hc'
      injection hc3 with ea eb
      subst ea eb
      obtain ⟨N1, Nr2, rfl, k1, k2⟩ := steps_cons h4
      have eN : N0' = N1 := by rw [k1] at h3'; injection h3' with h; exact h.symm
      subst eN
      have hlast : (b :: rest2).getLast (List.cons_ne_nil _ _) = w0 := by
        have : ∀ (a : List (V3 ℝ)) (ha : a ≠ []), a = vr2 ++ [w0] → a.getLast ha = w0 := by
          rintro a ha rfl
          exact List.getLast_concat
        exact this _ _ hr.symm
      have hst2 := steps_append (q := w0') (w := N0) k2 (by rw [hlast]; exact h3)
      rw [hst2] at h4'
      injection h4' with ev
      subst ev
      -- the polarizations
      obtain ⟨hN1, hm⟩ := C138_mirror hv0' hw0' h3'
      have hT' : ∀ x, refl (Nr2 ++ [N0] ++ [N0']) x = reflect_through (refl (N0' :: Nr2 ++ [N0]) (reflect_through x N0')) N0' := by
        intro x
        rw [refl_append]
        show reflect_through _ N0' = reflect_through (refl (Nr2 ++ [N0]) (reflect_through (reflect_through x N0') N0')) N0'
        rw [(C138_reflect hN1 x x).2.2]
      rw [e1, e1', hT']
      have hback := (C138_reflect hN1 P' P').2.2
      have hd : dot (reflect_through (refl (N0' :: Nr2 ++ [N0]) (reflect_through P' N0')) N0') P' =
          dot (refl (N0' :: Nr2 ++ [N0]) (reflect_through P' N0')) (reflect_through P' N0') := by
        have := (C138_reflect hN1 (refl (N0' :: Nr2 ++ [N0]) (reflect_through P' N0')) (reflect_through P' N0')).1
        rw [hback] at this
        exact this
      rw [hd]
      refine same_angle hN (by rw [hlen]; exact heven) hT hP1 hw0' hPv ?_ ?_
      · have := (C138_reflect hN1 P' (reflect_through w0' N0')).1
        rw [(C138_reflect hN1 w0' w0').2.2, hm] at this
        rw [this, hPv']
      · rw [(C138_reflect hN1 P' P').1, hP1']

/-! ## rings that have a matrix -/

theorem sub_zero_iff {a b : V3 ℝ} : sub a b = ⟨0, 0, 0⟩ ↔ a = b := by
  constructor
  · intro h
    ext
    · exact sub_eq_zero.1 (congrArg V3.x h)
    · exact sub_eq_zero.1 (congrArg V3.y h)
    · exact sub_eq_zero.1 (congrArg V3.z h)
  · rintro rfl
    ext <;> exact sub_self _

/-- The pointings and normals along positions that are nowhere in line. -/
theorem steps_ex : ∀ (l : List (V3 ℝ)) (a b u : V3 ℝ), normalize rsqrt (sub b a) = .ok u →
    (∀ x y z, [x, y, z] <:+: a :: b :: l → y ≠ z ∧ ∀ r : ℝ, 0 < r → sub z y ≠ smul r (sub y x)) →
    ∃ vs Ns, steps rsqrt b l = .ok vs ∧ steps rsqrt u vs = .ok Ns
  | [], _, _, _, _, _ => ⟨[], [], rfl, rfl⟩
  | c :: l, a, b, u, hu, h => by
    obtain ⟨hbc, hst⟩ := h a b c ⟨[], l, rfl⟩
    obtain ⟨v, hv⟩ := normalize_ex (v := sub c b) (fun h0 => hbc (sub_zero_iff.1 h0).symm)
    obtain ⟨-, s, hs, es⟩ := (C138_normalize _ _).1 hu
    obtain ⟨-, t, ht, et⟩ := (C138_normalize _ _).1 hv
    obtain ⟨N, hN⟩ := normalize_ex (v := sub v u) (fun h0 => by
      have hvu : v = u := sub_zero_iff.1 h0
      subst hvu
      refine hst (t / s) (div_pos ht hs) ?_
      rw [et, es, smul_smul, div_mul_cancel₀ _ hs.ne'])
    obtain ⟨vs, Ns, e1, e2⟩ := steps_ex l b c v hv (fun x y z hx => h x y z (hx.trans (List.suffix_cons a _).isInfix))
    exact ⟨v :: vs, N :: Ns, steps_mk hv e1, steps_mk hN e2⟩

/-- The converse of `parts`. -/
theorem parts_mk {p0 w0 v0 N0 P S : V3 ℝ} {l vr rest Nr : List (V3 ℝ)}
    (h1 : normalize rsqrt (sub p0 ((p0 :: l).getLast (List.cons_ne_nil _ _))) = .ok w0) (h2 : steps rsqrt p0 l = .ok vr)
    (hc : vr ++ [w0] = v0 :: rest) (h3 : normalize rsqrt (sub v0 w0) = .ok N0) (h4 : steps rsqrt v0 rest = .ok Nr)
    (hP : normalize rsqrt (project_away w0 v0) = .ok P) (hS : normalize rsqrt (cross P v0) = .ok S) :
    polarization_circulation rsqrt (p0 :: l) = .ok
      ⟨dot (refl (Nr ++ [N0]) P) P, dot (refl (Nr ++ [N0]) P) S, dot (refl (Nr ++ [N0]) S) P, dot (refl (Nr ++ [N0]) S) S⟩ := by
  have hv : pointings rsqrt (p0 :: l) = .ok (vr ++ [w0]) := by
    unfold pointings
    rw [List.getLast?_eq_getLast_of_ne_nil (List.cons_ne_nil _ _)]
    show (steps rsqrt _ (p0 :: l) >>= _) = _
    rw [steps_mk h1 h2]
    rfl
  have hN : normals rsqrt (vr ++ [w0]) = .ok (N0 :: Nr) := by
    unfold normals
    rw [List.getLast?_concat]
    show steps rsqrt w0 (vr ++ [w0]) = _
    rw [hc]
    exact steps_mk h3 h4
  unfold polarization_circulation
  rw [hv, bind_ok, hN, bind_ok]
  unfold jones
  rw [List.getLast?_concat, hc]
  show (normalize rsqrt (project_away w0 v0) >>= _) = _
  rw [hP, bind_ok, hS]
  rfl

/-- **C138, rings with a matrix.**  There is a matrix if no position is the one before, no beam goes straight on at a mirror and the first mirror
does not send the beam back. -/
theorem C138_ok {p0 p1 : V3 ℝ} {l : List (V3 ℝ)}
    (h : ∀ x y z, [x, y, z] <:+: (p1 :: l).getLast (List.cons_ne_nil _ _) :: p0 :: p1 :: l ++ [p0] →
      x ≠ y ∧ y ≠ z ∧ ∀ r : ℝ, 0 < r → sub z y ≠ smul r (sub y x))
    (hback : ∀ r : ℝ, sub p1 p0 ≠ smul r (sub p0 ((p1 :: l).getLast (List.cons_ne_nil _ _)))) :
    ∃ J, polarization_circulation rsqrt (p0 :: p1 :: l) = .ok J := by
  have hfirst := h ((p1 :: l).getLast (List.cons_ne_nil _ _)) p0 p1 ⟨[], l ++ [p0], rfl⟩
  obtain ⟨w0, hw⟩ := normalize_ex (v := sub p0 ((p1 :: l).getLast (List.cons_ne_nil _ _)))
    (fun h0 => hfirst.1 (sub_zero_iff.1 h0).symm)
  obtain ⟨vs, Ns, e1, e2⟩ := steps_ex (p1 :: l ++ [p0]) _ p0 w0 hw (fun x y z hx => (h x y z hx).2)
  obtain ⟨v0, rest, rfl, g1, g2⟩ := steps_cons e1
  obtain ⟨N0, Nr, rfl, g3, g4⟩ := steps_cons e2
  -- the pointings without the last one
  have hbeg : ∀ (l : List (V3 ℝ)) (a : V3 ℝ) (vs : List (V3 ℝ)), steps rsqrt a (l ++ [p0]) = .ok vs → ∃ us, steps rsqrt a l = .ok us := by
    intro l
    induction l with
    | nil => intro a vs _; exact ⟨[], rfl⟩
    | cons c l ih =>
      intro a vs hvs
      obtain ⟨v, r, rfl, k1, k2⟩ := steps_cons hvs
      obtain ⟨us, hus⟩ := ih _ _ k2
      exact ⟨v :: us, steps_mk k1 hus⟩
  obtain ⟨us, hus⟩ := hbeg l p1 rest g2
  have hr := steps_append hus hw
  replace g2 : steps rsqrt p1 (l ++ [p0]) = .ok rest := g2
  rw [g2] at hr
  injection hr with hr
  obtain ⟨hw1, s, hs, es⟩ := (C138_normalize _ _).1 hw
  obtain ⟨hv1, t, ht, et⟩ := (C138_normalize _ _).1 g1
  obtain ⟨P, hP⟩ := normalize_ex (v := project_away w0 v0) (fun h0 => by
    have hwv : w0 = smul (dot w0 v0) v0 := sub_zero_iff.1 h0
    have hd : dot w0 v0 * dot w0 v0 = 1 := by
      have : dot w0 w0 = dot (smul (dot w0 v0) v0) w0 := by rw [← hwv]
      rw [dot_smul, hw1, dot_comm v0 w0] at this
      exact this.symm
    refine hback (t * dot w0 v0 / s) ?_
    rw [et, es, smul_smul, div_mul_cancel₀ _ hs.ne', hwv, smul_smul, ← hwv, mul_assoc, hd, mul_one])
  have hPP := ((C138_normalize _ _).1 hP)
  have hS : ∃ S, normalize rsqrt (cross P v0) = .ok S := by
    refine normalize_ex (fun h0 => ?_)
    obtain ⟨hP1, r, hr', e⟩ := hPP
    have hPv : dot P v0 = 0 := by
      have : r * dot P v0 = 0 := by
        rw [← dot_smul, ← e]
        unfold dot at hv1
        simp only [project_away, dot, sub, smul]
        linear_combination -(w0.x * v0.x + w0.y * v0.y + w0.z * v0.z) * hv1
      exact (mul_eq_zero.1 this).resolve_left hr'.ne'
    have h1 : dot (cross P v0) (cross P v0) = 1 := by
      have : dot (cross P v0) (cross P v0) = dot P P * dot v0 v0 - dot P v0 * dot P v0 := by simp only [dot, cross]; ring
      rw [this, hP1, hv1, hPv]
      ring
    rw [h0] at h1
    unfold dot at h1
    norm_num at h1
  obtain ⟨S, hS⟩ := hS
  refine ⟨_, parts_mk (l := p1 :: l) ?_ (steps_mk g1 hus) (v0 := v0) (rest := us ++ [w0]) (Nr := Nr) rfl g3 ?_ hP hS⟩
  · rw [List.getLast_cons_cons]
    exact hw
  · rw [← hr]
    exact g4

/-- **C138 is refuted** for two mirrors: a linear cavity has no matrix, as the second pointing is opposite to the first and the polarization is
what is left of it across the first. -/
theorem C138_linear_refuted (p q : V3 ℝ) : polarization_circulation rsqrt [p, q] = .error .zeroDivision := by
  by_cases hpq : p = q
  · subst hpq
    have : normalize rsqrt (sub p p) = .error .zeroDivision := normalize_zero (sub_zero_iff.2 rfl)
    unfold polarization_circulation pointings
    show ((normalize rsqrt (sub p p) >>= _) >>= _) >>= _ = _
    rw [this]
    rfl
  · obtain ⟨w, hw⟩ := normalize_ex (v := sub p q) (fun h => hpq (sub_zero_iff.1 h))
    obtain ⟨hw1, r, hr, e⟩ := (C138_normalize _ _).1 hw
    have hv : normalize rsqrt (sub q p) = .ok (smul (-1) w) := by
      refine (C138_normalize _ _).2 ⟨?_, r, hr, ?_⟩
      · rw [dot_smul, dot_comm, dot_smul, hw1]
        norm_num
      · have ex := congrArg V3.x e
        have ey := congrArg V3.y e
        have ez := congrArg V3.z e
        simp only [sub, smul] at ex ey ez
        ext <;> simp only [sub, smul] <;> linarith
    have hN0 : normalize rsqrt (sub (smul (-1) w) w) = .ok (smul (-1) w) := by
      refine (C138_normalize _ _).2 ⟨?_, 2, two_pos, ?_⟩
      · rw [dot_smul, dot_comm, dot_smul, hw1]
        norm_num
      · ext <;> simp only [sub, smul] <;> ring
    have hN1 : normalize rsqrt (sub w (smul (-1) w)) = .ok w := by
      refine (C138_normalize _ _).2 ⟨hw1, 2, two_pos, ?_⟩
      ext <;> simp only [sub, smul] <;> ring
    have hv_s : pointings rsqrt [p, q] = .ok [smul (-1) w, w] := by
      unfold pointings
      show (steps rsqrt q [p, q] >>= _) = _
      rw [steps_mk hw (steps_mk hv (l := []) rfl)]
      rfl
    have hN_s : normals rsqrt [smul (-1) w, w] = .ok [smul (-1) w, w] := by
      unfold normals
      exact steps_mk hN0 (steps_mk hN1 (l := []) rfl)
    have hz : normalize rsqrt (project_away w (smul (-1) w)) = .error .zeroDivision := by
      apply normalize_zero
      unfold dot at hw1
      ext
      · simp only [project_away, sub, smul, dot]
        linear_combination -w.x * hw1
      · simp only [project_away, sub, smul, dot]
        linear_combination -w.y * hw1
      · simp only [project_away, sub, smul, dot]
        linear_combination -w.z * hw1
    unfold polarization_circulation
    rw [hv_s, bind_ok, hN_s, bind_ok]
    unfold jones
    show (normalize rsqrt (project_away w (smul (-1) w)) >>= _) = _
    rw [hz]
    rfl

/-! ## moving the ring -/

theorem normalize_map {Q : V3 ℝ → V3 ℝ} (hs : ∀ k a, Q (smul k a) = smul k (Q a)) (hd : ∀ a b, dot (Q a) (Q b) = dot a b) {k : ℝ} (hk : 0 < k)
    {v w : V3 ℝ} (h : normalize rsqrt v = .ok w) : normalize rsqrt (smul k (Q v)) = .ok (Q w) := by
  obtain ⟨h1, r, hr, rfl⟩ := (C138_normalize _ _).1 h
  refine (C138_normalize _ _).2 ⟨by rw [hd, h1], k * r, mul_pos hk hr, ?_⟩
  rw [hs, smul_smul]

theorem steps_map {Q f : V3 ℝ → V3 ℝ} (hs : ∀ k a, Q (smul k a) = smul k (Q a)) (hd : ∀ a b, dot (Q a) (Q b) = dot a b) {k : ℝ} (hk : 0 < k)
    (hf : ∀ a b, sub (f a) (f b) = smul k (Q (sub a b))) : ∀ {l : List (V3 ℝ)} {p : V3 ℝ} {vs : List (V3 ℝ)}, steps rsqrt p l = .ok vs →
    steps rsqrt (f p) (l.map f) = .ok (vs.map Q)
  | [], p, vs, h => by
    injection h with h
    subst h
    rfl
  | c :: l, p, vs, h => by
    obtain ⟨v, r, rfl, h1, h2⟩ := steps_cons h
    refine steps_mk ?_ (steps_map hs hd hk hf h2)
    rw [hf]
    exact normalize_map hs hd hk h1

theorem refl_map {Q : V3 ℝ → V3 ℝ} (hs : ∀ k a, Q (smul k a) = smul k (Q a)) (hsub : ∀ a b, Q (sub a b) = sub (Q a) (Q b))
    (hd : ∀ a b, dot (Q a) (Q b) = dot a b) : ∀ (l : List (V3 ℝ)) (a : V3 ℝ), refl (l.map Q) (Q a) = Q (refl l a)
  | [], _ => rfl
  | N :: l, a => by
    show refl (l.map Q) (reflect_through (Q a) (Q N)) = Q (refl l (reflect_through a N))
    have : reflect_through (Q a) (Q N) = Q (reflect_through a N) := by
      unfold reflect_through
      rw [hd, hsub, hs, hs]
    rw [this]
    exact refl_map hs hsub hd l _

/-- **C138, the place of the ring.**  A ring that is enlarged, turned (`e = 1`) or mirrored (`e = -1`) and moved has the same matrix, but for the
sense of the rotation when it is mirrored. -/
theorem C138_moved {p_s : List (V3 ℝ)} {J : Jones ℝ} (h : polarization_circulation rsqrt p_s = .ok J) {Q : V3 ℝ → V3 ℝ}
    (hs : ∀ k a, Q (smul k a) = smul k (Q a)) (hsub : ∀ a b, Q (sub a b) = sub (Q a) (Q b)) (hd : ∀ a b, dot (Q a) (Q b) = dot a b)
    {e : ℝ} (he : e * e = 1) (hc : ∀ a b, cross (Q a) (Q b) = smul e (Q (cross a b))) (t : V3 ℝ) {k : ℝ} (hk : 0 < k) :
    polarization_circulation rsqrt (p_s.map (fun p => add t (smul k (Q p)))) = .ok ⟨J.pp, e * J.ps, e * J.sp, J.ss⟩ := by
  obtain ⟨p0, l, w0, vr, v0, rest, N0, Nr, P, S, rfl, h1, h2, hcc, h3, h4, hP, hS, rfl⟩ := parts h
  set f : V3 ℝ → V3 ℝ := fun p => add t (smul k (Q p)) with hfd
  have hf : ∀ a b, sub (f a) (f b) = smul k (Q (sub a b)) := by
    intro a b
    rw [hsub]
    show sub (add t (smul k (Q a))) (add t (smul k (Q b))) = _
    ext <;> simp only [sub, add, smul] <;> ring
  have one : ∀ v w, normalize rsqrt v = .ok w → normalize rsqrt (Q v) = .ok (Q w) := by
    intro v w hvw
    have := normalize_map hs hd one_pos hvw
    have h1 : smul 1 (Q v) = Q v := by ext <;> simp only [smul] <;> ring
    rwa [h1] at this
  have hQ1 : ∀ a b, sub (Q a) (Q b) = smul 1 (Q (sub a b)) := by
    intro a b
    rw [hsub]
    ext <;> simp only [smul] <;> ring
  have hS' : normalize rsqrt (cross (Q P) (Q v0)) = .ok (smul e (Q S)) := by
    obtain ⟨g1, r, hr, g2⟩ := (C138_normalize _ _).1 hS
    refine (C138_normalize _ _).2 ⟨?_, r, hr, ?_⟩
    · rw [dot_smul, dot_comm, dot_smul, hd, g1, mul_one, he]
    · rw [hc, g2, hs, smul_smul, smul_smul, mul_comm]
  have hlast : ((f p0) :: l.map f).getLast (List.cons_ne_nil _ _) = f ((p0 :: l).getLast (List.cons_ne_nil _ _)) := by
    have : ∀ (m : List (V3 ℝ)) (hm : m ≠ []) (hm' : m.map f ≠ []), (m.map f).getLast hm' = f (m.getLast hm) := by
      intro m hm hm'
      rw [List.getLast_map]
    exact this (p0 :: l) (List.cons_ne_nil _ _) (List.cons_ne_nil _ _)
  have hp1 : normalize rsqrt (sub (f p0) (((f p0) :: l.map f).getLast (List.cons_ne_nil _ _))) = .ok (Q w0) := by
    rw [hlast, hf]
    exact normalize_map hs hd hk h1
  have hp3 : normalize rsqrt (sub (Q v0) (Q w0)) = .ok (Q N0) := by
    rw [← hsub]
    exact one _ _ h3
  have hpP : normalize rsqrt (project_away (Q w0) (Q v0)) = .ok (Q P) := by
    have : project_away (Q w0) (Q v0) = Q (project_away w0 v0) := by
      unfold project_away
      rw [hd, hsub, hs]
    rw [this]
    exact one _ _ hP
  have hcc' : vr.map Q ++ [Q w0] = Q v0 :: rest.map Q := by
    have := congrArg (List.map Q) hcc
    rwa [List.map_append] at this
  have := parts_mk (l := l.map f) hp1 (steps_map hs hd hk hf h2) hcc' hp3 (steps_map hs hd one_pos hQ1 h4) hpP hS'
  rw [List.map_cons, this]
  have hNs : Nr.map Q ++ [Q N0] = (Nr ++ [N0]).map Q := by rw [List.map_append]; rfl
  rw [hNs, refl_smul, refl_map hs hsub hd, refl_map hs hsub hd]
  have hr : ∀ a b, dot (Q a) (smul e (Q b)) = e * dot a b := by
    intro a b
    rw [dot_comm, dot_smul, dot_comm, hd]
  have hl : ∀ a b, dot (smul e (Q a)) (Q b) = e * dot a b := by
    intro a b
    rw [dot_smul, hd]
  have hb : ∀ a b, dot (smul e (Q a)) (smul e (Q b)) = dot a b := by
    intro a b
    rw [dot_smul, hr, ← mul_assoc, he, one_mul]
  rw [hd, hr, hl, hb]

/-! ## examples -/

/-- A flat ring of three mirrors has a matrix, and it is a mirror image. -/
example : polarization_circulation rsqrt [(⟨0, 0, 0⟩ : V3 ℝ), ⟨1, 0, 0⟩, ⟨0, 1, 0⟩] = .ok ⟨-1, 0, 0, 1⟩ := by
  obtain ⟨J, hJ⟩ := C138_ok (p0 := (⟨0, 0, 0⟩ : V3 ℝ)) (p1 := ⟨1, 0, 0⟩) (l := [⟨0, 1, 0⟩])
    (by
      intro x y z h
      simp [List.infix_cons_iff, List.cons_prefix_cons] at h
      rcases h with ⟨rfl, rfl, rfl⟩ | ⟨rfl, rfl, rfl⟩ | ⟨rfl, rfl, rfl⟩ <;>
        (refine ⟨by simp, by simp, fun r hr h => ?_⟩; simp [sub, smul] at h <;> linarith))
    (by
      intro r h
      simp [sub, smul] at h)
  have := C138_planar hJ (u := ⟨0, 0, 1⟩) (by simp) (c := 0) (by
    intro p hp
    simp at hp
    rcases hp with rfl | rfl | rfl <;> simp [dot])
  rw [hJ, this]
  norm_num

/-- A ring of four mirrors that is not flat has a matrix, which is a rotation; from the second mirror on and turned round it has the same
defect. -/
example : ∃ J J', polarization_circulation rsqrt [(⟨0, 0, 1⟩ : V3 ℝ), ⟨1, 0, -1⟩, ⟨1, 1, 1⟩, ⟨0, 1, -1⟩] = .ok J ∧
    polarization_circulation rsqrt [(⟨1, 0, -1⟩ : V3 ℝ), ⟨1, 1, 1⟩, ⟨0, 1, -1⟩, ⟨0, 0, 1⟩] = .ok J' ∧ J.pp ^ 2 + J.ps ^ 2 = 1 ∧ J.ss = J.pp ∧
    J'.pp = J.pp ∧ polarization_circulation rsqrt [(⟨3, 2, 0⟩ : V3 ℝ), ⟨3, -2, 2⟩, ⟨5, 2, 2⟩, ⟨5, -2, 0⟩] = .ok J := by
  obtain ⟨J, hJ⟩ := C138_ok (p0 := (⟨0, 0, 1⟩ : V3 ℝ)) (p1 := ⟨1, 0, -1⟩) (l := [⟨1, 1, 1⟩, ⟨0, 1, -1⟩])
    (by
      intro x y z h
      simp [List.infix_cons_iff, List.cons_prefix_cons] at h
      rcases h with ⟨rfl, rfl, rfl⟩ | ⟨rfl, rfl, rfl⟩ | ⟨rfl, rfl, rfl⟩ | ⟨rfl, rfl, rfl⟩ <;>
        (refine ⟨by simp, by simp, fun r hr h => ?_⟩; simp [sub, smul] at h))
    (by
      intro r h
      simp [sub, smul] at h)
  obtain ⟨J', hJ'⟩ := C138_ok (p0 := (⟨1, 0, -1⟩ : V3 ℝ)) (p1 := ⟨1, 1, 1⟩) (l := [⟨0, 1, -1⟩, ⟨0, 0, 1⟩])
    (by
      intro x y z h
      simp [List.infix_cons_iff, List.cons_prefix_cons] at h
      rcases h with ⟨rfl, rfl, rfl⟩ | ⟨rfl, rfl, rfl⟩ | ⟨rfl, rfl, rfl⟩ | ⟨rfl, rfl, rfl⟩ <;>
        (refine ⟨by simp, by simp, fun r hr h => ?_⟩; simp [sub, smul] at h))
    (by
      intro r h
      simp [sub, smul] at h)
  obtain ⟨j1, -, j3, -⟩ := C138_jones hJ
  refine ⟨J, J', hJ, hJ', j1, by rw [j3]; norm_num, C138_start hJ hJ' (by decide), ?_⟩
  have := C138_moved hJ (Q := fun a => ⟨a.y, a.z, a.x⟩) (fun k a => rfl) (fun a b => rfl) (fun a b => by simp only [dot]; ring) (e := 1)
    (by norm_num) (fun a b => by ext <;> simp only [cross, smul] <;> ring) ⟨3, 0, 0⟩ (k := 2) two_pos
  norm_num [add, smul] at this
  exact this

end Circulation
