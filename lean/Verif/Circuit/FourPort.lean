import Mathlib.Algebra.Field.Rat
import Mathlib.Algebra.Order.Ring.Rat
import Verif.Circuit.Props

/-!
# C43: the four terminal element does not obey its impedance matrix

With the terminals `A`, `B` of the first and `C`, `D` of the second branch the impedance matrix means

  `V_A - V_B = Z11 I_A + Z12 I_C`,  `V_C - V_D = Z21 I_A + Z22 I_C`,  `I_A + I_B = 0`,  `I_C + I_D = 0`.

The element satisfies the last two but not the first two: for a symmetric matrix it realises the *admittance* matrix
whose entries are the reciprocals of the entries of `Z`.
-/

set_option linter.unusedSectionVars false

namespace Circuit
open Py Inject

variable {P K F : Type} [DecidableEq P] [DecidableEq K] [Field F] [DecidableEq F]

/-- `V = Z I` for the two branches `A`-`B` and `C`-`D`. -/
def Obeys (Z11 Z12 Z21 Z22 : F) (V I : Port P → F) (A B C D : Port P) : Prop :=
  (V A - V B = Z11 * I A + Z12 * I C ∧ V C - V D = Z21 * I A + Z22 * I C) ∧ I A + I B = 0 ∧ I C + I D = 0

theorem ddiv_ok {a d v : F} (h : ddiv a d = .ok v) : v = a / d := by
  unfold ddiv at h
  split_ifs at h with ha
  · exact (pdiv_ok h).2
  · injection h with h
    rw [not_not] at ha
    rw [← h, ha, zero_div]

/-- The waves leaving the element. -/
theorem z2x2_into {env : Env P K F} {Z11 Z12 Z21 Z22 : F → F} {A B C D : Port P} {cs : List (Coupling P K F)}
    (h : z2x2_setup env Z11 Z12 Z21 Z22 A B C D = .ok cs) (hn : (env.keys A.i).Nodup) {k : K} (hk : k ∈ env.keys A.i)
    (hd : ([A, B, C, D].map Port.o).Nodup) {z : Z4 F}
    (hz : z4 env.Ze (Z11 (env.freq k)) (Z12 (env.freq k)) (Z21 (env.freq k)) (Z22 (env.freq k)) = z)
    (hD : z.D ≠ 0) (x : P × K → F) :
    total cs x (A.o, k) = (z.N11 * x (A.i, k) + z.N12 * x (B.i, k) + z.N31 * (x (C.i, k) - x (D.i, k))) / z.D ∧
    total cs x (B.o, k) = (z.N12 * x (A.i, k) + z.N11 * x (B.i, k) - z.N31 * (x (C.i, k) - x (D.i, k))) / z.D ∧
    total cs x (C.o, k) = (z.N33 * x (C.i, k) + z.N34 * x (D.i, k) + z.N13 * (x (A.i, k) - x (B.i, k))) / z.D ∧
    total cs x (D.o, k) = (z.N34 * x (C.i, k) + z.N33 * x (D.i, k) - z.N13 * (x (A.i, k) - x (B.i, k))) / z.D := by
  have row : ∀ (p q : Port P) (num : Z4 F → F) (e : List (Coupling P K F)), (env.keys A.i).mapM (fun k =>
      (ddiv (num (z4 env.Ze (Z11 (env.freq k)) (Z12 (env.freq k)) (Z21 (env.freq k)) (Z22 (env.freq k))))
        (z4 env.Ze (Z11 (env.freq k)) (Z12 (env.freq k)) (Z21 (env.freq k)) (Z22 (env.freq k))).D).map
        (fun g => Coupling.edge (p.i, k) (q.o, k) g)) = .ok e →
      ∀ t, total e x (t, k) = if q.o = t then num z / z.D * x (p.i, k) else 0 := by
    intro p q num e he t
    obtain ⟨v, hv, h1⟩ := keyed_into he hn hk
    rw [h1, ddiv_ok hv, hz]
  unfold z2x2_setup at h
  obtain ⟨h1, h2⟩ := blocks_sum h
  have hp : ∀ (p q : Port P) (num : Z4 F → F) (b : Except Err (List (Coupling P K F))),
      b = (env.keys A.i).mapM (fun k =>
      (ddiv (num (z4 env.Ze (Z11 (env.freq k)) (Z12 (env.freq k)) (Z21 (env.freq k)) (Z22 (env.freq k))))
        (z4 env.Ze (Z11 (env.freq k)) (Z12 (env.freq k)) (Z21 (env.freq k)) (Z22 (env.freq k))).D).map
        (fun g => Coupling.edge (p.i, k) (q.o, k) g)) → (∃ e, b = .ok e) →
      ∀ t, part x (t, k) b = if q.o = t then num z / z.D * x (p.i, k) else 0 := by
    rintro p q num b hb ⟨e, he⟩ t
    rw [he]
    exact row p q num e (hb ▸ he) t
  simp only [List.forall_mem_cons] at h1
  obtain ⟨e1, e2, e3, e4, e5, e6, e7, e8, e9, e10, e11, e12, e13, e14, e15, e16, -⟩ := h1
  have q1 := hp A A (·.N11) _ rfl e1
  have q2 := hp A B (·.N12) _ rfl e2
  have q3 := hp B A (·.N12) _ rfl e3
  have q4 := hp B B (·.N11) _ rfl e4
  have q5 := hp C C (·.N33) _ rfl e5
  have q6 := hp C D (·.N34) _ rfl e6
  have q7 := hp D C (·.N34) _ rfl e7
  have q8 := hp D D (·.N33) _ rfl e8
  have q9 := hp A C (·.N13) _ rfl e9
  have q10 := hp A D (-·.N13) _ rfl e10
  have q11 := hp B C (-·.N13) _ rfl e11
  have q12 := hp B D (·.N13) _ rfl e12
  have q13 := hp C A (·.N31) _ rfl e13
  have q14 := hp C B (-·.N31) _ rfl e14
  have q15 := hp D A (-·.N31) _ rfl e15
  have q16 := hp D B (·.N31) _ rfl e16
  simp only [List.map_cons, List.map_nil, List.nodup_cons, List.mem_cons, List.not_mem_nil, or_false, not_or] at hd
  obtain ⟨⟨hAB, hAC, hAD⟩, ⟨hBC, hBD⟩, hCD, -⟩ := hd
  refine ⟨?_, ?_, ?_, ?_⟩ <;> rw [h2] <;>
    simp only [List.map_cons, List.map_nil, List.sum_cons, List.sum_nil, q1, q2, q3, q4, q5, q6, q7, q8, q9, q10, q11,
      q12, q13, q14, q15, q16, hAB, hAC, hAD, hBC, hBD, hCD, Ne.symm hAB, Ne.symm hAC, Ne.symm hAD, Ne.symm hBC,
      Ne.symm hBD, Ne.symm hCD, if_true, if_false] <;> ring

/-- The full statement of C43 for one field: the waves leaving the element obey `V = Z I`. -/
def C43_statement (P K F : Type) [DecidableEq P] [DecidableEq K] [Field F] [DecidableEq F] : Prop :=
  ∀ (env : Env P K F) (Z11 Z12 Z21 Z22 : F → F) (A B C D : Port P) (cs : List (Coupling P K F)) (k : K)
    (x : P × K → F), z2x2_setup env Z11 Z12 Z21 Z22 A B C D = .ok cs → (∀ p, (env.keys p).Nodup) → env.Ze ≠ 0 →
    k ∈ env.keys A.i → ([A, B, C, D].map Port.o).Nodup →
    (∀ p ∈ [A, B, C, D], x (p.o, k) = total cs x (p.o, k)) →
    Obeys (Z11 (env.freq k)) (Z12 (env.freq k)) (Z21 (env.freq k)) (Z22 (env.freq k))
      (fun p => x (p.i, k) + x (p.o, k)) (fun p => (x (p.i, k) - x (p.o, k)) / env.Ze) A B C D

def fpEnv : Env ℕ Unit ℚ :=
  { Ze := 1, i2pi := 1, i := 1, pi := 1, exp := id, freq := fun _ => 1, keys := fun _ => [()], dc := () }

def fpPort (n : ℕ) : Port ℕ := ⟨2 * n, 2 * n + 1⟩

/-- The waves for a unit wave entering at `A`, all entries of `Z` equal to one. -/
def fpWave : ℕ × Unit → ℚ
  | (0, _) => 1
  | (1, _) => 3 / 5
  | (3, _) => 2 / 5
  | (5, _) => -2 / 5
  | (7, _) => 2 / 5
  | _ => 0

theorem fp_setup (a b c d : ℚ) (h : (z4 1 a b c d).D ≠ 0) :
    ∃ cs, z2x2_setup fpEnv (fun _ => a) (fun _ => b) (fun _ => c) (fun _ => d) (fpPort 0) (fpPort 1) (fpPort 2)
      (fpPort 3) = .ok cs := by
  have hd : ∀ n : ℚ, ∃ v, ddiv n (z4 1 a b c d).D = .ok v := by
    intro n
    unfold ddiv pdiv
    split_ifs
    · exact ⟨_, rfl⟩
    · exact ⟨_, rfl⟩
  have row : ∀ (p q : Port ℕ) (num : Z4 ℚ → ℚ), ∃ e : List (Coupling ℕ Unit ℚ), [()].mapM (fun k =>
      (ddiv (num (z4 1 a b c d)) (z4 1 a b c d).D).map (fun g => Coupling.edge (p.i, k) (q.o, k) g)) = .ok e := by
    intro p q num
    obtain ⟨v, hv⟩ := hd (num (z4 1 a b c d))
    rw [hv]
    exact ⟨_, rfl⟩
  have all : ∀ (l : List (Except Err (List (Coupling ℕ Unit ℚ)))), (∀ b ∈ l, ∃ e, b = .ok e) →
      ∃ cs, blocks l = .ok cs := by
    intro l
    induction l with
    | nil => intro _; exact ⟨[], rfl⟩
    | cons b l ih =>
      intro hb
      obtain ⟨e, rfl⟩ := hb b List.mem_cons_self
      obtain ⟨cs, hcs⟩ := ih (fun b h => hb b (List.mem_cons_of_mem _ h))
      unfold blocks
      rw [hcs]
      exact ⟨_, rfl⟩
  refine all _ ?_
  simp only [List.forall_mem_cons]
  refine ⟨row _ _ (·.N11), row _ _ (·.N12), row _ _ (·.N12), row _ _ (·.N11), row _ _ (·.N33), row _ _ (·.N34),
    row _ _ (·.N34), row _ _ (·.N33), row _ _ (·.N13), row _ _ (-·.N13), row _ _ (-·.N13), row _ _ (·.N13),
    row _ _ (·.N31), row _ _ (-·.N31), row _ _ (-·.N31), row _ _ (·.N31), by simp⟩

/-- **C43 does not hold**: with all entries of the impedance matrix equal to `Ze = 1` and a unit wave entering at
`A`, the voltage across the first branch is `6/5` while `Z11 I_A + Z12 I_C = 4/5`. -/
theorem C43_refuted : ¬ C43_statement ℕ Unit ℚ := by
  intro H
  have hD : (z4 (1 : ℚ) 1 1 1 1).D ≠ 0 := by norm_num [z4]
  obtain ⟨cs, hcs⟩ := fp_setup 1 1 1 1 hD
  have hd : ([fpPort 0, fpPort 1, fpPort 2, fpPort 3].map Port.o).Nodup := by decide
  have hk : () ∈ fpEnv.keys (fpPort 0).i := List.mem_singleton.2 rfl
  obtain ⟨i1, i2, i3, i4⟩ := z2x2_into hcs (List.nodup_singleton ()) hk hd rfl hD fpWave
  have := H fpEnv _ _ _ _ _ _ _ _ cs () fpWave hcs (fun p => List.nodup_singleton ()) (by norm_num [fpEnv]) hk hd (by
    simp only [List.forall_mem_cons]
    refine ⟨?_, ?_, ?_, ?_, by simp⟩
    · rw [i1]; norm_num [z4, fpWave, fpPort, fpEnv]
    · rw [i2]; norm_num [z4, fpWave, fpPort, fpEnv]
    · rw [i3]; norm_num [z4, fpWave, fpPort, fpEnv]
    · rw [i4]; norm_num [z4, fpWave, fpPort, fpEnv])
  have h1 := this.1.1
  norm_num [fpWave, fpPort, fpEnv] at h1

/-- **C43, what holds of it**: no current is lost between the two terminals of a branch. -/
theorem C43_partial {env : Env P K F} {Z11 Z12 Z21 Z22 : F → F} {A B C D : Port P} {cs : List (Coupling P K F)}
    (h : z2x2_setup env Z11 Z12 Z21 Z22 A B C D = .ok cs) (hn : (env.keys A.i).Nodup) {k : K} (hk : k ∈ env.keys A.i)
    (hd : ([A, B, C, D].map Port.o).Nodup)
    (hD : (z4 env.Ze (Z11 (env.freq k)) (Z12 (env.freq k)) (Z21 (env.freq k)) (Z22 (env.freq k))).D ≠ 0)
    (x : P × K → F) (hx : ∀ p ∈ [A, B, C, D], x (p.o, k) = total cs x (p.o, k)) :
    (x (A.i, k) - x (A.o, k)) / env.Ze + (x (B.i, k) - x (B.o, k)) / env.Ze = 0 ∧
    (x (C.i, k) - x (C.o, k)) / env.Ze + (x (D.i, k) - x (D.o, k)) / env.Ze = 0 := by
  obtain ⟨i1, i2, i3, i4⟩ := z2x2_into h hn hk hd rfl hD x
  have e1 : (z4 env.Ze (Z11 (env.freq k)) (Z12 (env.freq k)) (Z21 (env.freq k)) (Z22 (env.freq k))).N11 +
    (z4 env.Ze (Z11 (env.freq k)) (Z12 (env.freq k)) (Z21 (env.freq k)) (Z22 (env.freq k))).N12 =
    (z4 env.Ze (Z11 (env.freq k)) (Z12 (env.freq k)) (Z21 (env.freq k)) (Z22 (env.freq k))).D := by
      simp only [z4]; ring
  have e2 : (z4 env.Ze (Z11 (env.freq k)) (Z12 (env.freq k)) (Z21 (env.freq k)) (Z22 (env.freq k))).N33 +
    (z4 env.Ze (Z11 (env.freq k)) (Z12 (env.freq k)) (Z21 (env.freq k)) (Z22 (env.freq k))).N34 =
    (z4 env.Ze (Z11 (env.freq k)) (Z12 (env.freq k)) (Z21 (env.freq k)) (Z22 (env.freq k))).D := by
      simp only [z4]; ring
  generalize z4 env.Ze (Z11 (env.freq k)) (Z12 (env.freq k)) (Z21 (env.freq k)) (Z22 (env.freq k)) = z at *
  simp only [List.forall_mem_cons] at hx
  obtain ⟨h1, h2, h3, h4, -⟩ := hx
  rw [h1, h2, h3, h4, i1, i2, i3, i4]
  obtain ⟨N11, N12, N33, N34, N13, N31, D'⟩ := z
  simp only at *
  constructor
  · rw [← add_div, div_eq_zero_iff]
    left
    field_simp
    linear_combination -(x (A.i, k) + x (B.i, k)) * e1
  · rw [← add_div, div_eq_zero_iff]
    left
    field_simp
    linear_combination -(x (C.i, k) + x (D.i, k)) * e2

theorem z4_scaled {Ze z1 m z2 : F} (hZe : Ze ≠ 0) :
    (z4 Ze z1 m m z2).N11 = z1 * m ^ 2 * (z2 + 2 * Ze) / Ze ^ 2 ∧
    (z4 Ze z1 m m z2).N12 = (2 * Ze * m ^ 2 * z2 - 4 * Ze ^ 2 * (z1 * z2 - m ^ 2)) / Ze ^ 2 ∧
    (z4 Ze z1 m m z2).N33 = z2 * m ^ 2 * (z1 + 2 * Ze) / Ze ^ 2 ∧
    (z4 Ze z1 m m z2).N34 = (2 * Ze * m ^ 2 * z1 - 4 * Ze ^ 2 * (z1 * z2 - m ^ 2)) / Ze ^ 2 ∧
    (z4 Ze z1 m m z2).N13 = -2 * Ze * z1 * z2 * m / Ze ^ 2 ∧
    (z4 Ze z1 m m z2).N31 = -2 * Ze * z1 * z2 * m / Ze ^ 2 ∧
    (z4 Ze z1 m m z2).D = ((z1 + 2 * Ze) * (z2 + 2 * Ze) * m ^ 2 - 4 * Ze ^ 2 * z1 * z2) / Ze ^ 2 := by
  simp only [z4]
  refine ⟨?_, ?_, ?_, ?_, ?_, ?_, ?_⟩ <;> field_simp <;> ring

/-- The algebra behind `C43_realised_partial`. -/
theorem four_algebra {Ze z1 m z2 : F} (h2 : (2 : F) ≠ 0)
    {d : F} (hd : d = (z1 + 2 * Ze) * (z2 + 2 * Ze) * m ^ 2 - 4 * Ze ^ 2 * z1 * z2) (hd0 : d ≠ 0)
    (a b c e a' b' c' e' : F) :
    (a' * d = z1 * m ^ 2 * (z2 + 2 * Ze) * a + (2 * Ze * m ^ 2 * z2 - 4 * Ze ^ 2 * (z1 * z2 - m ^ 2)) * b
        + -2 * Ze * z1 * z2 * m * (c - e) ∧
      b' * d = (2 * Ze * m ^ 2 * z2 - 4 * Ze ^ 2 * (z1 * z2 - m ^ 2)) * a + z1 * m ^ 2 * (z2 + 2 * Ze) * b
        - -2 * Ze * z1 * z2 * m * (c - e) ∧
      c' * d = z2 * m ^ 2 * (z1 + 2 * Ze) * c + (2 * Ze * m ^ 2 * z1 - 4 * Ze ^ 2 * (z1 * z2 - m ^ 2)) * e
        + -2 * Ze * z1 * z2 * m * (a - b) ∧
      e' * d = (2 * Ze * m ^ 2 * z1 - 4 * Ze ^ 2 * (z1 * z2 - m ^ 2)) * c + z2 * m ^ 2 * (z1 + 2 * Ze) * e
        - -2 * Ze * z1 * z2 * m * (a - b)) ↔
    ((a - a') * (z1 * m) = Ze * ((a + a' - (b + b')) * m + (c + c' - (e + e')) * z1) ∧
      (c - c') * (m * z2) = Ze * ((a + a' - (b + b')) * z2 + (c + c' - (e + e')) * m)) ∧
      a - a' + (b - b') = 0 ∧ c - c' + (e - e') = 0 := by
  constructor
  · rintro ⟨i1, i2, i3, i4⟩
    refine ⟨⟨?_, ?_⟩, ?_, ?_⟩ <;> apply mul_right_cancel₀ hd0
    · subst hd
      linear_combination (-(z1 * m) - Ze * m) * i1 + Ze * m * i2 - Ze * z1 * i3 + Ze * z1 * i4
    · subst hd
      linear_combination -Ze * z2 * i1 + Ze * z2 * i2 + (-(m * z2) - Ze * m) * i3 + Ze * m * i4
    · subst hd
      linear_combination -i1 - i2
    · subst hd
      linear_combination -i3 - i4
  · rintro ⟨⟨j1, j2⟩, j3, j4⟩
    have k1 : (a' - b') * d = (z1 * m ^ 2 * (z2 + 2 * Ze) - (2 * Ze * m ^ 2 * z2 - 4 * Ze ^ 2 * (z1 * z2 - m ^ 2))) *
        (a - b) + 2 * (-2 * Ze * z1 * z2 * m) * (c - e) := by
      subst hd
      linear_combination -2 * (m * z2 + 2 * Ze * m) * j1 + 2 * (2 * Ze * z1) * j2 + z1 * m * (m * z2 + 2 * Ze * m) * j3
        - (m * z2) * (2 * Ze * z1) * j4
    have k2 : (c' - e') * d = (z2 * m ^ 2 * (z1 + 2 * Ze) - (2 * Ze * m ^ 2 * z1 - 4 * Ze ^ 2 * (z1 * z2 - m ^ 2))) *
        (c - e) + 2 * (-2 * Ze * z1 * z2 * m) * (a - b) := by
      subst hd
      linear_combination -2 * (z1 * m + 2 * Ze * m) * j2 + 2 * (2 * Ze * z2) * j1 + z2 * m * (m * z1 + 2 * Ze * m) * j4
        - (m * z1) * (2 * Ze * z2) * j3
    refine ⟨?_, ?_, ?_, ?_⟩ <;> apply mul_left_cancel₀ h2
    · linear_combination k1 - d * j3 + (a + b) * hd
    · linear_combination -k1 - d * j3 + (a + b) * hd
    · linear_combination k2 - d * j4 + (c + e) * hd
    · linear_combination -k2 - d * j4 + (c + e) * hd

/-- The law the element realises when `Z12 = Z21 = M`: the admittances of the two branches are the reciprocals
`1/Z11`, `1/Z22`, coupled by `1/M`. -/
theorem C43_realised_partial {env : Env P K F} {Z11 Z12 Z21 Z22 : F → F} {A B C D : Port P}
    {cs : List (Coupling P K F)} (h : z2x2_setup env Z11 Z12 Z21 Z22 A B C D = .ok cs)
    (hn : (env.keys A.i).Nodup) (hZe : env.Ze ≠ 0) (h2 : (2 : F) ≠ 0) {k : K} (hk : k ∈ env.keys A.i)
    (hd : ([A, B, C, D].map Port.o).Nodup) {z1 m z2 : F} (e11 : Z11 (env.freq k) = z1) (e12 : Z12 (env.freq k) = m)
    (e21 : Z21 (env.freq k) = m) (e22 : Z22 (env.freq k) = z2) (h1 : z1 ≠ 0) (hm : m ≠ 0) (h3 : z2 ≠ 0)
    (hD : (z1 + 2 * env.Ze) * (z2 + 2 * env.Ze) * m ^ 2 ≠ 4 * env.Ze ^ 2 * z1 * z2)
    (x : P × K → F) (b : P → F) (V I : Port P → F) (hV : ∀ p, V p = x (p.i, k) + b p.o)
    (hI : ∀ p, I p = (x (p.i, k) - b p.o) / env.Ze) :
    (∀ p ∈ [A, B, C, D], b p.o = total cs x (p.o, k)) ↔
    (I A = (V A - V B) / z1 + (V C - V D) / m ∧ I C = (V A - V B) / m + (V C - V D) / z2) ∧
      I A + I B = 0 ∧ I C + I D = 0 := by
  obtain ⟨s1, s2, s3, s4, s5, s6, s7⟩ := z4_scaled (z1 := z1) (m := m) (z2 := z2) hZe
  have hD' : (z1 + 2 * env.Ze) * (z2 + 2 * env.Ze) * m ^ 2 - 4 * env.Ze ^ 2 * z1 * z2 ≠ 0 := sub_ne_zero.2 hD
  have hZ2 : env.Ze ^ 2 ≠ 0 := pow_ne_zero 2 hZe
  obtain ⟨i1, i2, i3, i4⟩ := z2x2_into h hn hk hd (by rw [e11, e12, e21, e22])
    (by rw [s7]; exact div_ne_zero hD' hZ2) x
  rw [s1, s2, s6, s7] at i1 i2
  rw [s3, s4, s5, s7] at i3 i4
  have key := four_algebra h2 rfl hD' (x (A.i, k)) (x (B.i, k)) (x (C.i, k)) (x (D.i, k))
    (b A.o) (b B.o) (b C.o) (b D.o)
  have scale : ∀ {n1 n2 n3 d p q r b : F}, d ≠ 0 →
      (b = (n1 / env.Ze ^ 2 * p + n2 / env.Ze ^ 2 * q + n3 / env.Ze ^ 2 * r) / (d / env.Ze ^ 2) ↔
        b * d = n1 * p + n2 * q + n3 * r) := by
    intro n1 n2 n3 d p q r b hd
    rw [eq_div_iff (div_ne_zero hd hZ2), mul_div_assoc', div_eq_iff hZ2]
    have : (n1 / env.Ze ^ 2 * p + n2 / env.Ze ^ 2 * q + n3 / env.Ze ^ 2 * r) * env.Ze ^ 2 = n1 * p + n2 * q + n3 * r := by
      field_simp
    rw [this]
  have scale' : ∀ {n1 n2 n3 d p q r b : F}, d ≠ 0 →
      (b = (n1 / env.Ze ^ 2 * p + n2 / env.Ze ^ 2 * q - n3 / env.Ze ^ 2 * r) / (d / env.Ze ^ 2) ↔
        b * d = n1 * p + n2 * q - n3 * r) := by
    intro n1 n2 n3 d p q r b hd
    rw [eq_div_iff (div_ne_zero hd hZ2), mul_div_assoc', div_eq_iff hZ2]
    have : (n1 / env.Ze ^ 2 * p + n2 / env.Ze ^ 2 * q - n3 / env.Ze ^ 2 * r) * env.Ze ^ 2 = n1 * p + n2 * q - n3 * r := by
      field_simp
    rw [this]
  simp only [List.forall_mem_cons, List.not_mem_nil, false_imp_iff, implies_true, and_true]
  rw [i1, i2, i3, i4, scale hD', scale' hD', scale hD', scale' hD', key]
  simp only [hV, hI]
  rw [← add_div, ← add_div, div_eq_zero_iff, div_eq_zero_iff, or_iff_left hZe, or_iff_left hZe, div_add_div _ _ h1 hm,
    div_add_div _ _ hm h3, div_eq_div_iff hZe (mul_ne_zero h1 hm), div_eq_div_iff hZe (mul_ne_zero hm h3)]
  constructor
  · rintro ⟨⟨p1, p2⟩, p3⟩
    exact ⟨⟨by linear_combination p1, by linear_combination p2⟩, p3⟩
  · rintro ⟨⟨p1, p2⟩, p3⟩
    exact ⟨⟨by linear_combination p1, by linear_combination p2⟩, p3⟩

/-- Without coupling (`Z12 = Z21 = 0`) the element is a pair of plain wires, whatever `Z11` and `Z22` are. -/
theorem C43_uncoupled_wires {env : Env P K F} {Z11 Z12 Z21 Z22 : F → F} {A B C D : Port P}
    {cs : List (Coupling P K F)} (h : z2x2_setup env Z11 Z12 Z21 Z22 A B C D = .ok cs)
    (hn : (env.keys A.i).Nodup) (h2 : (2 : F) ≠ 0) {k : K} (hk : k ∈ env.keys A.i)
    (hd : ([A, B, C, D].map Port.o).Nodup) (e12 : Z12 (env.freq k) = 0)
    (e21 : Z21 (env.freq k) = 0) (h1 : Z11 (env.freq k) ≠ 0) (h3 : Z22 (env.freq k) ≠ 0)
    (x : P × K → F) (hx : ∀ p ∈ [A, B, C, D], x (p.o, k) = total cs x (p.o, k)) :
    x (A.i, k) + x (A.o, k) = x (B.i, k) + x (B.o, k) ∧ x (C.i, k) + x (C.o, k) = x (D.i, k) + x (D.o, k) := by
  have hD : (z4 env.Ze (Z11 (env.freq k)) (Z12 (env.freq k)) (Z21 (env.freq k)) (Z22 (env.freq k))).D =
      -4 * (Z11 (env.freq k) * Z22 (env.freq k)) := by
    simp only [z4, e12, e21]; ring
  have h4 : (-4 : F) ≠ 0 := by
    intro h0
    have : (2 : F) * 2 = 0 := by linear_combination -h0
    rcases mul_eq_zero.1 this with h | h <;> exact h2 h
  have hD0 : (z4 env.Ze (Z11 (env.freq k)) (Z12 (env.freq k)) (Z21 (env.freq k)) (Z22 (env.freq k))).D ≠ 0 := by
    rw [hD]; exact mul_ne_zero h4 (mul_ne_zero h1 h3)
  obtain ⟨i1, i2, i3, i4⟩ := z2x2_into h hn hk hd rfl hD0 x
  simp only [List.forall_mem_cons] at hx
  obtain ⟨g1, g2, g3, g4, -⟩ := hx
  rw [g1, g2, g3, g4, i1, i2, i3, i4, ← sub_eq_zero, ← sub_eq_zero (a := _ + _ / _)]
  constructor
  · apply mul_right_cancel₀ hD0
    rw [sub_mul, add_mul, add_mul, div_mul_cancel₀ _ hD0, div_mul_cancel₀ _ hD0]
    simp only [z4, e12, e21]
    ring
  · apply mul_right_cancel₀ hD0
    rw [sub_mul, add_mul, add_mul, div_mul_cancel₀ _ hD0, div_mul_cancel₀ _ hD0]
    simp only [z4, e12, e21]
    ring

/-- The waves for a unit wave entering at `C`, with `Z12 = 1`, `Z21 = 2` and the other entries one. -/
def fpWave2 : ℕ × Unit → ℚ
  | (4, _) => 1
  | (1, _) => -1 / 5
  | (3, _) => 1 / 5
  | (5, _) => 3 / 5
  | (7, _) => 2 / 5
  | _ => 0

/-- For a matrix that is not symmetric even the law of `C43_realised_partial` fails, with `Z12` and with `Z21` in the
mixed place (the program's determinant is `Z11 Z22 - Z12^2`): with `Z12 = 1`, `Z21 = 2` and ones on the diagonal. -/
theorem C43_asymmetric_refuted :
    ∃ cs, z2x2_setup fpEnv (fun _ => 1) (fun _ => 1) (fun _ => 2) (fun _ => 1) (fpPort 0) (fpPort 1) (fpPort 2)
      (fpPort 3) = .ok cs ∧ ∃ x : ℕ × Unit → ℚ,
    (∀ p ∈ [fpPort 0, fpPort 1, fpPort 2, fpPort 3], x (p.o, ()) = total cs x (p.o, ())) ∧
    ∀ m ∈ [(1 : ℚ), 2], ∀ V I : ℕ → ℚ, (∀ n, V n = x ((fpPort n).i, ()) + x ((fpPort n).o, ())) →
      (∀ n, I n = (x ((fpPort n).i, ()) - x ((fpPort n).o, ())) / fpEnv.Ze) →
      I 2 ≠ (V 0 - V 1) / m + (V 2 - V 3) / 1 := by
  have hD : (z4 (1 : ℚ) 1 1 2 1).D ≠ 0 := by norm_num [z4]
  obtain ⟨cs, hcs⟩ := fp_setup 1 1 2 1 hD
  have hd : ([fpPort 0, fpPort 1, fpPort 2, fpPort 3].map Port.o).Nodup := by decide
  have hk : () ∈ fpEnv.keys (fpPort 0).i := List.mem_singleton.2 rfl
  obtain ⟨i1, i2, i3, i4⟩ := z2x2_into hcs (List.nodup_singleton ()) hk hd rfl hD fpWave2
  refine ⟨cs, hcs, fpWave2, ?_, ?_⟩
  · simp only [List.forall_mem_cons]
    refine ⟨?_, ?_, ?_, ?_, by simp⟩
    · rw [i1]; norm_num [z4, fpWave2, fpPort, fpEnv]
    · rw [i2]; norm_num [z4, fpWave2, fpPort, fpEnv]
    · rw [i3]; norm_num [z4, fpWave2, fpPort, fpEnv]
    · rw [i4]; norm_num [z4, fpWave2, fpPort, fpEnv]
  · intro m hm V I hV hI h
    rw [hI, hV, hV, hV, hV] at h
    simp only [List.mem_cons, List.not_mem_nil, or_false] at hm
    rcases hm with rfl | rfl
    · norm_num [fpWave2, fpPort, fpEnv] at h
    · norm_num [fpWave2, fpPort, fpEnv] at h

/-- The hypotheses of the theorems on the four terminal element are met by a symmetric matrix. -/
example : ∃ cs, z2x2_setup fpEnv (fun _ => 1) (fun _ => 1) (fun _ => 1) (fun _ => 1) (fpPort 0) (fpPort 1) (fpPort 2)
    (fpPort 3) = .ok cs ∧ () ∈ fpEnv.keys (fpPort 0).i ∧
    ([fpPort 0, fpPort 1, fpPort 2, fpPort 3].map Port.o).Nodup ∧ (z4 fpEnv.Ze 1 1 1 1).D ≠ 0 ∧
    (1 + 2 * fpEnv.Ze) * (1 + 2 * fpEnv.Ze) * 1 ^ 2 ≠ 4 * fpEnv.Ze ^ 2 * 1 * 1 ∧
    ∀ p ∈ [fpPort 0, fpPort 1, fpPort 2, fpPort 3], fpWave (p.o, ()) = total cs fpWave (p.o, ()) := by
  have hD : (z4 (1 : ℚ) 1 1 1 1).D ≠ 0 := by norm_num [z4]
  obtain ⟨cs, hcs⟩ := fp_setup 1 1 1 1 hD
  have hd : ([fpPort 0, fpPort 1, fpPort 2, fpPort 3].map Port.o).Nodup := by decide
  have hk : () ∈ fpEnv.keys (fpPort 0).i := List.mem_singleton.2 rfl
  obtain ⟨i1, i2, i3, i4⟩ := z2x2_into hcs (List.nodup_singleton ()) hk hd rfl hD fpWave
  refine ⟨cs, hcs, hk, hd, hD, by norm_num [fpEnv], ?_⟩
  simp only [List.forall_mem_cons]
  refine ⟨?_, ?_, ?_, ?_, by simp⟩
  · rw [i1]; norm_num [z4, fpWave, fpPort, fpEnv]
  · rw [i2]; norm_num [z4, fpWave, fpPort, fpEnv]
  · rw [i3]; norm_num [z4, fpWave, fpPort, fpEnv]
  · rw [i4]; norm_num [z4, fpWave, fpPort, fpEnv]

end Circuit
