import Mathlib.Analysis.Real.Pi.Bounds
import Mathlib.Analysis.SpecialFunctions.Complex.Log
import Verif.Circuit.FourPort

/-!
# C140: transformers

Source: `electronics/passive.py` l.235-345.  The inductances are real.
-/

namespace Circuit
open Py Inject Complex

noncomputable section

variable {P K : Type} [DecidableEq P] [DecidableEq K]

/-! ## model -/

/-- The arguments of a transformer, l.237-250, l.295-308. -/
structure Windings where
  L1_inductance_Henries : ℝ
  L2_inductance_Henries : ℝ
  L1_resistance_Ohms : ℝ
  L2_resistance_Ohms : ℝ

/-- l.303-304, `transformer_k_by_freq`. -/
def Windings.k_by_freq (_ : Windings) (_ : ℂ) : ℂ := 1

/-- l.334-335, `Z11_by_freq`. -/
def Windings.Z11 (w : Windings) (env : Env P K ℂ) (F : ℂ) : ℂ := w.L1_resistance_Ohms + env.i2pi * F * w.L1_inductance_Henries

/-- l.337-339, `Z12_by_freq`. -/
def Windings.Z12 (w : Windings) (env : Env P K ℂ) (F : ℂ) : ℂ :=
  env.i2pi * F * (w.k_by_freq F * (Real.sqrt (w.L1_inductance_Henries * w.L2_inductance_Henries) : ℝ))

/-- l.341-342, `Z21_by_freq`. -/
def Windings.Z21 (w : Windings) (env : Env P K ℂ) (F : ℂ) : ℂ := w.Z12 env F

/-- l.344-345, `Z22_by_freq`. -/
def Windings.Z22 (w : Windings) (env : Env P K ℂ) (F : ℂ) : ℂ := w.L2_resistance_Ohms + env.i2pi * F * w.L2_inductance_Henries

/-- l.293-345, `Transformer`: a `Z2x2To4Port` with these impedances. -/
def transformer_setup (env : Env P K ℂ) (w : Windings) (A B C D : Port P) : Except Err (List (Coupling P K ℂ)) :=
  z2x2_setup env (w.Z11 env) (w.Z12 env) (w.Z21 env) (w.Z22 env) A B C D

/-- l.235-287, `TransformerSeries`: an `SMatrix2PortBase` (smatrix.py l.33-45), which has no use for impedances. -/
def transformer_series_setup (env : Env P K ℂ) (_ : Windings) (A B : Port P) : Except Err (List (Coupling P K ℂ)) :=
  setup2 env (fun _ => .ok 0) (fun _ => .ok 0) (fun _ => .ok 0) (fun _ => .ok 0) A B

/-- The ports by name of an element with two (elements.py l.48-54) or four ports (elements.py l.73 on). -/
def port_attr (names : List String) (name : String) : Except Err String := if name ∈ names then .ok name else .error .attributeError

/-- l.252-260 and l.266-274 (l.310-318 and l.324-332), the Johnson noise of a winding: the port where it is and its one-sided spectrum; `kT` is
`symbols.temp_K * symbols.kB_J_K`. -/
def johnson_noise (names : List String) (include_johnson_noise : Bool) (kT R : ℝ) (name : String) : Except Err (List (String × ℝ)) :=
  if include_johnson_noise = true ∧ R ≠ 0 then (port_attr names name).map (fun p => [(p, 4 * R * kT)]) else .ok []

/-- The noises of the two windings. -/
def johnson_noises (names : List String) (include_johnson_noise : Bool) (kT : ℝ) (w : Windings) : Except Err (List (String × ℝ)) := do
  let n1 ← johnson_noise names include_johnson_noise kT w.L1_resistance_Ohms "pe_A"
  let n2 ← johnson_noise names include_johnson_noise kT w.L2_resistance_Ohms "pe_C"
  return n1 ++ n2

/-! ## the perfect transformer -/

/-- Perfect windings at a frequency that is not zero, in a system of real positive impedance. -/
structure Perfect (env : Env P K ℂ) (w : Windings) (k : K) : Prop where
  i2pi : env.i2pi = 2 * Real.pi * I
  ze : ∃ z : ℝ, 0 < z ∧ env.Ze = z
  freq : ∃ f : ℝ, f ≠ 0 ∧ env.freq k = f
  l1 : 0 < w.L1_inductance_Henries
  l2 : 0 < w.L2_inductance_Henries
  r1 : w.L1_resistance_Ohms = 0
  r2 : w.L2_resistance_Ohms = 0

theorem Perfect.parts {env : Env P K ℂ} {w : Windings} {k : K} (h : Perfect env w k) :
    ∃ y : ℝ, y ≠ 0 ∧ w.Z11 env (env.freq k) = I * y * (Real.sqrt w.L1_inductance_Henries ^ 2 : ℝ) ∧
      w.Z12 env (env.freq k) = I * y * (Real.sqrt w.L1_inductance_Henries * Real.sqrt w.L2_inductance_Henries : ℝ) ∧
      w.Z22 env (env.freq k) = I * y * (Real.sqrt w.L2_inductance_Henries ^ 2 : ℝ) := by
  obtain ⟨f, hf, hfk⟩ := h.freq
  refine ⟨2 * Real.pi * f, mul_ne_zero (mul_ne_zero two_ne_zero Real.pi_ne_zero) hf, ?_, ?_, ?_⟩
  · unfold Windings.Z11
    rw [h.i2pi, hfk, h.r1, Real.sq_sqrt h.l1.le]
    push_cast
    ring
  · unfold Windings.Z12 Windings.k_by_freq
    rw [h.i2pi, hfk, Real.sqrt_mul h.l1.le]
    push_cast
    ring
  · unfold Windings.Z22
    rw [h.i2pi, hfk, h.r2, Real.sq_sqrt h.l2.le]
    push_cast
    ring

theorem Perfect.den {env : Env P K ℂ} {w : Windings} {k : K} (h : Perfect env w k) :
    (w.Z11 env (env.freq k) + 2 * env.Ze) * (w.Z22 env (env.freq k) + 2 * env.Ze) * w.Z12 env (env.freq k) ^ 2 ≠
      4 * env.Ze ^ 2 * w.Z11 env (env.freq k) * w.Z22 env (env.freq k) := by
  obtain ⟨y, hy, e1, e2, e3⟩ := h.parts
  obtain ⟨z, hz, hze⟩ := h.ze
  have ha0 := Real.sqrt_pos.2 h.l1
  have hb0 := Real.sqrt_pos.2 h.l2
  rw [e1, e2, e3]
  generalize Real.sqrt w.L1_inductance_Henries = a at *
  generalize Real.sqrt w.L2_inductance_Henries = b at *
  have hyc : (y : ℂ) ≠ 0 := by exact_mod_cast hy
  have h1 : I * (y : ℂ) * ((a ^ 2 : ℝ) : ℂ) ≠ 0 := by
    refine mul_ne_zero (mul_ne_zero I_ne_zero hyc) ?_
    exact_mod_cast (pow_pos ha0 2).ne'
  have h3 : I * (y : ℂ) * ((b ^ 2 : ℝ) : ℂ) ≠ 0 := by
    refine mul_ne_zero (mul_ne_zero I_ne_zero hyc) ?_
    exact_mod_cast (pow_pos hb0 2).ne'
  intro h0
  rw [hze] at h0
  have e : (I * (y : ℂ) * ((a * b : ℝ) : ℂ)) ^ 2 = I * (y : ℂ) * ((a ^ 2 : ℝ) : ℂ) * (I * (y : ℂ) * ((b ^ 2 : ℝ) : ℂ)) := by
    push_cast
    ring
  rw [e] at h0
  have h5 : ((I * (y : ℂ) * ((a ^ 2 : ℝ) : ℂ) + 2 * z) * (I * (y : ℂ) * ((b ^ 2 : ℝ) : ℂ) + 2 * z) - 4 * z ^ 2) *
      (I * (y : ℂ) * ((a ^ 2 : ℝ) : ℂ) * (I * (y : ℂ) * ((b ^ 2 : ℝ) : ℂ))) = 0 := by linear_combination h0
  have h6 := (mul_eq_zero.1 h5).resolve_right (mul_ne_zero h1 h3)
  have h7 : ((-(y ^ 2 * (a ^ 2 * b ^ 2)) : ℝ) : ℂ) + ((2 * z * y * (a ^ 2 + b ^ 2) : ℝ) : ℂ) * I = 0 := by
    rw [← h6]
    push_cast
    linear_combination (-(y : ℂ) ^ 2 * (a ^ 2 * b ^ 2)) * I_sq
  have h8 := congrArg Complex.re h7
  rw [add_re, ofReal_re, re_ofReal_mul, I_re, mul_zero, add_zero, zero_re, neg_eq_zero] at h8
  exact mul_ne_zero (pow_ne_zero 2 hy) (mul_pos (pow_pos ha0 2) (pow_pos hb0 2)).ne' h8

/-- **C140, what a transformer does.**  The waves at a perfect transformer are those for which the currents of the windings are proportional to
one over the roots of the inductances and to the sum of the voltages, each over the root of its inductance. -/
theorem C140_transformer_partial {env : Env P K ℂ} {w : Windings} {A B C D : Port P} {cs : List (Coupling P K ℂ)}
    (h : transformer_setup env w A B C D = .ok cs) (hn : (env.keys A.i).Nodup) {k : K} (hk : k ∈ env.keys A.i)
    (hd : ([A, B, C, D].map Port.o).Nodup) (hp : Perfect env w k) {a b : ℝ} (ha : a = Real.sqrt w.L1_inductance_Henries)
    (hb : b = Real.sqrt w.L2_inductance_Henries) (x : P × K → ℂ) (o : P → ℂ) (V J : Port P → ℂ) (hV : ∀ p, V p = x (p.i, k) + o p.o)
    (hJ : ∀ p, J p = (x (p.i, k) - o p.o) / env.Ze) :
    (∀ p ∈ [A, B, C, D], o p.o = total cs x (p.o, k)) ↔
      (env.i2pi * env.freq k * a * J A = (V A - V B) / a + (V C - V D) / b ∧ b * J C = a * J A) ∧ J A + J B = 0 ∧ J C + J D = 0 := by
  obtain ⟨y, hy, e1, e2, e3⟩ := hp.parts
  obtain ⟨z, hz, hze⟩ := hp.ze
  obtain ⟨f, hf, hfk⟩ := hp.freq
  rw [← ha] at e1 e2
  rw [← hb] at e2 e3
  have ha0 : 0 < a := ha ▸ Real.sqrt_pos.2 hp.l1
  have hb0 : 0 < b := hb ▸ Real.sqrt_pos.2 hp.l2
  have hac : (a : ℂ) ≠ 0 := by exact_mod_cast ha0.ne'
  have hbc : (b : ℂ) ≠ 0 := by exact_mod_cast hb0.ne'
  have hyc : (y : ℂ) ≠ 0 := by exact_mod_cast hy
  have hyf : env.i2pi * env.freq k = I * y := by
    have := e1
    unfold Windings.Z11 at this
    rw [hp.r1, ofReal_zero, zero_add, ha, Real.sq_sqrt hp.l1.le] at this
    exact mul_right_cancel₀ (by exact_mod_cast hp.l1.ne') this
  have h1 : I * (y : ℂ) * ((a ^ 2 : ℝ) : ℂ) ≠ 0 := by
    refine mul_ne_zero (mul_ne_zero I_ne_zero hyc) ?_
    exact_mod_cast (pow_pos ha0 2).ne'
  have hm : I * (y : ℂ) * ((a * b : ℝ) : ℂ) ≠ 0 := by
    refine mul_ne_zero (mul_ne_zero I_ne_zero hyc) ?_
    exact_mod_cast (mul_pos ha0 hb0).ne'
  have h3 : I * (y : ℂ) * ((b ^ 2 : ℝ) : ℂ) ≠ 0 := by
    refine mul_ne_zero (mul_ne_zero I_ne_zero hyc) ?_
    exact_mod_cast (pow_pos hb0 2).ne'
  rw [C43_realised_partial h hn (by rw [hze]; exact_mod_cast hz.ne') two_ne_zero hk hd e1 e2 e2 e3 h1 hm h3 ?_ x o V J hV hJ, hyf]
  · refine and_congr_left fun _ => ?_
    push_cast
    constructor
    · rintro ⟨q1, q2⟩
      rw [q1, q2]
      have hI := I_ne_zero
      constructor <;> field_simp
    · rintro ⟨q1, q2⟩
      have hI := I_ne_zero
      have q3 : J A = ((V A - V B) / a + (V C - V D) / b) / (I * y * a) := by
        rw [eq_div_iff (mul_ne_zero (mul_ne_zero hI hyc) hac), ← q1]
        ring
      have q4 : J C = a * J A / b := by
        rw [eq_div_iff hbc, ← q2]
        ring
      rw [q4, q3]
      constructor <;> field_simp
  · rw [← e1, ← e2, ← e3]
    exact hp.den

theorem mapM_some {α β : Type} {f : α → Except Err β} : ∀ l : List α, (∀ a ∈ l, ∃ b, f a = .ok b) → ∃ r, l.mapM f = .ok r
  | [], _ => ⟨[], rfl⟩
  | a :: l, h => by
    obtain ⟨b, hb⟩ := h a List.mem_cons_self
    obtain ⟨r, hr⟩ := mapM_some l (fun a' h' => h a' (List.mem_cons_of_mem _ h'))
    rw [List.mapM_cons, hb, hr]
    exact ⟨b :: r, rfl⟩

theorem blocks_some : ∀ l : List (Except Err (List (Coupling P K ℂ))), (∀ b ∈ l, ∃ e, b = .ok e) → ∃ cs, blocks l = .ok cs
  | [], _ => ⟨[], rfl⟩
  | b :: l, hb => by
    obtain ⟨e, rfl⟩ := hb b List.mem_cons_self
    obtain ⟨cs, hcs⟩ := blocks_some l (fun b h => hb b (List.mem_cons_of_mem _ h))
    unfold blocks
    rw [hcs]
    exact ⟨_, rfl⟩

/-- **C140, perfect transformers** have couplings. -/
theorem C140_ok {env : Env P K ℂ} {w : Windings} {A B C D : Port P} (hp : ∀ k ∈ env.keys A.i, Perfect env w k) :
    ∃ cs, transformer_setup env w A B C D = .ok cs := by
  have hD : ∀ k ∈ env.keys A.i, (z4 env.Ze (w.Z11 env (env.freq k)) (w.Z12 env (env.freq k)) (w.Z21 env (env.freq k)) (w.Z22 env (env.freq k))).D ≠ 0 := by
    intro k hk
    obtain ⟨z, hz, hze⟩ := (hp k hk).ze
    have hZe : env.Ze ≠ 0 := by rw [hze]; exact_mod_cast hz.ne'
    obtain ⟨-, -, -, -, -, -, s7⟩ := z4_scaled (z1 := w.Z11 env (env.freq k)) (m := w.Z12 env (env.freq k)) (z2 := w.Z22 env (env.freq k)) hZe
    rw [show w.Z21 env (env.freq k) = w.Z12 env (env.freq k) from rfl, s7]
    exact div_ne_zero (sub_ne_zero.2 (hp k hk).den) (pow_ne_zero 2 hZe)
  have row : ∀ (p q : Port P) (num : Z4 ℂ → ℂ), ∃ e : List (Coupling P K ℂ), (env.keys A.i).mapM (fun k =>
      (ddiv (num (z4 env.Ze (w.Z11 env (env.freq k)) (w.Z12 env (env.freq k)) (w.Z21 env (env.freq k)) (w.Z22 env (env.freq k))))
        (z4 env.Ze (w.Z11 env (env.freq k)) (w.Z12 env (env.freq k)) (w.Z21 env (env.freq k)) (w.Z22 env (env.freq k))).D).map
          (fun g => Coupling.edge (p.i, k) (q.o, k) g)) = .ok e := by
    intro p q num
    refine mapM_some _ fun k hk => ?_
    unfold ddiv
    split_ifs
    · unfold pdiv
      rw [if_neg (hD k hk)]
      exact ⟨_, rfl⟩
    · exact ⟨_, rfl⟩
  refine blocks_some _ ?_
  simp only [List.forall_mem_cons]
  refine ⟨row _ _ (·.N11), row _ _ (·.N12), row _ _ (·.N12), row _ _ (·.N11), row _ _ (·.N33), row _ _ (·.N34),
    row _ _ (·.N34), row _ _ (·.N33), row _ _ (·.N13), row _ _ (-·.N13), row _ _ (-·.N13), row _ _ (·.N13),
    row _ _ (·.N31), row _ _ (-·.N31), row _ _ (-·.N31), row _ _ (·.N31), by simp⟩

/-- Windings of 1 H and 4 H at 1 Hz in a system of 50 Ohm. -/
example : Perfect (⟨50, 2 * Real.pi * I, I, Real.pi, Complex.exp, fun _ => 1, fun _ => [()], ()⟩ : Env ℕ Unit ℂ) ⟨1, 4, 0, 0⟩ () :=
  ⟨rfl, ⟨50, by norm_num, by norm_num⟩, ⟨1, one_ne_zero, by norm_num⟩, by norm_num, by norm_num, rfl, rfl⟩

/-- **C140, an open secondary** (refuted): its voltage has the sign opposite to that of a transformer, and the primary takes no current. -/
theorem C140_open_refuted {env : Env P K ℂ} {w : Windings} {A B C D : Port P} {cs : List (Coupling P K ℂ)}
    (h : transformer_setup env w A B C D = .ok cs) (hn : (env.keys A.i).Nodup) {k : K} (hk : k ∈ env.keys A.i)
    (hd : ([A, B, C, D].map Port.o).Nodup) (hp : Perfect env w k) (x : P × K → ℂ)
    (hx : ∀ p ∈ [A, B, C, D], x (p.o, k) = total cs x (p.o, k)) (V J : Port P → ℂ) (hV : ∀ p, V p = x (p.i, k) + x (p.o, k))
    (hJ : ∀ p, J p = (x (p.i, k) - x (p.o, k)) / env.Ze) (hopen : J C = 0) :
    V C - V D = -(Real.sqrt (w.L2_inductance_Henries / w.L1_inductance_Henries) : ℝ) * (V A - V B) ∧ J A = 0 := by
  obtain ⟨⟨q1, q2⟩, -, -⟩ := (C140_transformer_partial h hn hk hd hp rfl rfl x (fun p => x (p, k)) V J hV hJ).1 hx
  have ha0 := Real.sqrt_pos.2 hp.l1
  have hb0 := Real.sqrt_pos.2 hp.l2
  have hac : ((Real.sqrt w.L1_inductance_Henries : ℝ) : ℂ) ≠ 0 := by exact_mod_cast ha0.ne'
  have hbc : ((Real.sqrt w.L2_inductance_Henries : ℝ) : ℂ) ≠ 0 := by exact_mod_cast hb0.ne'
  rw [hopen, mul_zero] at q2
  have hA := (mul_eq_zero.1 q2.symm).resolve_left hac
  refine ⟨?_, hA⟩
  rw [hA, mul_zero] at q1
  rw [Real.sqrt_div hp.l2.le]
  push_cast
  field_simp at q1 ⊢
  linear_combination -q1

/-- **C140, the law of a transformer** (refuted): no perfect transformer obeys its impedances; with a shorted secondary and a voltage at the
primary there are waves, and none of them obeys. -/
theorem C140_transformer_refuted {env : Env P K ℂ} {w : Windings} {A B C D : Port P} {cs : List (Coupling P K ℂ)}
    (h : transformer_setup env w A B C D = .ok cs) (hn : (env.keys A.i).Nodup) {k : K} (hk : k ∈ env.keys A.i)
    (hd : ([A, B, C, D].map Port.o).Nodup) (hi : ([A, B, C, D].map Port.i).Nodup) (hp : Perfect env w k) :
    ∃ (x : P × K → ℂ) (o : P → ℂ) (V J : Port P → ℂ), (∀ p, V p = x (p.i, k) + o p.o) ∧ (∀ p, J p = (x (p.i, k) - o p.o) / env.Ze) ∧
      (∀ p ∈ [A, B, C, D], o p.o = total cs x (p.o, k)) ∧ V A - V B ≠ 0 ∧ V C - V D = 0 ∧
      ¬ Obeys (w.Z11 env (env.freq k)) (w.Z12 env (env.freq k)) (w.Z21 env (env.freq k)) (w.Z22 env (env.freq k)) V J A B C D := by
  obtain ⟨y, hy, e1, e2, e3⟩ := hp.parts
  obtain ⟨z, hz, hze⟩ := hp.ze
  have hyc : (y : ℂ) ≠ 0 := by exact_mod_cast hy
  have ha0 := Real.sqrt_pos.2 hp.l1
  have hb0 := Real.sqrt_pos.2 hp.l2
  have hyf : env.i2pi * env.freq k = I * y := by
    have := e1
    unfold Windings.Z11 at this
    rw [hp.r1, ofReal_zero, zero_add, Real.sq_sqrt hp.l1.le] at this
    exact mul_right_cancel₀ (by exact_mod_cast hp.l1.ne') this
  have key := fun x o V J hV hJ => C140_transformer_partial h hn hk hd hp rfl rfl x o V J hV hJ
  rw [hyf] at key
  rw [show w.Z21 env (env.freq k) = w.Z12 env (env.freq k) from rfl, e1, e2, e3]
  generalize Real.sqrt w.L1_inductance_Henries = a at *
  generalize Real.sqrt w.L2_inductance_Henries = b at *
  have hac : (a : ℂ) ≠ 0 := by exact_mod_cast ha0.ne'
  have hbc : (b : ℂ) ≠ 0 := by exact_mod_cast hb0.ne'
  have hzc : env.Ze ≠ 0 := by rw [hze]; exact_mod_cast hz.ne'
  have hI := I_ne_zero
  simp only [List.map_cons, List.map_nil, List.nodup_cons, List.mem_cons, List.not_mem_nil, or_false, not_or, not_false_eq_true,
    List.nodup_nil, and_true] at hd hi
  obtain ⟨⟨i1, i2, i3⟩, ⟨i4, i5⟩, i6⟩ := hi
  obtain ⟨⟨o1, o2, o3⟩, ⟨o4, o5⟩, o6⟩ := hd
  let j1 : ℂ := 1 / (I * y * a * a)
  let j2 : ℂ := 1 / (I * y * a * b)
  let x : P × K → ℂ := fun q => if q.1 = A.i then (1 + env.Ze * j1) / 2 else if q.1 = B.i then -(env.Ze * j1) / 2 else
    if q.1 = C.i then env.Ze * j2 / 2 else if q.1 = D.i then -(env.Ze * j2) / 2 else 0
  let o : P → ℂ := fun q => if q = A.o then (1 - env.Ze * j1) / 2 else if q = B.o then env.Ze * j1 / 2 else
    if q = C.o then -(env.Ze * j2) / 2 else if q = D.o then env.Ze * j2 / 2 else 0
  have xA : x (A.i, k) = (1 + env.Ze * j1) / 2 := if_pos rfl
  have xB : x (B.i, k) = -(env.Ze * j1) / 2 := by
    show (if _ then _ else _) = _
    rw [if_neg (Ne.symm i1), if_pos rfl]
  have xC : x (C.i, k) = env.Ze * j2 / 2 := by
    show (if _ then _ else _) = _
    rw [if_neg (Ne.symm i2), if_neg (Ne.symm i4), if_pos rfl]
  have xD : x (D.i, k) = -(env.Ze * j2) / 2 := by
    show (if _ then _ else _) = _
    rw [if_neg (Ne.symm i3), if_neg (Ne.symm i5), if_neg (Ne.symm i6), if_pos rfl]
  have oA : o A.o = (1 - env.Ze * j1) / 2 := if_pos rfl
  have oB : o B.o = env.Ze * j1 / 2 := by
    show (if _ then _ else _) = _
    rw [if_neg (Ne.symm o1), if_pos rfl]
  have oC : o C.o = -(env.Ze * j2) / 2 := by
    show (if _ then _ else _) = _
    rw [if_neg (Ne.symm o2), if_neg (Ne.symm o4), if_pos rfl]
  have oD : o D.o = env.Ze * j2 / 2 := by
    show (if _ then _ else _) = _
    rw [if_neg (Ne.symm o3), if_neg (Ne.symm o5), if_neg (Ne.symm o6), if_pos rfl]
  have vA : x (A.i, k) + o A.o = 1 := by rw [xA, oA]; ring
  have vB : x (B.i, k) + o B.o = 0 := by rw [xB, oB]; ring
  have vC : x (C.i, k) + o C.o = 0 := by rw [xC, oC]; ring
  have vD : x (D.i, k) + o D.o = 0 := by rw [xD, oD]; ring
  have jA : (x (A.i, k) - o A.o) / env.Ze = j1 := by rw [xA, oA]; field_simp; ring
  have jB : (x (B.i, k) - o B.o) / env.Ze = -j1 := by rw [xB, oB]; field_simp; ring
  have jC : (x (C.i, k) - o C.o) / env.Ze = j2 := by rw [xC, oC]; field_simp; ring
  have jD : (x (D.i, k) - o D.o) / env.Ze = -j2 := by rw [xD, oD]; field_simp; ring
  refine ⟨x, o, fun p => x (p.i, k) + o p.o, fun p => (x (p.i, k) - o p.o) / env.Ze, fun _ => rfl, fun _ => rfl, ?_, ?_, ?_, ?_⟩
  · rw [key x o _ _ (fun _ => rfl) (fun _ => rfl)]
    simp only [vA, vB, vC, vD, jA, jB, jC, jD]
    refine ⟨⟨?_, ?_⟩, by ring, by ring⟩
    · show _ * (1 / (I * y * a * a)) = _
      field_simp
      ring
    · show _ * (1 / (I * y * a * b)) = _ * (1 / (I * y * a * a))
      field_simp
  · simp only [vA, vB]
    norm_num
  · simp only [vC, vD]
    ring
  · intro hob
    have := hob.1.1
    simp only [vA, vB, jA, jC] at this
    have e : I * (y : ℂ) * ((a ^ 2 : ℝ) : ℂ) * j1 + I * y * ((a * b : ℝ) : ℂ) * j2 = 2 := by
      show I * (y : ℂ) * ((a ^ 2 : ℝ) : ℂ) * (1 / (I * y * a * a)) + I * y * ((a * b : ℝ) : ℂ) * (1 / (I * y * a * b)) = 2
      push_cast
      field_simp
      norm_num
    rw [e] at this
    norm_num at this

/-- **C140, transformers in series** (refuted): nothing passes a `TransformerSeries` and nothing comes back, whatever its windings. -/
theorem C140_series_refuted {env : Env P K ℂ} {w : Windings} {A B : Port P} {cs : List (Coupling P K ℂ)}
    (h : transformer_series_setup env w A B = .ok cs) (hn : ∀ p, (env.keys p).Nodup) {k : K} (hA : k ∈ env.keys A.i) (hB : k ∈ env.keys B.i)
    (hAB : A.o ≠ B.o) (x : P × K → ℂ) : total cs x (A.o, k) = 0 ∧ total cs x (B.o, k) = 0 := by
  obtain ⟨r, t, u, v, h1, h2, h3, h4, h5⟩ := setup2_into h hn hA hB hAB
  injection h1 with h1
  injection h2 with h2
  injection h3 with h3
  injection h4 with h4
  obtain ⟨g1, g2⟩ := h5 x
  rw [g1, g2, ← h1, ← h2, ← h3, ← h4]
  simp

/-! ## noise -/

theorem johnson_some {names : List String} {name : String} (h : name ∈ names) (kT R : ℝ) :
    ∃ l, johnson_noise names true kT R name = .ok l ∧ (l.map Prod.snd).sum = 4 * kT * R ∧ (∀ n ∈ l, n.1 = name) ∧ (l = [] ↔ R = 0) := by
  unfold johnson_noise port_attr
  by_cases hR : R = 0
  · rw [if_neg (fun h0 => h0.2 hR)]
    exact ⟨[], rfl, by simp [hR], by simp, by simp [hR]⟩
  · rw [if_pos ⟨rfl, hR⟩, if_pos h]
    exact ⟨[(name, 4 * R * kT)], rfl, by simp; ring, by simp, by simp [hR]⟩

/-- **C140, noise.**  In a transformer with four ports each winding with a resistance has a Johnson noise of `4 k T R`, at its own port. -/
theorem C140_noise (kT : ℝ) (w : Windings) :
    johnson_noises ["pe_A", "pe_B", "pe_C", "pe_D"] false kT w = .ok [] ∧
      ∃ l l', johnson_noises ["pe_A", "pe_B", "pe_C", "pe_D"] true kT w = .ok (l ++ l') ∧
        ((l.map Prod.snd).sum = 4 * kT * w.L1_resistance_Ohms ∧ (∀ n ∈ l, n.1 = "pe_A") ∧ (l = [] ↔ w.L1_resistance_Ohms = 0)) ∧
        (l'.map Prod.snd).sum = 4 * kT * w.L2_resistance_Ohms ∧ (∀ n ∈ l', n.1 = "pe_C") ∧ (l' = [] ↔ w.L2_resistance_Ohms = 0) := by
  constructor
  · unfold johnson_noises johnson_noise
    rw [if_neg (fun h => Bool.noConfusion h.1), if_neg (fun h => Bool.noConfusion h.1)]
    rfl
  · obtain ⟨l, h1, h2⟩ := johnson_some (names := ["pe_A", "pe_B", "pe_C", "pe_D"]) (name := "pe_A") (by decide) kT w.L1_resistance_Ohms
    obtain ⟨l', h3, h4⟩ := johnson_some (names := ["pe_A", "pe_B", "pe_C", "pe_D"]) (name := "pe_C") (by decide) kT w.L2_resistance_Ohms
    refine ⟨l, l', ?_, h2, h4⟩
    unfold johnson_noises
    rw [h1, h3]
    rfl

/-- **C140, noise in series** (refuted): a `TransformerSeries` whose second winding has a resistance cannot be built with Johnson noise. -/
theorem C140_series_noise_refuted (kT : ℝ) (w : Windings) (h : w.L2_resistance_Ohms ≠ 0) :
    johnson_noises ["pe_A", "pe_B"] true kT w = .error .attributeError := by
  obtain ⟨l, h1, -⟩ := johnson_some (names := ["pe_A", "pe_B"]) (name := "pe_A") (by decide) kT w.L1_resistance_Ohms
  unfold johnson_noises
  rw [h1]
  unfold johnson_noise port_attr
  rw [if_pos ⟨rfl, h⟩, if_neg (by decide)]
  rfl

end

end Circuit
