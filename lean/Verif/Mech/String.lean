import Verif.Mech.Props
import Verif.Noise.JohnsonExample
import Mathlib.Analysis.SpecialFunctions.Trigonometric.Basic

/-!
# C91: strings

`mechanical/string.py` l.38-91: a `String` is a cable between two `ZConverter`s.
-/

set_option linter.unusedSectionVars false

namespace Noise
open Py Circuit Inject

section line
variable {B K F : Type} [DecidableEq B] [DecidableEq K] [Field F] [DecidableEq F]
variable {n : Net B F} {env : Env (Key B) K F} {cs : List (Coupling (Key B) K F)} {ports : Dict (Key B) (List K)}
  {fuel : ℕ} {g : SR (Key B × K)} {k : K} {x : Key B × K → F}

/-- `string.py` l.66-91: the elements of a `String` between the ports `A` and `E`, with `c` and `d` the ports of the cable,
`b` and `f` the inner ports of the converters; `eps` stands for the `1e-18` of the code. -/
def stringEls (mobility eps delay_s Loss : F) (rt : F → F) (A b c d f E : Port (Key B)) : List (Elem (Key B) F) :=
  [.mech (.zconv mobility eps A b), .mech (.zconv mobility eps E f), .mech (.cable delay_s Loss rt c d)]

/-- `string.py` l.86-87. -/
def stringBonds (b c d f : Port (Key B)) : List (Port (Key B) × Port (Key B)) := [(b, c), (d, f)]

/-- **C91** (what holds): a string in a circuit is a line with the delay of its cable: the waves `D ± Zc·G` leaving an end
are the ones which entered the other, with `Zc` the termination times the ratio of the two mobilities of the converters. -/
theorem C91_string (hr : Ready n env cs ports fuel g k) (hx : Sol n g cs x k) (hq : n.flucts = [])
    {mobility eps delay_s Loss : F} {rt : F → F} {A b c d f E : Port (Key B)}
    (hels : ∀ el ∈ stringEls mobility eps delay_s Loss rt A b c d f E, el ∈ n.els)
    (hbonds : ∀ ab ∈ stringBonds b c d f, ab ∈ n.bonds)
    (hY : env.i2pi * env.freq k * mobility + eps ≠ 0) :
    let Zc := env.Ze * (env.i2pi * env.freq k / env.Ze + eps) / (env.i2pi * env.freq k * mobility + eps)
    let e := env.exp (-2 * env.i * env.pi * env.freq k * delay_s) * (if Loss = 0 then 1 else rt (1 - Loss))
    n.V x k E - Zc * n.I env x k E = e * (n.V x k A + Zc * n.I env x k A) ∧
    n.V x k A - Zc * n.I env x k A = e * (n.V x k E + Zc * n.I env x k E) := by
  obtain ⟨hb, hl⟩ := hr.laws (by simp [hq]) hx
  have v : ∀ p, n.vn x k p = 0 := by
    intro p
    simp [Net.vn, hq]
  simp only [stringEls, List.forall_mem_cons] at hels
  simp only [stringBonds, List.forall_mem_cons] at hbonds
  obtain ⟨h1, h2, h3, -⟩ := hels
  obtain ⟨b1, b2, -⟩ := hbonds
  have l1 := hl _ h1
  have l2 := hl _ h2
  have l3 := hl _ h3
  obtain ⟨v1, i1⟩ := hb _ b1
  obtain ⟨v2, i2⟩ := hb _ b2
  simp only [Elem.Law, Mech.Law, v, add_zero] at l1 l2 l3 v1 i1 v2 i2
  obtain ⟨p1, q1⟩ := l1
  obtain ⟨p2, q2⟩ := l2
  obtain ⟨p3, q3⟩ := l3
  have c1 : env.Ze * (env.i2pi * env.freq k / env.Ze + eps) / (env.i2pi * env.freq k * mobility + eps) * n.I env x k A =
      env.Ze * n.I env x k c := by
    rw [div_mul_eq_mul_div, div_eq_iff hY]
    linear_combination env.Ze * q1 - env.Ze * (env.i2pi * env.freq k * mobility + eps) * i1
  have c2 : env.Ze * (env.i2pi * env.freq k / env.Ze + eps) / (env.i2pi * env.freq k * mobility + eps) * n.I env x k E =
      env.Ze * n.I env x k d := by
    rw [div_mul_eq_mul_div, div_eq_iff hY]
    linear_combination env.Ze * q2 - env.Ze * (env.i2pi * env.freq k * mobility + eps) * i2
  intro Zc e
  rw [show Zc * n.I env x k A = _ from c1, show Zc * n.I env x k E = _ from c2, p1, v1, p2, ← v2]
  exact ⟨p3, q3⟩

/-- Without the `1e-18` the characteristic stiffness `1/Zc` is the mobility itself, at all frequencies: it lacks the factor
`2πi f` of a damper with this mobility. -/
theorem C91_stiffness {w y Ze : F} (hw : w ≠ 0) (hy : y ≠ 0) (hZe : Ze ≠ 0) : 1 / (Ze * (w / Ze + 0) / (w * y + 0)) = y := by
  rw [add_zero, add_zero, mul_div_cancel₀ _ hZe, one_div_div, mul_div_cancel_left₀ _ hw]

end line

/-! ## the string does not end in its own damper -/

variable {cs : List (Coupling (Key ℕ) ℤ ℂ)} {g : SR (Key ℕ × ℤ)}

/-- A force source at a string without losses, with a damper of the mobility of the string at the other end.  The delay is a
quarter of a period at the key 1: `6·π/12 = π/2`. -/
noncomputable def sxNet : Net ℕ ℂ :=
  { els := stringEls (F := ℂ) (1 / 50) (1 / 10 ^ 18) (Real.pi / 12) 0 id (jxPort 0) (jxPort 1) (jxPort 2) (jxPort 3)
        (jxPort 5) (jxPort 4) ++
      ([.mech (.one (.damper (1 / 50)) (jxPort 6)), .currentSource 0 (20, none) (jxPort 7)] : List (Elem (Key ℕ) ℂ))
    flucts := []
    meters := []
    bonds := stringBonds (jxPort 1) (jxPort 2) (jxPort 3) (jxPort 5) ++ [(jxPort 4, jxPort 6), (jxPort 7, jxPort 0)] }

theorem sxNet_WF : sxNet.WF where
  nodup := by decide
  base := by decide
  ends := by decide
  bonded := by decide
  flucts := by decide
  meters := fun m hm => by cases hm
  outputs := by decide
  output := fun m hm => by cases hm

theorem sx_zconv (num : ℂ → ℂ → ℂ) (k : ℤ) : ∃ v, zconv_S jxEnv (1 / 50) (1 / 10 ^ 18) num (jxEnv.freq k) = .ok v := by
  refine ⟨num (6 * Complex.I * k * 1 / 50 + 1 / 10 ^ 18) (6 * Complex.I * k * (1 / 50) + 1 / 10 ^ 18) /
    ((6 * Complex.I * k * 1 / 50 + 1 / 10 ^ 18) + (6 * Complex.I * k * (1 / 50) + 1 / 10 ^ 18)), ?_⟩
  unfold zconv_S zconv_Y1 zconv_Y2
  have h50 : jxEnv.Ze ≠ 0 := by simp [jxEnv]
  rw [pdiv, if_neg h50]
  change pdiv _ _ = _
  rw [pdiv, if_neg]
  · rfl
  · intro h
    have := congrArg Complex.re h
    simp [jxEnv] at this
    norm_num at this

theorem sx_couplings : ∃ cs, sxNet.couplings jxEnv = .ok cs := by
  have hd : ∀ k : ℤ, ∃ v, terminatorM jxEnv ((Mob.damper (1 / 50)).mobility jxEnv (jxEnv.freq k)) = .ok v := by
    intro k
    refine ⟨_, if_neg ?_⟩
    intro h
    have := congrArg Complex.re h
    simp [Mob.mobility, jxEnv] at this
  refine blocks_all ?_
  simp only [sxNet, stringEls, List.map_cons, List.map_nil, List.append_nil, List.cons_append, List.nil_append,
    List.forall_mem_cons]
  refine ⟨blocks_all ?_, blocks_all ?_, blocks_all ?_, per_key_all hd, blocks_all ?_, by simp⟩
  · simp only [List.forall_mem_cons]
    exact ⟨per_key_all (sx_zconv _), per_key_all (sx_zconv _), per_key_all (sx_zconv _), per_key_all (sx_zconv _), by simp⟩
  · simp only [List.forall_mem_cons]
    exact ⟨per_key_all (sx_zconv _), per_key_all (sx_zconv _), per_key_all (sx_zconv _), per_key_all (sx_zconv _), by simp⟩
  · simp only [List.forall_mem_cons]
    exact ⟨per_key_all fun k => ⟨_, rfl⟩, per_key_all fun k => ⟨_, rfl⟩, by simp⟩
  · simp only [List.forall_mem_cons]
    exact ⟨per_key_all fun k => ⟨_, rfl⟩, ⟨_, rfl⟩, per_key_all fun k => ⟨_, rfl⟩, by simp⟩

theorem sx_links : ∃ g, sxNet.links jxPorts 5 = .ok (some g) := by
  have : isLink (sxNet.links jxPorts 5) = true := by decide +kernel
  cases h : sxNet.links jxPorts 5 with
  | error e => rw [h] at this; cases this
  | ok r =>
    cases r with
    | none => rw [h] at this; cases this
    | some g => exact ⟨g, rfl⟩

theorem sx_ready (hcs : sxNet.couplings jxEnv = .ok cs) (hl : sxNet.links jxPorts 5 = .ok (some g)) :
    Ready sxNet jxEnv cs jxPorts 5 g 1 where
  cs := hcs
  links := hl
  wf := sxNet_WF
  nodup := by
    intro p
    rcases jxKeys p with h | h <;> rw [h] <;> decide
  keys := fun _ => rfl
  Ze := by
    change (50 : ℂ) ≠ 0
    norm_num
  two := by norm_num
  nodes := by decide
  flucts := by decide
  signals := by
    simp only [sxNet, stringEls, List.cons_append, List.nil_append, List.forall_mem_cons]
    exact ⟨fun q hq => (by cases hq), fun q hq => (by cases hq), fun q hq => (by cases hq), fun q hq => (by cases hq),
      by decide, by simp⟩

/-- The displacements. -/
noncomputable def sxV : ℕ → ℂ
  | 0 => 300 * Complex.I | 1 => 300 * Complex.I | 2 => 300 * Complex.I | 7 => 300 * Complex.I | _ => -50 * Complex.I

/-- The forces. -/
noncomputable def sxI : ℕ → ℂ
  | 0 => 1 | 1 => -1 | 2 => 1 | 7 => -1 | 3 => -6 | 5 => 6 | 4 => -6 | 6 => 6 | _ => 0

noncomputable def sxField (t : Key ℕ × ℤ) : ℂ :=
  if t.1 = (20, none) then 1
  else if t.1.1 % 2 = 0 then (sxV (t.1.1 / 2) + 50 * sxI (t.1.1 / 2)) / 2
  else (sxV (t.1.1 / 2) - 50 * sxI (t.1.1 / 2)) / 2

theorem sx_V (m : ℕ) (hm : m < 8) : sxNet.V sxField 1 (jxPort m) = sxV m ∧
    sxNet.I jxEnv sxField 1 (jxPort m) = sxI m := by
  unfold Net.V Net.I
  have e1 : ((2 * m, (none : Option ℤ)) : Key ℕ) ≠ (20, none) := fun h => by have := congrArg Prod.fst h; simp at this; omega
  have e3 : ((2 * m + 1, (none : Option ℤ)) : Key ℕ) ≠ (20, none) := fun h => by have := congrArg Prod.fst h; simp at this; omega
  have d1 : 2 * m % 2 = 0 := by omega
  have d2 : (2 * m + 1) % 2 = 1 := by omega
  have d3 : 2 * m / 2 = m := by omega
  have d4 : (2 * m + 1) / 2 = m := by omega
  have v : sxNet.vn sxField 1 (jxPort m) = 0 := rfl
  have c : sxNet.cn sxField 1 (jxPort m) = 0 := rfl
  rw [v, c]
  simp only [sxField, jxPort, if_neg e1, if_neg e3, d1, d2, d3, d4, jxEnv]
  constructor
  · norm_num
    ring
  · norm_num
    ring

theorem sx_delay : Complex.exp (-2 * Complex.I * 3 * ((1 : ℤ) : ℂ) * (Real.pi / 12)) = -Complex.I := by
  have : (-2 * Complex.I * 3 * ((1 : ℤ) : ℂ) * (Real.pi / 12)) = -(Real.pi / 2 * Complex.I) := by
    push_cast
    ring
  rw [this, Complex.exp_neg, Complex.exp_mul_I, Complex.cos_pi_div_two, Complex.sin_pi_div_two]
  simp

theorem sx_sol (hcs : sxNet.couplings jxEnv = .ok cs) (hl : sxNet.links jxPorts 5 = .ok (some g)) :
    Sol sxNet g cs sxField 1 := by
  have hr := sx_ready hcs hl
  have hdc : (1 : ℤ) ≠ jxEnv.dc := by decide
  have v : ∀ p, sxNet.vn sxField 1 p = 0 := fun _ => rfl
  have c : ∀ p, sxNet.cn sxField 1 p = 0 := fun _ => rfl
  have V := fun m hm => (sx_V m hm).1
  have I := fun m hm => (sx_V m hm).2
  refine (C55_circuit hr.cs hr.links hr.wf hr.nodup hr.keys hr.Ze hr.two hr.nodes hr.flucts hr.signals _).2 ⟨?_, ?_, ?_⟩
  · change ∀ ab ∈ [(_, _), (_, _), (_, _), (_, _)], _
    simp only [List.forall_mem_cons]
    rw [V 0 (by decide), V 1 (by decide), V 2 (by decide), V 3 (by decide), V 4 (by decide), V 5 (by decide),
      V 6 (by decide), V 7 (by decide), I 0 (by decide), I 1 (by decide), I 2 (by decide), I 3 (by decide),
      I 4 (by decide), I 5 (by decide), I 6 (by decide), I 7 (by decide)]
    simp [sxV, sxI]
  · change ∀ el ∈ [_, _, _, _, _], _
    simp only [List.forall_mem_cons]
    simp only [Elem.Law, Mech.Law, Mob.Stiffness, v, c, if_neg hdc, add_zero, zero_div]
    rw [V 0 (by decide), V 1 (by decide), V 2 (by decide), V 3 (by decide), V 4 (by decide), V 5 (by decide),
      V 6 (by decide), I 0 (by decide), I 1 (by decide), I 2 (by decide), I 3 (by decide),
      I 4 (by decide), I 5 (by decide), I 6 (by decide), I 7 (by decide)]
    have e : jxEnv.exp (-2 * jxEnv.i * jxEnv.pi * jxEnv.freq 1 * (Real.pi / 12)) = -Complex.I := sx_delay
    have z : jxEnv.Ze = 50 := rfl
    have w : jxEnv.i2pi = 6 * Complex.I := rfl
    have f : jxEnv.freq 1 = 1 := by simp [jxEnv]
    have s : sxField ((20, none), 1) = 1 := rfl
    rw [e, z, w, f, s]
    simp only [sxV, sxI, if_true]
    refine ⟨⟨trivial, ?_⟩, ⟨trivial, ?_⟩, ⟨?_, ?_⟩, ?_, ?_, by simp⟩
    · ring
    · ring
    · linear_combination (300 : ℂ) * Complex.I_sq
    · linear_combination (-50 : ℂ) * Complex.I_sq
    · linear_combination (6 : ℂ) * Complex.I_sq
    · trivial
  · intro t ht
    cases ht

/-- **C91** fails: a string without losses which ends in a damper with the mobility `√(N·ρ)` of the string should look like
this damper from its other end, and take up as much power as it gives away.  In the model of the code the force at the near end
is not the one of the damper, and the string gives away power at both ends: `Re(2πi f·D·G*)` is negative at both. -/
theorem C91_refuted : ∃ cs g, sxNet.couplings jxEnv = .ok cs ∧ sxNet.links jxPorts 5 = .ok (some g) ∧
    Ready sxNet jxEnv cs jxPorts 5 g 1 ∧ Sol sxNet g cs sxField 1 ∧ Driven sxNet (20, none) sxField 1 ∧
    (∀ el ∈ stringEls (1 / 50) (1 / 10 ^ 18) (Real.pi / 12 : ℂ) 0 id (jxPort 0) (jxPort 1) (jxPort 2) (jxPort 3) (jxPort 5)
      (jxPort 4), el ∈ sxNet.els) ∧
    (∀ ab ∈ stringBonds (jxPort 1) (jxPort 2) (jxPort 3) (jxPort 5), ab ∈ sxNet.bonds) ∧
    sxNet.I jxEnv sxField 1 (jxPort 4) = -(jxEnv.i2pi * jxEnv.freq 1 * (1 / 50) * sxNet.V sxField 1 (jxPort 4)) ∧
    sxNet.I jxEnv sxField 1 (jxPort 0) ≠ jxEnv.i2pi * jxEnv.freq 1 * (1 / 50) * sxNet.V sxField 1 (jxPort 0) ∧
    (jxEnv.i2pi * jxEnv.freq 1 * sxNet.V sxField 1 (jxPort 0) *
      (starRingEnd ℂ) (sxNet.I jxEnv sxField 1 (jxPort 0))).re < 0 ∧
    (jxEnv.i2pi * jxEnv.freq 1 * sxNet.V sxField 1 (jxPort 4) *
      (starRingEnd ℂ) (sxNet.I jxEnv sxField 1 (jxPort 4))).re < 0 := by
  obtain ⟨cs, hcs⟩ := sx_couplings
  obtain ⟨g, hl⟩ := sx_links
  refine ⟨cs, g, hcs, hl, sx_ready hcs hl, sx_sol hcs hl, ?_, ?_, ?_, ?_, ?_, ?_, ?_⟩
  · refine ⟨?_, fun f hf => (by cases hf)⟩
    change ∀ el ∈ [_, _, _, _, _], _
    simp [Elem.signals, sxField]
  · exact fun el hel => List.mem_append_left _ hel
  · exact fun ab hab => List.mem_append_left _ hab
  all_goals
    rw [(sx_V _ (by decide)).1, (sx_V _ (by decide)).2]
    have w : jxEnv.i2pi = 6 * Complex.I := rfl
    have f : jxEnv.freq 1 = 1 := by simp [jxEnv]
    rw [w, f]
    simp only [sxV, sxI]
  · linear_combination (-6 : ℂ) * Complex.I_sq
  · intro h
    have := congrArg Complex.re h
    simp at this
    norm_num at this
  · simp
  · simp

end Noise
