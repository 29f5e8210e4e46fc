import Mathlib.Tactic.Set
import Verif.Noise.Props
import Verif.Noise.Tellegen

/-!
# C79, C80: reciprocity and the noise of a circuit at a temperature
-/

set_option linter.unusedSectionVars false

namespace Circuit
open Py Inject

variable {B K F : Type} [DecidableEq B] [DecidableEq K] [Field F] [DecidableEq F]
variable {n : Net B F} {env : Env (Key B) K F} {cs : List (Coupling (Key B) K F)} {ports : Dict (Key B) (List K)}
variable {g : SR (Key B × K)} {fuel : Nat} {k kP kN : K} {x y z z1 z2 : Key B × K → F}

/-- The fluctuations are at rest and the signals of the elements vanish, but for the signal `q`, which is 1. -/
structure Driven (n : Net B F) (q : Key B) (z : Key B × K → F) (k : K) : Prop where
  signals : ∀ el ∈ n.els, ∀ s ∈ el.signals, z (s, k) = if s = q then 1 else 0
  flucts : ∀ f ∈ n.flucts, z (f.virt, k) = 0

theorem Driven.vn {q : Key B} (h : Driven n q z k) (p : Port (Key B)) : n.vn z k p = 0 := by
  unfold Net.vn
  apply List.sum_eq_zero
  intro v hv
  obtain ⟨f, hf, rfl⟩ := List.mem_map.1 hv
  split_ifs
  · exact h.flucts f hf
  · rfl

theorem sum_zero {α : Type} {l : List α} {f : α → F} (h : ∀ a ∈ l, f a = 0) : (l.map f).sum = 0 := by
  apply List.sum_eq_zero
  intro v hv
  obtain ⟨a, ha, rfl⟩ := List.mem_map.1 hv
  exact h a ha

theorem Driven.sum {q : Key B} (h : Driven n q z k) (J : Fluct B → F) :
    (n.flucts.map (fun f => z (f.virt, k) * J f)).sum = 0 :=
  sum_zero (fun f hf => by rw [h.flucts f hf, zero_mul])

theorem Driven.rest {q : Key B} (h : Driven n q z k) {el : Elem (Key B) F} (hel : el ∈ n.els) (hq : q ∉ el.signals) :
    ∀ s ∈ el.signals, z (s, k) = 0 := by
  intro s hs
  rw [h.signals el hel s hs, if_neg]
  rintro rfl
  exact hq hs

/-- the difference of the mixed powers, element by element -/
theorem recip_sum (hr : Ready n env cs ports fuel g k) (hv : ∀ f ∈ n.flucts, f.voltage = true)
    (hx : Sol n g cs x k) (hy : Sol n g cs y k) :
    (n.els.map (fun el => (el.ports.map (fun p => (n.V x k p + n.vn x k p) * n.I env y k p -
      (n.V y k p + n.vn y k p) * n.I env x k p)).sum)).sum =
      (n.flucts.map (fun f => x (f.virt, k) * n.I env y k f.port)).sum -
        (n.flucts.map (fun f => y (f.virt, k) * n.I env x k f.port)).sum := by
  rw [← tellegen_flucts hr hr hv hx hy, ← tellegen_flucts hr hr hv hy hx, ← sum_map_sub']
  exact congrArg List.sum (List.map_congr_left fun el _ => sum_map_sub' _ _ _)

/-- the sum of the mixed powers, element by element -/
theorem power_sum (hr : Ready n env cs ports fuel g kP) (hr' : Ready n env cs ports fuel g kN)
    (hv : ∀ f ∈ n.flucts, f.voltage = true) (hx : Sol n g cs x kP) (hy : Sol n g cs y kN) :
    (n.els.map (fun el => (el.ports.map (fun p => (n.V x kP p + n.vn x kP p) * n.I env y kN p +
      (n.V y kN p + n.vn y kN p) * n.I env x kP p)).sum)).sum =
      (n.flucts.map (fun f => x (f.virt, kP) * n.I env y kN f.port)).sum +
        (n.flucts.map (fun f => y (f.virt, kN) * n.I env x kP f.port)).sum := by
  rw [← tellegen_flucts hr hr' hv hx hy, ← tellegen_flucts hr' hr hv hy hx, ← sum_map_add']
  exact congrArg List.sum (List.map_congr_left fun el _ => sum_map_add' _ _ _)

/-- **C79**, reciprocity: in a circuit without operational amplifiers and strings the voltage at one current source for a unit
current of another is the voltage at the other for a unit current of the one. -/
theorem C79_reciprocity (hr : Ready n env cs ports fuel g k) (hv : ∀ f ∈ n.flucts, f.voltage = true)
    (hpass : ∀ el ∈ n.els, el.Reciprocal) (hdc : k ≠ env.dc) {i1 i2 : F} {q1 q2 : Key B} {A1 A2 : Port (Key B)}
    (h1 : .currentSource i1 q1 A1 ∈ n.els) (h2 : .currentSource i2 q2 A2 ∈ n.els)
    (hq1 : ∀ el ∈ n.els, q1 ∈ el.signals → A1 ∈ el.ports) (hq2 : ∀ el ∈ n.els, q2 ∈ el.signals → A2 ∈ el.ports)
    (hz1 : Sol n g cs z1 k) (hz2 : Sol n g cs z2 k) (hd1 : Driven n q1 z1 k) (hd2 : Driven n q2 z2 k) :
    n.V z1 k A2 = n.V z2 k A1 := by
  have hs := recip_sum hr hv hz1 hz2
  rw [hd1.sum (fun f => n.I env z2 k f.port), hd2.sum (fun f => n.I env z1 k f.port), sub_zero] at hs
  simp only [hd1.vn, hd2.vn, add_zero] at hs
  have laws1 := (hr.laws hv hz1).2
  have laws2 := (hr.laws hv hz2).2
  simp only [hd1.vn, hd2.vn, add_zero] at laws1 laws2
  by_cases hA : A1 = A2
  · -- one and the same source
    subst hA
    have e1 := laws1 _ h1
    have e4 := laws2 _ h2
    simp only [Elem.Law, if_neg hdc, add_zero] at e1 e4
    have a1 := hd1.signals _ h1 q1 (by simp [Elem.signals])
    have a4 := hd2.signals _ h2 q2 (by simp [Elem.signals])
    rw [if_pos rfl] at a1 a4
    rw [sum_els_single hr.wf h1 (A := A1) (by simp [Elem.ports])] at hs
    · simp only [Elem.ports, List.map_cons, List.map_nil, List.sum_cons, List.sum_nil] at hs
      rw [e1, e4, a1, a4] at hs
      linear_combination -hs
    · intro el hel hAel
      have n1 : q1 ∉ el.signals := fun h => hAel (hq1 el hel h)
      have n2 : q2 ∉ el.signals := fun h => hAel (hq2 el hel h)
      exact elem_recip (hpass el hel) hr.Ze hr.two hdc (laws1 el hel) (laws2 el hel)
        (hd1.rest hel n1) (hd2.rest hel n2)
  · have hq : q1 ≠ q2 := by
      rintro rfl
      have := hq1 _ h2 (by simp [Elem.signals])
      rw [Elem.ports, List.mem_singleton] at this
      exact hA this
    have e1 := laws1 _ h1
    have e2 := laws2 _ h1
    have e3 := laws1 _ h2
    have e4 := laws2 _ h2
    simp only [Elem.Law, if_neg hdc, add_zero] at e1 e2 e3 e4
    rw [hd1.signals _ h1 q1 (by simp [Elem.signals]), if_pos rfl] at e1
    rw [hd2.signals _ h1 q1 (by simp [Elem.signals]), if_neg hq] at e2
    rw [hd1.signals _ h2 q2 (by simp [Elem.signals]), if_neg (Ne.symm hq)] at e3
    rw [hd2.signals _ h2 q2 (by simp [Elem.signals]), if_pos rfl] at e4
    set G : Elem (Key B) F → F := fun el =>
      (el.ports.map (fun p => n.V z1 k p * n.I env z2 k p - n.V z2 k p * n.I env z1 k p)).sum with hG
    have g1 : G (.currentSource i1 q1 A1) = n.V z2 k A1 := by
      simp only [hG, Elem.ports, List.map_cons, List.map_nil, List.sum_cons, List.sum_nil]
      rw [e1, e2]
      ring
    have g2 : G (.currentSource i2 q2 A2) = -n.V z1 k A2 := by
      simp only [hG, Elem.ports, List.map_cons, List.map_nil, List.sum_cons, List.sum_nil]
      rw [e3, e4]
      ring
    have g0 : ∀ el ∈ n.els, A1 ∉ el.ports → A2 ∉ el.ports → G el = 0 := by
      intro el hel n1 n2
      exact elem_recip (hpass el hel) hr.Ze hr.two hdc (laws1 el hel) (laws2 el hel)
        (hd1.rest hel (fun h => n1 (hq1 el hel h))) (hd2.rest hel (fun h => n2 (hq2 el hel h)))
    have split : (n.els.map G).sum = (n.els.map (fun el => if A1 ∈ el.ports then G el else 0)).sum +
        (n.els.map (fun el => if A1 ∈ el.ports then 0 else G el)).sum := by
      rw [← sum_map_add']
      refine congrArg List.sum (List.map_congr_left fun el _ => ?_)
      by_cases h : A1 ∈ el.ports
      · rw [if_pos h, if_pos h, add_zero]
      · rw [if_neg h, if_neg h, zero_add]
    rw [split, sum_els_single hr.wf h1 (A := A1) (by simp [Elem.ports]) (fun el _ h => if_neg h),
      sum_els_single hr.wf h2 (A := A2) (by simp [Elem.ports]), if_pos (by simp [Elem.ports]),
      if_neg (by simpa [Elem.ports] using hA), g1, g2] at hs
    · linear_combination -hs
    · intro el hel h
      by_cases h' : A1 ∈ el.ports
      · exact if_pos h'
      · rw [if_neg h']
        exact g0 el hel h' h

/-- **C79**, reciprocity for fluctuations: the voltage of a source without current is minus the sum of the fluctuations
times the currents at their ports for a unit current of the source. -/
theorem C79_response (hr : Ready n env cs ports fuel g k) (hv : ∀ f ∈ n.flucts, f.voltage = true)
    (hpass : ∀ el ∈ n.els, el.Reciprocal) (hdc : k ≠ env.dc) {i0 : F} {q : Key B} {A : Port (Key B)}
    (h0 : .currentSource i0 q A ∈ n.els) (hq : ∀ el ∈ n.els, q ∈ el.signals → A ∈ el.ports)
    (hz : Sol n g cs z k) (hd : Driven n q z k) (hy : Sol n g cs y k)
    (hys : ∀ el ∈ n.els, ∀ s ∈ el.signals, y (s, k) = 0) :
    n.V y k A + n.vn y k A = -(n.flucts.map (fun f => y (f.virt, k) * n.I env z k f.port)).sum := by
  have hs := recip_sum hr hv hz hy
  rw [hd.sum (fun f => n.I env y k f.port), zero_sub] at hs
  have laws1 := (hr.laws hv hz).2
  have laws2 := (hr.laws hv hy).2
  have e1 := laws1 _ h0
  have e2 := laws2 _ h0
  simp only [Elem.Law, if_neg hdc, add_zero] at e1 e2
  rw [hd.signals _ h0 q (by simp [Elem.signals]), if_pos rfl] at e1
  rw [hys _ h0 q (by simp [Elem.signals])] at e2
  rw [sum_els_single hr.wf h0 (A := A) (by simp [Elem.ports])] at hs
  · simp only [Elem.ports, List.map_cons, List.map_nil, List.sum_cons, List.sum_nil] at hs
    rw [e1, e2] at hs
    linear_combination hs
  · intro el hel hA
    exact elem_recip (hpass el hel) hr.Ze hr.two hdc (laws1 el hel) (laws2 el hel)
      (hd.rest hel (fun h => hA (hq el hel h))) (hys el hel)

/-- The impedance at a source, at a frequency and at its negative, is given by the powers in the resistances. -/
theorem impedance_sum (hr : Ready n env cs ports fuel g kP) (hr' : Ready n env cs ports fuel g kN)
    (hv : ∀ f ∈ n.flucts, f.voltage = true) (hpass : ∀ el ∈ n.els, el.Passive) (hP : kP ≠ env.dc) (hN : kN ≠ env.dc)
    (hf : env.freq kN = -env.freq kP) (hexp : ∀ t, env.exp t * env.exp (-t) = 1) {i0 : F} {q : Key B} {A : Port (Key B)}
    (h0 : .currentSource i0 q A ∈ n.els) (hq : ∀ el ∈ n.els, q ∈ el.signals → A ∈ el.ports)
    (hx : Sol n g cs x kP) (hdx : Driven n q x kP) (hy : Sol n g cs y kN) (hdy : Driven n q y kN) :
    n.V x kP A + n.V y kN A = 2 * (n.els.map (fun el => ((el.losses env).map
      (fun r => r.2 * n.I env x kP r.1 * n.I env y kN r.1)).sum)).sum := by
  have hs := power_sum hr hr' hv hx hy
  rw [hdx.sum (fun f => n.I env y kN f.port), hdy.sum (fun f => n.I env x kP f.port), add_zero] at hs
  have laws1 := (hr.laws hv hx).2
  have laws2 := (hr'.laws hv hy).2
  simp only [hdx.vn, hdy.vn, add_zero] at hs laws1 laws2
  have e1 := laws1 _ h0
  have e2 := laws2 _ h0
  simp only [Elem.Law, if_neg hP, if_neg hN, add_zero] at e1 e2
  rw [hdx.signals _ h0 q (by simp [Elem.signals]), if_pos rfl] at e1
  rw [hdy.signals _ h0 q (by simp [Elem.signals]), if_pos rfl] at e2
  set G : Elem (Key B) F → F := fun el => (el.ports.map (fun p => n.V x kP p * n.I env y kN p +
      n.V y kN p * n.I env x kP p)).sum with hG
  set L : Elem (Key B) F → F := fun el => ((el.losses env).map
      (fun r => r.2 * n.I env x kP r.1 * n.I env y kN r.1)).sum with hL
  have key : (n.els.map (fun el => G el - 2 * L el)).sum = G (.currentSource i0 q A) - 2 * L (.currentSource i0 q A) := by
    refine sum_els_single hr.wf h0 (A := A) (by simp [Elem.ports]) ?_
    intro el hel hA
    have := elem_power (hpass el hel) hr.Ze hr.two hP hN hf hexp (laws1 el hel) (laws2 el hel)
      (hdx.rest hel (fun h => hA (hq el hel h))) (hdy.rest hel (fun h => hA (hq el hel h)))
    simp only [hG, hL]
    rw [this, sub_self]
  rw [sum_map_sub', sum_map_mul', hs] at key
  have g1 : G (.currentSource i0 q A) = -(n.V x kP A + n.V y kN A) := by
    simp only [hG, Elem.ports, List.map_cons, List.map_nil, List.sum_cons, List.sum_nil]
    rw [e1, e2]
    ring
  have g2 : L (.currentSource i0 q A) = 0 := by simp [hL, Elem.losses]
  rw [g1, g2] at key
  linear_combination key

end Circuit
