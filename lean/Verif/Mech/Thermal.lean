import Verif.Noise.Nyquist

/-!
# The power in mechanical networks

The power between a displacement and a force is the product of the velocity and the force; between a frequency and its
negative it is `i ω` times `D G' - D' G`.
-/

set_option linter.unusedSectionVars false

namespace Circuit
open Py Inject

section Elements
variable {P K F : Type} [DecidableEq P] [DecidableEq K] [Field F] [DecidableEq F]
variable {env : Env P K F} {el : Elem P F} {V I V' I' : Port P → F} {s s' : P → F} {k kP kN : K}

/-- The elements of mechanical networks but the cables and strings.  A damper, spring or mass has a stiffness. -/
def Elem.Mechanical (env : Env P K F) (kP kN : K) : Elem P F → Prop
  | .one .opened _ => True
  | .one .shorted _ => True
  | .connection _ => True
  | .voltageSource _ _ _ => True
  | .currentSource _ _ _ => True
  | .voltageSourceBalanced _ _ _ _ _ _ => True
  | .currentSourceBalanced _ _ _ _ => True
  | .mech (.one t _) => t.Stiffness env kP ≠ 0 ∧ t.Stiffness env kN ≠ 0
  | .mech (.two t _ _) => t.Stiffness env kP ≠ 0 ∧ t.Stiffness env kN ≠ 0
  | .mech (.lever _ _ _ _) => True
  | .mech (.xyz _ _ _ _ _ _) => True
  | _ => False

theorem Elem.Mechanical.reciprocal (h : el.Mechanical env kP kN) : el.Reciprocal := by
  cases el with
  | opAmp => exact h
  | mech m =>
    cases m with
    | zconv => exact h
    | _ => trivial
  | _ => trivial

/-- The dampers, springs and masses of an element: their port and the difference of their compliances at the two
keys. -/
def Elem.compliances (env : Env P K F) (kP kN : K) : Elem P F → List (Port P × F)
  | .mech (.one t A) => [(A, 1 / t.Stiffness env kP - 1 / t.Stiffness env kN)]
  | .mech (.two t A _) => [(A, 1 / t.Stiffness env kP - 1 / t.Stiffness env kN)]
  | _ => []

/-- What an element takes up, between two keys, is that of its dampers, springs and masses; the levers take up
nothing. -/
theorem elem_apower (hp : el.Mechanical env kP kN) (hP : kP ≠ env.dc) (hN : kN ≠ env.dc)
    (h : el.Law env kP V I s) (h' : el.Law env kN V' I' s') (hs : ∀ q ∈ el.signals, s q = 0)
    (hs' : ∀ q ∈ el.signals, s' q = 0) : (el.ports.map (fun p => V p * I' p - V' p * I p)).sum =
      ((el.compliances env kP kN).map (fun r => r.2 * (I r.1 * I' r.1))).sum := by
  cases el with
  | one t A =>
    cases t with
    | opened => simp only [Elem.Law, Elem.ports, Elem.compliances, List.map_cons, List.map_nil, List.sum_cons,
        List.sum_nil] at *; rw [h, h']; ring
    | shorted => simp only [Elem.Law, Elem.ports, Elem.compliances, List.map_cons, List.map_nil, List.sum_cons,
        List.sum_nil] at *; rw [h, h']; ring
    | _ => exact hp.elim
  | two t A C => cases t <;> exact hp.elim
  | connection ps =>
    simp only [Elem.Law, Elem.ports, Elem.compliances, List.map_nil, List.sum_nil] at *
    rw [sum_map_sub', connection_power h.1 h'.2, connection_power h'.1 h.2, sub_zero]
  | cable l A C => exact hp.elim
  | voltageSource v q A =>
    simp only [Elem.Law, Elem.ports, Elem.compliances, Elem.signals, List.mem_singleton, forall_eq, if_neg hP, if_neg hN,
      add_zero, List.map_cons, List.map_nil, List.sum_cons, List.sum_nil] at *
    rw [h, h', hs, hs']
    ring
  | currentSource v q A =>
    simp only [Elem.Law, Elem.ports, Elem.compliances, Elem.signals, List.mem_singleton, forall_eq, if_neg hP, if_neg hN,
      add_zero, List.map_cons, List.map_nil, List.sum_cons, List.sum_nil] at *
    rw [h, h', hs, hs']
    ring
  | voltageSourceBalanced v w q r A C =>
    simp only [Elem.Law, Elem.ports, Elem.compliances, Elem.signals, List.mem_cons, List.not_mem_nil, or_false,
      forall_eq_or_imp, forall_eq, if_neg hP, if_neg hN, add_zero, List.map_cons, List.map_nil, List.sum_cons,
      List.sum_nil] at *
    obtain ⟨h1, h3⟩ := h
    obtain ⟨h1', h3'⟩ := h'
    rw [hs.1] at h1
    rw [hs'.1] at h1'
    rw [hs.2] at h3
    rw [hs'.2] at h3'
    linear_combination I' A * h1 - I A * h1' + V C * h3' - V' C * h3
  | currentSourceBalanced v q A C =>
    simp only [Elem.Law, Elem.ports, Elem.compliances, Elem.signals, List.mem_singleton, forall_eq, if_neg hP, if_neg hN,
      add_zero, List.map_cons, List.map_nil, List.sum_cons, List.sum_nil] at *
    rw [h.1, h.2, h'.1, h'.2, hs, hs']
    ring
  | opAmp g p m out => exact hp.elim
  | mech m =>
    cases m with
    | one t A =>
      simp only [Elem.Mechanical, Elem.Law, Mech.Law, Elem.ports, Mech.ports, Elem.compliances, List.map_cons, List.map_nil,
        List.sum_cons, List.sum_nil] at *
      obtain ⟨hP', hN'⟩ := hp
      rw [h, h']
      field_simp
    | two t A C =>
      simp only [Elem.Mechanical, Elem.Law, Mech.Law, Elem.ports, Mech.ports, Elem.compliances, List.map_cons, List.map_nil,
        List.sum_cons, List.sum_nil] at *
      obtain ⟨hP', hN'⟩ := hp
      obtain ⟨h1, h3⟩ := h
      obtain ⟨h1', h3'⟩ := h'
      have e : V A * I' A - V' A * I A + (V C * I' C - V' C * I C + 0) =
          (V A - V C) * I' A - (V' A - V' C) * I A := by
        linear_combination V C * h3' - V' C * h3
      rw [e, h1, h1']
      field_simp
      ring
    | cable => exact hp.elim
    | zconv => exact hp.elim
    | lever d A C L =>
      simp only [Elem.Law, Mech.Law, Elem.ports, Mech.ports, Elem.compliances, List.map_cons, List.map_nil,
        List.sum_cons, List.sum_nil] at *
      obtain ⟨h1, h3, h4⟩ := h
      obtain ⟨h1', h3', h4'⟩ := h'
      linear_combination I' A * h1 - I A * h1' + V C * h3' - V' C * h3 + V L * h4' - V' L * h4
    | xyz dv d root A C L =>
      simp only [Elem.Law, Mech.Law, Elem.ports, Mech.ports, Elem.compliances, List.map_cons, List.map_nil,
        List.sum_cons, List.sum_nil] at *
      obtain ⟨⟨a1, a2, a3⟩, ⟨b1, b2, b3⟩, c1, c2, c3⟩ := h
      obtain ⟨⟨a1', a2', a3'⟩, ⟨b1', b2', b3'⟩, c1', c2', c3'⟩ := h'
      linear_combination I' A.X * a1 + I' A.Y * a2 + I' A.Z * a3 - I A.X * a1' - I A.Y * a2' - I A.Z * a3' +
        V C.X * b1' + V C.Y * b2' + V C.Z * b3' - V' C.X * b1 - V' C.Y * b2 - V' C.Z * b3 +
        V L.X * c1' + V L.Y * c2' + V L.Z * c3' - V' L.X * c1 - V' L.Y * c2 - V' L.Z * c3

end Elements

variable {B K F : Type} [DecidableEq B] [DecidableEq K] [Field F] [DecidableEq F]
variable {n : Net B F} {env : Env (Key B) K F} {cs : List (Coupling (Key B) K F)} {ports : Dict (Key B) (List K)}
variable {g : SR (Key B × K)} {fuel : Nat} {k kP kN : K} {x y z z1 z2 : Key B × K → F}

/-- the difference of the mixed powers at two keys, element by element -/
theorem apower_sum (hr : Ready n env cs ports fuel g kP) (hr' : Ready n env cs ports fuel g kN)
    (hv : ∀ f ∈ n.flucts, f.voltage = true) (hx : Sol n g cs x kP) (hy : Sol n g cs y kN) :
    (n.els.map (fun el => (el.ports.map (fun p => (n.V x kP p + n.vn x kP p) * n.I env y kN p -
      (n.V y kN p + n.vn y kN p) * n.I env x kP p)).sum)).sum =
      (n.flucts.map (fun f => x (f.virt, kP) * n.I env y kN f.port)).sum -
        (n.flucts.map (fun f => y (f.virt, kN) * n.I env x kP f.port)).sum := by
  rw [← tellegen_flucts hr hr' hv hx hy, ← tellegen_flucts hr' hr hv hy hx, ← sum_map_sub']
  exact congrArg List.sum (List.map_congr_left fun el _ => sum_map_sub' _ _ _)

/-- The compliances at a force source, at two keys, differ by those of the dampers, springs and masses, weighted with the
forces on them. -/
theorem compliance_sum (hr : Ready n env cs ports fuel g kP) (hr' : Ready n env cs ports fuel g kN)
    (hv : ∀ f ∈ n.flucts, f.voltage = true) (hmech : ∀ el ∈ n.els, el.Mechanical env kP kN) (hP : kP ≠ env.dc)
    (hN : kN ≠ env.dc) {i0 : F} {q : Key B} {A : Port (Key B)}
    (h0 : .currentSource i0 q A ∈ n.els) (hq : ∀ el ∈ n.els, q ∈ el.signals → A ∈ el.ports)
    (hx : Sol n g cs x kP) (hdx : Driven n q x kP) (hy : Sol n g cs y kN) (hdy : Driven n q y kN) :
    n.V x kP A - n.V y kN A = (n.els.map (fun el => ((el.compliances env kP kN).map
      (fun r => r.2 * (n.I env x kP r.1 * n.I env y kN r.1))).sum)).sum := by
  have hs := apower_sum hr hr' hv hx hy
  rw [hdx.sum (fun f => n.I env y kN f.port), hdy.sum (fun f => n.I env x kP f.port), sub_zero] at hs
  have laws1 := (hr.laws hv hx).2
  have laws2 := (hr'.laws hv hy).2
  simp only [hdx.vn, hdy.vn, add_zero] at hs laws1 laws2
  have e1 := laws1 _ h0
  have e2 := laws2 _ h0
  simp only [Elem.Law, if_neg hP, if_neg hN, add_zero] at e1 e2
  rw [hdx.signals _ h0 q (by simp [Elem.signals]), if_pos rfl] at e1
  rw [hdy.signals _ h0 q (by simp [Elem.signals]), if_pos rfl] at e2
  set G : Elem (Key B) F → F := fun el => (el.ports.map (fun p => n.V x kP p * n.I env y kN p -
      n.V y kN p * n.I env x kP p)).sum with hG
  set L : Elem (Key B) F → F := fun el => ((el.compliances env kP kN).map
      (fun r => r.2 * (n.I env x kP r.1 * n.I env y kN r.1))).sum with hL
  have key : (n.els.map (fun el => G el - L el)).sum = G (.currentSource i0 q A) - L (.currentSource i0 q A) := by
    refine sum_els_single hr.wf h0 (A := A) (by simp [Elem.ports]) ?_
    intro el hel hA
    have := elem_apower (hmech el hel) hP hN (laws1 el hel) (laws2 el hel)
      (hdx.rest hel (fun h => hA (hq el hel h))) (hdy.rest hel (fun h => hA (hq el hel h)))
    simp only [hG, hL]
    rw [this, sub_self]
  rw [sum_map_sub', hs] at key
  have g1 : G (.currentSource i0 q A) = -(n.V x kP A - n.V y kN A) := by
    simp only [hG, Elem.ports, List.map_cons, List.map_nil, List.sum_cons, List.sum_nil]
    rw [e1, e2]
    ring
  have g2 : L (.currentSource i0 q A) = 0 := by simp [hL, Elem.compliances]
  rw [g1, g2] at key
  linear_combination key

end Circuit
