import Verif.Mech.Thermal
import Verif.Mech.ThermalModel
import Verif.Noise.JohnsonReal

/-!
# C92: the thermal noise of mechanical networks
-/

set_option linter.unusedSectionVars false

namespace Noise
open Py Circuit Inject

variable {B K Nm : Type} [DecidableEq B] [DecidableEq K] [DecidableEq Nm] [DecidableEq (MSrc B)] [DecidableEq (Src B)]
variable {n : Net B ℂ} {env : Env (Key B) K ℂ} {cs : List (Coupling (Key B) K ℂ)} {ports : Dict (Key B) (List K)}
variable {g : SR (Key B × K)} {fuel : Nat} {kP kN : K}

/-- The fluctuations of the network are the thermal noise of its elements. -/
structure MWarm (n : Net B ℂ) (js : List (MSrc B)) : Prop where
  sources : js.map (fun j => (j.port, j.mob)) = n.els.filterMap mjohnson
  flucts : n.flucts = js.map (fun j => ⟨true, j.virt, j.port⟩)
  virt : (js.map MSrc.virt).Nodup

/-- The place of a fluctuation. -/
noncomputable def MSrc.src (j : MSrc B) : Src B := ⟨j.virt, j.port, 0⟩

theorem MWarm.placed {js : List (MSrc B)} (h : MWarm n js) : Placed n (js.map MSrc.src) := by
  refine ⟨?_, ?_⟩
  · rw [h.flucts, List.map_map]
    rfl
  · rw [List.map_map]
    exact h.virt

theorem mjohnson_port {el : Elem (Key B) ℂ} {r : Port (Key B) × Mob ℂ} (h : mjohnson el = some r) : r.1 ∈ el.ports := by
  unfold mjohnson at h
  split at h
  · split_ifs at h
    cases h
    simp [Elem.ports, Mech.ports]
  · split_ifs at h
    cases h
    simp [Elem.ports, Mech.ports]
  · cases h

/-- no noise is attached to the port of a source of force -/
theorem MWarm.quiet {js : List (MSrc B)} (h : MWarm n js) (hw : n.WF) {i0 : ℂ} {q : Key B} {A : Port (Key B)}
    (h0 : .currentSource i0 q A ∈ n.els) (x : Key B × K → ℂ) (k : K) : n.vn x k A = 0 := by
  unfold Net.vn
  apply List.sum_eq_zero
  intro v hv
  obtain ⟨f, hf, rfl⟩ := List.mem_map.1 hv
  rw [if_neg]
  rintro ⟨-, hfA⟩
  rw [h.flucts] at hf
  obtain ⟨j, hj, rfl⟩ := List.mem_map.1 hf
  have hm : (j.port, j.mob) ∈ n.els.filterMap mjohnson := by
    rw [← h.sources]
    exact List.mem_map_of_mem hj
  obtain ⟨el, hel, hjo⟩ := List.mem_filterMap.1 hm
  have hp := mjohnson_port hjo
  dsimp only at hp hfA
  rw [hfA] at hp
  -- two elements with the port `A`
  have e1 := sum_els_single (F := ℂ) hw h0 (A := A) (by simp [Elem.ports])
    (G := fun el => if A ∈ el.ports then (if (mjohnson el).isSome then (1 : ℂ) else 0) else 0) (fun el _ h => if_neg h)
  have e2 := sum_els_single (F := ℂ) hw hel (A := A) hp
    (G := fun el => if A ∈ el.ports then (if (mjohnson el).isSome then (1 : ℂ) else 0) else 0) (fun el _ h => if_neg h)
  rw [e1, if_pos hp, if_pos (by simp [Elem.ports]), hjo] at e2
  simp [mjohnson] at e2

variable {js : List (MSrc B)} {cm : Dict ((Key B × K) × (Key B × K)) ℂ} {Vm q : Key B} {A : Port (Key B)} {i0 : ℂ}
variable {z zP zN : Key B × K → ℂ}

/-- **C92**: the one-sided noise density which the noise readout returns for a displacement readout at the port of a force
source, in a network without strings: the sum over the fluctuations of their densities times the forces, at the
frequency and at its negative, at their ports for a unit force of the source. -/
theorem C92_noise {kB T : ℝ} {flip : K → K} {cplgs : Dict (Key B) (List K)} {base : Key B → Key B}
    {st : St (Key B) K (MSrc B)} {port_map : Dict Nm (Key B)} {R : Nm} {adjust : ℂ}
    (hrP : Ready n env cs ports fuel g kP) (hrN : Ready n env cs ports fuel g kN) (hj : MWarm n js)
    (hrec : ∀ el ∈ n.els, el.Reciprocal) (hP : kP ≠ env.dc) (hN : kN ≠ env.dc)
    (h0 : .currentSource i0 q A ∈ n.els) (hq : ∀ el ∈ n.els, q ∈ el.signals → A ∈ el.ports)
    (hm : Meter.volt A none Vm ∈ n.meters)
    (hzP : Sol n g cs zP kP) (hdP : Driven n q zP kP) (hzN : Sol n g cs zN kN) (hdN : Driven n q zN kN)
    (hflip : flip kP = kN) (hst : noise_map cplgs base (mjohnson_calls env.keys flip js) = .ok st) (hcm : Dict.WF cm)
    (hRP : ∀ d, Responses n g cs cm (js.map MSrc.src) Vm d kP) (hRN : ∀ d, Responses n g cs cm (js.map MSrc.src) Vm d kN)
    (hadj : adjust_PSD 1 = .ok adjust) (hpm : Dict.WF port_map) (hR : Dict.get? port_map R = some Vm) :
    AC_PSD R (CSD_builds port_map kP kN adjust (mjohnson_2pt env kB T) cm st.nmap) =
      .ok (npreal (js.map (fun j => mjohnson_dsq env kB T (env.freq kP) j.mob *
        (n.I env zP kP j.port * n.I env zN kN j.port))).sum) := by
  unfold AC_PSD Dict.get
  rw [C77_csd hst hcm hpm hR hR, if_pos rfl]
  dsimp only
  refine congrArg Except.ok ?_
  have h2 : adjust = 2 := by
    unfold adjust_PSD at hadj
    rw [if_pos rfl] at hadj
    injection hadj with hadj
    exact hadj.symm
  refine congrArg npreal ?_
  unfold mjohnson_calls
  rw [sum_flatMap']
  refine congrArg List.sum (List.map_congr_left fun j hjm => ?_)
  have hk : kP ∈ env.keys j.virt := by
    refine hrP.flucts ⟨true, j.virt, j.port⟩ ?_
    rw [hj.flucts]
    exact List.mem_map_of_mem hjm
  have hjm' : j.src ∈ js.map MSrc.src := List.mem_map_of_mem hjm
  unfold pairs
  rw [List.map_map, ← sum_single' (hrP.nodup j.virt) hk
    (fun _ => mjohnson_dsq env kB T (env.freq kP) j.mob * (n.I env zP kP j.port * n.I env zN kN j.port))]
  refine congrArg List.sum (List.map_congr_left fun k1 _ => ?_)
  dsimp only [Function.comp, spectrum]
  have e1 := resp_eq hrP hj.placed hrec (fun x => hj.quiet hrP.wf h0 x kP) hP h0 hq hm hzP hdP (hRP k1) hjm'
  have e2 := resp_eq hrN hj.placed hrec (fun x => hj.quiet hrN.wf h0 x kN) hN h0 hq hm hzN hdN (hRN (flip k1)) hjm'
  simp only [MSrc.src] at e1 e2
  rw [e1]
  by_cases hk1 : kP = k1
  · subst hk1
    rw [hflip] at e2
    rw [if_pos rfl, if_pos rfl, hflip, e2, if_pos rfl, h2]
    unfold mjohnson_2pt conversion
    rw [if_pos rfl]
    ring
  · rw [if_neg hk1, if_neg hk1, mul_zero, zero_mul]

/-! ## real parameters -/

/-- The parameters are real, the loss angles odd in the frequency. -/
def MobReal (env : Env (Key B) K ℂ) (kP kN : K) : Mob ℂ → Prop
  | .damper r => star r = r
  | .spring c none => star c = c
  | .spring c (some loss) => star c = c ∧ star (loss (env.freq kP)) = loss (env.freq kP) ∧
      loss (env.freq kN) = -loss (env.freq kP)
  | .mass m => star m = m

/-- The parameters of the elements are real. -/
def MechReal (env : Env (Key B) K ℂ) (kP kN : K) : Elem (Key B) ℂ → Prop
  | .mech (.one t _) => MobReal env kP kN t
  | .mech (.two t _ _) => MobReal env kP kN t
  | .mech (.lever d _ _ _) => star d = d
  | .mech (.xyz dv _ _ _ _ _) => star dv.X = dv.X ∧ star dv.Y = dv.Y ∧ star dv.Z = dv.Z
  | _ => True

/-- The symbols have their usual values, and the two keys are those of the angular frequency `om` and of its negative. -/
structure MEnv (env : Env (Key B) K ℂ) (kP kN : K) (om : ℝ) : Prop where
  Ze : star env.Ze = env.Ze
  i : env.i = Complex.I
  i2pi : env.i2pi = 2 * env.pi * Complex.I
  freq : 2 * env.pi * env.freq kP = om
  neg : env.freq kN = -env.freq kP
  om : om ≠ 0

variable {om : ℝ}

theorem MEnv.sP (he : MEnv env kP kN om) : env.i2pi * env.freq kP = Complex.I * om := by
  rw [he.i2pi, ← he.freq]
  ring

theorem MEnv.sN (he : MEnv env kP kN om) : env.i2pi * env.freq kN = -(Complex.I * om) := by
  rw [he.neg, mul_neg, he.sP]

theorem stiffness_conj {t : Mob ℂ} (he : MEnv env kP kN om) (hr : MobReal env kP kN t) :
    star (t.Stiffness env kP) = t.Stiffness env kN := by
  have s0 : star (env.i2pi * env.freq kP) = env.i2pi * env.freq kN := by
    rw [he.sP, he.sN]
    simp
  cases t with
  | damper r =>
    simp only [Mob.Stiffness]
    rw [star_mul', s0, hr]
  | mass m =>
    simp only [Mob.Stiffness]
    rw [star_mul', star_pow, s0, hr]
  | spring c loss =>
    cases loss with
    | none => exact hr
    | some loss =>
      obtain ⟨h1, h2, h3⟩ := hr
      simp only [Mob.Stiffness]
      have hi : star env.i = -env.i := by
        rw [he.i]
        simp
      rw [star_add, star_mul', star_mul', h1, h2, h3, hi]
      ring

theorem mech_conj {el : Elem (Key B) ℂ} (he : MEnv env kP kN om) (hr : MechReal env kP kN el)
    (hp : el.Mechanical env kP kN) (hP : kP ≠ env.dc)
    (hN : kN ≠ env.dc) {V I : Port (Key B) → ℂ} {s : Key B → ℂ} (h : el.Law env kP V I s) :
    el.Law env kN (fun p => star (V p)) (fun p => star (I p)) (fun q => star (s q)) := by
  cases el with
  | one t A =>
    cases t with
    | opened =>
      simp only [Elem.Law] at *
      rw [h, star_zero]
    | shorted =>
      simp only [Elem.Law] at *
      rw [h, star_zero]
    | _ => exact hp.elim
  | two t A C => cases t <;> exact hp.elim
  | connection ps =>
    simp only [Elem.Law] at *
    refine ⟨fun p hp q hq => by rw [h.1 p hp q hq], ?_⟩
    have := congrArg star h.2
    rw [star_sum, star_zero, List.map_map] at this
    exact this
  | cable l A C => exact hp.elim
  | voltageSource v q A =>
    simp only [Elem.Law, if_neg hP, if_neg hN, add_zero] at *
    rw [h]
  | currentSource v q A =>
    simp only [Elem.Law, if_neg hP, if_neg hN, add_zero] at *
    rw [h, star_neg]
  | voltageSourceBalanced v w q r A C =>
    simp only [Elem.Law, if_neg hP, if_neg hN, add_zero] at *
    rw [← star_sub, ← star_add, h.1, h.2, star_neg]
    exact ⟨rfl, rfl⟩
  | currentSourceBalanced v q A C =>
    simp only [Elem.Law, if_neg hP, if_neg hN, add_zero] at *
    rw [h.1, h.2, star_neg]
    exact ⟨rfl, rfl⟩
  | opAmp g p m out => exact hp.elim
  | mech m =>
    cases m with
    | one t A =>
      simp only [Elem.Law, Mech.Law, MechReal] at *
      rw [h, star_mul', stiffness_conj he hr]
    | two t A C =>
      simp only [Elem.Law, Mech.Law, MechReal] at *
      rw [← star_sub, ← star_add, h.2, h.1, star_mul', stiffness_conj he hr]
      exact ⟨rfl, star_zero _⟩
    | cable => exact hp.elim
    | zconv => exact hp.elim
    | lever d A C L =>
      simp only [Elem.Law, Mech.Law, MechReal] at *
      obtain ⟨h1, h2, h3⟩ := h
      rw [← star_sub, ← star_add, h1, h2, h3, star_mul', star_mul', star_neg, hr]
      exact ⟨rfl, star_zero _, rfl⟩
    | xyz dv d root A C L =>
      simp only [Elem.Law, Mech.Law, MechReal] at *
      obtain ⟨⟨a1, a2, a3⟩, ⟨b1, b2, b3⟩, c1, c2, c3⟩ := h
      obtain ⟨r1, r2, r3⟩ := hr
      refine ⟨⟨?_, ?_, ?_⟩, ⟨?_, ?_, ?_⟩, ?_, ?_, ?_⟩
      · rw [← star_sub, a1, star_sub, star_mul', star_mul', r2, r3]
      · rw [← star_sub, a2, star_sub, star_mul', star_mul', r1, r3]
      · rw [← star_sub, a3, star_sub, star_mul', star_mul', r1, r2]
      · rw [← star_add, b1, star_zero]
      · rw [← star_add, b2, star_zero]
      · rw [← star_add, b3, star_zero]
      · rw [c1, star_sub, star_mul', star_mul', r2, r3]
      · rw [c2, star_sub, star_mul', star_mul', r1, r3]
      · rw [c3, star_sub, star_mul', star_mul', r1, r2]

theorem mech_conj_sol (hrP : Ready n env cs ports fuel g kP) (hrN : Ready n env cs ports fuel g kN)
    (he : MEnv env kP kN om) (hreal : ∀ el ∈ n.els, MechReal env kP kN el)
    (hmech : ∀ el ∈ n.els, el.Mechanical env kP kN) (hP : kP ≠ env.dc)
    (hN : kN ≠ env.dc) (hz : Sol n g cs z kP) : Sol n g cs (conjField z kP) kN := by
  obtain ⟨h1, h2, h3⟩ := (C55_circuit hrP.cs hrP.links hrP.wf hrP.nodup hrP.keys hrP.Ze hrP.two hrP.nodes hrP.flucts
    hrP.signals z).1 hz
  refine (C55_circuit hrN.cs hrN.links hrN.wf hrN.nodup hrN.keys hrN.Ze hrN.two hrN.nodes hrN.flucts
    hrN.signals (conjField z kP)).2 ⟨?_, ?_, ?_⟩
  · intro ab hab
    rw [conj_V, conj_V, conj_I he.Ze, conj_I he.Ze, ← star_add, (h1 ab hab).1, (h1 ab hab).2, star_zero]
    exact ⟨rfl, rfl⟩
  · intro el hel
    have := mech_conj he (hreal el hel) (hmech el hel) hP hN (h2 el hel)
    simp only [star_add, star_div₀, he.Ze] at this
    simp only [conj_V, conj_I he.Ze, (conj_vn z _).1, (conj_vn z _).2]
    exact this
  · intro t ht
    obtain ⟨a, b⟩ := h3 t ht
    rw [conj_V, conj_I he.Ze]
    unfold conjField
    rw [a, b, star_div₀, star_div₀, star_add, star_sub, star_mul', he.Ze, star_ofNat]
    exact ⟨rfl, rfl⟩

/-! ## the compliances and the noise -/

/-- What the noise of a spring with a loss angle `φ` exceeds that of a spring at the temperature: the noise lacks the
factor `1 / (1 + φ²)`. -/
noncomputable def excess (env : Env (Key B) K ℂ) (kB T om : ℝ) (k : K) : Mob ℂ → ℝ
  | .spring c (some loss) => 4 * kB * T * (loss (env.freq k)).re ^ 3 / (om * c.re * (1 + (loss (env.freq k)).re ^ 2))
  | _ => 0

theorem dsq_eq {t : Mob ℂ} {kB T : ℝ} (he : MEnv env kP kN om) (hr : MobReal env kP kN t)
    (h0 : t.Stiffness env kP ≠ 0) (hn : Mob.noisy t = true) :
    mjohnson_dsq env kB T (env.freq kP) t = 2 * kB * T * Complex.I / om *
      (1 / t.Stiffness env kP - 1 / t.Stiffness env kN) + excess env kB T om kP t := by
  have hom : (om : ℂ) ≠ 0 := by exact_mod_cast he.om
  have hI : Complex.I ≠ 0 := Complex.I_ne_zero
  cases t with
  | mass m => cases hn
  | damper r =>
    simp only [mjohnson_dsq, excess, Mob.Stiffness] at *
    rw [he.sP] at h0
    rw [he.sP, he.sN, he.freq]
    have hr0 : r ≠ 0 := left_ne_zero_of_mul h0
    push_cast
    field_simp
    ring
  | spring c loss =>
    cases loss with
    | none => cases hn
    | some loss =>
      obtain ⟨h1, h2, h3⟩ := hr
      obtain ⟨c', rfl⟩ : ∃ c' : ℝ, c = c' := ⟨c.re, (Complex.conj_eq_iff_re.1 h1).symm⟩
      obtain ⟨p, hp⟩ : ∃ p : ℝ, loss (env.freq kP) = p :=
        ⟨(loss (env.freq kP)).re, (Complex.conj_eq_iff_re.1 h2).symm⟩
      simp only [mjohnson_dsq, excess, Mob.Stiffness] at *
      rw [h3, hp, he.i, he.freq]
      rw [hp, he.i] at h0
      have hc : (c' : ℂ) ≠ 0 := by
        rintro h
        rw [h] at h0
        simp at h0
      have a1 : (1 + Complex.I * p : ℂ) ≠ 0 := by
        intro h
        apply h0
        linear_combination c' * h
      have a2 : (1 - Complex.I * p : ℂ) ≠ 0 := by
        intro h
        have := congrArg Complex.re h
        simp at this
      have a3 : (1 + p ^ 2 : ℂ) ≠ 0 := by
        have : (1 + p ^ 2 : ℝ) ≠ 0 := by positivity
        exact_mod_cast this
      have e1 : (c' : ℂ) + Complex.I * p * c' = c' * (1 + Complex.I * p) := by ring
      have e2 : (c' : ℂ) + Complex.I * -p * c' = c' * (1 - Complex.I * p) := by ring
      have e3 : (1 + Complex.I * p : ℂ) * (1 - Complex.I * p) = 1 + p ^ 2 := by
        linear_combination (-(p : ℂ) ^ 2) * Complex.I_sq
      rw [e1, e2, Complex.ofReal_re, Complex.ofReal_re]
      have e4 : (1 / ((c' : ℂ) * (1 + Complex.I * p)) - 1 / (c' * (1 - Complex.I * p)) : ℂ) =
          -2 * Complex.I * p / (c' * (1 + p ^ 2)) := by
        rw [← e3]
        field_simp
        ring
      rw [e4]
      push_cast
      field_simp
      linear_combination (4 * (kB : ℂ) * T * p) * Complex.I_sq

theorem compliances_noise {J : Port (Key B) → ℂ} (he : MEnv env kP kN om) (l : List (Elem (Key B) ℂ))  :
    (l.map (fun el => ((el.compliances env kP kN).map (fun r => r.2 * J r.1)).sum)).sum =
      ((l.filterMap mjohnson).map (fun r => (1 / r.2.Stiffness env kP - 1 / r.2.Stiffness env kN) * J r.1)).sum := by
  have quiet : ∀ t : Mob ℂ, Mob.noisy t = false → 1 / t.Stiffness env kP - 1 / t.Stiffness env kN = 0 := by
    intro t ht
    cases t with
    | damper r => cases ht
    | mass m =>
      simp only [Mob.Stiffness]
      rw [he.sP, he.sN]
      ring
    | spring c loss =>
      cases loss with
      | some loss => cases ht
      | none => simp only [Mob.Stiffness, sub_self]
  induction l with
  | nil => rfl
  | cons el l ih =>
    rw [List.map_cons, List.sum_cons, ih, List.filterMap_cons]
    cases el with
    | mech m =>
      cases m with
      | one t A =>
        cases ht : Mob.noisy t with
        | true => simp [Elem.compliances, mjohnson, ht]
        | false =>
          have := quiet t ht
          simp only [Elem.compliances, mjohnson, ht, List.map_cons, List.map_nil, List.sum_cons, List.sum_nil, this]
          simp
      | two t A C =>
        cases ht : Mob.noisy t with
        | true => simp [Elem.compliances, mjohnson, ht]
        | false =>
          have := quiet t ht
          simp only [Elem.compliances, mjohnson, ht, List.map_cons, List.map_nil, List.sum_cons, List.sum_nil, this]
          simp
      | _ => simp [Elem.compliances, mjohnson]
    | _ => simp [Elem.compliances, mjohnson]

/-- **C92**: the one-sided density of the displacement of a network of dampers, springs, masses, levers and connections
is `-4 kB T / ω` times the imaginary part of the compliance, as the fluctuation-dissipation theorem demands, up to the
excess of the springs with a loss angle. -/
theorem C92_excess {kB T : ℝ} {flip : K → K} {cplgs : Dict (Key B) (List K)} {base : Key B → Key B}
    {st : St (Key B) K (MSrc B)} {port_map : Dict Nm (Key B)} {R : Nm} {adjust : ℂ}
    (hrP : Ready n env cs ports fuel g kP) (hrN : Ready n env cs ports fuel g kN) (hj : MWarm n js)
    (hmech : ∀ el ∈ n.els, el.Mechanical env kP kN) (hP : kP ≠ env.dc) (hN : kN ≠ env.dc) (he : MEnv env kP kN om)
    (hreal : ∀ el ∈ n.els, MechReal env kP kN el)
    (h0 : .currentSource i0 q A ∈ n.els) (hq : ∀ el ∈ n.els, q ∈ el.signals → A ∈ el.ports)
    (hm : Meter.volt A none Vm ∈ n.meters) (hz : Sol n g cs z kP) (hd : Driven n q z kP)
    (hflip : flip kP = kN) (hst : noise_map cplgs base (mjohnson_calls env.keys flip js) = .ok st) (hcm : Dict.WF cm)
    (hRP : ∀ d, Responses n g cs cm (js.map MSrc.src) Vm d kP) (hRN : ∀ d, Responses n g cs cm (js.map MSrc.src) Vm d kN)
    (hadj : adjust_PSD 1 = .ok adjust) (hpm : Dict.WF port_map) (hR : Dict.get? port_map R = some Vm) :
    AC_PSD R (CSD_builds port_map kP kN adjust (mjohnson_2pt env kB T) cm st.nmap) =
      .ok ((-(4 * kB * T / om) * (n.V z kP A).im +
        (js.map (fun j => excess env kB T om kP j.mob * Complex.normSq (n.I env z kP j.port))).sum : ℝ) : ℂ) := by
  have hdN : Driven n q (conjField z kP) kN := by
    refine ⟨fun el hel s hs => ?_, fun f hf => ?_⟩
    · unfold conjField
      rw [hd.signals el hel s hs]
      split_ifs <;> simp
    · unfold conjField
      rw [hd.flucts f hf, star_zero]
  have hzN := mech_conj_sol hrP hrN he hreal hmech hP hN hz
  rw [C92_noise hrP hrN hj (fun el hel => (hmech el hel).reciprocal) hP hN h0 hq hm hz hd hzN hdN hflip hst hcm hRP hRN hadj
    hpm hR]
  refine congrArg Except.ok ?_
  have hc := compliance_sum hrP hrN hj.placed.voltage hmech hP hN h0 hq hz hd hzN hdN
  rw [compliances_noise (J := fun p => n.I env z kP p * n.I env (conjField z kP) kN p) he n.els, ← hj.sources, List.map_map,
    conj_V] at hc
  have hI : ∀ p, n.I env z kP p * n.I env (conjField z kP) kN p = (Complex.normSq (n.I env z kP p) : ℂ) := by
    intro p
    rw [conj_I he.Ze]
    exact Complex.mul_conj _
  simp only [hI] at hc ⊢
  have hj' : ∀ j ∈ js, mjohnson_dsq env kB T (env.freq kP) j.mob * (Complex.normSq (n.I env z kP j.port) : ℂ) =
      2 * kB * T * Complex.I / om * ((1 / j.mob.Stiffness env kP - 1 / j.mob.Stiffness env kN) *
        (Complex.normSq (n.I env z kP j.port) : ℂ)) +
      ((excess env kB T om kP j.mob * Complex.normSq (n.I env z kP j.port) : ℝ) : ℂ) := by
    intro j hjm
    have hmem : (j.port, j.mob) ∈ n.els.filterMap mjohnson := by
      rw [← hj.sources]
      exact List.mem_map_of_mem hjm
    obtain ⟨el, hel, hjo⟩ := List.mem_filterMap.1 hmem
    have : MobReal env kP kN j.mob ∧ j.mob.Stiffness env kP ≠ 0 ∧ Mob.noisy j.mob = true := by
      have h1 := hreal el hel
      have h2 := hmech el hel
      unfold mjohnson at hjo
      split at hjo
      · split_ifs at hjo with hnoisy
        cases hjo
        exact ⟨h1, h2.1, hnoisy⟩
      · split_ifs at hjo with hnoisy
        cases hjo
        exact ⟨h1, h2.1, hnoisy⟩
      · cases hjo
    rw [dsq_eq he this.1 this.2.1 this.2.2]
    push_cast
    ring
  rw [List.map_congr_left hj', sum_map_add', sum_map_mul']
  have hc' : n.V z kP A - star (n.V z kP A) = 2 * Complex.I * ((n.V z kP A).im : ℂ) := by
    apply Complex.ext
    · simp
    · simp
      ring
  rw [hc'] at hc
  have hc2 : (js.map (fun j => (1 / j.mob.Stiffness env kP - 1 / j.mob.Stiffness env kN) *
        (Complex.normSq (n.I env z kP j.port) : ℂ))).sum = 2 * Complex.I * ((n.V z kP A).im : ℂ) := hc.symm
  rw [hc2]
  have hsum : ∀ l : List (MSrc B), (l.map (fun j => ((excess env kB T om kP j.mob *
      Complex.normSq (n.I env z kP j.port) : ℝ) : ℂ))).sum =
      (((l.map (fun j => excess env kB T om kP j.mob * Complex.normSq (n.I env z kP j.port))).sum : ℝ) : ℂ) := by
    intro l
    induction l with
    | nil => simp
    | cons j l ih =>
      rw [List.map_cons, List.sum_cons, ih, List.map_cons, List.sum_cons, Complex.ofReal_add]
  rw [hsum]
  have : (2 * (kB : ℂ) * T * Complex.I / om * (2 * Complex.I * ((n.V z kP A).im : ℂ)) : ℂ) =
      ((-(4 * kB * T / om) * (n.V z kP A).im : ℝ) : ℂ) := by
    push_cast
    linear_combination (4 * (kB : ℂ) * T / om * ((n.V z kP A).im : ℂ)) * Complex.I_sq
  rw [this, ← Complex.ofReal_add]
  unfold npreal
  rw [Complex.ofReal_re]

/-- **C92**, the fluctuation-dissipation theorem: in a network without loss angles the one-sided density of the
displacement is `-4 kB T / ω` times the imaginary part of the displacement for a unit force. -/
theorem C92_fluctuation_dissipation {kB T : ℝ} {flip : K → K} {cplgs : Dict (Key B) (List K)} {base : Key B → Key B}
    {st : St (Key B) K (MSrc B)} {port_map : Dict Nm (Key B)} {R : Nm} {adjust : ℂ}
    (hrP : Ready n env cs ports fuel g kP) (hrN : Ready n env cs ports fuel g kN) (hj : MWarm n js)
    (hmech : ∀ el ∈ n.els, el.Mechanical env kP kN) (hP : kP ≠ env.dc) (hN : kN ≠ env.dc) (he : MEnv env kP kN om)
    (hreal : ∀ el ∈ n.els, MechReal env kP kN el) (hloss : ∀ j ∈ js, ∀ c loss, j.mob ≠ .spring c (some loss))
    (h0 : .currentSource i0 q A ∈ n.els) (hq : ∀ el ∈ n.els, q ∈ el.signals → A ∈ el.ports)
    (hm : Meter.volt A none Vm ∈ n.meters) (hz : Sol n g cs z kP) (hd : Driven n q z kP)
    (hflip : flip kP = kN) (hst : noise_map cplgs base (mjohnson_calls env.keys flip js) = .ok st) (hcm : Dict.WF cm)
    (hRP : ∀ d, Responses n g cs cm (js.map MSrc.src) Vm d kP) (hRN : ∀ d, Responses n g cs cm (js.map MSrc.src) Vm d kN)
    (hadj : adjust_PSD 1 = .ok adjust) (hpm : Dict.WF port_map) (hR : Dict.get? port_map R = some Vm) :
    AC_PSD R (CSD_builds port_map kP kN adjust (mjohnson_2pt env kB T) cm st.nmap) =
      .ok ((-(4 * kB * T / om) * (n.V z kP A).im : ℝ) : ℂ) := by
  rw [C92_excess hrP hrN hj hmech hP hN he hreal h0 hq hm hz hd hflip hst hcm hRP hRN hadj hpm hR]
  congr 2
  rw [List.sum_eq_zero, add_zero]
  intro v hv
  obtain ⟨j, hjm, rfl⟩ := List.mem_map.1 hv
  have := hloss j hjm
  unfold excess
  split
  · rename_i c loss heq
    exact absurd heq (this c loss)
  · rw [zero_mul]

end Noise
