import Verif.Noise.Johnson

/-!
# C80: Nyquist's theorem for circuits with real parameters
-/

set_option linter.unusedSectionVars false

namespace Noise
open Py Circuit Inject

variable {B K Nm : Type} [DecidableEq B] [DecidableEq K] [DecidableEq Nm] [DecidableEq (Src B)]
variable {n : Net B ℂ} {env : Env (Key B) K ℂ} {cs : List (Coupling (Key B) K ℂ)} {ports : Dict (Key B) (List K)}
variable {g : SR (Key B × K)} {fuel : Nat} {kP kN : K}

/-- The parameters of the element are real. -/
def ElemReal : Elem (Key B) ℂ → Prop
  | .one (.resistor R) _ => star R = R
  | .one (.capacitor C) _ => star C = C
  | .one (.inductor R L) _ => star R = R ∧ star L = L
  | .two (.resistor R) _ _ => star R = R
  | .two (.capacitor C) _ _ => star C = C
  | .two (.inductor R L) _ _ => star R = R ∧ star L = L
  | .cable l _ _ => star l = l
  | _ => True

/-- The symbols have their usual conjugates, and the two keys are those of a real frequency and of its negative. -/
structure EnvReal (env : Env (Key B) K ℂ) (kP kN : K) : Prop where
  Ze : star env.Ze = env.Ze
  i2pi : star env.i2pi = -env.i2pi
  i : star env.i = -env.i
  pi : star env.pi = env.pi
  exp : ∀ t, star (env.exp t) = env.exp (star t)
  freq : star (env.freq kP) = env.freq kP
  neg : env.freq kN = -env.freq kP

theorem star_sum (l : List ℂ) : star l.sum = (l.map star).sum := by
  induction l with
  | nil => simp
  | cons a l ih => rw [List.sum_cons, List.map_cons, List.sum_cons, star_add, ih]

theorem law_conj {el : Elem (Key B) ℂ} (he : EnvReal env kP kN) (hr : ElemReal el) (hp : el.Passive) (hP : kP ≠ env.dc)
    (hN : kN ≠ env.dc) {V I : Port (Key B) → ℂ} {s : Key B → ℂ} (h : el.Law env kP V I s) :
    el.Law env kN (fun p => star (V p)) (fun p => star (I p)) (fun q => star (s q)) := by
  have s0 : star (env.i2pi * env.freq kP) = env.i2pi * env.freq kN := by
    rw [star_mul', he.i2pi, he.freq, he.neg]; ring
  cases el with
  | one t A =>
    cases t <;> simp only [Elem.Law, ElemReal] at *
    · rw [h, star_mul', hr]
    · rw [h, star_mul', star_mul', s0, hr]
    · rw [h, star_mul', star_add, star_mul', s0, hr.1, hr.2]
    · rw [h, star_mul', he.Ze]
    · rw [h, star_zero]
    · rw [h, star_zero]
  | two t A C =>
    cases t <;> simp only [Elem.Law, ElemReal] at * <;> obtain ⟨h1, h2⟩ := h <;>
      refine ⟨?_, by rw [← star_add, h2, star_zero]⟩
    · rw [← star_sub, h1, star_mul', hr]
    · rw [← star_sub, h1, star_mul', star_mul', s0, hr]
    · rw [← star_sub, h1, star_mul', star_add, star_mul', s0, hr.1, hr.2]
  | connection ps =>
    simp only [Elem.Law] at *
    refine ⟨fun p hp q hq => by rw [h.1 p hp q hq], ?_⟩
    have := congrArg star h.2
    rw [star_sum, star_zero, List.map_map] at this
    exact this
  | cable l A C =>
    simp only [Elem.Law, ElemReal] at *
    have hexp : star (env.exp (-2 * env.i * env.pi * env.freq kP * l)) = env.exp (-2 * env.i * env.pi * env.freq kN * l) := by
      rw [he.exp]
      congr 1
      rw [star_mul', star_mul', star_mul', star_mul', he.i, he.pi, he.freq, he.neg, hr, star_neg, star_ofNat]
      ring
    obtain ⟨h1, h2⟩ := h
    have h1 := congrArg star h1
    have h2 := congrArg star h2
    simp only [star_sub, star_add, star_mul', hexp, he.Ze] at h1 h2
    exact ⟨h1, h2⟩
  | voltageSource v q A =>
    simp only [Elem.Law, if_neg hP, if_neg hN, add_zero] at *
    rw [h]
  | currentSource v q A =>
    simp only [Elem.Law, if_neg hP, if_neg hN, add_zero] at *
    rw [h, star_neg]
  | voltageSourceBalanced v w q r A C =>
    simp only [Elem.Law, if_neg hP, if_neg hN, add_zero] at *
    rw [← star_sub, ← star_add, h.1, h.2, star_neg]
    exact ⟨rfl, rfl⟩
  | currentSourceBalanced v q A C =>
    simp only [Elem.Law, if_neg hP, if_neg hN, add_zero] at *
    rw [h.1, h.2, star_neg]
    exact ⟨rfl, rfl⟩
  | opAmp g p m out => exact hp.elim
  | mech m => exact hp.elim

/-- The conjugate fields at the negative frequency. -/
noncomputable def conjField (z : Key B × K → ℂ) (kP : K) (t : Key B × K) : ℂ := star (z (t.1, kP))

theorem conj_vn (z : Key B × K → ℂ) (p : Port (Key B)) :
    n.vn (conjField z kP) kN p = star (n.vn z kP p) ∧ n.cn (conjField z kP) kN p = star (n.cn z kP p) := by
  unfold Net.vn Net.cn conjField
  rw [star_sum, star_sum, List.map_map, List.map_map]
  refine ⟨congrArg List.sum (List.map_congr_left fun f _ => ?_), congrArg List.sum (List.map_congr_left fun f _ => ?_)⟩
  · dsimp only [Function.comp]
    split_ifs <;> simp
  · dsimp only [Function.comp]
    split_ifs <;> simp

theorem conj_V (z : Key B × K → ℂ) (p : Port (Key B)) : n.V (conjField z kP) kN p = star (n.V z kP p) := by
  unfold Net.V
  rw [(conj_vn z p).1, (conj_vn z p).2, star_sub, star_add, star_div₀, star_add, star_ofNat]
  rfl

theorem conj_I (hZe : star env.Ze = env.Ze) (z : Key B × K → ℂ) (p : Port (Key B)) :
    n.I env (conjField z kP) kN p = star (n.I env z kP p) := by
  unfold Net.I
  rw [(conj_vn z p).1, (conj_vn z p).2, star_div₀, star_sub, star_sub, star_div₀, star_add, star_ofNat, hZe]
  rfl

theorem conj_sol (hrP : Ready n env cs ports fuel g kP) (hrN : Ready n env cs ports fuel g kN)
    (he : EnvReal env kP kN) (hreal : ∀ el ∈ n.els, ElemReal el) (hpass : ∀ el ∈ n.els, el.Passive) (hP : kP ≠ env.dc)
    (hN : kN ≠ env.dc) {z : Key B × K → ℂ} (hz : Sol n g cs z kP) : Sol n g cs (conjField z kP) kN := by
  obtain ⟨h1, h2, h3⟩ := (C55_circuit hrP.cs hrP.links hrP.wf hrP.nodup hrP.keys hrP.Ze hrP.two hrP.nodes hrP.flucts
    hrP.signals z).1 hz
  refine (C55_circuit hrN.cs hrN.links hrN.wf hrN.nodup hrN.keys hrN.Ze hrN.two hrN.nodes hrN.flucts
    hrN.signals (conjField z kP)).2 ⟨?_, ?_, ?_⟩
  · intro ab hab
    rw [conj_V, conj_V, conj_I he.Ze, conj_I he.Ze, ← star_add, (h1 ab hab).1, (h1 ab hab).2, star_zero]
    exact ⟨rfl, rfl⟩
  · intro el hel
    have := law_conj he (hreal el hel) (hpass el hel) hP hN (h2 el hel)
    simp only [star_add, star_div₀, he.Ze] at this
    simp only [conj_V, conj_I he.Ze, (conj_vn z _).1, (conj_vn z _).2]
    exact this
  · intro t ht
    obtain ⟨a, b⟩ := h3 t ht
    rw [conj_V, conj_I he.Ze]
    unfold conjField
    rw [a, b, star_div₀, star_div₀, star_add, star_sub, star_mul', he.Ze, star_ofNat]
    exact ⟨rfl, rfl⟩

variable {js : List (Src B)} {cm : Dict ((Key B × K) × (Key B × K)) ℂ} {Vm q : Key B} {A : Port (Key B)} {i0 : ℂ}

/-- **C80**, Nyquist's theorem, with real parameters: the one-sided density is `4 kB T` times the real part of the
impedance at the frequency read out, which is the voltage for a unit current of the source. -/
theorem C80_nyquist_real {kB T : ℝ} {flip : K → K} {cplgs : Dict (Key B) (List K)} {base : Key B → Key B}
    {st : St (Key B) K (Src B)} {port_map : Dict Nm (Key B)} {R : Nm} {adjust : ℂ} {z : Key B × K → ℂ}
    (hrP : Ready n env cs ports fuel g kP) (hrN : Ready n env cs ports fuel g kN) (hj : Warm n env js)
    (hpass : ∀ el ∈ n.els, el.Passive) (hP : kP ≠ env.dc) (hN : kN ≠ env.dc) (he : EnvReal env kP kN)
    (hreal : ∀ el ∈ n.els, ElemReal el) (hexp : ∀ t, env.exp t * env.exp (-t) = 1)
    (h0 : .currentSource i0 q A ∈ n.els) (hq : ∀ el ∈ n.els, q ∈ el.signals → A ∈ el.ports)
    (hm : Meter.volt A none Vm ∈ n.meters) (hz : Sol n g cs z kP) (hd : Driven n q z kP)
    (hflip : flip kP = kN) (hst : noise_map cplgs base (johnson_calls env.keys flip js) = .ok st) (hcm : Dict.WF cm)
    (hRP : ∀ d, Responses n g cs cm js Vm d kP) (hRN : ∀ d, Responses n g cs cm js Vm d kN)
    (hadj : adjust_PSD 1 = .ok adjust) (hpm : Dict.WF port_map) (hR : Dict.get? port_map R = some Vm) :
    AC_PSD R (CSD_builds port_map kP kN adjust (johnson_2pt kB T) cm st.nmap) =
      .ok ((4 * kB * T * (n.V z kP A).re : ℝ) : ℂ) := by
  have hdN : Driven n q (conjField z kP) kN := by
    refine ⟨fun el hel s hs => ?_, fun f hf => ?_⟩
    · unfold conjField
      rw [hd.signals el hel s hs]
      split_ifs <;> simp
    · unfold conjField
      rw [hd.flucts f hf, star_zero]
  have hZe : npreal env.Ze = env.Ze := by
    unfold npreal
    exact Complex.conj_eq_iff_re.1 he.Ze
  rw [C80_nyquist hrP hrN hj hpass hP hN he.neg hexp hZe h0 hq hm hz hd (conj_sol hrP hrN he hreal hpass hP hN hz) hdN hflip
    hst hcm hRP hRN hadj hpm hR, conj_V]
  congr 3
  have : n.V z kP A + star (n.V z kP A) = ((2 * (n.V z kP A).re : ℝ) : ℂ) := Complex.add_conj _
  rw [this, Complex.ofReal_mul, show (((2 : ℝ) : ℂ)) = 2 by norm_num, mul_div_cancel_left₀ _ (two_ne_zero), Complex.ofReal_re]

end Noise
