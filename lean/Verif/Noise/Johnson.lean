import Verif.Noise.JohnsonModel
import Verif.Noise.Nyquist

/-!
# C80: Nyquist's theorem
-/

set_option linter.unusedSectionVars false

namespace Noise
open Py Circuit Inject

variable {B K Nm : Type} [DecidableEq B] [DecidableEq K] [DecidableEq Nm] [DecidableEq (Src B)]
variable {n : Net B ℂ} {env : Env (Key B) K ℂ} {cs : List (Coupling (Key B) K ℂ)} {ports : Dict (Key B) (List K)}
variable {g : SR (Key B × K)} {fuel : Nat} {kP kN : K}

/-- The fluctuations of the circuit are the Johnson noise of its elements. -/
structure Warm (n : Net B ℂ) (env : Env (Key B) K ℂ) (js : List (Src B)) : Prop where
  sources : js.map (fun j => (j.port, j.R)) = n.els.filterMap (johnson env)
  flucts : n.flucts = js.map (fun j => ⟨true, j.virt, j.port⟩)
  virt : (js.map Src.virt).Nodup

/-- The fluctuations of the circuit are voltage fluctuations at the ports. -/
structure Placed (n : Net B ℂ) (js : List (Src B)) : Prop where
  flucts : n.flucts = js.map (fun j => ⟨true, j.virt, j.port⟩)
  virt : (js.map Src.virt).Nodup

theorem Warm.placed {js : List (Src B)} (h : Warm n env js) : Placed n js := ⟨h.flucts, h.virt⟩

theorem Placed.voltage {js : List (Src B)} (h : Placed n js) : ∀ f ∈ n.flucts, f.voltage = true := by
  intro f hf
  rw [h.flucts] at hf
  obtain ⟨j, -, rfl⟩ := List.mem_map.1 hf
  rfl

theorem Warm.voltage {js : List (Src B)} (h : Warm n env js) : ∀ f ∈ n.flucts, f.voltage = true := by
  intro f hf
  rw [h.flucts] at hf
  obtain ⟨j, -, rfl⟩ := List.mem_map.1 hf
  rfl

theorem losses_johnson (hZe : npreal env.Ze = env.Ze) (l : List (Elem (Key B) ℂ)) (J : Port (Key B) → ℂ) :
    (l.map (fun el => ((el.losses env).map (fun r => r.2 * J r.1)).sum)).sum =
      ((l.filterMap (johnson env)).map (fun r => r.2 * J r.1)).sum := by
  induction l with
  | nil => rfl
  | cons el l ih =>
    rw [List.map_cons, List.sum_cons, ih, List.filterMap_cons]
    cases el with
    | one t A =>
      cases t with
      | inductor R L =>
        by_cases hR : R = 0
        · simp [Elem.losses, johnson, hR]
        · simp [Elem.losses, johnson, hR]
      | _ => simp [Elem.losses, johnson, hZe]
    | two t A C =>
      cases t with
      | inductor R L =>
        by_cases hR : R = 0
        · simp [Elem.losses, johnson, hR]
        · simp [Elem.losses, johnson, hR]
      | _ => simp [Elem.losses, johnson]
    | _ => simp [Elem.losses, johnson]

theorem johnson_port {el : Elem (Key B) ℂ} {r : Port (Key B) × ℂ} (h : johnson env el = some r) : r.1 ∈ el.ports := by
  unfold johnson at h
  split at h
  all_goals first
    | (split_ifs at h; cases h; simp [Elem.ports])
    | (cases h; simp [Elem.ports])
    | cases h

/-- no noise is attached to the port of a source of current -/
theorem Warm.quiet {js : List (Src B)} (h : Warm n env js) (hw : n.WF) {i0 : ℂ} {q : Key B} {A : Port (Key B)}
    (h0 : .currentSource i0 q A ∈ n.els) (x : Key B × K → ℂ) (k : K) : n.vn x k A = 0 := by
  unfold Net.vn
  apply List.sum_eq_zero
  intro v hv
  obtain ⟨f, hf, rfl⟩ := List.mem_map.1 hv
  rw [if_neg]
  rintro ⟨-, hfA⟩
  rw [h.flucts] at hf
  obtain ⟨j, hj, rfl⟩ := List.mem_map.1 hf
  have hm : (j.port, j.R) ∈ n.els.filterMap (johnson env) := by
    rw [← h.sources]
    exact List.mem_map_of_mem hj
  obtain ⟨el, hel, hjo⟩ := List.mem_filterMap.1 hm
  have hp := johnson_port hjo
  dsimp only at hp hfA
  rw [hfA] at hp
  -- two elements with the port `A`
  have e1 := sum_els_single (F := ℂ) hw h0 (A := A) (by simp [Elem.ports])
    (G := fun el => if A ∈ el.ports then (if (johnson env el).isSome then (1 : ℂ) else 0) else 0) (fun el _ h => if_neg h)
  have e2 := sum_els_single (F := ℂ) hw hel (A := A) hp
    (G := fun el => if A ∈ el.ports then (if (johnson env el).isSome then (1 : ℂ) else 0) else 0) (fun el _ h => if_neg h)
  rw [e1, if_pos hp, if_pos (by simp [Elem.ports]), hjo] at e2
  simp [johnson] at e2

/-- The responses of the readout: for every fluctuation and key, fields which solve the circuit driven by the unit
fluctuation of this key only; the coupling to the readout `Vm` is their value there. -/
def Responses (n : Net B ℂ) (g : SR (Key B × K)) (cs : List (Coupling (Key B) K ℂ)) (cm : Dict ((Key B × K) × (Key B × K)) ℂ)
    (js : List (Src B)) (Vm : Key B) (d k : K) : Prop :=
  ∀ j ∈ js, ∃ y : Key B × K → ℂ, Sol n g cs y k ∧ NodeEq g cs y (Vm, k) ∧
    (∀ el ∈ n.els, ∀ s ∈ el.signals, y (s, k) = 0) ∧
    (∀ j' ∈ js, y (j'.virt, k) = if j'.virt = j.virt ∧ k = d then 1 else 0) ∧ resp cm (j.virt, d) (Vm, k) = y (Vm, k)

variable {js : List (Src B)} {cm : Dict ((Key B × K) × (Key B × K)) ℂ} {Vm q : Key B} {A : Port (Key B)} {i0 : ℂ}
variable {d k : K} {z zP zN : Key B × K → ℂ}

/-- the coupling from a fluctuation to the readout at the source is minus the current at the fluctuation -/
theorem resp_eq (hr : Ready n env cs ports fuel g k) (hj : Placed n js) (hpass : ∀ el ∈ n.els, el.Reciprocal)
    (hquiet : ∀ x : Key B × K → ℂ, n.vn x k A = 0) (hdc : k ≠ env.dc) (h0 : .currentSource i0 q A ∈ n.els) (hq : ∀ el ∈ n.els, q ∈ el.signals → A ∈ el.ports)
    (hm : Meter.volt A none Vm ∈ n.meters) (hz : Sol n g cs z k) (hd : Driven n q z k)
    (hR : Responses n g cs cm js Vm d k) {j : Src B} (hjm : j ∈ js) :
    resp cm (j.virt, d) (Vm, k) = if k = d then -n.I env z k j.port else 0 := by
  obtain ⟨y, h1, h2, h3, h4, h5⟩ := hR j hjm
  have hV := C55_voltage_readout hr.cs hr.links hr.wf hr.nodup hr.keys hr.Ze hr.two hr.nodes hr.flucts hr.signals y h1 hm h2
  have hres := C79_response hr hj.voltage hpass hdc h0 hq hz hd h1 h3
  rw [hquiet, add_zero] at hres
  rw [h5, hV]
  dsimp only
  rw [sub_zero, hres, hj.flucts, List.map_map]
  have e : js.map ((fun f => y (f.virt, k) * n.I env z k f.port) ∘ fun j => (⟨true, j.virt, j.port⟩ : Fluct B)) =
      js.map (fun j' => if j = j' then (if k = d then n.I env z k j'.port else 0) else 0) := by
    apply List.map_congr_left
    intro j' hj'
    dsimp only [Function.comp]
    rw [h4 j' hj']
    by_cases hjj : j = j'
    · subst hjj
      rw [if_pos rfl]
      by_cases hk : k = d
      · rw [if_pos ⟨rfl, hk⟩, if_pos hk, one_mul]
      · rw [if_neg (fun h => hk h.2), if_neg hk, zero_mul]
    · rw [if_neg hjj, if_neg, zero_mul]
      rintro ⟨hvv, -⟩
      exact hjj (List.inj_on_of_nodup_map hj.virt hj' hjm hvv).symm
  have hnd : js.Nodup := List.Nodup.of_map _ hj.virt
  rw [e, sum_single' hnd hjm (fun j' => if k = d then n.I env z k j'.port else 0)]
  by_cases hk : k = d
  · rw [if_pos hk, if_pos hk]
  · rw [if_neg hk, if_neg hk, neg_zero]

/-- **C80**, Nyquist's theorem: the one-sided noise density which the noise readout returns for a voltage readout at the
port of a current source, in a circuit without operational amplifiers whose fluctuations are the Johnson noise of its
elements, is `4 kB T` times the real part of the impedance there: of the mean of the voltages at the two signs of the
frequency for a unit current of the source. -/
theorem C80_nyquist {kB T : ℝ} {flip : K → K} {cplgs : Dict (Key B) (List K)} {base : Key B → Key B}
    {st : St (Key B) K (Src B)} {port_map : Dict Nm (Key B)} {R : Nm} {adjust : ℂ}
    (hrP : Ready n env cs ports fuel g kP) (hrN : Ready n env cs ports fuel g kN) (hj : Warm n env js)
    (hpass : ∀ el ∈ n.els, el.Passive) (hP : kP ≠ env.dc) (hN : kN ≠ env.dc) (hf : env.freq kN = -env.freq kP)
    (hexp : ∀ t, env.exp t * env.exp (-t) = 1) (hZe : npreal env.Ze = env.Ze)
    (h0 : .currentSource i0 q A ∈ n.els) (hq : ∀ el ∈ n.els, q ∈ el.signals → A ∈ el.ports)
    (hm : Meter.volt A none Vm ∈ n.meters)
    (hzP : Sol n g cs zP kP) (hdP : Driven n q zP kP) (hzN : Sol n g cs zN kN) (hdN : Driven n q zN kN)
    (hflip : flip kP = kN) (hst : noise_map cplgs base (johnson_calls env.keys flip js) = .ok st) (hcm : Dict.WF cm)
    (hRP : ∀ d, Responses n g cs cm js Vm d kP) (hRN : ∀ d, Responses n g cs cm js Vm d kN)
    (hadj : adjust_PSD 1 = .ok adjust) (hpm : Dict.WF port_map) (hR : Dict.get? port_map R = some Vm) :
    AC_PSD R (CSD_builds port_map kP kN adjust (johnson_2pt kB T) cm st.nmap) =
      .ok ((4 * kB * T * ((n.V zP kP A + n.V zN kN A) / 2).re : ℝ) : ℂ) := by
  unfold AC_PSD Dict.get
  rw [C77_csd hst hcm hpm hR hR, if_pos rfl]
  dsimp only
  refine congrArg Except.ok ?_
  have h2 : adjust = 2 := by
    unfold adjust_PSD at hadj
    rw [if_pos rfl] at hadj
    injection hadj with hadj
    exact hadj.symm
  have hsum : ((johnson_calls env.keys flip js).map (spectrum adjust (johnson_2pt kB T) cm kP kN Vm Vm)).sum =
      4 * kB * T * ((n.V zP kP A + n.V zN kN A) / 2) := by
    have himp := impedance_sum hrP hrN hj.voltage hpass hP hN hf hexp h0 hq hzP hdP hzN hdN
    simp only [mul_assoc] at himp
    rw [losses_johnson hZe n.els (fun p => n.I env zP kP p * n.I env zN kN p), ← hj.sources, List.map_map] at himp
    rw [himp]
    unfold johnson_calls
    rw [sum_flatMap']
    have e : js.map (fun j => ((pairs env.keys flip j.virt j).map
        (spectrum adjust (johnson_2pt kB T) cm kP kN Vm Vm)).sum) =
        js.map (fun j => 4 * kB * T * (j.R * (n.I env zP kP j.port * n.I env zN kN j.port))) := by
      apply List.map_congr_left
      intro j hjm
      have hk : kP ∈ env.keys j.virt := by
        refine hrP.flucts ⟨true, j.virt, j.port⟩ ?_
        rw [hj.flucts]
        exact List.mem_map_of_mem hjm
      unfold pairs
      rw [List.map_map, ← sum_single' (hrP.nodup j.virt) hk
        (fun _ => 4 * kB * T * (j.R * (n.I env zP kP j.port * n.I env zN kN j.port)))]
      refine congrArg List.sum (List.map_congr_left fun k1 _ => ?_)
      dsimp only [Function.comp, spectrum]
      rw [resp_eq hrP hj.placed (fun el h => (hpass el h).reciprocal) (fun x => hj.quiet hrP.wf h0 x kP) hP h0 hq hm hzP hdP
        (hRP k1) hjm]
      by_cases hk1 : kP = k1
      · subst hk1
        rw [if_pos rfl, if_pos rfl, hflip,
          resp_eq hrN hj.placed (fun el h => (hpass el h).reciprocal) (fun x => hj.quiet hrN.wf h0 x kN) hN h0 hq hm hzN hdN
            (hRN kN) hjm, if_pos rfl, h2]
        unfold johnson_2pt johnson_Vsq conversion
        rw [if_pos rfl]
        ring
      · rw [if_neg hk1, if_neg hk1, mul_zero, zero_mul]
    rw [e, sum_map_mul']
    have e2 : (js.map ((fun r : Port (Key B) × ℂ => r.2 * (n.I env zP kP r.1 * n.I env zN kN r.1)) ∘
        fun j => (j.port, j.R))).sum = (js.map (fun j => j.R * (n.I env zP kP j.port * n.I env zN kN j.port))).sum := rfl
    rw [e2]
    ring
  rw [hsum]
  unfold npreal
  refine congrArg _ ?_
  rw [show (4 * (kB : ℂ) * T) = ((4 * kB * T : ℝ) : ℂ) by push_cast; ring, Complex.re_ofReal_mul]

end Noise
