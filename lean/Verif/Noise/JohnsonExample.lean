import Mathlib.Analysis.Complex.Exponential
import Verif.Noise.JohnsonReal

/-!
# C79, C80: an inductor with a resistance across a current source
-/

set_option linter.unusedSectionVars false

namespace Noise
open Py Circuit Inject

def jxPort (m : ℕ) : Port (Key ℕ) := ⟨(2 * m, none), (2 * m + 1, none)⟩

def jxPorts : Dict (Key ℕ) (List ℤ) := (List.range 25).map (fun b => ((b, none), [0, 1, -1]))

noncomputable def jxEnv : Env (Key ℕ) ℤ ℂ :=
  { Ze := 50, i2pi := 6 * Complex.I, i := Complex.I, pi := 3, exp := Complex.exp, freq := fun k => k,
    keys := fun q => (Dict.get? jxPorts (q.1, none)).getD [], dc := 0 }

/-- 100 Ω and 2 H. -/
noncomputable def jxNet : Net ℕ ℂ :=
  { els := [.currentSource 0 (20, none) (jxPort 0), .one (.inductor 100 2) (jxPort 1)]
    flucts := [⟨true, (21, none), jxPort 1⟩]
    meters := [.volt (jxPort 0) none (22, none)]
    bonds := [(jxPort 0, jxPort 1)] }

noncomputable def jxSrc : Src ℕ := ⟨(21, none), jxPort 1, 100⟩

theorem jxNet_WF : jxNet.WF where
  nodup := by decide
  base := by decide
  ends := by decide
  bonded := by decide
  flucts := by decide
  meters := by
    intro m hm
    rcases List.mem_singleton.1 hm with rfl
    decide
  outputs := by decide
  output := by
    intro m hm
    rcases List.mem_singleton.1 hm with rfl
    decide

theorem jxKeys (q : Key ℕ) : jxEnv.keys q = [0, 1, -1] ∨ jxEnv.keys q = [] := by
  change (Dict.get? jxPorts (q.1, none)).getD [] = [0, 1, -1] ∨ (Dict.get? jxPorts (q.1, none)).getD [] = []
  cases h : Dict.get? jxPorts (q.1, none) with
  | none => exact Or.inr rfl
  | some ks =>
    left
    have := Dict.mem_of_get? h
    unfold jxPorts at this
    rw [List.mem_map] at this
    obtain ⟨b, -, hb⟩ := this
    cases hb
    rfl

theorem jx_ne (k : ℤ) : (100 + 6 * Complex.I * k * 2 + 50 : ℂ) ≠ 0 := by
  intro h
  have := congrArg Complex.re h
  simp at this
  norm_num at this

theorem blocks_all {bs : List (Except Err (List (Coupling (Key ℕ) ℤ ℂ)))} (h : ∀ b ∈ bs, ∃ c, b = .ok c) :
    ∃ cs, blocks bs = .ok cs := by
  induction bs with
  | nil => exact ⟨[], rfl⟩
  | cons b bs ih =>
    obtain ⟨c, rfl⟩ := h b List.mem_cons_self
    obtain ⟨cs, hcs⟩ := ih (fun b hb => h b (List.mem_cons_of_mem _ hb))
    exact ⟨c ++ cs, by unfold blocks; rw [hcs]; rfl⟩

theorem per_key_all {p r : Key ℕ} {gain : ℤ → Except Err ℂ} (h : ∀ k, ∃ v, gain k = .ok v) :
    ∃ cs, per_key jxEnv p r gain = .ok cs := by
  unfold per_key
  induction jxEnv.keys p with
  | nil => exact ⟨[], rfl⟩
  | cons k ks ih =>
    obtain ⟨v, hv⟩ := h k
    obtain ⟨cs, hcs⟩ := ih
    exact ⟨_, by rw [List.mapM_cons, hv, hcs]; rfl⟩

theorem jx_couplings : ∃ cs, jxNet.couplings jxEnv = .ok cs := by
  have h : ∀ k : ℤ, ∃ v, OnePort.S11 jxEnv (jxEnv.freq k) (.inductor 100 2) = .ok v :=
    fun k => ⟨_, if_neg (jx_ne k)⟩
  refine blocks_all ?_
  simp only [jxNet, List.map_cons, List.map_nil, List.cons_append, List.nil_append, List.forall_mem_cons]
  refine ⟨blocks_all ?_, per_key_all h, ?_, ?_, by simp⟩
  · simp only [List.forall_mem_cons]
    exact ⟨per_key_all fun k => ⟨_, rfl⟩, ⟨_, rfl⟩, per_key_all fun k => ⟨_, rfl⟩, by simp⟩
  · unfold Fluct.setup
    rw [if_pos rfl]
    refine blocks_all ?_
    simp only [List.forall_mem_cons]
    exact ⟨per_key_all fun k => ⟨_, rfl⟩, per_key_all fun k => ⟨_, rfl⟩, by simp⟩
  · refine blocks_all ?_
    simp only [List.append_nil, List.forall_mem_cons]
    exact ⟨per_key_all fun k => ⟨_, rfl⟩, per_key_all fun k => ⟨_, rfl⟩, by simp⟩

def isLink {α : Type} : Except Err (Option α) → Bool
  | .ok (some _) => true
  | _ => false

theorem jx_links : ∃ g, jxNet.links jxPorts 5 = .ok (some g) := by
  have : isLink (jxNet.links jxPorts 5) = true := by decide +kernel
  cases h : jxNet.links jxPorts 5 with
  | error e => rw [h] at this; cases this
  | ok r =>
    cases r with
    | none => rw [h] at this; cases this
    | some g => exact ⟨g, rfl⟩

/-- The impedance at a key. -/
noncomputable def jxZ (k : ℤ) : ℂ := 100 + 6 * Complex.I * k * 2

/-- The fields for a current `s` of the source and a fluctuation `v`, which may depend on the key. -/
noncomputable def jxField (s v : ℤ → ℂ) (t : Key ℕ × ℤ) : ℂ :=
  if t.1 = (0, none) then (jxZ t.2 * s t.2 - v t.2 - 50 * s t.2) / 2
  else if t.1 = (1, none) then (jxZ t.2 * s t.2 - v t.2 + 50 * s t.2) / 2
  else if t.1 = (2, none) then (jxZ t.2 * s t.2 - v t.2 + 50 * s t.2) / 2 + v t.2 / 2
  else if t.1 = (3, none) then (jxZ t.2 * s t.2 - v t.2 - 50 * s t.2) / 2
  else if t.1 = (0, some (-1)) then (jxZ t.2 * s t.2 - v t.2 - 50 * s t.2) / 2
  else if t.1 = (1, some 1) then (jxZ t.2 * s t.2 - v t.2 + 50 * s t.2) / 2
  else if t.1 = (20, none) then s t.2
  else if t.1 = (21, none) then v t.2
  else if t.1 = (22, none) then jxZ t.2 * s t.2 - v t.2
  else 0

variable {cs : List (Coupling (Key ℕ) ℤ ℂ)} {g : SR (Key ℕ × ℤ)}

theorem jx_ready (hcs : jxNet.couplings jxEnv = .ok cs) (hl : jxNet.links jxPorts 5 = .ok (some g)) {k : ℤ}
    (hk : k = 1 ∨ k = -1) : Ready jxNet jxEnv cs jxPorts 5 g k where
  cs := hcs
  links := hl
  wf := jxNet_WF
  nodup := by
    intro p
    rcases jxKeys p with h | h <;> rw [h] <;> decide
  keys := fun _ => rfl
  Ze := by
    change (50 : ℂ) ≠ 0
    norm_num
  two := by norm_num
  nodes := by
    rcases hk with rfl | rfl <;> decide
  flucts := by
    rcases hk with rfl | rfl <;> decide
  signals := by
    intro el hel
    rcases List.mem_cons.1 hel with rfl | hel
    · rcases hk with rfl | rfl <;> decide
    · rcases List.mem_singleton.1 hel with rfl
      intro q hq
      cases hq

theorem jx_vn (s v : ℤ → ℂ) (k : ℤ) : jxNet.vn (jxField s v) k (jxPort 0) = 0 ∧ jxNet.vn (jxField s v) k (jxPort 1) = v k ∧
    ∀ p, jxNet.cn (jxField s v) k p = 0 := by
  refine ⟨?_, ?_, ?_⟩
  · simp [Net.vn, jxNet, jxPort]
  · simp [Net.vn, jxNet, jxPort, jxField]
  · simp [Net.cn, jxNet]

theorem jx_VI (s v : ℤ → ℂ) (k : ℤ) :
    jxNet.V (jxField s v) k (jxPort 0) = jxZ k * s k - v k ∧ jxNet.V (jxField s v) k (jxPort 1) = jxZ k * s k - v k ∧
    jxNet.I jxEnv (jxField s v) k (jxPort 0) = -s k ∧ jxNet.I jxEnv (jxField s v) k (jxPort 1) = s k := by
  obtain ⟨h0, h1, h2⟩ := jx_vn s v k
  unfold Net.V Net.I
  rw [h0, h1, h2, h2]
  refine ⟨?_, ?_, ?_, ?_⟩
  · simp only [jxField, jxPort]
    norm_num
    ring
  · simp only [jxField, jxPort]
    norm_num
    ring
  · simp only [jxField, jxPort, jxEnv]
    norm_num
    ring
  · simp only [jxField, jxPort, jxEnv]
    norm_num
    ring

theorem jx_sol (hcs : jxNet.couplings jxEnv = .ok cs) (hl : jxNet.links jxPorts 5 = .ok (some g)) {k : ℤ}
    (hk : k = 1 ∨ k = -1) (s v : ℤ → ℂ) : Sol jxNet g cs (jxField s v) k ∧
      NodeEq g cs (jxField s v) ((22, none), k) := by
  have hr := jx_ready hcs hl hk
  obtain ⟨v0, v1, v2, v3⟩ := jx_VI s v k
  obtain ⟨h0, h1, h2⟩ := jx_vn s v k
  have hdc : k ≠ jxEnv.dc := by rcases hk with rfl | rfl <;> decide
  constructor
  · refine (C55_circuit hr.cs hr.links hr.wf hr.nodup hr.keys hr.Ze hr.two hr.nodes hr.flucts hr.signals _).2 ⟨?_, ?_, ?_⟩
    · intro ab hab
      rcases List.mem_singleton.1 hab with rfl
      dsimp only
      rw [v0, v1, v2, v3]
      exact ⟨rfl, by ring⟩
    · intro el hel
      rcases List.mem_cons.1 hel with rfl | hel
      · simp only [Elem.Law, if_neg hdc, h2, v2]
        simp [jxField]
      · rcases List.mem_singleton.1 hel with rfl
        simp only [Elem.Law, h1, h2, v1, v3]
        simp only [jxZ, jxEnv]
        ring
    · intro t ht
      have : t = jxPort 0 := by simpa [jxNet, Meter.terminals] using ht
      subst this
      rw [v0, v2]
      constructor
      · simp [jxField, preposed, jxPort, jxEnv]
        ring
      · simp [jxField, posted, jxPort, jxEnv]
  · obtain ⟨e, he, h⟩ := meter_node (k := k) hr.cs hr.links hr.wf (m := .volt (jxPort 0) none (22, none)) (by simp [jxNet])
    refine (h _).2 ?_
    change voltage_readout_setup jxEnv (preposed (jxPort 0).i) (posted (jxPort 0).o) none (22, none) = .ok e at he
    unfold voltage_readout_setup at he
    obtain ⟨c1, _, hb1, g1, rfl⟩ := blocks_cons he
    obtain ⟨c2, _, hb2, g2, rfl⟩ := blocks_cons g1
    obtain rfl := blocks_nil g2
    obtain ⟨_, hv1, e1⟩ := per_key_into hb1 (hr.nodup _) (by rcases hk with rfl | rfl <;> decide : k ∈ _); cases hv1
    obtain ⟨_, hv2, e2⟩ := per_key_into hb2 (hr.nodup _) (by rcases hk with rfl | rfl <;> decide : k ∈ _); cases hv2
    change _ = total _ _ ((22, none), k)
    rw [total_append, total_append, total_nil, e1, e2, if_pos rfl, if_pos rfl]
    simp [jxField, preposed, posted, jxPort, Meter.target]
    ring

/-- The couplings from the fluctuation to the readout. -/
noncomputable def jxCm : Dict ((Key ℕ × ℤ) × (Key ℕ × ℤ)) ℂ :=
  [((((21, none), 1), ((22, none), 1)), -1), ((((21, none), -1), ((22, none), -1)), -1)]

theorem jx_responses (hcs : jxNet.couplings jxEnv = .ok cs) (hl : jxNet.links jxPorts 5 = .ok (some g)) {k : ℤ}
    (hk : k = 1 ∨ k = -1) (d : ℤ) : Responses jxNet g cs jxCm [jxSrc] (22, none) d k := by
  intro j hj
  rcases List.mem_singleton.1 hj with rfl
  obtain ⟨h1, h2⟩ := jx_sol hcs hl hk (fun _ => 0) (fun k' => if k' = d then 1 else 0)
  refine ⟨_, h1, h2, ?_, ?_, ?_⟩
  · intro el hel s hs
    rcases List.mem_cons.1 hel with rfl | hel
    · rcases List.mem_singleton.1 hs with rfl
      simp [jxField]
    · rcases List.mem_singleton.1 hel with rfl
      cases hs
  · intro j' hj'
    rcases List.mem_singleton.1 hj' with rfl
    simp [jxField, jxSrc]
  · by_cases hd : k = d
    · subst hd
      rcases hk with rfl | rfl <;> simp [jxField, resp, jxCm, jxSrc, Dict.get?]
    · rcases hk with rfl | rfl
      · simp [jxField, resp, jxCm, jxSrc, Dict.get?, hd]
      · simp [jxField, resp, jxCm, jxSrc, Dict.get?, hd]

theorem jx_driven (k : ℤ) : Driven jxNet (20, none) (jxField (fun _ => 1) (fun _ => 0)) k := by
  constructor
  · intro el hel s hs
    rcases List.mem_cons.1 hel with rfl | hel
    · rcases List.mem_singleton.1 hs with rfl
      simp [jxField]
    · rcases List.mem_singleton.1 hel with rfl
      cases hs
  · intro f hf
    rcases List.mem_singleton.1 hf with rfl
    simp [jxField]

theorem jx_warm : Warm jxNet jxEnv [jxSrc] where
  sources := by
    change _ = List.filterMap (johnson jxEnv) [_, _]
    rw [List.filterMap_cons_none rfl, List.filterMap_cons_some
      (show johnson jxEnv (.one (.inductor 100 2) (jxPort 1)) = some (jxPort 1, 100) from if_pos (by norm_num))]
    rfl
  flucts := rfl
  virt := by decide

theorem jx_passive : ∀ el ∈ jxNet.els, el.Passive := by
  intro el hel
  rcases List.mem_cons.1 hel with rfl | hel
  · trivial
  · rcases List.mem_singleton.1 hel with rfl
    trivial

theorem jx_only : ∀ el ∈ jxNet.els, (20, none) ∈ el.signals → jxPort 0 ∈ el.ports := by
  intro el hel hs
  rcases List.mem_cons.1 hel with rfl | hel
  · simp [Elem.ports]
  · rcases List.mem_singleton.1 hel with rfl
    cases hs

theorem jx_real : EnvReal jxEnv 1 (-1) where
  Ze := by simp [jxEnv]
  i2pi := by simp [jxEnv]
  i := by simp [jxEnv]
  pi := by simp [jxEnv]
  exp := fun t => (Complex.exp_conj t).symm
  freq := by simp [jxEnv]
  neg := by simp [jxEnv]

/-- The hypotheses of `C80_nyquist_real` hold for this circuit (and so do those of `C79_response` and `C80_nyquist`,
which its proof uses): the noise is `4 kB T · 100`, while the impedance is `100 + 12 i`. -/
example {kB T : ℝ} {d : DecidableEq (Src ℕ)} : ∃ cs g st, jxNet.couplings jxEnv = .ok cs ∧
    jxNet.links jxPorts 5 = .ok (some g) ∧
    noise_map (jxPorts : Dict (Key ℕ) (List ℤ)) id (johnson_calls jxEnv.keys (fun k => -k) [jxSrc]) = .ok st ∧
    AC_PSD () (CSD_builds [((), (22, none))] 1 (-1) 2 (johnson_2pt kB T) jxCm st.nmap) =
      .ok ((4 * kB * T * 100 : ℝ) : ℂ) := by
  obtain ⟨cs, hcs⟩ := jx_couplings
  obtain ⟨g, hl⟩ := jx_links
  have hst : ∃ st, noise_map (jxPorts : Dict (Key ℕ) (List ℤ)) id (johnson_calls jxEnv.keys (fun k => -k) [jxSrc]) = .ok st := by
    rw [C77_noise_map.1]
    intro c hc pk hpk
    obtain ⟨j, hj, hc⟩ := List.mem_flatMap.1 hc
    rcases List.mem_singleton.1 hj with rfl
    obtain ⟨k, hk, rfl⟩ := List.mem_map.1 hc
    refine ⟨[0, 1, -1], ?_, ?_⟩
    · rcases hpk with rfl | rfl <;> rfl
    · have hk' : k ∈ [0, 1, (-1 : ℤ)] := hk
      simp only [List.mem_cons, List.not_mem_nil, or_false] at hk'
      rcases hpk with rfl | rfl <;> rcases hk' with rfl | rfl | rfl <;> simp
  obtain ⟨st, hst⟩ := hst
  refine ⟨cs, g, st, hcs, hl, hst, ?_⟩
  have hr1 := jx_ready hcs hl (k := 1) (Or.inl rfl)
  have hr2 := jx_ready hcs hl (k := -1) (Or.inr rfl)
  have := C80_nyquist_real (kB := kB) (T := T) (port_map := [((), (22, none))]) (R := ()) (i0 := 0) (A := jxPort 0)
    (q := (20, none)) hr1 hr2 jx_warm jx_passive (by decide) (by decide) jx_real ?_ ?_ (by simp [jxNet]) jx_only
    (by simp [jxNet]) (jx_sol hcs hl (Or.inl rfl) (fun _ => 1) (fun _ => 0)).1 (jx_driven 1) (by decide) hst (by decide)
    (jx_responses hcs hl (Or.inl rfl)) (jx_responses hcs hl (Or.inr rfl)) (adjust := 2) (by simp [adjust_PSD]) (by decide) rfl
  · rw [this, (jx_VI _ _ _).1]
    simp [jxZ]
  · intro el hel
    rcases List.mem_cons.1 hel with rfl | hel
    · trivial
    · rcases List.mem_singleton.1 hel with rfl
      exact ⟨by simp, by simp⟩
  · intro t
    change Complex.exp t * Complex.exp (-t) = 1
    rw [← Complex.exp_add, add_neg_cancel, Complex.exp_zero]

/-! ## two sources -/

/-- A source behind 30 Ω, a second source and 10 Ω to ground. -/
noncomputable def rxNet : Net ℕ ℂ :=
  { els := [.currentSource 0 (20, none) (jxPort 0), .two (.resistor 30) (jxPort 1) (jxPort 2),
      .currentSource 0 (21, none) (jxPort 3), .one (.resistor 10) (jxPort 4), .connection [jxPort 5, jxPort 6, jxPort 7]]
    flucts := []
    meters := []
    bonds := [(jxPort 0, jxPort 1), (jxPort 2, jxPort 5), (jxPort 3, jxPort 6), (jxPort 4, jxPort 7)] }

theorem rxNet_WF : rxNet.WF where
  nodup := by decide
  base := by decide
  ends := by decide
  bonded := by decide
  flucts := by decide
  meters := fun m hm => by cases hm
  outputs := by decide
  output := fun m hm => by cases hm

theorem rx_couplings : ∃ cs, rxNet.couplings jxEnv = .ok cs := by
  have h1 : ∀ k : ℤ, ∃ v, OnePort.S11 jxEnv (jxEnv.freq k) (.resistor 10) = .ok v :=
    fun k => ⟨_, if_neg (by simp only [jxEnv, resistor_impedance]; norm_num)⟩
  have h2 : ∀ k : ℤ, ∃ v, TwoPort.Sr jxEnv (jxEnv.freq k) (.resistor 30) = .ok v :=
    fun k => ⟨_, if_neg (by simp only [jxEnv, resistor_impedance]; norm_num)⟩
  have h3 : ∀ k : ℤ, ∃ v, TwoPort.St jxEnv (jxEnv.freq k) (.resistor 30) = .ok v :=
    fun k => ⟨_, if_neg (by simp only [jxEnv, resistor_impedance]; norm_num)⟩
  refine blocks_all ?_
  simp only [rxNet, List.map_cons, List.map_nil, List.append_nil, List.forall_mem_cons]
  refine ⟨blocks_all ?_, blocks_all ?_, blocks_all ?_, per_key_all h1, blocks_all ?_, by simp⟩
  · simp only [List.forall_mem_cons]
    exact ⟨per_key_all fun k => ⟨_, rfl⟩, ⟨_, rfl⟩, per_key_all fun k => ⟨_, rfl⟩, by simp⟩
  · simp only [List.forall_mem_cons]
    exact ⟨per_key_all h2, per_key_all h3, per_key_all h3, per_key_all h2, by simp⟩
  · simp only [List.forall_mem_cons]
    exact ⟨per_key_all fun k => ⟨_, rfl⟩, ⟨_, rfl⟩, per_key_all fun k => ⟨_, rfl⟩, by simp⟩
  · intro b hb
    obtain ⟨p1, -, hb⟩ := List.mem_flatMap.1 hb
    obtain ⟨p2, -, rfl⟩ := List.mem_map.1 hb
    refine per_key_all fun k => ?_
    split_ifs
    · exact ⟨_, if_neg (by simp)⟩
    · exact ⟨_, if_neg (by simp)⟩

theorem rx_links : ∃ g, rxNet.links jxPorts 5 = .ok (some g) := by
  have : isLink (rxNet.links jxPorts 5) = true := by decide +kernel
  cases h : rxNet.links jxPorts 5 with
  | error e => rw [h] at this; cases this
  | ok r =>
    cases r with
    | none => rw [h] at this; cases this
    | some g => exact ⟨g, rfl⟩

theorem rx_ready (hcs : rxNet.couplings jxEnv = .ok cs) (hl : rxNet.links jxPorts 5 = .ok (some g)) :
    Ready rxNet jxEnv cs jxPorts 5 g 1 where
  cs := hcs
  links := hl
  wf := rxNet_WF
  nodup := by
    intro p
    rcases jxKeys p with h | h <;> rw [h] <;> decide
  keys := fun _ => rfl
  Ze := by
    change (50 : ℂ) ≠ 0
    norm_num
  two := by norm_num
  nodes := by decide
  flucts := by decide
  signals := by
    simp only [rxNet, List.forall_mem_cons]
    refine ⟨by decide, fun q hq => (by cases hq), by decide, fun q hq => (by cases hq), fun q hq => (by cases hq), by simp⟩

/-- Voltages and currents at the ports for the currents `a` and `b` of the sources. -/
noncomputable def rxV (a b : ℂ) (m : ℕ) : ℂ := if m < 2 then 10 * (a + b) + 30 * a else 10 * (a + b)

noncomputable def rxI (a b : ℂ) : ℕ → ℂ
  | 0 => -a | 1 => a | 2 => -a | 5 => a | 3 => -b | 6 => b | 4 => a + b | 7 => -(a + b) | _ => 0

noncomputable def rxField (a b : ℂ) (t : Key ℕ × ℤ) : ℂ :=
  if t.1 = (20, none) then a else if t.1 = (21, none) then b
  else if t.1.1 % 2 = 0 then (rxV a b (t.1.1 / 2) + 50 * rxI a b (t.1.1 / 2)) / 2
  else (rxV a b (t.1.1 / 2) - 50 * rxI a b (t.1.1 / 2)) / 2

theorem rx_V (a b : ℂ) (m : ℕ) (hm : m < 8) : rxNet.V (rxField a b) 1 (jxPort m) = rxV a b m ∧
    rxNet.I jxEnv (rxField a b) 1 (jxPort m) = rxI a b m := by
  unfold Net.V Net.I
  have e1 : ((2 * m, (none : Option ℤ)) : Key ℕ) ≠ (20, none) := fun h => by have := congrArg Prod.fst h; simp at this; omega
  have e2 : ((2 * m, (none : Option ℤ)) : Key ℕ) ≠ (21, none) := fun h => by have := congrArg Prod.fst h; simp at this; omega
  have e3 : ((2 * m + 1, (none : Option ℤ)) : Key ℕ) ≠ (20, none) := fun h => by have := congrArg Prod.fst h; simp at this; omega
  have e4 : ((2 * m + 1, (none : Option ℤ)) : Key ℕ) ≠ (21, none) := fun h => by have := congrArg Prod.fst h; simp at this; omega
  have d1 : 2 * m % 2 = 0 := by omega
  have d2 : (2 * m + 1) % 2 = 1 := by omega
  have d3 : 2 * m / 2 = m := by omega
  have d4 : (2 * m + 1) / 2 = m := by omega
  have v : rxNet.vn (rxField a b) 1 (jxPort m) = 0 := rfl
  have c : rxNet.cn (rxField a b) 1 (jxPort m) = 0 := rfl
  rw [v, c]
  simp only [rxField, jxPort, if_neg e1, if_neg e2, if_neg e3, if_neg e4, d1, d2, d3, d4, jxEnv]
  constructor
  · norm_num
    ring
  · norm_num
    ring

theorem rx_sol (hcs : rxNet.couplings jxEnv = .ok cs) (hl : rxNet.links jxPorts 5 = .ok (some g)) (a b : ℂ) :
    Sol rxNet g cs (rxField a b) 1 := by
  have hr := rx_ready hcs hl
  have hdc : (1 : ℤ) ≠ jxEnv.dc := by decide
  have v : ∀ p, rxNet.vn (rxField a b) 1 p = 0 := fun _ => rfl
  have c : ∀ p, rxNet.cn (rxField a b) 1 p = 0 := fun _ => rfl
  have V := fun m hm => (rx_V a b m hm).1
  have I := fun m hm => (rx_V a b m hm).2
  refine (C55_circuit hr.cs hr.links hr.wf hr.nodup hr.keys hr.Ze hr.two hr.nodes hr.flucts hr.signals _).2 ⟨?_, ?_, ?_⟩
  · change ∀ ab ∈ [(_, _), (_, _), (_, _), (_, _)], _
    simp only [List.forall_mem_cons]
    rw [V 0 (by decide), V 1 (by decide), V 2 (by decide), V 3 (by decide), V 4 (by decide), V 5 (by decide),
      V 6 (by decide), V 7 (by decide), I 0 (by decide), I 1 (by decide), I 2 (by decide), I 3 (by decide),
      I 4 (by decide), I 5 (by decide), I 6 (by decide), I 7 (by decide)]
    simp [rxV, rxI]
  · change ∀ el ∈ [_, _, _, _, _], _
    simp only [List.forall_mem_cons]
    simp only [Elem.Law, v, c, if_neg hdc, List.forall_mem_cons, List.map_cons, List.map_nil, List.sum_cons, List.sum_nil]
    rw [V 1 (by decide), V 2 (by decide), V 4 (by decide), V 5 (by decide),
      V 6 (by decide), V 7 (by decide), I 0 (by decide), I 1 (by decide), I 2 (by decide), I 3 (by decide),
      I 4 (by decide), I 5 (by decide), I 6 (by decide), I 7 (by decide)]
    simp [rxV, rxI, rxField]
  · intro t ht
    cases ht

theorem rx_driven1 : Driven rxNet (20, none) (rxField 1 0) 1 := by
  refine ⟨?_, fun f hf => (by cases hf)⟩
  change ∀ el ∈ [_, _, _, _, _], _
  simp [Elem.signals, rxField]

theorem rx_driven2 : Driven rxNet (21, none) (rxField 0 1) 1 := by
  refine ⟨?_, fun f hf => (by cases hf)⟩
  change ∀ el ∈ [_, _, _, _, _], _
  simp [Elem.signals, rxField]

/-- The hypotheses of `C79_reciprocity` hold: each source makes 10 V at the other one, and 40 V or 10 V at itself. -/
example : ∃ cs g, rxNet.couplings jxEnv = .ok cs ∧ rxNet.links jxPorts 5 = .ok (some g) ∧
    rxNet.V (rxField 1 0) 1 (jxPort 3) = rxNet.V (rxField 0 1) 1 (jxPort 0) ∧
    rxNet.V (rxField 1 0) 1 (jxPort 3) = 10 ∧ rxNet.V (rxField 1 0) 1 (jxPort 0) = 40 := by
  obtain ⟨cs, hcs⟩ := rx_couplings
  obtain ⟨g, hl⟩ := rx_links
  refine ⟨cs, g, hcs, hl, ?_, ?_, ?_⟩
  · refine C79_reciprocity (i1 := 0) (i2 := 0) (q1 := (20, none)) (q2 := (21, none)) (rx_ready hcs hl)
      (fun f hf => (by cases hf)) ?_ (by decide) (by simp [rxNet]) (by simp [rxNet]) ?_ ?_
      (rx_sol hcs hl 1 0) (rx_sol hcs hl 0 1) rx_driven1 rx_driven2
    · change ∀ el ∈ [_, _, _, _, _], _
      simp [Elem.Reciprocal]
    · change ∀ el ∈ [_, _, _, _, _], _
      simp [Elem.signals, Elem.ports]
    · change ∀ el ∈ [_, _, _, _, _], _
      simp [Elem.signals, Elem.ports]
  · rw [(rx_V _ _ _ (by decide)).1]
    simp [rxV]
  · rw [(rx_V _ _ _ (by decide)).1]
    simp [rxV]
    norm_num

end Noise
