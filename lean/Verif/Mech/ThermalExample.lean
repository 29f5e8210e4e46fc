import Verif.Mech.ThermalProps
import Verif.Noise.JohnsonExample

/-!
# C92: a damper and a spring with a loss angle, driven by a force
-/

set_option linter.unusedSectionVars false

namespace Noise
open Py Circuit Inject

variable {t : Mob ℂ} {cs : List (Coupling (Key ℕ) ℤ ℂ)} {g : SR (Key ℕ × ℤ)}

/-- A force source at a damper, a spring or a mass. -/
noncomputable def mxNet (t : Mob ℂ) : Net ℕ ℂ :=
  { els := [.currentSource 0 (20, none) (jxPort 0), .mech (.one t (jxPort 1))]
    flucts := [⟨true, (21, none), jxPort 1⟩]
    meters := [.volt (jxPort 0) none (22, none)]
    bonds := [(jxPort 0, jxPort 1)] }

noncomputable def mxSrc (t : Mob ℂ) : MSrc ℕ := ⟨(21, none), jxPort 1, t⟩

/-- The waves are defined at all keys and the stiffness does not vanish at the frequencies `±1`. -/
structure MxOk (t : Mob ℂ) : Prop where
  S : ∀ k : ℤ, 1 + t.mobility jxEnv (jxEnv.freq k) * jxEnv.Ze ≠ 0
  K : ∀ k : ℤ, k = 1 ∨ k = -1 → t.Stiffness jxEnv k ≠ 0

theorem mxNet_WF : (mxNet t).WF where
  nodup := by
    change ((mxNet (.mass 0)).nodes).Nodup
    decide
  base := by
    change ∀ q ∈ (mxNet (.mass 0)).nodes, _
    decide
  ends := by
    change ∀ ab ∈ (mxNet (.mass 0)).bonds, ab.1 ∈ (mxNet (.mass 0)).ports ∧ ab.2 ∈ (mxNet (.mass 0)).ports
    decide
  bonded := by
    change ∀ p ∈ (mxNet (.mass 0)).ports, ∃ ab ∈ (mxNet (.mass 0)).bonds, p = ab.1 ∨ p = ab.2
    decide
  flucts := by
    change ∀ f ∈ (mxNet (.mass 0)).flucts, f.port ∈ (mxNet (.mass 0)).ports
    decide
  meters := by
    intro m hm
    rcases List.mem_singleton.1 hm with rfl
    change ∀ p ∈ _, p ∈ (mxNet (.mass 0)).ports
    decide
  outputs := by
    change ((mxNet (.mass 0)).meters.map Meter.target).Nodup
    decide
  output := by
    intro m hm
    rcases List.mem_singleton.1 hm with rfl
    change _ ∉ (mxNet (.mass 0)).nodes ∧ _
    decide

theorem mx_couplings (h : MxOk t) : ∃ cs, (mxNet t).couplings jxEnv = .ok cs := by
  have h : ∀ k : ℤ, ∃ v, terminatorM jxEnv (t.mobility jxEnv (jxEnv.freq k)) = .ok v :=
    fun k => ⟨_, if_neg (h.S k)⟩
  refine blocks_all ?_
  simp only [mxNet, List.map_cons, List.map_nil, List.cons_append, List.nil_append, List.forall_mem_cons]
  refine ⟨blocks_all ?_, per_key_all h, ?_, ?_, by simp⟩
  · simp only [List.forall_mem_cons]
    exact ⟨per_key_all fun k => ⟨_, rfl⟩, ⟨_, rfl⟩, per_key_all fun k => ⟨_, rfl⟩, by simp⟩
  · unfold Fluct.setup
    rw [if_pos rfl]
    refine blocks_all ?_
    simp only [List.forall_mem_cons]
    exact ⟨per_key_all fun k => ⟨_, rfl⟩, per_key_all fun k => ⟨_, rfl⟩, by simp⟩
  · refine blocks_all ?_
    simp only [List.append_nil, List.forall_mem_cons]
    exact ⟨per_key_all fun k => ⟨_, rfl⟩, per_key_all fun k => ⟨_, rfl⟩, by simp⟩

theorem mx_links : ∃ g, (mxNet t).links jxPorts 5 = .ok (some g) := by
  obtain ⟨g, hg⟩ := jx_links
  exact ⟨g, hg⟩

/-- The displacement for a unit force. -/
noncomputable def mxC (t : Mob ℂ) (k : ℤ) : ℂ := 1 / t.Stiffness jxEnv k

/-- The fields for a force `s` of the source and a fluctuation `v`, which may depend on the key. -/
noncomputable def mxField (t : Mob ℂ) (s v : ℤ → ℂ) (p : Key ℕ × ℤ) : ℂ :=
  if p.1 = (0, none) then (mxC t p.2 * s p.2 - v p.2 - 50 * s p.2) / 2
  else if p.1 = (1, none) then (mxC t p.2 * s p.2 - v p.2 + 50 * s p.2) / 2
  else if p.1 = (2, none) then (mxC t p.2 * s p.2 - v p.2 + 50 * s p.2) / 2 + v p.2 / 2
  else if p.1 = (3, none) then (mxC t p.2 * s p.2 - v p.2 - 50 * s p.2) / 2
  else if p.1 = (0, some (-1)) then (mxC t p.2 * s p.2 - v p.2 - 50 * s p.2) / 2
  else if p.1 = (1, some 1) then (mxC t p.2 * s p.2 - v p.2 + 50 * s p.2) / 2
  else if p.1 = (20, none) then s p.2
  else if p.1 = (21, none) then v p.2
  else if p.1 = (22, none) then mxC t p.2 * s p.2 - v p.2
  else 0

theorem mx_ready (hcs : (mxNet t).couplings jxEnv = .ok cs) (hl : (mxNet t).links jxPorts 5 = .ok (some g)) {k : ℤ}
    (hk : k = 1 ∨ k = -1) : Ready (mxNet t) jxEnv cs jxPorts 5 g k where
  cs := hcs
  links := hl
  wf := mxNet_WF
  nodup := by
    intro p
    rcases jxKeys p with h | h <;> rw [h] <;> decide
  keys := fun _ => rfl
  Ze := by
    change (50 : ℂ) ≠ 0
    norm_num
  two := by norm_num
  nodes := by
    change ∀ q ∈ (mxNet (.mass 0)).nodes, _
    rcases hk with rfl | rfl <;> decide
  flucts := by
    change ∀ q ∈ (mxNet (.mass 0)).flucts, _
    rcases hk with rfl | rfl <;> decide
  signals := by
    intro el hel
    rcases List.mem_cons.1 hel with rfl | hel
    · rcases hk with rfl | rfl <;> decide
    · rcases List.mem_singleton.1 hel with rfl
      intro q hq
      cases hq

theorem mx_vn (s v : ℤ → ℂ) (k : ℤ) : (mxNet t).vn (mxField t s v) k (jxPort 0) = 0 ∧
    (mxNet t).vn (mxField t s v) k (jxPort 1) = v k ∧ ∀ p, (mxNet t).cn (mxField t s v) k p = 0 := by
  refine ⟨?_, ?_, ?_⟩
  · simp [Net.vn, mxNet, jxPort]
  · simp [Net.vn, mxNet, jxPort, mxField]
  · simp [Net.cn, mxNet]

theorem mx_VI (s v : ℤ → ℂ) (k : ℤ) :
    (mxNet t).V (mxField t s v) k (jxPort 0) = mxC t k * s k - v k ∧
    (mxNet t).V (mxField t s v) k (jxPort 1) = mxC t k * s k - v k ∧
    (mxNet t).I jxEnv (mxField t s v) k (jxPort 0) = -s k ∧ (mxNet t).I jxEnv (mxField t s v) k (jxPort 1) = s k := by
  obtain ⟨h0, h1, h2⟩ := mx_vn (t := t) s v k
  unfold Net.V Net.I
  rw [h0, h1, h2, h2]
  refine ⟨?_, ?_, ?_, ?_⟩
  · simp only [mxField, jxPort]
    norm_num
    ring
  · simp only [mxField, jxPort]
    norm_num
    ring
  · simp only [mxField, jxPort, jxEnv]
    norm_num
    ring
  · simp only [mxField, jxPort, jxEnv]
    norm_num
    ring

theorem mx_sol (ht : MxOk t) (hcs : (mxNet t).couplings jxEnv = .ok cs)
    (hl : (mxNet t).links jxPorts 5 = .ok (some g)) {k : ℤ}
    (hk : k = 1 ∨ k = -1) (s v : ℤ → ℂ) : Sol (mxNet t) g cs (mxField t s v) k ∧
      NodeEq g cs (mxField t s v) ((22, none), k) := by
  have hr := mx_ready hcs hl hk
  obtain ⟨v0, v1, v2, v3⟩ := mx_VI (t := t) s v k
  obtain ⟨h0, h1, h2⟩ := mx_vn (t := t) s v k
  have hdc : k ≠ jxEnv.dc := by rcases hk with rfl | rfl <;> decide
  constructor
  · refine (C55_circuit hr.cs hr.links hr.wf hr.nodup hr.keys hr.Ze hr.two hr.nodes hr.flucts hr.signals _).2 ⟨?_, ?_, ?_⟩
    · intro ab hab
      rcases List.mem_singleton.1 hab with rfl
      dsimp only
      rw [v0, v1, v2, v3]
      exact ⟨rfl, by ring⟩
    · intro el hel
      rcases List.mem_cons.1 hel with rfl | hel
      · simp only [Elem.Law, if_neg hdc, h2, v2]
        simp [mxField]
      · rcases List.mem_singleton.1 hel with rfl
        simp only [Elem.Law, Mech.Law, h1, h2, v1, v3, mxC]
        have := ht.K k hk
        field_simp
        ring
    · intro p hp
      have : p = jxPort 0 := by simpa [mxNet, Meter.terminals] using hp
      subst this
      rw [v0, v2]
      constructor
      · simp [mxField, preposed, jxPort, jxEnv]
        ring
      · simp [mxField, posted, jxPort, jxEnv]
  · obtain ⟨e, he, h⟩ := meter_node (k := k) hr.cs hr.links hr.wf (m := .volt (jxPort 0) none (22, none)) (by simp [mxNet])
    refine (h _).2 ?_
    change voltage_readout_setup jxEnv (preposed (jxPort 0).i) (posted (jxPort 0).o) none (22, none) = .ok e at he
    unfold voltage_readout_setup at he
    obtain ⟨c1, _, hb1, g1, rfl⟩ := blocks_cons he
    obtain ⟨c2, _, hb2, g2, rfl⟩ := blocks_cons g1
    obtain rfl := blocks_nil g2
    obtain ⟨_, hv1, e1⟩ := per_key_into hb1 (hr.nodup _) (by rcases hk with rfl | rfl <;> decide : k ∈ _); cases hv1
    obtain ⟨_, hv2, e2⟩ := per_key_into hb2 (hr.nodup _) (by rcases hk with rfl | rfl <;> decide : k ∈ _); cases hv2
    change _ = total _ _ ((22, none), k)
    rw [total_append, total_append, total_nil, e1, e2, if_pos rfl, if_pos rfl]
    simp [mxField, preposed, posted, jxPort, Meter.target]
    ring

theorem mx_responses (ht : MxOk t) (hcs : (mxNet t).couplings jxEnv = .ok cs)
    (hl : (mxNet t).links jxPorts 5 = .ok (some g)) {k : ℤ}
    (hk : k = 1 ∨ k = -1) (d : ℤ) : Responses (mxNet t) g cs jxCm ([mxSrc t].map MSrc.src) (22, none) d k := by
  intro j hj
  rcases List.mem_singleton.1 hj with rfl
  obtain ⟨h1, h2⟩ := mx_sol ht hcs hl hk (fun _ => 0) (fun k' => if k' = d then 1 else 0)
  refine ⟨_, h1, h2, ?_, ?_, ?_⟩
  · intro el hel s hs
    rcases List.mem_cons.1 hel with rfl | hel
    · rcases List.mem_singleton.1 hs with rfl
      simp [mxField]
    · rcases List.mem_singleton.1 hel with rfl
      cases hs
  · intro j' hj'
    rcases List.mem_singleton.1 hj' with rfl
    simp [mxField, mxSrc, MSrc.src]
  · by_cases hd : k = d
    · subst hd
      rcases hk with rfl | rfl <;> simp [mxField, resp, jxCm, mxSrc, MSrc.src, Dict.get?]
    · rcases hk with rfl | rfl
      · simp [mxField, resp, jxCm, mxSrc, MSrc.src, Dict.get?, hd]
      · simp [mxField, resp, jxCm, mxSrc, MSrc.src, Dict.get?, hd]

theorem mx_driven (k : ℤ) : Driven (mxNet t) (20, none) (mxField t (fun _ => 1) (fun _ => 0)) k := by
  constructor
  · intro el hel s hs
    rcases List.mem_cons.1 hel with rfl | hel
    · rcases List.mem_singleton.1 hs with rfl
      simp [mxField]
    · rcases List.mem_singleton.1 hel with rfl
      cases hs
  · intro f hf
    rcases List.mem_singleton.1 hf with rfl
    simp [mxField]

theorem mx_warm (ht : Mob.noisy t = true) : MWarm (mxNet t) [mxSrc t] where
  sources := by
    change _ = List.filterMap mjohnson [_, _]
    rw [List.filterMap_cons_none rfl, List.filterMap_cons_some
      (show mjohnson (.mech (.one t (jxPort 1))) = some (jxPort 1, t) from if_pos ht)]
    rfl
  flucts := rfl
  virt := by simp

theorem mx_only : ∀ el ∈ (mxNet t).els, (20, none) ∈ el.signals → jxPort 0 ∈ el.ports := by
  intro el hel hs
  rcases List.mem_cons.1 hel with rfl | hel
  · simp [Elem.ports]
  · rcases List.mem_singleton.1 hel with rfl
    cases hs

theorem mx_env : MEnv jxEnv 1 (-1) 6 where
  Ze := by simp [jxEnv]
  i := rfl
  i2pi := by simp [jxEnv]; ring
  freq := by simp [jxEnv]; norm_num
  neg := by simp [jxEnv]
  om := by norm_num

theorem mx_mechanical (ht : MxOk t) : ∀ el ∈ (mxNet t).els, el.Mechanical jxEnv 1 (-1) := by
  intro el hel
  rcases List.mem_cons.1 hel with rfl | hel
  · trivial
  · rcases List.mem_singleton.1 hel with rfl
    exact ⟨ht.K 1 (Or.inl rfl), ht.K (-1) (Or.inr rfl)⟩

theorem mx_real (ht : MobReal jxEnv 1 (-1) t) : ∀ el ∈ (mxNet t).els, MechReal jxEnv 1 (-1) el := by
  intro el hel
  rcases List.mem_cons.1 hel with rfl | hel
  · trivial
  · rcases List.mem_singleton.1 hel with rfl
    exact ht

theorem mx_map [DecidableEq (MSrc ℕ)] :
    ∃ st, noise_map (jxPorts : Dict (Key ℕ) (List ℤ)) id (mjohnson_calls jxEnv.keys (fun k => -k) [mxSrc t]) = .ok st := by
  rw [C77_noise_map.1]
  intro c hc pk hpk
  obtain ⟨j, hj, hc⟩ := List.mem_flatMap.1 hc
  rcases List.mem_singleton.1 hj with rfl
  obtain ⟨k, hk, rfl⟩ := List.mem_map.1 hc
  refine ⟨[0, 1, -1], ?_, ?_⟩
  · rcases hpk with rfl | rfl <;> rfl
  · have hk' : k ∈ [0, 1, (-1 : ℤ)] := hk
    simp only [List.mem_cons, List.not_mem_nil, or_false] at hk'
    rcases hpk with rfl | rfl <;> rcases hk' with rfl | rfl | rfl <;> simp

/-- a damper of 2 Ns/m -/
theorem mx_damper : MxOk (.damper 2) where
  S := by
    intro k h
    have := congrArg Complex.re h
    simp [Mob.mobility, jxEnv] at this
  K := by
    rintro k (rfl | rfl) <;> simp [Mob.Stiffness, jxEnv]

/-- The hypotheses of `C92_fluctuation_dissipation` hold for a force source at a damper. -/
example {kB T : ℝ} {d : DecidableEq (MSrc ℕ)} {d' : DecidableEq (Src ℕ)} : ∃ cs g st,
    (mxNet (.damper 2)).couplings jxEnv = .ok cs ∧ (mxNet (.damper 2)).links jxPorts 5 = .ok (some g) ∧
    noise_map (jxPorts : Dict (Key ℕ) (List ℤ)) id (mjohnson_calls jxEnv.keys (fun k => -k) [mxSrc (.damper 2)]) = .ok st ∧
    AC_PSD () (CSD_builds [((), (22, none))] 1 (-1) 2 (mjohnson_2pt jxEnv kB T) jxCm st.nmap) =
      .ok ((4 * kB * T / (2 * 6 ^ 2) : ℝ) : ℂ) := by
  obtain ⟨cs, hcs⟩ := mx_couplings mx_damper
  obtain ⟨g, hl⟩ := mx_links (t := .damper 2)
  obtain ⟨st, hst⟩ := mx_map (t := .damper 2)
  refine ⟨cs, g, st, hcs, hl, hst, ?_⟩
  have hr1 := mx_ready hcs hl (k := 1) (Or.inl rfl)
  have hr2 := mx_ready hcs hl (k := -1) (Or.inr rfl)
  have := C92_fluctuation_dissipation (kB := kB) (T := T) (port_map := [((), (22, none))]) (R := ()) (i0 := 0)
    (A := jxPort 0) (q := (20, none)) hr1 hr2 (mx_warm rfl) (mx_mechanical mx_damper) (by decide) (by decide) mx_env
    (mx_real (by simp [MobReal])) (by simp [mxSrc]) (by simp [mxNet]) mx_only
    (by simp [mxNet]) (mx_sol mx_damper hcs hl (Or.inl rfl) (fun _ => 1) (fun _ => 0)).1 (mx_driven 1) (by decide) hst
    (by decide) (mx_responses mx_damper hcs hl (Or.inl rfl)) (mx_responses mx_damper hcs hl (Or.inr rfl)) (adjust := 2)
    (by simp [adjust_PSD]) (by decide) rfl
  rw [this, (mx_VI _ _ _).1]
  congr 2
  have : mxC (.damper 2) 1 * 1 - 0 = ((-(1 / 12) : ℝ) : ℂ) * Complex.I := by
    simp only [mxC, Mob.Stiffness, jxEnv]
    have := Complex.I_ne_zero
    push_cast
    field_simp
    linear_combination (12 : ℂ) * Complex.I_sq
  rw [this]
  simp
  ring

/-- a spring of 2 N/m with a loss angle of 1 at the frequency 1 -/
theorem mx_spring : MxOk (.spring 2 (some fun f => f)) where
  S := by
    intro k h
    have := congrArg Complex.re h
    simp [Mob.mobility, jxEnv] at this
    norm_num at this
  K := by
    rintro k (rfl | rfl) h
    · have := congrArg Complex.re h
      simp [Mob.Stiffness, jxEnv] at this
    · have := congrArg Complex.re h
      simp [Mob.Stiffness, jxEnv] at this

/-- **C92** fails for springs with a loss angle: the noise of a spring with the loss angle 1 is twice what the
fluctuation-dissipation theorem demands. -/
theorem C92_loss_angle_refuted {kB T : ℝ} (h0 : kB * T ≠ 0) {d : DecidableEq (MSrc ℕ)} : ∃ cs g st t z,
    (mxNet t).couplings jxEnv = .ok cs ∧ (mxNet t).links jxPorts 5 = .ok (some g) ∧ Sol (mxNet t) g cs z 1 ∧
    Driven (mxNet t) (20, none) z 1 ∧ MWarm (mxNet t) [mxSrc t] ∧
    noise_map (jxPorts : Dict (Key ℕ) (List ℤ)) id (mjohnson_calls jxEnv.keys (fun k => -k) [mxSrc t]) = .ok st ∧
    (∀ k d, k = 1 ∨ k = -1 → Responses (mxNet t) g cs jxCm ([mxSrc t].map MSrc.src) (22, none) d k) ∧
    -(4 * kB * T / 6) * ((mxNet t).V z 1 (jxPort 0)).im = kB * T / 6 ∧
    AC_PSD () (CSD_builds [((), (22, none))] 1 (-1) 2 (mjohnson_2pt jxEnv kB T) jxCm st.nmap) =
      .ok ((2 * (kB * T / 6) : ℝ) : ℂ) ∧
    AC_PSD () (CSD_builds [((), (22, none))] 1 (-1) 2 (mjohnson_2pt jxEnv kB T) jxCm st.nmap) ≠
      .ok ((-(4 * kB * T / 6) * ((mxNet t).V z 1 (jxPort 0)).im : ℝ) : ℂ) := by
  classical
  obtain ⟨cs, hcs⟩ := mx_couplings mx_spring
  obtain ⟨g, hl⟩ := mx_links (t := .spring 2 (some fun f => f))
  obtain ⟨st, hst⟩ := mx_map (t := .spring 2 (some fun f => f))
  have hr1 := mx_ready hcs hl (k := 1) (Or.inl rfl)
  have hr2 := mx_ready hcs hl (k := -1) (Or.inr rfl)
  have hsol := (mx_sol mx_spring hcs hl (Or.inl rfl) (fun _ => 1) (fun _ => 0)).1
  have key := C92_excess (kB := kB) (T := T) (port_map := [((), (22, none))]) (R := ()) (i0 := 0)
    (A := jxPort 0) (q := (20, none)) hr1 hr2 (mx_warm rfl) (mx_mechanical mx_spring) (by decide) (by decide) mx_env
    (mx_real (by simp [MobReal, jxEnv])) (by simp [mxNet]) mx_only
    (by simp [mxNet]) hsol (mx_driven 1) (by decide) hst
    (by decide) (mx_responses mx_spring hcs hl (Or.inl rfl)) (mx_responses mx_spring hcs hl (Or.inr rfl)) (adjust := 2)
    (by simp [adjust_PSD]) (by decide) rfl
  have hV : ((mxNet (.spring 2 (some fun f => f))).V (mxField (.spring 2 (some fun f => f)) (fun _ => 1) (fun _ => 0)) 1
      (jxPort 0)).im = -(1 / 4) := by
    rw [(mx_VI _ _ _).1]
    have : mxC (.spring 2 (some fun f => f)) 1 * 1 - 0 = ((1 / 4 : ℝ) : ℂ) - ((1 / 4 : ℝ) : ℂ) * Complex.I := by
      have h0 := mx_spring.K 1 (Or.inl rfl)
      simp only [mxC]
      rw [mul_one, sub_zero, div_eq_iff h0]
      simp only [Mob.Stiffness, jxEnv]
      push_cast
      linear_combination (1 / 2 : ℂ) * Complex.I_sq
    rw [this]
    simp
  have hval : AC_PSD () (CSD_builds [((), (22, none))] 1 (-1) 2 (mjohnson_2pt jxEnv kB T) jxCm st.nmap) =
      .ok ((2 * (kB * T / 6) : ℝ) : ℂ) := by
    rw [key]
    congr 2
    rw [hV]
    simp only [List.map_cons, List.map_nil, List.sum_cons, List.sum_nil, mxSrc, (mx_VI _ _ _).2.2.2]
    simp only [excess, jxEnv]
    norm_num
    ring
  refine ⟨cs, g, st, .spring 2 (some fun f => f), _, hcs, hl, hsol, mx_driven 1, mx_warm rfl, hst,
    fun k d hk => mx_responses mx_spring hcs hl hk d, ?_, hval, ?_⟩
  · rw [hV]
    ring
  · rw [hval, hV]
    intro h
    injection h with h
    have h := Complex.ofReal_injective h
    apply h0
    linarith

end Noise
