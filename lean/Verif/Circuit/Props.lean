import Mathlib.Algebra.Field.Rat
import Mathlib.Algebra.Order.Ring.Rat
import Verif.Mech.Elements

/-!
# C42: the elements obey the circuit laws
-/

set_option linter.unusedSectionVars false

namespace Circuit
open Py Inject

variable {P K F : Type} [DecidableEq P] [DecidableEq K] [Field F] [DecidableEq F]

/-- The waves leaving an element are the sums of the couplings it inserts exactly when its law holds.  `b` are the
waves leaving the element (at the key `k`), before anything else is added to them. -/
theorem C42_element {env : Env P K F} {el : Elem P F} {cs : List (Coupling P K F)} (h : el.setup env = .ok cs)
    (hn : ∀ p, (env.keys p).Nodup) (hZe : env.Ze ≠ 0) (h2 : (2 : F) ≠ 0) {k : K}
    (hk : ∀ p ∈ el.ports, k ∈ env.keys p.i) (hs : ∀ p ∈ el.signals, k ∈ env.keys p)
    (hd : (el.ports.map Port.o).Nodup) (x : P × K → F) (b : P → F) :
    (∀ p ∈ el.ports, b p.o = total cs x (p.o, k)) ↔
    el.Law env k (fun p => x (p.i, k) + b p.o) (fun p => (x (p.i, k) - b p.o) / env.Ze) (fun q => x (q, k)) := by
  cases el with
  | one t A =>
    replace h : setup1 env (fun f => t.S11 env f) A = .ok cs := h
    obtain ⟨r, hr, hx⟩ := setup1_into h hn (hk A (by simp [Elem.ports]))
    simp only [Elem.ports, List.mem_singleton, forall_eq, hx, if_true]
    cases t with
    | resistor R =>
      obtain ⟨h3, rfl⟩ := pdiv_ok hr
      exact law_impedance hZe h3
    | capacitor C =>
      obtain ⟨h3, rfl⟩ := pdiv_ok hr
      exact law_admittance hZe h3
    | inductor R L =>
      obtain ⟨h3, rfl⟩ := pdiv_ok hr
      exact law_impedance hZe h3
    | matched =>
      cases hr
      show _ ↔ _ = env.Ze * (_ / _)
      rw [mul_div_cancel₀ _ hZe]
      constructor
      · intro h; linear_combination 2 * h
      · intro h; apply mul_left_cancel₀ h2; linear_combination h
    | opened =>
      cases hr
      show _ ↔ _ / _ = _
      rw [div_eq_zero_iff, or_iff_left hZe]
      constructor <;> intro h <;> linear_combination -h
    | shorted =>
      cases hr
      show _ ↔ _ + _ = (0 : F)
      constructor <;> intro h <;> linear_combination h
  | two t A B =>
    have hAB : A.o ≠ B.o := by
      intro he
      simp [Elem.ports, he] at hd
    replace h : setup2 env (fun f => t.Sr env f) (fun f => t.St env f) (fun f => t.St env f) (fun f => t.Sr env f)
      A B = .ok cs := h
    obtain ⟨r, u, u', r', hr, hu, hu', hr', hx⟩ := setup2_into h hn (hk A (by simp [Elem.ports]))
      (hk B (by simp [Elem.ports])) hAB
    have e : (∀ p ∈ [A, B], b p.o = total cs x (p.o, k)) ↔
        (b A.o = r * x (A.i, k) + u' * x (B.i, k) ∧ b B.o = u * x (A.i, k) + r' * x (B.i, k)) := by
      simp only [List.mem_cons, List.not_mem_nil, or_false, forall_eq_or_imp, forall_eq, (hx x).1, (hx x).2]
    refine e.trans ?_
    rw [hr] at hr'
    injection hr' with hr'
    rw [hu] at hu'
    injection hu' with hu'
    subst hr'
    subst hu'
    cases t with
    | resistor R =>
      obtain ⟨h3, rfl⟩ := pdiv_ok hr
      obtain ⟨-, rfl⟩ := pdiv_ok hu
      exact law_series_impedance hZe h3
    | capacitor C =>
      obtain ⟨h3, rfl⟩ := pdiv_ok hr
      obtain ⟨-, rfl⟩ := pdiv_ok hu
      exact law_series_admittance hZe h3
    | inductor R L =>
      obtain ⟨h3, rfl⟩ := pdiv_ok hr
      obtain ⟨-, rfl⟩ := pdiv_ok hu
      exact law_series_impedance hZe h3
  | connection ps =>
    have hc := fun q (hq : q ∈ ps) => connection_into h hn hk hd x hq
    have hN : ps ≠ [] → (ps.length : F) ≠ 0 := by
      intro hne
      cases ps with
      | nil => exact absurd rfl hne
      | cons q ps => exact (hc q List.mem_cons_self).1
    refine Iff.trans ?_ (law_connection (a := fun p => x (p.i, k)) (b := fun p => b p.o) hZe hN)
    exact forall_congr' (fun q => forall_congr' (fun hq => by rw [(hc q hq).2]))
  | cable l A B =>
    have hAB : A.o ≠ B.o := by
      intro he
      simp [Elem.ports, he] at hd
    replace h : cable_setup env l A B = .ok cs := h
    unfold cable_setup at h
    obtain ⟨c1, _, h1, g1, rfl⟩ := blocks_cons h
    obtain ⟨c2, _, h3, g2, rfl⟩ := blocks_cons g1
    obtain rfl := blocks_nil g2
    obtain ⟨v, hv, e1⟩ := per_key_into h1 (hn _) (hk A (by simp [Elem.ports]))
    obtain ⟨w, hw, e2⟩ := per_key_into h3 (hn _) (hk B (by simp [Elem.ports]))
    cases hv
    cases hw
    simp only [Elem.ports, List.mem_cons, List.not_mem_nil, or_false, forall_eq_or_imp, forall_eq, total_append,
      total_nil, e1, e2, if_true, if_neg hAB, if_neg (Ne.symm hAB), add_zero, zero_add, Elem.Law, phase_advance]
    simp only [mul_div_cancel₀ _ hZe]
    generalize env.exp (-2 * env.i * env.pi * env.freq k * l) = e
    constructor
    · rintro ⟨h4, h5⟩
      exact ⟨by linear_combination 2 * h5, by linear_combination 2 * h4⟩
    · rintro ⟨h4, h5⟩
      refine ⟨?_, ?_⟩
      · apply mul_left_cancel₀ h2; linear_combination h5
      · apply mul_left_cancel₀ h2; linear_combination h4
  | voltageSource V_DC V A =>
    replace h : voltage_source_setup env V_DC V A = .ok cs := h
    unfold voltage_source_setup at h
    obtain ⟨c1, _, h1, g1, rfl⟩ := blocks_cons h
    obtain ⟨c2, _, h3, g2, rfl⟩ := blocks_cons g1
    obtain ⟨c3, _, h4, g3, rfl⟩ := blocks_cons g2
    obtain rfl := blocks_nil g3
    obtain ⟨v, hv, e1⟩ := setup1_into h1 hn (hk A (by simp [Elem.ports]))
    have e2 := dc_into h3 id k
    obtain ⟨w, hw, e3⟩ := per_key_into h4 (hn _) (hs V (by simp [Elem.signals]))
    cases hv
    cases hw
    simp only [Elem.ports, List.mem_singleton, forall_eq, total_append, total_nil, e1, e2, e3, if_true, Elem.Law]
    constructor <;> intro h <;> linear_combination h
  | currentSource I_DC p A =>
    replace h : current_source_setup env I_DC p A = .ok cs := h
    unfold current_source_setup at h
    obtain ⟨c1, _, h1, g1, rfl⟩ := blocks_cons h
    obtain ⟨c2, _, h3, g2, rfl⟩ := blocks_cons g1
    obtain ⟨c3, _, h4, g3, rfl⟩ := blocks_cons g2
    obtain rfl := blocks_nil g3
    obtain ⟨v, hv, e1⟩ := setup1_into h1 hn (hk A (by simp [Elem.ports]))
    have e2 := dc_into h3 (fun h => by rw [h, zero_mul]) k
    obtain ⟨w, hw, e3⟩ := per_key_into h4 (hn _) (hs p (by simp [Elem.signals]))
    cases hv
    cases hw
    have hdc : (if k = env.dc then I_DC * env.Ze else 0) = (if k = env.dc then I_DC else 0) * env.Ze := by
      split_ifs <;> ring
    simp only [Elem.ports, List.mem_singleton, forall_eq, total_append, total_nil, e1, e2, e3, if_true, Elem.Law,
      div_eq_iff hZe, hdc]
    constructor <;> intro h <;> linear_combination -h
  | voltageSourceBalanced V_DC I_DC V p A B =>
    have hAB : A.o ≠ B.o := by
      intro he
      simp [Elem.ports, he] at hd
    replace h : voltage_source_balanced_setup env V_DC I_DC V p A B = .ok cs := h
    unfold voltage_source_balanced_setup at h
    obtain ⟨c1, _, h1, g1, rfl⟩ := blocks_cons h
    obtain ⟨c2, _, hb2, g2, rfl⟩ := blocks_cons g1
    obtain ⟨c3, _, hb3, g3, rfl⟩ := blocks_cons g2
    obtain ⟨c4, _, hb4, g4, rfl⟩ := blocks_cons g3
    obtain ⟨c5, _, hb5, g5, rfl⟩ := blocks_cons g4
    obtain ⟨c6, _, hb6, g6, rfl⟩ := blocks_cons g5
    obtain ⟨c7, _, hb7, g7, rfl⟩ := blocks_cons g6
    obtain ⟨c8, _, hb8, g8, rfl⟩ := blocks_cons g7
    obtain ⟨c9, _, hb9, g9, rfl⟩ := blocks_cons g8
    obtain rfl := blocks_nil g9
    obtain ⟨r, u, u', r', hr, hu, hu', hr', hx⟩ := setup2_into h1 hn (hk A (by simp [Elem.ports]))
      (hk B (by simp [Elem.ports])) hAB
    have e2 := dc_into hb2 (fun h => by rw [h, zero_div]) k
    have e3 := dc_into hb3 (fun h => by rw [h, neg_zero, zero_div]) k
    have e4 := dc_into hb4 (fun h => by rw [h, mul_zero, zero_div]) k
    have e5 := dc_into hb5 (fun h => by rw [h, mul_zero, zero_div]) k
    obtain ⟨_, hv, e6⟩ := per_key_into hb6 (hn _) (hs V (by simp [Elem.signals])); cases hv
    obtain ⟨_, hv, e7⟩ := per_key_into hb7 (hn _) (hs V (by simp [Elem.signals])); cases hv
    obtain ⟨_, hv, e8⟩ := per_key_into hb8 (hn _) (hs p (by simp [Elem.signals])); cases hv
    obtain ⟨_, hv, e9⟩ := per_key_into hb9 (hn _) (hs p (by simp [Elem.signals])); cases hv
    cases hr
    cases hu
    cases hu'
    cases hr'
    have d1 : (if k = env.dc then V_DC / 2 else 0) = (if k = env.dc then V_DC else 0) / 2 := by split_ifs <;> ring
    have d2 : (if k = env.dc then -V_DC / 2 else 0) = -(if k = env.dc then V_DC else 0) / 2 := by split_ifs <;> ring
    have d3 : (if k = env.dc then env.Ze * I_DC / 2 else 0) = env.Ze * (if k = env.dc then I_DC else 0) / 2 := by
      split_ifs <;> ring
    simp only [Elem.ports, List.mem_cons, List.not_mem_nil, or_false, forall_eq_or_imp, forall_eq, total_append,
      total_nil, (hx x).1, (hx x).2, e2, e3, e4, e5, e6, e7, e8, e9, if_true, if_neg hAB, if_neg (Ne.symm hAB),
      d1, d2, d3, Elem.Law]
    generalize (if k = env.dc then V_DC else 0) = v
    generalize (if k = env.dc then I_DC else 0) = c
    rw [← add_div, div_eq_iff hZe]
    simp only [div_eq_mul_inv, one_mul]
    have hh : (2 : F)⁻¹ * 2 = 1 := inv_mul_cancel₀ h2
    generalize (2 : F)⁻¹ = hf at hh
    constructor
    · rintro ⟨h4, h5⟩
      exact ⟨by linear_combination h4 - h5 + (v + x (V, k)) * hh,
        by linear_combination -h4 - h5 - env.Ze * (c + x (p, k)) * hh⟩
    · rintro ⟨h4, h5⟩
      exact ⟨by linear_combination hf * h4 - hf * h5 - (b A.o - x (B.i, k)) * hh,
        by linear_combination -hf * h4 - hf * h5 - (b B.o - x (A.i, k)) * hh⟩
  | currentSourceBalanced I_DC p A B =>
    have hAB : A.o ≠ B.o := by
      intro he
      simp [Elem.ports, he] at hd
    replace h : current_source_balanced_setup env I_DC p A B = .ok cs := h
    unfold current_source_balanced_setup at h
    obtain ⟨c1, _, h1, g1, rfl⟩ := blocks_cons h
    obtain ⟨c2, _, hb2, g2, rfl⟩ := blocks_cons g1
    obtain ⟨c3, _, hb3, g3, rfl⟩ := blocks_cons g2
    obtain ⟨c4, _, hb4, g4, rfl⟩ := blocks_cons g3
    obtain ⟨c5, _, hb5, g5, rfl⟩ := blocks_cons g4
    obtain rfl := blocks_nil g5
    obtain ⟨r, u, u', r', hr, hu, hu', hr', hx⟩ := setup2_into h1 hn (hk A (by simp [Elem.ports]))
      (hk B (by simp [Elem.ports])) hAB
    have e2 := ok_source_into hb2 k
    have e3 := ok_source_into hb3 k
    obtain ⟨_, hv, e4⟩ := per_key_into hb4 (hn _) (hs p (by simp [Elem.signals])); cases hv
    obtain ⟨_, hv, e5⟩ := per_key_into hb5 (hn _) (hs p (by simp [Elem.signals])); cases hv
    cases hr
    cases hu
    cases hu'
    cases hr'
    have d1 : (if k = env.dc then env.Ze * I_DC else 0) = env.Ze * (if k = env.dc then I_DC else 0) := by
      split_ifs <;> ring
    simp only [Elem.ports, List.mem_cons, List.not_mem_nil, or_false, forall_eq_or_imp, forall_eq, total_append,
      total_nil, (hx x).1, (hx x).2, e2, e3, e4, e5, if_true, if_neg hAB, if_neg (Ne.symm hAB), d1, Elem.Law,
      div_eq_iff hZe]
    constructor
    · rintro ⟨h4, h5⟩
      exact ⟨by linear_combination -h4, by linear_combination -h5⟩
    · rintro ⟨h4, h5⟩
      exact ⟨by linear_combination -h4, by linear_combination -h5⟩
  | opAmp g p n out =>
    have hpn : p.o ≠ n.o ∧ p.o ≠ out.o ∧ n.o ≠ out.o := by
      refine ⟨?_, ?_, ?_⟩ <;> intro he <;> simp [Elem.ports, he] at hd
    obtain ⟨i1, i2, i3⟩ := hpn
    replace h : opamp_setup env g p n out = .ok cs := h
    unfold opamp_setup at h
    obtain ⟨c1, _, hb1, g1, rfl⟩ := blocks_cons h
    obtain ⟨c2, _, hb2, g2, rfl⟩ := blocks_cons g1
    obtain ⟨c3, _, hb3, g3, rfl⟩ := blocks_cons g2
    obtain ⟨c4, _, hb4, g4, rfl⟩ := blocks_cons g3
    obtain ⟨c5, _, hb5, g5, rfl⟩ := blocks_cons g4
    obtain rfl := blocks_nil g5
    have kp := hk p (by simp [Elem.ports])
    have kn := hk n (by simp [Elem.ports])
    have ko := hk out (by simp [Elem.ports])
    obtain ⟨_, hv, e1⟩ := per_key_into hb1 (hn _) kp; cases hv
    obtain ⟨_, hv, e2⟩ := per_key_into hb2 (hn _) kn; cases hv
    obtain ⟨_, hv, e3⟩ := per_key_into hb3 (hn _) kp; cases hv
    obtain ⟨_, hv, e4⟩ := per_key_into hb4 (hn _) kn; cases hv
    obtain ⟨_, hv, e5⟩ := per_key_into hb5 (hn _) ko; cases hv
    simp only [Elem.ports, List.mem_cons, List.not_mem_nil, or_false, forall_eq_or_imp, forall_eq, total_append,
      total_nil, e1, e2, e3, e4, e5, if_true, if_neg i1, if_neg i2, if_neg i3, if_neg (Ne.symm i1),
      if_neg (Ne.symm i2), if_neg (Ne.symm i3), Elem.Law, div_eq_zero_iff, or_iff_left hZe]
    constructor
    · rintro ⟨h3, h4, h5⟩
      exact ⟨by linear_combination h5 - g (env.freq k) * h3 + g (env.freq k) * h4,
        by linear_combination -h3, by linear_combination -h4⟩
    · rintro ⟨h3, h4, h5⟩
      exact ⟨by linear_combination -h4, by linear_combination -h5,
        by linear_combination h3 - g (env.freq k) * h4 + g (env.freq k) * h5⟩
  | mech m => exact C89_element h hn hZe h2 hk hd x b

/-- An N way connection conserves power: the sum of `b conj(b)` over the leaving waves is the sum of `a conj(a)` over
the entering ones.  `conj` is any ring endomorphism (complex conjugation, or the identity for plain squares). -/
theorem C42_connection_power {env : Env P K F} {ps : List (Port P)} {cs : List (Coupling P K F)}
    (h : connection_setup env ps = .ok cs) (hn : ∀ p, (env.keys p).Nodup) {k : K}
    (hk : ∀ p ∈ ps, k ∈ env.keys p.i) (hd : (ps.map Port.o).Nodup) (conj : F →+* F) (x : P × K → F) :
    (ps.map (fun p => total cs x (p.o, k) * conj (total cs x (p.o, k)))).sum =
      (ps.map (fun p => x (p.i, k) * conj (x (p.i, k)))).sum := by
  rcases eq_or_ne ps [] with rfl | hne
  · rfl
  obtain ⟨q, hq⟩ := List.exists_mem_of_ne_nil _ hne
  have hN := (connection_into h hn hk hd x hq).1
  have hrw : (ps.map (fun p => total cs x (p.o, k) * conj (total cs x (p.o, k)))) = ps.map (fun p =>
      (2 / (ps.length : F) * (ps.map (fun p => x (p.i, k))).sum - x (p.i, k)) *
        (2 / (ps.length : F) * conj (ps.map (fun p => x (p.i, k))).sum - conj (x (p.i, k)))) := by
    apply List.map_congr_left
    intro p hp
    rw [(connection_into h hn hk hd x hp).2, map_sub, map_mul, map_div₀, map_natCast, map_ofNat]
  rw [hrw]
  have hS : conj (ps.map (fun p => x (p.i, k))).sum = (ps.map (fun p => conj (x (p.i, k)))).sum := by
    rw [map_list_sum, List.map_map]
    rfl
  rw [hS]
  generalize hs : (ps.map (fun p => x (p.i, k))).sum = s
  generalize hs' : (ps.map (fun p => conj (x (p.i, k)))).sum = s'
  have gen : ∀ (l : List (Port P)) (c : F), (l.map (fun p => (c * s - x (p.i, k)) * (c * s' - conj (x (p.i, k))))).sum =
      (l.length : F) * (c * s * (c * s')) - c * s * (l.map (fun p => conj (x (p.i, k)))).sum -
      c * s' * (l.map (fun p => x (p.i, k))).sum + (l.map (fun p => x (p.i, k) * conj (x (p.i, k)))).sum := by
    intro l c
    induction l with
    | nil => simp
    | cons a l ih =>
      simp only [List.map_cons, List.sum_cons, List.length_cons, ih]
      push_cast
      ring
  rw [gen, hs, hs']
  field_simp
  ring

/-- **C42 does not extend to `CurrentSourceBalanced`**: the current leaving one terminal does not return through the
other, the sum of the currents into the element is `-2 I`. -/
theorem C42_current_balanced_refuted {env : Env P K F} {I_DC : F} {p : P} {A B : Port P}
    {cs : List (Coupling P K F)} (h : (Elem.currentSourceBalanced I_DC p A B).setup env = .ok cs)
    (hn : ∀ p, (env.keys p).Nodup) (hZe : env.Ze ≠ 0) (h2 : (2 : F) ≠ 0) {k : K} (hA : k ∈ env.keys A.i)
    (hB : k ∈ env.keys B.i) (hs : k ∈ env.keys p) (hAB : A.o ≠ B.o) (x : P × K → F)
    (hxA : x (A.o, k) = total cs x (A.o, k)) (hxB : x (B.o, k) = total cs x (B.o, k))
    (hI : x (p, k) + (if k = env.dc then I_DC else 0) ≠ 0) :
    (x (A.i, k) - x (A.o, k)) / env.Ze + (x (B.i, k) - x (B.o, k)) / env.Ze ≠ 0 := by
  have := (C42_element h hn hZe h2 (k := k) (by simp [Elem.ports, hA, hB]) (by simp [Elem.signals, hs])
    (by simp [Elem.ports, hAB]) x (fun q => x (q, k))).1 (by simp [Elem.ports, ← hxA, ← hxB])
  obtain ⟨h3, h4⟩ := this
  simp only at h3 h4
  rw [h3, h4]
  intro h0
  have : 2 * (x (p, k) + (if k = env.dc then I_DC else 0)) = 0 := by linear_combination -h0
  rcases mul_eq_zero.1 this with h | h
  · exact h2 h
  · exact hI h

/-- The voltage amplifier: its input admittance is `Y_input` and its output behaves as a source of impedance
`Z_output`, but of open circuit voltage `-g V_in (Z_output + Ze) / Ze`, which depends on the reference impedance `Ze`. -/
theorem C42_vamp {env : Env P K F} {g : F → F} {Y Z : F} {inn out : Port P} {cs : List (Coupling P K F)}
    (h : vamp_setup env g Y Z inn out = .ok cs) (hn : ∀ p, (env.keys p).Nodup) (hZe : env.Ze ≠ 0)
    {k : K} (hi : k ∈ env.keys inn.i) (ho : k ∈ env.keys out.i) (hio : inn.o ≠ out.o)
    (x : P × K → F) (V I : Port P → F) (hV : ∀ p, V p = x (p.i, k) + x (p.o, k))
    (hI : ∀ p, I p = (x (p.i, k) - x (p.o, k)) / env.Ze) :
    (∀ p ∈ [inn, out], x (p.o, k) = total cs x (p.o, k)) ↔
    I inn = Y * V inn ∧ V out - Z * I out = -(g (env.freq k) * V inn) * ((Z + env.Ze) / env.Ze) := by
  unfold vamp_setup at h
  obtain ⟨c1, _, hb1, g1, rfl⟩ := blocks_cons h
  obtain ⟨c2, _, hb2, g2, rfl⟩ := blocks_cons g1
  obtain ⟨c3, _, hb3, g3, rfl⟩ := blocks_cons g2
  obtain ⟨c4, _, hb4, g4, rfl⟩ := blocks_cons g3
  obtain rfl := blocks_nil g4
  obtain ⟨_, hv, e1⟩ := per_key_into hb1 (hn _) hi; cases hv
  obtain ⟨_, hv, e2⟩ := keyed_into (g := fun k => .ok (-g (env.freq k))) hb2 (hn _) hi; cases hv
  obtain ⟨r, hr, e3⟩ := per_key_into hb3 (hn _) hi
  obtain ⟨r', hr', e4⟩ := per_key_into hb4 (hn _) ho
  obtain ⟨hY, rfl⟩ := pdiv_ok hr
  obtain ⟨hZ, rfl⟩ := pdiv_ok hr'
  simp only [List.forall_mem_cons, List.not_mem_nil, false_imp_iff, implies_true, and_true, total_append, total_nil, e1,
    e2, e3, e4, if_true, if_neg hio, if_neg (Ne.symm hio), zero_add, add_zero, hV, hI]
  rw [law_admittance hZe hY]
  refine and_congr_right ?_
  intro _
  constructor
  · intro h6
    rw [h6]
    field_simp
    ring
  · intro h6
    have hmul := congrArg (· * env.Ze) h6
    simp only [sub_mul, mul_assoc, div_mul_cancel₀ _ hZe] at hmul
    rw [div_mul_eq_mul_div]
    have : x (out.o, k) = ((Z - env.Ze) * x (out.i, k) - (Z + env.Ze) * (g (env.freq k) * (x (inn.i, k) + x (inn.o, k))))
        / (Z + env.Ze) := by
      rw [eq_div_iff hZ]
      linear_combination hmul
    rw [sub_div, mul_div_cancel_left₀ _ hZ] at this
    linear_combination this

/-- With zero output impedance the voltage amplifier amplifies by `-g`. -/
theorem C42_vamp_ideal {env : Env P K F} {g : F → F} {Y : F} {inn out : Port P} {cs : List (Coupling P K F)}
    (h : vamp_setup env g Y 0 inn out = .ok cs) (hn : ∀ p, (env.keys p).Nodup) (hZe : env.Ze ≠ 0)
    {k : K} (hi : k ∈ env.keys inn.i) (ho : k ∈ env.keys out.i) (hio : inn.o ≠ out.o)
    (x : P × K → F) (hx : ∀ p ∈ [inn, out], x (p.o, k) = total cs x (p.o, k)) :
    x (out.i, k) + x (out.o, k) = -(g (env.freq k) * (x (inn.i, k) + x (inn.o, k))) := by
  have := ((C42_vamp h hn hZe hi ho hio x _ _ (fun _ => rfl) (fun _ => rfl)).1 hx).2
  simpa [hZe] using this

/-! ## the hypotheses are met -/

def cxEnv : Env ℕ ℕ ℚ :=
  { Ze := 50, i2pi := 2, i := 1, pi := 3, exp := fun t => t + 1, freq := fun k => k, keys := fun _ => [0, 1, 7], dc := 0 }

def cxPort (n : ℕ) : Port ℕ := ⟨2 * n, 2 * n + 1⟩

/-- An element of each kind. -/
def cxElems : List (Elem ℕ ℚ) :=
  [.one (.resistor 100) (cxPort 0), .one (.capacitor 3) (cxPort 0), .one (.inductor 1 4) (cxPort 0),
    .one .matched (cxPort 0), .one .opened (cxPort 0), .one .shorted (cxPort 0),
    .two (.resistor 100) (cxPort 0) (cxPort 1), .two (.capacitor 3) (cxPort 0) (cxPort 1),
    .two (.inductor 1 4) (cxPort 0) (cxPort 1), .connection [cxPort 0, cxPort 1, cxPort 2], .cable 5 (cxPort 0) (cxPort 1),
    .voltageSource 12 20 (cxPort 0), .currentSource 3 20 (cxPort 0),
    .voltageSourceBalanced 12 3 20 21 (cxPort 0) (cxPort 1), .currentSourceBalanced 3 20 (cxPort 0) (cxPort 1),
    .opAmp (fun f => 100 - f) (cxPort 0) (cxPort 1) (cxPort 2)]

def isOk {α : Type} : Except Err α → Bool
  | .ok _ => true
  | .error _ => false

example : (cxElems.all fun el => isOk (el.setup cxEnv)) = true ∧
    ∀ el ∈ cxElems, (∀ p, (cxEnv.keys p).Nodup) ∧ (∀ p ∈ el.ports, 7 ∈ cxEnv.keys p.i) ∧
      (∀ p ∈ el.signals, 7 ∈ cxEnv.keys p) ∧ (el.ports.map Port.o).Nodup := by
  refine ⟨by decide +kernel, ?_⟩
  intro el hel
  refine ⟨fun _ => (by decide : [0, 1, 7].Nodup), fun _ _ => by simp [cxEnv], fun _ _ => by simp [cxEnv], ?_⟩
  simp only [cxElems, List.mem_cons, List.not_mem_nil, or_false] at hel
  rcases hel with rfl | rfl | rfl | rfl | rfl | rfl | rfl | rfl | rfl | rfl | rfl | rfl | rfl | rfl | rfl | rfl <;>
    simp [Elem.ports, cxPort]

/-- A voltage source of 12 V at DC: waves meeting the left side of `C42_element`. -/
example : ∃ cs, (Elem.voltageSource 12 20 (cxPort 0)).setup cxEnv = .ok cs ∧
    ∃ x : ℕ × ℕ → ℚ, (∀ p ∈ (Elem.voltageSource 12 20 (cxPort 0) : Elem ℕ ℚ).ports,
      (9 : ℚ) = total cs x (p.o, 0)) ∧ x (0, 0) = 3 :=
  ⟨_, rfl, fun t => if t.1 = 0 then 3 else 0, by with_unfolding_all decide +kernel, rfl⟩

example : isOk (vamp_setup cxEnv (fun _ => 2) (1 / 10) 5 (cxPort 0) (cxPort 1)) = true := by decide +kernel

end Circuit
