import Mathlib.Tactic.FieldSimp
import Mathlib.Tactic.LinearCombination
import Verif.Circuit.CompletionExample
import Verif.Circuit.Vendor

/-!
# C148: the transimpedance amplifier

Source: `electronics/models/PDAmp.py`, with the noise of the amplifier, `electronics/opamps.py` l.178-218, and of the resistor,
`electronics/passive.py` l.23-31.
-/

set_option linter.unusedSectionVars false

namespace Circuit
open Py Inject

section Amp
variable {K F : Type} [DecidableEq K] [Field F] [DecidableEq F]

/-! ## model -/

/-- The ports of the elements of the amplifier. -/
structure PD where
  PD_A : Port (Key ℕ) := nxPort 0
  PD_B : Port (Key ℕ) := nxPort 1
  C_A : Port (Key ℕ) := nxPort 2
  C_B : Port (Key ℕ) := nxPort 3
  T_A : Port (Key ℕ) := nxPort 4
  R_A : Port (Key ℕ) := nxPort 5
  R_B : Port (Key ℕ) := nxPort 6
  in_p : Port (Key ℕ) := nxPort 7
  in_n : Port (Key ℕ) := nxPort 8
  out : Port (Key ℕ) := nxPort 9
  P_A : Port (Key ℕ) := nxPort 10
  current : Key ℕ := (40, none)
  reading : Key ℕ := (41, none)
  V_noise : Key ℕ := (42, none)
  I_noise_n : Key ℕ := (43, none)
  I_noise_p : Key ℕ := (44, none)
  johnson_noise : Key ℕ := (45, none)

def pd : PD := {}

/-- `PDTransimpedance.__build__`, PDAmp.py l.14-42, with the bonds in their order; the capacitance (20e-12), the resistance (10e3) and the
gain of the amplifier are parameters, `johnson` is `include_johnson_noise`.  `PDT` is the element at `T_A`, `amp_in_p` that at `P_A`. -/
def pd_net (C R : F) (gain : F → F) (johnson : Bool) : Net ℕ F :=
  { els := [.currentSourceBalanced 0 pd.current pd.PD_A pd.PD_B, .two (.capacitor C) pd.C_A pd.C_B, .one .shorted pd.T_A,
      .two (.resistor R) pd.R_A pd.R_B, .opAmp gain pd.in_p pd.in_n pd.out, .one .shorted pd.P_A]
    flucts := (if johnson then [⟨true, pd.johnson_noise, pd.R_A⟩] else []) ++
      [⟨true, pd.V_noise, pd.in_n⟩, ⟨false, pd.I_noise_n, pd.in_n⟩, ⟨false, pd.I_noise_p, pd.in_p⟩]
    meters := [.volt pd.out none pd.reading]
    bonds := [(pd.C_A, pd.PD_A), (pd.C_B, pd.PD_B), (pd.T_A, pd.PD_B), (pd.P_A, pd.in_p), (pd.R_A, pd.in_n), (pd.PD_A, pd.in_n),
      (pd.out, pd.R_B)] }

/-! ## the circuit -/

variable {C R : F} {gain : F → F} {johnson : Bool} {env : Env (Key ℕ) K F} {k : K}

theorem pd_ports : (pd_net C R gain johnson).ports = [pd.PD_A, pd.PD_B, pd.C_A, pd.C_B, pd.T_A, pd.R_A, pd.R_B, pd.in_p, pd.in_n, pd.out, pd.P_A] := rfl

theorem pd_WF : (pd_net C R gain johnson).WF where
  nodup := by
    have : (pd_net C R gain johnson).nodes = (List.range 22).map (fun n => (n, none)) := rfl
    rw [this]
    decide
  base := by
    have : (pd_net C R gain johnson).nodes = (List.range 22).map (fun n => (n, none)) := rfl
    rw [this]
    decide
  ends := by
    rw [pd_ports]
    have : (pd_net C R gain johnson).bonds = [(pd.C_A, pd.PD_A), (pd.C_B, pd.PD_B), (pd.T_A, pd.PD_B), (pd.P_A, pd.in_p), (pd.R_A, pd.in_n),
      (pd.PD_A, pd.in_n), (pd.out, pd.R_B)] := rfl
    rw [this]
    decide
  bonded := by
    rw [pd_ports]
    have : (pd_net C R gain johnson).bonds = [(pd.C_A, pd.PD_A), (pd.C_B, pd.PD_B), (pd.T_A, pd.PD_B), (pd.P_A, pd.in_p), (pd.R_A, pd.in_n),
      (pd.PD_A, pd.in_n), (pd.out, pd.R_B)] := rfl
    rw [this]
    decide
  flucts := by
    rw [pd_ports]
    intro f hf
    simp only [pd_net, List.mem_append, List.mem_cons, List.not_mem_nil, or_false] at hf
    rcases hf with hf | rfl | rfl | rfl
    · cases johnson
      · simp at hf
      · simp only [if_true, List.mem_singleton] at hf
        subst hf
        decide
    · decide
    · decide
    · decide
  meters := by
    rw [pd_ports]
    intro m hm
    rcases List.mem_singleton.1 hm with rfl
    decide
  outputs := by
    have : (pd_net C R gain johnson).meters = [.volt pd.out none pd.reading] := rfl
    rw [this]
    decide
  output := by
    intro m hm
    have : (pd_net C R gain johnson).nodes = (List.range 22).map (fun n => (n, none)) := rfl
    rw [this]
    rcases List.mem_singleton.1 hm with rfl
    decide

/-- The equation of the amplifier, from the laws of its circuit. -/
theorem pd_eq (x : Key ℕ × K → F) (h : (pd_net C R gain johnson).Obeys env k x) :
    (pd_net C R gain johnson).V x k pd.out * (1 + gain (env.freq k) + env.i2pi * env.freq k * R * C) =
      -gain (env.freq k) * (R * (x (pd.current, k) + x (pd.I_noise_n, k) / env.Ze) +
        (1 + env.i2pi * env.freq k * R * C) * x (pd.V_noise, k) - if johnson then x (pd.johnson_noise, k) else 0) := by
  obtain ⟨hv, hi, hlaw, -⟩ := h
  generalize hV : (pd_net C R gain johnson).V x k = V at hv hlaw ⊢
  generalize hI : (pd_net C R gain johnson).I env x k = I at hi hlaw
  have v1 := hv (pd.C_A, pd.PD_A) (by simp [pd_net])
  have v2 := hv (pd.C_B, pd.PD_B) (by simp [pd_net])
  have v3 := hv (pd.T_A, pd.PD_B) (by simp [pd_net])
  have v4 := hv (pd.P_A, pd.in_p) (by simp [pd_net])
  have v5 := hv (pd.R_A, pd.in_n) (by simp [pd_net])
  have v6 := hv (pd.PD_A, pd.in_n) (by simp [pd_net])
  have v7 := hv (pd.out, pd.R_B) (by simp [pd_net])
  have c1 := hi [pd.PD_A, pd.C_A, pd.R_A, pd.in_n] (by decide) (by rw [pd_ports]; decide) (by
    have : (pd_net C R gain johnson).bonds = [(pd.C_A, pd.PD_A), (pd.C_B, pd.PD_B), (pd.T_A, pd.PD_B), (pd.P_A, pd.in_p), (pd.R_A, pd.in_n),
      (pd.PD_A, pd.in_n), (pd.out, pd.R_B)] := rfl
    rw [this]
    decide)
  have n0 : ∀ p, p ≠ pd.R_A → p ≠ pd.in_n → (pd_net C R gain johnson).vn x k p = 0 := by
    intro p h1 h2
    cases johnson <;> simp [Net.vn, pd_net, Ne.symm h1, Ne.symm h2]
  have m0 : ∀ p, p ≠ pd.in_p → p ≠ pd.in_n → (pd_net C R gain johnson).cn x k p = 0 := by
    intro p h1 h2
    cases johnson <;> simp [Net.cn, pd_net, Ne.symm h1, Ne.symm h2]
  have nR : (pd_net C R gain johnson).vn x k pd.R_A = if johnson then x (pd.johnson_noise, k) else 0 := by
    have hne : pd.in_n ≠ pd.R_A := by decide
    cases johnson <;> simp [Net.vn, pd_net, hne]
  have nn : (pd_net C R gain johnson).vn x k pd.in_n = x (pd.V_noise, k) := by
    have hne : pd.R_A ≠ pd.in_n := by decide
    cases johnson <;> simp [Net.vn, pd_net, hne]
  have mn : (pd_net C R gain johnson).cn x k pd.in_n = x (pd.I_noise_n, k) := by
    have hne : pd.in_p ≠ pd.in_n := by decide
    cases johnson <;> simp [Net.cn, pd_net, hne]
  have l1 := hlaw (.currentSourceBalanced 0 pd.current pd.PD_A pd.PD_B) (by simp [pd_net])
  have l2 := hlaw (.two (.capacitor C) pd.C_A pd.C_B) (by simp [pd_net])
  have l3 := hlaw (.one .shorted pd.T_A) (by simp [pd_net])
  have l4 := hlaw (.two (.resistor R) pd.R_A pd.R_B) (by simp [pd_net])
  have l5 := hlaw (.opAmp gain pd.in_p pd.in_n pd.out) (by simp [pd_net])
  have l6 := hlaw (.one .shorted pd.P_A) (by simp [pd_net])
  simp only [Elem.Law] at l1 l2 l3 l4 l5 l6
  rw [m0 pd.PD_A (by decide) (by decide)] at l1
  rw [n0 pd.C_A (by decide) (by decide), n0 pd.C_B (by decide) (by decide), m0 pd.C_A (by decide) (by decide)] at l2
  rw [n0 pd.T_A (by decide) (by decide)] at l3
  rw [nR, n0 pd.R_B (by decide) (by decide), m0 pd.R_A (by decide) (by decide)] at l4
  rw [n0 pd.in_p (by decide) (by decide), n0 pd.out (by decide) (by decide), nn, mn] at l5
  rw [n0 pd.P_A (by decide) (by decide)] at l6
  simp only [List.map_cons, List.map_nil, List.sum_cons, List.sum_nil, ite_self, add_zero, zero_div] at c1 l1 l2 l3 l4 l5 l6
  obtain ⟨a1, -⟩ := l1
  obtain ⟨a2, -⟩ := l2
  obtain ⟨a4, -⟩ := l4
  obtain ⟨a5, -, b5⟩ := l5
  simp only at v1 v2 v3 v4 v5 v6 v7
  generalize (if johnson = true then x (pd.johnson_noise, k) else 0) = j at *
  generalize env.i2pi * env.freq k = s at *
  generalize gain (env.freq k) = g at *
  rw [v1, v6, v2, ← v3, l3] at a2
  rw [v5, ← v7] at a4
  rw [← v4, l6] at a5
  linear_combination (1 + s * R * C) * a5 - g * R * c1 + g * R * a1 + g * R * a2 - g * a4 + g * R * b5

/-- **C148, reading.**  Whatever the fields are that solve the equations of the completed circuit, the amplifier turns the current of the
photodiode into the voltage `-R g / (1 + g + s R C)` times it.  The current noise of its inverting input adds to the current, its voltage
noise is amplified by `1 + s R C` and the noise of the resistor by one; the current noise of the other input is not read. -/
theorem C148_reading {seto : Port (Key ℕ) → List (Port (Key ℕ))} {conn : Port (Key ℕ) → Nat → Port (Key ℕ)} {n' : Net ℕ F}
    {cs : List (Coupling (Key ℕ) K F)} {ports : Dict (Key ℕ) (List K)} {fuel : Nat} {g : SR (Key ℕ × K)}
    (hcomp : (pd_net C R gain johnson).complete seto conn = .ok n') (hcs : n'.couplings env = .ok cs)
    (hl : n'.links ports fuel = .ok (some g)) (hc : (pd_net C R gain johnson).Conn seto conn)
    (hn : ∀ p, (env.keys p).Nodup) (hkeys : ∀ q, env.keys q = (Dict.get? ports (q.1, none)).getD [])
    (hZe : env.Ze ≠ 0) (h2 : (2 : F) ≠ 0) (hk : ∀ q ∈ n'.nodes, k ∈ env.keys q)
    (hkf : ∀ f ∈ (pd_net C R gain johnson).flucts, k ∈ env.keys f.virt) (hks : k ∈ env.keys pd.current)
    (x : Key ℕ × K → F) (hx : ∀ t ∈ n'.nodes ++ n'.tests, NodeEq g cs x (t, k)) (hr : NodeEq g cs x (pd.reading, k)) :
    x (pd.reading, k) * (1 + gain (env.freq k) + env.i2pi * env.freq k * R * C) =
      -gain (env.freq k) * (R * (x (pd.current, k) + x (pd.I_noise_n, k) / env.Ze) +
        (1 + env.i2pi * env.freq k * R * C) * x (pd.V_noise, k) - if johnson then x (pd.johnson_noise, k) else 0) := by
  have hks' : ∀ el ∈ (pd_net C R gain johnson).els, ∀ q ∈ el.signals, k ∈ env.keys q := by
    intro el hel q hq
    simp only [pd_net, List.mem_cons, List.not_mem_nil, or_false] at hel
    rcases hel with rfl | rfl | rfl | rfl | rfl | rfl <;>
      simp only [Elem.signals, List.mem_singleton, List.not_mem_nil] at hq
    subst hq
    exact hks
  have hobey := C56_solution hcomp hcs hl pd_WF hc hn hkeys hZe h2 hk hkf hks' x hx
  obtain ⟨bs, rfl, -, hb⟩ := complete_ok hcomp pd_WF hc
  have hread := C55_voltage_readout (t := pd.out) (N := none) (V := pd.reading) hcs hl (joined_WF pd_WF hc hb) hn hkeys hZe h2 hk hkf (by
    intro el hel q hq
    rcases List.mem_append.1 hel with h | h
    · exact hks' el h q hq
    · obtain ⟨l, -, rfl⟩ := List.mem_map.1 h
      cases hq) x hx (List.mem_singleton.2 rfl) hr
  rw [hread, sub_zero]
  exact pd_eq x hobey

end Amp

/-! ## an example -/

def pxNet : Net ℕ ℚ := pd_net 1 1 (fun _ => 3) true

def pxSet (p : Port (Key ℕ)) : List (Port (Key ℕ)) := (partners pxNet.bonds p).dedup

def pxConn (p : Port (Key ℕ)) (i : Nat) : Port (Key ℕ) :=
  ⟨(100 + 10 * p.i.1 + 2 * i, none), (101 + 10 * p.i.1 + 2 * i, none)⟩

def pxPorts : Dict (Key ℕ) (List ℕ) := (List.range 320).map (fun b => ((b, none), [1]))

def pxEnv : Env (Key ℕ) ℕ ℚ :=
  { Ze := 50, i2pi := 2, i := 1, pi := 3, exp := fun t => t + 1, freq := fun k => k,
    keys := fun q => (Dict.get? pxPorts (q.1, none)).getD [], dc := 0 }

/-- Ports with their voltages, currents and noises. -/
def pxRows : List (Port (Key ℕ) × ℚ × ℚ × ℚ) :=
  [(pd.PD_A, -1 / 6, -2, 0), (pd.PD_B, 0, -2, 0), (pd.C_A, -1 / 6, -1 / 3, 0), (pd.C_B, 0, 1 / 3, 0), (pd.T_A, 0, 5 / 3, 0),
    (pd.R_A, -1 / 6, 10 / 3, 1), (pd.R_B, -5 / 2, -10 / 3, 0), (pd.in_p, 0, -2, 100), (pd.in_n, -1 / 6, -1, 51), (pd.out, -5 / 2, 10 / 3, 0),
    (pd.P_A, 0, 2, 0),
    (pxConn pd.PD_A 0, -1 / 6, 2, 0), (pxConn pd.PD_A 1, -1 / 6, 1 / 3, 0), (pxConn pd.PD_A 2, -1 / 6, -7 / 3, 0),
    (pxConn pd.in_n 0, -1 / 6, 1, 0), (pxConn pd.in_n 1, -1 / 6, -10 / 3, 0), (pxConn pd.in_n 2, -1 / 6, 7 / 3, 0),
    (pxConn pd.PD_B 0, 0, 2, 0), (pxConn pd.PD_B 1, 0, -1 / 3, 0), (pxConn pd.PD_B 2, 0, -5 / 3, 0)]

def pxTable : Dict (Key ℕ) ℚ :=
  pxRows.flatMap (fun r => [(r.1.i, (r.2.1 + 50 * r.2.2.1 + r.2.2.2) / 2), (r.1.o, (r.2.1 - 50 * r.2.2.1) / 2)]) ++
    [(pd.current, 2), (pd.reading, -5 / 2), (pd.V_noise, 1), (pd.I_noise_n, 50), (pd.I_noise_p, 100), (pd.johnson_noise, 1),
      (preposed pd.out.i, (-5 / 2 + 50 * 10 / 3) / 2), (posted pd.out.o, (-5 / 2 - 50 * 10 / 3) / 2)]

def pxField (q : Key ℕ × ℕ) : ℚ := if q.2 = 1 then (Dict.get? pxTable q.1).getD 0 else 0

def pxCheck : Bool :=
  match pxNet.complete pxSet pxConn with
  | .error _ => false
  | .ok n' =>
    match n'.couplings pxEnv, n'.links pxPorts 5 with
    | .ok cs, .ok (some g) => (n'.nodes ++ n'.tests ++ [pd.reading]).all (fun t => decide (1 ∈ pxEnv.keys t ∧
        pxField (t, 1) = ((lst g.req (t, 1)).map pxField).sum + total cs pxField (t, 1)))
    | _, _ => false

theorem pxConn_ok : pxNet.Conn pxSet pxConn where
  set_nodup := fun _ _ => List.nodup_dedup _
  set_mem := fun p _ q => by
    unfold pxSet
    rw [List.mem_dedup, mem_partners]
  nodup := by decide +kernel
  base := by decide +kernel
  output := by
    intro m hm
    rcases List.mem_singleton.1 hm with rfl
    decide +kernel
  virts := by decide +kernel
  signals := by
    intro el hel
    simp only [pxNet, pd_net, List.mem_cons, List.not_mem_nil, or_false] at hel
    rcases hel with rfl | rfl | rfl | rfl | rfl | rfl <;> decide +kernel

theorem pxKeys (q : Key ℕ) : pxEnv.keys q = [1] ∨ pxEnv.keys q = [] := by
  change (Dict.get? pxPorts (q.1, none)).getD [] = [1] ∨ (Dict.get? pxPorts (q.1, none)).getD [] = []
  cases h : Dict.get? pxPorts (q.1, none) with
  | none => exact Or.inr rfl
  | some ks =>
    left
    have := Dict.mem_of_get? h
    unfold pxPorts at this
    rw [List.mem_map] at this
    obtain ⟨b, -, hb⟩ := this
    cases hb
    rfl

/-- The hypotheses of `C148_reading` hold together, with a current, a reading and all noises present. -/
example : ∃ n' cs g, pxNet.complete pxSet pxConn = .ok n' ∧ n'.couplings pxEnv = .ok cs ∧
    n'.links pxPorts 5 = .ok (some g) ∧ pxNet.Conn pxSet pxConn ∧
    (∀ p, (pxEnv.keys p).Nodup) ∧ (∀ q, pxEnv.keys q = (Dict.get? pxPorts (q.1, none)).getD []) ∧ pxEnv.Ze ≠ 0 ∧
    (∀ q ∈ n'.nodes, 1 ∈ pxEnv.keys q) ∧ (∀ f ∈ pxNet.flucts, 1 ∈ pxEnv.keys f.virt) ∧ 1 ∈ pxEnv.keys pd.current ∧
    (∀ t ∈ n'.nodes ++ n'.tests, NodeEq g cs pxField (t, 1)) ∧ NodeEq g cs pxField (pd.reading, 1) ∧
    pxField (pd.current, 1) = 2 ∧ pxField (pd.reading, 1) = -5 / 2 := by
  have h : pxCheck = true := by decide +kernel
  unfold pxCheck at h
  cases h0 : pxNet.complete pxSet pxConn with
  | error e => rw [h0] at h; cases h
  | ok n' =>
    rw [h0] at h
    dsimp only at h
    cases h1 : n'.couplings pxEnv with
    | error e => rw [h1] at h; cases h
    | ok cs =>
      cases h2 : n'.links pxPorts 5 with
      | error e => rw [h1, h2] at h; cases h
      | ok g =>
        cases g with
        | none => rw [h1, h2] at h; cases h
        | some g =>
          rw [h1, h2] at h
          dsimp only at h
          rw [List.all_eq_true] at h
          refine ⟨n', cs, g, rfl, h1, h2, pxConn_ok, ?_, fun _ => rfl, ?_, ?_, ?_, ?_, ?_, ?_, ?_, ?_⟩
          · intro p
            rcases pxKeys p with h | h <;> rw [h] <;> decide
          · change (50 : ℚ) ≠ 0
            decide
          · intro q hq
            have := of_decide_eq_true (h q (List.mem_append_left _ (List.mem_append_left _ hq)))
            exact this.1
          · decide +kernel
          · decide +kernel
          · intro t ht
            have := of_decide_eq_true (h t (List.mem_append_left _ ht))
            exact this.2
          · have := of_decide_eq_true (h pd.reading (List.mem_append_right _ (List.mem_singleton.2 rfl)))
            exact this.2
          · decide +kernel
          · decide +kernel

end Circuit
