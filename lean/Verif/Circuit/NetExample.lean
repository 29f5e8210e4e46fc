import Mathlib.Algebra.Order.Ring.Rat
import Mathlib.Algebra.Field.Rat
import Verif.Circuit.NetProps

/-!
# C55: a current readout on a port with fluctuations, and an example circuit
-/

set_option linter.unusedSectionVars false

namespace Circuit
open Py Inject

section Refuted
variable {B K F : Type} [DecidableEq B] [DecidableEq K] [Field F] [DecidableEq F]
variable {n : Net B F} {env : Env (Key B) K F} {cs : List (Coupling (Key B) K F)} {ports : Dict (Key B) (List K)}
variable {fuel : Nat} {g : SR (Key B × K)} {k : K}

/-- A current readout on a port with fluctuations reads neither the current on the bond side (unless the fluctuations
cancel) nor the current into the element (unless the two kinds of fluctuations are equal). -/
theorem C55_current_readout_refuted (hcs : n.couplings env = .ok cs) (hl : n.links ports fuel = .ok (some g)) (hw : n.WF)
    (hn : ∀ p, (env.keys p).Nodup) (hZe : env.Ze ≠ 0) (h2 : (2 : F) ≠ 0) (hk : ∀ q ∈ n.nodes, k ∈ env.keys q)
    (x : Key B × K → F) {t : Port (Key B)} {I : Key B} (hm : Meter.amp true t I ∈ n.meters)
    (hI : NodeEq g cs x (I, k)) :
    (x (I, k) = n.I env x k t ↔ n.vn x k t + n.cn x k t = 0) ∧
    (x (I, k) = n.I env x k t + n.cn x k t / env.Ze ↔ n.vn x k t = n.cn x k t) := by
  rw [C55_current_readout hcs hl hw hn hZe hk x hm hI, if_pos rfl, one_mul]
  generalize n.I env x k t = i
  generalize n.vn x k t = v
  generalize n.cn x k t = c
  constructor
  · constructor
    · intro h
      have h' : (v + c) / 2 / env.Ze = 0 := by linear_combination h
      rcases div_eq_zero_iff.1 h' with h' | h'
      · rcases div_eq_zero_iff.1 h' with h' | h'
        · exact h'
        · exact absurd h' h2
      · exact absurd h' hZe
    · intro h
      rw [h, zero_div, zero_div, add_zero]
  · constructor
    · intro h
      have h' : (v + c) / 2 / env.Ze = c / env.Ze := by linear_combination h
      rw [div_left_inj' hZe, div_eq_iff h2] at h'
      linear_combination h'
    · rintro rfl
      have : (v + v) / 2 = v := by rw [div_eq_iff h2]; ring
      rw [this]

end Refuted

/-! ## a source across a noisy resistor, with both readouts -/

def nxPort (m : ℕ) : Port (Key ℕ) := ⟨(2 * m, none), (2 * m + 1, none)⟩

def nxPorts : Dict (Key ℕ) (List ℕ) := (List.range 25).map (fun b => ((b, none), [0, 7]))

def nxEnv : Env (Key ℕ) ℕ ℚ :=
  { Ze := 50, i2pi := 2, i := 1, pi := 3, exp := fun t => t + 1, freq := fun k => k,
    keys := fun q => (Dict.get? nxPorts (q.1, none)).getD [], dc := 0 }

/-- 12 V across 100 Ω with a voltage fluctuation at the resistor; a voltmeter with both terminals and an ammeter. -/
def nxNet : Net ℕ ℚ :=
  { els := [.voltageSource 12 (20, none) (nxPort 0), .one (.resistor 100) (nxPort 1)]
    flucts := [⟨true, (21, none), nxPort 1⟩]
    meters := [.volt (nxPort 1) (some (nxPort 0)) (22, none), .amp true (nxPort 1) (23, none)]
    bonds := [(nxPort 0, nxPort 1)] }

/-- The fields at DC; the fluctuation is 3 V. -/
def nxField (q : Key ℕ × ℕ) : ℚ :=
  if q = ((0, none), 0) then 9 / 4
  else if q = ((1, none), 0) then 39 / 4
  else if q = ((2, none), 0) then 45 / 4
  else if q = ((3, none), 0) then 9 / 4
  else if q = ((2, some (-1)), 0) then 39 / 4
  else if q = ((3, some 1), 0) then 9 / 4
  else if q = ((21, none), 0) then 3
  else if q = ((22, none), 0) then 0
  else if q = ((23, none), 0) then 9 / 50
  else 0

/-- All equations of the circuit, the two readouts included. -/
def nxCheck : Bool :=
  match nxNet.couplings nxEnv, nxNet.links nxPorts 5 with
  | .ok cs, .ok (some g) => (nxNet.nodes ++ nxNet.tests ++ [(22, none), (23, none)]).all
      (fun t => decide (nxField (t, 0) = ((lst g.req (t, 0)).map nxField).sum + total cs nxField (t, 0)))
  | _, _ => false

theorem nxNet_WF : nxNet.WF where
  nodup := by decide
  base := by decide
  ends := by decide
  bonded := by decide
  flucts := by decide
  meters := by
    intro m hm
    rcases List.mem_cons.1 hm with rfl | hm
    · decide
    · rcases List.mem_singleton.1 hm with rfl
      decide
  outputs := by decide
  output := by
    intro m hm
    rcases List.mem_cons.1 hm with rfl | hm
    · decide
    · rcases List.mem_singleton.1 hm with rfl
      decide

theorem nxKeys (q : Key ℕ) : nxEnv.keys q = [0, 7] ∨ nxEnv.keys q = [] := by
  change (Dict.get? nxPorts (q.1, none)).getD [] = [0, 7] ∨ (Dict.get? nxPorts (q.1, none)).getD [] = []
  cases h : Dict.get? nxPorts (q.1, none) with
  | none => exact Or.inr rfl
  | some ks =>
    left
    have := Dict.mem_of_get? h
    unfold nxPorts at this
    rw [List.mem_map] at this
    obtain ⟨b, -, hb⟩ := this
    cases hb
    rfl

/-- The hypotheses of `C55_circuit`, `C55_voltage_readout` and `C55_current_readout_refuted` hold for this circuit and
these fields, and the ammeter reads 0.18 A while 0.15 A flow. -/
example : ∃ cs g, nxNet.couplings nxEnv = .ok cs ∧ nxNet.links nxPorts 5 = .ok (some g) ∧ nxNet.WF ∧
    (∀ p, (nxEnv.keys p).Nodup) ∧ (∀ q, nxEnv.keys q = (Dict.get? nxPorts (q.1, none)).getD []) ∧ nxEnv.Ze ≠ 0 ∧
    (∀ q ∈ nxNet.nodes, 0 ∈ nxEnv.keys q) ∧ (∀ f ∈ nxNet.flucts, 0 ∈ nxEnv.keys f.virt) ∧
    (∀ el ∈ nxNet.els, ∀ q ∈ el.signals, 0 ∈ nxEnv.keys q) ∧
    (∀ t ∈ nxNet.nodes ++ nxNet.tests, NodeEq g cs nxField (t, 0)) ∧
    NodeEq g cs nxField ((22, none), 0) ∧ NodeEq g cs nxField ((23, none), 0) ∧
    nxField ((23, none), 0) = 9 / 50 ∧ nxNet.I nxEnv nxField 0 (nxPort 1) = 3 / 20 ∧
    nxNet.V nxField 0 (nxPort 1) = 12 := by
  have h : nxCheck = true := by decide +kernel
  unfold nxCheck at h
  cases h1 : nxNet.couplings nxEnv with
  | error e => rw [h1] at h; cases h
  | ok cs =>
    cases h2 : nxNet.links nxPorts 5 with
    | error e => rw [h1, h2] at h; cases h
    | ok g =>
      cases g with
      | none => rw [h1, h2] at h; cases h
      | some g =>
        rw [h1, h2] at h
        dsimp only at h
        rw [List.all_eq_true] at h
        have hall : ∀ t ∈ nxNet.nodes ++ nxNet.tests ++ [(22, none), (23, none)], NodeEq g cs nxField (t, 0) :=
          fun t ht => by
          have := of_decide_eq_true (h t ht)
          exact this
        refine ⟨cs, g, rfl, rfl, nxNet_WF, ?_, fun _ => rfl, ?_, ?_, ?_, ?_, ?_, ?_, ?_, ?_, ?_, ?_⟩
        · intro p
          rcases nxKeys p with h | h <;> rw [h] <;> decide
        · change (50 : ℚ) ≠ 0
          decide
        · decide
        · decide
        · intro el hel
          rcases List.mem_cons.1 hel with rfl | hel
          · decide
          · rcases List.mem_singleton.1 hel with rfl
            decide
        · exact fun t ht => hall t (List.mem_append_left _ ht)
        · exact hall _ (by simp)
        · exact hall _ (by simp)
        · decide +kernel
        · decide +kernel
        · decide +kernel

end Circuit
