import Mathlib.Data.List.Dedup
import Verif.Circuit.CompletionProps
import Verif.Circuit.NetExample

/-!
# C56: an example circuit
-/

namespace Circuit
open Py Inject

/-- A source and two resistors, bonded to each other in a triangle. -/
def txNet : Net ℕ ℚ :=
  { els := [.voltageSource 12 (20, none) (nxPort 0), .one (.resistor 100) (nxPort 1), .one (.resistor 300) (nxPort 2)]
    flucts := []
    meters := [.volt (nxPort 1) none (22, none)]
    bonds := [(nxPort 0, nxPort 1), (nxPort 0, nxPort 2), (nxPort 1, nxPort 2)] }

def txSet (p : Port (Key ℕ)) : List (Port (Key ℕ)) := (partners txNet.bonds p).dedup

def txConn (p : Port (Key ℕ)) (i : Nat) : Port (Key ℕ) :=
  ⟨(30 + 10 * p.i.1 + 2 * i, none), (31 + 10 * p.i.1 + 2 * i, none)⟩

def txPorts : Dict (Key ℕ) (List ℕ) := (List.range 80).map (fun b => ((b, none), [0]))

def txEnv : Env (Key ℕ) ℕ ℚ :=
  { Ze := 50, i2pi := 2, i := 1, pi := 3, exp := fun t => t + 1, freq := fun k => k,
    keys := fun q => (Dict.get? txPorts (q.1, none)).getD [], dc := 0 }

/-- The fields when no current circulates. -/
def txTable : Dict (Key ℕ) ℚ :=
  [((0, none), 2), ((1, none), 10), ((2, none), 9), ((3, none), 3), ((4, none), 7), ((5, none), 5),
    ((30, none), 10), ((31, none), 2), ((32, none), 3), ((33, none), 9), ((34, none), 5), ((35, none), 7),
    ((50, none), 3), ((51, none), 9), ((52, none), 9), ((53, none), 3), ((54, none), 6), ((55, none), 6),
    ((70, none), 5), ((71, none), 7), ((72, none), 7), ((73, none), 5), ((74, none), 6), ((75, none), 6),
    ((2, some (-1)), 9), ((3, some 1), 3)]

def txField (q : Key ℕ × ℕ) : ℚ := if q.2 = 0 then (Dict.get? txTable q.1).getD 0 else 0

def txCheck : Bool :=
  match txNet.complete txSet txConn with
  | .error _ => false
  | .ok n' =>
    match n'.couplings txEnv, n'.links txPorts 5 with
    | .ok cs, .ok (some g) => (n'.nodes ++ n'.tests).all (fun t => decide (0 ∈ txEnv.keys t ∧
        txField (t, 0) = ((lst g.req (t, 0)).map txField).sum + total cs txField (t, 0)))
    | _, _ => false

theorem txNet_WF : txNet.WF where
  nodup := by decide
  base := by decide
  ends := by decide
  bonded := by decide
  flucts := by decide
  meters := by
    intro m hm
    rcases List.mem_singleton.1 hm with rfl
    decide
  outputs := by decide
  output := by
    intro m hm
    rcases List.mem_singleton.1 hm with rfl
    decide

theorem txNet_Conn : txNet.Conn txSet txConn where
  set_nodup := fun _ _ => List.nodup_dedup _
  set_mem := fun p _ q => by
    unfold txSet
    rw [List.mem_dedup, mem_partners]
  nodup := by decide
  base := by decide
  output := by
    intro m hm
    rcases List.mem_singleton.1 hm with rfl
    decide
  virts := by decide
  signals := by
    intro el hel
    simp only [txNet, List.mem_cons, List.not_mem_nil, or_false] at hel
    rcases hel with rfl | rfl | rfl <;> decide

theorem txKeys (q : Key ℕ) : txEnv.keys q = [0] ∨ txEnv.keys q = [] := by
  change (Dict.get? txPorts (q.1, none)).getD [] = [0] ∨ (Dict.get? txPorts (q.1, none)).getD [] = []
  cases h : Dict.get? txPorts (q.1, none) with
  | none => exact Or.inr rfl
  | some ks =>
    left
    have := Dict.mem_of_get? h
    unfold txPorts at this
    rw [List.mem_map] at this
    obtain ⟨b, -, hb⟩ := this
    cases hb
    rfl

/-- A current circulating around the triangle. -/
def txLoop (p q : Port (Key ℕ)) : ℚ :=
  if (p, q) ∈ [(nxPort 0, nxPort 1), (nxPort 1, nxPort 2), (nxPort 2, nxPort 0)] then 1
  else if (q, p) ∈ [(nxPort 0, nxPort 1), (nxPort 1, nxPort 2), (nxPort 2, nxPort 0)] then -1 else 0

/-- The hypotheses of `C56_solution`, `C56_circuit` and `C56_cycle_refuted` hold for this circuit and these fields. -/
example : ∃ n' cs g, txNet.complete txSet txConn = .ok n' ∧ n'.couplings txEnv = .ok cs ∧
    n'.links txPorts 5 = .ok (some g) ∧ txNet.WF ∧ txNet.Conn txSet txConn ∧
    (∀ p, (txEnv.keys p).Nodup) ∧ (∀ q, txEnv.keys q = (Dict.get? txPorts (q.1, none)).getD []) ∧ txEnv.Ze ≠ 0 ∧
    (∀ q ∈ n'.nodes, 0 ∈ txEnv.keys q) ∧ (∀ f ∈ txNet.flucts, 0 ∈ txEnv.keys f.virt) ∧
    (∀ el ∈ txNet.els, ∀ q ∈ el.signals, 0 ∈ txEnv.keys q) ∧
    (∀ t ∈ n'.nodes ++ n'.tests, NodeEq g cs txField (t, 0)) ∧
    (∀ ab ∈ txNet.bonds, txLoop ab.1 ab.2 + txLoop ab.2 ab.1 = 0) ∧
    (∀ p ∈ txNet.ports, ((txSet p).map (txLoop p)).sum = 0) ∧ (∃ ab ∈ txNet.bonds, txLoop ab.1 ab.2 ≠ 0) ∧
    txNet.I txEnv txField 0 (nxPort 0) = -4 / 25 := by
  have h : txCheck = true := by decide +kernel
  unfold txCheck at h
  cases h0 : txNet.complete txSet txConn with
  | error e => rw [h0] at h; cases h
  | ok n' =>
    rw [h0] at h
    dsimp only at h
    cases h1 : n'.couplings txEnv with
    | error e => rw [h1] at h; cases h
    | ok cs =>
      cases h2 : n'.links txPorts 5 with
      | error e => rw [h1, h2] at h; cases h
      | ok g =>
        cases g with
        | none => rw [h1, h2] at h; cases h
        | some g =>
          rw [h1, h2] at h
          dsimp only at h
          rw [List.all_eq_true] at h
          refine ⟨n', cs, g, rfl, h1, h2, txNet_WF, txNet_Conn, ?_, fun _ => rfl, ?_, ?_, ?_, ?_, ?_, ?_, ?_, ?_, ?_⟩
          · intro p
            rcases txKeys p with h | h <;> rw [h] <;> decide
          · change (50 : ℚ) ≠ 0
            decide
          · intro q hq
            have := of_decide_eq_true (h q (List.mem_append_left _ hq))
            exact this.1
          · decide
          · intro el hel
            simp only [txNet, List.mem_cons, List.not_mem_nil, or_false] at hel
            rcases hel with rfl | rfl | rfl <;> decide
          · intro t ht
            have := of_decide_eq_true (h t ht)
            exact this.2
          · decide +kernel
          · decide +kernel
          · decide +kernel
          · decide +kernel

/-- A port bonded to itself is not completed. -/
example : (match Net.complete (fun p => (partners ((nxPort 0, nxPort 0) :: txNet.bonds) p).dedup) txConn
    { txNet with bonds := (nxPort 0, nxPort 0) :: txNet.bonds } with
    | .error .runtime => true
    | _ => false) = true := by decide +kernel

end Circuit
