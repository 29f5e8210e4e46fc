import Mathlib.Data.List.FinRange
import Verif.Circuit.Model

/-!
# Model of the state space element

Source: `/repo/phasor/signals/state_space.py`.

The matrices are functions of their indices (`A.shape[0] = nS`, `B.shape[1] = nI`, `C.shape[0] = nO`); reading past the
end of `ports_states` is an `IndexError`.  The environment and the couplings are those of the circuit model.
-/

namespace Signal
open Py Inject Circuit

variable {P K F : Type} [DecidableEq P] [DecidableEq K] [Field F] [DecidableEq F]

/-- The data of a `StateSpaceModel`: the matrices (l.24-38) and the keys of the ports `ports_in[..].i`,
`ports_out[..].o` and `ports_states[..].node` (l.52-82).  The `i` and the `o` of a `SignalNode` are its `node`
(`/repo/phasor/base/ports.py` l.95-101). -/
structure StateSpace (P F : Type) (nI nO nS : Nat) where
  A : Fin nS → Fin nS → F
  B : Fin nS → Fin nI → F
  C : Fin nO → Fin nS → F
  D : Fin nO → Fin nI → F
  p_in : Fin nI → P
  p_out : Fin nO → P
  p_state : Fin nS → P

variable {nI nO nS : Nat}

/-- `if cplg != 0: port_coupling_insert(.., val)`. -/
def link (pfrom pto : P × K) (cplg : F) (val : Except Err F) : Except Err (List (Coupling P K F)) :=
  if cplg ≠ 0 then val.map (fun v => [Coupling.edge pfrom pto v]) else .ok []

/-- l.168-186, the body of the loop over the keys of an input. -/
def in_block (env : Env P K F) (m : StateSpace P F nI nO nS) (idx_in : Fin nI) (k : K) :
    Except Err (List (Coupling P K F)) :=
  blocks ((List.finRange nS).map (fun s => link (m.p_in idx_in, k) (m.p_state s, k) (m.B s idx_in)
      (pdiv (m.B s idx_in) (env.freq k * env.i2pi))) ++
    (List.finRange nO).map (fun o =>
      if h : o.val < nS then link (m.p_in idx_in, k) (m.p_state ⟨o.val, h⟩, k) (m.D o idx_in) (.ok (m.D o idx_in))
      else .error .indexError))

/-- l.192-210, the body of the loop over the keys of a state. -/
def state_block (env : Env P K F) (m : StateSpace P F nI nO nS) (idx_state : Fin nS) (k : K) :
    Except Err (List (Coupling P K F)) :=
  blocks ((List.finRange nS).map (fun s => link (m.p_state idx_state, k) (m.p_state s, k) (m.A s idx_state)
      (pdiv (m.A s idx_state) (env.freq k * env.i2pi))) ++
    (List.finRange nO).map (fun o => link (m.p_state idx_state, k) (m.p_out o, k) (m.C o idx_state)
      (.ok (m.C o idx_state))))

/-- l.160-211, `system_setup_coupling`; `skip` is `classical_frequency_test_max(kfrom, self.max_freq)`. -/
def StateSpace.setup (env : Env P K F) (skip : K → Bool) (m : StateSpace P F nI nO nS) :
    Except Err (List (Coupling P K F)) :=
  blocks ((List.finRange nI).flatMap (fun i => ((env.keys (m.p_in i)).filter (fun k => !skip k)).map (in_block env m i)) ++
    (List.finRange nS).flatMap (fun s =>
      ((env.keys (m.p_state s)).filter (fun k => !skip k)).map (state_block env m s)))

/-- `/repo/phasor/system/system.py` l.288-297, `classical_frequency_test_max`, for a scalar frequency. -/
def test_max [LT F] [DecidableRel (fun a b : F => a < b)] (freq : K → F) (max_freq : Option F) (k : K) : Bool :=
  match max_freq with
  | none => false
  | some m => if freq k < m then false else true

end Signal
