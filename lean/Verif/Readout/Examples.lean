import Mathlib.Data.Rat.Defs
import Mathlib.Data.Fintype.Prod
import Mathlib.Tactic.FinCases
import Mathlib.Tactic.NormNum
import Verif.Readout.Props

/-!
# C81: a loop of two ports
-/

set_option linter.unusedSectionVars false

namespace Readout
open Py Inject

/-- Port 0 acts on port 1 with gain 2, which is fed back with gain -3. -/
def lxG : Graph.G (Fin 2 × Bool) ℚ where
  seq := [((0, true), [(1, true)]), ((0, false), [(1, false)]), ((1, true), [(0, true)]), ((1, false), [(0, false)])]
  req := [((1, true), [(0, true)]), ((1, false), [(0, false)]), ((0, true), [(1, true)]), ((0, false), [(1, false)])]
  em := [(((0, true), (1, true)), 2), (((0, false), (1, false)), 2), (((1, true), (0, true)), -3), (((1, false), (0, false)), -3)]

def lxOpts : Graph.Opts (Fin 2 × Bool) ℚ where
  lt := fun a b => decide (a.1 < b.1)
  pick := fun l => l.headD .vac
  size := fun _ => 1

def lxNodes : List (Fin 2 × Bool) := [(0, true), (0, false), (1, true), (1, false)]

def lxEm : Dict ((Fin 2 × Bool) × (Fin 2 × Bool)) ℚ :=
  [(((0, true), (0, true)), 1 / 7), (((0, true), (1, true)), 2 / 7), (((0, false), (0, false)), 1 / 7),
    (((0, false), (1, false)), 2 / 7), (((1, true), (1, true)), 1 / 7), (((1, true), (0, true)), -3 / 7),
    (((1, false), (1, false)), 1 / 7), (((1, false), (0, false)), -3 / 7)]

def lxTest : Bool :=
  match Graph.inverse_solve lxOpts lxNodes lxNodes none lxG with
  | .ok (_, em) => decide (em = lxEm)
  | .error _ => false

theorem lx_solve : ∃ r, Graph.inverse_solve lxOpts lxNodes lxNodes none lxG = .ok (r, lxEm) := by
  have : lxTest = true := by decide +kernel
  unfold lxTest at this
  cases h : Graph.inverse_solve lxOpts lxNodes lxNodes none lxG with
  | ok r =>
    rw [h] at this
    exact ⟨r.1, by rw [← of_decide_eq_true this]⟩
  | error e => rw [h] at this; cases this

theorem lx_inv : IsUnit (1 - Graph.mat lxG) := by
  refine IsUnit.of_mul_eq_one ((fun t d => cget lxEm d t : Matrix (Fin 2 × Bool) (Fin 2 × Bool) ℚ)) ?_
  ext t d
  simp only [Matrix.one_apply]
  revert t d
  decide +kernel

theorem lx_run : Run lxOpts lxG lxNodes lxNodes lxEm where
  pick := by
    intro l hl
    cases l with
    | nil => exact absurd rfl hl
    | cons a l => exact List.mem_cons_self
  neg := rfl
  valid := { ws := by decide, wr := by decide, nds := by decide, ndp := by decide, listed := by decide }
  inv := lx_inv
  solve := lx_solve

theorem lx_mix : ∀ p q k k', k ≠ k' → Graph.gain lxG (p, k) (q, k') = 0 := by decide +kernel

/-- The network opened at port 0. -/
def lxOpen (n : Fin 2 × Bool) : ℚ := if n = (0, true) then 1 else if n = (1, true) then 2 else 0

theorem lx_open : Opened lxG (0, true) 1 0 lxOpen := by
  refine ⟨rfl, ?_⟩
  decide +kernel

/-- The field for both sidebands of a drive at port 0. -/
def lxField (n : Fin 2 × Bool) : ℚ := if n.1 = 0 then 1 / 7 else 2 / 7

example : AC_sensitivity lxEm true false (1 : Fin 2) 0 none = 2 / 7 := by
  rw [C81_sensitivity (x := lxField) lx_run (by decide) (by decide) (by decide) (by decide) (by unfold Closed; decide +kernel)]
  rfl

/-- The loop divides everything by 7, the open loop sensitivity is the gain 2. -/
example : AC_sensitivityOL lxEm true false (1 : Fin 2) 0 none = .ok 2 ∧ (2 : ℚ) = lxOpen (1, true) := by
  have hv : AC_sensitivityOL lxEm true false (1 : Fin 2) 0 none = .ok 2 := by decide +kernel
  exact ⟨hv, C81_open_loop lx_run (by decide) lx_mix (by decide) (by decide) (by decide) (by decide) hv lx_open⟩

/-- Around the loop the gain is -6: the closed loop gain is 1/7 and the open loop gain 6. -/
example : CLG lxEm true false (some (0 : Fin 2)) none = 1 / 7 ∧ OLG lxEm true false (some (0 : Fin 2)) none = .ok 6 ∧
    (6 : ℚ) = -∑ n, Graph.gain lxG n (0, true) * lxOpen n := by
  have hv : OLG lxEm true false (some (0 : Fin 2)) none = .ok 6 := by decide +kernel
  have := C81_loop_gain lx_run (by decide) rfl lx_mix (by decide) (by decide) (by decide) hv lx_open
  exact ⟨by decide +kernel, hv, this.2.2⟩

/-- The plant from 0 to 1, driven at the actuator. -/
example : GPlant lxEm true (0 : Fin 2) 1 none = .ok 2 ∧ (2 : ℚ) = lxOpen (1, true) := by
  have hv : GPlant lxEm true (0 : Fin 2) 1 none = .ok 2 := by decide +kernel
  exact ⟨hv, C81_plant lx_run rfl (by decide) (by decide) (by decide) (by decide) hv lx_open (Or.inl rfl)⟩

end Readout
