import Verif.Floating.Assembly
import Verif.Floating.Ode
import Mathlib.Algebra.Algebra.Rat

/-!
# Concrete cases of C109-C112
-/

set_option linter.unusedSectionVars false

namespace Floating
open Py Inject

/-! ## a loop with a nonlinear element: `x₁ = 1/2 + (x₁ + x₁²)/4` -/

/-- `dx = x²` in one step, from node 1 to node 2 -/
def loopMat : Ode.ExpMat Unit (Fin 4 × Unit) ℚ where
  N_ode := 1
  in_map := [((), (1, ()))]
  out_map := [((), some (2, ()))]
  pks := [()]
  dLt_accel := [(0, [(1, [0, 0])])]

def loopOde : OCpl Unit (Fin 4) Unit ℚ where
  dLt := [((), [(1, [(), ()])])]
  N := 1
  pks := [()]
  inn := fun _ => (1, ())
  out := fun _ => some (2, ())
  o := loopMat
  moved := fun v w => decide (v ≠ w)
  st := loopMat.start

/-- a source at 0, the nonlinear element from 1 to 2, and a quarter of 3 back to 1 -/
def loopElems : List (OElem Unit (Fin 4) Unit ℚ) :=
  [.plain (.source (0, ()) (1 / 2)), .ode loopOde, .plain (.edge (3, ()) (1, ()) (1 / 4))]

def loopPorts : Dict (Fin 4) (List Unit) := [(0, [()]), (1, [()]), (2, [()]), (3, [()])]

def loopBonds : SR (Fin 4 × Unit) :=
  ⟨[((0, ()), [(1, ())]), ((2, ()), [(3, ())])], [((1, ()), [(0, ())]), ((3, ()), [(2, ())])]⟩

def loopPairs : List (Pair (Fin 4) Unit ℚ) := all_pairs (loopElems.map fun e => e.elem.finj)

def loopSol : SolVec (Fin 4) Unit ℚ := [((1, ()), 1)]

def loopOpts : Graph.Opts (Fin 4 × Unit) ℚ where
  lt := fun a b => decide (a.1 < b.1)
  pick := fun l => l.headD (.node (0, ()))
  size := fun _ => 1

def loopPick (l : List (Node (Fin 4) Unit loopPairs.length)) : Node (Fin 4) Unit loopPairs.length := l.headD (real (0, ()))

def loopRun : Except Err (Algo (Fin 4) Unit ℚ × Option (Csgb (Fin 4) Unit loopPairs.length × SolVec (Fin 4) Unit ℚ ×
    SolVec (Fin 4) Unit ℚ)) := do
  let m ← insert_all loopPorts (loopElems.map fun e => e.elem.finj.inj)
  let st ← coherent_sparsity_graph loopPairs (all_reqs (loopElems.map fun e => e.elem.finj)) loopPick loopPick 40 loopBonds m
  match st with
  | none => pure (m, none)
  | some c => do
    let sol' ← perturbation_iterate loopOpts m loopPairs loopBonds.seq c loopSol
    let r ← driven_solution_get loopOpts m loopPairs loopBonds.seq c [(3, ())] loopSol
    pure (m, some (c, sol', r))

set_option maxRecDepth 20000 in
theorem loop_runs : (match loopRun with
      | .ok (_, some (_, sol', r)) => decide (sol' = loopSol ∧ r = [((3, ()), 2)])
      | _ => false) = true := by decide +kernel

theorem loop_init : Ode.init loopOde.dLt loopMat.in_map loopMat.out_map loopOde.N loopOde.pks = .ok loopMat := by
  have h : Dict.ofList (loopOde.dLt.map fun T => (loopOde.pks.idxOf T.1, Ode.lt_sort_collect (Ode.lt_remap loopOde.pks loopOde.N T.2)))
      = loopMat.dLt_accel := by
    simp [loopOde, loopMat, Ode.lt_remap, Ode.lt_sort_collect, Ode.lt_sorted, Ode.lt_collect_from, Dict.ofList]
    rw [List.mergeSort_of_pairwise (by decide)]
    rfl
  unfold Ode.init
  rw [if_neg (by decide), h]
  rfl

theorem loop_made : loopOde.Made loopSol where
  keyed := by
    refine ⟨by decide, by decide, ?_⟩
    intro k
    refine ⟨fun _ => ⟨_, List.mem_singleton.2 rfl, Or.inl rfl⟩, fun _ => ?_⟩
    cases k
    exact List.mem_singleton.2 rfl
  init := ⟨_, _, loop_init, by
    refine ⟨?_, ?_, ?_, ?_⟩
    · intro k _; cases k; rfl
    · intro k _; cases k; rfl
    · intro k _ k' _ _; rfl
    · intro k _ k' _ _ _ _; rfl⟩
  same := by intro v; simp [loopOde]
  fresh := by
    obtain ⟨st1, h⟩ : ∃ st1, loopMat.generate_solution loopOde.moved loopMat.start loopSol = .ok st1 := by
      cases h : loopMat.generate_solution loopOde.moved loopMat.start loopSol with
      | ok st1 => exact ⟨st1, rfl⟩
      | error e =>
        exfalso
        have h1 : (match loopMat.generate_solution loopOde.moved loopMat.start loopSol with
          | .ok _ => true | .error _ => false) = true := by decide +kernel
        rw [h] at h1
        cases h1
    exact ⟨loopMat.start, st1, ⟨(), by decide, by decide +kernel⟩, h, Or.inl rfl⟩

theorem loop_pick (l : List (Node (Fin 4) Unit loopPairs.length)) (hl : l ≠ []) : loopPick l ∈ l := by
  cases l with
  | nil => exact absurd rfl hl
  | cons a l => exact List.mem_cons_self

theorem loop_optpick (l : List (Graph.WN (Fin 4 × Unit))) (hl : l ≠ []) : loopOpts.pick l ∈ l := by
  cases l with
  | nil => exact absurd rfl hl
  | cons a l => exact List.mem_cons_self

/-- All hypotheses of `C112_integrated` are met: the iteration stays at `x₁ = 1` and the readout is `x₃ = 1 + 1² = 2`. -/
example : ∃ x : Fin 4 × Unit → ℚ, x (3, ()) = 2 := by
  have h := loop_runs
  cases hr : loopRun with
  | error e => rw [hr] at h; cases h
  | ok q =>
    rw [hr] at h
    unfold loopRun at hr
    obtain ⟨m, hm, hr1⟩ := bind_ok_inv hr
    obtain ⟨st, hst, hr2⟩ := bind_ok_inv hr1
    cases st with
    | none => injection hr2 with hr2; subst hr2; cases h
    | some c =>
      obtain ⟨sol', hs, hr3⟩ := bind_ok_inv hr2
      obtain ⟨r, hd, hr4⟩ := bind_ok_inv hr3
      injection hr4 with hr4
      subst hr4
      obtain ⟨h1, h2⟩ := of_decide_eq_true h
      obtain ⟨x, hx, -⟩ := C112_integrated hm rfl loop_pick loop_pick
        (by unfold SR.WF; decide) (by decide) hst loop_optpick loop_optpick rfl rfl hs (fun n => by rw [h1]) hd
        (by
          intro d hd
          simp only [loopElems, List.mem_cons, List.not_mem_nil, or_false] at hd
          rcases hd with hd | hd | hd
          · cases hd
          · injection hd with hd; rw [hd]; exact loop_made
          · cases hd)
        (by
          unfold loopElems
          simp only [List.pairwise_cons, List.mem_cons, List.not_mem_nil, or_false]
          refine ⟨?_, ?_, ?_, List.Pairwise.nil⟩
          · intro e _ d d' hd
            cases hd
          · intro e he d d' _ hd'
            rw [he] at hd'
            cases hd'
          · intro e he
            cases he)
        (by
          intro d hd
          simp only [loopElems, List.mem_cons, List.not_mem_nil, or_false] at hd
          rcases hd with hd | hd | hd
          · cases hd
          · injection hd with hd
            subst hd
            intro k _ k' _ q hq
            cases hq
            refine ⟨show ¬ mem loopBonds.seq (1, ()) (2, ()) by decide, ?_⟩
            intro d' hd' f hf
            simp only [loopElems, List.mem_cons, List.not_mem_nil, or_false] at hd'
            rcases hd' with hd' | hd' | hd'
            · injection hd' with hd'; subst hd'; cases hf
            · cases hd'
            · injection hd' with hd'
              subst hd'
              have h3 := congrArg Prod.fst (List.mem_singleton.1
                (show (((1, ()), (2, ())), f) ∈ [((((3 : Fin 4), ()), ((1 : Fin 4), ())), _)] from hf))
              exact absurd (show (1 : Fin 4) = 3 from congrArg (fun e => e.1.1) h3) (by decide)
          · cases hd)
        (by
          intro d hd
          simp only [loopElems, List.mem_cons, List.not_mem_nil, or_false] at hd
          rcases hd with hd | hd | hd
          · injection hd with hd; subst hd; intro _ n hn; cases hn
          · cases hd
          · injection hd with hd; subst hd; intro _ n hn; cases hn)
        (by
          intro d hd
          simp only [loopElems, List.mem_cons, List.not_mem_nil, or_false] at hd
          rcases hd with hd | hd | hd
          · injection hd with hd; subst hd; trivial
          · cases hd
          · injection hd with hd; subst hd; trivial)
        (by
          intro d hd
          simp only [loopElems, List.mem_cons, List.not_mem_nil, or_false] at hd
          rcases hd with hd | hd | hd
          · injection hd with hd; subst hd; trivial
          · cases hd
          · injection hd with hd; subst hd; trivial)
      refine ⟨x, ?_⟩
      have := hx (3, ())
      rw [h2, if_pos (by simp)] at this
      simpa [Dict.get?] using this.symm

/-! ## blocks that meet -/

/-- a pair from 0 to 1 with the gain `v` -/
def gainPair (v : ℚ) : Pair (Fin 2) Unit ℚ where
  ins := [(0, ())]
  outs := [(1, ())]
  func := fun _ => .ok [(((0, ()), (1, ())), v)]

def twoPorts : Dict (Fin 2) (List Unit) := [(0, [()]), (1, [()])]

/-- the entry of the matrix from 0 to 1 when the couplings and pairs are inserted and the edge 0, 1 is in the graph -/
def meetEntry (injs : List (Inj (Fin 2) Unit ℚ)) (ps : List (Pair (Fin 2) Unit ℚ)) (seq req : SetDict (Fin 2) Unit) :
    Except Err (Option ℚ) := do
  let m ← insert_all twoPorts injs
  let g ← edge_matrix_generate m ps [] seq req []
  pure (Dict.get? g.mat ((0, ()), (1, ())))

/-- **C109, couplings add.**  Not when they meet: of an edge with the gain 2 and a block with the gain 3 between the same nodes the
matrix has 3. -/
theorem C109_add_refuted : ¬ ∀ (u v : ℚ),
    meetEntry [(Coupling.edge (0, ()) (1, ()) u).inj] [gainPair v] [((0, ()), [(1, ())])] [((1, ()), [(0, ())])]
      = .ok (some (u + v)) := by
  intro h
  have h1 := h 2 3
  have h2 : (match meetEntry [(Coupling.edge (0, ()) (1, ()) 2).inj] [gainPair 3] [((0, ()), [(1, ())])] [((1, ()), [(0, ())])] with
    | .ok (some v) => decide (v = 3)
    | _ => false) = true := by decide +kernel
  rw [h1] at h2
  revert h2
  decide +kernel

/-- **C109, blocks add.**  Not when they meet: of two blocks with the gains 2 and 3 between the same nodes the matrix has 3. -/
theorem C109_add_blocks_refuted : ¬ ∀ (u v : ℚ), meetEntry [] [gainPair u, gainPair v] [] [] = .ok (some (u + v)) := by
  intro h
  have h1 := h 2 3
  have h2 : (match meetEntry [] [gainPair 2, gainPair 3] [] [] with
    | .ok (some v) => decide (v = 3)
    | _ => false) = true := by decide +kernel
  rw [h1] at h2
  revert h2
  decide +kernel

end Floating
