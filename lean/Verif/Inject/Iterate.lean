import Mathlib.Data.Fintype.Prod
import Verif.Inject.Sparsity

/-!
# Model of one step of the solution of the nonlinear system

Sources: `/repo/phasor/system/matrix_algorithm.py` l.426-441, `/repo/phasor/system/solver_algorithm.py`
l.318-405 (`_perturbation_iterate`) and l.434-526 (`driven_solution_get`).

The pieces are those of the other models: the sparsity analysis, the generation of the matrix and of the
sources, and the graph solver.

The relative change `delta_v`, the loop of `solve` which stops on it and the book-keeping of the solutions by
order are in `Verif/Solve`.  Not modelled: symbolic values, the `AC` sets (empty, as no coupling of `matrix_injections.py` fills
them), and the freezing of numpy arrays.
-/

set_option linter.unusedSectionVars false

namespace Inject
open Py

variable {P K F : Type} [DecidableEq P] [DecidableEq K] [Field F] [DecidableEq F] [Fintype P] [Fintype K]

/-- `matrix_algorithm.py` l.426-441: `seq_perturb` and `req_perturb`, what the inputs reach and what
reaches the outputs.  There is no edge map here (`edge_map = None`): the empty one. -/
def perturb_graph (pick : List (P × K) → P × K) (csgb : SG (P × K)) : Except Err (Graph.G (P × K) F) := do
  let g ← Graph.check_seq_req_balance ⟨csgb.g.seq, csgb.g.req, []⟩
  let g ← Graph.purge_reqless pick csgb.inputs g
  Graph.purge_seqless pick csgb.outs g

/-- `solver_algorithm.py` l.342-374 and l.478-508: the linear system is generated from the previous solution
and solved for the outputs; the result is `outputs_map`. -/
def linear_solve (o : Graph.Opts (P × K) F) (m : Algo P K F) (bonds : SetDict P K) (seq req : SetDict P K)
    (inputs outs : List (P × K)) (sol : SolVec P K F) : Except Err (SolVec P K F) := do
  let g ← edge_matrix_generate m bonds seq req sol
  let sv ← source_vector_generate m inputs sol
  let r ← Graph.inverse_solve o outs [] (some sv) ⟨g.seq, g.req, g.mat⟩
  pure (r.1.getD [])

/-- `solver_algorithm.py` l.318-405, `_perturbation_iterate`: the next solution from the previous one.  The
purged graph is used when there are no `AC` sets (l.335-337). -/
def perturbation_iterate (o : Graph.Opts (P × K) F) (pick : List (P × K) → P × K) (m : Algo P K F)
    (bonds : SetDict P K) (csgb : SG (P × K)) (sol : SolVec P K F) : Except Err (SolVec P K F) := do
  let g ← perturb_graph (F := F) pick csgb
  linear_solve o m bonds g.seq g.req csgb.inputs csgb.outs sol

/-- `solver_algorithm.py` l.509-523: the outputs with a zero for those missing. -/
def readout_vector (outs : List (P × K)) (om : SolVec P K F) : SolVec P K F :=
  outs.foldl (fun kv node => Dict.set kv node (getd om node 0)) []

/-- `solver_algorithm.py` l.460-526, `driven_solution_get` for a set of readouts, from the previous solution
`sol`: the full graph is used. -/
def driven_solution_get (o : Graph.Opts (P × K) F) (m : Algo P K F) (bonds : SetDict P K)
    (csgb : SG (P × K)) (outs : List (P × K)) (sol : SolVec P K F) : Except Err (SolVec P K F) := do
  let om ← linear_solve o m bonds csgb.g.seq csgb.g.req csgb.inputs outs sol
  pure (readout_vector outs om)

end Inject
