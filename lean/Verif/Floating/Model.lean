import Mathlib.Data.Fintype.Sum
import Verif.Inject.Iterate

/-!
# Model of the floating couplings

Sources: `/repo/phasor/system/matrix_algorithm.py` l.63-64, l.193-207, l.310-326, l.426-473 and
`/repo/phasor/system/solver_algorithm.py` l.272-302.

A floating coupling does not say beforehand which of its inputs reach which of its outputs: it hands over a set of inputs, a
set of outputs and a function that returns a whole block of the matrix.  The analysis connects all inputs to all outputs
through a virtual node, which is taken out again at the end; the generation of the matrix writes the block over what the
ordinary couplings left.  The only class with floating pairs is `ExpMatCoupling` (`optics/ODE_solver.py`).

Everything else is the model of `Verif/Inject`.  Simplifications: the virtual node `(idx_inj, idx)` is numbered by the position
of its pair in the list of all pairs; symbolic values are left out, as in `Verif/Inject`; `field_space.keys_add` (l.198-206) is
left out, the default solver does not read it; `outputs_set` takes the nodes of `floating_req_set` after the linkage loop
instead of before, the loop only adds to it and does not read it; the `AC` sets are empty.
-/

set_option linter.unusedSectionVars false

namespace Floating
open Py Inject

variable {P K F : Type} [DecidableEq P] [DecidableEq K] [Field F] [DecidableEq F]

/-- One of `floating_in_out_func_pairs`. -/
structure Pair (P K F : Type) where
  ins : List (P × K)
  outs : List (P × K)
  func : SolVec P K F → Except Err (Dict ((P × K) × (P × K)) F)

/-- An injection with its floating parts; `none` is python's `None`. -/
structure FInj (P K F : Type) where
  inj : Inj P K F
  /-- `floating_in_out_func_pairs` -/
  pairs : Option (List (Pair P K F)) := none
  /-- `floating_req_set` -/
  reqs : Option (List (P × K)) := none

/-- The pairs of all injections, in the order of the two nested loops (`matrix_algorithm.py` l.195-196, l.315-316,
`solver_algorithm.py` l.275-276). -/
def all_pairs (fs : List (FInj P K F)) : List (Pair P K F) := (fs.filterMap FInj.pairs).flatten

/-- The nodes of all `floating_req_set` (`matrix_algorithm.py` l.203-204, l.311-312). -/
def all_reqs (fs : List (FInj P K F)) : List (P × K) := (fs.filterMap FInj.reqs).flatten

/-! ## the matrix -/

/-- `solver_algorithm.py` l.281-297: one entry of the block. -/
def float_edge (p : Pair P K F) (g : Gen P K F) (e : ((P × K) × (P × K)) × F) : Except Err (Gen P K F) :=
  if e.1.1 ∈ p.ins then
    if e.1.2 ∈ p.outs then
      if e.2 ≠ 0 then
        let sr : SR (P × K) := SR.add ⟨g.seq, g.req⟩ e.1.1 e.1.2
        .ok { mat := Dict.set g.mat e.1 e.2, seq := sr.seq, req := sr.req }
      else .ok g
    else .error .assertion
  else .error .assertion

/-- `solver_algorithm.py` l.276-297: one pair. -/
def float_pair (sol : SolVec P K F) (g : Gen P K F) (p : Pair P K F) : Except Err (Gen P K F) := do
  let submatrix ← p.func sol
  submatrix.foldlM (float_edge p) g

/-- `solver_algorithm.py` l.202-316, `_edge_matrix_generate`. -/
def edge_matrix_generate (m : Algo P K F) (ps : List (Pair P K F)) (bonds seq req : SetDict P K) (sol : SolVec P K F) :
    Except Err (Gen P K F) := do
  let g ← Inject.edge_matrix_generate m bonds seq req sol
  ps.foldlM (float_pair sol) g

/-- `solver_algorithm.py` l.342-374 and l.478-508, as `Inject.linear_solve`. -/
def linear_solve [Fintype P] [Fintype K] (o : Graph.Opts (P × K) F) (m : Algo P K F) (ps : List (Pair P K F))
    (bonds seq req : SetDict P K) (inputs outs : List (P × K)) (sol : SolVec P K F) : Except Err (SolVec P K F) := do
  let g ← edge_matrix_generate m ps bonds seq req sol
  let sv ← source_vector_generate m inputs sol
  let r ← Graph.inverse_solve o outs [] (some sv) ⟨g.seq, g.req, g.mat⟩
  pure (r.1.getD [])

/-! ## the analysis -/

/-- Nodes of the analysis: pairs like those of the system; the second parts are the numbers of the virtual nodes. -/
abbrev Node (P K : Type) (n : ℕ) := (P ⊕ Fin n) × (K ⊕ Fin n)

/-- A node of the system. -/
def real {n : ℕ} (a : P × K) : Node P K n := (.inl a.1, .inl a.2)

/-- `vnode = (idx_inj, idx)` (l.319) -/
def vnode {n : ℕ} (i : Fin n) : Node P K n := (.inr i, .inr i)

def real_edge {n : ℕ} (e : (P × K) × (P × K)) : Node P K n × Node P K n := (real e.1, real e.2)

def unreal {n : ℕ} : Node P K n → Option (P × K)
  | (.inl p, .inl k) => some (p, k)
  | _ => none

def lift_set {n : ℕ} (d : SetDict P K) : SetDict (P ⊕ Fin n) (K ⊕ Fin n) := d.map fun kv => (real kv.1, kv.2.map real)

def lift_rule {n : ℕ} (r : Rule (P × K)) : Rule (Node P K n) := ⟨r.nz.map real, r.req.map real⟩

def lift_rules {n : ℕ} {κ κ' : Type} (f : κ → κ') (d : Dict κ (List (Rule (P × K)))) : Dict κ' (List (Rule (Node P K n))) :=
  d.map fun kv => (f kv.1, kv.2.map lift_rule)

/-- `matrix_algorithm.py` l.321-326: what is connected to the virtual nodes. -/
def virtual_edges (ps : List (Pair P K F)) : List (Node P K ps.length × Node P K ps.length) :=
  (List.finRange ps.length).flatMap fun i =>
    (ps.get i).ins.map (fun pkt => (real pkt, vnode i)) ++ (ps.get i).outs.map (fun pkf => (vnode i, real pkf))

/-- `d[k].remove(x)` on a `defaultdict(set)` -/
def remove {N : Type} [DecidableEq N] (d : Dict N (List N)) (k x : N) : Except Err (Dict N (List N)) :=
  if x ∈ (Dict.get? d k).getD [] then .ok (Dict.set d k (((Dict.get? d k).getD []).filter (· ≠ x)))
  else .error .keyError

/-- `remove_vnode` (`matrix_algorithm.py` l.445-451) -/
def remove_vnode {N : Type} [DecidableEq N] (g : SR N) (v : N) : Except Err (SR N) := do
  let req ← ((Dict.get? g.seq v).getD []).foldlM (fun req pkt => remove req pkt v) g.req
  let seq ← ((Dict.get? req v).getD []).foldlM (fun seq pkf => remove seq pkf v) g.seq
  pure ⟨Dict.erase seq v, Dict.erase req v⟩

/-- The nodes of the system in a dictionary of sets; when no virtual node is left it is the same dictionary. -/
def lower {n : ℕ} (d : SetDict (P ⊕ Fin n) (K ⊕ Fin n)) : SetDict P K :=
  d.filterMap fun kv => (unreal kv.1).map fun a => (a, kv.2.filterMap unreal)

/-- What `_coherent_sparsity_graph` returns (l.464-473).  `active` still has the virtual nodes. -/
structure Csgb (P K : Type) (n : ℕ) where
  inputs : List (P × K)
  outs : List (P × K)
  active : List (Node P K n)
  full : SR (Node P K n)
  perturb : SR (Node P K n)

/-- `matrix_algorithm.py` l.452-462: out of both graphs -/
def remove_both {N : Type} [DecidableEq N] (gs : SR N × SR N) (v : N) : Except Err (SR N × SR N) := do
  let full ← remove_vnode gs.1 v
  let perturb ← remove_vnode gs.2 v
  pure (full, perturb)

/-- `matrix_algorithm.py` l.260-473, `_coherent_sparsity_graph`, from the bonds' `seq`/`req` on.  `pick` and `pick'` are
`set.pop()` in the linkage loop and in the purges; `ps` and `reqs` are `all_pairs` and `all_reqs` of the injections. -/
def coherent_sparsity_graph [Fintype P] [Fintype K] (ps : List (Pair P K F)) (reqs : List (P × K))
    (pick pick' : List (Node P K ps.length) → Node P K ps.length)
    (fuel : ℕ) (bonds : SR (P × K)) (m : Algo P K F) : Except Err (Option (Csgb P K ps.length)) := do
  let sr ← rules source_rule m.srcInj
  let er ← rules edge_rule m.edgeInj
  let g := (virtual_edges ps).foldl (fun g e => g.add e.1 e.2) ⟨lift_set bonds.seq, lift_set bonds.req⟩
  match sparsity pick fuel g (lift_rules real sr) (lift_rules real_edge er) with
  | none => pure none
  | some st => do
    let st := { st with outs := adds st.outs (reqs.map real) }
    let gp ← Inject.perturb_graph (F := F) pick' st
    let (full, perturb) ← ((List.finRange ps.length).map vnode).foldlM remove_both (st.g, ⟨gp.seq, gp.req⟩)
    pure (some {
      inputs := st.inputs.filterMap unreal
      outs := st.outs.filterMap unreal
      active := st.sub
      full := full
      perturb := perturb })

variable [Fintype P] [Fintype K] {n : ℕ}

/-- `solver_algorithm.py` l.318-405, `_perturbation_iterate` -/
def perturbation_iterate (o : Graph.Opts (P × K) F) (m : Algo P K F) (ps : List (Pair P K F)) (bonds : SetDict P K)
    (csgb : Csgb P K n) (sol : SolVec P K F) : Except Err (SolVec P K F) :=
  linear_solve o m ps bonds (lower csgb.perturb.seq) (lower csgb.perturb.req) csgb.inputs csgb.outs sol

/-- `solver_algorithm.py` l.460-526, `driven_solution_get` -/
def driven_solution_get (o : Graph.Opts (P × K) F) (m : Algo P K F) (ps : List (Pair P K F)) (bonds : SetDict P K)
    (csgb : Csgb P K n) (outs : List (P × K)) (sol : SolVec P K F) : Except Err (SolVec P K F) := do
  let om ← linear_solve o m ps bonds (lower csgb.full.seq) (lower csgb.full.req) csgb.inputs outs sol
  pure (readout_vector outs om)

end Floating
