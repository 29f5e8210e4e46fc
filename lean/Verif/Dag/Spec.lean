import Verif.Dag.Model
import Verif.Graph.Spec

/-!
# What a system in the solver's maps means

Nodes are internal, sources or sinks; `K` says which internal nodes are present.  The weight of `(r, s)` is the stored value of a listed edge.  A
solution assigns a value to every node so that the weighted sum into every present internal node is zero and every
sink equals the weighted sum into it.  The behaviour of a system is the set of values of its sources and sinks that
occur in solutions.
-/

namespace Dag
open Py Graph

variable {M : Type} {V : Type} [DecidableEq M]

/-- The three kinds of node names. -/
inductive Kind
  | int | src | snk
  deriving DecidableEq

/-- The edge is listed in one of the adjacency maps. -/
def Listed (d : D M V) (r s : M) : Prop := s ∈ at' d.seq r ∨ s ∈ at' d.beta r ∨ r ∈ at' d.alpha s

instance (d : D M V) (r s : M) : Decidable (Listed d r s) := by unfold Listed; infer_instance

/-- The weight of an edge. -/
def Cw [Zero V] (d : D M V) (r s : M) : V := if Listed d r s then (Dict.get? d.em (r, s)).getD 0 else 0

/-- `x` solves the system. -/
structure Sol [Field V] [Fintype M] (kind : M → Kind) (K : M → Prop) (d : D M V) (x : M → V) : Prop where
  int : ∀ t, K t → ∑ r, Cw d r t * x r = 0
  snk : ∀ b, kind b = .snk → x b = ∑ r, Cw d r b * x r

/-- The source and sink values `p` occur in a solution. -/
def Behav [Field V] [Fintype M] (kind : M → Kind) (K : M → Prop) (d : D M V) (p : M → V) : Prop :=
  ∃ x, Sol kind K d x ∧ ∀ m, kind m ≠ .int → x m = p m

/-- A dictionary of sets: no repeated keys, no repeated elements. -/
structure LD (d : Dict M (List M)) : Prop where
  wf : Dict.WF d
  nd : ∀ a, (at' d a).Nodup

/-- The maps are consistent: `seq` and `req` mirror each other and list edges between present internal
nodes, `req_alpha` lists edges from sources, `seq_beta` edges to sinks, listed edges have values and stored
values between present nodes are listed. -/
structure Sound (kind : M → Kind) (K : M → Prop) (d : D M V) : Prop where
  mir : ∀ r s, s ∈ at' d.seq r ↔ r ∈ at' d.req s
  si : ∀ r s, s ∈ at' d.seq r → K r ∧ K s
  ki : ∀ r, K r → kind r = .int
  ai : ∀ a s, a ∈ at' d.alpha s → kind a = .src ∧
    (K s ∨ (kind s = .snk ∧ s ∈ at' d.beta a))
  bi : ∀ r b, b ∈ at' d.beta r → kind b = .snk ∧
    (K r ∨ (kind r = .src ∧ r ∈ at' d.alpha b))
  val : ∀ r s, Listed d r s → (Dict.get? d.em (r, s)).isSome
  used : ∀ r s, (kind r = .int → K r) → (kind s = .int → K s) →
    (Dict.get? d.em (r, s)).isSome → Listed d r s
  ls : LD d.seq
  lr : LD d.req
  la : LD d.alpha
  lb : LD d.beta

end Dag
