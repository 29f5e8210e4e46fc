import Verif.Graph.Model
import Mathlib.Algebra.BigOperators.Group.Finset.Basic
import Mathlib.Data.Matrix.Mul
import Mathlib.LinearAlgebra.Matrix.NonsingularInverse
import Mathlib.Logic.Relation

/-!
# Specification of the graph solvers

The meaning of a sparse matrix is the family of its edge values; the meaning of a solve is the solution
of `x t = Σ r, edge(r,t) * x r + source t`.
-/

namespace Graph
open Py

variable {N : Type} {V : Type} [DecidableEq N]

/-- The gain from `a` to `b`: the stored edge value when the adjacency lists the edge, else 0. -/
def W [Zero V] (g : G N V) (a b : N) : V :=
  if b ∈ g.succ a then (Dict.get? g.em (a, b)).getD 0 else 0

/-- Forward and backward adjacency are mirror images, every listed edge has a value, and no node is listed
twice (C17). -/
structure Balanced (g : G N V) : Prop where
  mirror : ∀ a b, b ∈ g.succ a ↔ a ∈ g.pred b
  valued : ∀ a b, b ∈ g.succ a → (Dict.get? g.em (a, b)).isSome
  nodup_succ : ∀ a, (g.succ a).Nodup
  nodup_pred : ∀ a, (g.pred a).Nodup

/-- `x` solves the signal flow equations of gains `w` at the nodes in `T`. -/
def Sol [Field V] [Fintype N] (w : N → N → V) (T : Set N) (x : N → V) : Prop :=
  ∀ t ∈ T, x t = ∑ r, w r t * x r

/-- Reachability along edges. -/
def Reach (g : G N V) : N → N → Prop := Relation.ReflTransGen (fun a b => b ∈ g.succ a)

/-! ## What a user of the solver sees -/

/-- There is a stored edge from `a` to `b`. -/
def Edge (g : G N V) (a b : N) : Prop := (Dict.get? g.em (a, b)).isSome

/-- The matrix entry: the stored edge value, else 0. -/
def gain [Zero V] (g : G N V) (a b : N) : V := (Dict.get? g.em (a, b)).getD 0

/-- Some node of `S` drives `n`. -/
def Driven (g : G N V) (S : List N) (n : N) : Prop := ∃ s ∈ S, Relation.ReflTransGen (Edge g) s n

/-- Some output sees `n`. -/
def Seen (g : G N V) (outs : List N) (n : N) : Prop := ∃ o ∈ outs, Relation.ReflTransGen (Edge g) n o

/-- `x` solves `x = M x + src` at every node that is driven and seen, with undriven nodes at rest. -/
structure Solves [Field V] [Fintype N] (g : G N V) (S outs : List N) (src : N → V) (x : N → V) : Prop where
  rest : ∀ n, ¬ Driven g S n → x n = 0
  eqn : ∀ n, Driven g S n → Seen g outs n → x n = (∑ r, gain g r n * x r) + src n

/-- The matrix `M` with `M t r` the gain from `r` to `t`. -/
def mat [Zero V] (g : G N V) : Matrix N N V := fun t r => gain g r t

/-- The source vector. -/
def srcVec [Zero V] (m : Dict N V) (n : N) : V := (Dict.get? m n).getD 0

/-- The sign set by the `negative` option. -/
def sgn [Field V] (negative : Bool) : V := if negative then -1 else 1

/-- What the callers supply: dictionaries without repeated keys, sets without repeated elements, and
every stored edge listed in both adjacency maps.  Adjacency without a value is allowed. -/
structure Valid (g : G N V) : Prop where
  ws : Dict.WF g.seq
  wr : Dict.WF g.req
  nds : ∀ a, (g.succ a).Nodup
  ndp : ∀ a, (g.pred a).Nodup
  listed : ∀ a b, (Dict.get? g.em (a, b)).isSome → b ∈ g.succ a ∧ a ∈ g.pred b

/-- The operations the solver applies to its maps. -/
inductive Op (N : Type)
  | prePurge
  | purge (forward : Bool) (start : List N)
  | reduce (n : N)

/-- Apply one operation. -/
def Op.apply [Field V] [DecidableEq V] [Fintype N] (pick : List N → N) : Op N → G N V → Except Err (G N V)
  | .prePurge, g => .ok (pre_purge g)
  | .purge f s, g => color_purge pick f s g
  | .reduce n, g => (elim ⟨g, []⟩ n).map (·.g)

/-- Apply a sequence of operations. -/
def runOps [Field V] [DecidableEq V] [Fintype N] (pick : List N → N) : List (Op N) → G N V → Except Err (G N V)
  | [], g => .ok g
  | op :: ops, g => do runOps pick ops (← op.apply pick g)

end Graph
