import Mathlib.Algebra.BigOperators.Group.List.Basic
import Verif.Inject.Model

/-!
# What the couplings stand for

`Coupling` lists the coupling classes with their arguments, `Coupling.term` the physical quantity each of
them stands for as a (nonlinear) function of the fields `x`, without any reference to edges, sources or a
previous solution.
-/

set_option linter.unusedSectionVars false

namespace Inject
open Py

variable {P K F : Type} [DecidableEq P] [DecidableEq K] [Field F] [DecidableEq F]

/-- The coupling classes of `matrix_injections.py` with their constructor arguments. -/
inductive Coupling (P K F : Type)
  | edge (pkfrom pkto : P × K) (cplg : F)
  | source (pksrc : P × K) (cplg : F)
  | multEdge (pkfrom pkto : P × K) (cplg : F) (l : List (P × K))
  | multSource (pksrc : P × K) (cplg : F) (l : List (P × K))
  | triplet (pkfrom1 pkfrom2 pkto : P × K) (cplg : F)
  | tripletNorm (pkfrom1 pkfrom2 pkto pknorm : P × K) (cplg : F) (pknorm_func : F → F)
  | tripletNorms (pkfrom1 pkfrom2 pkto : P × K) (pknorms : List (P × K)) (cplg : F)
      (pknorms_func : List F → F)

namespace Coupling

/-- The injection the constructor builds. -/
def inj : Coupling P K F → Inj P K F
  | edge f t c => ConstantEdgeCoupling f t c
  | source t c => ConstantSourceCoupling t c
  | multEdge f t c l => MultiplicativeEdgeCoupling f t c l
  | multSource t c l => MultiplicativeSourceCoupling t c l
  | triplet p q t c => TripletCoupling p q t c
  | tripletNorm p q t n c N => TripletNormCoupling p q t n c N
  | tripletNorms p q t ns c N => TripletNormsCoupling p q t ns c N

/-- The node the coupling drives. -/
def target : Coupling P K F → P × K
  | edge _ t _ | source t _ | multEdge _ t _ _ | multSource t _ _ | triplet _ _ t _
  | tripletNorm _ _ t _ _ _ | tripletNorms _ _ t _ _ _ => t

/-- The quantity the coupling adds to its target, as a function of the fields. -/
def term (x : P × K → F) : Coupling P K F → F
  | edge f _ c => c * x f
  | source _ c => c
  | multEdge f _ c l => c * (l.map x).prod * x f
  | multSource _ c l => c * (l.map x).prod
  | triplet p q _ c => c * x p * x q
  | tripletNorm p q _ n c N => c * x p * x q / N (x n)
  | tripletNorms p q _ ns c N => c * x p * x q / N (ns.map x)

/-- What the coupling adds to the node `t`. -/
def into (x : P × K → F) (t : P × K) (c : Coupling P K F) : F := if c.target = t then c.term x else 0

/-- The factors read from the solution (absent ones are zero). -/
def factors : Coupling P K F → List (P × K)
  | edge _ _ _ | source _ _ => []
  | multEdge _ _ _ l | multSource _ _ l => l
  | triplet p q _ _ | tripletNorm p q _ _ _ _ | tripletNorms p q _ _ _ _ => [p, q]

/-- The nodes read as normalisation. -/
def norms : Coupling P K F → List (P × K)
  | tripletNorm _ _ _ n _ _ => [n]
  | tripletNorms _ _ _ ns _ _ => ns
  | _ => []

/-- The normalisation does not vanish. -/
def Normed (x : P × K → F) : Coupling P K F → Prop
  | tripletNorm _ _ _ n _ N => N (x n) ≠ 0
  | tripletNorms _ _ _ ns _ N => N (ns.map x) ≠ 0
  | _ => True

/-- The normalisation function does not see the `1e-30` which only the source of
`TripletNormCoupling` adds (l.301). -/
def Unshifted (x : P × K → F) : Coupling P K F → Prop
  | tripletNorm p q _ n _ N => p ≠ q → N (x n + 1 / 10 ^ 30) = N (x n)
  | _ => True

/-- The solution vector holds the fields `x` at the nodes the coupling reads. -/
def Agrees (sol : SolVec P K F) (x : P × K → F) (c : Coupling P K F) : Prop :=
  (∀ pk ∈ c.factors, getd sol pk 0 = x pk) ∧ ∀ pk ∈ c.norms, Dict.get? sol pk = some (x pk)

end Coupling

/-- The value of a function of the solution, when it has one. -/
def evalD (sol : SolVec P K F) (f : Func P K F) : F :=
  match f sol with
  | .ok v => v
  | .error _ => 0

/-- What an injection adds to the node `t` in the linear system built on the previous solution `sol`, when
the unknown fields are `y`: its edges act on `y`, its sources are added. -/
def Inj.linear (sol : SolVec P K F) (y : P × K → F) (t : P × K) (i : Inj P K F) : F :=
  (i.edges.map (fun e => if e.1.2 = t then evalD sol e.2 * y e.1.1 else 0)).sum
    + (i.sources.map (fun s => if s.1 = t then evalD sol s.2 else 0)).sum

/-- The value at `t` of the matrix acting on the fields `y`. -/
def matSum (mat : Dict ((P × K) × (P × K)) F) (y : P × K → F) (t : P × K) : F :=
  (mat.map (fun e => if e.1.2 = t then e.2 * y e.1.1 else 0)).sum

/-- The fields `y` solve the generated (scattering) system `y = M y + s` at the node `t`. -/
def Solves (mat : Dict ((P × K) × (P × K)) F) (src : Dict (P × K) F) (y : P × K → F) (t : P × K) : Prop :=
  y t = matSum mat y t + (Dict.get? src t).getD 0

/-- The members of a set in a dictionary of sets. -/
def mem (d : SetDict P K) (k x : P × K) : Prop := x ∈ (Dict.get? d k).getD []

instance (d : SetDict P K) (k x : P × K) : Decidable (mem d k x) :=
  inferInstanceAs (Decidable (x ∈ (Dict.get? d k).getD []))

/-- A python dictionary of sets: no key twice, no member twice. -/
def SetWF (d : SetDict P K) : Prop := Dict.WF d ∧ ∀ kv ∈ d, kv.2.Nodup

end Inject
