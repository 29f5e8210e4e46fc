import Verif.Inject.Iterate

/-!
# The iteration over orders

Source: `/repo/phasor/system/solver_algorithm.py` l.80-92, l.318-323, l.384-467, l.524-559, l.594-636.

One step of the iteration, the solution for a set of readouts and the couplings between two sets are parameters here, as functions of the
operating point: `Inject.perturbation_iterate`, `Inject.driven_solution_get` and the solver with transfer edges.  Orders below `-len`
(python would count them from the end once more) are errors.
-/

namespace Solve
open Py

/-- What the bookkeeping works with: `S` operating points, `R` readouts, `C` couplings, `Q` names of sets, `D` sizes of changes. -/
structure Sys (S R C Q D : Type) where
  /-- l.330-383: the next operating point. -/
  iterate : S → Except Err S
  /-- l.469-523. -/
  read : Q → S → Except Err R
  /-- l.560-602, the transfer edges. -/
  couple : Q × Q → S → Except Err C
  /-- `delta_v_compute` l.408-432; the flag says whether `k_worst` is not `None`. -/
  delta : S → S → D × Bool
  /-- l.83: the empty dictionary. -/
  init : S
  inf : D
  max_epsilon : D
  max_N : Nat
  warning_N : Nat
  exact_order : Option Nat

/-- One dictionary of `driven_solution_bunches`: the entry `'perturbative'` with its `delta_v` and `k_worst`, and the others. -/
structure Order (S R Q D : Type) where
  pert : Option (S × D × Bool) := none
  reads : Dict Q R := []

/-- `dict()`. -/
def Order.empty {S R Q D : Type} : Order S R Q D := ⟨none, []⟩

/-- `driven_solution_bunches` and `coupling_solution_bunches`. -/
structure Book (S R C Q D : Type) where
  orders : List (Order S R Q D)
  cs : Dict Int (Dict (Q × Q) C) := []

variable {S R C Q D : Type} [DecidableEq Q] [LinearOrder D]

/-- l.80-92. -/
def Sys.start (y : Sys S R C Q D) : Book S R C Q D := { orders := [{ pert := some (y.init, y.inf, false) }] }

/-- l.318-405, `_perturbation_iterate(N)` when `prev` gives the operating point of order `N - 1`. -/
def iterate_with (y : Sys S R C Q D) (prev : List (Order S R Q D) → Except Err ((S × D × Bool) × List (Order S R Q D))) (N : Nat)
    (bs : List (Order S R Q D)) : Except Err ((S × D × Bool) × List (Order S R Q D)) := do
  let (p, bs) ← prev bs
  let s ← y.iterate p.1
  let b := (s, y.delta p.1 s)
  pure (b, bs.modify N (fun o => { o with pert := some b }))

/-- l.446-461: `driven_solution_get('perturbative', N)` for an order that has a dictionary.  Order 0 has its entry from the start. -/
def pert (y : Sys S R C Q D) : Nat → List (Order S R Q D) → Except Err ((S × D × Bool) × List (Order S R Q D))
  | 0, bs =>
    match (bs[0]?).bind Order.pert with
    | some b => .ok (b, bs)
    | none => .error .keyError
  | N + 1, bs =>
    match bs[N + 1]? with
    | none => .error .indexError
    | some o =>
      match o.pert with
      | some b => .ok (b, bs)
      | none => iterate_with y (pert y N) (N + 1) bs

/-- l.318-405. -/
def perturbation_iterate (y : Sys S R C Q D) (N : Nat) (bs : List (Order S R Q D)) :
    Except Err ((S × D × Bool) × List (Order S R Q D)) :=
  iterate_with y (pert y (N - 1)) N bs

/-- l.607-609 and l.618-632, at most `k` turns; with `stop` the change is tested.  The warning reads `k_worst[0]`. -/
def loop (y : Sys S R C Q D) (stop : Bool) : Nat → List (Order S R Q D) → Except Err (List (Order S R Q D))
  | 0, bs => .ok bs
  | k + 1, bs => do
    let bs := bs ++ [.empty]
    let (b, bs) ← perturbation_iterate y (bs.length - 1) bs
    if stop = true ∧ b.2.1 < y.max_epsilon then .ok bs
    else if stop = true ∧ y.warning_N < bs.length ∧ b.2.2 = false then .error .typeError
    else loop y stop k bs

/-- `solve` l.605-636. -/
def solve (y : Sys S R C Q D) (order : Option Nat) (bs : List (Order S R Q D)) : Except Err (List (Order S R Q D)) :=
  match y.exact_order with
  | some e => do
    let bs ← loop y false (e + 1 - bs.length) bs
    pure (bs ++ [.empty])
  | none => do
    let to_order := order.getD y.max_N
    let bs ← loop y order.isNone (to_order + 1 - bs.length) bs
    pure (if bs.length = to_order then bs ++ [.empty] else bs)

/-- l.435-447: which order is meant, solving for it if there is none yet. -/
def find_order (y : Sys S R C Q D) (N : Option Int) (bs : List (Order S R Q D)) : Except Err (Nat × List (Order S R Q D)) :=
  match N with
  | none => do
    let bs ← if bs.length = 1 then solve y none bs else pure bs
    pure (bs.length - 1, bs)
  | some N =>
    let N := if N < 0 then bs.length + N else N
    if N < 0 then .error .indexError
    else if N < bs.length then .ok (N.toNat, bs)
    else do
      let bs ← solve y (some N.toNat) bs
      if N < bs.length then pure (N.toNat, bs) else .error .indexError

/-- `driven_solution_get('perturbative', N)`. -/
def driven_pert (y : Sys S R C Q D) (N : Option Int) (bs : List (Order S R Q D)) : Except Err (S × List (Order S R Q D)) := do
  let (N, bs) ← find_order y N bs
  let (b, bs) ← pert y N bs
  pure (b.1, bs)

/-- `driven_solution_get(q, N)` for another set, l.434-530. -/
def driven (y : Sys S R C Q D) (q : Q) (N : Option Int) (b : Book S R C Q D) : Except Err (R × Book S R C Q D) := do
  let (N, bs) ← find_order y N b.orders
  match (bs[N]?).bind (fun o => Dict.get? o.reads q) with
  | some r => pure (r, { b with orders := bs })
  | none => do
    let (p, bs) ← driven_pert y (some (N - 1)) bs
    let r ← y.read q p
    pure (r, { b with orders := bs.modify N (fun o => { o with reads := Dict.set o.reads q r }) })

/-- `coupling_solution_get(drive_set, readout_set, N)`, l.532-603; the default is `N = -1`. -/
def coupling (y : Sys S R C Q D) (q : Q × Q) (N : Option Int) (b : Book S R C Q D) : Except Err (C × Book S R C Q D) := do
  let (N, bs) ← match N with
    | none => do
      let (N, bs) ← find_order y none b.orders
      pure ((N : Int), bs)
    | some N => pure (if N ≤ 0 then b.orders.length + N else N, b.orders)
  match (Dict.get? b.cs N).bind (fun d => Dict.get? d q) with
  | some c => pure (c, { b with orders := bs })
  | none => do
    let (p, bs) ← driven_pert y (some (N - 1)) bs
    let c ← y.couple q p
    pure (c, { orders := bs, cs := Dict.set b.cs N (Dict.set ((Dict.get? b.cs N).getD []) q c) })

/-- A use of the solver object. -/
inductive Call (Q : Type)
  | solve (order : Option Nat)
  | pert (N : Option Int)
  | driven (q : Q) (N : Option Int)
  | coupling (q : Q × Q) (N : Option Int)

/-- The bookkeeping after a use that returns. -/
def Call.run (y : Sys S R C Q D) (b : Book S R C Q D) : Call Q → Except Err (Book S R C Q D)
  | .solve order => do
    let bs ← Solve.solve y order b.orders
    pure { b with orders := bs }
  | .pert N => do
    let (_, bs) ← driven_pert y N b.orders
    pure { b with orders := bs }
  | .driven q N => do
    let (_, b) ← Solve.driven y q N b
    pure b
  | .coupling q N => do
    let (_, b) ← Solve.coupling y q N b
    pure b

/-- `delta_v_compute` l.408-432 for scalar values; `ab` is `abs`. -/
def delta_v_compute {P K F : Type} [DecidableEq P] [DecidableEq K] [Field F] {D : Type} [Field D] [LinearOrder D] (ab : F → D)
    (prev new : Inject.SolVec P K F) : D × Option (P × K) :=
  new.foldl (fun acc kv =>
    let v_prev := Inject.getd prev kv.1 0
    let av_maxel := max (ab kv.2) (ab v_prev)
    if av_maxel ≠ 0 ∧ 1 / 10 ^ 16 < av_maxel then
      let local_max := ab (kv.2 - v_prev) / av_maxel
      let d := max acc.1 local_max
      (d, if d = local_max then some kv.1 else acc.2)
    else acc) (0, none)

end Solve
