import Verif.Solve.Linear

/-! # Where the stopping rule and the orders fail, and examples for C107 and C108 -/

namespace Solve
open Py Inject

/-- `a = 1 - b`, `b = c a`, `c = 1`. -/
def vaCouplings : List (Coupling (Fin 3) Unit ℚ) :=
  [.source (2, ()) 1, .source (0, ()) 1, .multSource (0, ()) (-1) [(1, ())], .multEdge (2, ()) (1, ()) 1 [(0, ())]]

def vaPorts : Dict (Fin 3) (List Unit) := [(0, [()]), (1, [()]), (2, [()])]

def vaBonds : SR (Fin 3 × Unit) := ⟨[], []⟩

def vaOpts : Graph.Opts (Fin 3 × Unit) ℚ where
  lt := fun a b => decide (a.1 < b.1)
  pick := fun l => l.headD (.node (0, ()))
  size := fun _ => 1

/-- Its solver object; the readouts are the fields `a` and `b`. -/
def vaSys (m : Algo (Fin 3) Unit ℚ) (st : SG (Fin 3 × Unit)) : Sys (SolVec (Fin 3) Unit ℚ) (SolVec (Fin 3) Unit ℚ) Unit Unit ℚ :=
  object abs vaOpts (fun l => l.headD (0, ())) m vaBonds.seq st (fun _ => [(0, ()), (1, ())]) (fun _ _ => .ok ()) 1000000
    (1 / 100000) 20 10 none

def vaRun : Except Err (Algo (Fin 3) Unit ℚ × Option (SG (Fin 3 × Unit) × List (Order (SolVec (Fin 3) Unit ℚ) (SolVec (Fin 3) Unit ℚ) Unit ℚ) ×
    (SolVec (Fin 3) Unit ℚ × Book (SolVec (Fin 3) Unit ℚ) (SolVec (Fin 3) Unit ℚ) Unit Unit ℚ) ×
    SolVec (Fin 3) Unit ℚ × SolVec (Fin 3) Unit ℚ × SolVec (Fin 3) Unit ℚ × SolVec (Fin 3) Unit ℚ)) := do
  let m ← insert_all vaPorts (vaCouplings.map Coupling.inj)
  let st ← coherent_sparsity_graph (fun l => l.headD (0, ())) 40 vaBonds m
  match st with
  | none => pure (m, none)
  | some st => do
    let bs ← solve (vaSys m st) none (vaSys m st).start.orders
    let r ← driven (vaSys m st) () none ⟨bs, []⟩
    let x1 ← vaSys m st |>.iterate []
    let x2 ← vaSys m st |>.iterate x1
    let x3 ← vaSys m st |>.iterate x2
    let x4 ← vaSys m st |>.iterate x3
    pure (m, some (st, bs, r, x1, x2, x3, x4))

theorem vaRun_spec : ∃ m st bs b', insert_all vaPorts (vaCouplings.map Coupling.inj) = .ok m ∧
    coherent_sparsity_graph (fun l => l.headD (0, ())) 40 vaBonds m = .ok (some st) ∧
    solve (vaSys m st) none (vaSys m st).start.orders = .ok bs ∧ bs.length = 4 ∧
    driven (vaSys m st) () none ⟨bs, []⟩ = .ok ([((0, ()), 0), ((1, ()), 1)], b') ∧
    ∃ x1 x2 x3, (vaSys m st).iterate [] = .ok x1 ∧ (vaSys m st).iterate x1 = .ok x2 ∧ (vaSys m st).iterate x2 = .ok x3 ∧
      (vaSys m st).iterate x3 = .ok [] := by
  have h : (match vaRun with
      | .ok (_, some (_, bs, r, _, _, _, x4)) => decide (bs.length = 4 ∧ r.1 = [((0, ()), 0), ((1, ()), 1)] ∧ x4 = [])
      | _ => false) = true := by decide +kernel
  cases hr : vaRun with
  | error e => rw [hr] at h; cases h
  | ok q =>
    rw [hr] at h
    unfold vaRun at hr
    obtain ⟨m, hm, hr1⟩ := bind_ok_inv hr
    obtain ⟨st, hst, hr2⟩ := bind_ok_inv hr1
    cases st with
    | none => injection hr2 with hr2; subst hr2; cases h
    | some st =>
      obtain ⟨bs, hs, hr3⟩ := bind_ok_inv hr2
      obtain ⟨⟨r, b'⟩, hd, hr4⟩ := bind_ok_inv hr3
      obtain ⟨x1, k1, hr4⟩ := bind_ok_inv hr4
      obtain ⟨x2, k2, hr4⟩ := bind_ok_inv hr4
      obtain ⟨x3, k3, hr4⟩ := bind_ok_inv hr4
      obtain ⟨x4, k4, hr4⟩ := bind_ok_inv hr4
      injection hr4 with hr4
      subst hr4
      obtain ⟨h1, h2, h3⟩ := of_decide_eq_true h
      dsimp only at h2 h3
      subst h2
      subst h3
      exact ⟨m, st, bs, b', hm, hst, hs, h1, hd, x1, x2, x3, k1, k2, k3, k4⟩

/-- **C107** does not hold as a whole: a field that disappears is not compared.  Of `a = 1 - b`, `b = c a`, `c = 1` the iterates are
`(1, 0)`, `(1, 1)`, `(0, 1)`; the solver stops there, since `b` did not change and `a` is absent, long before the limit of orders, and
returns `a = 0`, `b = 1` though `b = c a` fails.  The solution is `a = b = 1/2`. -/
theorem C107_stop_refuted : ∃ m st bs b', insert_all vaPorts (vaCouplings.map Coupling.inj) = .ok m ∧
    coherent_sparsity_graph (fun l => l.headD (0, ())) 40 vaBonds m = .ok (some st) ∧
    solve (vaSys m st) none (vaSys m st).start.orders = .ok bs ∧ bs.length = 4 ∧
    driven (vaSys m st) () none ⟨bs, []⟩ = .ok ([((0, ()), 0), ((1, ()), 1)], b') := by
  obtain ⟨m, st, bs, b', h1, h2, h3, h4, h5, _⟩ := vaRun_spec
  exact ⟨m, st, bs, b', h1, h2, h3, h4, h5⟩

/-- The run of `C107_stop_refuted` meets the hypotheses of `C107_stop_partial`. -/
example : ∃ m st bs, solve (vaSys m st) none (vaSys m st).start.orders = .ok bs ∧ (0 : ℚ) < 1 / 100000 ∧ 0 < 20 := by
  obtain ⟨m, st, bs, _, _, _, h, _⟩ := C107_stop_refuted
  exact ⟨m, st, bs, h, by norm_num, by norm_num⟩

/-! ### A linear system: a loop of gain 1/2 -/

def loCouplings : List (Coupling (Fin 2) Unit ℚ) := [.source (0, ()) 1, .edge (0, ()) (1, ()) (1 / 2), .edge (1, ()) (0, ()) 1]

def loPorts : Dict (Fin 2) (List Unit) := [(0, [()]), (1, [()])]

def loBonds : SR (Fin 2 × Unit) := ⟨[], []⟩

def loOpts : Graph.Opts (Fin 2 × Unit) ℚ where
  lt := fun a b => decide (a.1 < b.1)
  pick := fun l => l.headD (.node (0, ()))
  size := fun _ => 1

def loSys (m : Algo (Fin 2) Unit ℚ) (st : SG (Fin 2 × Unit)) : Sys (SolVec (Fin 2) Unit ℚ) (SolVec (Fin 2) Unit ℚ) Unit Unit ℚ :=
  object abs loOpts (fun l => l.headD (0, ())) m loBonds.seq st (fun _ => [(0, ()), (1, ())]) (fun _ _ => .ok ()) 1000000
    (1 / 100000) 20 10 none

def loRun : Except Err (Algo (Fin 2) Unit ℚ × Option (SG (Fin 2 × Unit) × List (Order (SolVec (Fin 2) Unit ℚ) (SolVec (Fin 2) Unit ℚ) Unit ℚ) ×
    (SolVec (Fin 2) Unit ℚ × Book (SolVec (Fin 2) Unit ℚ) (SolVec (Fin 2) Unit ℚ) Unit Unit ℚ))) := do
  let m ← insert_all loPorts (loCouplings.map Coupling.inj)
  let st ← coherent_sparsity_graph (fun l => l.headD (0, ())) 40 loBonds m
  match st with
  | none => pure (m, none)
  | some st => do
    let bs ← solve (loSys m st) none (loSys m st).start.orders
    let r ← driven (loSys m st) () none ⟨bs, []⟩
    pure (m, some (st, bs, r))

/-- The hypotheses of `C107_linear` are met, and the readouts are `2` and `1`. -/
example : ∃ m st bs b', insert_all loPorts (loCouplings.map Coupling.inj) = .ok m ∧ (∀ c ∈ loCouplings, c.factors = []) ∧
    loBonds.WF ∧ (∀ a b, mem loBonds.seq a b ↔ mem loBonds.req b a) ∧
    coherent_sparsity_graph (fun l => l.headD (0, ())) 40 loBonds m = .ok (some st) ∧
    solve (loSys m st) none (loSys m st).start.orders = .ok bs ∧
    driven (loSys m st) () none ⟨bs, []⟩ = .ok ([((0, ()), 2), ((1, ()), 1)], b') := by
  have h : (match loRun with
      | .ok (_, some (_, bs, r)) => decide (bs.length ≤ 4 ∧ r.1 = [((0, ()), 2), ((1, ()), 1)])
      | _ => false) = true := by decide +kernel
  cases hr : loRun with
  | error e => rw [hr] at h; cases h
  | ok q =>
    rw [hr] at h
    unfold loRun at hr
    obtain ⟨m, hm, hr1⟩ := bind_ok_inv hr
    obtain ⟨st, hst, hr2⟩ := bind_ok_inv hr1
    cases st with
    | none => injection hr2 with hr2; subst hr2; cases h
    | some st =>
      obtain ⟨bs, hs, hr3⟩ := bind_ok_inv hr2
      obtain ⟨⟨r, b'⟩, hd, hr4⟩ := bind_ok_inv hr3
      injection hr4 with hr4
      subst hr4
      obtain ⟨h1, h2⟩ := of_decide_eq_true h
      dsimp only at h2
      subst h2
      refine ⟨m, st, bs, b', hm, ?_, ?_, by decide, hst, hs, hd⟩
      · intro c hc
        simp only [loCouplings, List.mem_cons, List.not_mem_nil, or_false] at hc
        rcases hc with rfl | rfl | rfl <;> rfl
      · refine ⟨⟨Dict.WF_nil, ?_⟩, ⟨Dict.WF_nil, ?_⟩⟩ <;> intro p hp <;> cases hp

/-! ### Orders -/

/-- A system whose operating point counts the steps. -/
def tick : Sys Nat Nat Nat Unit ℕ where
  iterate := fun s => .ok (s + 1)
  read := fun _ s => .ok s
  couple := fun _ s => .ok (10 * s)
  delta := fun _ s => (20 - s, true)
  init := 0
  inf := 1000000
  max_epsilon := 15
  max_N := 20
  warning_N := 10
  exact_order := none

/-- **C108** fails for order 0: it is read at the last operating point found so far, so that it depends on what was asked for before. -/
theorem C108_order_zero_refuted : ¬ ∀ (S : Type) (y : Sys S Nat Nat Unit ℕ) (c1 c2 : List (Call Unit)) b1 b2 r1 r2 b1' b2',
    c1.foldlM (Call.run y) y.start = .ok b1 → c2.foldlM (Call.run y) y.start = .ok b2 →
    driven y () (some 0) b1 = .ok (r1, b1') → driven y () (some 0) b2 = .ok (r2, b2') → r1 = r2 := by
  intro h
  have := h Nat tick [.solve (some 1)] [.solve (some 3)] _ _ 1 3 _ _ rfl rfl rfl rfl
  exact absurd this (by decide)

/-- The hypotheses of `C108_history`: solutions of order 2 after several uses, at the first iterate. -/
example : ∃ b b', ([.solve none, .coupling ((), ()) (some 3), .driven () (some 4), .pert (some 7)] : List (Call Unit)).foldlM (Call.run tick) tick.start = .ok b ∧
    driven tick () (some (((1 : Nat) : Int) + 1)) b = .ok (1, b') :=
  ⟨_, _, rfl, rfl⟩

/-- The hypotheses of `C107_returns`: the iterates of the first system have the period 4. -/
example : ∃ (m : Algo (Fin 3) Unit ℚ) (st : SG (Fin 3 × Unit)) (x : Nat → SolVec (Fin 3) Unit ℚ), x 0 = [] ∧
    ∀ k, Inject.perturbation_iterate vaOpts (fun l => l.headD (0, ())) m vaBonds.seq st (x k) = .ok (x (k + 1)) := by
  obtain ⟨m, st, _, _, _, _, _, _, _, x1, x2, x3, k1, k2, k3, k4⟩ := vaRun_spec
  refine ⟨m, st, fun k => if k % 4 = 0 then [] else if k % 4 = 1 then x1 else if k % 4 = 2 then x2 else x3, rfl, fun k => ?_⟩
  show (vaSys m st).iterate _ = _
  have : k % 4 = 0 ∨ k % 4 = 1 ∨ k % 4 = 2 ∨ k % 4 = 3 := by omega
  rcases this with h | h | h | h
  · have e : (k + 1) % 4 = 1 := by omega
    simpa [h, e] using k1
  · have e : (k + 1) % 4 = 2 := by omega
    simpa [h, e] using k2
  · have e : (k + 1) % 4 = 3 := by omega
    simpa [h, e] using k3
  · have e : (k + 1) % 4 = 0 := by omega
    simpa [h, e] using k4

end Solve
