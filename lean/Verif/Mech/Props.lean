import Verif.Circuit.Props

/-!
# C89, C90: the mechanical elements
-/

set_option linter.unusedSectionVars false

namespace Circuit
open Py Inject

variable {P K F : Type} [DecidableEq P] [DecidableEq K] [Field F] [DecidableEq F]

/-! ## C89: the hypotheses are met -/

/-- An element of each kind; the lever in space has the length `3 = √(1² + 2² + 2²)`. -/
def mechElems : List (Mech ℕ ℚ) :=
  [.one (.damper 3) (cxPort 0), .one (.spring 5 none) (cxPort 0), .one (.spring 5 (some fun f => f / 10)) (cxPort 0),
    .one (.mass 2) (cxPort 0), .two (.damper 3) (cxPort 0) (cxPort 1), .two (.spring 5 none) (cxPort 0) (cxPort 1),
    .two (.mass 2) (cxPort 0) (cxPort 1), .cable 5 (3 / 4) (fun _ => 1 / 2) (cxPort 0) (cxPort 1),
    .zconv 7 (1 / 10 ^ 18) (cxPort 0) (cxPort 1), .lever 4 (cxPort 0) (cxPort 1) (cxPort 2),
    .xyz ⟨1, 2, 2⟩ 3 (by norm_num [V3.dot]) ⟨cxPort 0, cxPort 1, cxPort 2⟩ ⟨cxPort 3, cxPort 4, cxPort 5⟩
      ⟨cxPort 6, cxPort 7, cxPort 8⟩]

example : (mechElems.all fun m => isOk (m.setup cxEnv)) = true ∧
    ∀ m ∈ mechElems, (∀ p, (cxEnv.keys p).Nodup) ∧ (∀ p ∈ m.ports, 7 ∈ cxEnv.keys p.i) ∧
      (m.ports.map Port.o).Nodup := by
  refine ⟨by decide +kernel, ?_⟩
  intro m hm
  refine ⟨fun _ => (by decide : [0, 1, 7].Nodup), fun _ _ => by simp [cxEnv], ?_⟩
  simp only [mechElems, List.mem_cons, List.not_mem_nil, or_false] at hm
  rcases hm with rfl | rfl | rfl | rfl | rfl | rfl | rfl | rfl | rfl | rfl | rfl <;>
    simp [Mech.ports, cxPort]

/-! ## C90: levers -/

/-- The levers. -/
def Mech.Lever : Mech P F → Prop
  | .lever _ _ _ _ => True
  | .xyz _ _ _ _ _ _ => True
  | _ => False

theorem lever_work {env : Env P K F} {m : Mech P F} (hm : m.Lever) {k k' : K} {D G D' G' : Port P → F}
    (h : m.Law env k D G) (h' : m.Law env k' D' G') : (m.ports.map (fun p => D p * G' p)).sum = 0 := by
  cases m with
  | lever d A C L =>
    simp only [Mech.Law, Mech.ports, List.map_cons, List.map_nil, List.sum_cons, List.sum_nil] at *
    obtain ⟨h1, -, -⟩ := h
    obtain ⟨-, h2, h3⟩ := h'
    linear_combination G' A * h1 + D C * h2 + D L * h3
  | xyz dv d root A C L =>
    simp only [Mech.Law, Mech.ports, List.map_cons, List.map_nil, List.sum_cons, List.sum_nil] at *
    obtain ⟨⟨a1, a2, a3⟩, -, -⟩ := h
    obtain ⟨-, ⟨b1, b2, b3⟩, c1, c2, c3⟩ := h'
    linear_combination G' A.X * a1 + G' A.Y * a2 + G' A.Z * a3 + D C.X * b1 + D C.Y * b2 + D C.Z * b3 +
      D L.X * c1 + D L.Y * c2 + D L.Z * c3
  | _ => exact hm.elim

theorem sum_orth {α : Type} (l : List α) (a b a' b' : α → F)
    (h1 : (l.map (fun p => (a p + b p) * (a' p - b' p))).sum = 0)
    (h2 : (l.map (fun p => (a' p + b' p) * (a p - b p))).sum = 0) :
    2 * (l.map (fun p => a p * a' p)).sum = 2 * (l.map (fun p => b p * b' p)).sum := by
  have key : (l.map (fun p => (a p + b p) * (a' p - b' p))).sum + (l.map (fun p => (a' p + b' p) * (a p - b p))).sum =
      2 * (l.map (fun p => a p * a' p)).sum - 2 * (l.map (fun p => b p * b' p)).sum := by
    clear h1 h2
    induction l with
    | nil => simp
    | cons p l ih =>
      simp only [List.map_cons, List.sum_cons]
      linear_combination ih
  rw [h1, h2] at key
  linear_combination -key

/-- **C90**: a lever does no work: the forces and torques at its ports for any waves do no work on the displacements and
rotations for any other waves, and the scattering matrix is orthogonal. -/
theorem C90_lever {env : Env P K F} {m : Mech P F} (hm : m.Lever) {cs : List (Coupling P K F)} (h : m.setup env = .ok cs)
    (hn : ∀ p, (env.keys p).Nodup) (hZe : env.Ze ≠ 0) (h2 : (2 : F) ≠ 0) {k k' : K}
    (hk : ∀ p ∈ m.ports, k ∈ env.keys p.i) (hk' : ∀ p ∈ m.ports, k' ∈ env.keys p.i)
    (hd : (m.ports.map Port.o).Nodup) (x : P × K → F) :
    (m.ports.map (fun p => (x (p.i, k) + total cs x (p.o, k)) * ((x (p.i, k') - total cs x (p.o, k')) / env.Ze))).sum = 0 ∧
    (m.ports.map (fun p => total cs x (p.o, k) * total cs x (p.o, k'))).sum =
      (m.ports.map (fun p => x (p.i, k) * x (p.i, k'))).sum := by
  have e := (C89_element h hn hZe h2 hk hd x (fun q => total cs x (q, k))).1 (fun _ _ => rfl)
  have e' := (C89_element h hn hZe h2 hk' hd x (fun q => total cs x (q, k'))).1 (fun _ _ => rfl)
  refine ⟨lever_work hm e e', ?_⟩
  have w1 := lever_work hm e e'
  have w2 := lever_work hm e' e
  have c : ∀ f : Port P → F, ∀ g : Port P → F, (m.ports.map (fun p => f p * (g p / env.Ze))).sum = 0 →
      (m.ports.map (fun p => f p * g p)).sum = 0 := by
    intro f g hfg
    have : (m.ports.map (fun p => f p * g p)).sum = env.Ze * (m.ports.map (fun p => f p * (g p / env.Ze))).sum := by
      generalize m.ports = l
      induction l with
      | nil => simp
      | cons p l ih =>
        simp only [List.map_cons, List.sum_cons, ih, mul_add]
        congr 1
        field_simp
    rw [this, hfg, mul_zero]
  exact (mul_left_cancel₀ h2 (sum_orth _ _ _ _ _ (c _ _ w1) (c _ _ w2))).symm

/-- The two levers of `mechElems` meet the hypotheses, by the example above. -/
example : (mechElems.drop 9).map Mech.ports = [[cxPort 0, cxPort 1, cxPort 2],
      [cxPort 0, cxPort 1, cxPort 2, cxPort 3, cxPort 4, cxPort 5, cxPort 6, cxPort 7, cxPort 8]] ∧
    ((mechElems.drop 9).all fun m => isOk (m.setup cxEnv)) = true ∧ ∀ m ∈ mechElems.drop 9, m.Lever := by
  refine ⟨rfl, by decide +kernel, ?_⟩
  intro m hm
  simp only [mechElems, List.drop_succ_cons, List.drop_zero, List.mem_cons, List.not_mem_nil, or_false] at hm
  rcases hm with rfl | rfl <;> exact trivial

/-! ## C90: `MomentDriver` -/

theorem blocks_error {pre post : List (Except Err (List (Coupling P K F)))} {e : Err}
    (h : ∀ b ∈ pre, ∃ c, b = .ok c) : blocks (pre ++ .error e :: post) = .error e := by
  induction pre with
  | nil => rfl
  | cons b pre ih =>
    obtain ⟨c, rfl⟩ := h b List.mem_cons_self
    rw [List.cons_append, blocks, ih (fun b hb => h b (List.mem_cons_of_mem _ hb))]
    rfl

theorem blocks_fine {bs : List (Except Err (List (Coupling P K F)))} (h : ∀ b ∈ bs, ∃ c, b = .ok c) :
    ∃ c, blocks bs = .ok c := by
  induction bs with
  | nil => exact ⟨_, rfl⟩
  | cons b bs ih =>
    obtain ⟨c, rfl⟩ := h b List.mem_cons_self
    obtain ⟨d, hd⟩ := ih (fun b hb => h b (List.mem_cons_of_mem _ hb))
    refine ⟨c ++ d, ?_⟩
    rw [blocks, hd]
    rfl

theorem inject_entry_fine (env : Env P K F) (skip : Bool) (p q : P) (v : F) :
    ∃ c, inject_entry env skip p q (.ok v) = .ok c := by
  unfold inject_entry
  have : ∀ ks : List K, ∃ css, ks.mapM (fun k => (do
      let c ← (Except.ok v : Except Err F)
      pure (if skip && c = 0 then [] else [Coupling.edge (p, k) (q, k) c]) : Except Err (List (Coupling P K F)))) =
        .ok css := by
    intro ks
    induction ks with
    | nil => exact ⟨_, rfl⟩
    | cons k ks ih =>
      obtain ⟨css, hcss⟩ := ih
      rw [List.mapM_cons, hcss]
      exact ⟨_, rfl⟩
  obtain ⟨css, hcss⟩ := this (env.keys p)
  rw [hcss]
  exact ⟨_, rfl⟩

theorem inject_entry_bad {env : Env P K F} {skip : Bool} {p q : P} {e : Err} (h : env.keys p ≠ []) :
    inject_entry env skip p q (.error e) = .error e := by
  unfold inject_entry
  cases hk : env.keys p with
  | nil => exact absurd hk h
  | cons k ks =>
    rw [List.mapM_cons]
    rfl

theorem matrix_inject_fine {env : Env P K F} {skip : Bool} {ps qs : List (Port P)} {M : Arr F}
    (h1 : ps.length ≤ M.rows) (h2 : qs.length ≤ M.cols) : ∃ c, matrix_inject env skip ps qs M = .ok c := by
  refine blocks_fine ?_
  intro b hb
  obtain ⟨⟨p1, i1⟩, m1, hb⟩ := List.mem_flatMap.1 hb
  obtain ⟨⟨p2, i2⟩, m2, rfl⟩ := List.mem_map.1 hb
  have l1 := (List.mem_zipIdx' m1).1
  have l2 := (List.mem_zipIdx' m2).1
  have : M.at i1 i2 = .ok (M.val i1 i2) := if_pos ⟨by omega, by omega⟩
  dsimp only
  rw [this]
  exact inject_entry_fine ..

/-- **C90** fails for `MomentDriver`: its couplings are never inserted, whatever the vectors and the ports: as soon as the
second port of `pm_B` has a key, `matrix_inject` indexes the array `P_torque`, which has a single row, with the row 1. -/
theorem C90_moment_driver_refuted (env : Env P K F) (dv vv : V3 F) (d v root : F) (A : Port P) (B L : V3 (Port P))
    (hk : env.keys B.Y.i ≠ []) : moment_setup env dv vv d v root A B L = .error .indexError := by
  unfold moment_setup
  dsimp only
  have bad : matrix_inject env false B.list L.list (⟨1, 3, fun _ j => -2 * d / (d ^ 2 + 2) *
      V3.at ⟨-(-(dv.Z / d) * (vv.Y / v) + dv.Y / d * (vv.Z / v)), -(dv.Z / d * (vv.X / v) - dv.X / d * (vv.Z / v)),
        -(-(dv.Y / d) * (vv.X / v) + dv.X / d * (vv.Y / v))⟩ j⟩ : Arr F) = .error .indexError := by
    unfold matrix_inject
    have e1 : Arr.at (⟨1, 3, fun _ j => -2 * d / (d ^ 2 + 2) *
      V3.at ⟨-(-(dv.Z / d) * (vv.Y / v) + dv.Y / d * (vv.Z / v)), -(dv.Z / d * (vv.X / v) - dv.X / d * (vv.Z / v)),
        -(-(dv.Y / d) * (vv.X / v) + dv.X / d * (vv.Y / v))⟩ j⟩ : Arr F) 1 0 = .error .indexError := if_neg (by simp)
    simp only [V3.list, List.zipIdx_cons, List.zipIdx_nil, List.flatMap_cons, List.flatMap_nil, List.map_cons,
      List.map_nil, zero_add]
    rw [e1, inject_entry_bad hk]
    refine blocks_error (pre := [_, _, _]) ?_
    simp only [List.forall_mem_cons]
    refine ⟨?_, ?_, ?_, by simp⟩
    all_goals
      rw [Arr.at, if_pos (by simp)]
      exact inject_entry_fine ..
  rw [bad]
  refine blocks_error (pre := [_, _, _, _, _]) (post := []) ?_
  simp only [List.forall_mem_cons]
  refine ⟨?_, ?_, ?_, ?_, ?_, by simp⟩ <;> exact matrix_inject_fine (by simp [V3.list]) (by simp [V3.list])

/-- Ports with keys. -/
example : cxEnv.keys (cxPort 2).i ≠ [] := by decide

end Circuit
