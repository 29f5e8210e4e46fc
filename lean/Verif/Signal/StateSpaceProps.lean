import Mathlib.Algebra.BigOperators.Fin
import Mathlib.Algebra.BigOperators.Ring.Finset
import Mathlib.Algebra.BigOperators.Field
import Mathlib.LinearAlgebra.Matrix.NonsingularInverse
import Mathlib.Tactic.FieldSimp
import Mathlib.Algebra.Field.Rat
import Mathlib.Data.Fin.VecNotation
import Verif.Signal.StateSpace
import Verif.Circuit.Elements

/-!
# What a state space element computes (C44)
-/

set_option linter.unusedSectionVars false

namespace Signal
open Py Inject Circuit

variable {P K F : Type} [DecidableEq P] [DecidableEq K] [Field F] [DecidableEq F] {nI nO nS : Nat}

theorem blocks_append_sum {as bs : List (Except Err (List (Coupling P K F)))} {x : P × K → F} {t : P × K}
    (h : ∃ e, blocks (as ++ bs) = .ok e) :
    part x t (blocks (as ++ bs)) = (as.map (part x t)).sum + (bs.map (part x t)).sum := by
  obtain ⟨e, he⟩ := h
  rw [he]
  show total e x t = _
  rw [(blocks_sum he).2, List.map_append, List.sum_append]

theorem link_part {a b : P × K} {c v : F} {val : Except Err F} (hv : c ≠ 0 → ∀ w, val = .ok w → w = v)
    (h0 : c = 0 → v = 0) (h : ∃ e, link a b c val = .ok e) (x : P × K → F) (t : P × K) :
    part x t (link a b c val) = if b = t then v * x a else 0 := by
  obtain ⟨e, he⟩ := h
  rw [he]
  show total e x t = _
  unfold link at he
  by_cases hc : c = 0
  · rw [if_neg (not_not.2 hc)] at he
    cases he
    rw [h0 hc, zero_mul, ite_self]
    rfl
  · rw [if_pos hc] at he
    cases val with
    | error e => cases he
    | ok w =>
      cases he
      obtain rfl := hv hc w rfl
      show (total [Coupling.edge a b w] x t) = _
      rw [total_cons, into_edge, total_nil, add_zero]

/-- sum over `Fin` as the list sum over `finRange` -/
theorem finRange_sum {n : Nat} (f : Fin n → F) : ((List.finRange n).map f).sum = ∑ i, f i :=
  (Fin.sum_univ_def f).symm

theorem pdiv_eq {a b w : F} (h : pdiv a b = .ok w) : w = a / b := (pdiv_ok h).2

theorem in_block_part {env : Env P K F} {m : StateSpace P F nI nO nS} {i : Fin nI} {k : K}
    (h : ∃ e, in_block env m i k = .ok e) (x : P × K → F) (t : P × K) :
    part x t (in_block env m i k) =
      (∑ s, if (m.p_state s, k) = t then m.B s i / (env.freq k * env.i2pi) * x (m.p_in i, k) else 0) +
      ∑ o : Fin nO, ∑ s : Fin nS, if s.val = o.val ∧ (m.p_state s, k) = t then m.D o i * x (m.p_in i, k) else 0 := by
  have h0 := h
  obtain ⟨e, he⟩ := h0
  have hall := (blocks_sum he).1
  unfold in_block at h ⊢
  rw [blocks_append_sum h, List.map_map, List.map_map, finRange_sum, finRange_sum]
  congr 1
  · apply Finset.sum_congr rfl
    intro s _
    refine link_part (fun _ w hw => pdiv_eq hw) (fun hc => by rw [hc, zero_div]) ?_ x t
    exact hall _ (List.mem_append_left _ (List.mem_map_of_mem (List.mem_finRange s)))
  · apply Finset.sum_congr rfl
    intro o _
    have ho := hall _ (List.mem_append_right _ (List.mem_map_of_mem (List.mem_finRange o)))
    show part x t (dite _ _ _) = _
    by_cases hl : o.val < nS
    · rw [dif_pos hl] at ho ⊢
      rw [link_part (v := m.D o i) (fun _ w hw => by cases hw; rfl) (fun hc => hc) ho x t]
      rw [Finset.sum_eq_single (⟨o.val, hl⟩ : Fin nS)]
      · simp only [true_and]
      · intro s _ hs
        rw [if_neg]
        rintro ⟨h1, _⟩
        exact hs (Fin.ext h1)
      · intro hx
        exact absurd (Finset.mem_univ _) hx
    · rw [dif_neg hl] at ho
      obtain ⟨e, he⟩ := ho
      cases he

theorem state_block_part {env : Env P K F} {m : StateSpace P F nI nO nS} {s : Fin nS} {k : K}
    (h : ∃ e, state_block env m s k = .ok e) (x : P × K → F) (t : P × K) :
    part x t (state_block env m s k) =
      (∑ s', if (m.p_state s', k) = t then m.A s' s / (env.freq k * env.i2pi) * x (m.p_state s, k) else 0) +
      ∑ o : Fin nO, if (m.p_out o, k) = t then m.C o s * x (m.p_state s, k) else 0 := by
  have h0 := h
  obtain ⟨e, he⟩ := h0
  have hall := (blocks_sum he).1
  unfold state_block at h ⊢
  rw [blocks_append_sum h, List.map_map, List.map_map, finRange_sum, finRange_sum]
  congr 1
  · apply Finset.sum_congr rfl
    intro s' _
    refine link_part (fun _ w hw => pdiv_eq hw) (fun hc => by rw [hc, zero_div]) ?_ x t
    exact hall _ (List.mem_append_left _ (List.mem_map_of_mem (List.mem_finRange s')))
  · apply Finset.sum_congr rfl
    intro o _
    refine link_part (fun _ w hw => by cases hw; rfl) (fun hc => hc) ?_ x t
    exact hall _ (List.mem_append_right _ (List.mem_map_of_mem (List.mem_finRange o)))

/-- one key contributes to a target at that key -/
theorem keyed_sum {ks : List K} (hn : ks.Nodup) {k : K} (hk : k ∈ ks) (f : K → F) (h0 : ∀ k' ∈ ks, k' ≠ k → f k' = 0) :
    (ks.map f).sum = f k := by
  have : ks.map f = ks.map (fun k' => if id k' = id k then f k' else 0) := by
    apply List.map_congr_left
    intro k' hk'
    show f k' = if k' = k then f k' else 0
    by_cases h : k' = k
    · rw [if_pos h]
    · rw [if_neg h, h0 k' hk' h]
  rw [this, sum_unique id f (by rwa [List.map_id]) hk]

theorem setup_total {env : Env P K F} {skip : K → Bool} {m : StateSpace P F nI nO nS} {cs : List (Coupling P K F)}
    (h : m.setup env skip = .ok cs) (hn : ∀ p, (env.keys p).Nodup) {k : K} (hs : skip k = false)
    (hi : ∀ i, k ∈ env.keys (m.p_in i)) (hst : ∀ s, k ∈ env.keys (m.p_state s)) (x : P × K → F) (q : P) :
    total cs x (q, k) =
      (∑ i, part x (q, k) (in_block env m i k)) + ∑ s, part x (q, k) (state_block env m s k) ∧
    (∀ i, ∃ e, in_block env m i k = .ok e) ∧ ∀ s, ∃ e, state_block env m s k = .ok e := by
  obtain ⟨hall, hsum⟩ := blocks_sum h
  have hin : ∀ i, ∀ k' ∈ (env.keys (m.p_in i)).filter (fun k => !skip k), ∃ e, in_block env m i k' = .ok e := by
    intro i k' hk'
    exact hall _ (List.mem_append_left _ (List.mem_flatMap.2 ⟨i, List.mem_finRange i, List.mem_map_of_mem hk'⟩))
  have hsn : ∀ s, ∀ k' ∈ (env.keys (m.p_state s)).filter (fun k => !skip k), ∃ e, state_block env m s k' = .ok e := by
    intro s k' hk'
    exact hall _ (List.mem_append_right _ (List.mem_flatMap.2 ⟨s, List.mem_finRange s, List.mem_map_of_mem hk'⟩))
  have hki : ∀ i, k ∈ (env.keys (m.p_in i)).filter (fun k => !skip k) := fun i =>
    List.mem_filter.2 ⟨hi i, by rw [hs]; rfl⟩
  have hks : ∀ s, k ∈ (env.keys (m.p_state s)).filter (fun k => !skip k) := fun s =>
    List.mem_filter.2 ⟨hst s, by rw [hs]; rfl⟩
  refine ⟨?_, fun i => hin i k (hki i), fun s => hsn s k (hks s)⟩
  rw [hsum, List.map_append, List.sum_append, List.map_flatMap, List.map_flatMap, sum_flatMap, sum_flatMap,
    finRange_sum, finRange_sum]
  congr 1
  · apply Finset.sum_congr rfl
    intro i _
    rw [List.map_map]
    refine keyed_sum ((hn _).filter _) (hki i) (fun k' => part x (q, k) (in_block env m i k')) ?_
    intro k' hk' hne
    rw [in_block_part (hin i k' hk')]
    have : ∀ s, (m.p_state s, k') ≠ (q, k) := fun s h => hne (Prod.mk.inj h).2
    simp [this]
  · apply Finset.sum_congr rfl
    intro s _
    rw [List.map_map]
    refine keyed_sum ((hn _).filter _) (hks s) (fun k' => part x (q, k) (state_block env m s k')) ?_
    intro k' hk' hne
    rw [state_block_part (hsn s k' hk')]
    have h1 : ∀ s, (m.p_state s, k') ≠ (q, k) := fun s h => hne (Prod.mk.inj h).2
    have h2 : ∀ o, (m.p_out o, k') ≠ (q, k) := fun s h => hne (Prod.mk.inj h).2
    simp [h1, h2]

/-- The nodes of the element are different nodes. -/
structure StateSpace.Distinct (m : StateSpace P F nI nO nS) : Prop where
  state : Function.Injective m.p_state
  out : Function.Injective m.p_out
  apart : ∀ s o, m.p_state s ≠ m.p_out o

theorem total_state {env : Env P K F} {skip : K → Bool} {m : StateSpace P F nI nO nS} {cs : List (Coupling P K F)}
    (h : m.setup env skip = .ok cs) (hn : ∀ p, (env.keys p).Nodup) (hd : m.Distinct) {k : K} (hs : skip k = false)
    (hi : ∀ i, k ∈ env.keys (m.p_in i)) (hst : ∀ s, k ∈ env.keys (m.p_state s)) (x : P × K → F) (s : Fin nS) :
    total cs x (m.p_state s, k) =
      (∑ s', m.A s s' / (env.freq k * env.i2pi) * x (m.p_state s', k)) +
      (∑ i, m.B s i / (env.freq k * env.i2pi) * x (m.p_in i, k)) +
      ∑ o : Fin nO, if s.val = o.val then ∑ i, m.D o i * x (m.p_in i, k) else 0 := by
  obtain ⟨h1, h2, h3⟩ := setup_total h hn hs hi hst x (m.p_state s)
  have e1 : ∀ s', ((m.p_state s', k) = (m.p_state s, k)) ↔ s' = s := fun s' =>
    ⟨fun h => hd.state (Prod.mk.inj h).1, fun h => by rw [h]⟩
  have e2 : ∀ o, ((m.p_out o, k) = (m.p_state s, k)) ↔ False := fun o =>
    ⟨fun h => hd.apart s o (Prod.mk.inj h).1.symm, False.elim⟩
  rw [h1, Finset.sum_congr rfl (fun i _ => in_block_part (h2 i) x _),
    Finset.sum_congr rfl (fun i _ => state_block_part (h3 i) x _)]
  simp only [e1, e2, Finset.sum_ite_eq', Finset.mem_univ, if_true, if_false, Finset.sum_const_zero, add_zero,
    Finset.sum_add_distrib]
  rw [add_comm, ← add_assoc]
  congr 1
  rw [Finset.sum_comm]
  apply Finset.sum_congr rfl
  intro o _
  by_cases ho : s.val = o.val
  · rw [if_pos ho]
    apply Finset.sum_congr rfl
    intro i _
    rw [Finset.sum_eq_single s, if_pos ⟨ho, rfl⟩]
    · intro s' _ hs'
      rw [if_neg (fun h => hs' h.2)]
    · intro h
      exact absurd (Finset.mem_univ _) h
  · rw [if_neg ho]
    apply Finset.sum_eq_zero
    intro i _
    apply Finset.sum_eq_zero
    intro s' _
    rw [if_neg]
    rintro ⟨h4, h5⟩
    exact ho (h5 ▸ h4)

theorem total_out {env : Env P K F} {skip : K → Bool} {m : StateSpace P F nI nO nS} {cs : List (Coupling P K F)}
    (h : m.setup env skip = .ok cs) (hn : ∀ p, (env.keys p).Nodup) (hd : m.Distinct) {k : K} (hs : skip k = false)
    (hi : ∀ i, k ∈ env.keys (m.p_in i)) (hst : ∀ s, k ∈ env.keys (m.p_state s)) (x : P × K → F) (o : Fin nO) :
    total cs x (m.p_out o, k) = ∑ s, m.C o s * x (m.p_state s, k) := by
  obtain ⟨h1, h2, h3⟩ := setup_total h hn hs hi hst x (m.p_out o)
  have e1 : ∀ s', ((m.p_state s', k) = (m.p_out o, k)) ↔ False := fun s' =>
    ⟨fun h => hd.apart s' o (Prod.mk.inj h).1, False.elim⟩
  have e2 : ∀ o', ((m.p_out o', k) = (m.p_out o, k)) ↔ o' = o := fun o' =>
    ⟨fun h => hd.out (Prod.mk.inj h).1, fun h => by rw [h]⟩
  rw [h1, Finset.sum_congr rfl (fun i _ => in_block_part (h2 i) x _),
    Finset.sum_congr rfl (fun i _ => state_block_part (h3 i) x _)]
  simp only [e1, e2, Finset.sum_ite_eq', Finset.mem_univ, if_true, if_false, Finset.sum_const_zero, zero_add, and_false]

/-! ## the properties -/

/-- `x` obeys the equations of the solver at the states and at the outputs of the element, at the key `k`, when the
couplings are `cs`. -/
def Obeys (m : StateSpace P F nI nO nS) (cs : List (Coupling P K F)) (k : K) (x : P × K → F) : Prop :=
  (∀ s, x (m.p_state s, k) = (cs.map (fun c => c.into x (m.p_state s, k))).sum) ∧
  ∀ o, x (m.p_out o, k) = (cs.map (fun c => c.into x (m.p_out o, k))).sum

/-- The matrices as Mathlib matrices, and the matrix that puts the output `o` on the state `o`. -/
def misroute (nS nO : Nat) : Matrix (Fin nS) (Fin nO) F := Matrix.of fun s o => if s.val = o.val then 1 else 0

/-- **C44, what the couplings say.**  Whenever the couplings are made, the states `X`, the inputs `U` and the
outputs `Y` obey `s X = A X + B U + s E D U` and `Y = C X` with `s = i 2 pi f`; `E` sends output `o` to state `o`.  The
standard equations are `s X = A X + B U` and `Y = C X + D U`. -/
theorem C44_equations {env : Env P K F} {skip : K → Bool} {m : StateSpace P F nI nO nS} {cs : List (Coupling P K F)}
    (h : m.setup env skip = .ok cs) (hn : ∀ p, (env.keys p).Nodup) (hd : m.Distinct) {k : K} (hs : skip k = false)
    (hi : ∀ i, k ∈ env.keys (m.p_in i)) (hst : ∀ s, k ∈ env.keys (m.p_state s))
    (hf : env.freq k * env.i2pi ≠ 0) (x : P × K → F) :
    Obeys m cs k x ↔
      ((env.freq k * env.i2pi) • (fun s => x (m.p_state s, k)) =
        (Matrix.of m.A).mulVec (fun s => x (m.p_state s, k)) + (Matrix.of m.B).mulVec (fun i => x (m.p_in i, k)) +
        (env.freq k * env.i2pi) • (misroute nS nO * Matrix.of m.D).mulVec (fun i => x (m.p_in i, k)) ∧
      (fun o => x (m.p_out o, k)) = (Matrix.of m.C).mulVec (fun s => x (m.p_state s, k))) := by
  unfold Obeys
  apply and_congr
  · rw [funext_iff]
    apply forall_congr'
    intro s
    have hT := total_state h hn hd hs hi hst x s
    unfold total at hT
    rw [hT, ← Matrix.mulVec_mulVec]
    simp only [Pi.add_apply, Pi.smul_apply, smul_eq_mul, Matrix.mulVec, dotProduct, Matrix.of_apply, misroute]
    simp only [div_mul_eq_mul_div, ← Finset.sum_div, ite_mul, one_mul, zero_mul]
    generalize (∑ o : Fin nO, if s.val = o.val then ∑ i, m.D o i * x (m.p_in i, k) else 0) = d
    rw [← add_div, div_add' _ _ _ hf, eq_div_iff hf]
    constructor <;> intro h <;> linear_combination h
  · rw [funext_iff]
    apply forall_congr'
    intro o
    have hT := total_out h hn hd hs hi hst x o
    unfold total at hT
    rw [hT]
    rfl

/-- **C44, the transfer function of the couplings.**  Off the spectrum of `A`, the equations have exactly one
solution for every input, with the outputs `C (s - A)^-1 (B + s E D) U`. -/
theorem C44_transfer {env : Env P K F} {skip : K → Bool} {m : StateSpace P F nI nO nS} {cs : List (Coupling P K F)}
    (h : m.setup env skip = .ok cs) (hn : ∀ p, (env.keys p).Nodup) (hd : m.Distinct) {k : K} (hs : skip k = false)
    (hi : ∀ i, k ∈ env.keys (m.p_in i)) (hst : ∀ s, k ∈ env.keys (m.p_state s))
    (hf : env.freq k * env.i2pi ≠ 0)
    (hA : (Matrix.scalar (Fin nS) (env.freq k * env.i2pi) - Matrix.of m.A).det ≠ 0) (x : P × K → F) :
    Obeys m cs k x ↔
      ((fun s => x (m.p_state s, k)) = ((Matrix.scalar (Fin nS) (env.freq k * env.i2pi) - Matrix.of m.A)⁻¹ *
        (Matrix.of m.B + (env.freq k * env.i2pi) • (misroute nS nO * Matrix.of m.D))).mulVec
          (fun i => x (m.p_in i, k)) ∧
      (fun o => x (m.p_out o, k)) =
        (Matrix.of m.C * (Matrix.scalar (Fin nS) (env.freq k * env.i2pi) - Matrix.of m.A)⁻¹ *
          (Matrix.of m.B + (env.freq k * env.i2pi) • (misroute nS nO * Matrix.of m.D))).mulVec
            (fun i => x (m.p_in i, k))) := by
  rw [C44_equations h hn hd hs hi hst hf]
  generalize env.freq k * env.i2pi = z at *
  generalize (fun s => x (m.p_state s, k)) = X
  generalize (fun s => x (m.p_in s, k)) = U
  generalize (fun s => x (m.p_out s, k)) = Y
  generalize misroute nS nO * Matrix.of m.D = D
  generalize Matrix.of m.A = A at *
  generalize Matrix.of m.B = B
  generalize Matrix.of m.C = C
  have hu : IsUnit (Matrix.scalar (Fin nS) z - A).det := isUnit_iff_ne_zero.2 hA
  have hz : (Matrix.scalar (Fin nS) z).mulVec X = z • X := by
    rw [Matrix.scalar_apply, ← Matrix.smul_one_eq_diagonal, Matrix.smul_mulVec, Matrix.one_mulVec]
  have key : z • X = A.mulVec X + B.mulVec U + z • D.mulVec U ↔
      X = ((Matrix.scalar (Fin nS) z - A)⁻¹ * (B + z • D)).mulVec U := by
    have e : z • X = A.mulVec X + B.mulVec U + z • D.mulVec U ↔
        (Matrix.scalar (Fin nS) z - A).mulVec X = (B + z • D).mulVec U := by
      rw [Matrix.sub_mulVec, hz, Matrix.add_mulVec, Matrix.smul_mulVec, sub_eq_iff_eq_add, add_assoc,
        add_comm (A.mulVec X)]
    rw [e, ← Matrix.mulVec_mulVec]
    constructor
    · intro h
      rw [← h, Matrix.mulVec_mulVec, Matrix.nonsing_inv_mul _ hu, Matrix.one_mulVec]
    · intro h
      rw [h, Matrix.mulVec_mulVec, Matrix.mul_nonsing_inv _ hu, Matrix.one_mulVec]
  rw [key]
  apply and_congr_right
  intro h
  rw [Matrix.mul_assoc, ← Matrix.mulVec_mulVec, ← h]

/-- **C44 for models without a feed-through term (partial).**  With `D = 0` the outputs are `C (s - A)^-1 B` times
the inputs, and for every input there is such a solution.  Missing: models with `D ≠ 0`, where the claim fails
(`C44_refuted`, `C44_index_error`). -/
theorem C44_partial {env : Env P K F} {skip : K → Bool} {m : StateSpace P F nI nO nS} {cs : List (Coupling P K F)}
    (h : m.setup env skip = .ok cs) (hn : ∀ p, (env.keys p).Nodup) (hd : m.Distinct) {k : K} (hs : skip k = false)
    (hi : ∀ i, k ∈ env.keys (m.p_in i)) (hst : ∀ s, k ∈ env.keys (m.p_state s))
    (hf : env.freq k * env.i2pi ≠ 0)
    (hA : (Matrix.scalar (Fin nS) (env.freq k * env.i2pi) - Matrix.of m.A).det ≠ 0) (hD : ∀ o i, m.D o i = 0)
    (x : P × K → F) (hx : Obeys m cs k x) :
    (fun o => x (m.p_out o, k)) =
      (Matrix.of m.C * (Matrix.scalar (Fin nS) (env.freq k * env.i2pi) - Matrix.of m.A)⁻¹ * Matrix.of m.B +
        Matrix.of m.D).mulVec (fun i => x (m.p_in i, k)) := by
  have h0 : Matrix.of m.D = 0 := by
    ext o i
    exact hD o i
  have := ((C44_transfer h hn hd hs hi hst hf hA x).1 hx).2
  rw [this, h0, Matrix.mul_zero, smul_zero, add_zero, add_zero]

theorem blocks_ok {bs : List (Except Err (List (Coupling P K F)))} (h : ∀ b ∈ bs, ∃ e, b = .ok e) :
    ∃ cs, blocks bs = .ok cs := by
  induction bs with
  | nil => exact ⟨[], rfl⟩
  | cons b bs ih =>
    obtain ⟨e, rfl⟩ := h b List.mem_cons_self
    obtain ⟨cs, hc⟩ := ih (fun b hb => h b (List.mem_cons_of_mem _ hb))
    exact ⟨e ++ cs, by rw [blocks, hc]; rfl⟩

theorem link_ok {a b : P × K} {c : F} {val : Except Err F} (h : ∃ v, val = .ok v) : ∃ e, link a b c val = .ok e := by
  obtain ⟨v, rfl⟩ := h
  unfold link
  split_ifs
  · exact ⟨_, rfl⟩
  · exact ⟨_, rfl⟩

theorem pdiv_some {a b : F} (h : b ≠ 0) : ∃ v, pdiv a b = .ok v := ⟨a / b, by rw [pdiv, if_neg h]⟩

/-- **C44, when the couplings are made.**  With at most as many outputs as states and no zero frequency, no exception
is raised. -/
theorem C44_no_error (env : Env P K F) (skip : K → Bool) (m : StateSpace P F nI nO nS) (hN : nO ≤ nS)
    (hf : ∀ k, skip k = false → env.freq k * env.i2pi ≠ 0) : ∃ cs, m.setup env skip = .ok cs := by
  apply blocks_ok
  intro b hb
  rw [List.mem_append, List.mem_flatMap, List.mem_flatMap] at hb
  rcases hb with ⟨i, _, hb⟩ | ⟨s, _, hb⟩
  · obtain ⟨k, hk, rfl⟩ := List.mem_map.1 hb
    have hk' : skip k = false := by
      have := (List.mem_filter.1 hk).2
      simpa using this
    apply blocks_ok
    intro b hb
    rcases List.mem_append.1 hb with hb | hb
    · obtain ⟨s, _, rfl⟩ := List.mem_map.1 hb
      exact link_ok (pdiv_some (hf k hk'))
    · obtain ⟨o, _, rfl⟩ := List.mem_map.1 hb
      rw [dif_pos (lt_of_lt_of_le o.isLt hN)]
      exact link_ok ⟨_, rfl⟩
  · obtain ⟨k, hk, rfl⟩ := List.mem_map.1 hb
    have hk' : skip k = false := by
      have := (List.mem_filter.1 hk).2
      simpa using this
    apply blocks_ok
    intro b hb
    rcases List.mem_append.1 hb with hb | hb
    · obtain ⟨s, _, rfl⟩ := List.mem_map.1 hb
      exact link_ok (pdiv_some (hf k hk'))
    · obtain ⟨o, _, rfl⟩ := List.mem_map.1 hb
      exact link_ok ⟨_, rfl⟩

/-- **C44, more outputs than states.**  As soon as an input carries a key, setting up the couplings of a model with more
outputs than states raises an exception, whatever the matrices (l.182 reads `ports_states[idx_out]`). -/
theorem C44_index_error (env : Env P K F) (skip : K → Bool) (m : StateSpace P F nI nO nS) (hN : nS < nO) {i : Fin nI}
    {k : K} (hk : k ∈ env.keys (m.p_in i)) (hs : skip k = false) : ∀ cs, m.setup env skip ≠ .ok cs := by
  intro cs h
  obtain ⟨e, he⟩ := (blocks_sum h).1 (in_block env m i k) (List.mem_append_left _
    (List.mem_flatMap.2 ⟨i, List.mem_finRange i, List.mem_map_of_mem (List.mem_filter.2 ⟨hk, by rw [hs]; rfl⟩)⟩))
  obtain ⟨e', he'⟩ := (blocks_sum he).1 _ (List.mem_append_right _ (List.mem_map_of_mem
    (List.mem_finRange (⟨nS, hN⟩ : Fin nO))))
  rw [dif_neg (lt_irrefl _)] at he'
  cases he'

/-- A model with one input, one state and one output, `A = 1`, and two keys of frequencies 1 and 2 (with `i2pi = 2`). -/
def ssEnv : Env Nat Bool ℚ where
  Ze := 50
  i2pi := 2
  i := 1
  pi := 1
  exp := id
  freq := fun k => if k then 1 else 2
  keys := fun _ => [true, false]
  dc := false

def ssModel (B C D : ℚ) : StateSpace Nat ℚ 1 1 1 where
  A := fun _ _ => 1
  B := fun _ _ => B
  C := fun _ _ => C
  D := fun _ _ => D
  p_in := fun _ => 0
  p_out := fun _ => 1
  p_state := fun _ => 2

theorem ss_distinct (B C D : ℚ) : (ssModel B C D).Distinct where
  state := fun a b _ => Subsingleton.elim a b
  out := fun a b _ => Subsingleton.elim a b
  apart := fun _ _ h => absurd (show (2 : Nat) = 1 from h) (by decide)

theorem ss_det (B C D : ℚ) :
    (Matrix.scalar (Fin 1) (ssEnv.freq true * ssEnv.i2pi) - Matrix.of (ssModel B C D).A).det ≠ 0 := by
  rw [Matrix.det_fin_one]
  rw [Matrix.sub_apply, Matrix.scalar_apply, Matrix.diagonal_apply_eq]
  show (1 : ℚ) * 2 - 1 ≠ 0
  norm_num

theorem ss_nodup (p : Nat) : (ssEnv.keys p).Nodup := show [true, false].Nodup by decide

theorem ss_mem (p : Nat) : true ∈ ssEnv.keys p := show true ∈ [true, false] by decide

theorem ss_ok (B C D : ℚ) : ∃ cs, (ssModel B C D).setup ssEnv (fun _ => false) = .ok cs := by
  apply C44_no_error _ _ _ (le_refl 1)
  intro k _
  cases k <;> decide +kernel

/-- The hypotheses of `C44_partial` are met by a model with `B = 3`, `C = 5` at `s = 2`: the output is 15 times the
input. -/
example : ∃ cs x, (ssModel 3 5 0).setup ssEnv (fun _ => false) = .ok cs ∧ Obeys (ssModel 3 5 0) cs true x ∧
    x (0, true) = 1 ∧ x (1, true) = 15 := by
  obtain ⟨cs, hcs⟩ := ss_ok 3 5 0
  refine ⟨cs, fun t => if t.1 = 0 then 1 else if t.1 = 1 then 15 else 3, hcs, ?_, rfl, rfl⟩
  rw [C44_equations hcs ss_nodup (ss_distinct 3 5 0) rfl (fun _ => ss_mem _) (fun _ => ss_mem _) (by decide +kernel)]
  constructor
  · funext s
    simp [Matrix.mulVec, dotProduct, misroute, ssModel, ssEnv, Matrix.mul_apply]
    norm_num
  · funext o
    simp [Matrix.mulVec, dotProduct, ssModel]
    norm_num

/-- **C44 fails for models with a feed-through term.**  With `B = 0`, `C = 0` and `D = 1` every solution has a zero
output, although `C (s - A)^-1 B + D = 1`. -/
theorem C44_refuted : ∃ (m : StateSpace Nat ℚ 1 1 1) (cs : List (Coupling Nat Bool ℚ)),
    m.setup ssEnv (fun _ => false) = .ok cs ∧
    (Matrix.scalar (Fin 1) (ssEnv.freq true * ssEnv.i2pi) - Matrix.of m.A).det ≠ 0 ∧
    (∃ x, Obeys m cs true x ∧ x (m.p_in 0, true) = 1) ∧
    ∀ x, Obeys m cs true x → x (m.p_in 0, true) = 1 → (fun o => x (m.p_out o, true)) ≠
      (Matrix.of m.C * (Matrix.scalar (Fin 1) (ssEnv.freq true * ssEnv.i2pi) - Matrix.of m.A)⁻¹ * Matrix.of m.B +
        Matrix.of m.D).mulVec (fun i => x (m.p_in i, true)) := by
  obtain ⟨cs, hcs⟩ := ss_ok 0 0 1
  have eqs := C44_equations (k := true) hcs ss_nodup (ss_distinct 0 0 1) rfl (fun _ => ss_mem _) (fun _ => ss_mem _) (by decide +kernel)
  refine ⟨_, cs, hcs, ss_det 0 0 1, ?_, ?_⟩
  · refine ⟨fun t => if t.1 = 0 then 1 else if t.1 = 1 then 0 else 2, ?_, rfl⟩
    rw [eqs]
    constructor
    · funext s
      simp [Matrix.mulVec, dotProduct, misroute, ssModel, ssEnv, Matrix.mul_apply]
      norm_num
    · funext o
      simp [Matrix.mulVec, dotProduct, ssModel]
  · intro x hx h1 hy
    have h2 := congrFun ((eqs x).1 hx).2 0
    have h3 := congrFun hy 0
    have hC : Matrix.of (ssModel 0 0 1).C = 0 := rfl
    rw [hC, Matrix.zero_mulVec] at h2
    rw [hC, Matrix.zero_mul, Matrix.zero_mul, zero_add] at h3
    rw [h2] at h3
    have h4 : (Matrix.of (ssModel 0 0 1).D).mulVec (fun i => x ((ssModel 0 0 1).p_in i, true)) 0 = 1 := by
      simp only [Matrix.mulVec, dotProduct, Finset.univ_unique, Fin.default_eq_zero, Finset.sum_singleton]
      rw [h1]
      show (1 : ℚ) * 1 = 1
      norm_num
    rw [h4] at h3
    exact absurd h3 (by norm_num)

/-- The hypotheses of `C44_index_error` are met by a model with no state and one output. -/
example : ∃ m : StateSpace Nat ℚ 1 1 0, ∀ cs, m.setup ssEnv (fun _ => false) ≠ .ok cs :=
  ⟨⟨fun _ _ => 0, fun _ _ => 0, fun _ _ => 0, fun _ _ => 1, fun _ => 0, fun _ => 1, fun _ => 2⟩,
    C44_index_error _ _ _ (by decide) (i := 0) (k := true) (by decide +kernel) rfl⟩

end Signal
