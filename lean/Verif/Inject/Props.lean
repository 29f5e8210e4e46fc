import Mathlib.Algebra.BigOperators.Group.Finset.Basic
import Mathlib.Algebra.Order.Ring.Rat
import Mathlib.Algebra.Field.Rat
import Mathlib.Algebra.Order.Field.Basic
import Mathlib.Tactic.FieldSimp
import Mathlib.Tactic.Linarith
import Mathlib.Data.List.Forall2
import Verif.Inject.Basic

/-!
# Properties of the injections and of the generated linear system (C41, C51)
-/

set_option linter.unusedSectionVars false

namespace Inject
open Py

variable {P K F : Type} [DecidableEq P] [DecidableEq K] [Field F] [DecidableEq F]

/-! ## what the couplings contribute -/

theorem getd_of_get? {sol : SolVec P K F} {pk : P × K} {v d : F} (h : Dict.get? sol pk = some v) :
    getd sol pk d = v := by unfold getd; rw [h]; rfl

theorem mult_eval (sol : SolVec P K F) (x : P × K → F) (c : F) (l : List (P × K))
    (h : ∀ pk ∈ l, getd sol pk 0 = x pk) :
    evalD sol (mult_func c l) = c * (l.map x).prod := by
  unfold evalD mult_func
  dsimp only
  induction l generalizing c with
  | nil => simp
  | cons a l ih =>
    rw [List.foldl_cons, ih _ (fun pk hpk => h pk (by simp [hpk])), h a (by simp)]
    simp only [List.map_cons, List.prod_cons]
    ring

theorem evalD_pdiv (sol : SolVec P K F) (f : Func P K F) (a b : F) (h : f sol = pdiv a b) (hb : b ≠ 0) :
    evalD sol f = a / b := by
  unfold evalD
  rw [h]
  unfold pdiv
  rw [if_neg hb]

/-- two edges from different nodes -/
theorem linear_two (sol : SolVec P K F) (y : P × K → F) (t p q pkto : P × K) (h : p ≠ q)
    (f g s : Func P K F) (a b c d) :
    Inj.linear sol y t { edges := Dict.ofList [((p, pkto), f), ((q, pkto), g)]
                         sources := Dict.ofList [(pkto, s)]
                         edgesNZ := a, edgesReq := b, sourcesNZ := c, sourcesReq := d }
      = (if pkto = t then evalD sol f * y p + evalD sol g * y q + evalD sol s else 0) := by
  have h' : (p, pkto) ≠ (q, pkto) := fun hh => h (Prod.ext_iff.1 hh).1
  unfold Inj.linear Dict.ofList Dict.update
  simp only [List.foldl_cons, List.foldl_nil, Dict.set, if_neg h', List.map_cons, List.map_nil,
    List.sum_cons, List.sum_nil]
  by_cases ht : pkto = t
  · simp only [if_pos ht]; ring
  · simp only [if_neg ht]; ring

theorem linear_one (sol : SolVec P K F) (y : P × K → F) (t p pkto : P × K)
    (f : Func P K F) (a b c d) :
    Inj.linear sol y t { edges := Dict.ofList [((p, pkto), f)]
                         sources := []
                         edgesNZ := a, edgesReq := b, sourcesNZ := c, sourcesReq := d }
      = (if pkto = t then evalD sol f * y p else 0) := by
  unfold Inj.linear Dict.ofList Dict.update
  simp only [List.foldl_cons, List.foldl_nil, Dict.set, List.map_cons, List.map_nil,
    List.sum_cons, List.sum_nil, add_zero]

theorem linear_source (sol : SolVec P K F) (y : P × K → F) (t pkto : P × K)
    (f : Func P K F) (a b c d) :
    Inj.linear sol y t { edges := []
                         sources := Dict.ofList [(pkto, f)]
                         edgesNZ := a, edgesReq := b, sourcesNZ := c, sourcesReq := d }
      = (if pkto = t then evalD sol f else 0) := by
  unfold Inj.linear Dict.ofList Dict.update
  simp only [List.foldl_cons, List.foldl_nil, Dict.set, List.map_cons, List.map_nil,
    List.sum_cons, List.sum_nil, add_zero, zero_add]

theorem eq_into (c : Coupling P K F) (x : P × K → F) (t : P × K) (v : F) (h : v = c.term x) :
    (if c.target = t then v else 0) = c.into x t := by
  rw [h]; rfl

/-- **C41.** At a fixed point, that is when the unknown fields are those of the previous solution, the
edges and sources of a coupling add exactly the quantity it stands for: `c·p1·p2` for the three port
couplings, also when both factors are the same port. -/
theorem C41_fixed_point_term (c : Coupling P K F) (sol : SolVec P K F) (x : P × K → F) (t : P × K)
    (ha : c.Agrees sol x) (hn : c.Normed x) (hu : c.Unshifted x) :
    c.inj.linear sol x t = c.into x t := by
  obtain ⟨ha, hb⟩ := ha
  cases c with
  | edge f pkto c =>
    exact linear_one sol x t f pkto (fun _ => .ok c) _ _ _ _
  | source pkto c =>
    exact linear_source sol x t pkto (fun _ => .ok c) _ _ _ _
  | multEdge f pkto c l =>
    refine (linear_one sol x t f pkto (mult_func c l) _ _ _ _).trans ?_
    rw [mult_eval sol x c l ha]
    rfl
  | multSource pkto c l =>
    refine (linear_source sol x t pkto (mult_func c l) _ _ _ _).trans ?_
    rw [mult_eval sol x c l ha]
    rfl
  | triplet p q pkto c =>
    have hp : getd sol p 0 = x p := ha p (by simp [Coupling.factors])
    have hq : getd sol q 0 = x q := ha q (by simp [Coupling.factors])
    unfold Coupling.inj TripletCoupling
    by_cases h : p = q
    · subst h
      dsimp only
      rw [if_neg (by simp)]
      rw [linear_one]
      refine eq_into (.triplet p p pkto c) x t _ ?_
      unfold triplet_edge evalD
      simp only [hp, Coupling.term]
    · dsimp only
      rw [if_pos h, linear_two sol x t p q pkto h _ _ _ _ _ _ _]
      refine eq_into (.triplet p q pkto c) x t _ ?_
      unfold triplet_edge triplet_source evalD
      simp only [hp, hq, Coupling.term]
      ring
  | tripletNorm p q pkto n c N =>
    have hp : getd sol p 0 = x p := ha p (by simp [Coupling.factors])
    have hq : getd sol q 0 = x q := ha q (by simp [Coupling.factors])
    have hnn : getd sol n (10 ^ 12) = x n := getd_of_get? (hb n (by simp [Coupling.norms]))
    replace hn : N (x n) ≠ 0 := hn
    unfold Coupling.inj TripletNormCoupling
    by_cases h : p = q
    · subst h
      dsimp only
      rw [if_neg (by simp), linear_one,
        evalD_pdiv sol (norm_edge c p n N) (c * x p) (N (x n))
          (by unfold norm_edge; rw [hp, hnn]) hn]
      refine eq_into (.tripletNorm p p pkto n c N) x t _ ?_
      simp only [Coupling.term]
      rw [div_mul_eq_mul_div]
    · have hu' : N (x n + 1 / 10 ^ 30) = N (x n) := hu h
      dsimp only
      rw [if_pos h, linear_two sol x t p q pkto h _ _ _ _ _ _ _,
        evalD_pdiv sol (norm_edge c q n N) (c * x q) (N (x n))
          (by unfold norm_edge; rw [hq, hnn]) hn,
        evalD_pdiv sol (norm_edge c p n N) (c * x p) (N (x n))
          (by unfold norm_edge; rw [hp, hnn]) hn,
        evalD_pdiv sol (norm_source c p q n N) (-c * x p * x q) (N (x n))
          (by unfold norm_source; dsimp only; rw [hp, hq, hnn, hu']) hn]
      refine eq_into (.tripletNorm p q pkto n c N) x t _ ?_
      simp only [Coupling.term]
      field_simp
      ring
  | tripletNorms p q pkto ns c N =>
    have hp : getd sol p 0 = x p := ha p (by simp [Coupling.factors])
    have hq : getd sol q 0 = x q := ha q (by simp [Coupling.factors])
    have hnn : ns.map (fun n => getd sol n (10 ^ 12)) = ns.map x := by
      apply List.map_congr_left
      intro n hn
      exact getd_of_get? (hb n hn)
    replace hn : N (ns.map x) ≠ 0 := hn
    unfold Coupling.inj TripletNormsCoupling
    by_cases h : p = q
    · subst h
      dsimp only
      rw [if_neg (by simp), linear_one,
        evalD_pdiv sol (norms_edge c p ns N) (c * x p) (N (ns.map x))
          (by unfold norms_edge; dsimp only; rw [hp, hnn]) hn]
      refine eq_into (.tripletNorms p p pkto ns c N) x t _ ?_
      simp only [Coupling.term]
      rw [div_mul_eq_mul_div]
    · dsimp only
      rw [if_pos h, linear_two sol x t p q pkto h _ _ _ _ _ _ _,
        evalD_pdiv sol (norms_edge c q ns N) (c * x q) (N (ns.map x))
          (by unfold norms_edge; dsimp only; rw [hq, hnn]) hn,
        evalD_pdiv sol (norms_edge c p ns N) (c * x p) (N (ns.map x))
          (by unfold norms_edge; dsimp only; rw [hp, hnn]) hn,
        evalD_pdiv sol (norms_source c p q ns N) (-c * x p * x q) (N (ns.map x))
          (by unfold norms_source; dsimp only; rw [hp, hq, hnn]) hn]
      refine eq_into (.tripletNorms p q pkto ns c N) x t _ ?_
      simp only [Coupling.term]
      field_simp
      ring

/-- **C41, first order expansion, different ports.**  For any previous solution `sol` and any new fields
`y`, what a three port coupling adds to its target differs from the product by exactly
`c·(y1 - s1)·(y2 - s2)`: the expansion to first order about the previous solution.
Not covered: both factors being the same port (`C41_same_port_refuted`), the normalised couplings
(`C41_norm_expansion_refuted`). -/
theorem C41_expansion_partial (p q pkto : P × K) (c : F) (hpq : p ≠ q) (sol : SolVec P K F)
    (y : P × K → F) :
    (Coupling.triplet p q pkto c).term y - (TripletCoupling p q pkto c).linear sol y pkto
      = c * (y p - getd sol p 0) * (y q - getd sol q 0) := by
  unfold TripletCoupling
  rw [if_pos hpq, linear_two sol y pkto p q pkto hpq _ _ _ _ _ _ _, if_pos rfl]
  unfold triplet_edge triplet_source evalD
  simp only [Coupling.term]
  ring

/-- No other node is driven. -/
theorem C41_expansion_other (p q pkto t : P × K) (c : F) (ht : pkto ≠ t) (sol : SolVec P K F)
    (y : P × K → F) : (TripletCoupling p q pkto c).linear sol y t = 0 := by
  unfold TripletCoupling
  by_cases h : p = q
  · rw [if_neg (by simpa using h), linear_one, if_neg ht]
  · rw [if_pos h, linear_two sol y t p q pkto h _ _ _ _ _ _ _, if_neg ht]

/-- The normalised coupling of several norms, different ports: the expansion in the two factors, the
normalisation being held at the previous solution. -/
theorem C41_norms_expansion_partial (p q pkto : P × K) (ns : List (P × K)) (c : F) (N : List F → F)
    (hpq : p ≠ q) (sol : SolVec P K F) (y : P × K → F)
    (hN : N (ns.map (fun n => getd sol n (10 ^ 12))) ≠ 0) :
    c * y p * y q / N (ns.map (fun n => getd sol n (10 ^ 12)))
        - (TripletNormsCoupling p q pkto ns c N).linear sol y pkto
      = c * (y p - getd sol p 0) * (y q - getd sol q 0)
          / N (ns.map (fun n => getd sol n (10 ^ 12))) := by
  unfold TripletNormsCoupling
  rw [if_pos hpq, linear_two sol y pkto p q pkto hpq _ _ _ _ _ _ _, if_pos rfl,
    evalD_pdiv sol (norms_edge c q ns N) _ _ rfl hN, evalD_pdiv sol (norms_edge c p ns N) _ _ rfl hN,
    evalD_pdiv sol (norms_source c p q ns N) _ _ rfl hN]
  field_simp
  ring

/-- **C41, both factors the same port**: the single edge gives `c·s·y`, so the difference from the
product is `c·y·(y - s)`, of first order. -/
theorem C41_same_port (p pkto : P × K) (c : F) (sol : SolVec P K F) (y : P × K → F) :
    (Coupling.triplet p p pkto c).term y - (TripletCoupling p p pkto c).linear sol y pkto
      = c * y p * (y p - getd sol p 0) := by
  unfold TripletCoupling
  rw [if_neg (by simp), linear_one, if_pos rfl]
  unfold triplet_edge evalD
  simp only [Coupling.term]
  ring

/-- **C41 fails when both factors are the same port**: the error is not of second order.  With gain one and
previous value one the error for the new value `1 + d` is `d·(1 + d)`, which no multiple of `d²` bounds. -/
theorem C41_same_port_refuted (p pkto : P × K) :
    ¬ ∃ B : ℚ, ∀ d : ℚ, 0 < d → d ≤ 1 →
      |(Coupling.triplet p p pkto (1 : ℚ)).term (fun _ => 1 + d)
        - (TripletCoupling p p pkto (1 : ℚ)).linear [(p, 1)] (fun _ => 1 + d) pkto| ≤ B * d ^ 2 := by
  rintro ⟨B, hB⟩
  have key : ∀ d : ℚ, 0 < d → d ≤ 1 → 1 + d ≤ B * d := by
    intro d hd hd1
    have := hB d hd hd1
    rw [C41_same_port] at this
    have hg : getd [(p, (1 : ℚ))] p 0 = 1 := by simp [getd, Dict.get?_cons]
    rw [hg, abs_of_nonneg (by nlinarith)] at this
    have h2 : d * (1 + d) ≤ d * (B * d) := by nlinarith
    exact le_of_mul_le_mul_left h2 hd
  have hB1 := key 1 one_pos le_rfl
  have hBpos : 0 < B := by linarith
  have hd : 0 < 1 / B := by
    rw [one_div]; exact inv_pos.2 hBpos
  have hd1 : 1 / B ≤ 1 := by
    rw [div_le_one hBpos]; linarith
  have := key (1 / B) hd hd1
  rw [mul_one_div, div_self (ne_of_gt hBpos)] at this
  linarith

/-- The distinct case in the same form: the error for changes of at most `d` is at most `|c|·d²`. -/
theorem C41_second_order (p q pkto : P × K) (c : ℚ) (hpq : p ≠ q) (sol : SolVec P K ℚ)
    (y : P × K → ℚ) (d : ℚ) (h1 : |y p - getd sol p 0| ≤ d) (h2 : |y q - getd sol q 0| ≤ d) :
    |(Coupling.triplet p q pkto c).term y - (TripletCoupling p q pkto c).linear sol y pkto|
      ≤ |c| * d ^ 2 := by
  rw [C41_expansion_partial p q pkto c hpq sol y, abs_mul, abs_mul, mul_assoc, pow_two]
  exact mul_le_mul_of_nonneg_left
    (mul_le_mul h1 h2 (abs_nonneg _) (le_trans (abs_nonneg _) h1)) (abs_nonneg _)

/-- **C41 fails for the normalised coupling**: the source of `TripletNormCoupling` adds `1e-30` to the
normalisation and the edges do not (l.290, l.294, l.301), so at a fixed point with different ports the
product is not reproduced exactly. -/
theorem C41_norm_shift_refuted (p q n pkto : P × K) (hpq : p ≠ q) (hpn : p ≠ n) (hqn : q ≠ n) :
    (TripletNormCoupling p q pkto n (1 : ℚ) id).linear [(p, 1), (q, 1), (n, 1)] (fun _ => 1) pkto
      ≠ (Coupling.tripletNorm p q pkto n (1 : ℚ) id).term (fun _ => 1) := by
  have hp : getd [(p, (1 : ℚ)), (q, 1), (n, 1)] p 0 = 1 := by simp [getd, Dict.get?_cons]
  have hq : getd [(p, (1 : ℚ)), (q, 1), (n, 1)] q 0 = 1 := by simp [getd, Dict.get?_cons, hpq]
  have hn : getd [(p, (1 : ℚ)), (q, 1), (n, 1)] n (10 ^ 12) = 1 := by
    simp [getd, Dict.get?_cons, hpn, hqn]
  unfold TripletNormCoupling
  rw [if_pos hpq, linear_two _ _ pkto p q pkto hpq _ _ _ _ _ _ _, if_pos rfl,
    evalD_pdiv _ (norm_edge (1 : ℚ) q n id) (1 * 1) (id 1)
      (by unfold norm_edge; rw [hq, hn]) (by norm_num),
    evalD_pdiv _ (norm_edge (1 : ℚ) p n id) (1 * 1) (id 1)
      (by unfold norm_edge; rw [hp, hn]) (by norm_num),
    evalD_pdiv _ (norm_source (1 : ℚ) p q n id) (-1 * 1 * 1) (id (1 + 1 / 10 ^ 30))
      (by unfold norm_source; dsimp only; rw [hp, hq, hn]) (by norm_num)]
  simp only [Coupling.term, id]
  norm_num

/-- **C41 fails for the normalised couplings away from a fixed point**: a change of the normalisation
is not seen by the linear system, so the error is of first order in it.  With both factors and the
previous normalisation one, and the new normalisation `1 + d`, the error is `-d/(1 + d)`. -/
theorem C41_norm_expansion_refuted (p q n pkto : P × K) (hpq : p ≠ q) (hpn : p ≠ n) (hqn : q ≠ n) :
    ¬ ∃ B : ℚ, ∀ d : ℚ, 0 < d → d ≤ 1 →
      |(Coupling.tripletNorms p q pkto [n] (1 : ℚ) (fun l => l.headD 1)).term
          (fun k => if k = n then 1 + d else 1)
        - (TripletNormsCoupling p q pkto [n] (1 : ℚ) (fun l => l.headD 1)).linear
            [(p, 1), (q, 1), (n, 1)] (fun k => if k = n then 1 + d else 1) pkto| ≤ B * d ^ 2 := by
  have hp : getd [(p, (1 : ℚ)), (q, 1), (n, 1)] p 0 = 1 := by simp [getd, Dict.get?_cons]
  have hq : getd [(p, (1 : ℚ)), (q, 1), (n, 1)] q 0 = 1 := by simp [getd, Dict.get?_cons, hpq]
  have hn : getd [(p, (1 : ℚ)), (q, 1), (n, 1)] n (10 ^ 12) = 1 := by
    simp [getd, Dict.get?_cons, hpn, hqn]
  have hN : [n].map (fun pknorm => getd [(p, (1 : ℚ)), (q, 1), (n, 1)] pknorm (10 ^ 12)) = [1] := by
    rw [List.map_cons, List.map_nil, hn]
  rintro ⟨B, hB⟩
  have key : ∀ d : ℚ, 0 < d → d ≤ 1 → 1 ≤ 2 * B * d := by
    intro d hd hd1
    have := hB d hd hd1
    have hlin : (TripletNormsCoupling p q pkto [n] (1 : ℚ) (fun l => l.headD 1)).linear
            [(p, 1), (q, 1), (n, 1)] (fun k => if k = n then 1 + d else 1) pkto = 1 := by
      unfold TripletNormsCoupling
      rw [if_pos hpq, linear_two _ _ pkto p q pkto hpq _ _ _ _ _ _ _, if_pos rfl,
        evalD_pdiv _ (norms_edge (1 : ℚ) q [n] _) (1 * 1) 1
          (by unfold norms_edge; dsimp only; rw [hq, hN]; rfl) (by norm_num),
        evalD_pdiv _ (norms_edge (1 : ℚ) p [n] _) (1 * 1) 1
          (by unfold norms_edge; dsimp only; rw [hp, hN]; rfl) (by norm_num),
        evalD_pdiv _ (norms_source (1 : ℚ) p q [n] _) (-1 * 1 * 1) 1
          (by unfold norms_source; dsimp only; rw [hp, hq, hN]; rfl) (by norm_num)]
      simp [hpn, hqn]
    rw [hlin] at this
    have hterm : (Coupling.tripletNorms p q pkto [n] (1 : ℚ) (fun l => l.headD 1)).term
          (fun k => if k = n then 1 + d else 1) - 1 = - (d / (1 + d)) := by
      have h1d : (1 : ℚ) + d ≠ 0 := by linarith
      simp only [Coupling.term, List.map_cons, List.map_nil, List.headD_cons, if_neg hpn, if_neg hqn,
        if_true]
      field_simp
      ring
    rw [hterm, abs_neg, abs_of_nonneg (div_nonneg hd.le (by linarith)), div_le_iff₀ (by linarith)] at this
    have hBpos : 0 ≤ B := by
      by_contra hneg
      have : B * d ^ 2 * (1 + d) < 0 := by
        apply mul_neg_of_neg_of_pos
        · exact mul_neg_of_neg_of_pos (not_le.1 hneg) (by positivity)
        · linarith
      linarith
    have h2 : d * 1 ≤ d * (B * d * (1 + d)) := by nlinarith
    have h3 := le_of_mul_le_mul_left h2 hd
    have h4 : B * d * (1 + d) ≤ B * d * 2 :=
      mul_le_mul_of_nonneg_left (by linarith) (mul_nonneg hBpos hd.le)
    linarith
  have hB1 := key 1 one_pos le_rfl
  have hBpos : 0 < B := by linarith
  have h4B : (0 : ℚ) < 4 * B := by linarith
  have hd : 0 < 1 / (4 * B) := by
    rw [one_div]; exact inv_pos.2 h4B
  have hd1 : 1 / (4 * B) ≤ 1 := by
    rw [div_le_one h4B]; linarith
  have h := key (1 / (4 * B)) hd hd1
  have : 2 * B * (1 / (4 * B)) = 1 / 2 := by field_simp; norm_num
  rw [this] at h
  norm_num at h

/-! ## the generated linear system -/

theorem generate_spec {m : Algo P K F} {bonds seq req : SetDict P K} {sol : SolVec P K F}
    {g : Gen P K F} (hseq : SetWF seq)
    (h : edge_matrix_generate m bonds seq req sol = .ok g) :
    (∀ e ∈ pairs seq, EdgeOk m bonds sol e) ∧ g.mat = kept m sol (pairs seq) ∧
    (∀ a b, mem g.seq a b ↔ mem seq a b ∧ edgeVal m sol (a, b) ≠ 0) ∧
    (∀ a b, mem g.req b a ↔ mem req b a ∧ ¬ (mem seq a b ∧ edgeVal m sol (a, b) = 0)) ∧
    SetWF g.seq ∧ (SetWF req → SetWF g.req) := by
  unfold edge_matrix_generate at h
  obtain ⟨st, hst, h⟩ := bind_ok_inv h
  obtain ⟨sr, hsr, h⟩ := bind_ok_inv h
  injection h with h
  obtain ⟨h1, h2⟩ := edge_loop_ok (pairs seq) (nodup_pairs hseq) (st := ([], [])) (by simp [Dict.keys]) hst
  obtain ⟨g1, g2, w1, w2⟩ := drop_loop_ok _ hsr
  subst h
  have hmem : ∀ a b, (a, b) ∈ st.2 ↔ mem seq a b ∧ edgeVal m sol (a, b) = 0 := by
    intro a b
    rw [h2]
    dsimp only
    rw [List.nil_append, List.mem_filter, mem_pairs hseq.1]
    simp
  refine ⟨h1, by rw [h2]; simp, ?_, ?_, w1 hseq, w2⟩
  · intro a b
    dsimp only
    rw [g1, hmem]
    constructor
    · rintro ⟨ha, hb⟩
      exact ⟨ha, fun h0 => hb ⟨ha, h0⟩⟩
    · rintro ⟨ha, hb⟩
      exact ⟨ha, fun h0 => hb h0.2⟩
  · intro a b
    dsimp only
    rw [g2, hmem]

theorem keys_kept (m : Algo P K F) (sol : SolVec P K F) (ps : List ((P × K) × (P × K))) :
    Dict.keys (kept m sol ps) = ps.filter (fun e => edgeVal m sol e ≠ 0) := by
  unfold Dict.keys kept
  rw [List.map_map]
  simp [Function.comp_def]

theorem get?_kept (m : Algo P K F) (sol : SolVec P K F) (ps : List ((P × K) × (P × K)))
    (e : (P × K) × (P × K)) (v : F) :
    Dict.get? (kept m sol ps) e = some v ↔ e ∈ ps ∧ v ≠ 0 ∧ v = edgeVal m sol e := by
  induction ps with
  | nil => simp [kept]
  | cons a ps ih =>
    unfold kept at ih ⊢
    by_cases hv : edgeVal m sol a ≠ 0
    · rw [List.filter_cons, if_pos (by simpa using hv), List.map_cons, Dict.get?_cons]
      by_cases hae : a = e
      · subst hae
        dsimp only
        rw [if_pos rfl]
        constructor
        · intro h
          injection h with h
          exact ⟨by simp, h ▸ hv, h.symm⟩
        · rintro ⟨_, _, h⟩
          rw [h]
      · dsimp only
        rw [if_neg hae, ih, List.mem_cons]
        simp [Ne.symm hae]
    · rw [List.filter_cons, if_neg (by simpa using hv), ih, List.mem_cons]
      constructor
      · rintro ⟨a, b, c⟩
        exact ⟨Or.inr a, b, c⟩
      · rintro ⟨ha | ha, hb, hc⟩
        · subst ha
          rw [hc] at hb
          exact absurd hb hv
        · exact ⟨ha, hb, hc⟩

/-- **C51.** The generated matrix, the two set dictionaries and the functions agree: after
`_edge_matrix_generate` the edges in `seq` and in `req` are exactly the keys of the matrix, no stored
value is zero, a bond has the value one, and an injected edge has the sum of its functions' values (and is
removed exactly when this sum is zero). -/
theorem C51_edge_matrix {m : Algo P K F} {bonds seq req : SetDict P K} {sol : SolVec P K F}
    {g : Gen P K F} (hseq : SetWF seq) (hbal : ∀ a b, mem seq a b ↔ mem req b a)
    (h : edge_matrix_generate m bonds seq req sol = .ok g) :
    (∀ a b, mem g.seq a b ↔ (a, b) ∈ Dict.keys g.mat) ∧
    (∀ a b, mem g.req b a ↔ (a, b) ∈ Dict.keys g.mat) ∧
    (∀ e v, Dict.get? g.mat e = some v → v ≠ 0 ∧ mem seq e.1 e.2) ∧
    (∀ a b, mem seq a b → Dict.get? m.edgeFunc (a, b) = none →
      Dict.get? g.mat (a, b) = some 1 ∧ a.2 = b.2 ∧ mem bonds a b) ∧
    (∀ a b fl, mem seq a b → Dict.get? m.edgeFunc (a, b) = some fl → ¬ mem bonds a b ∧
      ∃ vs : List F, List.Forall₂ (fun (f : Func P K F) v => f sol = .ok v) fl vs ∧
        Dict.get? g.mat (a, b) = if vs.sum = 0 then none else some vs.sum) := by
  obtain ⟨h1, h2, h3, h4, _, _⟩ := generate_spec hseq h
  have hkeys : ∀ a b, (a, b) ∈ Dict.keys g.mat ↔ mem seq a b ∧ edgeVal m sol (a, b) ≠ 0 := by
    intro a b
    rw [h2, keys_kept, List.mem_filter, mem_pairs hseq.1]
    simp
  refine ⟨?_, ?_, ?_, ?_, ?_⟩
  · intro a b
    rw [h3, hkeys]
  · intro a b
    rw [h4, hkeys, ← hbal]
    constructor
    · rintro ⟨ha, hb⟩
      exact ⟨ha, fun h0 => hb ⟨ha, h0⟩⟩
    · rintro ⟨ha, hb⟩
      exact ⟨ha, fun h0 => hb h0.2⟩
  · intro e v he
    rw [h2, get?_kept] at he
    exact ⟨he.2.1, (mem_pairs hseq.1 _ _).1 he.1⟩
  · intro a b hab hg
    have hok := h1 (a, b) ((mem_pairs hseq.1 _ _).2 hab)
    unfold EdgeOk at hok
    rw [hg] at hok
    refine ⟨?_, hok.1.symm, hok.2⟩
    rw [h2, get?_kept]
    refine ⟨(mem_pairs hseq.1 _ _).2 hab, one_ne_zero, ?_⟩
    unfold edgeVal
    rw [hg]
  · intro a b fl hab hg
    have hok := h1 (a, b) ((mem_pairs hseq.1 _ _).2 hab)
    unfold EdgeOk at hok
    rw [hg] at hok
    obtain ⟨hb, v, hv⟩ := hok
    refine ⟨hb, fl.map (evalD sol), ?_, ?_⟩
    · rw [List.forall₂_map_right_iff, List.forall₂_same]
      exact sum_funcs_each hv
    · have hval : edgeVal m sol (a, b) = (fl.map (evalD sol)).sum := by
        unfold edgeVal; rw [hg]
      by_cases h0 : (fl.map (evalD sol)).sum = 0
      · rw [if_pos h0, Dict.get?_eq_none_iff, hkeys, hval]
        exact fun hh => hh.2 h0
      · rw [if_neg h0, h2, get?_kept]
        exact ⟨(mem_pairs hseq.1 _ _).2 hab, h0, hval.symm⟩

/-- **C51, no failure.** The generation succeeds when every edge of the graph is either a bond (between
equal keys) without injection, or injected with functions that have values, and the two dictionaries are
each other's converse. -/
theorem C51_no_error {m : Algo P K F} {bonds seq req : SetDict P K} {sol : SolVec P K F}
    (hseq : SetWF seq) (hbal : ∀ a b, mem seq a b ↔ mem req b a)
    (hok : ∀ a b, mem seq a b →
      (Dict.get? m.edgeFunc (a, b) = none ∧ mem bonds a b ∧ a.2 = b.2) ∨
      (∃ fl, Dict.get? m.edgeFunc (a, b) = some fl ∧ ¬ mem bonds a b ∧
        ∀ f ∈ fl, ∃ v, f sol = .ok v)) :
    ∃ g, edge_matrix_generate m bonds seq req sol = .ok g := by
  have h1 : ∀ e ∈ pairs seq, EdgeOk m bonds sol e := by
    intro e he
    unfold EdgeOk
    rcases hok e.1 e.2 ((mem_pairs hseq.1 _ _).1 he) with ⟨h, h', h''⟩ | ⟨fl, h, h', h''⟩
    · rw [show Dict.get? m.edgeFunc e = none from h]
      exact ⟨h''.symm, h'⟩
    · rw [show Dict.get? m.edgeFunc e = some fl from h]
      exact ⟨h', sum_funcs_total h''⟩
  obtain ⟨st, hst⟩ := edge_loop_total (pairs seq) ([], []) h1
  have hst' := (edge_loop_ok (pairs seq) (nodup_pairs hseq) (st := ([], [])) (by simp [Dict.keys]) hst).2
  obtain ⟨sr, hsr⟩ := drop_loop_total st.2 (by
    rw [hst']
    exact (nodup_pairs hseq).filter _) (seq, req) (by
    intro e he
    rw [hst'] at he
    dsimp only at he
    rw [List.nil_append, List.mem_filter] at he
    have := (mem_pairs hseq.1 _ _).1 he.1
    exact ⟨this, (hbal _ _).1 this⟩)
  unfold edge_matrix_generate
  rw [hst, bind_ok, hsr]
  exact ⟨_, rfl⟩

/-- The source vector holds the nonzero sums of the sources' functions over the given inputs. -/
theorem C51_source_vector {m : Algo P K F} {inputs : List (P × K)} {sol : SolVec P K F}
    {sv : Dict (P × K) F} (h : source_vector_generate m inputs sol = .ok sv) :
    (∀ k ∈ inputs, ∃ fl vs, Dict.get? m.srcFunc k = some fl ∧
      List.Forall₂ (fun (f : Func P K F) v => f sol = .ok v) fl vs ∧
      Dict.get? sv k = if vs.sum = 0 then none else some vs.sum) ∧
    ∀ k, k ∉ inputs → Dict.get? sv k = none := by
  obtain ⟨h1, h2⟩ := source_loop_ok inputs h (by simp)
  constructor
  · intro k hk
    obtain ⟨fl, hfl, v, hv⟩ := h1 k hk
    refine ⟨fl, fl.map (evalD sol), hfl, ?_, ?_⟩
    · rw [List.forall₂_map_right_iff, List.forall₂_same]
      exact sum_funcs_each hv
    · have hval : srcVal m sol k = (fl.map (evalD sol)).sum := by
        unfold srcVal; rw [hfl]
      by_cases h0 : (fl.map (evalD sol)).sum = 0
      · rw [if_pos h0]
        cases hg : Dict.get? sv k with
        | none => rfl
        | some w =>
          have := (h2 k w).1 hg
          rw [hval, h0] at this
          exact absurd this.1 this.2.1
      · rw [if_neg h0, h2]
        exact ⟨hval.symm, h0, Or.inl hk⟩
  · intro k hk
    cases hg : Dict.get? sv k with
    | none => rfl
    | some w =>
      rcases (h2 k w).1 hg with ⟨_, _, h | h⟩
      · exact absurd h hk
      · simp at h

/-! ## the fixed point solves the nonlinear equations -/

theorem total_of_keys (sol : SolVec P K F) (y : P × K → F) (t : P × K) (m : Algo P K F)
    (hw : Dict.WF m.edgeFunc) :
    edgeTotal sol y t m
      = ((Dict.keys m.edgeFunc).map (fun e => if e.2 = t then edgeVal m sol e * y e.1 else 0)).sum := by
  unfold edgeTotal Dict.keys
  rw [List.map_map]
  congr 1
  apply List.map_congr_left
  intro kv hkv
  have : edgeVal m sol kv.1 = (kv.2.map (evalD sol)).sum := by
    unfold edgeVal
    rw [Dict.get?_of_mem hw (show (kv.1, kv.2) ∈ _ from hkv)]
  simp only [Function.comp_apply, this]

theorem srcTotal_eq (sol : SolVec P K F) (t : P × K) (m : Algo P K F) (hw : Dict.WF m.srcFunc) :
    srcTotal sol t m = srcVal m sol t := by
  unfold srcTotal srcVal
  generalize m.srcFunc = d at hw
  induction d with
  | nil => simp
  | cons kv d ih =>
    have hw' : kv.1 ∉ Dict.keys d ∧ Dict.WF d := by simpa [Dict.WF, Dict.keys] using hw
    rw [List.map_cons, List.sum_cons, ih hw'.2, Dict.get?_cons]
    by_cases h : kv.1 = t
    · rw [if_pos h, if_pos h]
      have : Dict.get? d t = none := (Dict.get?_eq_none_iff _ _).2 (h ▸ hw'.1)
      rw [this]
      simp
    · rw [if_neg h, if_neg h, zero_add]

theorem filter_sum (l : List ((P × K) × (P × K))) (A B : (P × K) × (P × K) → Prop)
    [DecidablePred A] [DecidablePred B] (y : P × K → F) (t : P × K) (h : ∀ e ∈ l, A e ↔ B e) :
    ((l.filter (fun e => A e)).map (fun e => if e.2 = t then y e.1 else 0)).sum
      = ((l.filter (fun e => e.2 = t ∧ B e)).map (fun e => y e.1)).sum := by
  induction l with
  | nil => simp
  | cons e l ih =>
    have ih' := ih (fun e he => h e (by simp [he]))
    have he := h e (by simp)
    by_cases hA : A e
    · have hB := he.1 hA
      by_cases ht : e.2 = t
      · rw [List.filter_cons, if_pos (by simpa using hA), List.filter_cons,
          if_pos (by simpa using ⟨ht, hB⟩), List.map_cons, List.map_cons, List.sum_cons,
          List.sum_cons, ih', if_pos ht]
      · rw [List.filter_cons, if_pos (by simpa using hA), List.filter_cons,
          if_neg (by simpa using fun h => absurd h ht), List.map_cons, List.sum_cons, ih',
          if_neg ht, zero_add]
    · have hB : ¬ B e := fun hB => hA (he.2 hB)
      rw [List.filter_cons, if_neg (by simpa using hA), List.filter_cons,
          if_neg (by simpa using fun _ => hB), ih']

/-- The sum over the graph's edges splits in the bonds and the injected edges. -/
theorem pairs_sum (m : Algo P K F) (hw : Dict.WF m.edgeFunc) (sol : SolVec P K F) (y : P × K → F)
    (t : P × K) (seq : SetDict P K) (hseq : SetWF seq)
    (hcov : ∀ e ∈ Dict.keys m.edgeFunc, e.2 = t → ¬ mem seq e.1 e.2 → y e.1 = 0 ∨ edgeVal m sol e = 0) :
    ((pairs seq).map (fun e => if e.2 = t then edgeVal m sol e * y e.1 else 0)).sum
      = (((pairs seq).filter (fun e => Dict.get? m.edgeFunc e = none)).map
          (fun e => if e.2 = t then y e.1 else 0)).sum + edgeTotal sol y t m := by
  rw [total_of_keys sol y t m hw]
  have hn := nodup_pairs hseq
  rw [← List.sum_toFinset _ hn, ← List.sum_toFinset _ (hn.filter _), ← List.sum_toFinset _ hw]
  have hk : ∀ e, Dict.get? m.edgeFunc e = none ↔ e ∉ (Dict.keys m.edgeFunc).toFinset := by
    intro e; rw [List.mem_toFinset]; exact Dict.get?_eq_none_iff _ _
  rw [← Finset.sum_filter_add_sum_filter_not (pairs seq).toFinset
    (fun e => Dict.get? m.edgeFunc e = none)]
  congr 1
  · rw [List.toFinset_filter]
    have : (pairs seq).toFinset.filter (fun e => Dict.get? m.edgeFunc e = none)
        = (pairs seq).toFinset.filter (fun e => decide (Dict.get? m.edgeFunc e = none) = true) := by
      apply Finset.filter_congr; intro e _; simp
    rw [← this]
    apply Finset.sum_congr rfl
    intro e he
    rw [Finset.mem_filter] at he
    have : edgeVal m sol e = 1 := by unfold edgeVal; rw [he.2]
    rw [this, one_mul]
  · apply Finset.sum_subset
    · intro e he
      rw [Finset.mem_filter, hk, not_not] at he
      exact he.2
    · intro e he hne
      rw [Finset.mem_filter, hk, not_not, not_and'] at hne
      have h1 : ¬ mem seq e.1 e.2 := fun hm =>
        hne he (List.mem_toFinset.2 ((mem_pairs hseq.1 _ _).2 hm))
      by_cases ht : e.2 = t
      · rcases hcov e (List.mem_toFinset.1 he) ht h1 with h | h <;> simp [h]
      · rw [if_neg ht]

/-- The right hand side of the linear system at a node: the bonded fields and what every injection adds. -/
theorem system_sum (injs : List (Inj P K F)) (ports : Dict P (List K)) (m : Algo P K F)
    (hm : insert_all ports injs = .ok m)
    (bonds seq req : SetDict P K) (hseq : SetWF seq) (inputs : List (P × K))
    (sol : SolVec P K F) (x : P × K → F) (t : P × K)
    (g : Gen P K F) (hg : edge_matrix_generate m bonds seq req sol = .ok g)
    (sv : Dict (P × K) F) (hs : source_vector_generate m inputs sol = .ok sv)
    (hcov : ∀ e fl, Dict.get? m.edgeFunc e = some fl → e.2 = t → ¬ mem seq e.1 e.2 →
      x e.1 = 0 ∨ ∀ f ∈ fl, evalD sol f = 0)
    (hin : ∀ fl, Dict.get? m.srcFunc t = some fl → t ∉ inputs → ∀ f ∈ fl, evalD sol f = 0) :
    matSum g.mat x t + (Dict.get? sv t).getD 0 = (((pairs seq).filter (fun e => e.2 = t ∧ mem bonds e.1 e.2)).map (fun e => x e.1)).sum
      + (injs.map (fun i => i.linear sol x t)).sum := by
  obtain ⟨hw, htot⟩ := insert_all_total sol x t ports _ m hm
  obtain ⟨h1, h2, _, _, _, _⟩ := generate_spec hseq hg
  obtain ⟨_, h4⟩ := source_loop_ok inputs hs (by simp)
  have hzero : ∀ fl : List (Func P K F), (∀ f ∈ fl, evalD sol f = 0) → (fl.map (evalD sol)).sum = 0 := by
    intro fl hfl
    apply List.sum_eq_zero
    intro v hv
    obtain ⟨f, hf, rfl⟩ := List.mem_map.1 hv
    exact hfl f hf
  have hcov' : ∀ e ∈ Dict.keys m.edgeFunc, e.2 = t → ¬ mem seq e.1 e.2 → x e.1 = 0 ∨ edgeVal m sol e = 0 := by
    intro e he ht hne
    rw [Dict.mem_keys_iff, Option.isSome_iff_exists] at he
    obtain ⟨fl, hfl⟩ := he
    rcases hcov e fl hfl ht hne with h | h
    · exact Or.inl h
    · right
      unfold edgeVal
      rw [hfl]
      exact hzero fl h
  have hsv : (Dict.get? sv t).getD 0 = srcVal m sol t := by
    cases hgt : Dict.get? sv t with
    | some v => exact ((h4 t v).1 hgt).1
    | none =>
      by_contra hne
      have hne' : srcVal m sol t ≠ 0 := fun h0 => hne h0.symm
      by_cases hti : t ∈ inputs
      · have := (h4 t (srcVal m sol t)).2 ⟨rfl, hne', Or.inl hti⟩
        rw [hgt] at this
        cases this
      · unfold srcVal at hne'
        cases hfl : Dict.get? m.srcFunc t with
        | none => rw [hfl] at hne'; exact hne' rfl
        | some fl =>
          rw [hfl] at hne'
          exact hne' (hzero fl (hin fl hfl hti))
  rw [hsv, h2, matSum_kept, pairs_sum m hw.edge sol x t seq hseq hcov', add_assoc,
    ← srcTotal_eq sol t m hw.src, htot]
  congr 1
  apply filter_sum
  intro e he
  have hok := h1 e he
  unfold EdgeOk at hok
  cases hge : Dict.get? m.edgeFunc e with
  | none => rw [hge] at hok; simp [hok.2]
  | some fl => rw [hge] at hok; simp [hok.1]

/-- The sums of the linear system, for couplings which add what they stand for. -/
theorem fixed_point_core (cs : List (Coupling P K F)) (ports : Dict P (List K)) (m : Algo P K F)
    (hm : insert_all ports (cs.map Coupling.inj) = .ok m)
    (bonds seq req : SetDict P K) (hseq : SetWF seq) (inputs : List (P × K))
    (sol : SolVec P K F) (x : P × K → F) (t : P × K)
    (hterm : ∀ c ∈ cs, c.inj.linear sol x t = c.into x t)
    (g : Gen P K F) (hg : edge_matrix_generate m bonds seq req sol = .ok g)
    (sv : Dict (P × K) F) (hs : source_vector_generate m inputs sol = .ok sv)
    (hcov : ∀ e fl, Dict.get? m.edgeFunc e = some fl → e.2 = t → ¬ mem seq e.1 e.2 →
      x e.1 = 0 ∨ ∀ f ∈ fl, evalD sol f = 0)
    (hin : ∀ fl, Dict.get? m.srcFunc t = some fl → t ∉ inputs → ∀ f ∈ fl, evalD sol f = 0)
    (hx : Solves g.mat sv x t) :
    x t = (((pairs seq).filter (fun e => e.2 = t ∧ mem bonds e.1 e.2)).map (fun e => x e.1)).sum
      + (cs.map (fun c => c.into x t)).sum := by
  unfold Solves at hx
  rw [hx, system_sum (cs.map Coupling.inj) ports m hm bonds seq req hseq inputs sol x t g hg sv hs hcov hin, List.map_map]
  congr 2
  apply List.map_congr_left
  exact hterm

/-- **C41, the whole system.** Let the injections of the couplings `cs` be inserted, and let the matrix and
the source vector be generated from a previous solution `sol`.  If the fields `x` solve the generated
linear system at `t` and `sol` holds these same fields (a fixed point of the iteration), then at `t` the
fields satisfy the nonlinear equation: `x t` is the sum of the fields bonded to `t` and of what every
coupling stands for.  Edges and sources missing from the graph are allowed when they do not act. -/
theorem C41_fixed_point (cs : List (Coupling P K F)) (ports : Dict P (List K)) (m : Algo P K F)
    (hm : insert_all ports (cs.map Coupling.inj) = .ok m)
    (bonds seq req : SetDict P K) (hseq : SetWF seq) (inputs : List (P × K))
    (sol : SolVec P K F) (x : P × K → F)
    (ha : ∀ c ∈ cs, c.Agrees sol x) (hn : ∀ c ∈ cs, c.Normed x) (hu : ∀ c ∈ cs, c.Unshifted x)
    (g : Gen P K F) (hg : edge_matrix_generate m bonds seq req sol = .ok g)
    (sv : Dict (P × K) F) (hs : source_vector_generate m inputs sol = .ok sv)
    (hcov : ∀ e fl, Dict.get? m.edgeFunc e = some fl → ¬ mem seq e.1 e.2 →
      x e.1 = 0 ∨ ∀ f ∈ fl, f sol = .ok 0)
    (hin : ∀ k fl, Dict.get? m.srcFunc k = some fl → k ∉ inputs → ∀ f ∈ fl, f sol = .ok 0)
    (t : P × K) (hx : Solves g.mat sv x t) :
    x t = (((pairs seq).filter (fun e => e.2 = t ∧ mem bonds e.1 e.2)).map (fun e => x e.1)).sum
      + (cs.map (fun c => c.into x t)).sum := by
  have hev : ∀ f : Func P K F, f sol = .ok 0 → evalD sol f = 0 := by
    intro f hf
    unfold evalD
    rw [hf]
  refine fixed_point_core cs ports m hm bonds seq req hseq inputs sol x t
    (fun c hc => C41_fixed_point_term c sol x t (ha c hc) (hn c hc) (hu c hc)) g hg sv hs ?_ ?_ hx
  · intro e fl hfl _ hne
    exact (hcov e fl hfl hne).imp_right (fun h f hf => hev f (h f hf))
  · intro fl hfl hne f hf
    exact hev f (hin t fl hfl hne f hf)

/-! ## examples -/

section Examples

/-- two constant sources, one product and a bond -/
def exCouplings : List (Coupling Nat Unit ℚ) :=
  [.source (0, ()) 2, .source (1, ()) 3, .triplet (0, ()) (1, ()) (2, ()) 5, .triplet (3, ()) (3, ()) (4, ()) 7]

def exPorts : Dict Nat (List Unit) := [(0, [()]), (1, [()]), (2, [()]), (3, [()]), (4, [()])]

def exSeq : SetDict Nat Unit :=
  [((0, ()), [(2, ())]), ((1, ()), [(2, ())]), ((2, ()), [(3, ())]), ((3, ()), [(4, ())])]

def exReq : SetDict Nat Unit :=
  [((2, ()), [(0, ()), (1, ())]), ((3, ()), [(2, ())]), ((4, ()), [(3, ())])]

def exBonds : SetDict Nat Unit := [((2, ()), [(3, ())])]

def exSol : SolVec Nat Unit ℚ :=
  [((0, ()), 2), ((1, ()), 3), ((2, ()), 30), ((3, ()), 30), ((4, ()), 6300)]

def exRun : Except Err (Algo Nat Unit ℚ × Gen Nat Unit ℚ × Dict (Nat × Unit) ℚ) := do
  let m ← insert_all exPorts (exCouplings.map Coupling.inj)
  let g ← edge_matrix_generate m exBonds exSeq exReq exSol
  let sv ← source_vector_generate m [(0, ()), (1, ()), (2, ())] exSol
  pure (m, g, sv)

def exCheck (r : Algo Nat Unit ℚ × Gen Nat Unit ℚ × Dict (Nat × Unit) ℚ) : Prop :=
  (∀ t ∈ [0, 1, 2, 3, 4], Solves r.2.1.mat r.2.2 (fun k => getd exSol k 0) (t, ())) ∧
  (∀ e ∈ Dict.keys r.1.edgeFunc, mem exSeq e.1 e.2) ∧
  (∀ k ∈ Dict.keys r.1.srcFunc, k ∈ [((0 : Nat), ()), (1, ()), (2, ())])

instance (r) : Decidable (exCheck r) := by
  unfold exCheck Solves
  infer_instance

/-- the hypotheses of `C41_fixed_point` are met by a system with two products, a bond and two sources;
the fields are those of the fixed point, `5·2·3 = 30` and `7·30² = 6300` -/
example : ∃ m g sv, insert_all exPorts (exCouplings.map Coupling.inj) = .ok m ∧
    edge_matrix_generate m exBonds exSeq exReq exSol = .ok g ∧
    source_vector_generate m [(0, ()), (1, ()), (2, ())] exSol = .ok sv ∧
    (∀ t ∈ [0, 1, 2, 3, 4], Solves g.mat sv (fun k => getd exSol k 0) (t, ())) ∧
    (∀ e ∈ Dict.keys m.edgeFunc, mem exSeq e.1 e.2) ∧
    (∀ k ∈ Dict.keys m.srcFunc, k ∈ [((0 : Nat), ()), (1, ()), (2, ())]) := by
  have h : (match exRun with
      | .ok r => decide (exCheck r)
      | .error _ => false) = true := by decide +kernel
  cases hr : exRun with
  | error e => rw [hr] at h; cases h
  | ok r =>
    rw [hr] at h
    have h' := of_decide_eq_true h
    unfold exRun at hr
    obtain ⟨m, hm, hr⟩ := bind_ok_inv hr
    obtain ⟨g, hg, hr⟩ := bind_ok_inv hr
    obtain ⟨sv, hs, hr⟩ := bind_ok_inv hr
    injection hr with hr
    subst hr
    exact ⟨m, g, sv, hm, hg, hs, h'⟩

example : (∀ c ∈ exCouplings, c.Agrees exSol (fun k => getd exSol k 0)) ∧
    (∀ c ∈ exCouplings, c.Normed (fun k => getd exSol k 0)) ∧
    (∀ c ∈ exCouplings, c.Unshifted (fun k => getd exSol k 0)) ∧ SetWF exSeq := by
  refine ⟨?_, ?_, ?_, by decide, by decide⟩
  · intro c hc
    refine ⟨fun _ _ => rfl, ?_⟩
    simp only [exCouplings, List.mem_cons, List.not_mem_nil, or_false] at hc
    rcases hc with rfl | rfl | rfl | rfl <;> simp [Coupling.norms]
  · intro c hc
    simp only [exCouplings, List.mem_cons, List.not_mem_nil, or_false] at hc
    rcases hc with rfl | rfl | rfl | rfl <;> trivial
  · intro c hc
    simp only [exCouplings, List.mem_cons, List.not_mem_nil, or_false] at hc
    rcases hc with rfl | rfl | rfl | rfl <;> trivial

/-- and those of the normalised couplings: the norm function may be insensitive to the shift -/
example : (Coupling.tripletNorm (0, ()) (1, ()) (2, ()) (3, ()) (5 : ℚ) (fun _ => 2) : Coupling Nat Unit ℚ).Normed
      (fun _ => 1) ∧
    (Coupling.tripletNorm (0, ()) (1, ()) (2, ()) (3, ()) (5 : ℚ) (fun _ => 2) : Coupling Nat Unit ℚ).Unshifted
      (fun _ => 1) ∧
    (Coupling.tripletNorms (0, ()) (1, ()) (2, ()) [(3, ()), (4, ())] (5 : ℚ) List.sum : Coupling Nat Unit ℚ).Normed
      (fun _ => 1) := by
  refine ⟨?_, ?_, ?_⟩
  · show (2 : ℚ) ≠ 0; norm_num
  · intro _; rfl
  · show ([(3, ()), (4, ())].map (fun _ => (1 : ℚ))).sum ≠ 0; norm_num

/-- the graph of the example satisfies the hypotheses of `C51_edge_matrix` -/
example : (Dict.WF exSeq ∧ ∀ kv ∈ exSeq, kv.2.Nodup) ∧ ∀ a ∈ [0, 1, 2, 3, 4], ∀ b ∈ [0, 1, 2, 3, 4],
    mem exSeq (a, ()) (b, ()) ↔ mem exReq (b, ()) (a, ()) := by decide

end Examples

end Inject
