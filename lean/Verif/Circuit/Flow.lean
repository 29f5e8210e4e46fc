import Mathlib.Algebra.BigOperators.Ring.Finset
import Mathlib.Algebra.BigOperators.Group.Finset.Sigma
import Mathlib.Algebra.Field.Defs
import Mathlib.Logic.Relation
import Mathlib.Tactic.Ring
import Mathlib.Tactic.LinearCombination

/-!
# Currents along the edges of a graph

Currents into the vertices come from currents along the edges exactly when they add up to zero on every set of vertices
closed under adjacency.
-/

set_option linter.unusedSectionVars false

namespace Circuit

variable {T F : Type} [DecidableEq T] [Field F]

/-- `I` are the currents the edge currents `J` leave at the vertices. -/
def Flow (ps : Finset T) (adj : T → Finset T) (I : T → F) (J : T → T → F) : Prop :=
  (∀ p ∈ ps, ∀ q ∈ adj p, J p q + J q p = 0) ∧ ∀ p ∈ ps, I p = ∑ q ∈ adj p, J p q

theorem flow_zero_sum {ps : Finset T} {adj : T → Finset T} {I : T → F} {J : T → T → F} (h : Flow ps adj I J)
    (hsymm : ∀ p ∈ ps, ∀ q ∈ adj p, p ∈ adj q) (h2 : (2 : F) ≠ 0) {S : Finset T} (hS : S ⊆ ps)
    (hcl : ∀ p ∈ S, adj p ⊆ S) : ∑ p ∈ S, I p = 0 := by
  have e1 : ∑ p ∈ S, I p = ∑ p ∈ S, ∑ q ∈ S, if q ∈ adj p then J p q else 0 := by
    refine Finset.sum_congr rfl fun p hp => ?_
    rw [h.2 p (hS hp), ← Finset.sum_filter, Finset.filter_mem_eq_inter, Finset.inter_eq_right.2 (hcl p hp)]
  have e2 : ∑ p ∈ S, I p = - ∑ p ∈ S, I p := by
    conv_rhs => rw [e1, Finset.sum_comm]
    rw [e1, ← Finset.sum_neg_distrib]
    refine Finset.sum_congr rfl fun p hp => ?_
    rw [← Finset.sum_neg_distrib]
    refine Finset.sum_congr rfl fun q hq => ?_
    by_cases hpq : q ∈ adj p
    · rw [if_pos hpq, if_pos (hsymm p (hS hp) q hpq)]
      linear_combination h.1 p (hS hp) q hpq
    · rw [if_neg hpq, if_neg (fun hqp => hpq (hsymm q (hS hq) p hqp)), neg_zero]
  have e3 : 2 * ∑ p ∈ S, I p = 0 := by linear_combination e2
  exact (mul_eq_zero.1 e3).resolve_left h2

theorem flow_add {ps : Finset T} {adj : T → Finset T} {I I' : T → F} {J J' : T → T → F} (h : Flow ps adj I J)
    (h' : Flow ps adj I' J') : Flow ps adj (fun p => I p + I' p) (fun p q => J p q + J' p q) := by
  constructor
  · intro p hp q hq
    linear_combination h.1 p hp q hq + h'.1 p hp q hq
  · intro p hp
    rw [Finset.sum_add_distrib, ← h.2 p hp, ← h'.2 p hp]

theorem flow_smul {ps : Finset T} {adj : T → Finset T} {I : T → F} {J : T → T → F} (c : F) (h : Flow ps adj I J) :
    Flow ps adj (fun p => c * I p) (fun p q => c * J p q) := by
  constructor
  · intro p hp q hq
    linear_combination c * h.1 p hp q hq
  · intro p hp
    rw [← Finset.mul_sum, ← h.2 p hp]

theorem flow_congr {ps : Finset T} {adj : T → Finset T} {I I' : T → F} {J : T → T → F} (h : Flow ps adj I J)
    (hI : ∀ p ∈ ps, I' p = I p) : Flow ps adj I' J :=
  ⟨h.1, fun p hp => by rw [hI p hp, h.2 p hp]⟩

theorem flow_sum {ps : Finset T} {adj : T → Finset T} (S : Finset T) (I : T → T → F)
    (h : ∀ v ∈ S, ∃ J, Flow ps adj (I v) J) : ∃ J, Flow ps adj (fun p => ∑ v ∈ S, I v p) J := by
  induction S using Finset.induction_on with
  | empty => exact ⟨fun _ _ => 0, fun _ _ _ _ => by ring, fun p _ => by simp⟩
  | insert v S hv ih =>
    obtain ⟨J, hJ⟩ := h v (Finset.mem_insert_self v S)
    obtain ⟨J', hJ'⟩ := ih (fun w hw => h w (Finset.mem_insert_of_mem hw))
    refine ⟨_, flow_congr (flow_add hJ hJ') fun p _ => ?_⟩
    rw [Finset.sum_insert hv]

/-- The unit current at a vertex. -/
def unit (v p : T) : F := if p = v then 1 else 0

theorem flow_path {ps : Finset T} {adj : T → Finset T} (hsymm : ∀ p ∈ ps, ∀ q ∈ adj p, p ∈ adj q) {u v : T}
    (h : Relation.EqvGen (fun p q => p ∈ ps ∧ q ∈ adj p) u v) :
    ∃ J, Flow ps adj (fun p => (unit u p - unit v p : F)) J := by
  induction h with
  | rel u v huv =>
    refine ⟨fun p q => (if p = u ∧ q = v then 1 else 0) - (if p = v ∧ q = u then 1 else 0), ?_, ?_⟩
    · intro p _ q _
      have c1 : (q = u ∧ p = v) ↔ (p = v ∧ q = u) := and_comm
      have c2 : (q = v ∧ p = u) ↔ (p = u ∧ q = v) := and_comm
      simp only [c1, c2]
      ring
    · intro p hp
      rw [Finset.sum_sub_distrib]
      have key : ∀ a b : T, (p = a → b ∈ adj p) → (∑ q ∈ adj p, if p = a ∧ q = b then (1 : F) else 0) = unit a p := by
        intro a b hab
        unfold unit
        by_cases hpa : p = a
        · rw [if_pos hpa, Finset.sum_eq_single b, if_pos ⟨hpa, rfl⟩]
          · intro c _ hc
            rw [if_neg (fun h => hc h.2)]
          · intro hb
            exact absurd (hab hpa) hb
        · rw [if_neg hpa]
          refine Finset.sum_eq_zero fun c _ => ?_
          rw [if_neg (fun h => hpa h.1)]
      rw [key u v (fun h => h ▸ huv.2), key v u (fun h => h ▸ hsymm _ huv.1 _ huv.2)]
  | refl u => exact ⟨fun _ _ => 0, fun _ _ _ _ => by ring, fun p _ => by simp⟩
  | symm u v _ ih =>
    obtain ⟨J, hJ⟩ := ih
    refine ⟨_, flow_congr (flow_smul (-1) hJ) fun p _ => by ring⟩
  | trans u v w _ _ ih1 ih2 =>
    obtain ⟨J, hJ⟩ := ih1
    obtain ⟨J', hJ'⟩ := ih2
    exact ⟨_, flow_congr (flow_add hJ hJ') fun p _ => by ring⟩

/-- Kirchhoff's law: currents into the vertices can be carried by the edges exactly when they add up to zero on every
set of vertices that no edge leaves. -/
theorem flow_iff {ps : Finset T} {adj : T → Finset T} (hmem : ∀ p ∈ ps, adj p ⊆ ps)
    (hsymm : ∀ p ∈ ps, ∀ q ∈ adj p, p ∈ adj q) (h2 : (2 : F) ≠ 0) (I : T → F) :
    (∃ J, Flow ps adj I J) ↔ ∀ S ⊆ ps, (∀ p ∈ S, adj p ⊆ S) → ∑ p ∈ S, I p = 0 := by
  constructor
  · rintro ⟨J, hJ⟩ S hS hcl
    exact flow_zero_sum hJ hsymm h2 hS hcl
  · intro h
    let s : Setoid T := Relation.EqvGen.setoid (fun p q => p ∈ ps ∧ q ∈ adj p)
    let r : T → T := fun v => (Quotient.mk s v).out
    have hr : ∀ v, Relation.EqvGen (fun p q => p ∈ ps ∧ q ∈ adj p) v (r v) := fun v =>
      Relation.EqvGen.symm _ _ (Quotient.exact (Quotient.out_eq (Quotient.mk s v)))
    have hrel : ∀ u v, u ∈ ps → v ∈ adj u → r u = r v := by
      intro u v hu hv
      have : Quotient.mk s u = Quotient.mk s v := Quotient.sound (Relation.EqvGen.rel u v ⟨hu, hv⟩)
      change (Quotient.mk s u).out = (Quotient.mk s v).out
      rw [this]
    obtain ⟨J, hJ⟩ := flow_sum (ps := ps) (adj := adj) ps (fun v p => I v * (unit v p - unit (r v) p)) (by
      intro v _
      obtain ⟨J, hJ⟩ := flow_path (F := F) hsymm (hr v)
      exact ⟨_, flow_smul (I v) hJ⟩)
    refine ⟨J, flow_congr hJ fun p hp => ?_⟩
    simp only [mul_sub]
    rw [Finset.sum_sub_distrib]
    have e1 : ∑ v ∈ ps, I v * unit v p = I p := by
      unfold unit
      simp [hp]
    have e2 : ∑ v ∈ ps, I v * unit (r v) p = 0 := by
      have := h (ps.filter (fun v => p = r v)) (Finset.filter_subset _ _) (by
        intro u hu v hv
        rw [Finset.mem_filter] at hu ⊢
        exact ⟨hmem u hu.1 hv, by rw [hu.2]; exact hrel u v hu.1 hv⟩)
      rw [Finset.sum_filter] at this
      unfold unit
      simpa using this
    rw [e1, e2, sub_zero]

end Circuit
