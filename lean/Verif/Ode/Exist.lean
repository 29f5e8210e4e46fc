import Mathlib.Analysis.InnerProductSpace.Calculus
import Mathlib.Analysis.Calculus.MeanValue
import Mathlib.Analysis.ODE.ExistUnique
import Verif.Ode.Limit

/-!
# Solutions of equations that conserve power

Equations that treat mirrored keys alike and conserve the total power have a solution up to the end, it stays mirrored and
its power is that of the inputs.
-/

set_option linter.unusedSectionVars false

namespace Ode
open Py

variable {K : Type} [DecidableEq K] [DecidableEq ℂ]

/-- The power of all keys together. -/
noncomputable def total (pks : List K) (x : K → ℂ) : ℝ := (pks.map fun k => ‖x k‖ ^ 2).sum

theorem total_nonneg (pks : List K) (x : K → ℂ) : 0 ≤ total pks x :=
  List.sum_nonneg (by
    intro r hr
    obtain ⟨k, -, rfl⟩ := List.mem_map.1 hr
    positivity)

theorem le_total {pks : List K} (x : K → ℂ) {k : K} (hk : k ∈ pks) : ‖x k‖ ^ 2 ≤ total pks x := by
  induction pks with
  | nil => simp at hk
  | cons a l ih =>
    have hc : total (a :: l) x = ‖x a‖ ^ 2 + total l x := by unfold total; rw [List.map_cons, List.sum_cons]
    rw [hc]
    rcases List.mem_cons.1 hk with rfl | hk
    · linarith [total_nonneg l x]
    · have := ih hk
      have h2 : 0 ≤ ‖x a‖ ^ 2 := by positivity
      linarith

/-- A factor that stops everything far from the power `p`. -/
noncomputable def cut (p q : ℝ) : ℝ := max 0 (1 - |q - p|)

theorem cut_self (p : ℝ) : cut p p = 1 := by unfold cut; simp

theorem cut_nonneg (p q : ℝ) : 0 ≤ cut p q := le_max_left _ _

theorem cut_le (p q : ℝ) : cut p q ≤ 1 := max_le zero_le_one (by linarith [abs_nonneg (q - p)])

theorem cut_far {p q : ℝ} (h : p + 1 ≤ q) : cut p q = 0 := by
  unfold cut
  rw [max_eq_left]
  have : q - p ≤ |q - p| := le_abs_self _
  linarith

theorem cut_lip (p q r : ℝ) : |cut p q - cut p r| ≤ |q - r| := by
  unfold cut
  refine (abs_max_sub_max_le_max 0 (1 - |q - p|) 0 (1 - |r - p|)).trans ?_
  rw [sub_self, abs_zero, max_eq_right (abs_nonneg _)]
  have e : 1 - |q - p| - (1 - |r - p|) = |r - p| - |q - p| := by ring
  rw [e]
  refine (abs_abs_sub_abs_le _ _).trans ?_
  rw [abs_sub_comm]
  have : q - p - (r - p) = q - r := by ring
  rw [this]

theorem LL.total (pks : List K) : LL pks (fun x : K → ℂ => (total pks x : ℂ)) := by
  have hn : ∀ k ∈ pks, LL pks (fun x : K → ℂ => ((‖x k‖ : ℝ) : ℂ)) := by
    intro k hk M
    refine ⟨max M 0, 1, le_max_right _ _, zero_le_one, fun x hx => ⟨?_, fun y _ e _ he => ?_⟩⟩
    · rw [Complex.norm_real, norm_norm]
      exact (hx k hk).trans (le_max_left _ _)
    · rw [← Complex.ofReal_sub, Complex.norm_real, one_mul]
      exact (abs_norm_sub_norm_le _ _).trans (he k hk)
  have : ∀ l : List K, (∀ k ∈ l, k ∈ pks) → LL pks (fun x : K → ℂ => (Ode.total l x : ℂ)) := by
    intro l
    induction l with
    | nil => intro _; simpa [Ode.total] using LL.const pks (0 : ℂ)
    | cons a l ih =>
      intro hl
      have h := ((hn a (hl a List.mem_cons_self)).mul (hn a (hl a List.mem_cons_self))).add
        (ih fun k hk => hl k (List.mem_cons_of_mem _ hk))
      have e : (fun x : K → ℂ => (Ode.total (a :: l) x : ℂ))
          = fun x => ((‖x a‖ : ℝ) : ℂ) * ((‖x a‖ : ℝ) : ℂ) + (Ode.total l x : ℂ) := by
        funext x
        unfold Ode.total
        rw [List.map_cons, List.sum_cons]
        push_cast; ring
      rw [e]; exact h
  exact this pks fun _ h => h

theorem LL.cut {pks : List K} (p : ℝ) {g : (K → ℂ) → ℝ} (hg : LL pks fun x => (g x : ℂ)) :
    LL pks fun x => (Ode.cut p (g x) : ℂ) := by
  intro M
  obtain ⟨_, L, _, hL, h⟩ := hg M
  refine ⟨1, L, zero_le_one, hL, fun x hx => ⟨?_, fun y hy e he hd => ?_⟩⟩
  · rw [Complex.norm_real, Real.norm_of_nonneg (cut_nonneg _ _)]
    exact cut_le _ _
  · have h1 := (h x hx).2 y hy e he hd
    rw [← Complex.ofReal_sub, Complex.norm_real] at h1 ⊢
    exact (cut_lip p _ _).trans h1

/-- The right hand sides with the factor. -/
noncomputable def slowed (dLt : Dict K (Lt K ℂ)) (pks : List K) (p : ℝ) (k : K) (x : K → ℂ) : ℂ :=
  (cut p (total pks x) : ℂ) * poly (rhs dLt k) x

theorem slowed_locLip {dLt : Dict K (Lt K ℂ)} {pks : List K} (hK : Keyed dLt pks) (p : ℝ) :
    LocLip (slowed dLt pks p) pks := by
  apply locLip_of
  intro k _
  exact ((LL.total pks).cut p).mul (LL.poly (g := fun i (z : K → ℂ) => z i) (rhs dLt k) fun T hT i hi =>
    LL.coord (p := id) (rhs_mem' hK T hT i hi) (fun v => le_refl _) fun _ _ => rfl)

theorem slowed_bound {dLt : Dict K (Lt K ℂ)} {pks : List K} (hK : Keyed dLt pks) {p : ℝ} (hp : 0 ≤ p) :
    ∃ B : ℝ, 0 ≤ B ∧ ∀ x : K → ℂ, ∀ k ∈ pks, ‖slowed dLt pks p k x‖ ≤ B := by
  obtain ⟨B, L, hB, -, h⟩ := slowed_locLip hK p (p + 2)
  refine ⟨B, hB, fun x k hk => ?_⟩
  by_cases hx : p + 1 ≤ total pks x
  · unfold slowed
    rw [cut_far hx]
    simpa using hB
  · refine (h k hk x fun i hi => ?_).1
    have h1 := le_total x hi
    push Not at hx
    by_contra hn
    push Not at hn
    have h3 : 0 ≤ ‖x i‖ := norm_nonneg _
    nlinarith

theorem total_congr {pks : List K} {x y : K → ℂ} (h : ∀ k ∈ pks, x k = y k) : total pks x = total pks y := by
  unfold total
  congr 1
  exact List.map_congr_left fun k hk => by rw [h k hk]

theorem poly_congr {dLt : Dict K (Lt K ℂ)} {pks : List K} (hK : Keyed dLt pks) {x y : K → ℂ} (h : ∀ k ∈ pks, x k = y k)
    (k : K) : poly (rhs dLt k) x = poly (rhs dLt k) y := by
  unfold poly
  congr 1
  refine List.map_congr_left fun T hT => ?_
  congr 2
  exact List.map_congr_left fun i hi => h i (rhs_mem' hK T hT i hi)

theorem slowed_solution {dLt : Dict K (Lt K ℂ)} {pks : List K} (hK : Keyed dLt pks) {p : ℝ} (hp : 0 ≤ p) (x₀ : K → ℂ) :
    ∃ φ : ℝ → K → ℂ, φ 0 = x₀ ∧ ∀ t ∈ Set.Icc (0 : ℝ) 1, ∀ k ∈ pks,
      HasDerivWithinAt (fun t => φ t k) (slowed dLt pks p k (φ t)) (Set.Icc 0 1) t := by
  let E := {k // k ∈ pks} → ℂ
  let ext : E → K → ℂ := fun y k => if h : k ∈ pks then y ⟨k, h⟩ else x₀ k
  let F : E → E := fun y k => slowed dLt pks p k.1 (ext y)
  let y₀ : E := fun k => x₀ k.1
  have hext : ∀ (y : E) (k : K) (hk : k ∈ pks), ext y k = y ⟨k, hk⟩ := fun y k hk => dif_pos hk
  have hy₀ : ext y₀ = x₀ := by
    funext k
    by_cases hk : k ∈ pks
    · rw [hext _ _ hk]
    · exact dif_neg hk
  obtain ⟨B, hB, hbound⟩ := slowed_bound hK hp
  obtain ⟨_, L, -, hL, hlip⟩ := slowed_locLip hK p (‖y₀‖ + B)
  have hball : ∀ y ∈ Metric.closedBall y₀ (⟨B, hB⟩ : NNReal), ∀ i ∈ pks, ‖ext y i‖ ≤ ‖y₀‖ + B := by
    intro y hy i hi
    rw [hext _ _ hi]
    refine (norm_le_pi_norm y ⟨i, hi⟩).trans ?_
    have : dist y y₀ ≤ B := hy
    rw [dist_eq_norm] at this
    have h2 : y = y₀ + (y - y₀) := by abel
    calc ‖y‖ = ‖y₀ + (y - y₀)‖ := by rw [← h2]
      _ ≤ ‖y₀‖ + ‖y - y₀‖ := norm_add_le _ _
      _ ≤ _ := by linarith
  have hPL : IsPicardLindelof (fun _ : ℝ => F) (tmin := 0) (tmax := 1) ⟨0, by simp⟩ y₀ ⟨B, hB⟩ 0 ⟨B, hB⟩ ⟨L, hL⟩ := by
    refine IsPicardLindelof.of_time_independent ?_ ?_ ?_
    · intro y _
      show ‖F y‖ ≤ B
      rw [pi_norm_le_iff_of_nonneg hB]
      intro k
      exact hbound _ _ k.2
    · refine LipschitzOnWith.of_dist_le_mul fun y hy z hz => ?_
      have hLd : 0 ≤ L * dist y z := mul_nonneg hL dist_nonneg
      show dist (F y) (F z) ≤ L * dist y z
      rw [dist_pi_le_iff hLd]
      intro k
      rw [dist_eq_norm]
      refine (hlip k.1 k.2 (ext y) (hball y hy)).2 (ext z) (hball z hz) _ dist_nonneg fun i hi => ?_
      rw [hext _ _ hi, hext _ _ hi, ← dist_eq_norm]
      exact dist_le_pi_dist y z ⟨i, hi⟩
    · simp
  obtain ⟨α, hα0, hα⟩ := hPL.exists_eq_forall_mem_Icc_hasDerivWithinAt₀
  refine ⟨fun t => ext (α t), ?_, fun t ht k hk => ?_⟩
  · have : α 0 = y₀ := hα0
    dsimp only
    rw [this, hy₀]
  · have h1 := (hasDerivWithinAt_pi.1 (hα t ht)) ⟨k, hk⟩
    have e : (fun t => ext (α t) k) = fun t => α t ⟨k, hk⟩ := by funext t; rw [hext _ _ hk]
    rw [e]
    exact h1

/-- The rate of the total power. -/
theorem total_deriv {pks : List K} {φ : ℝ → K → ℂ} {v : K → ℂ} {t : ℝ}
    (h : ∀ k ∈ pks, HasDerivWithinAt (fun t => φ t k) (v k) (Set.Icc 0 1) t) :
    HasDerivWithinAt (fun t => total pks (φ t)) (pks.map fun k => 2 * (starRingEnd ℂ (φ t k) * v k).re).sum (Set.Icc 0 1) t := by
  induction pks with
  | nil => simpa [total] using hasDerivWithinAt_const (c := (0 : ℝ)) (s := Set.Icc 0 1) (x := t)
  | cons a l ih =>
    have h1 := (h a List.mem_cons_self).norm_sq
    have h2 := ih fun k hk => h k (List.mem_cons_of_mem _ hk)
    have e : (fun t => total (a :: l) (φ t)) = fun t => ‖φ t a‖ ^ 2 + total l (φ t) := by
      funext t; unfold total; rw [List.map_cons, List.sum_cons]
    rw [e, List.map_cons, List.sum_cons]
    refine (h1.add h2).congr_deriv ?_
    rw [Complex.inner, mul_comm (v a)]

/-- A way to mirror the keys that the equations do not notice. -/
structure Mirror (dLt : Dict K (Lt K ℂ)) (pks : List K) (σ : K → K) : Prop where
  mem : ∀ k ∈ pks, σ k ∈ pks
  invol : ∀ k ∈ pks, σ (σ k) = k
  eqs : ∀ x y : K → ℂ, (∀ k ∈ pks, y (σ k) = starRingEnd ℂ (x k)) → ∀ k ∈ pks,
    poly (rhs dLt (σ k)) y = starRingEnd ℂ (poly (rhs dLt k) x)

theorem total_mirror {pks : List K} (hnd : pks.Nodup) {σ : K → K} (hm : ∀ k ∈ pks, σ k ∈ pks)
    (hi : ∀ k ∈ pks, σ (σ k) = k) (x : K → ℂ) : total pks (fun k => starRingEnd ℂ (x (σ k))) = total pks x := by
  unfold total
  rw [← List.sum_toFinset _ hnd, ← List.sum_toFinset _ hnd]
  refine Finset.sum_nbij' σ σ ?_ ?_ ?_ ?_ ?_
  · intro k hk; rw [List.mem_toFinset] at hk ⊢; exact hm k hk
  · intro k hk; rw [List.mem_toFinset] at hk ⊢; exact hm k hk
  · intro k hk; rw [List.mem_toFinset] at hk; exact hi k hk
  · intro k hk; rw [List.mem_toFinset] at hk; exact hi k hk
  · intro k _; rw [RCLike.norm_conj]

/-- Mirrored fields stay mirrored. -/
theorem Mirror.stays {dLt : Dict K (Lt K ℂ)} {pks : List K} (hK : Keyed dLt pks) {σ : K → K} (hσ : Mirror dLt pks σ)
    {c : ℝ → ℝ} {f : K → (K → ℂ) → ℂ} (hf : ∀ k x, f k x = (c (total pks x) : ℂ) * poly (rhs dLt k) x)
    (hlip : LocLip f pks) {φ : ℝ → K → ℂ}
    (hφ : ∀ t ∈ Set.Icc (0 : ℝ) 1, ∀ k ∈ pks, HasDerivWithinAt (fun t => φ t k) (f k (φ t)) (Set.Icc 0 1) t)
    (h0 : ∀ k ∈ pks, φ 0 (σ k) = starRingEnd ℂ (φ 0 k)) :
    ∀ t ∈ Set.Icc (0 : ℝ) 1, ∀ k ∈ pks, φ t (σ k) = starRingEnd ℂ (φ t k) := by
  have huniq := euler_unique hK.nodup hlip (φ := φ) (φ' := fun t k => starRingEnd ℂ (φ t (σ k))) hφ
    (fun t ht k hk => by
      have h1 := hφ t ht _ (hσ.mem k hk)
      have h2 := (Complex.conjCLE.toContinuousLinearMap.hasFDerivAt (x := φ t (σ k))).comp_hasDerivWithinAt t h1
      refine HasDerivWithinAt.congr_deriv h2 ?_
      show starRingEnd ℂ (f (σ k) (φ t)) = f k fun k => starRingEnd ℂ (φ t (σ k))
      rw [hf, hf, map_mul, Complex.conj_ofReal, total_mirror hK.nodup hσ.mem hσ.invol]
      congr 1
      have h3 := hσ.eqs (φ t) (fun k => starRingEnd ℂ (φ t (σ k))) (fun k hk => by rw [hσ.invol k hk])
        (σ k) (hσ.mem k hk)
      rw [hσ.invol k hk] at h3
      exact h3.symm)
    (fun k hk => by rw [h0 k hk, Complex.conj_conj])
  intro t ht k hk
  rw [huniq t ht k hk, Complex.conj_conj]

/-- Equations that conserve the power of mirrored fields have a solution up to the end, with the power of the inputs. -/
theorem Mirror.solution {dLt : Dict K (Lt K ℂ)} {pks : List K} (hK : Keyed dLt pks) {σ : K → K} (hσ : Mirror dLt pks σ)
    (hcons : ∀ x : K → ℂ, (∀ k ∈ pks, x (σ k) = starRingEnd ℂ (x k)) →
      (pks.map fun k => 2 * (starRingEnd ℂ (x k) * poly (rhs dLt k) x).re).sum = 0)
    {x₀ : K → ℂ} (h0 : ∀ k ∈ pks, x₀ (σ k) = starRingEnd ℂ (x₀ k)) :
    ∃ φ : ℝ → K → ℂ, φ 0 = x₀ ∧
      (∀ t ∈ Set.Icc (0 : ℝ) 1, ∀ k ∈ pks, HasDerivWithinAt (fun t => φ t k) (poly (rhs dLt k) (φ t)) (Set.Icc 0 1) t) ∧
      (∀ t ∈ Set.Icc (0 : ℝ) 1, ∀ k ∈ pks, φ t (σ k) = starRingEnd ℂ (φ t k)) ∧
      ∀ t ∈ Set.Icc (0 : ℝ) 1, total pks (φ t) = total pks x₀ := by
  obtain ⟨φ, hφ0, hφ⟩ := slowed_solution hK (total_nonneg pks x₀) x₀
  have hpair := hσ.stays hK (c := cut (total pks x₀)) (f := slowed dLt pks (total pks x₀)) (fun _ _ => rfl)
    (slowed_locLip hK _) hφ (by rw [hφ0]; exact h0)
  have hd : ∀ t ∈ Set.Icc (0 : ℝ) 1, HasDerivWithinAt (fun t => total pks (φ t)) 0 (Set.Icc 0 1) t := by
    intro t ht
    refine (total_deriv (hφ t ht)).congr_deriv ?_
    have e : (pks.map fun k => 2 * (starRingEnd ℂ (φ t k) * slowed dLt pks (total pks x₀) k (φ t)).re)
        = pks.map fun k => cut (total pks x₀) (total pks (φ t)) * (2 * (starRingEnd ℂ (φ t k) * poly (rhs dLt k) (φ t)).re) := by
      refine List.map_congr_left fun k _ => ?_
      unfold slowed
      have : starRingEnd ℂ (φ t k) * ((cut (total pks x₀) (total pks (φ t)) : ℂ) * poly (rhs dLt k) (φ t))
          = (cut (total pks x₀) (total pks (φ t)) : ℂ) * (starRingEnd ℂ (φ t k) * poly (rhs dLt k) (φ t)) := by ring
      rw [this, Complex.re_ofReal_mul]
      ring
    rw [e, List.sum_map_mul_left, hcons _ (hpair t ht), mul_zero]
  have hconst : ∀ t ∈ Set.Icc (0 : ℝ) 1, total pks (φ t) = total pks x₀ := by
    intro t ht
    have := constant_of_derivWithin_zero (f := fun t => total pks (φ t)) (a := 0) (b := 1)
      (fun t ht => (hd t ht).differentiableWithinAt)
      (fun t ht => (hd t ⟨ht.1, ht.2.le⟩).derivWithin (uniqueDiffOn_Icc zero_lt_one t ⟨ht.1, ht.2.le⟩)) t ht
    rw [this, hφ0]
  refine ⟨φ, hφ0, fun t ht k hk => ?_, hpair, hconst⟩
  have h1 := hφ t ht k hk
  unfold slowed at h1
  rw [hconst t ht, cut_self, Complex.ofReal_one, one_mul] at h1
  exact h1

/-- The values alone in the limit. -/
theorem integrate_limit {dLt : Dict K (Lt K ℂ)} {pks : List K} (hK : Keyed dLt pks) {φ : ℝ → K → ℂ}
    (hφ : ∀ t ∈ Set.Icc (0 : ℝ) 1, ∀ k ∈ pks, HasDerivWithinAt (fun t => φ t k) (poly (rhs dLt k) (φ t)) (Set.Icc 0 1) t) :
    ∃ C : ℝ, ∃ N₀ : ℕ, ∀ N : ℕ, N₀ ≤ N → ∀ k ∈ pks, ‖integrate dLt N pks (φ 0) k - φ 1 k‖ ≤ C / N := by
  have hz : ∀ (l : List K) (x : K → ℂ), dprod l x (fun _ => 0) = 0 := by
    intro l x
    induction l with
    | nil => rfl
    | cons k l ih => simp [dprod, ih]
  have hzero : ∀ (lt : Lt K ℂ) (x : K → ℂ), dpoly lt x (fun _ => 0) = 0 := by
    intro lt x
    unfold dpoly
    refine List.sum_eq_zero fun r hr => ?_
    obtain ⟨T, -, rfl⟩ := List.mem_map.1 hr
    rw [hz, mul_zero]
  obtain ⟨C, N₀, h⟩ := integrate2_limit hK (ψ := fun _ _ => 0) hφ (fun t _ k _ => by
    rw [hzero]; exact hasDerivWithinAt_const _ _ _)
  exact ⟨C, N₀, fun N hN k hk => (h N hN k hk).1⟩

end Ode
