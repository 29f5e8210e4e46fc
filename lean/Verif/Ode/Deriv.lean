import Mathlib.Analysis.Calculus.Deriv.Mul
import Mathlib.Analysis.Calculus.Deriv.Add
import Mathlib.Analysis.Complex.Basic
import Verif.Ode.Couple

/-!
# The tangent of the integration is its derivative
-/

set_option linter.unusedSectionVars false

namespace Ode
open Py

variable {I K P S : Type} [DecidableEq I] [DecidableEq K] [DecidableEq P] [DecidableEq (S → ℂ)]

theorem prod_deriv {x : ℝ → I → S → ℂ} {Δ : I → S → ℂ} {t₀ : ℝ} {s : S} (l : List I)
    (hx : ∀ k ∈ l, HasDerivAt (fun t => x t k s) (Δ k s) t₀) :
    HasDerivAt (fun t => (l.map (x t)).prod s) (dprod l (x t₀) Δ s) t₀ := by
  induction l with
  | nil => exact hasDerivAt_const _ _
  | cons i l ih =>
    have h := (hx i List.mem_cons_self).mul (ih fun k hk => hx k (List.mem_cons_of_mem _ hk))
    simp only [List.map_cons, List.prod_cons, dprod]
    exact h

theorem poly_deriv {x : ℝ → I → S → ℂ} {Δ : I → S → ℂ} {t₀ : ℝ} {s : S} (lt : Lt I (S → ℂ))
    (hx : ∀ T ∈ lt, ∀ k ∈ T.2, HasDerivAt (fun t => x t k s) (Δ k s) t₀) :
    HasDerivAt (fun t => poly lt (x t) s) (dpoly lt (x t₀) Δ s) t₀ := by
  induction lt with
  | nil => exact hasDerivAt_const _ _
  | cons T lt ih =>
    have h := ((prod_deriv T.2 (hx T List.mem_cons_self)).const_mul (T.1 s)).add
      (ih fun T hT => hx T (List.mem_cons_of_mem _ hT))
    simp only [poly_cons, dpoly_cons]
    exact h

theorem rhs_mem {dLt : Dict K (Lt K (S → ℂ))} {pks : List K} (hK : Keyed dLt pks) {k : K} :
    ∀ T ∈ rhs dLt k, ∀ i ∈ T.2, i ∈ pks := by
  intro t ht i hi
  unfold rhs at ht
  cases hg : Dict.get? dLt k with
  | none => rw [hg] at ht; simp at ht
  | some lt =>
    rw [hg, Option.getD_some] at ht
    exact (hK.mem i).2 ⟨(k, lt), Dict.mem_of_get? hg, Or.inr ⟨t, ht, hi⟩⟩

theorem nudge_deriv {dLt : Dict K (Lt K (S → ℂ))} {pks : List K} (hK : Keyed dLt pks) (h : ℚ) (k : K)
    {x : ℝ → K → S → ℂ} {p : (K → S → ℂ) × (K → S → ℂ)} {t₀ : ℝ} {s : S} (hp : x t₀ = p.1)
    (hx : ∀ k ∈ pks, HasDerivAt (fun t => x t k s) (p.2 k s) t₀) (k' : K) (hk' : k' ∈ pks) :
    HasDerivAt (fun t => nudge dLt h (x t) k k' s) ((nudge2 dLt h p k).2 k' s) t₀ := by
  unfold nudge nudge2
  by_cases hkk : k' = k
  · subst hkk
    simp only [Function.update_self]
    have h1 := (hx k' hk').add ((poly_deriv (rhs dLt k') fun T hT i hi => hx i (rhs_mem hK T hT i hi)).const_smul (h : ℝ))
    rw [hp] at h1
    have e : ∀ v : S → ℂ, (h • v) s = (h : ℝ) • v s := by
      intro v
      rw [Pi.smul_apply]
      simp [Rat.smul_def]
    simp only [Pi.add_apply, e]
    exact h1
  · simp only [Function.update_of_ne hkk]
    exact hx k' hk'

theorem integrate_deriv {dLt : Dict K (Lt K (S → ℂ))} {pks : List K} (hK : Keyed dLt pks) (N : ℕ)
    {x : ℝ → K → S → ℂ} {Δ : K → S → ℂ} {t₀ : ℝ} {s : S}
    (hx : ∀ k ∈ pks, HasDerivAt (fun t => x t k s) (Δ k s) t₀) (k' : K) (hk' : k' ∈ pks) :
    HasDerivAt (fun t => integrate dLt N pks (x t) k' s) ((integrate2 dLt N pks (x t₀, Δ)).2 k' s) t₀ := by
  have hsweep : ∀ (h : ℚ) (l : List K) (x : ℝ → K → S → ℂ) (p : (K → S → ℂ) × (K → S → ℂ)), x t₀ = p.1 →
      (∀ k ∈ pks, HasDerivAt (fun t => x t k s) (p.2 k s) t₀) → ∀ k' ∈ pks,
      HasDerivAt (fun t => sweep dLt h l (x t) k' s) ((l.foldl (nudge2 dLt h) p).2 k' s) t₀ := by
    intro h l
    induction l with
    | nil => intro x p _ hx; exact hx
    | cons k l ih =>
      intro x p hp hx
      refine ih (fun t => nudge dLt h (x t) k) (nudge2 dLt h p k) ?_ (nudge_deriv hK h k hp hx)
      rw [hp]; rfl
  have main : ∀ (m : ℕ) (x : ℝ → K → S → ℂ) (p : (K → S → ℂ) × (K → S → ℂ)), x t₀ = p.1 →
      (∀ k ∈ pks, HasDerivAt (fun t => x t k s) (p.2 k s) t₀) → ∀ k' ∈ pks,
      HasDerivAt (fun t => (sweep dLt (1 / N) pks)^[m] (x t) k' s)
        (((fun p => pks.foldl (nudge2 dLt (1 / N)) p)^[m] p).2 k' s) t₀ := by
    intro m
    induction m with
    | zero => intro x p _ hx; exact hx
    | succ m ih =>
      intro x p hp hx
      simp only [Function.iterate_succ_apply]
      refine ih (fun t => sweep dLt (1 / N) pks (x t)) _ ?_ (hsweep _ _ x p hp hx)
      rw [sweep2_fst, hp]
  exact main N x (x t₀, Δ) rfl hx k' hk'

end Ode
