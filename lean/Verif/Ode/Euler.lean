import Mathlib.Analysis.Calculus.MeanValue
import Mathlib.Analysis.SpecialFunctions.Exp
import Mathlib.Topology.Algebra.Order.Field

/-!
# Convergence of Euler's method whose components step one after the other
-/

namespace Ode

variable {K V : Type} [DecidableEq K] [NormedAddCommGroup V] [NormedSpace ℝ V]

/-- One component takes a step. -/
def gnudge (f : K → (K → V) → V) (h : ℝ) (x : K → V) (k : K) : K → V := Function.update x k (x k + h • f k x)

/-- The components step one after the other. -/
def gsweep (f : K → (K → V) → V) (h : ℝ) (pks : List K) (x : K → V) : K → V := pks.foldl (gnudge f h) x

/-- Bounded and Lipschitz on balls, as far as the components of the list go. -/
def LocLip (f : K → (K → V) → V) (pks : List K) : Prop :=
  ∀ M : ℝ, ∃ B L : ℝ, 0 ≤ B ∧ 0 ≤ L ∧ ∀ k ∈ pks, ∀ x : K → V, (∀ i ∈ pks, ‖x i‖ ≤ M) → ‖f k x‖ ≤ B ∧
    ∀ y : K → V, (∀ i ∈ pks, ‖y i‖ ≤ M) → ∀ e : ℝ, 0 ≤ e → (∀ i ∈ pks, ‖x i - y i‖ ≤ e) → ‖f k x - f k y‖ ≤ L * e

/-- What one sweep does to a point near the solution. -/
theorem gsweep_near {f : K → (K → V) → V} {pks : List K} (hnd : pks.Nodup) {M B L h e : ℝ} (hB : 0 ≤ B) (hL : 0 ≤ L)
    (hh : 0 ≤ h) (he : 0 ≤ e)
    (hf : ∀ k ∈ pks, ∀ x : K → V, (∀ i ∈ pks, ‖x i‖ ≤ M) → ‖f k x‖ ≤ B ∧
      ∀ y : K → V, (∀ i ∈ pks, ‖y i‖ ≤ M) → ∀ e : ℝ, 0 ≤ e → (∀ i ∈ pks, ‖x i - y i‖ ≤ e) → ‖f k x - f k y‖ ≤ L * e)
    {u x : K → V} (hu : ∀ i ∈ pks, ‖u i‖ ≤ M - 1) (hx : ∀ i ∈ pks, ‖x i - u i‖ ≤ e) (hsmall : e + h * B ≤ 1) :
    ∀ k ∈ pks, ‖gsweep f h pks x k - (u k + h • f k u)‖ ≤ e + h * (L * (e + h * B)) := by
  have hhB : 0 ≤ h * B := mul_nonneg hh hB
  have huM : ∀ i ∈ pks, ‖u i‖ ≤ M := fun i hi => (hu i hi).trans (by linarith)
  have main : ∀ (done rest : List K), pks = done ++ rest → ∀ z : K → V,
      (∀ k ∈ done, ‖z k - (x k + h • f k u)‖ ≤ h * (L * (e + h * B)) ∧ ‖z k - x k‖ ≤ h * B) → (∀ k ∈ rest, z k = x k) →
      ∀ k ∈ pks, ‖rest.foldl (gnudge f h) z k - (x k + h • f k u)‖ ≤ h * (L * (e + h * B)) := by
    intro done rest
    induction rest generalizing done with
    | nil =>
      intro hp z hd _ k hk
      rw [hp, List.append_nil] at hk
      exact (hd k hk).1
    | cons a rest ih =>
      intro hp z hd hr
      have ha : a ∈ pks := by rw [hp]; simp
      have hzx : ∀ i ∈ pks, ‖z i - x i‖ ≤ h * B := by
        intro i hi
        rw [hp] at hi
        rcases List.mem_append.1 hi with hi | hi
        · exact (hd i hi).2
        · rw [hr i hi, sub_self, norm_zero]; exact hhB
      have hzu : ∀ i ∈ pks, ‖z i - u i‖ ≤ e + h * B := by
        intro i hi
        have : z i - u i = (z i - x i) + (x i - u i) := by abel
        rw [this]
        refine (norm_add_le _ _).trans ?_
        have := hzx i hi
        have := hx i hi
        linarith
      have hzM : ∀ i ∈ pks, ‖z i‖ ≤ M := by
        intro i hi
        have : z i = (z i - u i) + u i := by abel
        rw [this]
        refine (norm_add_le _ _).trans ?_
        have := hzu i hi
        have := hu i hi
        linarith
      obtain ⟨h1, h2⟩ := hf a ha z hzM
      have h3 := h2 u huM (e + h * B) (by linarith) hzu
      have hza : z a = x a := hr a List.mem_cons_self
      rw [List.foldl_cons]
      refine ih (done ++ [a]) (by rw [hp]; simp) _ ?_ ?_
      · intro k hk
        by_cases hka : k = a
        · subst hka
          simp only [gnudge, Function.update_self, hza]
          refine ⟨?_, ?_⟩
          · have : x k + h • f k z - (x k + h • f k u) = h • (f k z - f k u) := by rw [smul_sub]; abel
            rw [this, norm_smul, Real.norm_of_nonneg hh]
            exact mul_le_mul_of_nonneg_left h3 hh
          · rw [add_sub_cancel_left, norm_smul, Real.norm_of_nonneg hh]
            exact mul_le_mul_of_nonneg_left h1 hh
        · have hk' : k ∈ done := by
            rcases List.mem_append.1 hk with h | h
            · exact h
            · exact absurd (List.mem_singleton.1 h) hka
          simp only [gnudge, Function.update_of_ne hka]
          exact hd k hk'
      · intro k hk
        have hka : k ≠ a := by
          rintro rfl
          rw [hp] at hnd
          exact (List.nodup_cons.1 (List.nodup_append.1 hnd).2.1).1 hk
        simp only [gnudge, Function.update_of_ne hka]
        exact hr k (List.mem_cons_of_mem _ hk)
  intro k hk
  have h1 := main [] pks rfl x (by simp) (fun _ _ => rfl) k hk
  have : gsweep f h pks x k - (u k + h • f k u)
      = (pks.foldl (gnudge f h) x k - (x k + h • f k u)) + (x k - u k) := by unfold gsweep; abel
  rw [this]
  refine (norm_add_le _ _).trans ?_
  have := hx k hk
  linarith

/-- A component of the solution over one step. -/
theorem local_error {f : K → (K → V) → V} {pks : List K} {M B L : ℝ} (hB : 0 ≤ B) (hL : 0 ≤ L)
    (hf : ∀ k ∈ pks, ∀ x : K → V, (∀ i ∈ pks, ‖x i‖ ≤ M) → ‖f k x‖ ≤ B ∧
      ∀ y : K → V, (∀ i ∈ pks, ‖y i‖ ≤ M) → ∀ e : ℝ, 0 ≤ e → (∀ i ∈ pks, ‖x i - y i‖ ≤ e) → ‖f k x - f k y‖ ≤ L * e)
    {φ : ℝ → K → V} (hM : ∀ t ∈ Set.Icc (0 : ℝ) 1, ∀ i ∈ pks, ‖φ t i‖ ≤ M)
    (hφ : ∀ t ∈ Set.Icc (0 : ℝ) 1, ∀ k ∈ pks, HasDerivWithinAt (fun t => φ t k) (f k (φ t)) (Set.Icc 0 1) t)
    {t h : ℝ} (ht : 0 ≤ t) (hh : 0 ≤ h) (hth : t + h ≤ 1) :
    ∀ k ∈ pks, ‖φ (t + h) k - (φ t k + h • f k (φ t))‖ ≤ h * (L * (B * h)) := by
  have hsub : Set.Icc t (t + h) ⊆ Set.Icc (0 : ℝ) 1 := Set.Icc_subset_Icc ht hth
  have htt : t ∈ Set.Icc t (t + h) := ⟨le_refl _, by linarith⟩
  have hend : t + h ∈ Set.Icc t (t + h) := ⟨by linarith, le_refl _⟩
  have hlip : ∀ k ∈ pks, ∀ s ∈ Set.Icc t (t + h), ‖φ s k - φ t k‖ ≤ B * h := by
    intro k hk s hs
    have := (convex_Icc t (t + h)).norm_image_sub_le_of_norm_hasDerivWithin_le (f := fun s => φ s k)
      (f' := fun s => f k (φ s)) (C := B) (x := t) (y := s)
      (fun r hr => (hφ r (hsub hr) k hk).mono hsub) (fun r hr => (hf k hk (φ r) (hM r (hsub hr))).1) htt hs
    refine this.trans (mul_le_mul_of_nonneg_left ?_ hB)
    rw [Real.norm_of_nonneg (by linarith [hs.1])]
    linarith [hs.2]
  intro k hk
  have := (convex_Icc t (t + h)).norm_image_sub_le_of_norm_hasDerivWithin_le
    (f := fun s => φ s k - (s - t) • f k (φ t)) (f' := fun s => f k (φ s) - f k (φ t)) (C := L * (B * h)) (x := t)
    (y := t + h)
    (fun r hr => by
      have h1 := (hφ r (hsub hr) k hk).mono hsub
      have h2 : HasDerivWithinAt (fun s : ℝ => (s - t) • f k (φ t)) ((1 : ℝ) • f k (φ t)) (Set.Icc t (t + h)) r :=
        ((hasDerivWithinAt_id r _).sub_const t).smul_const _
      rw [one_smul] at h2
      exact h1.sub h2)
    (fun r hr => (hf k hk (φ r) (hM r (hsub hr))).2 (φ t) (hM t (hsub htt)) (B * h) (mul_nonneg hB hh)
      (fun i hi => hlip i hi r hr)) htt hend
  simp only [add_sub_cancel_left, sub_self, zero_smul, sub_zero, Real.norm_of_nonneg hh] at this
  have e : φ (t + h) k - (φ t k + h • f k (φ t)) = φ (t + h) k - h • f k (φ t) - φ t k := by abel
  rw [e]
  linarith

/-- The error of the method is at most of the order of the step. -/
theorem euler_converges {f : K → (K → V) → V} {pks : List K} (hnd : pks.Nodup) (hlip : LocLip f pks) {φ : ℝ → K → V}
    (hφ : ∀ t ∈ Set.Icc (0 : ℝ) 1, ∀ k ∈ pks, HasDerivWithinAt (fun t => φ t k) (f k (φ t)) (Set.Icc 0 1) t)
    {x₀ : K → V} (hx₀ : ∀ k ∈ pks, x₀ k = φ 0 k) :
    ∃ C : ℝ, ∃ N₀ : ℕ, ∀ N : ℕ, N₀ ≤ N → ∀ k ∈ pks,
      ‖(gsweep f (1 / N) pks)^[N] x₀ k - φ 1 k‖ ≤ C / N := by
  obtain ⟨M, hM⟩ : ∃ M : ℝ, ∀ t ∈ Set.Icc (0 : ℝ) 1, ∀ i ∈ pks, ‖φ t i‖ ≤ M - 1 := by
    have : ∀ l : List K, (∀ k ∈ l, k ∈ pks) → ∃ M : ℝ, ∀ t ∈ Set.Icc (0 : ℝ) 1, ∀ i ∈ l, ‖φ t i‖ ≤ M := by
      intro l
      induction l with
      | nil => intro _; exact ⟨0, by simp⟩
      | cons a l ih =>
        intro hl
        obtain ⟨M₁, h1⟩ := ih fun k hk => hl k (List.mem_cons_of_mem _ hk)
        have hc : ContinuousOn (fun t => φ t a) (Set.Icc 0 1) :=
          fun t ht => (hφ t ht a (hl a List.mem_cons_self)).continuousWithinAt
        obtain ⟨M₂, h2⟩ := (isCompact_Icc.exists_bound_of_continuousOn hc)
        refine ⟨max M₁ M₂, ?_⟩
        intro t ht i hi
        rcases List.mem_cons.1 hi with rfl | hi
        · exact (h2 t ht).trans (le_max_right _ _)
        · exact (h1 t ht i hi).trans (le_max_left _ _)
    obtain ⟨M, h⟩ := this pks fun _ h => h
    exact ⟨M + 1, by simpa using h⟩
  obtain ⟨B, L, hB, hL, hf⟩ := hlip M
  have hM' : ∀ t ∈ Set.Icc (0 : ℝ) 1, ∀ i ∈ pks, ‖φ t i‖ ≤ M := fun t ht i hi => (hM t ht i hi).trans (by linarith)
  set D : ℝ := 2 * (L * B) with hD
  have hD0 : 0 ≤ D := by positivity
  obtain ⟨N₀, hN₀⟩ := exists_nat_gt (D * Real.exp L + B)
  refine ⟨D * Real.exp L, N₀, ?_⟩
  intro N hN
  have hNpos : (0 : ℝ) < N := by
    have h1 : (0 : ℝ) ≤ D * Real.exp L + B := by positivity
    have h2 : (N₀ : ℝ) ≤ N := by exact_mod_cast hN
    linarith
  set h : ℝ := 1 / N with hh
  have hpos : 0 ≤ h := by positivity
  have hhN : (N : ℝ) * h = 1 := by rw [hh]; field_simp
  have hsmall : h * (D * Real.exp L) + h * B ≤ 1 := by
    have h2 : (N₀ : ℝ) ≤ N := by exact_mod_cast hN
    have : h * (D * Real.exp L + B) ≤ h * N := mul_le_mul_of_nonneg_left (by linarith) hpos
    linarith
  have hpow : ∀ n ≤ N, (1 + h * L) ^ n ≤ Real.exp L := by
    intro n hn
    have h1 : (1 + h * L) ≤ Real.exp (h * L) := by
      have := Real.add_one_le_exp (h * L)
      linarith
    have h0 : 0 ≤ 1 + h * L := by positivity
    refine (pow_le_pow_left₀ h0 h1 n).trans ?_
    rw [← Real.exp_nat_mul, Real.exp_le_exp]
    have h2 : (n : ℝ) ≤ N := by exact_mod_cast hn
    have : (n : ℝ) * (h * L) ≤ (N : ℝ) * (h * L) := mul_le_mul_of_nonneg_right h2 (by positivity)
    have h3 : (N : ℝ) * (h * L) = L := by rw [← mul_assoc, hhN, one_mul]
    linarith
  have main : ∀ n : ℕ, n ≤ N → ∀ k ∈ pks,
      ‖(gsweep f h pks)^[n] x₀ k - φ (n * h) k‖ ≤ n * (h * h * D * (1 + h * L) ^ n) := by
    intro n
    induction n with
    | zero => intro _ k hk; simp [hx₀ k hk]
    | succ n ih =>
      intro hn k hk
      have hn' : n ≤ N := by omega
      have hih := ih hn'
      set e : ℝ := n * (h * h * D * (1 + h * L) ^ n) with he
      have he0 : 0 ≤ e := by positivity
      have hnN : (n : ℝ) * h ≤ 1 := by
        have h2 : (n : ℝ) ≤ N := by exact_mod_cast hn'
        calc (n : ℝ) * h ≤ N * h := mul_le_mul_of_nonneg_right h2 hpos
          _ = 1 := hhN
      have heb : e ≤ h * (D * Real.exp L) := by
        have h1 := hpow n hn'
        have : e = (n * h) * (h * D * (1 + h * L) ^ n) := by rw [he]; ring
        rw [this]
        calc (n * h) * (h * D * (1 + h * L) ^ n) ≤ 1 * (h * D * (1 + h * L) ^ n) :=
              mul_le_mul_of_nonneg_right hnN (by positivity)
          _ ≤ h * (D * Real.exp L) := by
              rw [one_mul, mul_assoc]
              exact mul_le_mul_of_nonneg_left (mul_le_mul_of_nonneg_left h1 hD0) hpos
      have hn1N : (n : ℝ) * h + h ≤ 1 := by
        have h2 : ((n + 1 : ℕ) : ℝ) ≤ N := by exact_mod_cast hn
        have : ((n + 1 : ℕ) : ℝ) * h ≤ N * h := mul_le_mul_of_nonneg_right h2 hpos
        rw [hhN] at this
        push_cast at this
        linarith
      have htn : (n : ℝ) * h ∈ Set.Icc (0 : ℝ) 1 := ⟨by positivity, hnN⟩
      have h1 := gsweep_near hnd hB hL hpos he0 hf (u := φ (n * h)) (x := (gsweep f h pks)^[n] x₀) (hM _ htn) hih
        (by linarith) k hk
      have h2 := local_error hB hL hf hM' hφ (t := n * h) (h := h) htn.1 hpos hn1N k hk
      rw [Function.iterate_succ_apply']
      have hcast : ((n + 1 : ℕ) : ℝ) * h = n * h + h := by push_cast; ring
      rw [hcast]
      have h3 : ‖gsweep f h pks ((gsweep f h pks)^[n] x₀) k - φ (n * h + h) k‖
          ≤ (e + h * (L * (e + h * B))) + h * (L * (B * h)) := by
        have : gsweep f h pks ((gsweep f h pks)^[n] x₀) k - φ (n * h + h) k
            = (gsweep f h pks ((gsweep f h pks)^[n] x₀) k - (φ (n * h) k + h • f k (φ (n * h))))
              - (φ (n * h + h) k - (φ (n * h) k + h • f k (φ (n * h)))) := by abel
        rw [this]
        exact (norm_sub_le _ _).trans (add_le_add h1 h2)
      refine h3.trans ?_
      have e1 : (e + h * (L * (e + h * B))) + h * (L * (B * h)) = e * (1 + h * L) + h * h * D := by rw [hD]; ring
      rw [e1, he]
      have hhL : 0 ≤ h * L := by positivity
      have h4 : (1 : ℝ) ≤ (1 + h * L) ^ (n + 1) := one_le_pow₀ (by linarith)
      have h5 : h * h * D * 1 ≤ h * h * D * (1 + h * L) ^ (n + 1) := mul_le_mul_of_nonneg_left h4 (by positivity)
      have e2 : ((n + 1 : ℕ) : ℝ) * (h * h * D * (1 + h * L) ^ (n + 1))
          = n * (h * h * D * (1 + h * L) ^ n) * (1 + h * L) + h * h * D * (1 + h * L) ^ (n + 1) := by
        push_cast; ring
      rw [e2]
      linarith
  intro k hk
  have h1 := main N (le_refl _) k hk
  rw [hhN] at h1
  refine h1.trans ?_
  have h2 := hpow N (le_refl _)
  have e1 : (N : ℝ) * (h * h * D * (1 + h * L) ^ N) = h * (D * (1 + h * L) ^ N) := by
    calc (N : ℝ) * (h * h * D * (1 + h * L) ^ N) = ((N : ℝ) * h) * (h * (D * (1 + h * L) ^ N)) := by ring
      _ = _ := by rw [hhN, one_mul]
  rw [e1]
  have e2 : D * Real.exp L / N = h * (D * Real.exp L) := by rw [hh]; ring
  rw [e2]
  exact mul_le_mul_of_nonneg_left (mul_le_mul_of_nonneg_left h2 hD0) hpos

/-- Two solutions that start alike end alike. -/
theorem euler_unique {f : K → (K → V) → V} {pks : List K} (hnd : pks.Nodup) (hlip : LocLip f pks) {φ φ' : ℝ → K → V}
    (hφ : ∀ t ∈ Set.Icc (0 : ℝ) 1, ∀ k ∈ pks, HasDerivWithinAt (fun t => φ t k) (f k (φ t)) (Set.Icc 0 1) t)
    (hφ' : ∀ t ∈ Set.Icc (0 : ℝ) 1, ∀ k ∈ pks, HasDerivWithinAt (fun t => φ' t k) (f k (φ' t)) (Set.Icc 0 1) t)
    (h0 : ∀ k ∈ pks, φ 0 k = φ' 0 k) : ∀ t ∈ Set.Icc (0 : ℝ) 1, ∀ k ∈ pks, φ t k = φ' t k := by
  intro T hT k hk
  have hlipT : LocLip (fun k x => T • f k x) pks := by
    intro M
    obtain ⟨B, L, hB, hL, h⟩ := hlip M
    refine ⟨T * B, T * L, mul_nonneg hT.1 hB, mul_nonneg hT.1 hL, fun k hk x hx => ⟨?_, fun y hy e he hd => ?_⟩⟩
    · rw [norm_smul, Real.norm_of_nonneg hT.1]
      exact mul_le_mul_of_nonneg_left (h k hk x hx).1 hT.1
    · rw [← smul_sub, norm_smul, Real.norm_of_nonneg hT.1, mul_assoc]
      exact mul_le_mul_of_nonneg_left ((h k hk x hx).2 y hy e he hd) hT.1
  have hmaps : Set.MapsTo (fun s : ℝ => T * s) (Set.Icc 0 1) (Set.Icc 0 1) := by
    intro s hs
    exact ⟨mul_nonneg hT.1 hs.1, mul_le_one₀ hT.2 hs.1 hs.2⟩
  have hscale : ∀ {χ : ℝ → K → V},
      (∀ t ∈ Set.Icc (0 : ℝ) 1, ∀ k ∈ pks, HasDerivWithinAt (fun t => χ t k) (f k (χ t)) (Set.Icc 0 1) t) →
      ∀ t ∈ Set.Icc (0 : ℝ) 1, ∀ k ∈ pks,
        HasDerivWithinAt (fun t => χ (T * t) k) (T • f k (χ (T * t))) (Set.Icc 0 1) t := by
    intro χ hχ t ht k hk
    have h1 : HasDerivWithinAt (fun s : ℝ => T * s) T (Set.Icc 0 1) t := by
      simpa using (hasDerivWithinAt_id t (Set.Icc (0 : ℝ) 1)).const_mul T
    exact (hχ (T * t) (hmaps ht) k hk).scomp t h1 hmaps
  obtain ⟨C, N₀, h⟩ := euler_converges hnd hlipT (hscale hφ) (x₀ := φ 0) (fun k _ => by rw [mul_zero])
  obtain ⟨C', N₀', h'⟩ := euler_converges hnd hlipT (hscale hφ') (x₀ := φ 0) (fun k hk => by rw [mul_zero]; exact h0 k hk)
  simp only [mul_one] at h h'
  by_contra hne
  have hpos : 0 < ‖φ T k - φ' T k‖ := norm_pos_iff.2 (sub_ne_zero.2 hne)
  obtain ⟨N, hN⟩ := exists_nat_gt ((C + C') / ‖φ T k - φ' T k‖)
  set m := max (max N₀ N₀') (max N 1) with hm
  have h1 := h m ((le_max_left _ _).trans (le_max_left _ _)) k hk
  have h2 := h' m ((le_max_right _ _).trans (le_max_left _ _)) k hk
  have hmN : (N : ℝ) ≤ m := by
    have : N ≤ m := (le_max_left _ _).trans (le_max_right _ _)
    exact_mod_cast this
  have hm1 : (0 : ℝ) < m := by
    have : 1 ≤ m := (le_max_right _ _).trans (le_max_right _ _)
    exact_mod_cast this
  have h3 : ‖φ T k - φ' T k‖ ≤ C / m + C' / m := by
    set z := (gsweep (fun k x => T • f k x) (1 / m) pks)^[m] (φ 0) k
    have : φ T k - φ' T k = (z - φ' T k) - (z - φ T k) := by abel
    rw [this]
    refine (norm_sub_le _ _).trans ?_
    linarith
  rw [← add_div, le_div_iff₀ hm1] at h3
  rw [div_lt_iff₀ hpos] at hN
  have : (N : ℝ) * ‖φ T k - φ' T k‖ ≤ m * ‖φ T k - φ' T k‖ := mul_le_mul_of_nonneg_right hmN hpos.le
  linarith

end Ode
