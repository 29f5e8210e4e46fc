import Verif.Ode.Euler
import Verif.Ode.Deriv

/-!
# The integration and its tangent in the limit of many steps
-/

set_option linter.unusedSectionVars false

namespace Ode
open Py

variable {I K V : Type} [DecidableEq I] [DecidableEq K] [NormedAddCommGroup V] [NormedSpace ℝ V]

/-- A function of finitely many components that is bounded and Lipschitz on balls. -/
def LL (pks : List K) (g : (K → V) → ℂ) : Prop :=
  ∀ M : ℝ, ∃ B L : ℝ, 0 ≤ B ∧ 0 ≤ L ∧ ∀ x : K → V, (∀ i ∈ pks, ‖x i‖ ≤ M) → ‖g x‖ ≤ B ∧
    ∀ y : K → V, (∀ i ∈ pks, ‖y i‖ ≤ M) → ∀ e : ℝ, 0 ≤ e → (∀ i ∈ pks, ‖x i - y i‖ ≤ e) → ‖g x - g y‖ ≤ L * e

theorem LL.const (pks : List K) (c : ℂ) : LL pks (fun _ : K → V => c) := by
  intro M
  refine ⟨‖c‖, 0, norm_nonneg _, le_refl _, fun x _ => ⟨le_refl _, fun y _ e _ _ => ?_⟩⟩
  simp

theorem LL.coord {pks : List K} {k : K} (hk : k ∈ pks) {p : V → ℂ} (hp : ∀ v, ‖p v‖ ≤ ‖v‖) (hs : ∀ v w, p (v - w) = p v - p w) :
    LL pks (fun x : K → V => p (x k)) := by
  intro M
  refine ⟨max M 0, 1, le_max_right _ _, zero_le_one, fun x hx => ⟨?_, fun y _ e _ he => ?_⟩⟩
  · exact ((hp _).trans (hx k hk)).trans (le_max_left _ _)
  · rw [← hs, one_mul]
    exact (hp _).trans (he k hk)

theorem LL.add {pks : List K} {f g : (K → V) → ℂ} (hf : LL pks f) (hg : LL pks g) : LL pks (fun x => f x + g x) := by
  intro M
  obtain ⟨B, L, hB, hL, h⟩ := hf M
  obtain ⟨B', L', hB', hL', h'⟩ := hg M
  refine ⟨B + B', L + L', by positivity, by positivity, fun x hx => ⟨?_, fun y hy e he hd => ?_⟩⟩
  · exact (norm_add_le _ _).trans (add_le_add (h x hx).1 (h' x hx).1)
  · have : f x + g x - (f y + g y) = (f x - f y) + (g x - g y) := by ring
    rw [this, add_mul]
    exact (norm_add_le _ _).trans (add_le_add ((h x hx).2 y hy e he hd) ((h' x hx).2 y hy e he hd))

theorem LL.mul {pks : List K} {f g : (K → V) → ℂ} (hf : LL pks f) (hg : LL pks g) : LL pks (fun x => f x * g x) := by
  intro M
  obtain ⟨B, L, hB, hL, h⟩ := hf M
  obtain ⟨B', L', hB', hL', h'⟩ := hg M
  refine ⟨B * B', L * B' + B * L', by positivity, by positivity, fun x hx => ⟨?_, fun y hy e he hd => ?_⟩⟩
  · rw [norm_mul]
    exact mul_le_mul (h x hx).1 (h' x hx).1 (norm_nonneg _) hB
  · have : f x * g x - f y * g y = (f x - f y) * g x + f y * (g x - g y) := by ring
    rw [this]
    refine (norm_add_le _ _).trans ?_
    rw [norm_mul, norm_mul]
    have h1 : ‖f x - f y‖ * ‖g x‖ ≤ (L * e) * B' :=
      mul_le_mul ((h x hx).2 y hy e he hd) (h' x hx).1 (norm_nonneg _) (by positivity)
    have h2 : ‖f y‖ * ‖g x - g y‖ ≤ B * (L' * e) :=
      mul_le_mul (h y hy).1 ((h' x hx).2 y hy e he hd) (norm_nonneg _) hB
    calc _ ≤ (L * e) * B' + B * (L' * e) := add_le_add h1 h2
      _ = _ := by ring

theorem LL.prod {pks : List K} {g : K → (K → V) → ℂ} (l : List K) (h : ∀ k ∈ l, LL pks (g k)) :
    LL pks (fun x => (l.map fun k => g k x).prod) := by
  induction l with
  | nil => exact LL.const _ _
  | cons k l ih =>
    simp only [List.map_cons, List.prod_cons]
    exact (h k List.mem_cons_self).mul (ih fun k hk => h k (List.mem_cons_of_mem _ hk))

theorem LL.dprod {pks : List K} {g d : K → (K → V) → ℂ} (l : List K) (h : ∀ k ∈ l, LL pks (g k)) (h' : ∀ k ∈ l, LL pks (d k)) :
    LL pks (fun x => dprod l (fun k => g k x) (fun k => d k x)) := by
  induction l with
  | nil => exact LL.const _ _
  | cons k l ih =>
    simp only [Ode.dprod]
    exact ((h' k List.mem_cons_self).mul (LL.prod l fun k hk => h k (List.mem_cons_of_mem _ hk))).add
      ((h k List.mem_cons_self).mul (ih (fun k hk => h k (List.mem_cons_of_mem _ hk))
        fun k hk => h' k (List.mem_cons_of_mem _ hk)))

theorem LL.poly {pks : List K} {g : K → (K → V) → ℂ} (lt : Lt K ℂ) (h : ∀ T ∈ lt, ∀ k ∈ T.2, LL pks (g k)) :
    LL pks (fun x => poly lt (fun k => g k x)) := by
  induction lt with
  | nil => exact LL.const _ _
  | cons T lt ih =>
    simp only [poly_cons]
    exact ((LL.const _ _).mul (LL.prod T.2 (h T List.mem_cons_self))).add
      (ih fun T hT => h T (List.mem_cons_of_mem _ hT))

theorem LL.dpoly {pks : List K} {g d : K → (K → V) → ℂ} (lt : Lt K ℂ) (h : ∀ T ∈ lt, ∀ k ∈ T.2, LL pks (g k))
    (h' : ∀ T ∈ lt, ∀ k ∈ T.2, LL pks (d k)) : LL pks (fun x => dpoly lt (fun k => g k x) (fun k => d k x)) := by
  induction lt with
  | nil => exact LL.const _ _
  | cons T lt ih =>
    simp only [dpoly_cons]
    exact ((LL.const _ _).mul (LL.dprod T.2 (h T List.mem_cons_self) (h' T List.mem_cons_self))).add
      (ih (fun T hT => h T (List.mem_cons_of_mem _ hT)) fun T hT => h' T (List.mem_cons_of_mem _ hT))

/-- Components of a right hand side, finitely many, one at a time. -/
theorem locLip_of {W : Type} [NormedAddCommGroup W] [NormedSpace ℝ W] {f : K → (K → W) → W} {pks : List K}
    (h : ∀ k ∈ pks, ∀ M : ℝ, ∃ B L : ℝ, 0 ≤ B ∧ 0 ≤ L ∧ ∀ x : K → W, (∀ i ∈ pks, ‖x i‖ ≤ M) → ‖f k x‖ ≤ B ∧
      ∀ y : K → W, (∀ i ∈ pks, ‖y i‖ ≤ M) → ∀ e : ℝ, 0 ≤ e → (∀ i ∈ pks, ‖x i - y i‖ ≤ e) → ‖f k x - f k y‖ ≤ L * e) :
    LocLip f pks := by
  intro M
  have : ∀ l : List K, (∀ k ∈ l, k ∈ pks) → ∃ B L : ℝ, 0 ≤ B ∧ 0 ≤ L ∧ ∀ k ∈ l, ∀ x : K → W, (∀ i ∈ pks, ‖x i‖ ≤ M) →
      ‖f k x‖ ≤ B ∧ ∀ y : K → W, (∀ i ∈ pks, ‖y i‖ ≤ M) → ∀ e : ℝ, 0 ≤ e → (∀ i ∈ pks, ‖x i - y i‖ ≤ e) →
        ‖f k x - f k y‖ ≤ L * e := by
    intro l
    induction l with
    | nil => intro _; exact ⟨0, 0, le_refl _, le_refl _, by simp⟩
    | cons a l ih =>
      intro hl
      obtain ⟨B, L, hB, hL, h1⟩ := ih fun k hk => hl k (List.mem_cons_of_mem _ hk)
      obtain ⟨B', L', hB', hL', h2⟩ := h a (hl a List.mem_cons_self) M
      refine ⟨max B B', max L L', le_max_of_le_left hB, le_max_of_le_left hL, ?_⟩
      intro k hk x hx
      rcases List.mem_cons.1 hk with rfl | hk
      · refine ⟨(h2 x hx).1.trans (le_max_right _ _), fun y hy e he hd => ?_⟩
        exact ((h2 x hx).2 y hy e he hd).trans (mul_le_mul_of_nonneg_right (le_max_right _ _) he)
      · refine ⟨(h1 k hk x hx).1.trans (le_max_left _ _), fun y hy e he hd => ?_⟩
        exact ((h1 k hk x hx).2 y hy e he hd).trans (mul_le_mul_of_nonneg_right (le_max_left _ _) he)
  exact this pks fun _ h => h

theorem rhs_mem' {R : Type} [CommRing R] [Algebra ℚ R] [DecidableEq R] {dLt : Dict K (Lt K R)} {pks : List K}
    (hK : Keyed dLt pks) {k : K} : ∀ T ∈ rhs dLt k, ∀ i ∈ T.2, i ∈ pks := by
  intro t ht i hi
  unfold rhs at ht
  cases hg : Dict.get? dLt k with
  | none => rw [hg] at ht; simp at ht
  | some lt =>
    rw [hg, Option.getD_some] at ht
    exact (hK.mem i).2 ⟨(k, lt), Dict.mem_of_get? hg, Or.inr ⟨t, ht, hi⟩⟩

variable [DecidableEq ℂ]

theorem smul_step (N : ℕ) (v : ℂ) : (1 / (N : ℚ)) • v = (1 / (N : ℝ)) • v := by
  simp [Rat.smul_def, Complex.real_smul]

theorem sweep_eq (dLt : Dict K (Lt K ℂ)) (N : ℕ) (pks : List K) (x : K → ℂ) :
    sweep dLt (1 / N) pks x = gsweep (fun k x => poly (rhs dLt k) x) (1 / N) pks x := by
  unfold sweep gsweep
  congr 1
  funext x k
  unfold nudge gnudge
  rw [smul_step]

/-- The pairs of values and tangents. -/
def pack (p : (K → ℂ) × (K → ℂ)) : K → ℂ × ℂ := fun k => (p.1 k, p.2 k)

/-- The right hand side together with its tangent. -/
noncomputable def rhs2 (dLt : Dict K (Lt K ℂ)) (k : K) (z : K → ℂ × ℂ) : ℂ × ℂ :=
  (poly (rhs dLt k) fun i => (z i).1, dpoly (rhs dLt k) (fun i => (z i).1) fun i => (z i).2)

theorem pack_nudge2 (dLt : Dict K (Lt K ℂ)) (N : ℕ) (p : (K → ℂ) × (K → ℂ)) (k : K) :
    pack (nudge2 dLt (1 / N) p k) = gnudge (rhs2 dLt) (1 / N) (pack p) k := by
  funext i
  unfold pack nudge2 nudge gnudge rhs2
  by_cases hi : i = k
  · subst hi
    simp only [Function.update_self, Prod.smul_mk, Prod.mk_add_mk, smul_step]
  · simp only [Function.update_of_ne hi]

theorem pack_integrate2 (dLt : Dict K (Lt K ℂ)) (N : ℕ) (pks : List K) (p : (K → ℂ) × (K → ℂ)) :
    pack (integrate2 dLt N pks p) = (gsweep (rhs2 dLt) (1 / N) pks)^[N] (pack p) := by
  have hs : ∀ (l : List K) (p : (K → ℂ) × (K → ℂ)),
      pack (l.foldl (nudge2 dLt (1 / N)) p) = gsweep (rhs2 dLt) (1 / N) l (pack p) := by
    intro l
    induction l with
    | nil => intro p; rfl
    | cons k l ih =>
      intro p
      rw [List.foldl_cons, ih, pack_nudge2]
      rfl
  have : ∀ (m : ℕ) (p : (K → ℂ) × (K → ℂ)), pack ((fun p => pks.foldl (nudge2 dLt (1 / N)) p)^[m] p)
      = (gsweep (rhs2 dLt) (1 / N) pks)^[m] (pack p) := by
    intro m
    induction m with
    | zero => intro p; rfl
    | succ m ih => intro p; rw [Function.iterate_succ_apply, Function.iterate_succ_apply, ih, hs]
  exact this N p

theorem rhs2_locLip {dLt : Dict K (Lt K ℂ)} {pks : List K} (hK : Keyed dLt pks) : LocLip (rhs2 dLt) pks := by
  apply locLip_of
  intro k _ M
  have hfst : ∀ i ∈ pks, LL pks (fun z : K → ℂ × ℂ => (z i).1) := fun i hi =>
    LL.coord hi (p := Prod.fst) (fun v => norm_fst_le v) fun _ _ => rfl
  have hsnd : ∀ i ∈ pks, LL pks (fun z : K → ℂ × ℂ => (z i).2) := fun i hi =>
    LL.coord hi (p := Prod.snd) (fun v => norm_snd_le v) fun _ _ => rfl
  obtain ⟨B, L, hB, hL, h⟩ := LL.poly (g := fun i (z : K → ℂ × ℂ) => (z i).1) (rhs dLt k)
    (fun T hT i hi => hfst i (rhs_mem' hK T hT i hi)) M
  obtain ⟨B', L', hB', hL', h'⟩ := LL.dpoly (g := fun i (z : K → ℂ × ℂ) => (z i).1) (d := fun i z => (z i).2) (rhs dLt k)
    (fun T hT i hi => hfst i (rhs_mem' hK T hT i hi)) (fun T hT i hi => hsnd i (rhs_mem' hK T hT i hi)) M
  refine ⟨max B B', max L L', le_max_of_le_left hB, le_max_of_le_left hL, fun x hx => ⟨?_, fun y hy e he hd => ?_⟩⟩
  · rw [rhs2, Prod.norm_mk]
    exact max_le_max (h x hx).1 (h' x hx).1
  · rw [rhs2, rhs2, Prod.mk_sub_mk, Prod.norm_mk]
    refine max_le ?_ ?_
    · exact ((h x hx).2 y hy e he hd).trans (mul_le_mul_of_nonneg_right (le_max_left _ _) he)
    · exact ((h' x hx).2 y hy e he hd).trans (mul_le_mul_of_nonneg_right (le_max_right _ _) he)

theorem rhs_locLip {dLt : Dict K (Lt K ℂ)} {pks : List K} (hK : Keyed dLt pks) :
    LocLip (fun k x => poly (rhs dLt k) x) pks := by
  apply locLip_of
  intro k _
  exact LL.poly (g := fun i (z : K → ℂ) => z i) (rhs dLt k) fun T hT i hi =>
    LL.coord (p := id) (rhs_mem' hK T hT i hi) (fun v => le_refl _) fun _ _ => rfl

/-- Values and tangents of the integration tend to the solution of the equations and of their variation. -/
theorem integrate2_limit {dLt : Dict K (Lt K ℂ)} {pks : List K} (hK : Keyed dLt pks) {φ ψ : ℝ → K → ℂ}
    (hφ : ∀ t ∈ Set.Icc (0 : ℝ) 1, ∀ k ∈ pks, HasDerivWithinAt (fun t => φ t k) (poly (rhs dLt k) (φ t)) (Set.Icc 0 1) t)
    (hψ : ∀ t ∈ Set.Icc (0 : ℝ) 1, ∀ k ∈ pks,
      HasDerivWithinAt (fun t => ψ t k) (dpoly (rhs dLt k) (φ t) (ψ t)) (Set.Icc 0 1) t) :
    ∃ C : ℝ, ∃ N₀ : ℕ, ∀ N : ℕ, N₀ ≤ N → ∀ k ∈ pks,
      ‖integrate dLt N pks (φ 0) k - φ 1 k‖ ≤ C / N ∧ ‖(integrate2 dLt N pks (φ 0, ψ 0)).2 k - ψ 1 k‖ ≤ C / N := by
  obtain ⟨C, N₀, h⟩ := euler_converges hK.nodup (rhs2_locLip hK) (φ := fun t => pack (φ t, ψ t))
    (fun t ht k hk => (hφ t ht k hk).prodMk (hψ t ht k hk)) (x₀ := pack (φ 0, ψ 0)) (fun _ _ => rfl)
  refine ⟨C, N₀, fun N hN k hk => ?_⟩
  have h1 := h N hN k hk
  rw [← pack_integrate2] at h1
  have e : pack (integrate2 dLt N pks (φ 0, ψ 0)) k - pack (φ 1, ψ 1) k
      = (integrate dLt N pks (φ 0) k - φ 1 k, (integrate2 dLt N pks (φ 0, ψ 0)).2 k - ψ 1 k) := by
    rw [← integrate2_fst dLt N pks (φ 0, ψ 0)]
    rfl
  rw [e, Prod.norm_mk] at h1
  exact ⟨(le_max_left _ _).trans h1, (le_max_right _ _).trans h1⟩

/-! ## Sweeps -/

variable {S : Type} [DecidableEq (S → ℂ)]

/-- The equations at one point of the sweep. -/
def eqAt (s : S) (dLt : Dict K (Lt K (S → ℂ))) : Dict K (Lt K ℂ) :=
  dLt.map fun T => (T.1, T.2.map fun t => (t.1 s, t.2))

theorem rhs_eqAt (s : S) (dLt : Dict K (Lt K (S → ℂ))) (k : K) :
    rhs (eqAt s dLt) k = (rhs dLt k).map fun t => (t.1 s, t.2) := by
  unfold rhs eqAt
  induction dLt with
  | nil => rfl
  | cons T d ih =>
    rw [List.map_cons, Dict.get?_cons, Dict.get?_cons]
    split_ifs with h
    · rfl
    · exact ih

theorem prod_at (s : S) (l : List K) (x : K → S → ℂ) : (l.map fun i => x i s).prod = (l.map x).prod s := by
  induction l with
  | nil => rfl
  | cons i l ih => simp only [List.map_cons, List.prod_cons, ih, Pi.mul_apply]

theorem dprod_at (s : S) (l : List K) (x y : K → S → ℂ) :
    dprod l (fun i => x i s) (fun i => y i s) = dprod l x y s := by
  induction l with
  | nil => rfl
  | cons i l ih => simp only [dprod, ih, prod_at, Pi.mul_apply, Pi.add_apply]

theorem poly_at (s : S) (dLt : Dict K (Lt K (S → ℂ))) (k : K) (x : K → S → ℂ) :
    poly (rhs (eqAt s dLt) k) (fun i => x i s) = poly (rhs dLt k) x s := by
  rw [rhs_eqAt]
  induction rhs dLt k with
  | nil => rfl
  | cons t lt ih => simp only [List.map_cons, poly_cons, ih, prod_at, Pi.mul_apply, Pi.add_apply]

theorem dpoly_at (s : S) (dLt : Dict K (Lt K (S → ℂ))) (k : K) (x y : K → S → ℂ) :
    dpoly (rhs (eqAt s dLt) k) (fun i => x i s) (fun i => y i s) = dpoly (rhs dLt k) x y s := by
  rw [rhs_eqAt]
  induction rhs dLt k with
  | nil => rfl
  | cons t lt ih => simp only [List.map_cons, dpoly_cons, ih, dprod_at, Pi.mul_apply, Pi.add_apply]

theorem Keyed.eqAt {dLt : Dict K (Lt K (S → ℂ))} {pks : List K} (hK : Keyed dLt pks) (s : S) :
    Keyed (eqAt s dLt) pks := by
  refine ⟨?_, hK.nodup, ?_⟩
  · have := hK.wf
    unfold Dict.WF Dict.keys at this ⊢
    unfold Ode.eqAt
    rw [List.map_map]
    exact this
  · intro k
    rw [hK.mem]
    unfold Mentions Ode.eqAt
    constructor
    · rintro ⟨T, hT, h⟩
      refine ⟨_, List.mem_map.2 ⟨T, hT, rfl⟩, ?_⟩
      rcases h with h | ⟨t, ht, h⟩
      · exact Or.inl h
      · exact Or.inr ⟨_, List.mem_map.2 ⟨t, ht, rfl⟩, h⟩
    · rintro ⟨T', hT', h⟩
      obtain ⟨T, hT, rfl⟩ := List.mem_map.1 hT'
      refine ⟨T, hT, ?_⟩
      rcases h with h | ⟨t', ht', h⟩
      · exact Or.inl h
      · obtain ⟨t, ht, rfl⟩ := List.mem_map.1 ht'
        exact Or.inr ⟨t, ht, h⟩

theorem integrate2_at (s : S) (dLt : Dict K (Lt K (S → ℂ))) (N : ℕ) (pks : List K) (p : (K → S → ℂ) × (K → S → ℂ)) :
    integrate2 (eqAt s dLt) N pks (fun k => p.1 k s, fun k => p.2 k s)
      = (fun k => (integrate2 dLt N pks p).1 k s, fun k => (integrate2 dLt N pks p).2 k s) := by
  have hn : ∀ (p : (K → S → ℂ) × (K → S → ℂ)) (k : K),
      nudge2 (eqAt s dLt) (1 / N) (fun k => p.1 k s, fun k => p.2 k s) k
        = (fun i => (nudge2 dLt (1 / N) p k).1 i s, fun i => (nudge2 dLt (1 / N) p k).2 i s) := by
    intro p k
    unfold nudge2 nudge
    refine Prod.ext ?_ ?_
    · funext i
      by_cases hi : i = k
      · subst hi; simp only [Function.update_self, poly_at s dLt i p.1]; rfl
      · simp only [Function.update_of_ne hi]
    · funext i
      by_cases hi : i = k
      · subst hi; simp only [Function.update_self, dpoly_at s dLt i p.1 p.2]; rfl
      · simp only [Function.update_of_ne hi]
  have hs : ∀ (l : List K) (p : (K → S → ℂ) × (K → S → ℂ)),
      l.foldl (nudge2 (eqAt s dLt) (1 / N)) (fun k => p.1 k s, fun k => p.2 k s)
        = (fun i => (l.foldl (nudge2 dLt (1 / N)) p).1 i s, fun i => (l.foldl (nudge2 dLt (1 / N)) p).2 i s) := by
    intro l
    induction l with
    | nil => intro p; rfl
    | cons k l ih => intro p; rw [List.foldl_cons, hn, ih, List.foldl_cons]
  have : ∀ (m : ℕ) (p : (K → S → ℂ) × (K → S → ℂ)),
      (fun p => pks.foldl (nudge2 (eqAt s dLt) (1 / N)) p)^[m] (fun k => p.1 k s, fun k => p.2 k s)
        = (fun i => ((fun p => pks.foldl (nudge2 dLt (1 / N)) p)^[m] p).1 i s,
          fun i => ((fun p => pks.foldl (nudge2 dLt (1 / N)) p)^[m] p).2 i s) := by
    intro m
    induction m with
    | zero => intro p; rfl
    | succ m ih =>
      intro p
      rw [Function.iterate_succ_apply, Function.iterate_succ_apply]
      rw [hs, ih]
  exact this N p

/-- `integrate2_limit` at every point of a sweep. -/
theorem integrate2_limit_at {dLt : Dict K (Lt K (S → ℂ))} {pks : List K} (hK : Keyed dLt pks) (s : S)
    {φ ψ : ℝ → K → S → ℂ}
    (hφ : ∀ t ∈ Set.Icc (0 : ℝ) 1, ∀ k ∈ pks,
      HasDerivWithinAt (fun t => φ t k s) (poly (rhs dLt k) (φ t) s) (Set.Icc 0 1) t)
    (hψ : ∀ t ∈ Set.Icc (0 : ℝ) 1, ∀ k ∈ pks,
      HasDerivWithinAt (fun t => ψ t k s) (dpoly (rhs dLt k) (φ t) (ψ t) s) (Set.Icc 0 1) t) :
    ∃ C : ℝ, ∃ N₀ : ℕ, ∀ N : ℕ, N₀ ≤ N → ∀ k ∈ pks,
      ‖integrate dLt N pks (φ 0) k s - φ 1 k s‖ ≤ C / N ∧
      ‖(integrate2 dLt N pks (φ 0, ψ 0)).2 k s - ψ 1 k s‖ ≤ C / N := by
  obtain ⟨C, N₀, h⟩ := integrate2_limit (hK.eqAt s) (φ := fun t k => φ t k s) (ψ := fun t k => ψ t k s)
    (fun t ht k hk => by rw [poly_at s dLt k (φ t)]; exact hφ t ht k hk)
    (fun t ht k hk => by rw [dpoly_at s dLt k (φ t) (ψ t)]; exact hψ t ht k hk)
  refine ⟨C, N₀, fun N hN k hk => ?_⟩
  have h1 := h N hN k hk
  rw [integrate2_at s dLt N pks (φ 0, ψ 0)] at h1
  rw [← integrate2_fst dLt N pks (φ 0, ψ 0)]
  refine ⟨?_, h1.2⟩
  have h2 := h1.1
  rw [← integrate2_fst (eqAt s dLt) N pks (fun k => φ 0 k s, fun _ => 0)] at h2
  have e := integrate2_at s dLt N pks (φ 0, fun _ _ => 0)
  have e1 : (integrate2 (eqAt s dLt) N pks (fun k => φ 0 k s, fun _ => 0)).1
      = fun k => (integrate2 dLt N pks (φ 0, fun _ _ => 0)).1 k s := congrArg Prod.fst e
  rw [e1, integrate2_fst] at h2
  rw [integrate2_fst]
  exact h2

end Ode
