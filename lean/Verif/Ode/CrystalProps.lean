import Verif.Ode.Sweep
import Verif.Ode.Props

/-!
# Properties of the nonlinear crystal

C99: the crystal couples every key of a closed set without errors.
C100: its equations conserve power where no two different keys combine, and fail to where they do.
C101: a dark crystal passes light on, light without a partner is lost.
C102: conjugate pairs stay conjugate in the limit of many steps, not before.
-/

set_option linter.unusedSectionVars false

namespace Ode
open Py Optics

variable {P O K S R : Type} [DecidableEq P] [DecidableEq O] [DecidableEq K] [AddCommGroup O] [AddCommGroup K]
  [CommRing R] [Algebra ℚ R] [DecidableEq R] [DecidableEq ℂ] [DecidableEq (S → ℂ)]

/-! ## C99 -/

/-- **C99**: On a closed set of keys the crystal writes its equations, the integration is set up and every update succeeds,
whatever the fields and the coupling before.  The edges lead from the input to the output of the crystal, between keys of
the set. -/
theorem C99_couples {env : CEnv P O K R} {pi po : P} (hc : Closed env pi po) (e : Crystal P R) (hN : e.N_ode ≠ 0) :
    ∃ w, e.build env pi po = .ok w ∧ ∀ pks, Keyed w.dLt pks →
      ∃ o, init w.dLt w.in_map w.out_map e.N_ode pks = .ok o ∧ ∀ moved st sol,
        ∃ st', o.generate_solution moved st sol = .ok st' ∧
          (st' = st ∨ ∀ a b, st'.edge a b ≠ 0 → a.1 = pi ∧ a.2 ∈ env.okeys pi ∧ b.1 = po ∧ b.2 ∈ env.okeys po) := by
  obtain ⟨w, hw, -, -, -, -, h5⟩ := build_spec e (pi := pi) hc.single
  refine ⟨w, hw, fun pks hK => ?_⟩
  have hM := hc.mapped hw hK
  have hnode : ∀ n ∈ pks, n.1 = pi ∧ n.2 ∈ env.okeys pi := by
    intro n hn
    obtain ⟨h, T, hT, hj, h'⟩ := (h5 n).1 ((hK.mem n).1 hn)
    refine ⟨h, ?_⟩
    obtain ⟨h1, h2⟩ := mem_pairs.1 hT
    rcases h' with h' | h' | h'
    · rw [h']; exact h1
    · rw [h']; exact h2
    · rw [h']; exact (hc.same _).1 hj.2
  obtain ⟨o, ho⟩ : ∃ o : ExpMat (Node P O K) (Node P O K) R, init w.dLt w.in_map w.out_map e.N_ode pks = .ok o :=
    ⟨_, by unfold init; rw [if_neg hN]⟩
  refine ⟨o, ho, fun moved st sol => ?_⟩
  have hoo : o.pks = pks ∧ o.in_map = w.in_map ∧ o.out_map = w.out_map := by
    unfold init at ho
    rw [if_neg hN] at ho
    injection ho with ho
    rw [← ho]; exact ⟨rfl, rfl, rfl⟩
  obtain ⟨hp, hi, hu⟩ := hoo
  by_cases hmoved : ∃ k ∈ pks, moved ((Dict.get? sol (id k)).getD 0) ((Dict.get? st.vals_prev (id k)).getD 0) = true
  · obtain ⟨st', h0, -, h2, -⟩ := generate_spec hK ho hM moved st sol hmoved
    refine ⟨st', h0, Or.inr fun a b hab => ?_⟩
    obtain ⟨k, hk, k', hk', e1, e2⟩ := h2 (a, b) (by
      by_contra hn
      apply hab
      unfold State.edge
      rw [(Dict.get?_eq_none_iff _ _).2 hn]; rfl)
    have e2' : (po, k'.2) = b := Option.some.inj e2
    have e1' : a = k := e1
    subst e1'
    rw [← e2']
    exact ⟨(hnode _ hk).1, (hnode _ hk).2, rfl, (hc.same _).2 (hnode _ hk').2⟩
  · refine ⟨st, generate_still (inn := id) (out := fun n => some (po, n.2)) (by rw [hp, hi, hu]; exact hM) moved st sol
      fun k hk => ?_, Or.inl rfl⟩
    by_contra hn
    exact hmoved ⟨k, by rw [← hp]; exact hk, Bool.eq_true_of_not_eq_false hn⟩

/-- **C99**: A pair of keys whose sum or difference is at the output and is not a multiple of one base frequency stops the
crystal. -/
theorem C99_composite_stops {env : CEnv P O K R} {pi po : P} (e : Crystal P R) {k k2 : OKey O K} (hk : k ∈ env.okeys pi)
    (hk2 : k2 ∈ env.okeys pi) (hp : k.pol = k2.pol) (hout : kto k k2 ∈ env.okeys po)
    (hn : (env.orders (kto k k2).opt).length ≠ 1) : ∃ err, e.build env pi po = .error err := by
  rw [build_eq]
  have hT : (k, k2) ∈ pairs (env.okeys pi) := mem_pairs.2 ⟨hk, hk2⟩
  generalize ({ dLt := [], in_map := [], out_map := [] } : Eqs P O K R) = w
  generalize pairs (env.okeys pi) = L at hT ⊢
  induction L generalizing w with
  | nil => exact absurd hT List.not_mem_nil
  | cons T L ih =>
    rw [List.foldlM_cons]
    cases h : e.pair env pi po w T.1 T.2 with
    | error err => exact ⟨err, rfl⟩
    | ok w' =>
      rcases List.mem_cons.1 hT with rfl | hT
      · exfalso
        unfold Crystal.pair at h
        dsimp only at h
        rw [if_neg (by simpa using hp), if_pos hout] at h
        revert h hn
        rcases env.orders (kto k k2).opt with _ | ⟨n, _ | ⟨m, l⟩⟩
        · intro _ h; exact nomatch h
        · intro h; exact absurd rfl h
        · intro _ h; exact nomatch h
      · exact ih w' hT

/-! ## The limit of many steps -/

/-- The power at the nodes of the lower sidebands. -/
noncomputable def lowPower (pks : List (Node P O K)) (x : Node P O K → ℂ) : ℝ :=
  total (pks.filter fun n => n.2.q = .lower) x

theorem total_near {I : Type} [DecidableEq I] (l : List I) {y z : I → ℂ} {d D : ℝ} (hd : 0 ≤ d) (hD : d ≤ D)
    (h : ∀ k ∈ l, ‖y k - z k‖ ≤ d) :
    |total l y - total l z| ≤ (l.length * (2 * (total l z + 1) + D)) * d := by
  have hpt : ∀ k ∈ l, |‖y k‖ ^ 2 - ‖z k‖ ^ 2| ≤ (2 * (total l z + 1) + D) * d := by
    intro k hk
    have h1 : ‖z k‖ ≤ total l z + 1 := by
      have := le_total z hk
      have h3 : 0 ≤ ‖z k‖ := norm_nonneg _
      nlinarith
    have h2 : |‖y k‖ - ‖z k‖| ≤ d := (abs_norm_sub_norm_le _ _).trans (h k hk)
    have h3 : ‖y k‖ ≤ total l z + 1 + D := by
      have := (abs_le.1 h2).2
      linarith
    have e : ‖y k‖ ^ 2 - ‖z k‖ ^ 2 = (‖y k‖ + ‖z k‖) * (‖y k‖ - ‖z k‖) := by ring
    rw [e, abs_mul]
    refine mul_le_mul ?_ h2 (abs_nonneg _) (by linarith [total_nonneg l z])
    rw [abs_of_nonneg (by positivity)]
    linarith
  have hsum : ∀ (m : List I) (c : ℝ), (∀ k ∈ m, |‖y k‖ ^ 2 - ‖z k‖ ^ 2| ≤ c) →
      |total m y - total m z| ≤ m.length * c := by
    intro m c
    induction m with
    | nil => intro _; simp [total]
    | cons a m ih =>
      intro hm
      have e : total (a :: m) y - total (a :: m) z = (‖y a‖ ^ 2 - ‖z a‖ ^ 2) + (total m y - total m z) := by
        unfold total; rw [List.map_cons, List.map_cons, List.sum_cons, List.sum_cons]; ring
      rw [e]
      refine (abs_add_le _ _).trans ?_
      have h1 := hm a List.mem_cons_self
      have h2 := ih fun k hk => hm k (List.mem_cons_of_mem _ hk)
      push_cast [List.length_cons]
      linarith
  have := hsum l _ hpt
  linarith

variable {env : CEnv P O K (S → ℂ)} {pi po : P} {e : Crystal P (S → ℂ)} {w : Eqs P O K (S → ℂ)}
  {pks : List (Node P O K)}

/-- The fields that an updated coupling emits, written at the nodes of the input. -/
noncomputable def outs (st' : State (Node P O K) (S → ℂ)) (pks : List (Node P O K)) (po : P)
    (sol : Dict (Node P O K) (S → ℂ)) (s : S) (n : Node P O K) : ℂ := st'.emits pks id (po, n.2) (fed sol id) s

/-- The emitted fields near the solution of the equations. -/
theorem Closed.limit (hc : Closed env pi po) (hw : e.build env pi po = .ok w) (hK : Keyed w.dLt pks) (s : S)
    (sol : Dict (Node P O K) (S → ℂ)) {φ : ℝ → Node P O K → ℂ} (hφ0 : ∀ n ∈ pks, φ 0 n = fed sol id n s)
    (hφ : ∀ t ∈ Set.Icc (0 : ℝ) 1, ∀ n ∈ pks,
      HasDerivWithinAt (fun t => φ t n) (poly (rhs (w.pt s).dLt n) (φ t)) (Set.Icc 0 1) t) :
    ∃ C : ℝ, 0 ≤ C ∧ ∃ N₀ : ℕ, 1 ≤ N₀ ∧ ∀ N : ℕ, N₀ ≤ N → ∀ o, init w.dLt w.in_map w.out_map N pks = .ok o → ∀ moved st,
      (∃ n ∈ pks, moved (fed sol id n) ((Dict.get? st.vals_prev n).getD 0) = true) →
      ∃ st', o.generate_solution moved st sol = .ok st' ∧ (∀ n ∈ pks, ‖outs st' pks po sol s n - φ 1 n‖ ≤ C / N) ∧
        |lowPower pks (outs st' pks po sol s) - lowPower pks (φ 1)| ≤ C / N := by
  obtain ⟨C, N₀, h⟩ := integrate_limit (hK.eqAt s) hφ
  set l := pks.filter fun n => n.2.q = .lower with hl
  set D := l.length * (2 * (total l (φ 1) + 1) + |C|) with hD
  have hD0 : 0 ≤ D := by
    have := total_nonneg l (φ 1)
    positivity
  refine ⟨max |C| (D * |C|), le_max_of_le_left (abs_nonneg _), max N₀ 1, le_max_right _ _,
    fun N hN o ho moved st hmoved => ?_⟩
  obtain ⟨st', h0, h1⟩ := generate_emits hK ho (hc.mapped hw hK) moved st sol hmoved
  have hN0 : (1 : ℝ) ≤ N := by
    have : 1 ≤ N := (le_max_right _ _).trans hN
    exact_mod_cast this
  have hCN : |C| / N ≤ |C| := div_le_self (abs_nonneg _) hN0
  have hnear : ∀ n ∈ pks, ‖outs st' pks po sol s n - φ 1 n‖ ≤ |C| / N := by
    intro n hn
    have h2 := h N ((le_max_left _ _).trans hN) n hn
    have h3 : integrate (eqAt s w.dLt) N pks (φ 0) n = integrate w.dLt N pks (fed sol id) n s := by
      rw [← integrate_at s w.dLt N pks (fed sol id) n]
      have h4 := integrate2_congr (hK.eqAt s) N (p := (φ 0, fun _ => 0)) (p' := (fun n => fed sol id n s, fun _ => 0))
        (fun n hn => ⟨hφ0 n hn, rfl⟩) n hn
      have h5 := h4.1
      rw [integrate2_fst, integrate2_fst] at h5
      exact h5
    rw [h3] at h2
    unfold outs
    rw [congrFun (h1 n hn (po, n.2) rfl) s]
    exact h2.trans (div_le_div_of_nonneg_right (le_abs_self C) (by linarith))
  refine ⟨st', h0, fun n hn => (hnear n hn).trans (div_le_div_of_nonneg_right (le_max_left _ _) (by linarith)), ?_⟩
  unfold lowPower
  refine (total_near l (d := |C| / N) (D := |C|) (by positivity) hCN
    fun n hn => hnear n (List.mem_filter.1 hn).1).trans ?_
  rw [← mul_div_assoc]
  exact div_le_div_of_nonneg_right (le_max_right _ _) (by linarith)

/-- Mirrored fields carry the same power in both sidebands. -/
theorem lowPower_half (hc : Closed env pi po) (hw : e.build env pi po = .ok w) (hK : Keyed w.dLt pks) (s : S)
    {x : Node P O K → ℂ} (hx : ∀ n ∈ pks, x (n.1, n.2.conj) = starRingEnd ℂ (x n)) :
    total pks x = 2 * lowPower pks x := by
  have hKs := hK.eqAt s
  have hcs := hc.pt s
  have hws := build_pt env e s pi po hw
  have hnd := hK.nodup
  have hmem : ∀ n ∈ pks, ((n.1, n.2.conj) : Node P O K) ∈ pks := by
    rintro ⟨p, k⟩ hn
    obtain rfl : p = pi := (hcs.nodes hws hKs hn).1
    exact hcs.conj_mem hws hKs hn
  unfold lowPower total
  rw [← List.sum_toFinset _ hnd, ← List.sum_toFinset _ (hnd.filter _), two_mul,
    ← Finset.sum_filter_add_sum_filter_not pks.toFinset (fun n : Node P O K => n.2.q = .lower)]
  have e1 : pks.toFinset.filter (fun n : Node P O K => n.2.q = .lower)
      = (pks.filter fun n => n.2.q = .lower).toFinset := by
    ext n; simp
  rw [e1]
  congr 1
  refine Finset.sum_nbij' (fun n => (n.1, n.2.conj)) (fun n => (n.1, n.2.conj)) ?_ ?_ ?_ ?_ ?_
  · intro n hn
    rw [Finset.mem_filter, List.mem_toFinset] at hn
    rw [List.mem_toFinset, List.mem_filter]
    exact ⟨hmem n hn.1, by simp only [OKey.conj, Quantum.eq_raise hn.2]; rfl⟩
  · intro n hn
    rw [List.mem_toFinset, List.mem_filter] at hn
    rw [Finset.mem_filter, List.mem_toFinset]
    have hq : n.2.q = .lower := by simpa using hn.2
    exact ⟨hmem n hn.1, by simp only [OKey.conj, hq]; exact fun h => nomatch h⟩
  · intro n _; simp only [OKey.conj_conj']
  · intro n _; simp only [OKey.conj_conj']
  · intro n hn
    rw [Finset.mem_filter, List.mem_toFinset] at hn
    rw [hx n hn.1, RCLike.norm_conj]

/-! ## C100 -/

/-- **C100**, partial: Light that enters the crystal in conjugate pairs leaves it with the same power, up to `C / N` for the
number `N` of steps, and in conjugate pairs, again up to `C / N`.

The full claim is the same without `hdist`: for crystals in which different keys combine as well.  It is false, see
`C100_power_refuted`. -/
theorem C100_power_partial (hc : Closed env pi po) (s : S) {γ : ℝ} (hi : env.i s = Complex.I)
    (hγ : e.nlg s * e.length_mm s = γ) (hw : e.build env pi po = .ok w) (hK : Keyed w.dLt pks)
    (hadd : ∀ a ∈ env.okeys pi, ∀ b ∈ env.okeys pi, a.pol = b.pol → kto a b ∈ env.okeys po → b.q = a.q →
      ordOf env (kto a b).opt = ordOf env a.opt + ordOf env b.opt)
    (hdist : ∀ a ∈ env.okeys pi, ∀ b ∈ env.okeys pi, a.q = .lower → b.q = .lower → a.pol = b.pol →
      kto a b ∈ env.okeys po → a = b)
    (sol : Dict (Node P O K) (S → ℂ))
    (hsol : ∀ k, (pi, k) ∈ pks → fed sol id (pi, k.conj) s = starRingEnd ℂ (fed sol id (pi, k) s)) :
    ∃ C : ℝ, ∃ N₀ : ℕ, ∀ N : ℕ, N₀ ≤ N → ∀ o, init w.dLt w.in_map w.out_map N pks = .ok o → ∀ moved st,
      (∃ n ∈ pks, moved (fed sol id n) ((Dict.get? st.vals_prev n).getD 0) = true) →
      ∃ st', o.generate_solution moved st sol = .ok st' ∧
        |lowPower pks (outs st' pks po sol s) - lowPower pks (fun n => fed sol id n s)| ≤ C / N ∧
        ∀ n ∈ pks, ‖outs st' pks po sol s (n.1, n.2.conj) - starRingEnd ℂ (outs st' pks po sol s n)‖ ≤ C / N := by
  have hKs := hK.eqAt s
  have hcs := hc.pt s
  have hws := build_pt env e s pi po hw
  have hr : RealCrystal (env.pt s) (e.pt s) γ := ⟨hi, hγ⟩
  have hmir := hcs.mirror hr hws hKs
  have hpi : ∀ n ∈ pks, n.1 = pi := fun n hn => (hcs.nodes hws hKs hn).1
  have h0 : ∀ n ∈ pks, fed sol id ((n.1, n.2.conj) : Node P O K) s = starRingEnd ℂ (fed sol id n s) := by
    rintro ⟨p, k⟩ hn
    obtain rfl : p = pi := hpi _ hn
    exact hsol k hn
  obtain ⟨φ, hφ0, hφ, hpair, hconst⟩ := hmir.solution hKs
    (fun x hx => hcs.rate hr hws hKs (fun a ha b hb hj hq => hadd a ha b hb hj.1 hj.2 hq)
      (fun a ha b hb hj => by
        rw [lowers, Finset.mem_filter, List.mem_toFinset] at ha hb
        exact hdist a ha.1 b hb.1 ha.2 hb.2 hj.1 hj.2) hx)
    (x₀ := fun n => fed sol id n s) h0
  obtain ⟨C, hC, N₀, -, h⟩ := hc.limit hw hK s sol (fun n _ => congrFun hφ0 n) hφ
  refine ⟨2 * C, N₀, fun N hN o ho moved st hmoved => ?_⟩
  obtain ⟨st', h1, h2, h3⟩ := h N hN o ho moved st hmoved
  have hle : C / N ≤ 2 * C / N := div_le_div_of_nonneg_right (by linarith) (Nat.cast_nonneg _)
  refine ⟨st', h1, ?_, fun n hn => ?_⟩
  · have e1 := lowPower_half hc hw hK s (hpair 1 (by simp))
    have e2 := lowPower_half (x := fun n => fed sol id n s) hc hw hK s h0
    have e3 := hconst 1 (by simp)
    have : lowPower pks (φ 1) = lowPower pks (fun n => fed sol id n s) := by linarith
    rw [← this]
    exact h3.trans hle
  · have b1 := h2 n hn
    have b2 := h2 _ (hmir.mem n hn)
    have b3 : φ 1 (n.1, n.2.conj) = starRingEnd ℂ (φ 1 n) := hpair 1 (by simp) n hn
    have e1 : outs st' pks po sol s (n.1, n.2.conj) - starRingEnd ℂ (outs st' pks po sol s n)
        = (outs st' pks po sol s (n.1, n.2.conj) - φ 1 (n.1, n.2.conj))
          - starRingEnd ℂ (outs st' pks po sol s n - φ 1 n) := by
      rw [map_sub, b3]; ring
    rw [e1]
    refine (norm_sub_le _ _).trans ?_
    rw [RCLike.norm_conj]
    calc _ ≤ C / N + C / N := add_le_add b2 b1
      _ = _ := by ring

/-! ## C102 -/

/-- **C102**, partial: Light that enters in conjugate pairs leaves in conjugate pairs up to `C / N`, as long as the equations
have a solution.  For the full claim, conjugate pairs for every number of steps, see `C102_conj_refuted`. -/
theorem C102_conj_partial (hc : Closed env pi po) (s : S) {γ : ℝ} (hi : env.i s = Complex.I)
    (hγ : e.nlg s * e.length_mm s = γ) (hw : e.build env pi po = .ok w) (hK : Keyed w.dLt pks)
    (sol : Dict (Node P O K) (S → ℂ))
    (hsol : ∀ k, (pi, k) ∈ pks → fed sol id (pi, k.conj) s = starRingEnd ℂ (fed sol id (pi, k) s))
    {φ : ℝ → Node P O K → ℂ} (hφ0 : ∀ n ∈ pks, φ 0 n = fed sol id n s)
    (hφ : ∀ t ∈ Set.Icc (0 : ℝ) 1, ∀ n ∈ pks,
      HasDerivWithinAt (fun t => φ t n) (poly (rhs (eqAt s w.dLt) n) (φ t)) (Set.Icc 0 1) t) :
    ∃ C : ℝ, ∃ N₀ : ℕ, ∀ N : ℕ, N₀ ≤ N → ∀ o, init w.dLt w.in_map w.out_map N pks = .ok o → ∀ moved st,
      (∃ n ∈ pks, moved (fed sol id n) ((Dict.get? st.vals_prev n).getD 0) = true) →
      ∃ st', o.generate_solution moved st sol = .ok st' ∧
        ∀ n ∈ pks, ‖outs st' pks po sol s (n.1, n.2.conj) - starRingEnd ℂ (outs st' pks po sol s n)‖ ≤ C / N := by
  have hKs := hK.eqAt s
  have hcs := hc.pt s
  have hws := build_pt env e s pi po hw
  have hr : RealCrystal (env.pt s) (e.pt s) γ := ⟨hi, hγ⟩
  have hmir := hcs.mirror hr hws hKs
  have hpi : ∀ n ∈ pks, n.1 = pi := fun n hn => (hcs.nodes hws hKs hn).1
  have hpair := hmir.stays hKs (c := fun _ => 1) (f := fun k x => poly (rhs (w.pt s).dLt k) x) (fun k x => by rw [Complex.ofReal_one, one_mul]; rfl)
    (rhs_locLip hKs) hφ (by
      rintro ⟨p, k⟩ hn
      obtain rfl : p = pi := hpi _ hn
      dsimp only
      rw [hφ0 _ hn, hφ0 _ (hcs.conj_mem hws hKs hn)]
      exact hsol k hn)
  obtain ⟨C, hC, N₀, -, h⟩ := hc.limit hw hK s sol hφ0 hφ
  refine ⟨2 * C, N₀, fun N hN o ho moved st hmoved => ?_⟩
  obtain ⟨st', h1, h2, -⟩ := h N hN o ho moved st hmoved
  refine ⟨st', h1, fun n hn => ?_⟩
  have b1 := h2 n hn
  have b2 := h2 _ (hmir.mem n hn)
  have b3 : φ 1 (n.1, n.2.conj) = starRingEnd ℂ (φ 1 n) := hpair 1 (by simp) n hn
  have e1 : outs st' pks po sol s (n.1, n.2.conj) - starRingEnd ℂ (outs st' pks po sol s n)
      = (outs st' pks po sol s (n.1, n.2.conj) - φ 1 (n.1, n.2.conj))
        - starRingEnd ℂ (outs st' pks po sol s n - φ 1 n) := by
    rw [map_sub, b3]; ring
  rw [e1]
  refine (norm_sub_le _ _).trans ?_
  rw [RCLike.norm_conj]
  calc _ ≤ C / N + C / N := add_le_add b2 b1
    _ = _ := by ring

/-! ## C101 -/

/-- Equations of products of two factors do nothing in the dark. -/
theorem integrate2_dark {I : Type} [DecidableEq I] {dLt : Dict I (Lt I R)} (h : ∀ k, ∀ t ∈ rhs dLt k, 2 ≤ t.2.length)
    (N : ℕ) (pks : List I) (Δ : I → R) : integrate2 dLt N pks (fun _ => 0, Δ) = (fun _ => 0, Δ) := by
  have hprod : ∀ l : List I, l ≠ [] → (l.map fun _ => (0 : R)).prod = 0 := by
    intro l hl
    cases l with
    | nil => exact absurd rfl hl
    | cons a l => simp
  have hp : ∀ k, poly (rhs dLt k) (fun _ => 0) = 0 := by
    intro k
    refine List.sum_eq_zero fun r hr => ?_
    obtain ⟨t, ht, rfl⟩ := List.mem_map.1 hr
    have h1 := h k t ht
    rw [hprod t.2 (by intro h'; rw [h'] at h1; simp at h1), mul_zero]
  have hd : ∀ k, dpoly (rhs dLt k) (fun _ => 0) Δ = 0 := by
    intro k
    refine List.sum_eq_zero fun r hr => ?_
    obtain ⟨t, ht, rfl⟩ := List.mem_map.1 hr
    have h1 := h k t ht
    have : ∀ l : List I, 2 ≤ l.length → dprod l (fun _ => (0 : R)) Δ = 0 := by
      intro l hl
      match l, hl with
      | a :: b :: l, _ => simp [dprod]
    rw [this t.2 h1, mul_zero]
  have hn : ∀ k, nudge2 dLt (1 / N) (fun _ => 0, Δ) k = (fun _ => 0, Δ) := by
    intro k
    unfold nudge2 nudge
    dsimp only
    rw [hp, hd]
    simp
  have hs : ∀ l : List I, l.foldl (nudge2 dLt (1 / N)) (fun _ => 0, Δ) = (fun _ => 0, Δ) := by
    intro l
    induction l with
    | nil => rfl
    | cons k l ih => rw [List.foldl_cons, hn, ih]
  unfold integrate2
  have : ∀ m : ℕ, (fun p => pks.foldl (nudge2 dLt (1 / N)) p)^[m] (fun _ => 0, Δ) = (fun _ => 0, Δ) := by
    intro m
    induction m with
    | zero => rfl
    | succ m ih => rw [Function.iterate_succ_apply, hs, ih]
  exact this N

/-- The edges before the first update. -/
theorem start_get {I Q : Type} [DecidableEq I] [DecidableEq Q] (o : ExpMat I Q R) (a b : Q) :
    Dict.get? o.start.solution (a, b)
      = open Classical in if ∃ T ∈ o.in_map, T.2 = a ∧ Dict.get? o.out_map T.1 = some (some b) then some 1 else none := by
  have main : ∀ (l : List (I × Q)) (sol : Dict (Q × Q) R),
      Dict.get? (l.foldl (fun (sol : Dict (Q × Q) R) T => match Dict.get? o.out_map T.1 with
        | some (some pk_out) => Dict.set sol (T.2, pk_out) 1
        | _ => sol) sol) (a, b)
        = open Classical in
          if ∃ T ∈ l, T.2 = a ∧ Dict.get? o.out_map T.1 = some (some b) then some 1 else Dict.get? sol (a, b) := by
    classical
    intro l
    induction l with
    | nil => intro sol; simp
    | cons T l ih =>
      intro sol
      rw [List.foldl_cons, ih]
      by_cases hl : ∃ T ∈ l, T.2 = a ∧ Dict.get? o.out_map T.1 = some (some b)
      · rw [if_pos hl, if_pos]
        obtain ⟨T', hT', h⟩ := hl
        exact ⟨T', List.mem_cons_of_mem _ hT', h⟩
      · rw [if_neg hl]
        by_cases hT : T.2 = a ∧ Dict.get? o.out_map T.1 = some (some b)
        · rw [if_pos ⟨T, List.mem_cons_self, hT⟩, hT.2]
          dsimp only
          rw [hT.1, Dict.get?_set_self]
        · rw [if_neg]
          · rcases ho : Dict.get? o.out_map T.1 with _ | _ | q
            · rfl
            · rfl
            · dsimp only
              rw [Dict.get?_set_ne]
              intro h
              injection h with h1 h2
              exact hT ⟨h1, by rw [ho, h2]⟩
          · rintro ⟨T', hT', h⟩
            rcases List.mem_cons.1 hT' with rfl | hT'
            · exact hT h
            · exact hl ⟨T', hT', h⟩
  exact main o.in_map []

theorem build_in_map {env : CEnv P O K R} {e : Crystal P R} {w : Eqs P O K R} (hw : e.build env pi po = .ok w) :
    Dict.WF w.in_map := by
  rw [build_eq] at hw
  generalize pairs (env.okeys pi) = L at hw
  have main : ∀ (L : List (OKey O K × OKey O K)) (u : Eqs P O K R), Dict.WF u.in_map →
      L.foldlM (fun w T => e.pair env pi po w T.1 T.2) u = .ok w → Dict.WF w.in_map := by
    intro L
    induction L with
    | nil => intro u hu h; injection h with h; rw [← h]; exact hu
    | cons T L ih =>
      intro u hu h
      rw [List.foldlM_cons] at h
      cases hp : e.pair env pi po u T.1 T.2 with
      | error err => rw [hp] at h; exact nomatch h
      | ok u' =>
        rw [hp] at h
        refine ih u' ?_ h
        unfold Crystal.pair at hp
        by_cases h1 : T.1.pol = T.2.pol
        · rw [if_neg (by simpa using h1)] at hp
          by_cases h2 : kto T.1 T.2 ∈ env.okeys po
          · rw [if_pos h2] at hp
            rcases ho : env.orders (kto T.1 T.2).opt with _ | ⟨n, _ | ⟨m, l⟩⟩ <;> rw [ho] at hp
            · exact nomatch hp
            · injection hp with hp
              rw [← hp]; exact Dict.WF_set hu _ _
            · exact nomatch hp
          · rw [if_neg h2] at hp
            injection hp with hp
            rw [← hp]; exact hu
        · rw [if_pos h1] at hp
          injection hp with hp
          rw [← hp]; exact hu
  exact main L _ Dict.WF_nil hw

/-- **C101**, partial: A crystal without light passes small fields on unchanged, before the first update and after an update
with all inputs zero: the edge from an input to the output of the same key is one, all other edges are zero and nothing is
injected.

The full claim is that a key that enters a dark crystal leaves it, whether or not it takes part in the equations; it is
false, see `C101_transparent_refuted`. -/
theorem C101_transparent_partial {env : CEnv P O K R} {e : Crystal P R} {w : Eqs P O K R} (hc : Closed env pi po)
    (hw : e.build env pi po = .ok w) (hK : Keyed w.dLt pks) {N : ℕ} {o : ExpMat (Node P O K) (Node P O K) R}
    (ho : init w.dLt w.in_map w.out_map N pks = .ok o) :
    (∀ n ∈ pks, ∀ n' ∈ pks,
      o.start.edge n (po, n'.2) = (if n = n' then 1 else 0) ∧ o.start.inj (po, n'.2) = 0) ∧
    ∀ (sol : Dict (Node P O K) R), (∀ n ∈ pks, fed sol id n = 0) → ∀ (moved : R → R → Bool) (st : State (Node P O K) R),
      (∃ n ∈ pks, moved (fed sol id n) ((Dict.get? st.vals_prev n).getD 0) = true) →
      ∃ st', o.generate_solution moved st sol = .ok st' ∧ ∀ n ∈ pks, ∀ n' ∈ pks,
        st'.edge n (po, n'.2) = (if n = n' then 1 else 0) ∧ st'.inj (po, n'.2) = 0 := by
  obtain ⟨hp, hi, hu⟩ : o.pks = pks ∧ o.in_map = w.in_map ∧ o.out_map = w.out_map := by
    unfold init at ho
    split_ifs at ho
    injection ho with ho
    rw [← ho]; exact ⟨rfl, rfl, rfl⟩
  constructor
  · intro n hn n' hn'
    refine ⟨?_, rfl⟩
    have hM := hc.mapped hw hK
    obtain ⟨w', hw', -, -, h3, h4, -⟩ := build_spec e (pi := pi) hc.single
    rw [hw] at hw'
    injection hw' with hw'
    subst hw'
    have hpi : ∀ n ∈ pks, n.1 = pi := by
      intro n hn
      have h := hM.get_inn n hn
      rw [h3] at h
      by_contra hne
      rw [if_neg fun h => hne h.1] at h
      exact nomatch h
    unfold State.edge
    rw [start_get, hi, hu]
    by_cases hnn : n = n'
    · subst hnn
      rw [if_pos ⟨(n, n), Dict.mem_of_get? (hM.get_inn n hn), rfl, hM.get_out n hn⟩, if_pos rfl]; rfl
    · rw [if_neg, if_neg hnn]
      · rfl
      · rintro ⟨T, hT, e1, e2⟩
        have h := Dict.get?_of_mem (build_in_map hw) (k := T.1) (v := T.2) hT
        rw [h3] at h
        rw [h4] at e2
        split_ifs at h e2 with ha hb
        · have e3 : T.1 = T.2 := Option.some.inj h
          have e4 : (po, T.1.2) = (po, n'.2) := Option.some.inj (Option.some.inj e2)
          have e5 : T.1.2 = n'.2 := ((Prod.mk.injEq _ _ _ _).mp e4).2
          apply hnn
          rw [← e1, ← e3]
          exact Prod.ext (ha.1.trans (hpi n' hn').symm) e5
  intro sol hdark moved st hmoved
  obtain ⟨st', h, h1, -⟩ := generate_spec hK ho (hc.mapped hw hK) moved st sol hmoved
  have htwo : ∀ n, ∀ t ∈ rhs w.dLt n, 2 ≤ t.2.length := by
    intro n t ht
    obtain ⟨w', hw', -, h2, -, -, h5⟩ := build_spec e (pi := pi) hc.single
    rw [hw] at hw'
    injection hw' with hw'
    subst hw'
    by_cases hn : n.1 = pi
    · have : n = (pi, n.2) := Prod.ext hn rfl
      rw [this, h2] at ht
      obtain ⟨T, -, rfl⟩ := List.mem_map.1 ht
      simp
    · exfalso
      unfold rhs at ht
      cases hg : Dict.get? w.dLt n with
      | none => rw [hg] at ht; simp at ht
      | some lt => exact hn ((h5 n).1 ⟨(n, lt), Dict.mem_of_get? hg, Or.inl rfl⟩).1
  have hint : ∀ Δ : Node P O K → R, ∀ n' ∈ pks,
      (integrate2 w.dLt N pks (fun k => (Dict.get? sol (id k)).getD 0, Δ)).2 n' = Δ n' ∧
      (integrate2 w.dLt N pks (fun k => (Dict.get? sol (id k)).getD 0, Δ)).1 n' = 0 := by
    intro Δ n' hn'
    have h3 := integrate2_congr hK N (p := (fun k => (Dict.get? sol (id k)).getD 0, Δ)) (p' := (fun _ => 0, Δ))
      (fun k hk => ⟨hdark k hk, rfl⟩) n' hn'
    rw [integrate2_dark htwo] at h3
    exact ⟨h3.2, h3.1⟩
  refine ⟨st', h, fun n hn n' hn' => ?_⟩
  obtain ⟨e1, e2⟩ := h1 n' hn' (po, n'.2) rfl
  constructor
  · have h2 := e1 (fun k => if k = n then 1 else 0)
    rw [(hint _ n' hn').1] at h2
    have h3 : (pks.map fun k => (Dict.get? st'.solution (id k, (po, n'.2))).getD 0 * (if k = n then 1 else 0)).sum
        = (Dict.get? st'.solution (n, (po, n'.2))).getD 0 := by
      rw [← List.sum_toFinset _ hK.nodup, Finset.sum_eq_single n]
      · simp
      · intro b _ hb; rw [if_neg hb, mul_zero]
      · intro hb; exact absurd (List.mem_toFinset.2 hn) hb
    rw [h3] at h2
    show (Dict.get? st'.solution (n, (po, n'.2))).getD 0 = _
    rw [h2]
    simp only [eq_comm]
  · show (Dict.get? st'.vals_inj (po, n'.2)).getD 0 = 0
    rw [e2, ← integrate2_fst w.dLt N pks (_, fun _ => 0), (hint _ n' hn').2]
    have : (pks.map fun k => (Dict.get? st'.solution (id k, (po, n'.2))).getD 0 * (Dict.get? sol (id k)).getD 0).sum = 0 := by
      refine List.sum_eq_zero fun r hr => ?_
      obtain ⟨k, hk, rfl⟩ := List.mem_map.1 hr
      have : (Dict.get? sol (id k)).getD 0 = 0 := hdark k hk
      rw [this, mul_zero]
    rw [this, sub_zero]

end Ode
