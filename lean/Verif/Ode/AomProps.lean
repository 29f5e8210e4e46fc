import Mathlib.Analysis.SpecialFunctions.Trigonometric.Deriv
import Mathlib.Analysis.Complex.RealDeriv
import Verif.Ode.Aom
import Verif.Ode.CrystalProps

/-!
# Properties of the acousto-optic modulator

C103: the modulator couples without errors, conserves the power of the light and keeps conjugate pairs.
C104: a single drive diffracts the light by `sin²`, at the nominal power all of it.
-/

set_option linter.unusedSectionVars false

namespace Ode
open Py Optics

variable {P O K R V S : Type} [DecidableEq P] [DecidableEq O] [DecidableEq K] [AddCommGroup K] [CommRing R]
  [Algebra ℚ R] [DecidableEq R] [Field V] [LinearOrder V] [IsStrictOrderedRing V] [DecidableEq ℂ] [DecidableEq (S → ℂ)]

/-! ## C103: no errors -/

/-- **C103**: The integration of the modulator is set up and every update succeeds, whatever the fields and the coupling
before.  Edges lead from the optical inputs and the drive to the optical outputs. -/
theorem C103_couples (env : AEnv P O K R V) (e : Aom P R V) (hAB : e.A ≠ e.B) (hO : e.oA ≠ e.oB) (hN : e.N_ode ≠ 0)
    {pks : List (ANode P O K)} (hK : Keyed (e.build env).dLt pks) :
    ∃ o, init (e.build env).dLt (e.build env).in_map (e.build env).out_map e.N_ode pks = .ok o ∧ ∀ moved st sol,
      ∃ st', o.generate_solution moved st sol = .ok st' ∧
        (st' = st ∨ ∀ a b, st'.edge a b ≠ 0 →
          (a.1 = e.A ∨ a.1 = e.B ∨ ∃ d ∈ env.skeys e.Drv, a = sn e.Drv d) ∧ (b.1 = e.oA ∨ b.1 = e.oB)) := by
  have hM := e.mapped env hAB hO hK
  obtain ⟨-, -, -, h4⟩ := e.build_spec env hAB
  have hnode : ∀ n ∈ pks, n.1 = e.A ∨ n.1 = e.B ∨ ∃ d ∈ env.skeys e.Drv, n = sn e.Drv d := by
    intro n hn
    obtain ⟨T, hT, -, h⟩ := (h4 n).1 ((hK.mem n).1 hn)
    unfold Aom.turns Aom.arms at hT
    simp only [List.mem_flatMap, List.mem_cons, List.not_mem_nil, or_false, List.mem_map] at hT
    obtain ⟨a, rfl | rfl, k', -, d, hd, rfl⟩ := hT
    · rcases h with rfl | rfl | rfl
      · exact Or.inl rfl
      · exact Or.inr (Or.inr ⟨d, hd, rfl⟩)
      · exact Or.inr (Or.inl rfl)
    · rcases h with rfl | rfl | rfl
      · exact Or.inr (Or.inl rfl)
      · exact Or.inr (Or.inr ⟨d, hd, rfl⟩)
      · exact Or.inl rfl
  obtain ⟨o, ho⟩ : ∃ o : ExpMat (ANode P O K) (ANode P O K) R,
      init (e.build env).dLt (e.build env).in_map (e.build env).out_map e.N_ode pks = .ok o :=
    ⟨_, by unfold init; rw [if_neg hN]⟩
  refine ⟨o, ho, fun moved st sol => ?_⟩
  obtain ⟨hp, hi, hu⟩ : o.pks = pks ∧ o.in_map = (e.build env).in_map ∧ o.out_map = (e.build env).out_map := by
    unfold init at ho
    rw [if_neg hN] at ho
    injection ho with ho
    rw [← ho]; exact ⟨rfl, rfl, rfl⟩
  by_cases hmoved : ∃ k ∈ pks, moved ((Dict.get? sol (id k)).getD 0) ((Dict.get? st.vals_prev (id k)).getD 0) = true
  · obtain ⟨st', h0, -, h2, -⟩ := generate_spec hK ho hM moved st sol hmoved
    refine ⟨st', h0, Or.inr fun a b hab => ?_⟩
    obtain ⟨k, hk, k', hk', e1, e2⟩ := h2 (a, b) (by
      by_contra hn
      apply hab
      unfold State.edge
      rw [(Dict.get?_eq_none_iff _ _).2 hn]; rfl)
    have e1' : a = k := e1
    subst e1'
    refine ⟨hnode _ hk, ?_⟩
    unfold Aom.outOf at e2
    cases hk2 : k'.2 with
    | sig d => rw [hk2] at e2; exact nomatch e2
    | opt k2 =>
      rw [hk2] at e2
      dsimp only at e2
      split_ifs at e2
      · rw [← Option.some.inj e2]; exact Or.inl rfl
      · rw [← Option.some.inj e2]; exact Or.inr rfl
  · refine ⟨st, generate_still (inn := id) (out := e.outOf) (by rw [hp, hi, hu]; exact hM) moved st sol
      fun k hk => ?_, Or.inl rfl⟩
    by_contra hn
    exact hmoved ⟨k, by rw [← hp]; exact hk, Bool.eq_true_of_not_eq_false hn⟩

/-! ## One point of a sweep -/

/-- What the modulator reads, at one point of the sweep. -/
def AEnv.pt (env : AEnv P O K (S → ℂ) V) (s : S) : AEnv P O K ℂ V := ⟨env.okeys, env.skeys, env.reject, env.center, env.i s⟩

/-- The modulator at one point of the sweep. -/
def Aom.pt (e : Aom P (S → ℂ) V) (s : S) : Aom P ℂ V :=
  ⟨e.N_ode, e.rate s, e.freq_split_Hz, e.A, e.B, e.oA, e.oB, e.Drv, e.dir⟩

theorem Aom.build_pt (env : AEnv P O K (S → ℂ) V) (e : Aom P (S → ℂ) V) (s : S) :
    ((e.pt s).build (env.pt s)).dLt = eqAt s (e.build env).dLt := by
  have hturns : (e.pt s).turns (env.pt s) = e.turns env := rfl
  rw [Aom.build_eq, Aom.build_eq, hturns]
  have : ∀ (L : List (Arm P V × OKey O K × K)) (w : AEqs P O K (S → ℂ)) (u : AEqs P O K ℂ), u.dLt = eqAt s w.dLt →
      (L.foldl (fun w T => (e.pt s).one (env.pt s) w T.1 T.2.1 T.2.2) u).dLt
        = eqAt s (L.foldl (fun w T => e.one env w T.1 T.2.1 T.2.2) w).dLt := by
    intro L
    induction L with
    | nil => intro w u h; exact h
    | cons T L ih =>
      intro w u h
      rw [List.foldl_cons, List.foldl_cons]
      refine ih _ _ ?_
      unfold Aom.one
      have hm : (e.pt s).meets (env.pt s) T.1 T.2.1 T.2.2 = e.meets env T.1 T.2.1 T.2.2 := rfl
      rw [hm]
      split_ifs
      · dsimp only
        rw [h, eqAt_app]
        congr 2
        unfold Aom.G
        cases T.2.1.q <;> rfl
      · exact h
  exact this _ _ _ rfl

theorem Shifts.pt {env : AEnv P O K (S → ℂ) V} {e : Aom P (S → ℂ) V} (hs : Shifts env e) (s : S) :
    Shifts (env.pt s) (e.pt s) := ⟨hs.nodupA, hs.nodupB, hs.nodupD, hs.neg, hs.center, hs.live, hs.closed⟩

/-! ## Conjugate pairs -/

theorem conj2 (k : OKey O K) : k.conj.conj = k := by
  obtain ⟨a, b, c, d⟩ := k
  cases d <;> rfl

/-- The conjugate node: the other sideband of light, the negative frequency of a drive. -/
def flip (n : ANode P O K) : ANode P O K :=
  match n with
  | (p, .opt k) => (p, .opt k.conj)
  | (p, .sig d) => (p, .sig (-d))

@[simp] theorem flip_on (p : P) (k : OKey O K) : flip (on p k) = on p k.conj := rfl

@[simp] theorem flip_sn (p : P) (d : K) : flip (sn p d : ANode P O K) = sn p (-d) := rfl

theorem flip_flip (n : ANode P O K) : flip (flip n) = n := by
  obtain ⟨p, k | d⟩ := n
  · show ((p, .opt k.conj.conj) : ANode P O K) = _
    rw [conj2]
  · show ((p, .sig (- -d)) : ANode P O K) = _
    rw [neg_neg]

theorem shift_conj (k : OKey O K) (d : K) : shift k.conj (-d) = shift k d := by
  unfold shift OKey.conj
  cases k.q <;> simp [Quantum.conj, sub_eq_add_neg]

theorem meets_conj {env : AEnv P O K R V} {e : Aom P R V} (hc : ∀ d, env.center (-d) = -env.center d) (a : Arm P V)
    (k : OKey O K) (d : K) : e.meets env a k.conj (-d) = e.meets env a k d := by
  unfold Aom.meets
  rw [shift_conj, hc]
  have : negOf k.conj.q * -env.center d = negOf k.q * env.center d := by
    unfold OKey.conj
    cases k.q <;> simp [Quantum.conj, negOf]
  rw [this]

section
variable {env : AEnv P O K ℂ V} {e : Aom P ℂ V} {pks : List (ANode P O K)}

/-- The ports of the modulator carry conjugate pairs. -/
def Conj (env : AEnv P O K R V) (e : Aom P R V) : Prop := ∀ p ∈ [e.A, e.B], ∀ k ∈ env.okeys p, k.conj ∈ env.okeys p

theorem arm_ports {e : Aom P R V} {a : Arm P V} (ha : a ∈ e.arms) : a.port ∈ [e.A, e.B] ∧ a.portO ∈ [e.A, e.B] := by
  unfold Aom.arms at ha
  simp only [List.mem_cons, List.not_mem_nil, or_false] at ha
  rcases ha with rfl | rfl <;> simp

theorem mem_turns {env : AEnv P O K R V} {e : Aom P R V} {T : Arm P V × OKey O K × K} :
    T ∈ e.turns env ↔ T.1 ∈ e.arms ∧ T.2.1 ∈ env.okeys T.1.port ∧ T.2.2 ∈ env.skeys e.Drv := by
  unfold Aom.turns
  simp only [List.mem_flatMap, List.mem_map]
  constructor
  · rintro ⟨a, ha, k, hk, d, hd, rfl⟩; exact ⟨ha, hk, hd⟩
  · rintro ⟨ha, hk, hd⟩; exact ⟨T.1, ha, T.2.1, hk, T.2.2, hd, rfl⟩

theorem Aom.flip_mem (hs : Shifts env e) (hcj : Conj env e) (hAB : e.A ≠ e.B) (hK : Keyed (e.build env).dLt pks)
    {n : ANode P O K} (hn : n ∈ pks) : flip n ∈ pks := by
  obtain ⟨-, -, -, h4⟩ := e.build_spec env hAB
  obtain ⟨T, hT, hm, h⟩ := (h4 n).1 ((hK.mem n).1 hn)
  obtain ⟨ha, hk, hd⟩ := mem_turns.1 hT
  refine (hK.mem _).2 ((h4 _).2 ⟨(T.1, T.2.1.conj, -T.2.2), mem_turns.2 ⟨ha, hcj _ (arm_ports ha).1 _ hk, hs.neg _ hd⟩, ?_, ?_⟩)
  · dsimp only; rw [meets_conj hs.center]; exact hm
  · dsimp only
    rw [shift_conj]
    rcases h with rfl | rfl | rfl
    · exact Or.inl rfl
    · exact Or.inr (Or.inl rfl)
    · exact Or.inr (Or.inr rfl)

theorem Aom.flip_mem_iff (hs : Shifts env e) (hcj : Conj env e) (hAB : e.A ≠ e.B) (hK : Keyed (e.build env).dLt pks)
    {n : ANode P O K} : flip n ∈ pks ↔ n ∈ pks := by
  constructor
  · intro h
    have := Aom.flip_mem hs hcj hAB hK h
    rwa [flip_flip] at this
  · exact Aom.flip_mem hs hcj hAB hK

theorem clip_flip (hs : Shifts env e) (hcj : Conj env e) (hAB : e.A ≠ e.B) (hK : Keyed (e.build env).dLt pks)
    {x y : ANode P O K → ℂ} (hxy : ∀ n ∈ pks, y (flip n) = starRingEnd ℂ (x n)) (n : ANode P O K) :
    clip pks y (flip n) = starRingEnd ℂ (clip pks x n) := by
  unfold clip
  by_cases hn : n ∈ pks
  · rw [if_pos hn, if_pos (Aom.flip_mem hs hcj hAB hK hn)]; exact hxy n hn
  · rw [if_neg hn, if_neg (fun h => hn ((Aom.flip_mem_iff hs hcj hAB hK).1 h)), map_zero]

/-- Drives have no equations. -/
theorem Aom.rhs_sig (env : AEnv P O K R V) (e : Aom P R V) (hAB : e.A ≠ e.B) (p : P) (d : K) :
    rhs (e.build env).dLt (sn p d) = [] := by
  rw [(e.build_spec env hAB).2.1]
  rw [List.map_eq_nil_iff, List.filter_eq_nil_iff]
  intro T _ h
  have := (of_decide_eq_true h).2
  exact nomatch (Prod.ext_iff.1 this).2

/-- Every node of light is an output of an arm. -/
theorem arm_of {e : Aom P R V} {p : P} (hp : p ∈ [e.A, e.B]) : ∃ a ∈ e.arms, a.portO = p := by
  simp only [List.mem_cons, List.not_mem_nil, or_false] at hp
  rcases hp with rfl | rfl
  · exact ⟨⟨e.B, e.oB, e.A, e.oA, -e.dir⟩, by simp [Aom.arms], rfl⟩
  · exact ⟨⟨e.A, e.oA, e.B, e.oB, e.dir⟩, by simp [Aom.arms], rfl⟩

theorem Aom.nodes (hs : Shifts env e) (hAB : e.A ≠ e.B) (hK : Keyed (e.build env).dLt pks) {n : ANode P O K} (hn : n ∈ pks) :
    (∃ p ∈ [e.A, e.B], ∃ k ∈ env.okeys p, n = on p k) ∨ ∃ d, n = sn e.Drv d := by
  obtain ⟨-, -, -, h4⟩ := e.build_spec env hAB
  obtain ⟨T, hT, hm, h⟩ := (h4 n).1 ((hK.mem n).1 hn)
  obtain ⟨ha, hk, hd⟩ := mem_turns.1 hT
  rcases h with rfl | rfl | rfl
  · exact Or.inl ⟨_, (arm_ports ha).1, _, hk, rfl⟩
  · exact Or.inr ⟨_, rfl⟩
  · exact Or.inl ⟨_, (arm_ports ha).2, _, hs.closed _ ha _ hk _ hd hm, rfl⟩

/-- Conjugating everything does not change the equations of the modulator. -/
theorem Aom.mirror (hs : Shifts env e) (hcj : Conj env e) (hAB : e.A ≠ e.B) {γ : ℝ} (hi : env.i = Complex.I)
    (hγ : e.rate = γ) (hK : Keyed (e.build env).dLt pks) : Mirror (e.build env).dLt pks flip := by
  refine ⟨fun n hn => Aom.flip_mem hs hcj hAB hK hn, fun n _ => flip_flip n, ?_⟩
  intro x y hxy n hn
  rw [poly_congr hK (x := y) (y := clip pks y) fun k hk => (clip_mem hk).symm,
    poly_congr hK (x := x) (y := clip pks x) fun k hk => (clip_mem hk).symm]
  have hc := clip_flip hs hcj hAB hK hxy
  rcases Aom.nodes hs hAB hK hn with ⟨p, hp, k, hk, rfl⟩ | ⟨d, rfl⟩
  · obtain ⟨a, ha, rfl⟩ := arm_of hp
    rw [flip_on, Aom.poly_arm hs hAB ha, Aom.poly_arm hs hAB ha, map_sum]
    refine Finset.sum_nbij' OKey.conj OKey.conj ?_ ?_ (fun a _ => conj2 a) (fun a _ => conj2 a) ?_
    · intro k' hk'
      rw [List.mem_toFinset] at hk' ⊢
      exact hcj _ (arm_ports ha).1 _ hk'
    · intro k' hk'
      rw [List.mem_toFinset] at hk' ⊢
      exact hcj _ (arm_ports ha).1 _ hk'
    · intro k' hk'
      rw [map_sum]
      refine Finset.sum_nbij' (fun d => -d) (fun d => -d) ?_ ?_ (fun a _ => neg_neg a) (fun a _ => neg_neg a) ?_
      · intro d hd
        rw [List.mem_toFinset] at hd ⊢
        exact hs.neg _ hd
      · intro d hd
        rw [List.mem_toFinset] at hd ⊢
        exact hs.neg _ hd
      · intro d _
        rw [apply_ite (starRingEnd ℂ), map_zero, meets_conj hs.center, shift_conj]
        have hat : k'.conj.at (shift k' d) = k ↔ k'.at (shift k' d) = k.conj := by
          constructor
          · rintro rfl; rw [← conj2 (k'.at (shift k' d))]; rfl
          · intro h
            rw [← conj2 k, ← h]; rfl
        have hG : e.G env k'.q = starRingEnd ℂ (e.G env k'.conj.q) := by
          unfold Aom.G OKey.conj
          rw [hi, hγ]
          cases k'.q <;> simp [Quantum.conj]
        refine if_congr (and_congr_right fun _ => hat.symm) ?_ rfl
        rw [map_mul, map_mul, ← hc, ← hc, hG, flip_on, flip_sn, conj2, neg_neg]
  · rw [flip_sn, Aom.rhs_sig env e hAB, Aom.rhs_sig env e hAB]
    simp [poly]

/-- Nothing feeds the total of light and drives. -/
theorem Aom.rate_zero (hs : Shifts env e) (hcj : Conj env e) (hAB : e.A ≠ e.B) {γ : ℝ} (hi : env.i = Complex.I)
    (hγ : e.rate = γ) (hK : Keyed (e.build env).dLt pks) {x : ANode P O K → ℂ}
    (hx : ∀ n ∈ pks, x (flip n) = starRingEnd ℂ (x n)) :
    (pks.map fun n => 2 * (starRingEnd ℂ (x n) * poly (rhs (e.build env).dLt n) x).re).sum = 0 := by
  have hc := clip_flip hs hcj hAB hK hx
  have hmir := Aom.mirror hs hcj hAB hi hγ hK
  set y := clip pks x with hy
  have e1 : (pks.map fun n => 2 * (starRingEnd ℂ (x n) * poly (rhs (e.build env).dLt n) x).re)
      = pks.map fun n => 2 * (starRingEnd ℂ (y n) * poly (rhs (e.build env).dLt n) y).re := by
    refine List.map_congr_left fun n hn => ?_
    rw [hy, clip_mem hn, poly_congr hK (x := x) (y := clip pks x) fun k hk => (clip_mem hk).symm]
  rw [e1]
  set F : ANode P O K → ℝ := fun n => 2 * (starRingEnd ℂ (y n) * poly (rhs (e.build env).dLt n) y).re with hF
  have hF0 : ∀ n, n ∉ pks → F n = 0 := by
    intro n hn
    rw [hF]
    dsimp only
    rw [rhs_absent hK hn]; simp [poly]
  have hFs : ∀ d, F (sn e.Drv d) = 0 := by
    intro d
    rw [hF]
    dsimp only
    rw [Aom.rhs_sig env e hAB]; simp [poly]
  have hFc : ∀ n, F (flip n) = F n := by
    intro n
    by_cases hn : n ∈ pks
    · rw [hF]
      dsimp only
      rw [hmir.eqs y y (fun k _ => hc k) n hn, hc, ← map_mul, Complex.conj_re]
    · rw [hF0 n hn, hF0 _ fun h => hn ((Aom.flip_mem_iff hs hcj hAB hK).1 h)]
  have hon : ∀ (p p' : P) (k k' : OKey O K), on p k = on p' k' → p = p' ∧ k = k' := by
    intro p p' k k' h
    obtain ⟨h1, h2⟩ := Prod.ext_iff.1 h
    exact ⟨h1, by injection h2⟩
  set U := ((env.okeys e.A).toFinset.image (on e.A)) ∪ ((env.okeys e.B).toFinset.image (on e.B)) with hU
  have hsum : (pks.map F).sum = ∑ n ∈ U, F n := by
    rw [← List.sum_toFinset F hK.nodup]
    have a1 : ∑ n ∈ pks.toFinset, F n = ∑ n ∈ pks.toFinset ∪ U, F n :=
      Finset.sum_subset Finset.subset_union_left fun n _ hn => hF0 n fun h => hn (List.mem_toFinset.2 h)
    have a2 : ∑ n ∈ U, F n = ∑ n ∈ pks.toFinset ∪ U, F n := by
      refine Finset.sum_subset Finset.subset_union_right fun n hn hn' => ?_
      rcases Finset.mem_union.1 hn with hn | hn
      · rcases Aom.nodes hs hAB hK (List.mem_toFinset.1 hn) with ⟨p, hp, k, hk, rfl⟩ | ⟨d, rfl⟩
        · exfalso
          apply hn'
          simp only [List.mem_cons, List.not_mem_nil, or_false] at hp
          rw [hU]
          rcases hp with rfl | rfl
          · exact Finset.mem_union_left _ (Finset.mem_image.2 ⟨k, List.mem_toFinset.2 hk, rfl⟩)
          · exact Finset.mem_union_right _ (Finset.mem_image.2 ⟨k, List.mem_toFinset.2 hk, rfl⟩)
        · exact hFs d
      · exact absurd hn hn'
    rw [a1, a2]
  have hport : ∀ p ∈ [e.A, e.B], ∑ n ∈ (env.okeys p).toFinset.image (on p), F n = 2 * ∑ k ∈ lowerA env p, F (on p k) := by
    intro p hp
    rw [Finset.sum_image fun a _ b _ h => (hon _ _ _ _ h).2,
      ← Finset.sum_filter_add_sum_filter_not _ (fun k : OKey O K => k.q = .lower), two_mul]
    congr 1
    refine Finset.sum_nbij' OKey.conj OKey.conj ?_ ?_ (fun a _ => conj2 a) (fun a _ => conj2 a) ?_
    · intro b hb
      rw [Finset.mem_filter, List.mem_toFinset] at hb
      exact mem_lowerA.2 ⟨hcj p hp _ hb.1, by simp only [OKey.conj, Quantum.eq_raise hb.2]; rfl⟩
    · intro b hb
      rw [mem_lowerA] at hb
      rw [Finset.mem_filter, List.mem_toFinset]
      exact ⟨hcj p hp _ hb.1, by simp only [OKey.conj, hb.2]; exact fun h => nomatch h⟩
    · intro b _
      rw [← flip_on, hFc]
  rw [hsum, hU, Finset.sum_union, hport _ (by simp), hport _ (by simp), ← mul_add]
  · have := Aom.power_rate hs hAB hi hγ (x := y) (fun d => hc (sn e.Drv d))
    rw [this, mul_zero]
  · rw [Finset.disjoint_left]
    intro n h1 h2
    obtain ⟨k, -, rfl⟩ := Finset.mem_image.1 h1
    obtain ⟨k', -, h⟩ := Finset.mem_image.1 h2
    exact hAB (hon _ _ _ _ h).1.symm

end

/-! ## C103: power -/

/-- The nodes of the lower sidebands of light. -/
def isLow (n : ANode P O K) : Bool :=
  match n.2 with
  | .opt k => decide (k.q = .lower)
  | .sig _ => false

/-- The nodes of the drive. -/
def isSig (n : ANode P O K) : Bool :=
  match n.2 with
  | .opt _ => false
  | .sig _ => true

/-- The power of the light, from its lower sidebands. -/
noncomputable def lightPower (pks : List (ANode P O K)) (x : ANode P O K → ℂ) : ℝ := total (pks.filter isLow) x

/-- The fields that an updated coupling emits, written at the nodes of the inputs. -/
noncomputable def Aom.outs (e : Aom P (S → ℂ) V) (st' : State (ANode P O K) (S → ℂ)) (pks : List (ANode P O K))
    (sol : Dict (ANode P O K) (S → ℂ)) (s : S) (n : ANode P O K) : ℂ :=
  match e.outOf n with
  | some q => st'.emits pks id q (fed sol id) s
  | none => 0

variable {env : AEnv P O K (S → ℂ) V} {e : Aom P (S → ℂ) V} {pks : List (ANode P O K)}

theorem Aom.limit (hAB : e.A ≠ e.B) (hO : e.oA ≠ e.oB) (hK : Keyed (e.build env).dLt pks) (s : S)
    (sol : Dict (ANode P O K) (S → ℂ)) {φ : ℝ → ANode P O K → ℂ} (hφ0 : ∀ n ∈ pks, φ 0 n = fed sol id n s)
    (hφ : ∀ t ∈ Set.Icc (0 : ℝ) 1, ∀ n ∈ pks,
      HasDerivWithinAt (fun t => φ t n) (poly (rhs (eqAt s (e.build env).dLt) n) (φ t)) (Set.Icc 0 1) t) :
    ∃ C : ℝ, 0 ≤ C ∧ ∃ N₀ : ℕ, ∀ N : ℕ, N₀ ≤ N →
      ∀ o, init (e.build env).dLt (e.build env).in_map (e.build env).out_map N pks = .ok o → ∀ moved st,
      (∃ n ∈ pks, moved (fed sol id n) ((Dict.get? st.vals_prev n).getD 0) = true) →
      ∃ st', o.generate_solution moved st sol = .ok st' ∧
        (∀ p k, (p, .opt k) ∈ pks → ‖e.outs st' pks sol s (p, .opt k) - φ 1 (p, .opt k)‖ ≤ C / N) ∧
        |lightPower pks (e.outs st' pks sol s) - lightPower pks (φ 1)| ≤ C / N := by
  obtain ⟨C, N₀, h⟩ := integrate_limit (hK.eqAt s) hφ
  set l := pks.filter isLow with hl
  set D := l.length * (2 * (total l (φ 1) + 1) + |C|) with hD
  have hD0 : 0 ≤ D := by
    have := total_nonneg l (φ 1)
    positivity
  refine ⟨max |C| (D * |C|), le_max_of_le_left (abs_nonneg _), max N₀ 1,
    fun N hN o ho moved st hmoved => ?_⟩
  obtain ⟨st', h0, h1⟩ := generate_emits hK ho (e.mapped env hAB hO hK) moved st sol hmoved
  have hN0 : (1 : ℝ) ≤ N := by
    have : 1 ≤ N := (le_max_right _ _).trans hN
    exact_mod_cast this
  have hCN : |C| / N ≤ |C| := div_le_self (abs_nonneg _) hN0
  have hnear : ∀ p k, (p, .opt k) ∈ pks → ‖e.outs st' pks sol s (p, .opt k) - φ 1 (p, .opt k)‖ ≤ |C| / N := by
    intro p k hn
    have h2 := h N ((le_max_left _ _).trans hN) _ hn
    have h3 : integrate (eqAt s (e.build env).dLt) N pks (φ 0) (p, .opt k)
        = integrate (e.build env).dLt N pks (fed sol id) (p, .opt k) s := by
      rw [← integrate_at s (e.build env).dLt N pks (fed sol id)]
      have h4 := integrate2_congr (hK.eqAt s) N (p := (φ 0, fun _ => 0)) (p' := (fun n => fed sol id n s, fun _ => 0))
        (fun n hn => ⟨hφ0 n hn, rfl⟩) _ hn
      have h5 := h4.1
      rw [integrate2_fst, integrate2_fst] at h5
      exact h5
    rw [h3] at h2
    unfold Aom.outs
    obtain ⟨q, hq⟩ : ∃ q, e.outOf ((p, .opt k) : ANode P O K) = some q := by
      unfold Aom.outOf
      dsimp only
      split_ifs
      · exact ⟨_, rfl⟩
      · exact ⟨_, rfl⟩
    rw [hq]
    dsimp only
    rw [congrFun (h1 _ hn q hq) s]
    exact h2.trans (div_le_div_of_nonneg_right (le_abs_self C) (by linarith))
  refine ⟨st', h0, fun p k hn => (hnear p k hn).trans (div_le_div_of_nonneg_right (le_max_left _ _) (by linarith)), ?_⟩
  unfold lightPower
  refine (total_near l (d := |C| / N) (D := |C|) (by positivity) hCN ?_).trans ?_
  · rintro ⟨p, k | d⟩ hn
    · exact hnear p k (List.mem_filter.1 hn).1
    · have := (List.mem_filter.1 hn).2
      exact nomatch this
  rw [← mul_div_assoc]
  exact div_le_div_of_nonneg_right (le_max_right _ _) (by linarith)

/-- **C103**: Light and a drive that enter in conjugate pairs: the light leaves with the same power, up to `C / N` for the
number `N` of steps, and in conjugate pairs, again up to `C / N`. -/
theorem C103_power (hs : Shifts env e) (hcj : Conj env e) (hAB : e.A ≠ e.B) (hO : e.oA ≠ e.oB) (s : S) {γ : ℝ}
    (hi : env.i s = Complex.I) (hγ : e.rate s = γ) (hK : Keyed (e.build env).dLt pks)
    (sol : Dict (ANode P O K) (S → ℂ)) (hsol : ∀ n ∈ pks, fed sol id (flip n) s = starRingEnd ℂ (fed sol id n s)) :
    ∃ C : ℝ, ∃ N₀ : ℕ, ∀ N : ℕ, N₀ ≤ N →
      ∀ o, init (e.build env).dLt (e.build env).in_map (e.build env).out_map N pks = .ok o → ∀ moved st,
      (∃ n ∈ pks, moved (fed sol id n) ((Dict.get? st.vals_prev n).getD 0) = true) →
      ∃ st', o.generate_solution moved st sol = .ok st' ∧
        |lightPower pks (e.outs st' pks sol s) - lightPower pks (fun n => fed sol id n s)| ≤ C / N ∧
        ∀ p k, (p, .opt k) ∈ pks →
          ‖e.outs st' pks sol s (p, .opt k.conj) - starRingEnd ℂ (e.outs st' pks sol s (p, .opt k))‖ ≤ C / N := by
  have hKs : Keyed ((e.pt s).build (env.pt s)).dLt pks := by rw [Aom.build_pt]; exact hK.eqAt s
  have hss := hs.pt s
  have hcs : Conj (env.pt s) (e.pt s) := hcj
  have hABs : (e.pt s).A ≠ (e.pt s).B := hAB
  have hmir := Aom.mirror hss hcs hABs hi hγ hKs
  obtain ⟨φ, hφ0, hφ, hpair, hconst⟩ := hmir.solution hKs
    (fun x hx => Aom.rate_zero hss hcs hABs hi hγ hKs hx) (x₀ := fun n => fed sol id n s) hsol
  obtain ⟨C, hC, N₀, h⟩ := Aom.limit hAB hO hK s sol (fun n _ => congrFun hφ0 n)
    (fun t ht n hn => by rw [← Aom.build_pt]; exact hφ t ht n hn)
  have hdrive : ∀ d, sn e.Drv d ∈ pks → φ 1 (sn e.Drv d) = fed sol id (sn e.Drv d) s := by
    intro d hd
    have hz : ∀ t ∈ Set.Icc (0 : ℝ) 1, HasDerivWithinAt (fun t => φ t (sn e.Drv d)) 0 (Set.Icc 0 1) t := by
      intro t ht
      have := hφ t ht _ hd
      rw [Aom.rhs_sig (env.pt s) (e.pt s) hABs] at this
      simpa [poly] using this
    have := constant_of_derivWithin_zero (f := fun t => φ t (sn e.Drv d)) (a := 0) (b := 1)
      (fun t ht => (hz t ht).differentiableWithinAt)
      (fun t ht => (hz t ⟨ht.1, ht.2.le⟩).derivWithin (uniqueDiffOn_Icc zero_lt_one t ⟨ht.1, ht.2.le⟩)) 1 (by simp)
    rw [this, hφ0]
  have hsplit : ∀ x : ANode P O K → ℂ, (∀ n ∈ pks, x (flip n) = starRingEnd ℂ (x n)) →
      (∀ d, sn e.Drv d ∈ pks → x (sn e.Drv d) = fed sol id (sn e.Drv d) s) →
      total pks x = 2 * lightPower pks x + ∑ n ∈ pks.toFinset.filter (fun n => isSig n = true), ‖fed sol id n s‖ ^ 2 := by
    classical
    intro x hx hd
    unfold lightPower total
    rw [← List.sum_toFinset _ hK.nodup, ← List.sum_toFinset _ (hK.nodup.filter _),
      ← Finset.sum_filter_add_sum_filter_not pks.toFinset (fun n : ANode P O K => isLow n = true), two_mul, add_assoc]
    have e1 : pks.toFinset.filter (fun n : ANode P O K => isLow n = true) = (pks.filter isLow).toFinset := by
      ext n; simp
    rw [e1]
    congr 1
    rw [← Finset.sum_filter_add_sum_filter_not _ (fun n : ANode P O K => ∃ p k, n = on p k)]
    congr 1
    · refine Finset.sum_nbij' flip flip ?_ ?_ (fun n _ => flip_flip n) (fun n _ => flip_flip n) ?_
      · intro n hn
        simp only [Finset.mem_filter, List.mem_toFinset] at hn
        obtain ⟨⟨h1, h2⟩, p, k, rfl⟩ := hn
        rw [List.mem_toFinset, List.mem_filter]
        refine ⟨hmir.mem _ h1, ?_⟩
        have hq : k.q ≠ .lower := by simpa [isLow, on] using h2
        simp [isLow, on, flip, OKey.conj, Quantum.eq_raise hq, Quantum.conj]
      · intro n hn
        rw [List.mem_toFinset, List.mem_filter] at hn
        obtain ⟨h1, h2⟩ := hn
        obtain ⟨p, k | d⟩ := n
        · simp only [Finset.mem_filter, List.mem_toFinset]
          have hq : k.q = .lower := by simpa [isLow] using h2
          exact ⟨⟨hmir.mem _ h1, by simp [isLow, flip, OKey.conj, hq, Quantum.conj]⟩, p, k.conj, rfl⟩
        · exact nomatch h2
      · intro n hn
        simp only [Finset.mem_filter, List.mem_toFinset] at hn
        rw [hx n hn.1.1, RCLike.norm_conj]
    · refine Finset.sum_congr ?_ ?_
      · ext n
        simp only [Finset.mem_filter, List.mem_toFinset]
        obtain ⟨p, k | d⟩ := n
        · exact ⟨fun h => absurd ⟨p, k, rfl⟩ h.2, fun h => nomatch h.2⟩
        · exact ⟨fun h => ⟨h.1.1, rfl⟩, fun h => ⟨⟨h.1, fun h => nomatch h⟩, fun ⟨p, k, h⟩ => nomatch (Prod.ext_iff.1 h).2⟩⟩
      · intro n hn
        simp only [Finset.mem_filter, List.mem_toFinset] at hn
        obtain ⟨h1, h2⟩ := hn
        rcases Aom.nodes hss hABs hKs h1 with ⟨p, -, k, -, rfl⟩ | ⟨d, rfl⟩
        · exact nomatch h2
        show ‖x (sn e.Drv d)‖ ^ 2 = ‖fed sol id (sn e.Drv d) s‖ ^ 2
        rw [hd d h1]
  refine ⟨2 * C, N₀, fun N hN o ho moved st hmoved => ?_⟩
  obtain ⟨st', h1, h2, h3⟩ := h N hN o ho moved st hmoved
  have hle : C / N ≤ 2 * C / N := div_le_div_of_nonneg_right (by linarith) (Nat.cast_nonneg _)
  refine ⟨st', h1, ?_, fun p k hn => ?_⟩
  · have e1 := hsplit (φ 1) (hpair 1 (by simp)) hdrive
    have e2 := hsplit (fun n => fed sol id n s) hsol (fun _ _ => rfl)
    have e3 := hconst 1 (by simp)
    have : lightPower pks (φ 1) = lightPower pks (fun n => fed sol id n s) := by linarith
    rw [← this]
    exact h3.trans hle
  · have b1 := h2 p k hn
    have b2 := h2 p k.conj (hmir.mem _ hn)
    have b3 : φ 1 (p, .opt k.conj) = starRingEnd ℂ (φ 1 (p, .opt k)) := hpair 1 (by simp) _ hn
    have e1 : e.outs st' pks sol s (p, .opt k.conj) - starRingEnd ℂ (e.outs st' pks sol s (p, .opt k))
        = (e.outs st' pks sol s (p, .opt k.conj) - φ 1 (p, .opt k.conj))
          - starRingEnd ℂ (e.outs st' pks sol s (p, .opt k) - φ 1 (p, .opt k)) := by
      rw [map_sub, b3]; ring
    rw [e1]
    refine (norm_sub_le _ _).trans ?_
    rw [RCLike.norm_conj]
    calc _ ≤ C / N + C / N := add_le_add b2 b1
      _ = _ := by ring

/-! ## C104 -/

/-- The fields of light `a` at the key `k` of the port `A` that a drive of amplitude `D` at the frequency `d` diffracts. -/
noncomputable def diffracted (e : Aom P ℂ V) (k : OKey O K) (d : K) (θ : ℝ) (a D : ℂ) (t : ℝ) (n : ANode P O K) : ℂ :=
  if n = on e.A k then (Real.cos (θ * t) : ℂ) * a
  else if n = on e.A k.conj then starRingEnd ℂ ((Real.cos (θ * t) : ℂ) * a)
  else if n = on e.B (k.at (k.cls + d)) then -Complex.I * (D / ‖D‖) * ((Real.sin (θ * t) : ℂ) * a)
  else if n = on e.B (k.at (k.cls + d)).conj then starRingEnd ℂ (-Complex.I * (D / ‖D‖) * ((Real.sin (θ * t) : ℂ) * a))
  else if n = sn e.Drv d then D
  else if n = sn e.Drv (-d) then starRingEnd ℂ D
  else 0

section
variable {env : AEnv P O K ℂ V} {e : Aom P ℂ V} {pks : List (ANode P O K)}

theorem on_inj {p p' : P} {k k' : OKey O K} : on p k = on p' k' ↔ p = p' ∧ k = k' := by
  constructor
  · intro h
    obtain ⟨h1, h2⟩ := Prod.ext_iff.1 h
    exact ⟨h1, by injection h2⟩
  · rintro ⟨rfl, rfl⟩; rfl

theorem on_ne_sn {p p' : P} {k : OKey O K} {d : K} : on p k ≠ sn p' d := fun h => nomatch (Prod.ext_iff.1 h).2

theorem sn_inj {p : P} {d d' : K} : (sn p d : ANode P O K) = sn p d' ↔ d = d' := by
  constructor
  · intro h
    obtain ⟨h1, h2⟩ := Prod.ext_iff.1 h
    injection h2
  · rintro rfl; rfl

theorem conj_ne {k k' : OKey O K} (h : k.q = k'.q) : k ≠ k'.conj := by
  intro h'
  have := congrArg OKey.q h'
  rw [h] at this
  exact Quantum.conj_ne _ this.symm

/-- The diffracted fields solve the equations of the modulator. -/
theorem diffracted_solves (hs : Shifts env e) (hcj : Conj env e) (hAB : e.A ≠ e.B) {γ : ℝ} (hi : env.i = Complex.I)
    (hγ : e.rate = γ) (hK : Keyed (e.build env).dLt pks) (hsplit : 0 ≤ e.freq_split_Hz) {k : OKey O K} (hk : k ∈ env.okeys e.A)
    (hq : k.q = .lower) {d : K} (hd : d ∈ env.skeys e.Drv) (hrej : env.reject (k.cls + d) = false)
    (hfar : e.freq_split_Hz < env.center d * e.dir) (a D : ℂ) (t : ℝ) :
    ∀ n ∈ pks, HasDerivAt (fun t => diffracted e k d (γ * ‖D‖) a D t n)
      (poly (rhs (e.build env).dLt n) (diffracted e k d (γ * ‖D‖) a D t)) t := by
  set θ := γ * ‖D‖ with hθ
  set φ := diffracted e k d θ a D with hφ
  set k1 := k.at (k.cls + d) with hk1
  have hq1 : k1.q = .lower := hq
  have hsh : shift k d = k.cls + d := by unfold shift; rw [hq]
  have hdd : d ≠ -d := by
    intro h
    have h1 : env.center d = -env.center d := by conv_lhs => rw [h, hs.center]
    have h2 : env.center d = 0 := by linarith
    rw [h2, zero_mul] at hfar
    exact absurd hfar (not_lt.2 hsplit)
  have hDD : D / (‖D‖ : ℂ) * (‖D‖ : ℂ) = D := by
    by_cases hD : D = 0
    · simp [hD]
    · rw [div_mul_cancel₀]
      exact_mod_cast norm_ne_zero_iff.2 hD
  have hDc : starRingEnd ℂ D * (D / (‖D‖ : ℂ)) = (‖D‖ : ℂ) := by
    by_cases hD : D = 0
    · simp [hD]
    · have : (‖D‖ : ℂ) ≠ 0 := by exact_mod_cast norm_ne_zero_iff.2 hD
      rw [← mul_div_assoc, Complex.conj_mul', sq, mul_div_assoc, div_self this, mul_one]
  -- the values
  have vA : ∀ t, φ t (on e.A k) = (Real.cos (θ * t) : ℂ) * a := fun t => if_pos rfl
  have vA' : ∀ t, φ t (on e.A k.conj) = starRingEnd ℂ ((Real.cos (θ * t) : ℂ) * a) := by
    intro t
    rw [hφ]; unfold diffracted
    rw [if_neg fun h => conj_ne rfl (on_inj.1 h).2.symm, if_pos rfl]
  have vB : ∀ t, φ t (on e.B k1) = -Complex.I * (D / ‖D‖) * ((Real.sin (θ * t) : ℂ) * a) := by
    intro t
    rw [hφ]; unfold diffracted
    rw [if_neg fun h => hAB (on_inj.1 h).1.symm, if_neg fun h => hAB (on_inj.1 h).1.symm, if_pos rfl]
  have vB' : ∀ t, φ t (on e.B k1.conj) = starRingEnd ℂ (-Complex.I * (D / ‖D‖) * ((Real.sin (θ * t) : ℂ) * a)) := by
    intro t
    rw [hφ]; unfold diffracted
    rw [if_neg fun h => hAB (on_inj.1 h).1.symm, if_neg fun h => hAB (on_inj.1 h).1.symm,
      if_neg fun h => conj_ne rfl (on_inj.1 h).2.symm, if_pos rfl]
  have vD : ∀ t d', φ t (sn e.Drv d') = if d' = d then D else if d' = -d then starRingEnd ℂ D else 0 := by
    intro t d'
    rw [hφ]; unfold diffracted
    rw [if_neg on_ne_sn.symm, if_neg on_ne_sn.symm, if_neg on_ne_sn.symm, if_neg on_ne_sn.symm]
    refine if_congr sn_inj rfl (if_congr sn_inj rfl rfl)
  have vA0 : ∀ t k', k' ≠ k → k' ≠ k.conj → φ t (on e.A k') = 0 := by
    intro t k' h1 h2
    rw [hφ]; unfold diffracted
    rw [if_neg fun h => h1 (on_inj.1 h).2, if_neg fun h => h2 (on_inj.1 h).2, if_neg fun h => hAB (on_inj.1 h).1,
      if_neg fun h => hAB (on_inj.1 h).1, if_neg on_ne_sn, if_neg on_ne_sn]
  have vB0 : ∀ t k', k' ≠ k1 → k' ≠ k1.conj → φ t (on e.B k') = 0 := by
    intro t k' h1 h2
    rw [hφ]; unfold diffracted
    rw [if_neg fun h => hAB (on_inj.1 h).1.symm, if_neg fun h => hAB (on_inj.1 h).1.symm,
      if_neg fun h => h1 (on_inj.1 h).2, if_neg fun h => h2 (on_inj.1 h).2, if_neg on_ne_sn, if_neg on_ne_sn]
  have hmirr : ∀ t, ∀ n ∈ pks, φ t (flip n) = starRingEnd ℂ (φ t n) := by
    intro t n hn
    rcases Aom.nodes hs hAB hK hn with ⟨p, hp, k', -, rfl⟩ | ⟨d', rfl⟩
    · rw [flip_on]
      simp only [List.mem_cons, List.not_mem_nil, or_false] at hp
      rcases hp with rfl | rfl
      · by_cases h1 : k' = k
        · subst h1; rw [vA, vA']
        by_cases h2 : k' = k.conj
        · subst h2; rw [conj2, vA, vA', Complex.conj_conj]
        rw [vA0 t k' h1 h2, vA0 t k'.conj, map_zero]
        · intro h; apply h2; rw [← h, conj2]
        · intro h; apply h1; rw [← conj2 k', h, conj2]
      · by_cases h1 : k' = k1
        · subst h1; rw [vB, vB']
        by_cases h2 : k' = k1.conj
        · subst h2; rw [conj2, vB, vB', Complex.conj_conj]
        rw [vB0 t k' h1 h2, vB0 t k'.conj, map_zero]
        · intro h; apply h2; rw [← h, conj2]
        · intro h; apply h1; rw [← conj2 k', h, conj2]
    · rw [flip_sn, vD, vD]
      by_cases h1 : d' = d
      · subst h1; rw [if_neg hdd.symm, if_pos rfl, if_pos rfl]
      by_cases h2 : d' = -d
      · subst h2; rw [neg_neg, if_pos rfl, if_neg hdd.symm, if_pos rfl, Complex.conj_conj]
      rw [if_neg h1, if_neg h2, if_neg, if_neg, map_zero]
      · intro h; exact h1 (neg_injective h)
      · intro h; apply h2; rw [← h, neg_neg]
  have hlive : env.reject k.cls = false := hs.live e.A (by simp) k hk
  -- the sums
  have sB : ∀ k', k'.q = .lower → poly (rhs (e.build env).dLt (on e.B k')) (φ t)
      = if k1 = k' then -Complex.I * γ * (φ t (on e.A k) * D) else 0 := by
    intro k' hk'
    have := Aom.poly_arm hs hAB (a := ⟨e.A, e.oA, e.B, e.oB, e.dir⟩) (by simp [Aom.arms]) k' (φ t)
    dsimp only at this
    rw [this, Finset.sum_eq_single k, Finset.sum_eq_single d]
    · have hm : e.meets env ⟨e.A, e.oA, e.B, e.oB, e.dir⟩ k d = true := by
        unfold Aom.meets
        rw [hsh, hrej, hq]
        simpa [negOf] using hfar
      rw [hsh, hm, vD, if_pos rfl, hq]
      refine if_congr (by rw [← hk1]; simp) ?_ rfl
      simp only [Aom.G, hi, hγ]
    · intro d' _ hd'
      by_cases h2 : d' = -d
      · subst h2
        rw [if_neg]
        rintro ⟨hm, -⟩
        unfold Aom.meets at hm
        rw [hq, hs.center] at hm
        simp only [Bool.and_eq_true, decide_eq_true_eq, negOf, one_mul] at hm
        linarith [hm.2]
      · rw [vD, if_neg hd', if_neg h2]; simp
    · intro h; exact absurd (List.mem_toFinset.2 hd) h
    · intro k'' _ hk''
      refine Finset.sum_eq_zero fun d' _ => ?_
      by_cases h : e.meets env ⟨e.A, e.oA, e.B, e.oB, e.dir⟩ k'' d' = true ∧ k''.at (shift k'' d') = k'
      · have hq'' : k''.q = k.q := by
          have := congrArg OKey.q h.2
          rw [hk'] at this
          rw [hq]; exact this
        rw [if_pos h, vA0 t k'' hk'' (conj_ne hq'')]; simp
      · rw [if_neg h]
    · intro h; exact absurd (List.mem_toFinset.2 hk) h
  have hk1mem : k1 ∈ env.okeys e.B := by
    have := hs.closed ⟨e.A, e.oA, e.B, e.oB, e.dir⟩ (by simp [Aom.arms]) k hk d hd (by
      unfold Aom.meets
      rw [hsh, hrej, hq]
      simpa [negOf] using hfar)
    rwa [hsh] at this
  have sA : ∀ k', k'.q = .lower → poly (rhs (e.build env).dLt (on e.A k')) (φ t)
      = if k = k' then -Complex.I * γ * (φ t (on e.B k1) * starRingEnd ℂ D) else 0 := by
    intro k' hk'
    have hsh1 : shift k1 (-d) = k.cls := by
      unfold shift; rw [hq1]
      simp [hk1, OKey.at]
    have hback : k1.at k.cls = k := by
      rw [hk1]; rfl
    have := Aom.poly_arm hs hAB (a := ⟨e.B, e.oB, e.A, e.oA, -e.dir⟩) (by simp [Aom.arms]) k' (φ t)
    dsimp only at this
    rw [this, Finset.sum_eq_single k1, Finset.sum_eq_single (-d)]
    · have hm : e.meets env ⟨e.B, e.oB, e.A, e.oA, -e.dir⟩ k1 (-d) = true := by
        unfold Aom.meets
        rw [hsh1, hlive, hq1, hs.center]
        simpa [negOf] using hfar
      rw [hsh1, hm, hback, vD, if_neg hdd.symm, if_pos rfl, hq1]
      refine if_congr (by simp) ?_ rfl
      simp only [Aom.G, hi, hγ]
    · intro d' _ hd'
      by_cases h2 : d' = d
      · subst h2
        rw [if_neg]
        rintro ⟨hm, -⟩
        unfold Aom.meets at hm
        rw [hq1] at hm
        simp only [Bool.and_eq_true, decide_eq_true_eq, negOf, one_mul, mul_neg] at hm
        linarith [hm.2]
      · rw [vD, if_neg h2, if_neg hd']; simp
    · intro h; exact absurd (List.mem_toFinset.2 (hs.neg _ hd)) h
    · intro k'' _ hk''
      refine Finset.sum_eq_zero fun d' _ => ?_
      by_cases h : e.meets env ⟨e.B, e.oB, e.A, e.oA, -e.dir⟩ k'' d' = true ∧ k''.at (shift k'' d') = k'
      · have hq'' : k''.q = k1.q := by
          have := congrArg OKey.q h.2
          rw [hk'] at this
          rw [hq1]; exact this
        rw [if_pos h, vB0 t k'' hk'' (conj_ne hq'')]; simp
      · rw [if_neg h]
    · intro h; exact absurd (List.mem_toFinset.2 hk1mem) h
  have hcos : HasDerivAt (fun t : ℝ => (Real.cos (θ * t) : ℂ)) ((-Real.sin (θ * t) * θ : ℝ) : ℂ) t := by
    refine HasDerivAt.ofReal_comp (f := fun t => Real.cos (θ * t)) ?_
    have := ((hasDerivAt_id t).const_mul θ).cos
    simpa using this
  have hsin : HasDerivAt (fun t : ℝ => (Real.sin (θ * t) : ℂ)) ((Real.cos (θ * t) * θ : ℝ) : ℂ) t := by
    refine HasDerivAt.ofReal_comp (f := fun t => Real.sin (θ * t)) ?_
    have := ((hasDerivAt_id t).const_mul θ).sin
    simpa using this
  have hlow : ∀ p ∈ [e.A, e.B], ∀ k', k'.q = .lower →
      HasDerivAt (fun t => φ t (on p k')) (poly (rhs (e.build env).dLt (on p k')) (φ t)) t := by
    intro p hp k' hk'
    simp only [List.mem_cons, List.not_mem_nil, or_false] at hp
    rcases hp with rfl | rfl
    · rw [sA k' hk']
      by_cases h1 : k = k'
      · subst h1
        rw [if_pos rfl, vB]
        have : (fun t => φ t (on e.A k)) = fun t : ℝ => (Real.cos (θ * t) : ℂ) * a := funext vA
        rw [this]
        refine (hcos.mul_const a).congr_deriv ?_
        have hI : Complex.I * Complex.I = -1 := Complex.I_mul_I
        have e1 : -Complex.I * γ * (-Complex.I * (D / ‖D‖) * ((Real.sin (θ * t) : ℂ) * a) * starRingEnd ℂ D)
            = (Complex.I * Complex.I) * γ * (starRingEnd ℂ D * (D / ‖D‖)) * ((Real.sin (θ * t) : ℂ) * a) := by ring
        rw [e1, hI, hDc, hθ]
        push_cast
        ring
      · rw [if_neg h1]
        have : (fun t => φ t (on e.A k')) = fun _ => 0 :=
          funext fun t => vA0 t k' (Ne.symm h1) (conj_ne (by rw [hk', hq]))
        rw [this]
        exact hasDerivAt_const _ _
    · rw [sB k' hk']
      by_cases h1 : k1 = k'
      · subst h1
        rw [if_pos rfl, vA]
        have : (fun t => φ t (on e.B k1)) = fun t : ℝ => -Complex.I * (D / ‖D‖) * ((Real.sin (θ * t) : ℂ) * a) := funext vB
        rw [this]
        refine ((hsin.mul_const a).const_mul _).congr_deriv ?_
        have e1 : -Complex.I * (D / ‖D‖) * (((Real.cos (θ * t) * θ : ℝ) : ℂ) * a)
            = -Complex.I * γ * ((Real.cos (θ * t) : ℂ) * a * (D / ‖D‖ * ‖D‖)) := by
          rw [hθ]; push_cast; ring
        rw [e1, hDD]
      · rw [if_neg h1]
        have : (fun t => φ t (on e.B k')) = fun _ => 0 :=
          funext fun t => vB0 t k' (Ne.symm h1) (conj_ne (by rw [hk', hq1]))
        rw [this]
        exact hasDerivAt_const _ _
  intro n hn
  rcases Aom.nodes hs hAB hK hn with ⟨p, hp, k', -, rfl⟩ | ⟨d', rfl⟩
  · by_cases hk' : k'.q = .lower
    · exact hlow p hp k' hk'
    · have hk'' : k'.conj.q = .lower := by simp only [OKey.conj, Quantum.eq_raise hk']; rfl
      have hmem := Aom.flip_mem hs hcj hAB hK hn
      rw [flip_on] at hmem
      have h1 := hlow p hp k'.conj hk''
      have h2 := (Complex.conjCLE.toContinuousLinearMap.hasFDerivAt (x := φ t (on p k'.conj))).comp_hasDerivAt t h1
      have h3 : (fun t => φ t (on p k')) = fun t => starRingEnd ℂ (φ t (on p k'.conj)) := by
        funext t
        have := hmirr t _ hmem
        rw [flip_on, conj2] at this
        exact this
      rw [h3]
      refine HasDerivAt.congr_deriv h2 ?_
      have := (Aom.mirror hs hcj hAB hi hγ hK).eqs (φ t) (φ t) (hmirr t) _ hmem
      rw [flip_on, conj2] at this
      rw [this]
      rfl
  · rw [Aom.rhs_sig env e hAB]
    have : (fun t => φ t (sn e.Drv d')) = fun _ => if d' = d then D else if d' = -d then starRingEnd ℂ D else 0 :=
      funext fun t => vD t d'
    rw [this]
    exact hasDerivAt_const _ _

end

/-- **C104**: Light of amplitude `a` at one port and a single drive of amplitude `D`: behind the modulator the light at its
own frequency tends to `cos (γ |D|) a` and the light at the other port, shifted by the frequency of the drive, to
`-i (D / |D|) sin (γ |D|) a`.  With `γ |D| = π / 2`, a drive of the nominal power, all of it is diffracted. -/
theorem C104_diffracts (hs : Shifts env e) (hcj : Conj env e) (hAB : e.A ≠ e.B) (hO : e.oA ≠ e.oB) (s : S) {γ : ℝ}
    (hi : env.i s = Complex.I) (hγ : e.rate s = γ) (hK : Keyed (e.build env).dLt pks) (hsplit : 0 ≤ e.freq_split_Hz)
    {k : OKey O K} (hk : k ∈ env.okeys e.A) (hq : k.q = .lower) {d : K} (hd : d ∈ env.skeys e.Drv)
    (hrej : env.reject (k.cls + d) = false) (hfar : e.freq_split_Hz < env.center d * e.dir) (a D : ℂ)
    (sol : Dict (ANode P O K) (S → ℂ))
    (hsol : ∀ n ∈ pks, fed sol id n s = if n = on e.A k then a else if n = on e.A k.conj then starRingEnd ℂ a
      else if n = sn e.Drv d then D else if n = sn e.Drv (-d) then starRingEnd ℂ D else 0) :
    ∃ C : ℝ, ∃ N₀ : ℕ, ∀ N : ℕ, N₀ ≤ N →
      ∀ o, init (e.build env).dLt (e.build env).in_map (e.build env).out_map N pks = .ok o → ∀ moved st,
      (∃ n ∈ pks, moved (fed sol id n) ((Dict.get? st.vals_prev n).getD 0) = true) →
      ∃ st', o.generate_solution moved st sol = .ok st' ∧
        ‖st'.emits pks id (on e.oA k) (fed sol id) s - Real.cos (γ * ‖D‖) * a‖ ≤ C / N ∧
        ‖st'.emits pks id (on e.oB (k.at (k.cls + d))) (fed sol id) s
          - -Complex.I * (D / ‖D‖) * (Real.sin (γ * ‖D‖) * a)‖ ≤ C / N := by
  have hKs : Keyed ((e.pt s).build (env.pt s)).dLt pks := by rw [Aom.build_pt]; exact hK.eqAt s
  have hABs : (e.pt s).A ≠ (e.pt s).B := hAB
  have hsolves := diffracted_solves (hs.pt s) (e := e.pt s) (env := env.pt s) hcj hABs hi hγ hKs hsplit hk hq hd hrej hfar a D
  have hA : on e.A k ∈ pks ∧ on e.B (k.at (k.cls + d)) ∈ pks := by
    have hsh : shift k d = k.cls + d := by unfold shift; rw [hq]
    obtain ⟨-, -, -, h4⟩ := e.build_spec env hAB
    have hT : ((⟨e.A, e.oA, e.B, e.oB, e.dir⟩, k, d) : Arm P V × OKey O K × K) ∈ e.turns env :=
      mem_turns.2 ⟨by simp [Aom.arms], hk, hd⟩
    have hm : e.meets env ⟨e.A, e.oA, e.B, e.oB, e.dir⟩ k d = true := by
      unfold Aom.meets
      rw [hsh, hrej, hq]
      simpa [negOf] using hfar
    refine ⟨(hK.mem _).2 ((h4 _).2 ⟨_, hT, hm, Or.inl rfl⟩), (hK.mem _).2 ((h4 _).2 ⟨_, hT, hm, Or.inr (Or.inr ?_)⟩)⟩
    dsimp only
    rw [hsh]
  obtain ⟨C, hC, N₀, h⟩ := Aom.limit hAB hO hK s sol (φ := diffracted (e.pt s) k d (γ * ‖D‖) a D)
    (by
      intro n hn
      rw [hsol n hn]
      unfold diffracted
      refine if_congr Iff.rfl (by simp) (if_congr Iff.rfl (by simp) ?_)
      have hz : -Complex.I * (D / ‖D‖) * ((Real.sin (γ * ‖D‖ * 0) : ℂ) * a) = 0 := by simp
      rw [hz, map_zero]
      by_cases h1 : n = on (e.pt s).B (k.at (k.cls + d))
      · rw [if_pos h1, if_neg, if_neg]
        · intro h; rw [h1] at h; exact on_ne_sn h
        · intro h; rw [h1] at h; exact on_ne_sn h
      rw [if_neg h1]
      by_cases h2 : n = on (e.pt s).B (k.at (k.cls + d)).conj
      · rw [if_pos h2, if_neg, if_neg]
        · intro h; rw [h2] at h; exact on_ne_sn h
        · intro h; rw [h2] at h; exact on_ne_sn h
      rw [if_neg h2]
      rfl)
    (fun t _ n hn => by rw [← Aom.build_pt]; exact (hsolves t n hn).hasDerivWithinAt)
  refine ⟨C, N₀, fun N hN o ho moved st hmoved => ?_⟩
  obtain ⟨st', h1, h2, -⟩ := h N hN o ho moved st hmoved
  refine ⟨st', h1, ?_, ?_⟩
  · have := h2 _ _ hA.1
    have e1 : e.outs st' pks sol s (e.A, .opt k) = st'.emits pks id (on e.oA k) (fed sol id) s := by
      unfold Aom.outs Aom.outOf
      simp only [if_true]
    have e2 : diffracted (e.pt s) k d (γ * ‖D‖) a D 1 (e.A, .opt k) = Real.cos (γ * ‖D‖) * a := by
      show diffracted (e.pt s) k d (γ * ‖D‖) a D 1 (on (e.pt s).A k) = _
      unfold diffracted
      rw [if_pos rfl, mul_one]
    rw [e1, e2] at this
    exact this
  · have := h2 _ _ hA.2
    have e1 : e.outs st' pks sol s (e.B, .opt (k.at (k.cls + d)))
        = st'.emits pks id (on e.oB (k.at (k.cls + d))) (fed sol id) s := by
      unfold Aom.outs Aom.outOf
      simp only [if_neg hAB.symm]
    have e2 : diffracted (e.pt s) k d (γ * ‖D‖) a D 1 (e.B, .opt (k.at (k.cls + d)))
        = -Complex.I * (D / ‖D‖) * (Real.sin (γ * ‖D‖) * a) := by
      show diffracted (e.pt s) k d (γ * ‖D‖) a D 1 (on (e.pt s).B (k.at (k.cls + d))) = _
      unfold diffracted
      rw [if_neg fun h => hABs (on_inj.1 h).1.symm, if_neg fun h => hABs (on_inj.1 h).1.symm, if_pos rfl, mul_one]
    rw [e1, e2] at this
    exact this

end Ode
