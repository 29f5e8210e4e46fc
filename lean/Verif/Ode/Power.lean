import Verif.Ode.Crystal
import Verif.Ode.Exist

/-!
# Power and conjugate pairs in the crystal
-/

set_option linter.unusedSectionVars false

namespace Ode
open Py Optics

variable {P O K : Type} [DecidableEq P] [DecidableEq O] [DecidableEq K] [AddCommGroup O] [AddCommGroup K] [DecidableEq ℂ]

variable {env : CEnv P O K ℂ} {pi po : P}

/-- A crystal made of real numbers. -/
structure RealCrystal (env : CEnv P O K ℂ) (e : Crystal P ℂ) (γ : ℝ) : Prop where
  i : env.i = Complex.I
  γ : e.nlg * e.length_mm = γ

/-- The fields come in conjugate pairs. -/
def Paired (pi : P) (x : Node P O K → ℂ) : Prop := ∀ k, x (pi, k.conj) = starRingEnd ℂ (x (pi, k))

theorem OKey.conj_conj' (k : OKey O K) : k.conj.conj = k := by
  unfold OKey.conj
  rw [Quantum.conj_conj]

theorem G_conj {e : Crystal P ℂ} {γ : ℝ} (h : RealCrystal env e γ) (q : Quantum) :
    e.G env q.conj = starRingEnd ℂ (e.G env q) := by
  have h1 : e.G env .lower = Complex.I * γ := by
    simp only [Crystal.G, h.i, mul_assoc, h.γ]
  have h2 : e.G env .raise = -Complex.I * γ := by
    simp only [Crystal.G, h.i, mul_assoc, h.γ]
  cases q
  · rw [Quantum.conj, h1, h2]; simp
  · rw [Quantum.conj, h1, h2]; simp

theorem kto_conj (k k2 : OKey O K) : kto k.conj k2.conj = (kto k k2).conj := by
  by_cases h : k2.q = k.q
  · rw [kto_of_eq h, kto_of_eq (by simp only [OKey.conj]; rw [h])]; rfl
  · rw [kto_of_ne h, kto_of_ne (by
      intro h'
      apply h
      have := congrArg Quantum.conj h'
      simpa [OKey.conj, Quantum.conj_conj] using this)]; rfl

theorem joins_conj (hc : Closed env pi po) (T : OKey O K × OKey O K) :
    Joins env po (T.1.conj, T.2.conj) ↔ Joins env po T := by
  have key : ∀ k, k.conj ∈ env.okeys po ↔ k ∈ env.okeys po := by
    intro k
    rw [hc.same, hc.same]
    constructor
    · intro h
      have := hc.conj _ h
      rwa [OKey.conj_conj'] at this
    · exact hc.conj k
  unfold Joins
  rw [kto_conj, key]
  rfl

theorem gain_conj {e : Crystal P ℂ} {γ : ℝ} (h : RealCrystal env e γ) (n : ℤ) (k k2 : OKey O K) :
    e.gain env n k.conj k2.conj = starRingEnd ℂ (e.gain env n k k2) := by
  have hinj : k.conj = k2.conj ↔ k = k2 := by
    constructor
    · intro hh
      have := congrArg OKey.conj hh
      rwa [OKey.conj_conj', OKey.conj_conj'] at this
    · rintro rfl; rfl
  unfold Crystal.gain
  have hq : k.conj.q = k.q.conj := rfl
  by_cases hk : k = k2
  · rw [if_pos hk, if_pos (hinj.2 hk), hq, G_conj h]
    simp only [Rat.smul_def, map_mul, map_intCast, map_ratCast]
  · rw [if_neg hk, if_neg (fun h => hk (hinj.1 h)), hq, G_conj h]
    simp

/-- Sums over the pairs as double sums over the keys. -/
theorem sum_pairs (hnd : (env.okeys pi).Nodup) (F : OKey O K × OKey O K → ℂ) :
    ((pairs (env.okeys pi)).map F).sum = ∑ a ∈ (env.okeys pi).toFinset, ∑ b ∈ (env.okeys pi).toFinset, F (a, b) := by
  have h1 : ∀ g : OKey O K → ℂ, ((env.okeys pi).map g).sum = ∑ a ∈ (env.okeys pi).toFinset, g a := by
    intro g
    rw [List.sum_toFinset g hnd]
  rw [← h1]
  unfold pairs
  generalize hL : env.okeys pi = L at *
  have : ∀ l : List (OKey O K), ((l.flatMap fun k => L.map fun k2 => (k, k2)).map F).sum
      = (l.map fun a => ∑ b ∈ L.toFinset, F (a, b)).sum := by
    intro l
    induction l with
    | nil => rfl
    | cons a l ih =>
      rw [List.flatMap_cons, List.map_append, List.sum_append, ih, List.map_cons, List.sum_cons, List.map_map, ← h1]
      rfl
  exact this L

/-- The equations of the crystal treat the conjugate keys alike. -/
theorem poly_conj (hc : Closed env pi po) {e : Crystal P ℂ} {γ : ℝ} (hr : RealCrystal env e γ) {w : Eqs P O K ℂ}
    (hw : e.build env pi po = .ok w) {x y : Node P O K → ℂ} (hx : ∀ k, y (pi, k.conj) = starRingEnd ℂ (x (pi, k)))
    (k : OKey O K) :
    poly (rhs w.dLt (pi, k.conj)) y = starRingEnd ℂ (poly (rhs w.dLt (pi, k)) x) := by
  rw [build_poly hc.single hw, build_poly hc.single hw, sum_pairs hc.nodup, sum_pairs hc.nodup, map_sum]
  have hbij : ∀ F : OKey O K → ℂ, ∑ a ∈ (env.okeys pi).toFinset, F a = ∑ a ∈ (env.okeys pi).toFinset, F a.conj := by
    intro F
    refine Finset.sum_nbij' OKey.conj OKey.conj ?_ ?_ (fun a _ => OKey.conj_conj' a) (fun a _ => OKey.conj_conj' a) ?_
    · intro a ha; rw [List.mem_toFinset] at ha ⊢; exact hc.conj a ha
    · intro a ha; rw [List.mem_toFinset] at ha ⊢; exact hc.conj a ha
    · intro a _; rw [OKey.conj_conj']
  rw [hbij]
  refine Finset.sum_congr rfl fun a _ => ?_
  rw [map_sum, hbij]
  refine Finset.sum_congr rfl fun b _ => ?_
  have hiff : (Joins env po (a.conj, b.conj) ∧ kto a.conj b.conj = k.conj) ↔ (Joins env po (a, b) ∧ kto a b = k) := by
    rw [joins_conj hc (a, b), kto_conj]
    refine and_congr_right fun _ => ?_
    constructor
    · intro h
      have := congrArg OKey.conj h
      rwa [OKey.conj_conj', OKey.conj_conj'] at this
    · rintro rfl; rfl
  have hopt : k.conj.opt = k.opt := rfl
  by_cases h : Joins env po (a, b) ∧ kto a b = k
  · rw [if_pos (hiff.2 h), if_pos h]
    simp only [map_mul, hopt, gain_conj hr, hx a, hx b]
  · rw [if_neg (fun h' => h (hiff.1 h')), if_neg h, map_zero]

/-- The keys of the lower sidebands, which carry the fields themselves. -/
def lowers (env : CEnv P O K ℂ) (pi : P) : Finset (OKey O K) := (env.okeys pi).toFinset.filter fun k => k.q = .lower

/-- The product that a pair of keys and the key they generate exchange. -/
def tri (pi : P) (x : Node P O K → ℂ) (a b : OKey O K) : ℂ :=
  starRingEnd ℂ (x (pi, kto a b)) * (x (pi, a) * x (pi, b))

theorem Quantum.eq_raise {q : Quantum} (h : q ≠ .lower) : q = .raise := by cases q <;> simp_all

/-- The rate at which the power grows: it is fed by the pairs of different keys alone. -/
theorem power_rate (hc : Closed env pi po) {e : Crystal P ℂ} {γ : ℝ} (hr : RealCrystal env e γ) {w : Eqs P O K ℂ}
    (hw : e.build env pi po = .ok w)
    (hadd : ∀ a ∈ env.okeys pi, ∀ b ∈ env.okeys pi, Joins env po (a, b) → b.q = a.q →
      ordOf env (kto a b).opt = ordOf env a.opt + ordOf env b.opt)
    {x : Node P O K → ℂ} (hx : Paired pi x) :
    ∑ k ∈ lowers env pi, 2 * (starRingEnd ℂ (x (pi, k)) * poly (rhs w.dLt (pi, k)) x).re
      = -γ * ∑ a ∈ lowers env pi, ∑ b ∈ lowers env pi,
        if Joins env po (a, b) ∧ a ≠ b then (ordOf env (kto a b).opt : ℝ) * (tri pi x a b).im else 0 := by
  set A := (env.okeys pi).toFinset with hA
  set Lo := lowers env pi with hLo
  have hG : e.G env .lower = Complex.I * γ := by simp only [Crystal.G, hr.i, mul_assoc, hr.γ]
  have hmemA : ∀ {k}, k ∈ A ↔ k ∈ env.okeys pi := by intro k; rw [hA, List.mem_toFinset]
  have hmemL : ∀ {k}, k ∈ Lo ↔ k ∈ env.okeys pi ∧ k.q = .lower := by
    intro k; rw [hLo, lowers, Finset.mem_filter, List.mem_toFinset]
  -- the sum over the keys collapses
  have step1 : ∑ k ∈ Lo, starRingEnd ℂ (x (pi, k)) * poly (rhs w.dLt (pi, k)) x
      = ∑ a ∈ Lo, ∑ b ∈ A, if Joins env po (a, b) then
          starRingEnd ℂ (x (pi, kto a b)) * (e.gain env (ordOf env (kto a b).opt) a b * (x (pi, b) * x (pi, a))) else 0 := by
    have e1 : ∀ k ∈ Lo, starRingEnd ℂ (x (pi, k)) * poly (rhs w.dLt (pi, k)) x
        = ∑ a ∈ A, ∑ b ∈ A, if Joins env po (a, b) ∧ kto a b = k then
          starRingEnd ℂ (x (pi, kto a b)) * (e.gain env (ordOf env (kto a b).opt) a b * (x (pi, b) * x (pi, a))) else 0 := by
      intro k _
      rw [build_poly hc.single hw, sum_pairs hc.nodup, Finset.mul_sum]
      refine Finset.sum_congr rfl fun a _ => ?_
      rw [Finset.mul_sum]
      refine Finset.sum_congr rfl fun b _ => ?_
      by_cases h : Joins env po (a, b) ∧ kto a b = k
      · rw [if_pos h, if_pos h, h.2]
      · rw [if_neg h, if_neg h, mul_zero]
    rw [Finset.sum_congr rfl e1, Finset.sum_comm]
    have e2 : ∀ a ∈ A, ∑ k ∈ Lo, ∑ b ∈ A, (if Joins env po (a, b) ∧ kto a b = k then
          starRingEnd ℂ (x (pi, kto a b)) * (e.gain env (ordOf env (kto a b).opt) a b * (x (pi, b) * x (pi, a))) else 0)
        = if a.q = .lower then ∑ b ∈ A, (if Joins env po (a, b) then
          starRingEnd ℂ (x (pi, kto a b)) * (e.gain env (ordOf env (kto a b).opt) a b * (x (pi, b) * x (pi, a))) else 0)
          else 0 := by
      intro a _
      rw [Finset.sum_comm]
      by_cases ha : a.q = .lower
      · rw [if_pos ha]
        refine Finset.sum_congr rfl fun b _ => ?_
        by_cases hj : Joins env po (a, b)
        · rw [if_pos hj, Finset.sum_eq_single (kto a b)]
          · rw [if_pos ⟨hj, rfl⟩]
          · intro k _ hk
            rw [if_neg (fun h => hk h.2.symm)]
          · intro hk
            exact absurd (hmemL.2 ⟨(hc.same _).1 hj.2, by rw [kto_q]; exact ha⟩) hk
        · rw [if_neg hj]
          exact Finset.sum_eq_zero fun k _ => if_neg fun h => hj h.1
      · rw [if_neg ha]
        refine Finset.sum_eq_zero fun b _ => Finset.sum_eq_zero fun k hk => if_neg fun h => ha ?_
        have := (hmemL.1 hk).2
        rw [← h.2, kto_q] at this
        exact this
    rw [Finset.sum_congr rfl e2, ← Finset.sum_filter]
    rfl
  -- sums and differences
  have hsplit : ∀ (a : OKey O K) (F : OKey O K → ℂ), ∑ b ∈ A, F b = ∑ b ∈ Lo, F b + ∑ b ∈ Lo, F b.conj := by
    intro a F
    rw [← Finset.sum_filter_add_sum_filter_not A (fun k => k.q = .lower)]
    congr 1
    refine Finset.sum_nbij' OKey.conj OKey.conj ?_ ?_ (fun a _ => OKey.conj_conj' a) (fun a _ => OKey.conj_conj' a) ?_
    · intro b hb
      rw [Finset.mem_filter, hmemA] at hb
      exact hmemL.2 ⟨hc.conj _ hb.1, by simp only [OKey.conj, Quantum.eq_raise hb.2]; rfl⟩
    · intro b hb
      rw [Finset.mem_filter, hmemA]
      obtain ⟨h1, h2⟩ := hmemL.1 hb
      exact ⟨hc.conj _ h1, by simp only [OKey.conj, h2]; exact fun h => nomatch h⟩
    · intro b _; rw [OKey.conj_conj']
  have hdiff : ∑ c ∈ Lo, ∑ b ∈ Lo, (if Joins env po (c, b.conj) then
        starRingEnd ℂ (x (pi, kto c b.conj)) * (e.gain env (ordOf env (kto c b.conj).opt) c b.conj
          * (x (pi, b.conj) * x (pi, c))) else 0)
      = ∑ a ∈ Lo, ∑ b ∈ Lo, (if Joins env po (a, b) then
          (ordOf env a.opt : ℂ) * (Complex.I * γ) * starRingEnd ℂ (tri pi x a b) else 0) := by
    rw [← Finset.sum_product', ← Finset.sum_product', ← Finset.sum_filter, ← Finset.sum_filter]
    refine Finset.sum_nbij' (fun T => (kto T.1 T.2.conj, T.2)) (fun T => (kto T.1 T.2, T.2)) ?_ ?_ ?_ ?_ ?_
    · rintro ⟨c, b⟩ h
      rw [Finset.mem_filter, Finset.mem_product] at h
      obtain ⟨⟨hcL, hbL⟩, hj⟩ := h
      obtain ⟨hc1, hc2⟩ := hmemL.1 hcL
      obtain ⟨hb1, hb2⟩ := hmemL.1 hbL
      rw [Finset.mem_filter, Finset.mem_product]
      have hu := hc.undo (T := (c, b.conj)) (mem_pairs.2 ⟨hc1, hc.conj _ hb1⟩) hj
      dsimp only at hu
      rw [OKey.conj_conj'] at hu
      exact ⟨⟨hmemL.2 ⟨(mem_pairs.1 hu.1).1, by rw [kto_q]; exact hc2⟩, hbL⟩, hu.2⟩
    · rintro ⟨a, b⟩ h
      rw [Finset.mem_filter, Finset.mem_product] at h
      obtain ⟨⟨haL, hbL⟩, hj⟩ := h
      obtain ⟨ha1, ha2⟩ := hmemL.1 haL
      obtain ⟨hb1, hb2⟩ := hmemL.1 hbL
      rw [Finset.mem_filter, Finset.mem_product]
      have hu := hc.undo (T := (a, b)) (mem_pairs.2 ⟨ha1, hb1⟩) hj
      exact ⟨⟨hmemL.2 ⟨(mem_pairs.1 hu.1).1, by rw [kto_q]; exact ha2⟩, hbL⟩, hu.2⟩
    · rintro ⟨c, b⟩ _
      have := kto_undo c b.conj
      rw [OKey.conj_conj'] at this
      exact Prod.ext this rfl
    · rintro ⟨a, b⟩ _
      exact Prod.ext (kto_undo a b) rfl
    · rintro ⟨c, b⟩ h
      rw [Finset.mem_filter, Finset.mem_product] at h
      obtain ⟨⟨hcL, hbL⟩, hj⟩ := h
      have hback := kto_undo c b.conj
      rw [OKey.conj_conj'] at hback
      have hne : c ≠ b.conj := by
        intro hh
        have h1 := (hmemL.1 hcL).2
        have h3 : b.q = .lower := (hmemL.1 hbL).2
        have h2 : b.conj.q = .raise := by simp only [OKey.conj, h3]; rfl
        dsimp only at h1
        rw [hh, h2] at h1
        exact nomatch h1
      have hg : e.gain env (ordOf env (kto c b.conj).opt) c b.conj
          = (ordOf env (kto c b.conj).opt : ℂ) * (Complex.I * γ) := by
        unfold Crystal.gain
        rw [if_neg hne, (hmemL.1 hcL).2, hG]
      simp only [hg, tri, hback, map_mul, Complex.conj_conj, hx b]
      ring
  have hsum : ∑ a ∈ Lo, ∑ b ∈ Lo, (if Joins env po (a, b) then
        starRingEnd ℂ (x (pi, kto a b)) * (e.gain env (ordOf env (kto a b).opt) a b * (x (pi, b) * x (pi, a))) else 0)
      = ∑ a ∈ Lo, ∑ b ∈ Lo, (if Joins env po (a, b) then
          (if a = b then 1 / 2 else 1) * (ordOf env (kto a b).opt : ℂ) * (Complex.I * γ) * tri pi x a b else 0) := by
    refine Finset.sum_congr rfl fun a ha => Finset.sum_congr rfl fun b _ => ?_
    by_cases hj : Joins env po (a, b)
    · rw [if_pos hj, if_pos hj]
      unfold Crystal.gain tri
      rw [(hmemL.1 ha).2, hG]
      split_ifs
      · simp only [Rat.smul_def]; push_cast; ring
      · ring
    · rw [if_neg hj, if_neg hj]
  rw [← Finset.mul_sum, ← Complex.re_sum, step1]
  have step2 : ∑ a ∈ Lo, ∑ b ∈ A, (if Joins env po (a, b) then
        starRingEnd ℂ (x (pi, kto a b)) * (e.gain env (ordOf env (kto a b).opt) a b * (x (pi, b) * x (pi, a))) else 0)
      = ∑ a ∈ Lo, ∑ b ∈ Lo, (if Joins env po (a, b) then
          (if a = b then 1 / 2 else 1) * (ordOf env (kto a b).opt : ℂ) * (Complex.I * γ) * tri pi x a b else 0)
        + ∑ a ∈ Lo, ∑ b ∈ Lo, (if Joins env po (a, b) then
          (ordOf env a.opt : ℂ) * (Complex.I * γ) * starRingEnd ℂ (tri pi x a b) else 0) := by
    rw [← hsum, ← hdiff, ← Finset.sum_add_distrib]
    exact Finset.sum_congr rfl fun a _ => hsplit a _
  rw [step2, Complex.add_re, Complex.re_sum, Complex.re_sum]
  have hre1 : ∀ a ∈ Lo, (∑ b ∈ Lo, (if Joins env po (a, b) then
          (if a = b then 1 / 2 else 1) * (ordOf env (kto a b).opt : ℂ) * (Complex.I * γ) * tri pi x a b else 0)).re
      = ∑ b ∈ Lo, (if Joins env po (a, b) then
          -(if a = b then 1 / 2 else 1) * (ordOf env (kto a b).opt : ℝ) * γ * (tri pi x a b).im else 0) := by
    intro a _
    rw [Complex.re_sum]
    refine Finset.sum_congr rfl fun b _ => ?_
    split_ifs <;> simp
  have hre2 : ∀ a ∈ Lo, (∑ b ∈ Lo, (if Joins env po (a, b) then
          (ordOf env a.opt : ℂ) * (Complex.I * γ) * starRingEnd ℂ (tri pi x a b) else 0)).re
      = ∑ b ∈ Lo, (if Joins env po (a, b) then (ordOf env a.opt : ℝ) * γ * (tri pi x a b).im else 0) := by
    intro a _
    rw [Complex.re_sum]
    refine Finset.sum_congr rfl fun b _ => ?_
    split_ifs <;> simp
  rw [Finset.sum_congr rfl hre1, Finset.sum_congr rfl hre2]
  -- symmetrise
  have htri : ∀ a ∈ Lo, ∀ b ∈ Lo, Joins env po (a, b) → (Joins env po (b, a) ∧ tri pi x b a = tri pi x a b) := by
    intro a ha b hb hj
    have hs := (kto_swap (k := a) (k2 := b) hj.1).1 (by rw [(hmemL.1 hb).2, (hmemL.1 ha).2])
    refine ⟨⟨hj.1.symm, ?_⟩, ?_⟩
    · show kto b a ∈ _
      rw [hs]; exact hj.2
    · unfold tri; rw [hs]; ring
  have hsym : ∑ a ∈ Lo, ∑ b ∈ Lo, (if Joins env po (a, b) then (ordOf env a.opt : ℝ) * γ * (tri pi x a b).im else 0)
      = ∑ a ∈ Lo, ∑ b ∈ Lo, (if Joins env po (a, b) then (ordOf env b.opt : ℝ) * γ * (tri pi x a b).im else 0) := by
    rw [Finset.sum_comm]
    refine Finset.sum_congr rfl fun a ha => Finset.sum_congr rfl fun b hb => ?_
    by_cases hj : Joins env po (a, b)
    · obtain ⟨h1, h2⟩ := htri a ha b hb hj
      rw [if_pos hj, if_pos h1, h2]
    · rw [if_neg hj, if_neg (fun h => hj (htri b hb a ha h).1)]
  have htot : 2 * ∑ a ∈ Lo, ∑ b ∈ Lo, (if Joins env po (a, b) then (ordOf env a.opt : ℝ) * γ * (tri pi x a b).im else 0)
      = ∑ a ∈ Lo, ∑ b ∈ Lo, (if Joins env po (a, b) then (ordOf env (kto a b).opt : ℝ) * γ * (tri pi x a b).im else 0) := by
    rw [two_mul]
    nth_rewrite 2 [hsym]
    rw [← Finset.sum_add_distrib]
    refine Finset.sum_congr rfl fun a ha => ?_
    rw [← Finset.sum_add_distrib]
    refine Finset.sum_congr rfl fun b hb => ?_
    by_cases hj : Joins env po (a, b)
    · rw [if_pos hj, if_pos hj, if_pos hj, hadd a (hmemL.1 ha).1 b (hmemL.1 hb).1 hj
        (by rw [(hmemL.1 hb).2, (hmemL.1 ha).2])]
      push_cast; ring
    · rw [if_neg hj, if_neg hj, if_neg hj, add_zero]
  rw [mul_add, htot, Finset.mul_sum, ← Finset.sum_add_distrib, Finset.mul_sum]
  refine Finset.sum_congr rfl fun a _ => ?_
  rw [Finset.mul_sum, ← Finset.sum_add_distrib, Finset.mul_sum]
  refine Finset.sum_congr rfl fun b _ => ?_
  by_cases hj : Joins env po (a, b)
  · by_cases hab : a = b
    · rw [if_pos hj, if_pos hab, if_pos hj, if_neg (fun h => h.2 hab)]; ring
    · rw [if_pos hj, if_neg hab, if_pos hj, if_pos ⟨hj, hab⟩]; ring
  · rw [if_neg hj, if_neg hj, if_neg (fun h => hj h.1)]; ring

variable {pks : List (Node P O K)}

/-- The nodes of the equations belong to the keys of the input. -/
theorem Closed.nodes (hc : Closed env pi po) {e : Crystal P ℂ} {w : Eqs P O K ℂ} (hw : e.build env pi po = .ok w)
    (hK : Keyed w.dLt pks) {n : Node P O K} (hn : n ∈ pks) : n.1 = pi ∧ n.2 ∈ env.okeys pi := by
  obtain ⟨w', hw', -, -, -, -, h5⟩ := build_spec e (pi := pi) hc.single
  rw [hw] at hw'
  injection hw' with hw'
  subst hw'
  obtain ⟨h, T, hT, hj, h'⟩ := (h5 n).1 ((hK.mem n).1 hn)
  refine ⟨h, ?_⟩
  obtain ⟨h1, h2⟩ := mem_pairs.1 hT
  rcases h' with h' | h' | h'
  · rw [h']; exact h1
  · rw [h']; exact h2
  · rw [h']; exact (hc.same _).1 hj.2

/-- Nodes that do not occur have no right hand side. -/
theorem rhs_absent {I : Type} [DecidableEq I] {dLt : Dict I (Lt I ℂ)} {pks : List I} (hK : Keyed dLt pks) {n : I}
    (hn : n ∉ pks) : rhs dLt n = [] := by
  unfold rhs
  cases hg : Dict.get? dLt n with
  | none => rfl
  | some lt => exact absurd ((hK.mem n).2 ⟨(n, lt), Dict.mem_of_get? hg, Or.inl rfl⟩) hn

/-- The nodes come in conjugate pairs. -/
theorem Closed.conj_mem (hc : Closed env pi po) {e : Crystal P ℂ} {w : Eqs P O K ℂ} (hw : e.build env pi po = .ok w)
    (hK : Keyed w.dLt pks) {k : OKey O K} (hk : (pi, k) ∈ pks) : (pi, k.conj) ∈ pks := by
  obtain ⟨w', hw', -, -, -, -, h5⟩ := build_spec e (pi := pi) hc.single
  rw [hw] at hw'
  injection hw' with hw'
  subst hw'
  obtain ⟨-, T, hT, hj, h⟩ := (h5 _).1 ((hK.mem _).1 hk)
  refine (hK.mem _).2 ((h5 _).2 ⟨rfl, (T.1.conj, T.2.conj), ?_, (joins_conj hc T).2 hj, ?_⟩)
  · obtain ⟨h1, h2⟩ := mem_pairs.1 hT
    exact mem_pairs.2 ⟨hc.conj _ h1, hc.conj _ h2⟩
  · dsimp only at h ⊢
    rw [kto_conj]
    rcases h with rfl | rfl | rfl
    · exact Or.inl rfl
    · exact Or.inr (Or.inl rfl)
    · exact Or.inr (Or.inr rfl)

theorem Closed.conj_mem_iff (hc : Closed env pi po) {e : Crystal P ℂ} {w : Eqs P O K ℂ} (hw : e.build env pi po = .ok w)
    (hK : Keyed w.dLt pks) {k : OKey O K} : (pi, k.conj) ∈ pks ↔ (pi, k) ∈ pks := by
  constructor
  · intro h
    have := hc.conj_mem hw hK h
    rwa [OKey.conj_conj'] at this
  · exact hc.conj_mem hw hK

/-- The values at the nodes that occur. -/
def clip {I : Type} [DecidableEq I] (pks : List I) (x : I → ℂ) (n : I) : ℂ := if n ∈ pks then x n else 0

theorem clip_mem {I : Type} [DecidableEq I] {pks : List I} {x : I → ℂ} {n : I} (hn : n ∈ pks) : clip pks x n = x n := if_pos hn

/-- Conjugating all keys does not change the equations of the crystal. -/
theorem Closed.mirror (hc : Closed env pi po) {e : Crystal P ℂ} {γ : ℝ} (hr : RealCrystal env e γ) {w : Eqs P O K ℂ}
    (hw : e.build env pi po = .ok w) (hK : Keyed w.dLt pks) : Mirror w.dLt pks fun n => (n.1, n.2.conj) := by
  refine ⟨?_, ?_, ?_⟩
  · rintro ⟨p, k⟩ hn
    obtain rfl : p = pi := (hc.nodes hw hK hn).1
    exact hc.conj_mem hw hK hn
  · rintro ⟨p, k⟩ _
    dsimp only
    rw [OKey.conj_conj']
  · rintro x y hxy ⟨p, k⟩ hn
    obtain rfl : p = pi := (hc.nodes hw hK hn).1
    dsimp only
    rw [poly_congr hK (x := y) (y := clip pks y) fun k hk => (clip_mem hk).symm,
      poly_congr hK (x := x) (y := clip pks x) fun k hk => (clip_mem hk).symm]
    refine poly_conj hc hr hw (fun k => ?_) k
    unfold clip
    by_cases hk : (p, k) ∈ pks
    · rw [if_pos hk, if_pos (hc.conj_mem hw hK hk)]
      exact hxy _ hk
    · rw [if_neg hk, if_neg (fun h => hk ((hc.conj_mem_iff hw hK).1 h)), map_zero]

/-- Sums over the nodes that occur, as sums over the lower sidebands and their conjugates. -/
theorem Closed.sum_nodes (hc : Closed env pi po) {e : Crystal P ℂ} {w : Eqs P O K ℂ} (hw : e.build env pi po = .ok w)
    (hK : Keyed w.dLt pks) {F : Node P O K → ℝ} (hF : ∀ n, n ∉ pks → F n = 0) :
    (pks.map F).sum = ∑ k ∈ lowers env pi, (F (pi, k) + F (pi, k.conj)) := by
  rw [← List.sum_toFinset F hK.nodup]
  have h1 : ∑ n ∈ pks.toFinset, F n = ∑ k ∈ (env.okeys pi).toFinset, F (pi, k) := by
    have hinj : ∑ k ∈ (env.okeys pi).toFinset, F (pi, k)
        = ∑ n ∈ (env.okeys pi).toFinset.image (fun k => ((pi, k) : Node P O K)), F n := by
      rw [Finset.sum_image]
      intro a _ b _ h
      exact (Prod.ext_iff.1 h).2
    rw [hinj]
    refine Finset.sum_subset ?_ ?_
    · intro n hn
      rw [List.mem_toFinset] at hn
      obtain ⟨h1, h2⟩ := hc.nodes hw hK hn
      exact Finset.mem_image.2 ⟨n.2, List.mem_toFinset.2 h2, Prod.ext h1.symm rfl⟩
    · intro n _ hn
      exact hF n fun h => hn (List.mem_toFinset.2 h)
  rw [h1, ← Finset.sum_filter_add_sum_filter_not _ (fun k : OKey O K => k.q = .lower), Finset.sum_add_distrib]
  congr 1
  refine Finset.sum_nbij' OKey.conj OKey.conj ?_ ?_ (fun a _ => OKey.conj_conj' a) (fun a _ => OKey.conj_conj' a) ?_
  · intro b hb
    rw [Finset.mem_filter, List.mem_toFinset] at hb
    rw [lowers, Finset.mem_filter, List.mem_toFinset]
    exact ⟨hc.conj _ hb.1, by simp only [OKey.conj, Quantum.eq_raise hb.2]; rfl⟩
  · intro b hb
    rw [lowers, Finset.mem_filter, List.mem_toFinset] at hb
    rw [Finset.mem_filter, List.mem_toFinset]
    exact ⟨hc.conj _ hb.1, by simp only [OKey.conj, hb.2]; exact fun h => nomatch h⟩
  · intro b _; rw [OKey.conj_conj']

/-- Where no two different keys combine, nothing feeds the power. -/
theorem Closed.rate (hc : Closed env pi po) {e : Crystal P ℂ} {γ : ℝ} (hr : RealCrystal env e γ) {w : Eqs P O K ℂ}
    (hw : e.build env pi po = .ok w) (hK : Keyed w.dLt pks)
    (hadd : ∀ a ∈ env.okeys pi, ∀ b ∈ env.okeys pi, Joins env po (a, b) → b.q = a.q →
      ordOf env (kto a b).opt = ordOf env a.opt + ordOf env b.opt)
    (hdist : ∀ a ∈ lowers env pi, ∀ b ∈ lowers env pi, Joins env po (a, b) → a = b)
    {x : Node P O K → ℂ} (hx : ∀ n ∈ pks, x (n.1, n.2.conj) = starRingEnd ℂ (x n)) :
    (pks.map fun n => 2 * (starRingEnd ℂ (x n) * poly (rhs w.dLt n) x).re).sum = 0 := by
  have hpair : Paired pi (clip pks x) := by
    intro k
    unfold clip
    by_cases hk : (pi, k) ∈ pks
    · rw [if_pos hk, if_pos (hc.conj_mem hw hK hk)]
      exact hx _ hk
    · rw [if_neg hk, if_neg (fun h => hk ((hc.conj_mem_iff hw hK).1 h)), map_zero]
  have e1 : (pks.map fun n => 2 * (starRingEnd ℂ (x n) * poly (rhs w.dLt n) x).re)
      = pks.map fun n => 2 * (starRingEnd ℂ (clip pks x n) * poly (rhs w.dLt n) (clip pks x)).re := by
    refine List.map_congr_left fun n hn => ?_
    rw [clip_mem hn, poly_congr hK (x := x) (y := clip pks x) fun k hk => (clip_mem hk).symm]
  rw [e1, hc.sum_nodes hw hK (fun n hn => by rw [rhs_absent hK hn]; simp [poly])]
  have h2 := power_rate hc hr hw hadd hpair
  have h3 : ∑ a ∈ lowers env pi, ∑ b ∈ lowers env pi,
      (if Joins env po (a, b) ∧ a ≠ b then (ordOf env (kto a b).opt : ℝ) * (tri pi (clip pks x) a b).im else 0) = 0 := by
    refine Finset.sum_eq_zero fun a ha => Finset.sum_eq_zero fun b hb => if_neg fun h => h.2 (hdist a ha b hb h.1)
  rw [h3, mul_zero] at h2
  rw [Finset.sum_add_distrib, h2, zero_add]
  refine (Finset.sum_congr rfl fun k _ => ?_).trans h2
  rw [poly_conj hc hr hw hpair k, hpair k, ← map_mul, Complex.conj_re]

end Ode
