import Verif.Dag.HouseEff
import Mathlib.Tactic.LinearCombination
import Mathlib.Algebra.Star.Basic

/-! # The Householder step as a reflection -/

set_option linter.unusedSectionVars false

namespace Dag
open Py Graph

variable {M : Type} {V : Type} [DecidableEq M] [Field V] [DecidableEq V]
variable {kind : M → Kind} {K : M → Prop} {d d' : D M V}

/-- What is used of `conjugate`, `abs` and `**.5`. -/
structure Alg.Lawful (A : Alg V) : Prop where
  conj_add : ∀ a b, A.conj (a + b) = A.conj a + A.conj b
  conj_mul : ∀ a b, A.conj (a * b) = A.conj a * A.conj b
  conj_conj : ∀ a, A.conj (A.conj a) = a
  abs_sq : ∀ a, A.abs a * A.abs a = a * A.conj a
  conj_abs : ∀ a, A.conj (A.abs a) = A.abs a
  sqrt_sq : ∀ l : List V, A.sqrt (l.map A.abssq).sum * A.sqrt (l.map A.abssq).sum = (l.map A.abssq).sum
  conj_sqrt : ∀ a, A.conj (A.sqrt a) = A.sqrt a

variable {A : Alg V}

theorem Alg.Lawful.conj_zero (hA : A.Lawful) : A.conj 0 = 0 := by
  have := hA.conj_add 0 0
  rw [add_zero] at this
  exact left_eq_add.mp this

theorem Alg.Lawful.conj_one (hA : A.Lawful) : A.conj 1 = 1 := by
  have h := hA.conj_mul 1 (A.conj 1)
  rw [one_mul, hA.conj_conj, mul_one] at h
  exact h.symm

theorem Alg.Lawful.conj_div (hA : A.Lawful) (a b : V) : A.conj (a / b) = A.conj a / A.conj b := by
  by_cases hb : b = 0
  · subst hb; rw [hA.conj_zero, div_zero, div_zero, hA.conj_zero]
  · have hb' : A.conj b ≠ 0 := fun e => hb (by have := hA.conj_conj b; rw [e, hA.conj_zero] at this; exact this.symm)
    rw [eq_div_iff hb', ← hA.conj_mul, div_mul_cancel₀ _ hb]

theorem hhU_into (A : Alg V) (d : D M V) (into : M) (F : List M) :
    hhU A d into F into = hhW A d into F / hhN A d into F := by simp [hhU]

theorem hhU_F (A : Alg V) (d : D M V) {into : M} {F : List M} (hi : into ∉ F) {k : M} (hk : k ∈ F) :
    hhU A d into F k = ev d k into / hhN A d into F := by
  have : k ≠ into := fun e => hi (e ▸ hk)
  simp [hhU, hk, this]

theorem hhU_out (A : Alg V) (d : D M V) {into : M} {F : List M} {k : M} (hk : k ∉ F ++ [into]) :
    hhU A d into F k = 0 := by
  rw [List.mem_append, List.mem_singleton, not_or] at hk
  simp [hhU, hk.1, hk.2]

theorem lsum_mul (L : List M) (f : M → V) (c : V) : lsum L (fun k => f k * c) = lsum L f * c := by
  unfold lsum
  rw [List.sum_map_mul_right]

theorem lsum_div (L : List M) (f : M → V) (c : V) : lsum L (fun k => f k / c) = lsum L f / c := by
  simp only [div_eq_mul_inv]
  exact lsum_mul L f _

/-- The three numbers of the reflection. -/
theorem hh_facts (hA : A.Lawful) {into : M} {F : List M} (hi : into ∉ F) (hz : A.abs (ev d into into) ≠ 0)
    (hn : hhN A d into F ≠ 0) :
    2 * lsum (F ++ [into]) (fun k => A.conj (hhU A d into F k) * ev d k into) = hhN A d into F ∧
    lsum (F ++ [into]) (fun k => A.conj (hhU A d into F k) * hhU A d into F k) = 1 ∧
    hhInj A d into F = ev d into into - 2 * hhU A d into F into *
      lsum (F ++ [into]) (fun k => A.conj (hhU A d into F k) * ev d k into) := by
  set N := hhN A d into F with hN
  set w := hhW A d into F with hw
  set e := ev d into into with he
  set S := lsum F (fun k => A.abssq (ev d k into)) with hS
  set a := A.abs e with ha
  set n := A.sqrt (S + A.abssq e) with hn'
  have ha2 : a * a = e * A.conj e := hA.abs_sq e
  have hn2 : n * n = S + e * A.conj e := by
    have := hA.sqrt_sq ((F.map (fun k => ev d k into)) ++ [e])
    rw [List.map_append, List.sum_append, List.map_map] at this
    simp only [List.map_cons, List.map_nil, List.sum_cons, List.sum_nil, add_zero] at this
    exact this
  have hN2 : N * N = S + w * A.conj w := by
    have := hA.sqrt_sq ((F.map (fun k => ev d k into)) ++ [w])
    rw [List.map_append, List.sum_append, List.map_map] at this
    simp only [List.map_cons, List.map_nil, List.sum_cons, List.sum_nil, add_zero] at this
    exact this
  have cN : A.conj N = N := hA.conj_sqrt _
  have cn : A.conj n = n := hA.conj_sqrt _
  have ca : A.conj a = a := hA.conj_abs _
  have hwd : w = e + n * e / a := rfl
  have cw : A.conj w = A.conj e + n * A.conj e / a := by
    rw [hwd, hA.conj_add, hA.conj_div, hA.conj_mul, cn, ca]
  have wa : w * a = e * (a + n) := by rw [hwd]; field_simp
  have cwa : A.conj w * a = A.conj e * (a + n) := by rw [cw]; field_simp
  have cwe : A.conj w * e = a * (a + n) := by
    apply mul_right_cancel₀ hz
    have : A.conj w * e * a = (A.conj w * a) * e := by ring
    rw [this, cwa]
    linear_combination (-(a + n)) * ha2
  have ww : w * A.conj w = (a + n) * (a + n) := by
    apply mul_right_cancel₀ hz
    have : w * A.conj w * a = (w * a) * A.conj w := by ring
    rw [this, wa]
    linear_combination (a + n) * cwe
  have hNN : N * N = 2 * (n * (n + a)) := by
    rw [hN2, ww]
    linear_combination (-1) * hn2 + ha2
  have hsum : lsum F (fun k => A.conj (hhU A d into F k) * ev d k into) = S / N := by
    rw [hS, ← lsum_div]
    apply lsum_congr
    intro k hk
    rw [hhU_F A d hi hk, hA.conj_div, cN]
    unfold Alg.abssq
    ring
  have hsum2 : lsum F (fun k => A.conj (hhU A d into F k) * hhU A d into F k) = S / (N * N) := by
    rw [hS, ← lsum_div]
    apply lsum_congr
    intro k hk
    rw [hhU_F A d hi hk, ← hN, hA.conj_div, cN]
    unfold Alg.abssq
    field_simp
  have hui : hhU A d into F into = w / N := hhU_into A d into F
  have cui : A.conj (hhU A d into F into) = A.conj w / N := by rw [hui, hA.conj_div, cN]
  have hG : lsum (F ++ [into]) (fun k => A.conj (hhU A d into F k) * ev d k into) = S / N + A.conj w / N * e := by
    rw [lsum_append, hsum, lsum_cons, lsum_nil, add_zero, cui]
  refine ⟨?_, ?_, ?_⟩
  · rw [hG]
    field_simp
    have : N ^ 2 = N * N := sq N
    rw [this, hNN]
    linear_combination 2 * cwe - 2 * hn2 + 2 * ha2
  · rw [lsum_append, hsum2, lsum_cons, lsum_nil, add_zero, cui, hui]
    field_simp
    have : N ^ 2 = N * N := sq N
    rw [this, hN2]
    ring
  · rw [hG]
    unfold hhInj
    rw [cui, ← he, ← hN, ← hS]
    ring

theorem sv_eq (h : Sound kind K d) {a b : M} (ha : K a) (hb : K b) : Cw d a b = sv d a b := by
  unfold Cw sv ev
  have : Listed d a b ↔ b ∈ at' d.seq a := by
    unfold Listed
    constructor
    · rintro (q | q | q)
      · exact q
      · have := (h.bi _ _ q).1
        rw [h.ki b hb] at this; cases this
      · have := (h.ai _ _ q).1
        rw [h.ki a ha] at this; cases this
    · exact Or.inl
  simp only [this]

theorem bv_eq (h : Sound kind K d) {a b : M} (ha : K a) (hb : kind b = .snk) : Cw d a b = bv d a b := by
  unfold Cw bv ev
  have : Listed d a b ↔ b ∈ at' d.beta a := by
    unfold Listed
    constructor
    · rintro (q | q | q)
      · have := h.ki b (h.si _ _ q).2
        rw [hb] at this; cases this
      · exact q
      · have := (h.ai _ _ q).1
        rw [h.ki a ha] at this; cases this
    · exact fun q => Or.inr (Or.inl q)
  simp only [this]

theorem sound_hh (h : Sound kind K d) {into : M} {F : List M} {u : M → V} {inj : V}
    (hl : ∀ k ∈ F ++ [into], into ∈ at' d.seq k) (hi : into ∉ F) (e : HhEff A into F u inj d d') : Sound kind K d' := by
  set L := F ++ [into] with hL
  have iL : into ∈ L := by simp [hL]
  have FL : ∀ a, a ∈ F → a ∈ L := fun a ha => by simp [hL, ha]
  have Ki : K into := (h.si into into (hl into iL)).1
  have KL : ∀ k ∈ L, K k := fun k hk => (h.si k into (hl k hk)).1
  have QK : ∀ f, lsum L (fun k => A.conj (u k) * sv d k f) ≠ 0 → K f := by
    intro f hf
    by_contra hk
    apply hf
    rw [lsum_congr (g := fun _ => 0)]
    · simp [lsum]
    · intro k _
      unfold sv
      rw [if_neg (fun hh => hk (h.si _ _ hh).2), mul_zero]
  have notB : ∀ b, K b → ¬ ∃ k ∈ L, b ∈ at' d.beta k := by
    rintro b hb ⟨k, _, hk⟩
    have q := (h.bi _ _ hk).1
    rw [h.ki b hb] at q; cases q
  have lst : ∀ a b, a ∉ L → (Listed d' a b ↔ Listed d a b) := by
    intro a b ha
    unfold Listed
    rw [e.seq, e.beta, e.alpha]
    have : a ∉ F := fun q => ha (FL a q)
    simp only [← hL, ha, this, false_and, or_false, not_false_eq_true, and_true]
  constructor
  · exact e.mir
  · intro r s hs
    rw [e.seq] at hs
    rcases hs.1 with q | ⟨q1, q2⟩
    · exact h.si _ _ q
    · exact ⟨KL r q1, QK s q2⟩
  · exact h.ki
  · intro a s q
    rw [e.alpha] at q
    refine ⟨(h.ai _ _ q).1, (h.ai _ _ q).2.imp id (fun x => ⟨x.1, ?_⟩)⟩
    rw [e.beta]
    exact Or.inl x.2
  · intro r b q
    rw [e.beta] at q
    rw [e.alpha]
    rcases q with q | ⟨q1, k, hk, q2⟩
    · exact h.bi _ _ q
    · exact ⟨(h.bi _ _ q2).1, Or.inl (KL r q1)⟩
  · intro a b hab
    by_cases ha : a ∈ L
    · by_cases hB : ∃ k ∈ L, b ∈ at' d.beta k
      · rw [e.emB a b ha hB]; rfl
      · rcases hab with q | q | q
        · rw [e.seq] at q
          by_cases hb : b = into
          · subst hb
            have : a ∉ F := fun q' => q.2 ⟨q', rfl⟩
            have : a = b := by
              rw [hL, List.mem_append, List.mem_singleton] at ha
              exact ha.resolve_left this
            rw [this, e.emI]; rfl
          · by_cases hg : lsum L (fun k => A.conj (u k) * sv d k b) = 0
            · rw [e.em0 a b (Or.inr ⟨hb, hg, hB⟩)]
              exact h.val _ _ (Or.inl (q.1.resolve_right (fun q' => q'.2 hg)))
            · rw [e.em1 a b ha hb hg]; rfl
        · rw [e.beta] at q
          rcases q with q | q
          · exact absurd ⟨a, ha, q⟩ hB
          · exact absurd q.2 hB
        · rw [e.alpha] at q
          have := (h.ai _ _ q).1
          rw [h.ki a (KL a ha)] at this; cases this
    · rw [e.em0 a b (Or.inl ha)]
      exact h.val _ _ ((lst a b ha).mp hab)
  · intro a b ka kb hab
    by_cases ha : a ∈ L
    · by_cases hB : ∃ k ∈ L, b ∈ at' d.beta k
      · exact Or.inr (Or.inl ((e.beta a b).mpr (Or.inr ⟨ha, hB⟩)))
      · by_cases hb : b = into
        · subst hb
          by_cases haF : a ∈ F
          · rw [e.emF a haF] at hab; cases hab
          · exact Or.inl ((e.seq a b).mpr ⟨Or.inl (hl a ha), fun q => haF q.1⟩)
        · by_cases hg : lsum L (fun k => A.conj (u k) * sv d k b) = 0
          · rw [e.em0 a b (Or.inr ⟨hb, hg, hB⟩)] at hab
            rcases h.used a b ka kb hab with q | q | q
            · exact Or.inl ((e.seq a b).mpr ⟨Or.inl q, fun q' => hb q'.2⟩)
            · exact absurd ⟨a, ha, q⟩ hB
            · have := (h.ai _ _ q).1
              rw [h.ki a (KL a ha)] at this; cases this
          · exact Or.inl ((e.seq a b).mpr ⟨Or.inr ⟨ha, hg⟩, fun q' => hb q'.2⟩)
    · rw [e.em0 a b (Or.inl ha)] at hab
      exact (lst a b ha).mpr (h.used a b ka kb hab)
  · exact e.ld.s
  · exact e.ld.r
  · exact e.ld.a
  · exact e.ld.b

/-- The new weights. -/
theorem cw_hh (hA : A.Lawful) (h : Sound kind K d) {into : M} {F : List M} 
    (hl : ∀ k ∈ F ++ [into], into ∈ at' d.seq k) (hi : into ∉ F)
    (hz : A.abs (ev d into into) ≠ 0) (hn : hhN A d into F ≠ 0)
    (e : HhEff A into F (hhU A d into F) (hhInj A d into F) d d') (a b : M) (hb : K b ∨ kind b = .snk) :
    Cw d' a b = Cw d a b - 2 * hhU A d into F a *
      lsum (F ++ [into]) (fun k => A.conj (hhU A d into F k) * Cw d k b) := by
  have h' := sound_hh h hl hi e
  set u := hhU A d into F with hu
  obtain ⟨f1, f2, f3⟩ := hh_facts hA hi hz hn (d := d)
  set L := F ++ [into] with hL
  have iL : into ∈ L := by simp [hL]
  have FL : ∀ a, a ∈ F → a ∈ L := fun a ha => by simp [hL, ha]
  have Ki : K into := (h.si into into (hl into iL)).1
  have KL : ∀ k ∈ L, K k := fun k hk => (h.si k into (hl k hk)).1
  have notB : ∀ b, K b → ¬ ∃ k ∈ L, b ∈ at' d.beta k := by
    rintro b hb ⟨k, _, hk⟩
    have q := (h.bi _ _ hk).1
    rw [h.ki b hb] at q; cases q
  by_cases ha : a ∈ L
  · rcases hb with hb | hb
    · have hs : lsum L (fun k => A.conj (u k) * Cw d k b) = lsum L (fun k => A.conj (u k) * sv d k b) :=
        lsum_congr (fun k hk => by rw [sv_eq h (KL k hk) hb])
      rw [hs, sv_eq h' (KL a ha) hb, sv_eq h (KL a ha) hb]
      by_cases hbi : b = into
      · subst hbi
        have hs2 : lsum L (fun k => A.conj (u k) * sv d k b) = lsum L (fun k => A.conj (u k) * ev d k b) :=
          lsum_congr (fun k hk => by unfold sv; rw [if_pos (hl k hk)])
        rw [hs2]
        have hsa : sv d a b = ev d a b := by unfold sv; rw [if_pos (hl a ha)]
        rw [hsa]
        by_cases haF : a ∈ F
        · have : sv d' a b = 0 := by
            unfold sv
            rw [if_neg]
            rw [e.seq]
            exact fun q => q.2 ⟨haF, rfl⟩
          have q : 2 * u a * lsum L (fun k => A.conj (u k) * ev d k b) =
            u a * (2 * lsum L (fun k => A.conj (u k) * ev d k b)) := by ring
          rw [this, q, f1, hu, hhU_F A d hi haF, div_mul_cancel₀ _ hn, sub_self]
        · have hab : a = b := by
            rw [hL, List.mem_append, List.mem_singleton] at ha
            exact ha.resolve_left haF
          subst hab
          have : sv d' a a = hhInj A d a F := by
            unfold sv ev
            rw [if_pos ((e.seq a a).mpr ⟨Or.inl (hl a ha), fun q => hi q.1⟩), e.emI]
            rfl
          rw [this, f3]
      · by_cases hg : lsum L (fun k => A.conj (u k) * sv d k b) = 0
        · rw [hg, mul_zero, sub_zero]
          have q1 : b ∈ at' d'.seq a ↔ b ∈ at' d.seq a := by
            rw [e.seq]
            exact ⟨fun q => q.1.resolve_right (fun q' => q'.2 hg), fun q => ⟨Or.inl q, fun q' => hbi q'.2⟩⟩
          unfold sv ev
          simp only [q1, e.em0 a b (Or.inr ⟨hbi, hg, notB b hb⟩)]
        · have : sv d' a b = sv d a b - 2 * u a * lsum L (fun k => A.conj (u k) * sv d k b) := by
            conv_lhs => unfold sv ev
            rw [if_pos ((e.seq a b).mpr ⟨Or.inr ⟨ha, hg⟩, fun q => hbi q.2⟩), e.em1 a b ha hbi hg]
            rfl
          rw [this]
    · have hs : lsum L (fun k => A.conj (u k) * Cw d k b) = lsum L (fun k => A.conj (u k) * bv d k b) :=
        lsum_congr (fun k hk => by rw [bv_eq h (KL k hk) hb])
      rw [hs, bv_eq h' (KL a ha) hb, bv_eq h (KL a ha) hb]
      by_cases hB : ∃ k ∈ L, b ∈ at' d.beta k
      · conv_lhs => unfold bv ev
        rw [if_pos ((e.beta a b).mpr (Or.inr ⟨ha, hB⟩)), e.emB a b ha hB]
        rfl
      · have hz : lsum L (fun k => A.conj (u k) * bv d k b) = 0 := by
          rw [lsum_congr (g := fun _ => 0)]
          · simp [lsum]
          · intro k hk
            unfold bv
            rw [if_neg (fun q => hB ⟨k, hk, q⟩), mul_zero]
        have n1 : b ∉ at' d.beta a := fun q => hB ⟨a, ha, q⟩
        have n2 : b ∉ at' d'.beta a := by
          rw [e.beta]
          exact fun q => q.elim n1 (fun q' => hB q'.2)
        rw [hz, mul_zero, sub_zero]
        unfold bv
        rw [if_neg n1, if_neg n2]
  · rw [hu, hhU_out A d ha, mul_zero, zero_mul, sub_zero]
    have haF : a ∉ F := fun q => ha (FL a q)
    have q : Listed d' a b ↔ Listed d a b := by
      unfold Listed
      rw [e.seq, e.beta, e.alpha]
      simp only [← hL, ha, haF, false_and, or_false, not_false_eq_true, and_true]
    unfold Cw
    rw [e.em0 a b (Or.inl ha)]
    simp only [q]

variable [Fintype M]

theorem lsum_eq_sum {L : List M} (hL : L.Nodup) (f : M → V) (hf : ∀ k, k ∉ L → f k = 0) : lsum L f = ∑ k, f k := by
  unfold lsum
  rw [← List.sum_toFinset f hL]
  apply Finset.sum_subset (Finset.subset_univ _)
  intro k _ hk
  exact hf k (by simpa using hk)

/-- The reflection `x ↦ x - 2 c (u · x)`. -/
def refl (c u : M → V) (x : M → V) (k : M) : V := x k - 2 * c k * ∑ a, u a * x a

theorem refl_refl {c u : M → V} (h : ∑ k, c k * u k = 1) (x : M → V) : refl c u (refl c u x) = x := by
  funext k
  have : ∑ a, u a * refl c u x a = - ∑ a, u a * x a := by
    unfold refl
    have : ∀ a, u a * (x a - 2 * c a * ∑ a, u a * x a) = u a * x a - (c a * u a) * (2 * ∑ a, u a * x a) := by
      intro a; ring
    simp only [this, Finset.sum_sub_distrib, ← Finset.sum_mul, h]
    ring
  unfold refl at *
  rw [this]
  ring

section
variable (hA : A.Lawful) (h : Sound kind K d) {into : M} {F : List M} (hF : F.Nodup)
    (hl : ∀ k ∈ F ++ [into], into ∈ at' d.seq k) (hi : into ∉ F)
    (hz : A.abs (ev d into into) ≠ 0) (hn : hhN A d into F ≠ 0)
include hA hF hi hz hn

theorem hh_nodup (_ : A.Lawful) : (F ++ [into]).Nodup := by
  rw [List.nodup_append]
  exact ⟨hF, by simp, fun a ha b hb e => hi (by rw [List.mem_singleton] at hb; rw [← hb, ← e]; exact ha)⟩

omit hz hn in
theorem hh_conj_out (k : M) (hk : k ∉ F ++ [into]) : A.conj (hhU A d into F k) = 0 := by
  rw [hhU_out A d hk, hA.conj_zero]

theorem hh_unit : ∑ k, A.conj (hhU A d into F k) * hhU A d into F k = 1 := by
  obtain ⟨f1, f2, f3⟩ := hh_facts hA hi hz hn (d := d)
  rw [← lsum_eq_sum (hh_nodup hA hF hi hz hn hA) _ (fun k hk => by rw [hhU_out A d hk, mul_zero]), f2]

include h hl
/-- The sums into a node. -/
theorem sum_hh (e : HhEff A into F (hhU A d into F) (hhInj A d into F) d d') (x : M → V) (b : M)
    (hb : K b ∨ kind b = .snk) :
    ∑ r, Cw d' r b * x r = ∑ r, Cw d r b * refl (fun k => A.conj (hhU A d into F k)) (hhU A d into F) x r := by
  set u := hhU A d into F with hu
  have hG : lsum (F ++ [into]) (fun k => A.conj (u k) * Cw d k b) = ∑ k, A.conj (u k) * Cw d k b :=
    lsum_eq_sum (hh_nodup hA hF hi hz hn hA) _ (fun k hk => by rw [hu, hh_conj_out hA hF hi k hk, zero_mul])
  have : ∀ r, Cw d' r b * x r = Cw d r b * x r - (u r * x r) * (2 * ∑ k, A.conj (u k) * Cw d k b) := by
    intro r
    rw [cw_hh hA h hl hi hz hn e r b hb, ← hu, hG]
    ring
  simp only [this, Finset.sum_sub_distrib, ← Finset.sum_mul]
  unfold refl
  have : ∀ r, Cw d r b * (x r - 2 * A.conj (u r) * ∑ a, u a * x a) =
      Cw d r b * x r - (A.conj (u r) * Cw d r b) * (2 * ∑ a, u a * x a) := by
    intro r; ring
  simp only [this, Finset.sum_sub_distrib, ← Finset.sum_mul]
  ring

theorem refl_ext (x : M → V) (m : M) (hm : kind m ≠ .int) :
    refl (fun k => A.conj (hhU A d into F k)) (hhU A d into F) x m = x m := by
  unfold refl
  beta_reduce
  rw [hh_conj_out hA hF hi m]
  · ring
  · intro q
    exact hm (h.ki m (h.si m into (hl m q)).1)

theorem sol_hh (e : HhEff A into F (hhU A d into F) (hhInj A d into F) d d') (x : M → V) :
    Sol kind K d' x ↔ Sol kind K d (refl (fun k => A.conj (hhU A d into F k)) (hhU A d into F) x) := by
  constructor
  · intro s
    refine ⟨fun t ht => ?_, fun b hb => ?_⟩
    · rw [← sum_hh hA h hF hl hi hz hn e x t (Or.inl ht)]; exact s.int t ht
    · rw [← sum_hh hA h hF hl hi hz hn e x b (Or.inr hb), refl_ext hA h hF hl hi hz hn x b (by rw [hb]; exact Kind.noConfusion)]
      exact s.snk b hb
  · intro s
    refine ⟨fun t ht => ?_, fun b hb => ?_⟩
    · rw [sum_hh hA h hF hl hi hz hn e x t (Or.inl ht)]; exact s.int t ht
    · rw [sum_hh hA h hF hl hi hz hn e x b (Or.inr hb), ← s.snk b hb,
        refl_ext hA h hF hl hi hz hn x b (by rw [hb]; exact Kind.noConfusion)]

theorem behav_hh (e : HhEff A into F (hhU A d into F) (hhInj A d into F) d d') (p : M → V) :
    Behav kind K d' p ↔ Behav kind K d p := by
  constructor
  · rintro ⟨x, s, hx⟩
    refine ⟨_, (sol_hh hA h hF hl hi hz hn e x).mp s, fun m hm => ?_⟩
    rw [refl_ext hA h hF hl hi hz hn x m hm, hx m hm]
  · rintro ⟨x, s, hx⟩
    refine ⟨refl (fun k => A.conj (hhU A d into F k)) (hhU A d into F) x,
      (sol_hh hA h hF hl hi hz hn e _).mpr ?_, fun m hm => ?_⟩
    · rw [refl_refl (hh_unit hA hF hi hz hn)]; exact s
    · rw [refl_ext hA h hF hl hi hz hn x m hm, hx m hm]

end

end Dag
