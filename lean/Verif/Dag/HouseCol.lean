import Verif.Dag.HouseSol
import Mathlib.Analysis.Real.Sqrt
import Mathlib.Analysis.Complex.Norm
import Mathlib.Tactic.Linarith
import Mathlib.Tactic.Positivity

/-! # The column reflection, and the complex numbers -/

set_option linter.unusedSectionVars false

namespace Dag
open Py Graph

section col
variable {M : Type} {V : Type} [DecidableEq M] [Field V] [DecidableEq V] [Fintype M]
variable {kind : M → Kind} {K : M → Prop} {d d0 : D M V} {A : Alg V}
variable (hA : A.Lawful) (h : Sound kind K d) {into : M} {F : List M} (hF : F.Nodup)
    (hl : ∀ k ∈ F ++ [into], k ∈ at' d.seq into) (hi : into ∉ F)
    (hz : A.abs (ev d into into) ≠ 0) (hn : hhN A (flip d) into F ≠ 0)
include hA h hF hl hi hz hn

theorem ev_flip (_ : A.Lawful) (a b : M) : ev (flip d) a b = ev d b a := by
  unfold ev; rw [flip_em]

theorem cw_hh_col (e : HhEff A into F (hhU A (flip d) into F) (hhInj A (flip d) into F) (flip d) d0) (a b : M) :
    Cw (flip d0) a b = Cw d a b - 2 * hhU A (flip d) into F b *
      lsum (F ++ [into]) (fun k => A.conj (hhU A (flip d) into F k) * Cw d a k) := by
  have hf := sound_flip h
  have hlf : ∀ k ∈ F ++ [into], into ∈ at' (flip d).seq k := fun k hk => (h.mir _ _).mp (hl k hk)
  have hs := sound_hh hf hlf hi e
  have hzf : A.abs (ev (flip d) into into) ≠ 0 := by rwa [ev_flip hA h hF hl hi hz hn hA]
  by_cases ha : K a ∨ kind a = .src
  · rw [cw_flip hs, cw_hh hA hf hlf hi hzf hn e b a (ha.imp id (fun q => (fkind_snk a).mpr q)), cw_flip h]
    congr 2
    apply lsum_congr
    intro k _
    rw [cw_flip h]
  · rw [not_or] at ha
    have dead : ∀ {x : D M V}, Sound kind K x → ∀ s, Cw x a s = 0 := by
      intro x hx s
      unfold Cw
      rw [if_neg]
      rintro (q | q | q)
      · exact ha.1 (hx.si _ _ q).1
      · rcases (hx.bi _ _ q).2 with q | q
        · exact ha.1 q
        · exact ha.2 q.1
      · exact ha.2 (hx.ai _ _ q).1
    rw [dead h, dead (sound_unflip hs), lsum_congr (g := fun _ => 0)]
    · simp [lsum]
    · intro k _
      rw [dead h, mul_zero]

theorem sol_hh_col (e : HhEff A into F (hhU A (flip d) into F) (hhInj A (flip d) into F) (flip d) d0) (x : M → V) :
    Sol kind K (flip d0) x ↔ Sol kind K d x := by
  set u := hhU A (flip d) into F with hu
  have hzf : A.abs (ev (flip d) into into) ≠ 0 := by rwa [ev_flip hA h hF hl hi hz hn hA]
  have hnd := hh_nodup hA hF hi hzf hn hA
  have hE : ∀ b, ∑ r, Cw (flip d0) r b * x r = (∑ r, Cw d r b * x r) -
      2 * u b * lsum (F ++ [into]) (fun k => A.conj (u k) * ∑ r, Cw d r k * x r) := by
    intro b
    have e1 : ∀ r, Cw (flip d0) r b * x r = Cw d r b * x r -
        2 * u b * ∑ k, A.conj (u k) * (Cw d r k * x r) := by
      intro r
      rw [cw_hh_col hA h hF hl hi hz hn e r b, ← hu,
        lsum_eq_sum hnd _ (fun k hk => by rw [hu, hh_conj_out hA hF hi k hk, zero_mul]), sub_mul]
      congr 1
      rw [mul_assoc, Finset.sum_mul]
      congr 1
      apply Finset.sum_congr rfl
      intro k _
      ring
    rw [lsum_eq_sum hnd _ (fun k hk => by rw [hu, hh_conj_out hA hF hi k hk, zero_mul])]
    simp only [e1, Finset.sum_sub_distrib, ← Finset.mul_sum]
    rw [Finset.sum_comm]
    simp only [← Finset.mul_sum]
  have KL : ∀ k ∈ F ++ [into], K k := fun k hk => (h.si into k (hl k hk)).2
  have uz : ∀ b, kind b = .snk → u b = 0 := by
    intro b hb
    rw [hu, hhU_out]
    intro q
    rw [h.ki b (KL b q)] at hb; cases hb
  constructor
  · intro s
    have hG0 : lsum (F ++ [into]) (fun k => A.conj (u k) * ∑ r, Cw d r k * x r) = 0 := by
      set G := lsum (F ++ [into]) (fun k => A.conj (u k) * ∑ r, Cw d r k * x r) with hG
      have e2 : ∀ k ∈ F ++ [into], A.conj (u k) * ∑ r, Cw d r k * x r = A.conj (u k) * u k * (2 * G) := by
        intro k hk
        have := s.int k (KL k hk)
        rw [hE] at this
        rw [sub_eq_zero.mp this]
        ring
      have : G = 2 * G := by
        conv_lhs => rw [hG, lsum_congr e2, lsum_mul, (hh_facts hA hi hzf hn).2.1, one_mul]
      linear_combination -this
    refine ⟨fun t ht => ?_, fun b hb => ?_⟩
    · have := s.int t ht
      rwa [hE, hG0, mul_zero, sub_zero] at this
    · have := s.snk b hb
      rwa [hE, hG0, mul_zero, sub_zero] at this
  · intro s
    refine ⟨fun t ht => ?_, fun b hb => ?_⟩
    · rw [hE, s.int t ht, lsum_congr (g := fun _ => 0)]
      · simp [lsum]
      · intro k hk
        rw [s.int k (KL k hk), mul_zero]
    · rw [hE, uz b hb, mul_zero, zero_mul, sub_zero]
      exact s.snk b hb

end col

/-! ## Complex numbers -/

/-- `conjugate`, `abs` and `**.5` on complex numbers (the square root is only taken of non-negative reals). -/
noncomputable def algC : Alg ℂ where
  conj := fun z => starRingEnd ℂ z
  abs := fun z => (‖z‖ : ℂ)
  sqrt := fun z => (Real.sqrt z.re : ℂ)

theorem abssq_C (l : List ℂ) : (l.map algC.abssq).sum = (((l.map (fun z => ‖z‖ ^ 2)).sum : ℝ) : ℂ) := by
  induction l with
  | nil => simp
  | cons z l ih =>
    rw [List.map_cons, List.sum_cons, ih, List.map_cons, List.sum_cons, Complex.ofReal_add]
    congr 1
    show z * starRingEnd ℂ z = _
    rw [Complex.mul_conj, Complex.normSq_eq_norm_sq]

theorem nonneg_C (l : List ℂ) : 0 ≤ (l.map (fun z => ‖z‖ ^ 2)).sum := by
  apply List.sum_nonneg
  intro x hx
  obtain ⟨z, _, rfl⟩ := List.mem_map.mp hx
  positivity

theorem algC_lawful : algC.Lawful where
  conj_add := fun a b => map_add _ a b
  conj_mul := fun a b => map_mul _ a b
  conj_conj := fun a => Complex.conj_conj a
  abs_sq := fun a => by
    show (‖a‖ : ℂ) * (‖a‖ : ℂ) = a * starRingEnd ℂ a
    rw [Complex.mul_conj, Complex.normSq_eq_norm_sq]
    push_cast
    ring
  conj_abs := fun a => Complex.conj_ofReal _
  sqrt_sq := fun l => by
    rw [abssq_C]
    show ((Real.sqrt (((_ : ℝ) : ℂ)).re : ℝ) : ℂ) * ((Real.sqrt (((_ : ℝ) : ℂ)).re : ℝ) : ℂ) = _
    rw [Complex.ofReal_re, ← Complex.ofReal_mul, Real.mul_self_sqrt (nonneg_C l)]
  conj_sqrt := fun a => Complex.conj_ofReal _

theorem hhN_C_ne {M : Type} [DecidableEq M] {d : D M ℂ} {into : M} {F : List M} (hz : ev d into into ≠ 0) :
    hhN algC d into F ≠ 0 := by
  set e := ev d into into with he
  set l := F.map (fun k => ev d k into) with hl
  have h1 : ∀ w : ℂ, lsum F (fun k => algC.abssq (ev d k into)) + algC.abssq w
      = ((((l ++ [w]).map (fun z => ‖z‖ ^ 2)).sum : ℝ) : ℂ) := by
    intro w
    rw [← abssq_C, List.map_append, List.sum_append, hl, List.map_map]
    simp [lsum, Function.comp_def]
  have hw : hhW algC d into F = ((1 + Real.sqrt ((l ++ [e]).map (fun z => ‖z‖ ^ 2)).sum / ‖e‖ : ℝ) : ℂ) * e := by
    unfold hhW
    rw [← he, h1 e]
    show e + ((Real.sqrt (((_ : ℝ) : ℂ)).re : ℝ) : ℂ) * e / (‖e‖ : ℂ) = _
    rw [Complex.ofReal_re]
    push_cast
    ring
  have hpos : 0 < ‖e‖ := norm_pos_iff.mpr hz
  have hwn : hhW algC d into F ≠ 0 := by
    rw [hw]
    apply mul_ne_zero _ hz
    rw [Ne, Complex.ofReal_eq_zero]
    positivity
  unfold hhN
  rw [h1]
  show ((Real.sqrt (((_ : ℝ) : ℂ)).re : ℝ) : ℂ) ≠ 0
  rw [Complex.ofReal_re, Ne, Complex.ofReal_eq_zero, Real.sqrt_eq_zero (nonneg_C _), List.map_append, List.sum_append]
  have := nonneg_C l
  have h2 : 0 < ‖hhW algC d into F‖ := norm_pos_iff.mpr hwn
  have h3 : 0 < ‖hhW algC d into F‖ ^ 2 := by positivity
  simp only [List.map_cons, List.map_nil, List.sum_cons, List.sum_nil, add_zero]
  exact ne_of_gt (by linarith)

theorem algC_abs_ne {e : ℂ} : algC.abs e ≠ 0 ↔ e ≠ 0 := by
  show (‖e‖ : ℂ) ≠ 0 ↔ _
  rw [Ne, Complex.ofReal_eq_zero, norm_eq_zero]

end Dag
