import Verif.Shot.Table

/-!
# C88 for photodiodes: the response is half the derivative

Sources: `/repo/phasor/optics/nonlinear_utilities.py` l.251-330 (`modulations_fill_2optical_2classical`), whose couplings into the
photodiode are multiplicative edges, `/repo/phasor/system/matrix_injections.py` l.92-120.
-/

set_option linter.unusedSectionVars false

namespace Shot
open Py Inject Circuit Optics
open Signal (Balanced)

section
variable {P O K F : Type} [DecidableEq P] [DecidableEq O] [DecidableEq K] [AddCommGroup K]
variable [Field F] [StarRing F] [DecidableEq F] (env : OEnv P O K F) (sol : SolVec P (Key O K) F)

/-- **C88, what holds for photodiodes.**  When `ε y` is added to the fields of the solution, the output of the photodiode
changes by `2 ε` times the response of the linear system to `y`, up to the square of `ε`: the response is half the
derivative, at every frequency. -/
theorem C88_photodiode (h2 : (2 : F) ≠ 0) (ht : ∀ k : K, -k = k → k = 0) (po_Fr : Port P) (BA Wpd : P)
    (hn : (env.okeys po_Fr.i).Nodup)
    (hconj : ∀ k ∈ env.okeys po_Fr.i, ({ k with q := k.q.conj } : OKey O K) ∈ env.okeys po_Fr.i)
    (hr : ∀ k ∈ env.okeys po_Fr.i, env.reject k.cls = false)
    (hB : Balanced (env.skeys BA)) (hW : Balanced (env.skeys Wpd)) {cs : List (Coupling P (Key O K) F)}
    (h : pd_setup env po_Fr BA Wpd = .ok cs)
    (hsol : ∀ k, k ∉ env.okeys po_Fr.i → getd sol (po_Fr.i, .opt k) 0 = 0) {δ : K} (hδ : δ ∈ env.skeys Wpd)
    (y : P × Key O K → F) (hy : ∀ k, k ∉ env.okeys po_Fr.i → y (po_Fr.i, .opt k) = 0) (ε : F) :
    (cs.map (fun c => c.into (fun n => getd sol n 0 + ε * y n) (Wpd, .sig δ))).sum =
      (cs.map (fun c => c.into (fun n => getd sol n 0) (Wpd, .sig δ))).sum +
      2 * ε * ∑ k ∈ (env.okeys po_Fr.i).toFinset, (cs.map (fun c => (c.inj.edges.map (fun e =>
        if e.1 = ((po_Fr.i, .opt k), (Wpd, .sig δ)) then evalD sol e.2 else 0)).sum)).sum * y (po_Fr.i, .opt k) +
      ε ^ 2 * (cs.map (fun c => c.into y (Wpd, .sig δ))).sum := by
  rw [C65_coefficient env h2 ht po_Fr BA Wpd hn hconj hr hB hW h _ (fun k hk => by
      show getd sol (po_Fr.i, .opt k) 0 + ε * y (po_Fr.i, .opt k) = 0
      rw [hsol k hk, hy k hk, mul_zero, add_zero]) hδ,
    C65_coefficient env h2 ht po_Fr BA Wpd hn hconj hr hB hW h _ hsol hδ,
    C65_coefficient env h2 ht po_Fr BA Wpd hn hconj hr hB hW h _ hy hδ,
    response_sum env sol ht po_Fr BA Wpd hn hconj hr hW h hsol hδ (fun k => y (po_Fr.i, .opt k))]
  have hc : (if δ = 0 then (1 : F) else 2) = 2 / (if δ = 0 then 2 else 1) := by
    split_ifs
    · rw [div_self h2]
    · rw [div_one]
  rw [hc]
  generalize (if δ = 0 then (2 : F) else 1) = w
  have hmul : ∀ A B C D : F, A = B + ε * C + ε ^ 2 * D → 2 / w * A = 2 / w * B + 2 * ε * (C / w) + ε ^ 2 * (2 / w * D) := by
    intro A B C D e
    rw [e]
    ring
  apply hmul
  rw [← Finset.sum_add_distrib, Finset.mul_sum, Finset.mul_sum, ← Finset.sum_add_distrib, ← Finset.sum_add_distrib]
  apply Finset.sum_congr rfl
  intro a _
  rw [← Finset.sum_add_distrib, Finset.mul_sum, Finset.mul_sum, ← Finset.sum_add_distrib, ← Finset.sum_add_distrib]
  apply Finset.sum_congr rfl
  intro b _
  have hbe : Beat δ a b ↔ a.q = .lower ∧ b.q = .raise ∧ a.opt = b.opt ∧ a.pol = b.pol ∧ a.cls = b.cls + δ := Iff.rfl
  by_cases hb : Beat δ a b
  · have hb' := hbe.1 hb
    simp only [if_pos hb, if_pos hb']
    ring
  · have hb' := (not_congr hbe).1 hb
    simp only [if_neg hb, if_neg hb']
    ring

end

/-- the light whose carrier grows -/
noncomputable def tgrow : Fin 10 × Key Unit ℤ → ℂ := fun n =>
  if n = ((6 : Fin 10), .opt ⟨(), 0, .S, .lower⟩) ∨ n = ((6 : Fin 10), .opt ⟨(), 0, .S, .raise⟩) then 1 else 0

theorem tgrow_eq (k : OKey Unit ℤ) : tgrow (6, .opt k) =
    if k = ⟨(), 0, .S, .lower⟩ ∨ k = ⟨(), 0, .S, .raise⟩ then 1 else 0 := by
  have h : ∀ a : OKey Unit ℤ, (((6 : Fin 10), Key.opt k) = (6, Key.opt a)) ↔ k = a := by
    intro a
    constructor
    · intro h
      injection h with _ h
      injection h with h
    · rintro rfl
      rfl
  unfold tgrow
  simp only [h]

/-- **C88 fails for photodiodes**: in the light of 5 W with the amplitude `2 + i`, let `ε` be added to the amplitude.  The power
is `5 + 4 ε + ε²`, but the response of the photodiode is 2, half the derivative. -/
theorem C88_photodiode_refuted : ∃ cs : List (Coupling (Fin 10) (Key Unit ℤ) ℂ), pd_setup tenv ⟨6, 7⟩ 9 8 = .ok cs ∧
    (∀ ε : ℂ, (cs.map (fun c => c.into (fun n => getd tsol n 0 + ε * tgrow n) ((8 : Fin 10), .sig 0))).sum =
      5 + 4 * ε + ε ^ 2) ∧
    ∑ k ∈ tks.toFinset, (cs.map (fun c => (c.inj.edges.map (fun e =>
        if e.1 = (((6 : Fin 10), .opt k), ((8 : Fin 10), .sig 0)) then evalD tsol e.2 else 0)).sum)).sum * tgrow (6, .opt k) = 2 := by
  have hbal : Balanced ([0, 1, -1] : List ℤ) := ⟨by decide, by decide⟩
  have hresp : ∑ k ∈ tks.toFinset, (tpd.map (fun c => (c.inj.edges.map (fun e =>
        if e.1 = (((6 : Fin 10), .opt k), ((8 : Fin 10), .sig 0)) then evalD tsol e.2 else 0)).sum)).sum * tgrow (6, .opt k) = 2 := by
    obtain ⟨r1, -⟩ := C85_response (env := tenv) (sol := tsol) (fun k h => by omega) ⟨6, 7⟩ 9 8 (by decide) tks_conj (fun _ _ => rfl)
      hbal tpd_eq tsol_out (show (0 : ℤ) ∈ [0, 1, -1] by decide) (o := ()) (f := 0) (p := .S)
    obtain ⟨-, r2⟩ := C85_response (env := tenv) (sol := tsol) (fun k h => by omega) ⟨6, 7⟩ 9 8 (by decide) tks_conj (fun _ _ => rfl)
      hbal tpd_eq tsol_out (show (0 : ℤ) ∈ [0, 1, -1] by decide) (o := ()) (f := 0) (p := .S)
    have r1 := r1 (by decide)
    have r2 := r2 (by decide)
    rw [if_pos rfl, tsol_eq, if_neg (by decide), if_pos (by decide)] at r1
    rw [if_pos rfl, tsol_eq, if_pos (by decide)] at r2
    rw [Finset.sum_eq_add (⟨(), 0, .S, .lower⟩ : OKey Unit ℤ) ⟨(), 0, .S, .raise⟩ (by decide)]
    · rw [r1, r2, tgrow_eq, tgrow_eq, if_pos (Or.inl rfl), if_pos (Or.inr rfl)]
      ring
    · rintro c _ ⟨h1, h2⟩
      rw [tgrow_eq, if_neg (not_or.2 ⟨h1, h2⟩), mul_zero]
    · intro h
      exact absurd (List.mem_toFinset.2 (by decide)) h
    · intro h
      exact absurd (List.mem_toFinset.2 (by decide)) h
  refine ⟨tpd, tpd_eq, fun ε => ?_, hresp⟩
  rw [C65_coefficient tenv two_ne_zero (fun k h => by omega) ⟨6, 7⟩ 9 8 (by decide) tks_conj (fun _ _ => rfl) hbal hbal tpd_eq
    (fun n => getd tsol n 0 + ε * tgrow n) ?_ (show (0 : ℤ) ∈ [0, 1, -1] by decide)]
  · rw [if_pos rfl, one_mul]
    have hf : ∀ k : OKey Unit ℤ, getd tsol (6, .opt k) 0 + ε * tgrow (6, .opt k) =
        if k = ⟨(), 0, .S, .lower⟩ then 2 + Complex.I + ε else if k = ⟨(), 0, .S, .raise⟩ then 2 - Complex.I + ε else 0 := by
      intro k
      rw [tsol_eq, tgrow_eq]
      split_ifs <;> simp_all
    simp only [hf]
    change ∑ a ∈ tks.toFinset, ∑ b ∈ tks.toFinset, _ = _
    rw [List.sum_toFinset _ (by decide)]
    simp only [List.sum_toFinset _ (show tks.Nodup by decide)]
    simp [tks]
    linear_combination (-1 : ℂ) * Complex.I_sq
  · intro k hk
    show getd tsol (6, .opt k) 0 + ε * tgrow (6, .opt k) = 0
    rw [tsol_out k hk, tgrow_eq, if_neg, mul_zero, add_zero]
    rintro (rfl | rfl)
    · exact hk (by decide)
    · exact hk (by decide)

/-- the hypotheses of `C88_photodiode` are met: at the frequency 1, the light whose upper sideband appears -/
example (y : Fin 10 × Key Unit ℤ → ℂ) (hy : ∀ k, k ∉ tks → y (6, .opt k) = 0) (ε : ℂ) :=
  C88_photodiode tenv tsol two_ne_zero (fun k h => by omega) ⟨6, 7⟩ 9 8 (by decide) tks_conj (fun _ _ => rfl)
    (show Balanced [0, 1, -1] from ⟨by decide, by decide⟩) (show Balanced [0, 1, -1] from ⟨by decide, by decide⟩) tpd_eq
    tsol_out (show (1 : ℤ) ∈ [0, 1, -1] by decide) y hy ε

end Shot
