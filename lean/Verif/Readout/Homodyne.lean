import Mathlib.Tactic.LinearCombination
import Verif.Noise.Props
import Verif.Readout.HomodyneModel

/-!
# C82: a homodyne readout at a phase reads the rotated quadrature
-/

set_option linter.unusedSectionVars false

namespace Readout
open Py Noise Inject

theorem rad_add (a b : ℝ) : rad (a + b) = rad a + rad b := by
  unfold rad
  ring

theorem rotate_00 (φ : ℝ) (N : Mat2 ℂ) : rotate φ N 0 0 =
    (Real.cos (rad φ) : ℂ) ^ 2 * N 0 0 + Real.cos (rad φ) * Real.sin (rad φ) * (N 0 1 + N 1 0) +
      (Real.sin (rad φ) : ℂ) ^ 2 * N 1 1 := by
  simp only [rotate, rotation_matrix, Fin.sum_univ_two, Matrix.of_apply, Matrix.cons_val_zero, Matrix.cons_val_one]
  ring

variable {P K O : Type} [DecidableEq P] [DecidableEq K] [DecidableEq O]
variable {keyP keyN : K} {adjust : ℂ} {S : Pair P K O → ℂ} {cm : Dict ((P × K) × (P × K)) ℂ}
variable {cplgs : Dict P (List K)} {base : P → P} {calls : List (Pair P K O)} {st : St P K O}

/-- `HomodyneNoiseReadout`, `homodyne_AC.py` l.325-342: the ports of the two quadratures. -/
def IQ_map (portNI portNQ : P) : Dict (Fin 2) P := [(0, portNI), (1, portNQ)]

theorem IQ_map_WF (pI pQ : P) : Dict.WF (IQ_map pI pQ) := by
  change ([0, 1] : List (Fin 2)).Nodup
  decide

theorem npreal_add (a b : ℂ) : npreal (a + b) = npreal a + npreal b := by
  unfold npreal
  rw [Complex.add_re, Complex.ofReal_add]

theorem npreal_idem (a : ℂ) : npreal (npreal a) = npreal a := by
  unfold npreal
  rw [Complex.ofReal_re]

theorem npreal_smul (r : ℝ) (a : ℂ) : npreal (r * a) = r * npreal a := by
  unfold npreal
  rw [Complex.re_ofReal_mul, Complex.ofReal_mul]

/-- **C82**: the spectral density of a homodyne readout at a phase is that of a noise readout of a port which carries
`cos φ I + sin φ Q`. -/
theorem C82_rotated (hst : noise_map cplgs base calls = .ok st) (hcm : Dict.WF cm) {pI pQ pR : P} {φ : ℝ}
    (hR : ∀ d k, k = keyP ∨ k = keyN → resp cm d (pR, k) =
      Real.cos (φ * Real.pi / 180) * resp cm d (pI, k) + Real.sin (φ * Real.pi / 180) * resp cm d (pQ, k)) :
    AC_PSD () (CSD_builds [((), pR)] keyP keyN adjust S cm st.nmap) =
      .ok (npreal (homodyne_PSD φ (CSD_mat (CSD_builds (IQ_map pI pQ) keyP keyN adjust S cm st.nmap)))) := by
  have h1 := C77_csd (a := ()) (b := ()) (port_map := [((), pR)]) (keyP := keyP) (keyN := keyN) (adjust := adjust) (S := S)
    hst hcm (by change ([()] : List Unit).Nodup; decide) rfl rfl
  have hW := IQ_map_WF pI pQ
  have g : ∀ i j : Fin 2, CSD_mat (CSD_builds (IQ_map pI pQ) keyP keyN adjust S cm st.nmap) i j =
      if i = j then npreal (calls.map (spectrum adjust S cm keyP keyN (if i = 0 then pI else pQ) (if j = 0 then pI else pQ))).sum
        else (calls.map (spectrum adjust S cm keyP keyN (if i = 0 then pI else pQ) (if j = 0 then pI else pQ))).sum := by
    have hg : ∀ i : Fin 2, Dict.get? (IQ_map pI pQ) i = some (if i = 0 then pI else pQ) := by
      intro i
      fin_cases i <;> rfl
    intro i j
    unfold CSD_mat
    rw [C77_csd (keyP := keyP) (keyN := keyN) (adjust := adjust) (S := S) hst hcm hW (hg i) (hg j)]
    rfl
  unfold AC_PSD Dict.get
  rw [h1]
  rw [if_pos rfl]
  change Except.ok _ = _
  refine congrArg Except.ok ?_
  unfold homodyne_PSD AC_CSD_IQ
  rw [rotate_00, g, g, g, g]
  simp only [if_true, show ((0 : Fin 2) = 1) = False by decide, show ((1 : Fin 2) = 0) = False by decide, if_false]
  have e : (calls.map (spectrum adjust S cm keyP keyN pR pR)).sum =
      (Real.cos (rad φ) : ℂ) ^ 2 * (calls.map (spectrum adjust S cm keyP keyN pI pI)).sum +
      Real.cos (rad φ) * Real.sin (rad φ) * ((calls.map (spectrum adjust S cm keyP keyN pI pQ)).sum +
        (calls.map (spectrum adjust S cm keyP keyN pQ pI)).sum) +
      (Real.sin (rad φ) : ℂ) ^ 2 * (calls.map (spectrum adjust S cm keyP keyN pQ pQ)).sum := by
    clear h1 g hst
    induction calls with
    | nil => simp
    | cons c calls ih =>
      simp only [List.map_cons, List.sum_cons]
      rw [ih]
      have : spectrum adjust S cm keyP keyN pR pR c =
          (Real.cos (rad φ) : ℂ) ^ 2 * spectrum adjust S cm keyP keyN pI pI c +
          Real.cos (rad φ) * Real.sin (rad φ) * (spectrum adjust S cm keyP keyN pI pQ c +
            spectrum adjust S cm keyP keyN pQ pI c) +
          (Real.sin (rad φ) : ℂ) ^ 2 * spectrum adjust S cm keyP keyN pQ pQ c := by
        unfold Noise.spectrum
        rw [hR _ _ (Or.inl rfl), hR _ _ (Or.inr rfl)]
        unfold rad
        ring
      rw [this]
      ring
  rw [e]
  have c2 : ∀ r : ℝ, ((r : ℂ)) ^ 2 = ((r ^ 2 : ℝ) : ℂ) := fun r => by norm_num
  have cs : ∀ r q : ℝ, (r : ℂ) * (q : ℂ) = ((r * q : ℝ) : ℂ) := fun r q => by norm_num
  simp only [c2, cs, npreal_add, npreal_smul, npreal_idem]

/-- **C82**: the sensitivity of a homodyne readout at a phase is that of an AC readout of a port which carries
`cos φ I + sin φ Q`. -/
theorem C82_sensitivity {pI pQ pR pD : P} {drv : Option P} {φ : ℝ}
    (hR : ∀ k, cget cm (ac_drive pD drv, k) (pR, keyP) = Real.cos (φ * Real.pi / 180) * cget cm (ac_drive pD drv, k) (pI, keyP) +
      Real.sin (φ * Real.pi / 180) * cget cm (ac_drive pD drv, k) (pQ, keyP)) {sI sQ : ℂ}
    (hI : AC_sensitivityOL cm keyP keyN pI pD drv = .ok sI) (hQ : AC_sensitivityOL cm keyP keyN pQ pD drv = .ok sQ) :
    AC_sensitivityOL cm keyP keyN pR pD drv = .ok (homodyne_sensitivity φ ![sI, sQ]) := by
  unfold AC_sensitivityOL pdiv at *
  split_ifs at hI with h0
  rw [if_neg h0] at hQ ⊢
  injection hI with hI
  injection hQ with hQ
  refine congrArg Except.ok ?_
  simp only [homodyne_sensitivity, AC_sensitivity_IQ, Matrix.cons_val_zero, Matrix.cons_val_one]
  rw [← hI, ← hQ]
  unfold rad tot
  rw [hR, hR]
  ring

/-- **C82**: turning by one phase and then by another is turning by their sum. -/
theorem C82_turn (φ ψ : ℝ) (N : Mat2 ℂ) (s : Fin 2 → ℂ) :
    AC_CSD_IQ ψ (AC_CSD_IQ φ N) = AC_CSD_IQ (φ + ψ) N ∧
    AC_sensitivity_IQ ψ (AC_sensitivity_IQ φ s) = AC_sensitivity_IQ (φ + ψ) s := by
  constructor
  · ext i k
    simp only [AC_CSD_IQ, rotate, rotation_matrix, rad_add, Real.cos_add, Real.sin_add, Fin.sum_univ_two]
    fin_cases i <;> fin_cases k <;>
    · simp
      ring
  · funext i
    simp only [AC_sensitivity_IQ, rad_add, Real.cos_add, Real.sin_add]
    fin_cases i <;>
    · simp
      ring

/-- **C82**: the densities of the sources add up to the density. -/
theorem C82_by_source (hst : noise_map cplgs base calls = .ok st) (hcm : Dict.WF cm) {pI pQ : P} {φ : ℝ} :
    ((homodyne_PSD_by_source φ (CSD_builds (IQ_map pI pQ) keyP keyN adjust S cm st.nmap)).map Prod.snd).sum =
      homodyne_PSD φ (CSD_mat (CSD_builds (IQ_map pI pQ) keyP keyN adjust S cm st.nmap)) := by
  have hW := IQ_map_WF pI pQ
  have g : ∀ i j : Fin 2, CSD_mat (CSD_builds (IQ_map pI pQ) keyP keyN adjust S cm st.nmap) i j =
      ((CSD_builds (IQ_map pI pQ) keyP keyN adjust S cm st.nmap).ncollect.map
        (fun e => (Dict.get? e.2 (i, j)).getD 0)).sum := by
    have hg : ∀ i : Fin 2, Dict.get? (IQ_map pI pQ) i = some (if i = 0 then pI else pQ) := by
      intro i
      fin_cases i <;> rfl
    intro i j
    unfold CSD_mat
    rw [(C77_by_source (keyP := keyP) (keyN := keyN) (adjust := adjust) (S := S) hst hcm hW (hg i) (hg j)).2]
    rfl
  unfold homodyne_PSD AC_CSD_IQ
  rw [rotate_00, g, g, g, g]
  unfold homodyne_PSD_by_source
  generalize (CSD_builds (IQ_map pI pQ) keyP keyN adjust S cm st.nmap).ncollect = nc
  clear g
  induction nc with
  | nil => simp
  | cons e nc ih =>
    simp only [List.map_cons, List.sum_cons]
    rw [ih, rotate_00]
    unfold CSD_mat_of
    ring

end Readout
