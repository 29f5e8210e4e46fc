import Verif.Readout.Optimal

/-!
# C82, C83, C84: examples
-/

set_option linter.unusedSectionVars false

namespace Readout
open Py Noise Inject

/-! ## one source seen by both quadratures -/

/-- Port 0 is the source and the drive, 1 and 2 are the quadratures, 3 their combination. -/
def hxCplgs : Dict (Fin 4) (List Bool) := [(0, [true, false])]

def hxCalls : List (Pair (Fin 4) Bool Unit) := pairs (fun p => (Dict.get? hxCplgs p).getD []) (fun k => !k) 0 ()

def hxSt : St (Fin 4) Bool Unit :=
  ⟨[((0, true), [((0, false), [⟨(0, true), (0, false), ()⟩])]), ((0, false), [((0, true), [⟨(0, false), (0, true), ()⟩])])],
    [(0, true), (0, false)]⟩

theorem hxSt_ok : noise_map hxCplgs id hxCalls = .ok hxSt := by rfl

def hxI (k : Bool) : ℂ := ⟨2, if k then 3 else -3⟩

def hxQ (k : Bool) : ℂ := ⟨1, if k then -1 else 1⟩

noncomputable def hxR (φ : ℝ) (k : Bool) : ℂ :=
  Real.cos (φ * Real.pi / 180) * hxI k + Real.sin (φ * Real.pi / 180) * hxQ k

noncomputable def hxCm (φ : ℝ) : Dict ((Fin 4 × Bool) × (Fin 4 × Bool)) ℂ :=
  [(((0, true), (0, true)), 1), (((0, true), (1, true)), hxI true), (((0, true), (2, true)), hxQ true), (((0, true), (3, true)), hxR φ true),
    (((0, false), (0, false)), 1), (((0, false), (1, false)), hxI false), (((0, false), (2, false)), hxQ false), (((0, false), (3, false)), hxR φ false)]

theorem hxCm_WF (φ : ℝ) : Dict.WF (hxCm φ) := by
  change ([((0, true), (0, true)), ((0, true), (1, true)), ((0, true), (2, true)), ((0, true), (3, true)), ((0, false), (0, false)), ((0, false), (1, false)),
    ((0, false), (2, false)), ((0, false), (3, false))] : List ((Fin 4 × Bool) × (Fin 4 × Bool))).Nodup
  decide

theorem hx_resp (φ : ℝ) (d : Fin 4 × Bool) (k : Bool) : resp (hxCm φ) d (3, k) =
    Real.cos (φ * Real.pi / 180) * resp (hxCm φ) d (1, k) + Real.sin (φ * Real.pi / 180) * resp (hxCm φ) d (2, k) := by
  obtain ⟨p, q⟩ := d
  fin_cases p <;> cases q <;> cases k <;> simp [resp, hxCm, Dict.get?, hxR]

/-- The example meets the hypotheses of `C82_rotated` at every phase. -/
example (φ : ℝ) : AC_PSD () (CSD_builds [((), 3)] true false 2 (fun _ => 5) (hxCm φ) hxSt.nmap) =
    .ok (npreal (homodyne_PSD φ (CSD_mat (CSD_builds (IQ_map 1 2) true false 2 (fun _ => 5) (hxCm φ) hxSt.nmap)))) :=
  C82_rotated hxSt_ok (hxCm_WF φ) (fun d k _ => hx_resp φ d k)

theorem hx_ol (φ : ℝ) (p : Fin 4) :
    AC_sensitivityOL (hxCm φ) true false p 0 none = .ok (cget (hxCm φ) (0, true) (p, true)) := by
  have h : ∀ q : Fin 4, tot (hxCm φ) true false 0 q = cget (hxCm φ) (0, true) (q, true) := by
    intro q
    unfold tot
    have : cget (hxCm φ) (0, false) (q, true) = 0 := by
      fin_cases q <;> rfl
    rw [this, add_zero]
  unfold AC_sensitivityOL ac_drive pdiv
  rw [Option.getD_none, h, h, show cget (hxCm φ) (0, true) (0, true) = 1 from rfl, if_neg one_ne_zero, div_one]

/-- The example meets the hypotheses of `C82_sensitivity`, with the sensitivities `2 + 3i` and `1 - i`. -/
example (φ : ℝ) : AC_sensitivityOL (hxCm φ) true false 3 0 none =
    .ok (homodyne_sensitivity φ ![⟨2, 3⟩, ⟨1, -1⟩]) := by
  refine C82_sensitivity (pI := 1) (pQ := 2) ?_ ?_ ?_
  · intro k
    exact hx_resp φ (0, k) true
  · exact hx_ol φ 1
  · exact hx_ol φ 2

/-- `C82_by_source` for the example. -/
example (φ : ℝ) : ((homodyne_PSD_by_source φ (CSD_builds (IQ_map 1 2) true false 2 (fun _ => 5) (hxCm φ) hxSt.nmap)).map
    Prod.snd).sum = homodyne_PSD φ (CSD_mat (CSD_builds (IQ_map 1 2) true false 2 (fun _ => 5) (hxCm φ) hxSt.nmap)) :=
  C82_by_source hxSt_ok (hxCm_WF φ)

/-! ## an ellipse -/

/-- The densities `5`, `2` with the correlation `2 + i`. -/
def exN : Mat2 ℂ := !![5, ⟨2, 1⟩; ⟨2, -1⟩, 2]

theorem exN_dens : Dens exN where
  herm := fun i j => by
    fin_cases i <;> fin_cases j <;> simp [exN, Complex.ext_iff]
  pos := by simp [exN]
  det := by
    simp [exN]
    norm_num

theorem zero_turn (N : Mat2 ℂ) : AC_CSD_IQ 0 N = N := by
  ext i j
  fin_cases i <;> fin_cases j <;> simp [AC_CSD_IQ, rotate, rotation_matrix, rad]

/-- The axes of its ellipse are `1` and `6`. -/
theorem exN_axes : (AC_CSD_ellipse 0 exN).min = 1 ∧ (AC_CSD_ellipse 0 exN).max = 6 := by
  have : Real.sqrt ((5 - 2) ^ 2 + 4 * (2 * 2)) = 5 := by
    rw [show ((5 : ℝ) - 2) ^ 2 + 4 * (2 * 2) = 5 ^ 2 by norm_num, Real.sqrt_sq (by norm_num)]
  constructor <;>
  · simp only [AC_CSD_ellipse, ellipse, zero_turn]
    simp [re_mat, exN]
    norm_num at this ⊢
    rw [this]
    norm_num

/-- The example meets the hypotheses of `C83_angle` and `C83_axes`: no phase has a density below `1`, one has it. -/
example : (∀ ψ, 1 ≤ (homodyne_PSD ψ exN).re ∧ (homodyne_PSD ψ exN).re ≤ 6) ∧ (∃ ψ, (homodyne_PSD ψ exN).re = 1) ∧
    (homodyne_PSD (0 - 180 * (AC_CSD_ellipse 0 exN).rad / Real.pi) exN).re = 6 := by
  have h := C83_axes 0 exN_dens.re
  have h2 := C83_angle 0 exN_dens.re (by rw [exN_axes.1, exN_axes.2]; norm_num)
  rw [exN_axes.1, exN_axes.2] at h
  rw [exN_axes.2] at h2
  exact ⟨h.1, h.2.1, h2.1⟩

/-- The example meets the hypotheses of `C83_conditional`: subtracting the second quadrature leaves the density `3` of the
first one, subtracting the first `6/5` of the second one. -/
example : Imin 0 exN = .ok 3 ∧ Qmin 0 exN = .ok (6 / 5) ∧ 0 < (AC_CSD_IQ 0 exN 1 1).re ∧ 0 < (AC_CSD_IQ 0 exN 0 0).re := by
  refine ⟨?_, ?_, ?_, ?_⟩
  · simp only [Imin, zero_turn]
    simp [re_mat, exN, pdiv]
    norm_num
  · simp only [Qmin, zero_turn]
    simp [re_mat, exN, pdiv]
    norm_num
  · rw [zero_turn]
    simp [exN]
  · rw [zero_turn]
    simp [exN]

/-! ## the best phase -/

/-- The example meets the hypotheses of `C84_bound`: sensitivities in quadrature. -/
example (φ : ℝ) : ∃ o n : ℝ, AC_noise_limited_sensitivity_optimal φ exN ![1, Complex.I] = .ok (o : ℂ) ∧
    AC_noise_limited_sensitivity 0 exN ![1, Complex.I] = .ok (n : ℂ) ∧ 0 < o ∧ o ≤ n :=
  C84_bound exN_dens (by simp [homodyne_sensitivity, AC_sensitivity_IQ, rad])

/-- They attain it at no phase; sensitivities with a real ratio do. -/
example (φ : ℝ) : (¬∃ ψ, AC_noise_limited_sensitivity ψ exN ![1, Complex.I] =
      AC_noise_limited_sensitivity_optimal φ exN ![1, Complex.I]) ∧
    ∃ ψ, AC_noise_limited_sensitivity ψ exN ![Complex.I, -3 * Complex.I] =
      AC_noise_limited_sensitivity_optimal φ exN ![Complex.I, -3 * Complex.I] := by
  rw [C84_attained exN_dens (Or.inl (by simp)), C84_attained exN_dens (Or.inl (by simp))]
  constructor
  · simp
  · simp

/-- The densities `5`, `2` with the real correlation `2`. -/
def exNr : Mat2 ℂ := !![5, 2; 2, 2]

theorem exNr_dens : Dens exNr where
  herm := fun i j => by
    fin_cases i <;> fin_cases j <;> simp [exNr]
  pos := by simp [exNr]
  det := by
    simp [exNr]
    norm_num

/-- The example meets the hypotheses of `C84_readout_partial`, with the weights `(1, 3)`. -/
example : ∃ ψ, optimal_readout 0 exNr ![11, 8] = .ok ψ ∧
    AC_noise_limited_sensitivity ψ exNr ![11, 8] = AC_noise_limited_sensitivity_optimal 0 exNr ![11, 8] := by
  refine C84_readout_partial exNr_dens (z := 1) (p := ![1, 3]) ?_ ?_ (Or.inl (by simp)) ?_
  · intro i
    fin_cases i <;> simp
  · intro i j
    rw [zero_turn]
    fin_cases i <;> fin_cases j <;> simp [exNr]
  · intro i
    rw [zero_turn]
    fin_cases i <;> simp [exNr, AC_sensitivity_IQ, rad, Fin.sum_univ_two] <;> norm_num

end Readout
