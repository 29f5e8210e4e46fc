import Verif.Circuit.Props

/-!
# The piezo transducer, and C131

Source: `/repo/phasor/transducers/PZT.py` l.16-120, `PZTMountedGrounded`: one electrical and one mechanical port.
`env.Ze` is `Ze_termination` and `Zm` is `Zm_termination`.
-/

set_option linter.unusedSectionVars false

namespace Circuit
open Py Inject

variable {P K F : Type} [DecidableEq P] [DecidableEq K] [Field F] [DecidableEq F]

/-- The parameters `capacitance_F`, `k_N_m` and `d_eff_m_V`, l.28-48. -/
structure Pzt (F : Type) where
  C : F
  k : F
  d : F

section
variable (env : Env P K F) (Zm : F) (t : Pzt F)

/-- `See_by_freq`, l.70-72. -/
def Pzt.See (freq : F) : Except Err F :=
  let s := env.i2pi * freq
  pdiv (t.C*env.Ze*Zm*s + t.C*env.Ze*t.k*s - env.Ze*Zm*t.d^2*t.k*s - Zm - t.k)
    (-t.C*env.Ze*Zm*s - t.C*env.Ze*t.k*s + env.Ze*Zm*t.d^2*t.k*s - Zm - t.k)

/-- `Smm_by_freq`, l.74-76. -/
def Pzt.Smm (freq : F) : Except Err F :=
  let s := env.i2pi * freq
  pdiv (env.Ze*Zm*t.d^2*t.k*s - (Zm - t.k)*(t.C*env.Ze*s + 1))
    (-env.Ze*Zm*t.d^2*t.k*s + Zm*(t.C*env.Ze*s + 1) + t.k*(t.C*env.Ze*s + 1))

/-- `Sem_by_freq`, l.78-80. -/
def Pzt.Sem (freq : F) : Except Err F :=
  let s := env.i2pi * freq
  pdiv (2*Zm*t.d*t.k) (-t.C*env.Ze*Zm*s - t.C*env.Ze*t.k*s + env.Ze*Zm*t.d^2*t.k*s - Zm - t.k)

/-- `Sme_by_freq`, l.82-84. -/
def Pzt.Sme (freq : F) : Except Err F :=
  let s := env.i2pi * freq
  pdiv (2*env.Ze*t.d*t.k*s) (-t.C*env.Ze*Zm*s - t.C*env.Ze*t.k*s + env.Ze*Zm*t.d^2*t.k*s - Zm - t.k)

/-- `system_setup_coupling`, l.64-120: from `pe_A` to itself, from `pe_A` to `pm_Z`, back, and from `pm_Z` to itself. -/
def Pzt.setup (A Z : Port P) : Except Err (List (Coupling P K F)) :=
  setup2 env (t.See env Zm) (t.Sem env Zm) (t.Sme env Zm) (t.Smm env Zm) A Z

end

/-- The law of a piezo of capacitance `C` at constant force, stiffness `k` at constant voltage and extension `d` per volt, for
the voltage, current, displacement and force at its ports, at the Laplace variable `s`: the charge is `C V + d G` and
the displacement `d V + G / k`. -/
def Pzt.Law (t : Pzt F) (s V I D G : F) : Prop := I = s * (t.C * V + t.d * G) ∧ D = t.d * V + G / t.k

theorem pzt_solve {t : Pzt F} {Ze Zm s a a' b b' : F} (hZe : Ze ≠ 0) (hZm : Zm ≠ 0) (hk : t.k ≠ 0)
    (hD : -t.C*Ze*Zm*s - t.C*Ze*t.k*s + Ze*Zm*t.d^2*t.k*s - Zm - t.k ≠ 0) :
    (b = (t.C*Ze*Zm*s + t.C*Ze*t.k*s - Ze*Zm*t.d^2*t.k*s - Zm - t.k)
          / (-t.C*Ze*Zm*s - t.C*Ze*t.k*s + Ze*Zm*t.d^2*t.k*s - Zm - t.k) * a
        + (2*Ze*t.d*t.k*s) / (-t.C*Ze*Zm*s - t.C*Ze*t.k*s + Ze*Zm*t.d^2*t.k*s - Zm - t.k) * a'
      ∧ b' = (2*Zm*t.d*t.k) / (-t.C*Ze*Zm*s - t.C*Ze*t.k*s + Ze*Zm*t.d^2*t.k*s - Zm - t.k) * a
        + (Ze*Zm*t.d^2*t.k*s - (Zm - t.k)*(t.C*Ze*s + 1))
          / (-Ze*Zm*t.d^2*t.k*s + Zm*(t.C*Ze*s + 1) + t.k*(t.C*Ze*s + 1)) * a')
    ↔ t.Law s (a + b) ((a - b) / Ze) ((a' - b') / Zm) (a' + b') := by
  have hE : -Ze*Zm*t.d^2*t.k*s + Zm*(t.C*Ze*s + 1) + t.k*(t.C*Ze*s + 1)
      = -(-t.C*Ze*Zm*s - t.C*Ze*t.k*s + Ze*Zm*t.d^2*t.k*s - Zm - t.k) := by ring
  rw [hE]
  obtain ⟨C, k, d⟩ := t
  dsimp only [Pzt.Law] at *
  set Δ := -C*Ze*Zm*s - C*Ze*k*s + Ze*Zm*d^2*k*s - Zm - k with hΔ
  rw [div_eq_iff hZe, div_eq_iff hZm, div_neg, neg_mul, div_mul_eq_mul_div, div_mul_eq_mul_div, div_mul_eq_mul_div,
    div_mul_eq_mul_div, ← add_div, ← sub_eq_add_neg, ← sub_div, eq_div_iff hD, eq_div_iff hD]
  constructor
  · rintro ⟨h1, h2⟩
    constructor
    · apply mul_right_cancel₀ hD
      linear_combination (-1 - s*C*Ze) * h1 - s*d*Ze * h2 + hΔ * 0
    · apply mul_right_cancel₀ (mul_ne_zero hD hk)
      have : (d * (a + b) + (a' + b') / k) * Zm * (Δ * k) = (d * (a + b) * k + (a' + b')) * Zm * Δ := by
        field_simp
      rw [this]
      linear_combination (-d*k*Zm) * h1 + (-k - Zm) * h2
  · rintro ⟨h1, h2⟩
    have h3 : (a' - b') * k = (d * (a + b) * k + (a' + b')) * Zm := by
      have : (d * (a + b) + (a' + b') / k) * Zm * k = (d * (a + b) * k + (a' + b')) * Zm := by field_simp
      rw [← this, h2]
    constructor
    · linear_combination (k + Zm) * h1 - (s*d*Ze) * h3
    · linear_combination (-d*k*Zm) * h1 + (1 + s*C*Ze) * h3

/-- The waves that leave a piezo solve its law when the waves of its mechanical port are read as force `i + o` and displacement
`(i - o) / Zm`.  **C131, in part**: the other elements read them as displacement `i + o` and force `(i - o) / Zm`
(`C89_element`), see `C131_refuted`. -/
theorem C131_law_partial {env : Env P K F} {Zm : F} {t : Pzt F} {A Z : Port P} {cs : List (Coupling P K F)}
    (h : t.setup env Zm A Z = .ok cs) (hn : ∀ p, (env.keys p).Nodup) (hZe : env.Ze ≠ 0) (hZm : Zm ≠ 0) (hk0 : t.k ≠ 0)
    {k : K} (hA : k ∈ env.keys A.i) (hZ : k ∈ env.keys Z.i) (hAZ : A.o ≠ Z.o) (x : P × K → F) (b : P → F) :
    (b A.o = total cs x (A.o, k) ∧ b Z.o = total cs x (Z.o, k)) ↔
    t.Law (env.i2pi * env.freq k) (x (A.i, k) + b A.o) ((x (A.i, k) - b A.o) / env.Ze)
      ((x (Z.i, k) - b Z.o) / Zm) (x (Z.i, k) + b Z.o) := by
  obtain ⟨r, u, u', r', hr, hu, hu', hr', hx⟩ := setup2_into h hn hA hZ hAZ
  obtain ⟨h3, rfl⟩ := pdiv_ok hr
  obtain ⟨-, rfl⟩ := pdiv_ok hu
  obtain ⟨-, rfl⟩ := pdiv_ok hu'
  obtain ⟨-, rfl⟩ := pdiv_ok hr'
  rw [(hx x).1, (hx x).2]
  exact pzt_solve hZe hZm hk0 h3

/-- **C131, refuted.**  A piezo bonded to the other mechanical elements has force and displacement exchanged: for the
displacement `D` and the force `G` of the package it obeys `D = k (G - d V)` instead of `G = k (D - d V)`.  In
particular without any piezo effect it is a spring of stiffness `1 / k`. -/
theorem C131_refuted {env : Env P K F} {Zm : F} {t : Pzt F} {A Z : Port P} {cs : List (Coupling P K F)}
    (h : t.setup env Zm A Z = .ok cs) (hn : ∀ p, (env.keys p).Nodup) (hZe : env.Ze ≠ 0) (hZm : Zm ≠ 0) (hk0 : t.k ≠ 0)
    {k : K} (hA : k ∈ env.keys A.i) (hZ : k ∈ env.keys Z.i) (hAZ : A.o ≠ Z.o) (x : P × K → F) {V D G : F}
    (hV : V = x (A.i, k) + total cs x (A.o, k)) (hDD : D = x (Z.i, k) + total cs x (Z.o, k))
    (hG : G = (x (Z.i, k) - total cs x (Z.o, k)) / Zm) :
    D = t.k * (G - t.d * V) ∧ (t.d = 0 → G = t.k⁻¹ * D)
    ∧ (t.d = 0 → t.k ^ 2 ≠ 1 → D ≠ 0 → G ≠ t.k * (D - t.d * V)) := by
  have hl := (C131_law_partial h hn hZe hZm hk0 hA hZ hAZ x (fun p => total cs x (p, k))).1 ⟨rfl, rfl⟩
  have h1 : G = t.d * V + D / t.k := by rw [hG, hV, hDD]; exact hl.2
  have h2 : D = t.k * (G - t.d * V) := by rw [h1]; field_simp; ring
  refine ⟨h2, fun hd => ?_, fun hd hk2 hD hc => ?_⟩
  · rw [h1, hd, div_eq_inv_mul]; ring
  · rw [hd] at h2 hc
    apply hk2
    apply mul_right_cancel₀ hD
    linear_combination -t.k * hc - h2

/-- **C131, reciprocity.**  The two couplings between the ports are in the ratio of the impedances and the Laplace variable. -/
theorem C131_reciprocal {env : Env P K F} {Zm : F} {t : Pzt F} {f u w : F} (hu : t.Sem env Zm f = .ok u)
    (hw : t.Sme env Zm f = .ok w) : w * Zm = u * env.Ze * (env.i2pi * f) := by
  obtain ⟨h3, rfl⟩ := pdiv_ok hu
  obtain ⟨-, rfl⟩ := pdiv_ok hw
  field_simp

/-- A piezo of 3 F, 5 N/m and 1/2 m/V. -/
def exPzt : Pzt ℚ := ⟨3, 5, 1/2⟩

example : ∃ cs, exPzt.setup cxEnv 1 (cxPort 0) (cxPort 1) = .ok cs ∧ cs ≠ [] := by
  have : (match exPzt.setup cxEnv 1 (cxPort 0) (cxPort 1) with | .ok cs => decide (cs ≠ []) | .error _ => false) = true := by
    decide +kernel
  split at this
  · rename_i cs h; exact ⟨cs, h, of_decide_eq_true this⟩
  · cases this
example : (∀ p, (cxEnv.keys p).Nodup) ∧ cxEnv.Ze ≠ 0 ∧ exPzt.k ≠ 0 ∧ 7 ∈ cxEnv.keys (cxPort 0).i
    ∧ 7 ∈ cxEnv.keys (cxPort 1).i ∧ (cxPort 0).o ≠ (cxPort 1).o := by
  refine ⟨fun _ => (by decide : [0, 1, 7].Nodup), ?_, ?_, ?_, ?_, ?_⟩ <;> simp [cxEnv, exPzt, cxPort]

end Circuit
