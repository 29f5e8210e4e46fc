import Verif.Optics.Examples
import Verif.Noise.Examples
import Verif.Shot.Bench
import Verif.Shot.Mirrors

/-!
# Examples for C85 and C86
-/

set_option linter.unusedSectionVars false

namespace Shot
open Py Inject Circuit Optics
open Signal (Balanced)

/-! ## the elements -/

theorem xks_nodup : (keysAt [0, 1]).Nodup := keysAt_nodup (by decide)

example : Passive (keysAt [0, 1]) (space1.setup xenv) [0, 12] [15, 3] :=
  C86_space xks_nodup (keysAt_conj _) xenv_exp.1 xenv_exp.2.1 xenv_exp.2.2.1 xenv_exp.2.2.2 xenv_real.2.2.2.1 xenv_real.2.2.1
    xenv_real.2.1 space1 (star_ofNat 3) (by
      show star ((1 : ℂ) / 7000000) = 1 / 7000000
      rw [star_div₀, star_one, star_ofNat]) (by decide) (by decide) rfl rfl

/-- a quarter wave plate -/
noncomputable def quarter : WavePlate ℕ ℂ := ⟨⟨0, 1⟩, ⟨2, 3⟩, Complex.I, none, 1, none⟩

example : Passive (keysAt [0, 1]) (quarter.setup xenv) [0, 2] [1, 3] :=
  C86_wave_plate xks_nodup (keysAt_conj _) quarter (by simp [quarter]) (by
    show Complex.I * (starRingEnd ℂ) Complex.I = 1
    rw [Complex.conj_I, mul_neg, Complex.I_mul_I, neg_neg]) rfl rfl (by decide) (by decide) rfl rfl

example : Passive (keysAt [0, 1]) (rot30.polarization xenv) [0, 10] [13, 3] ∧
    Passive (keysAt [0, 1]) (rot30.faraday xenv) [0, 10] [13, 3] :=
  ⟨C86_rotator xenv_angles xks_nodup (keysAt_conj _) flip_keys rot30 (star_ofNat 30) xenv_real.2.2.2.2.1
      xenv_real.2.2.2.2.2.1 xenv_real.2.2.2.2.2.2 (by decide) (by decide) rfl rfl (by simp),
    C86_rotator xenv_angles xks_nodup (keysAt_conj _) flip_keys rot30 (star_ofNat 30) xenv_real.2.2.2.2.1
      xenv_real.2.2.2.2.2.1 xenv_real.2.2.2.2.2.2 (by decide) (by decide) rfl rfl (by simp)⟩

example : Passive (keysAt [0, 1]) (circulator_setup xenv [⟨0, 1⟩, ⟨2, 3⟩, ⟨4, 5⟩]) [0, 2, 4] [1, 3, 5] :=
  C86_circulator xks_nodup (keysAt_conj _) (l := [⟨0, 1⟩, ⟨2, 3⟩, ⟨4, 5⟩]) (by decide) (by decide) (fun _ _ => rfl)

/-- the environment of the mirrors of the examples, without mechanical keys -/
noncomputable abbrev senv : OEnv (MPort × Fin 3) Unit ℤ ℂ := demo (fun _ => keysAt [0, 1, -1]) (fun _ => []) (fun _ => false)

theorem sm_mounted (flip : Bool) (B T Lhr Lt φ β A : ℝ) : (Mirror.dm flip B T Lhr Lt φ β A).Mounted senv where
  inj := fun _ _ h => congrArg Prod.fst h
  nodup := fun _ => keysAt_nodup (by decide)
  Zd := show Balanced ([] : List ℤ) from ⟨by decide, by decide⟩
  ZF := show Balanced ([] : List ℤ) from ⟨by decide, by decide⟩
  sqrt0 := csqrt_zero

/-- A lossy mirror at 45 degrees which also scatters back: light enters at its four ports and, with the losses, at four
more. -/
example : ∃ cs, (Mirror.dm true (1/10) (3/10) (1/10) (1/20) 0 0 45).setup senv = .ok cs ∧
    Passive (keysAt [0, 1, -1]) cs [(.FrA, 0), (.FrB, 0), (.BkA, 0), (.BkB, 0), (.LFrA, 0), (.LFrB, 0), (.LBkA, 0), (.LBkB, 0)]
      [(.FrA, 1), (.FrB, 1), (.BkA, 1), (.BkB, 1)] := by
  obtain ⟨cs, hcs⟩ := Mirror.setup_ok senv (m := Mirror.dm true (1/10) (3/10) (1/10) (1/20) 0 0 45)
    (sm_mounted ..).Zd.2 (sm_mounted ..).ZF.2
  have hr := Mirror.dm_roots true (B := 1/10) (T := 3/10) (Lhr := 1/10) (Lt := 1/20) 0 0 45 (by norm_num) (by norm_num)
    (by norm_num) (by norm_num)
  have hl : (Mirror.dm true (1/10) (3/10) (1/10) (1/20) 0 0 45).has_loss = true := by
    unfold Mirror.has_loss Mirror.dm
    norm_num
  have := C86_mirror (env := senv) (ks := keysAt [0, 1, -1]) (keysAt_nodup (by decide)) (keysAt_conj _) (sm_mounted ..)
    (fun _ _ h => congrArg Prod.fst h) (fun _ => rfl) ⟨hr.sq, hr.real, hr.exp0⟩ (by simp [Mirror.dm]) (by simp [Mirror.dm]) rfl rfl hcs
  rw [hl] at this
  exact ⟨cs, hcs, this⟩

/-- A mirror at normal incidence. -/
example : ∃ cs, (Mirror.dm true 0 (3/10) (1/10) (1/20) 0 0 0).setup senv = .ok cs ∧
    Passive (keysAt [0, 1, -1]) cs [(.Fr, 0), (.Bk, 0), (.LFr, 0), (.LBk, 0)] [(.Fr, 1), (.Bk, 1)] := by
  obtain ⟨cs, hcs⟩ := Mirror.setup_ok senv (m := Mirror.dm true 0 (3/10) (1/10) (1/20) 0 0 0)
    (sm_mounted ..).Zd.2 (sm_mounted ..).ZF.2
  have hr := Mirror.dm_roots true (B := 0) (T := 3/10) (Lhr := 1/10) (Lt := 1/20) 0 0 0 (by norm_num) (by norm_num)
    (by norm_num) (by norm_num)
  have hl : (Mirror.dm true 0 (3/10) (1/10) (1/20) 0 0 0).has_loss = true := by
    unfold Mirror.has_loss Mirror.dm
    norm_num
  have := C86_normal_mirror (env := senv) (ks := keysAt [0, 1, -1]) (keysAt_nodup (by decide)) (keysAt_conj _) (sm_mounted ..)
    (fun _ _ h => congrArg Prod.fst h) (fun _ => rfl) ⟨hr.sq, hr.real, hr.exp0⟩ (by simp [Mirror.dm]) (by simp [Mirror.dm])
    (by simp [Mirror.dm]) rfl rfl hcs
  rw [hl] at this
  exact ⟨cs, hcs, this⟩

end Shot
