import Mathlib.Analysis.Complex.Exponential
import Mathlib.Analysis.Complex.Trigonometric
import Mathlib.Algebra.Order.Group.Int
import Mathlib.Tactic.NormNum
import Mathlib.Tactic.IntervalCases
import Verif.Signal.Product
import Verif.Signal.SisoProps
import Verif.Signal.FilterComplex

/-!
# Concrete systems for C59, C61 and C62

Keys are integers (multiples of one frequency of 1 Hz), numbers are complex.
-/

set_option linter.unusedSectionVars false

namespace Signal
open Py Inject Circuit

/-- Port 0 carries the constant component only, port 1 the first harmonics, all others up to the second. -/
noncomputable def exS : SEnv Nat ℤ ℤ ℂ where
  keys := fun p => if p = 0 then [0] else if p = 1 then [-1, 1] else [-2, -1, 0, 1, 2]
  reject := fun k => decide (2 < |k|)
  freq := fun k => k
  center := fun k => k
  cast := fun r => (r : ℂ)
  i := Complex.I
  exp := Complex.exp

theorem exS_even : exS.Even where
  keys := by
    intro p
    show Balanced (if p = 0 then [0] else if p = 1 then [-1, 1] else [-2, -1, 0, 1, 2])
    split_ifs <;> constructor <;> decide
  reject := fun k => by
    show decide (2 < |-k|) = decide (2 < |k|)
    rw [abs_neg]
  freq := fun _ => rfl
  center := fun _ => rfl
  cast_neg := fun r => Int.cast_neg r
  cast_real := fun r => star_intCast r
  i := Complex.conj_I
  exp := fun z => (Complex.exp_conj z).symm

/-- **C61** is false of the code when the local oscillator has a constant component: with a constant local oscillator
of value 1 the output is half the input. -/
theorem C61_refuted : ∃ (env : SEnv Nat ℤ ℤ ℂ) (x : Nat × ℤ → ℂ) (e : ℤ → ℂ), env.Even ∧ e 0 = 1 ∧
    (∀ k l, e (k + l) = e k * e l) ∧
    (∀ p, p = 2 ∨ p = 3 → ∀ k1 ∈ env.keys 0, ∀ k2 ∈ env.keys 1, k1 + k2 ∈ env.keys p ∧ env.reject (k1 + k2) = false) ∧
    (∀ p, p = 2 ∨ p = 3 → ∀ m ∈ env.keys p, x (p, m) = total (mixer_setup env 0 1 2 3) x (p, m)) ∧
    wave e (env.keys 0) (fun k => x (0, k)) = 1 ∧ wave e (env.keys 1) (fun k => x (1, k)) = 1 ∧
    wave e (env.keys 2) (fun k => x (2, k)) = 1 / 2 := by
  refine ⟨exS, fun t => if t.1 = 0 then (if t.2 = 0 then 1 else 0) else if t.1 = 1 then 1 else if t.1 = 2 then
      (if t.2 = 1 ∨ t.2 = -1 then 1 / 2 else 0) else 0, fun _ => 1, exS_even, rfl, fun _ _ => (one_mul _).symm,
      ?_, ?_, ?_, ?_, ?_⟩
  · rintro p (rfl | rfl) k1 h1 k2 h2 <;>
    · simp [exS] at h1 h2
      rcases h2 with rfl | rfl <;> subst h1 <;> simp [exS]
  · rintro p (rfl | rfl) m hm <;>
    · simp [exS] at hm
      rcases hm with rfl | rfl | rfl | rfl | rfl <;>
        simp [exS, mixer_setup, pairs, total, Coupling.into, Coupling.target, Coupling.term, sign]
  · simp [wave, exS]
  · simp [wave, exS]
    norm_num
  · simp [wave, exS]

/-- A modulator whose amplitude input is the constant 1 should double its input (`1 + 1`), but the output is three
halves of it. -/
theorem C61_modulator_refuted : ∃ (env : SEnv Nat ℤ ℤ ℂ) (x : Nat × ℤ → ℂ) (e : ℤ → ℂ), env.Even ∧ e 0 = 1 ∧
    (∀ k l, e (k + l) = e k * e l) ∧
    (∀ k1 ∈ env.keys 1, ∀ k2 ∈ env.keys 0, k1 + k2 ∈ env.keys 2 ∧ env.reject (k1 + k2) = false) ∧
    (∀ m ∈ env.keys 2, x (2, m) = total (modulator_setup env 1 0 0 2 0) x (2, m)) ∧
    wave e (env.keys 0) (fun k => x (0, k)) = 1 ∧ wave e (env.keys 1) (fun k => x (1, k)) = 1 ∧
    wave e (env.keys 1) (quarter env (fun k => x (1, k))) = 0 ∧
    wave e (env.keys 2) (fun k => x (2, k)) = 3 / 2 := by
  refine ⟨exS, fun t => if t.1 = 0 then (if t.2 = 0 then 1 else 0) else if t.1 = 1 then 1 else if t.1 = 2 then
      (if t.2 = 1 then 1 + (1 / 2 + Complex.I / 2) else if t.2 = -1 then 1 + (1 / 2 + -Complex.I / 2) else 0) else 0,
      fun _ => 1, exS_even, rfl, fun _ _ => (one_mul _).symm,
      ?_, ?_, ?_, ?_, ?_, ?_⟩
  · rintro k1 h1 k2 h2
    simp [exS] at h1 h2
    rcases h1 with rfl | rfl <;> subst h2 <;> simp [exS]
  · rintro m hm
    simp [exS] at hm
    rcases hm with rfl | rfl | rfl | rfl | rfl <;>
      simp [exS, modulator_setup, total, Coupling.into, Coupling.target, Coupling.term, sign, rotation]
  · simp [wave, exS]
  · simp [wave, exS]
    norm_num
  · simp [wave, quarter, exS, sign]
    ring
  · simp [wave, exS]
    ring

/-- The mixer of two copies of one oscillation, with its two outputs. -/
noncomputable def exMix : Nat × ℤ → ℂ := fun t =>
  if t.1 = 1 then (if t.2 = 1 ∨ t.2 = -1 then 1 else 0)
  else if t.1 = 2 then (if t.2 = 0 then 1 / 2 else if t.2 = 2 ∨ t.2 = -2 then 1 / 2 else 0)
  else if t.1 = 3 then (if t.2 = 2 then Complex.I / 2 else if t.2 = -2 then -Complex.I / 2 else 0)
  else if t.1 = 4 then (if t.2 = 0 then 1 / 2 else 0) else 0

example {e : ℤ → ℂ} (he0 : e 0 = 1) (he : ∀ k l, e (k + l) = e k * e l) :
    wave e (exS.keys 2) (fun k => exMix (2, k)) =
      wave e (exS.keys 1) (fun k => exMix (1, k)) * wave e (exS.keys 1) (fun k => exMix (1, k)) := by
  refine (C61_partial exS he0 he two_ne_zero 1 1 2 3 (by decide) (exS_even.keys _).1 (exS_even.keys _).1
    ?_ ?_ ?_ ?_ ?_ ?_ ?_).1
  · rintro k1 h1 k2 h2
    simp [exS] at h1 h2
    rcases h1 with rfl | rfl <;> rcases h2 with rfl | rfl <;> simp [exS]
  · rintro k1 h1 k2 h2
    simp [exS] at h1 h2
    rcases h1 with rfl | rfl <;> rcases h2 with rfl | rfl <;> simp [exS]
  · rintro k1 h1 k2 h2
    simp [exS] at h1 h2
    rcases h1 with rfl | rfl <;> rcases h2 with rfl | rfl <;> simp [exS]
  · simp [exMix]
  · simp [exMix]
  · intro m hm
    simp [exS] at hm
    rcases hm with rfl | rfl | rfl | rfl | rfl <;>
      simp [exMix, exS, mixer_setup, pairs, total, Coupling.into, Coupling.target, Coupling.term, sign]
    norm_num
  · intro m hm
    simp [exS] at hm
    rcases hm with rfl | rfl | rfl | rfl | rfl <;>
      simp [exMix, exS, mixer_setup, pairs, total, Coupling.into, Coupling.target, Coupling.term, sign]
    ring

/-- The same oscillation modulating itself. -/
noncomputable def exMod : Nat × ℤ → ℂ := fun t =>
  if t.1 = 1 then (if t.2 = 1 ∨ t.2 = -1 then 1 else 0)
  else if t.2 = 0 then 1 / 2 else if t.2 = 1 ∨ t.2 = -1 then 1
  else if t.2 = 2 then 1 / 2 + Complex.I / 2 else if t.2 = -2 then 1 / 2 + -Complex.I / 2 else 0

set_option maxHeartbeats 1000000 in
example {e : ℤ → ℂ} (he0 : e 0 = 1) (he : ∀ k l, e (k + l) = e k * e l) :
    wave e (exS.keys 2) (fun k => exMod (2, k)) =
      wave e (exS.keys 1) (rotated exS 0 (fun k => exMod (1, k))) * (1 + wave e (exS.keys 1) (fun k => exMod (1, k))) +
      wave e (exS.keys 1) (quarter exS (rotated exS 0 (fun k => exMod (1, k)))) *
        wave e (exS.keys 1) (fun k => exMod (1, k)) := by
  have hk : ∀ k1 ∈ exS.keys 1, ∀ k2 ∈ exS.keys 1, k1 + k2 ∈ exS.keys 2 ∧ exS.reject (k1 + k2) = false := by
    intro k1 h1 k2 h2
    simp [exS] at h1 h2
    rcases h1 with rfl | rfl <;> rcases h2 with rfl | rfl <;> simp [exS]
  refine C61_modulator_partial exS he0 he two_ne_zero 1 1 1 2 0 (exS_even.keys _).1 ?_ hk hk ?_ ?_ ?_ ?_
  · intro k h
    simp [exS] at h
    rcases h with rfl | rfl <;> simp [exS]
  · simp [exMod]
  · simp [exMod]
  · simp [exMod]
  · intro m hm
    simp [exS] at hm
    rcases hm with rfl | rfl | rfl | rfl | rfl <;>
      simp [exMod, exS, modulator_setup, total, Coupling.into, Coupling.target, Coupling.term, sign, rotation]
    ring

/-- The mean square of the oscillation `cos` is one half. -/
example : exMix (4, 0) = ((exS.keys 1).map (fun k => ((exS.keys 1).map (fun l =>
    if k + l = 0 then coefficient (fun k => exMix (1, k)) k * coefficient (fun k => exMix (1, k)) l else 0)).sum)).sum := by
  refine C62_mean_square exS two_ne_zero (fun k h => by omega) 1 4 (exS_even.keys _) ?_ ?_
  · intro k hk
    simp [exS] at hk
    rcases hk with rfl | rfl <;> simp [exS]
  · simp [exMix, exS, mean_square_setup, mean_square_loop, total, Coupling.into, Coupling.target, Coupling.term]

/-- A generator of a sine feeding a filter of gain 2, with the solution. -/
noncomputable def exNet : List (SElem Nat ℤ ℤ ℂ) :=
  [.generator ⟨1, 1, Complex.I, none, 0, []⟩, .siso ⟨false, some 3, 0, 1, 2, fun _ => .ok 2⟩]

noncomputable def exNetX : Nat × ℤ → ℂ := fun t =>
  if t.1 = 1 then (if t.2 = 1 then Complex.I else if t.2 = -1 then -Complex.I else 0)
  else if t.1 = 2 then (if t.2 = 1 then 2 * Complex.I else if t.2 = -1 then -(2 * Complex.I) else 0) else 0

theorem exNet_real : ∀ e ∈ exNet, e.Real exS := by
  intro e he
  simp only [exNet, List.mem_cons, List.not_mem_nil, or_false] at he
  rcases he with rfl | rfl
  · exact ⟨star_zero _, rfl⟩
  · intro f _
    show Except.ok _ = Except.ok (star _)
    rw [star_ofNat]

theorem exNet_solution : ∃ cs, blocks (exNet.map (SElem.setup exS)) = .ok cs ∧ Solves cs exNetX := by
  refine ⟨[.source (1, 1) Complex.I, .source (1, -1) (-Complex.I), .edge (1, -1) (2, -1) 2, .edge (1, 1) (2, 1) 2],
    ?_, ?_⟩
  · simp [exNet, SElem.setup, Generator.setup, Generator.amplitudeC, exS, Siso.setup, Siso.skips, Siso.filter_func_run,
      blocks, bind, Except.bind, pure, Except.pure]
  · rintro ⟨p, k⟩
    by_cases h1 : k = 1
    · subst h1
      by_cases hp : p = 1
      · subst hp
        simp [exNetX, Coupling.into, Coupling.target, Coupling.term]
      · by_cases hp2 : p = 2
        · subst hp2
          simp [exNetX, Coupling.into, Coupling.target, Coupling.term]
        · simp [exNetX, Coupling.into, Coupling.target, Coupling.term, hp, hp2, Ne.symm hp, Ne.symm hp2]
    · by_cases h2 : k = -1
      · subst h2
        by_cases hp : p = 1
        · subst hp
          simp [exNetX, Coupling.into, Coupling.target, Coupling.term]
        · by_cases hp2 : p = 2
          · subst hp2
            simp [exNetX, Coupling.into, Coupling.target, Coupling.term]
          · simp [exNetX, Coupling.into, Coupling.target, Coupling.term, hp, hp2, Ne.symm hp, Ne.symm hp2]
      · simp [exNetX, Coupling.into, Coupling.target, Coupling.term, h1, h2, Ne.symm h1, Ne.symm h2]

example : ∃ cs, blocks (exNet.map (SElem.setup exS)) = .ok cs ∧ Solves cs (fun t => star (exNetX (t.1, -t.2))) := by
  obtain ⟨cs, h1, h2⟩ := exNet_solution
  exact ⟨cs, h1, (C59_real exS_even exNet exNet_real h1 h2).1⟩

/-- The filter of that system passes the key 1. -/
example : ∃ cs, (⟨false, some 3, 0, 1, 2, fun _ => .ok 2⟩ : Siso Nat ℤ ℂ).setup exS = .ok cs ∧
    (cs.map (fun c => c.into exNetX (2, 1))).sum = (if false = true ∧ exS.cast (exS.freq 1) = 0 then 0 else 2) * exNetX (1, 1) := by
  refine ⟨[.edge (1, -1) (2, -1) 2, .edge (1, 1) (2, 1) 2], ?_, ?_⟩
  · simp [exS, Siso.setup, Siso.skips, Siso.filter_func_run, blocks, bind, Except.bind, pure, Except.pure]
  · obtain ⟨g, hg, h⟩ := (C63_band (env := exS) (e := ⟨false, some 3, 0, 1, 2, fun _ => .ok 2⟩) (exS_even.keys 1).1
      (cs := [.edge (1, -1) (2, -1) 2, .edge (1, 1) (2, 1) 2]) (by
        simp [exS, Siso.setup, Siso.skips, Siso.filter_func_run, blocks, bind, Except.bind, pure, Except.pure])
      exNetX 1).1 (by simp [exS]) (by
        refine ⟨fun c hc => ?_, ?_, fun h => (nomatch h)⟩
        · cases hc
          simp [exS]
        · simp [exS])
    cases hg
    exact h

end Signal
