import Mathlib.Algebra.Order.Ring.Rat
import Verif.Ode.AomProps
import Verif.Ode.CrystalCases

/-!
# An acousto-optic modulator with one carrier and one drive

The light at the port `A` is at the frequency of the laser, the light at the port `B` one drive frequency above.
-/

set_option linter.unusedSectionVars false

namespace Ode
open Py Optics

variable [DecidableEq ℂ] [DecidableEq (Unit → ℂ)]

/-- The carrier at the port `A` (0), the shifted light at `B` (1), the drive (4) at plus and minus one. -/
noncomputable def aenv : AEnv (Fin 5) ℤ ℤ (Unit → ℂ) ℚ where
  okeys := fun p => if p = 0 then [ra 1 0, lo 1 0] else if p = 1 then [ra 1 1, lo 1 1] else []
  skeys := fun p => if p = 4 then [1, -1] else []
  reject := fun n => decide (1 < n.natAbs)
  center := fun n => n
  i := fun _ => Complex.I

/-- A modulator of the nominal power one. -/
noncomputable def aom : Aom (Fin 5) (Unit → ℂ) ℚ where
  N_ode := 1
  rate := fun _ => ((Real.pi / 2 : ℝ) : ℂ)
  freq_split_Hz := 1 / 2
  A := 0
  B := 1
  oA := 2
  oB := 3
  Drv := 4
  dir := 1

/-- The nodes of the modulator. -/
def anodes : List (ANode (Fin 5) ℤ ℤ) := [sn 4 1, sn 4 (-1), on 0 (ra 1 0), on 1 (ra 1 1), on 0 (lo 1 0), on 1 (lo 1 1)]

theorem aom_shifts : Shifts aenv aom where
  nodupA := by decide
  nodupB := by decide
  nodupD := by decide
  neg := by decide
  center := fun d => by simp [aenv]
  live := by decide
  closed := by decide +kernel

theorem aom_conj : Conj aenv aom := by unfold Conj; decide

theorem aom_keyed : Keyed (aom.build aenv).dLt anodes := by
  obtain ⟨h1, -, -, h4⟩ := aom.build_spec aenv (by decide)
  refine ⟨h1, by decide, fun n => ?_⟩
  rw [h4]
  have e1 : ∀ n ∈ anodes, ∃ T ∈ aom.turns aenv, aom.meets aenv T.1 T.2.1 T.2.2 = true ∧
      (n = on T.1.port T.2.1 ∨ n = sn aom.Drv T.2.2 ∨ n = on T.1.portO (T.2.1.at (shift T.2.1 T.2.2))) := by
    decide +kernel
  have e2 : ∀ T ∈ aom.turns aenv, aom.meets aenv T.1 T.2.1 T.2.2 = true →
      on T.1.port T.2.1 ∈ anodes ∧ sn aom.Drv T.2.2 ∈ anodes ∧ on T.1.portO (T.2.1.at (shift T.2.1 T.2.2)) ∈ anodes := by
    decide +kernel
  refine ⟨e1 n, ?_⟩
  rintro ⟨T, hT, hm, rfl | rfl | rfl⟩
  · exact (e2 T hT hm).1
  · exact (e2 T hT hm).2.1
  · exact (e2 T hT hm).2.2

/-! ## C103 -/

/-- The modulator is set up and updated without errors. -/
example : ∃ o, init (aom.build aenv).dLt (aom.build aenv).in_map (aom.build aenv).out_map 1 anodes = .ok o ∧
    ∀ moved st sol, ∃ st', o.generate_solution moved st sol = .ok st' := by
  obtain ⟨o, ho, h⟩ := C103_couples aenv aom (by decide) (by decide) one_ne_zero aom_keyed
  exact ⟨o, ho, fun moved st sol => (h moved st sol).imp fun st' h => h.1⟩

/-- Light `a` at `A`, light `b` at `B` and a drive `D`. -/
def feed (a b D : ℂ) : Dict (ANode (Fin 5) ℤ ℤ) (Unit → ℂ) :=
  [(on 0 (lo 1 0), fun _ => a), (on 0 (ra 1 0), fun _ => starRingEnd ℂ a), (on 1 (lo 1 1), fun _ => b),
    (on 1 (ra 1 1), fun _ => starRingEnd ℂ b), (sn 4 1, fun _ => D), (sn 4 (-1), fun _ => starRingEnd ℂ D)]

theorem feed_A (a b D : ℂ) : fed (feed a b D) id (on 0 (lo 1 0)) = fun _ => a := by
  simp [fed, feed, Dict.get?_cons, on, sn, lo, ra]
theorem feed_A' (a b D : ℂ) : fed (feed a b D) id (on 0 (ra 1 0)) = fun _ => starRingEnd ℂ a := by
  simp [fed, feed, Dict.get?_cons, on, sn, lo, ra]
theorem feed_B (a b D : ℂ) : fed (feed a b D) id (on 1 (lo 1 1)) = fun _ => b := by
  simp [fed, feed, Dict.get?_cons, on, sn, lo, ra]
theorem feed_B' (a b D : ℂ) : fed (feed a b D) id (on 1 (ra 1 1)) = fun _ => starRingEnd ℂ b := by
  simp [fed, feed, Dict.get?_cons, on, sn, lo, ra]
theorem feed_D (a b D : ℂ) : fed (feed a b D) id (sn 4 1) = fun _ => D := by
  simp [fed, feed, Dict.get?_cons, on, sn, lo, ra]
theorem feed_D' (a b D : ℂ) : fed (feed a b D) id (sn 4 (-1)) = fun _ => starRingEnd ℂ D := by
  simp [fed, feed, Dict.get?_cons, on, sn, lo, ra]

/-- Two beams of light that the drive mixes keep their power. -/
example (a b D : ℂ) (ha : a ≠ 0) (moved : (Unit → ℂ) → (Unit → ℂ) → Bool) (hmv : ∀ v : Unit → ℂ, v ≠ 0 → moved v 0 = true) :
    ∃ C : ℝ, ∃ N₀ : ℕ, ∀ N : ℕ, N₀ ≤ N →
      ∀ o, init (aom.build aenv).dLt (aom.build aenv).in_map (aom.build aenv).out_map N anodes = .ok o →
      ∃ st', o.generate_solution moved o.start (feed a b D) = .ok st' ∧
        |‖aom.outs st' anodes (feed a b D) () (on 0 (lo 1 0))‖ ^ 2 + ‖aom.outs st' anodes (feed a b D) () (on 1 (lo 1 1))‖ ^ 2
          - (‖a‖ ^ 2 + ‖b‖ ^ 2)| ≤ C / N := by
  have hl : anodes.filter isLow = [on 0 (lo 1 0), on 1 (lo 1 1)] := by decide
  obtain ⟨C, N₀, h⟩ := C103_power aom_shifts aom_conj (by decide) (by decide) () rfl rfl aom_keyed (feed a b D) (by
    intro n hn
    simp only [anodes, List.mem_cons, List.not_mem_nil, or_false] at hn
    rcases hn with rfl | rfl | rfl | rfl | rfl | rfl
    · rw [flip_sn, feed_D', feed_D]
    · rw [flip_sn, neg_neg, feed_D', feed_D, Complex.conj_conj]
    · rw [flip_on, show (ra 1 0).conj = lo 1 0 from rfl, feed_A, feed_A', Complex.conj_conj]
    · rw [flip_on, show (ra 1 1).conj = lo 1 1 from rfl, feed_B, feed_B', Complex.conj_conj]
    · rw [flip_on, show (lo 1 0).conj = ra 1 0 from rfl, feed_A, feed_A']
    · rw [flip_on, show (lo 1 1).conj = ra 1 1 from rfl, feed_B, feed_B'])
  refine ⟨C, N₀, fun N hN o ho => ?_⟩
  obtain ⟨st', h1, h2, -⟩ := h N hN o ho moved o.start ⟨on 0 (lo 1 0), by decide, by
    rw [feed_A]
    exact hmv _ fun h => ha (congrFun h ())⟩
  refine ⟨st', h1, ?_⟩
  unfold lightPower total at h2
  rw [hl] at h2
  simpa [feed_A, feed_B] using h2

/-! ## C101 -/

/-- **C101**, refuted for modulators: A drive below the split frequency, so that it diffracts nothing, leaves no edge from the
input of the light to the output behind it. -/
theorem C101_modulator_refuted : ∃ (env : AEnv (Fin 5) ℤ ℤ (Unit → ℂ) ℚ) (e : Aom (Fin 5) (Unit → ℂ) ℚ) (k : OKey ℤ ℤ),
    Shifts env e ∧ Conj env e ∧ e.A ≠ e.B ∧ e.oA ≠ e.oB ∧ k ∈ env.okeys e.A ∧ Keyed (e.build env).dLt [] ∧
    ∀ N o, init (e.build env).dLt (e.build env).in_map (e.build env).out_map N [] = .ok o →
      o.start.edge (on e.A k) (on e.oA k) = 0 ∧ ∀ moved sol, o.generate_solution moved o.start sol = .ok o.start := by
  have hb : ({ aom with freq_split_Hz := 2 } : Aom (Fin 5) (Unit → ℂ) ℚ).build aenv = ⟨[], [], []⟩ := by
    rw [Aom.build_eq]
    have hskip : ∀ T ∈ ({ aom with freq_split_Hz := 2 } : Aom (Fin 5) (Unit → ℂ) ℚ).turns aenv,
        ({ aom with freq_split_Hz := 2 } : Aom (Fin 5) (Unit → ℂ) ℚ).meets aenv T.1 T.2.1 T.2.2 = false := by decide +kernel
    generalize ({ aom with freq_split_Hz := 2 } : Aom (Fin 5) (Unit → ℂ) ℚ).turns aenv = L at hskip
    induction L with
    | nil => rfl
    | cons T L ih =>
      rw [List.foldl_cons]
      have : ({ aom with freq_split_Hz := 2 } : Aom (Fin 5) (Unit → ℂ) ℚ).one aenv ⟨[], [], []⟩ T.1 T.2.1 T.2.2
          = ⟨[], [], []⟩ := by
        unfold Aom.one
        rw [hskip T List.mem_cons_self]
        rfl
      rw [this]
      exact ih fun T hT => hskip T (List.mem_cons_of_mem _ hT)
  refine ⟨aenv, { aom with freq_split_Hz := 2 }, lo 1 0,
    ⟨by decide, by decide, by decide, by decide, fun d => by simp [aenv], by decide, by decide +kernel⟩,
    aom_conj, by decide, by decide, by decide, ?_, ?_⟩
  · rw [hb]
    exact ⟨Dict.WF_nil, List.nodup_nil, fun n => by simp [Mentions]⟩
  · intro N o ho
    rw [hb] at ho
    unfold init at ho
    split_ifs at ho
    injection ho with ho
    subst ho
    exact ⟨rfl, fun moved sol => rfl⟩

/-! ## C104 -/

/-- A drive of the nominal power diffracts all of the light. -/
example (a : ℂ) (ha : a ≠ 0) (moved : (Unit → ℂ) → (Unit → ℂ) → Bool) (hmv : ∀ v : Unit → ℂ, v ≠ 0 → moved v 0 = true) :
    ∃ C : ℝ, ∃ N₀ : ℕ, ∀ N : ℕ, N₀ ≤ N →
      ∀ o, init (aom.build aenv).dLt (aom.build aenv).in_map (aom.build aenv).out_map N anodes = .ok o →
      ∃ st', o.generate_solution moved o.start (feed a 0 1) = .ok st' ∧
        ‖st'.emits anodes id (on 2 (lo 1 0)) (fed (feed a 0 1) id) ()‖ ≤ C / N ∧
        ‖st'.emits anodes id (on 3 (lo 1 1)) (fed (feed a 0 1) id) () - -Complex.I * a‖ ≤ C / N := by
  obtain ⟨C, N₀, h⟩ := C104_diffracts aom_shifts aom_conj (by decide) (by decide) () rfl rfl aom_keyed
    (show (0 : ℚ) ≤ 1 / 2 by norm_num) (k := lo 1 0) (by decide) rfl (d := 1) (by decide) (by decide)
    (show (1 / 2 : ℚ) < ((1 : ℤ) : ℚ) * 1 by norm_num) a 1 (feed a 0 1) (by
    intro n hn
    simp only [anodes, List.mem_cons, List.not_mem_nil, or_false] at hn
    rcases hn with rfl | rfl | rfl | rfl | rfl | rfl
    · rw [feed_D]; simp [aom, on, sn, lo, OKey.conj]
    · rw [feed_D']; simp [aom, on, sn, lo, OKey.conj]
    · rw [feed_A']; simp [aom, on, sn, lo, ra, OKey.conj, Quantum.conj]
    · rw [feed_B']; simp [aom, on, sn, lo, ra, OKey.conj]
    · rw [feed_A]; simp [aom, on, sn, lo, OKey.conj]
    · rw [feed_B]; simp [aom, on, sn, lo, OKey.conj])
  refine ⟨C, N₀, fun N hN o ho => ?_⟩
  obtain ⟨st', h1, h2, h3⟩ := h N hN o ho moved o.start ⟨on 0 (lo 1 0), by decide, by
    rw [feed_A]
    exact hmv _ fun h => ha (congrFun h ())⟩
  refine ⟨st', h1, ?_, ?_⟩
  · change ‖st'.emits anodes id (on 2 (lo 1 0)) (fed (feed a 0 1) id) () - _‖ ≤ _ at h2
    simpa using h2
  · change ‖st'.emits anodes id (on 3 (lo 1 1)) (fed (feed a 0 1) id) () - _‖ ≤ _ at h3
    simpa using h3

end Ode
