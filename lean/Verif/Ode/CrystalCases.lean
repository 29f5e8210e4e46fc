import Mathlib.Analysis.SpecialFunctions.Trigonometric.DerivHyp
import Mathlib.Analysis.Complex.RealDeriv
import Mathlib.Tactic.FinCases
import Verif.Ode.CrystalProps

/-!
# Crystals with few keys

The hypotheses of the properties of the crystal in concrete cases, and the cases in which its claims fail.
-/

set_option linter.unusedSectionVars false

namespace Ode
open Py Optics

section
variable {P O K R : Type} [DecidableEq P] [DecidableEq O] [DecidableEq K] [AddCommGroup O] [AddCommGroup K]
  [CommRing R] [Algebra ℚ R] [DecidableEq R]

theorem keyed_of {env : CEnv P O K R} {e : Crystal P R} {pi po : P} {w : Eqs P O K R} (hs : Single env po)
    (hw : e.build env pi po = .ok w) {pks : List (Node P O K)} (hnd : pks.Nodup)
    (h1 : ∀ n ∈ pks, n.1 = pi ∧ ∃ T ∈ pairs (env.okeys pi), Joins env po T ∧ (n.2 = T.1 ∨ n.2 = T.2 ∨ n.2 = kto T.1 T.2))
    (h2 : ∀ T ∈ pairs (env.okeys pi), Joins env po T → (pi, T.1) ∈ pks ∧ (pi, T.2) ∈ pks ∧ (pi, kto T.1 T.2) ∈ pks) :
    Keyed w.dLt pks := by
  obtain ⟨w', hw', h, -, -, -, h5⟩ := build_spec e (pi := pi) hs
  rw [hw] at hw'
  injection hw' with hw'
  subst hw'
  refine ⟨h, hnd, fun n => ?_⟩
  rw [h5]
  refine ⟨h1 n, ?_⟩
  rintro ⟨hp, T, hT, hj, h'⟩
  obtain ⟨a, b, c⟩ := h2 T hT hj
  have hn : n = (pi, n.2) := Prod.ext hp rfl
  rcases h' with h' | h' | h' <;> rw [hn, h']
  · exact a
  · exact b
  · exact c

theorem rhs_of {env : CEnv P O K R} {e : Crystal P R} {pi po : P} {w : Eqs P O K R} (hs : Single env po)
    (hw : e.build env pi po = .ok w) {k : OKey O K} {L : List (OKey O K × OKey O K)}
    (h : (pairs (env.okeys pi)).filter (fun T => Joins env po T ∧ kto T.1 T.2 = k) = L) :
    rhs w.dLt (pi, k) = L.map fun T => (e.gain env (ordOf env k.opt) T.1 T.2, [(pi, T.2), (pi, T.1)]) := by
  obtain ⟨w', hw', -, h2, -⟩ := build_spec e (pi := pi) hs
  rw [hw] at hw'
  injection hw' with hw'
  subst hw'
  rw [h2, h]

end

variable [DecidableEq ℂ] [DecidableEq (Unit → ℂ)]

/-- A lower sideband at a multiple of the optical and of the classical frequency. -/
def lo (n c : ℤ) : OKey ℤ ℤ := ⟨n, c, .S, .lower⟩

/-- A raised sideband. -/
def ra (n c : ℤ) : OKey ℤ ℤ := ⟨n, c, .S, .raise⟩

/-- A system with given keys at both ports of the crystal. -/
noncomputable def cenv (ks : List (OKey ℤ ℤ)) : CEnv Bool ℤ ℤ (Unit → ℂ) :=
  ⟨fun _ => ks, fun n => if n = 0 then [] else [n], fun _ => Complex.I⟩

/-- A crystal of given gain. -/
noncomputable def crystal (γ : ℂ) : Crystal Bool (Unit → ℂ) := ⟨1, fun _ => γ, fun _ => 1⟩

theorem cenv_closed {ks : List (OKey ℤ ℤ)} (h1 : ks.Nodup) (h2 : ∀ k ∈ ks, k.conj ∈ ks) (h3 : ∀ k ∈ ks, k.opt ≠ 0) :
    Closed (cenv ks) false true := by
  refine ⟨h1, fun _ => Iff.rfl, h2, fun k hk => ?_⟩
  show (if k.opt = 0 then [] else [k.opt]).length = 1
  rw [if_neg (h3 k hk)]; rfl

/-- The fundamental and the second harmonic. -/
def shg : List (OKey ℤ ℤ) := [ra 1 0, ra 2 0, lo 1 0, lo 2 0]

/-- Two sidebands of the fundamental and the second harmonic, within the order limit one for the classical frequency. -/
def sfg : List (OKey ℤ ℤ) := [ra 1 1, ra 1 (-1), ra 2 0, lo 1 1, lo 1 (-1), lo 2 0]

/-- The nodes of the keys at the input. -/
def at_in (ks : List (OKey ℤ ℤ)) : List (Node Bool ℤ ℤ) := ks.map fun k => (false, k)

theorem shg_closed : Closed (cenv shg) false true :=
  cenv_closed (by decide) (by decide) (by decide)

theorem sfg_closed : Closed (cenv sfg) false true :=
  cenv_closed (by decide) (by decide) (by decide)

theorem shg_keyed {γ : ℂ} {w} (hw : (crystal γ).build (cenv shg) false true = .ok w) : Keyed w.dLt (at_in shg) :=
  keyed_of shg_closed.single hw (by decide)
    (show ∀ n ∈ at_in shg, n.1 = false ∧ ∃ T ∈ pairs shg, (T.1.pol = T.2.pol ∧ kto T.1 T.2 ∈ shg) ∧
      (n.2 = T.1 ∨ n.2 = T.2 ∨ n.2 = kto T.1 T.2) by decide +kernel)
    (show ∀ T ∈ pairs shg, (T.1.pol = T.2.pol ∧ kto T.1 T.2 ∈ shg) →
      (false, T.1) ∈ at_in shg ∧ (false, T.2) ∈ at_in shg ∧ (false, kto T.1 T.2) ∈ at_in shg by decide +kernel)

theorem sfg_keyed {γ : ℂ} {w} (hw : (crystal γ).build (cenv sfg) false true = .ok w) : Keyed w.dLt (at_in sfg) :=
  keyed_of sfg_closed.single hw (by decide)
    (show ∀ n ∈ at_in sfg, n.1 = false ∧ ∃ T ∈ pairs sfg, (T.1.pol = T.2.pol ∧ kto T.1 T.2 ∈ sfg) ∧
      (n.2 = T.1 ∨ n.2 = T.2 ∨ n.2 = kto T.1 T.2) by decide +kernel)
    (show ∀ T ∈ pairs sfg, (T.1.pol = T.2.pol ∧ kto T.1 T.2 ∈ sfg) →
      (false, T.1) ∈ at_in sfg ∧ (false, T.2) ∈ at_in sfg ∧ (false, kto T.1 T.2) ∈ at_in sfg by decide +kernel)

/-! ## C99 -/

/-- Second harmonic generation is set up and updated without errors. -/
example (γ : ℂ) : ∃ w, (crystal γ).build (cenv shg) false true = .ok w ∧
    ∃ o, init w.dLt w.in_map w.out_map 1 (at_in shg) = .ok o ∧ ∀ moved st sol,
      ∃ st', o.generate_solution moved st sol = .ok st' := by
  obtain ⟨w, hw, h⟩ := C99_couples shg_closed (crystal γ) one_ne_zero
  obtain ⟨o, ho, h'⟩ := h _ (shg_keyed hw)
  exact ⟨w, hw, o, ho, fun moved st sol => (h' moved st sol).imp fun st' h => h.1⟩

/-- Light of two lasers `(1, 0)` and `(0, 1)`: the sum of their frequencies stops the crystal. -/
example : ∃ err, (⟨1, 1, 1⟩ : Crystal Bool ℚ).build
    (⟨fun _ => [⟨(1, 0), 0, .S, .lower⟩, ⟨(0, 1), 0, .S, .lower⟩, ⟨(1, 1), 0, .S, .lower⟩],
      fun o => [o.1, o.2].filter (· ≠ 0), 3⟩ : CEnv Bool (ℤ × ℤ) ℤ ℚ) false true = .error err :=
  C99_composite_stops _ (k := ⟨(1, 0), 0, .S, .lower⟩) (k2 := ⟨(0, 1), 0, .S, .lower⟩) (by simp) (by simp) rfl
    (by decide +kernel) (by decide +kernel)

/-! ## C100 -/

/-- Conversion of the fundamental `a` conserves the power. -/
example (a : ℂ) (ha : a ≠ 0) {w} (hw : (crystal 3).build (cenv shg) false true = .ok w)
    (moved : (Unit → ℂ) → (Unit → ℂ) → Bool) (hmv : ∀ v : Unit → ℂ, v ≠ 0 → moved v 0 = true) :
    let sol : Dict (Node Bool ℤ ℤ) (Unit → ℂ) := [((false, lo 1 0), fun _ => a), ((false, ra 1 0), fun _ => starRingEnd ℂ a)]
    ∃ C : ℝ, ∃ N₀ : ℕ, ∀ N : ℕ, N₀ ≤ N → ∀ o, init w.dLt w.in_map w.out_map N (at_in shg) = .ok o →
      ∃ st', o.generate_solution moved o.start sol = .ok st' ∧
        |lowPower (at_in shg) (outs st' (at_in shg) true sol ()) - ‖a‖ ^ 2| ≤ C / N := by
  intro sol
  have hin : lowPower (at_in shg) (fun n => fed sol id n ()) = ‖a‖ ^ 2 := by
    have hl : (at_in shg).filter (fun n => n.2.q = .lower) = [(false, lo 1 0), (false, lo 2 0)] := by decide
    unfold lowPower
    rw [hl]
    simp [total, fed, sol, Dict.get?, lo, ra]
  obtain ⟨C, N₀, h⟩ := C100_power_partial (γ := 3) shg_closed () rfl (by simp [crystal]) hw (shg_keyed hw)
    (show ∀ a ∈ shg, ∀ b ∈ shg, a.pol = b.pol → kto a b ∈ shg → b.q = a.q →
      (if (kto a b).opt = 0 then [] else [(kto a b).opt]).headD 0
        = (if a.opt = 0 then [] else [a.opt]).headD 0 + (if b.opt = 0 then [] else [b.opt]).headD 0 by decide +kernel)
    (show ∀ a ∈ shg, ∀ b ∈ shg, a.q = .lower → b.q = .lower → a.pol = b.pol → kto a b ∈ shg → a = b by decide +kernel)
    sol (by
      intro k hk
      have : k ∈ shg := by
        obtain ⟨k', hk', h⟩ := List.mem_map.1 hk
        injection h with _ h
        exact h ▸ hk'
      simp only [shg, List.mem_cons, List.not_mem_nil, or_false] at this
      rcases this with rfl | rfl | rfl | rfl <;>
        simp [fed, sol, Dict.get?, lo, ra, OKey.conj, Quantum.conj])
  refine ⟨C, N₀, fun N hN o ho => ?_⟩
  obtain ⟨st', h1, h2, -⟩ := h N hN o ho moved o.start ⟨(false, lo 1 0), by decide, by
    have : fed sol id ((false, lo 1 0) : Node Bool ℤ ℤ) = fun _ => a := rfl
    rw [this]
    exact hmv _ fun h => ha (congrFun h ())⟩
  exact ⟨st', h1, by rw [hin] at h2; exact h2⟩

/-- The fields of the crystal that mixes two sidebands of amplitude one. -/
noncomputable def mixing (t : ℝ) (n : Node Bool ℤ ℤ) : ℂ :=
  if n.2.opt = 2 then
    match n.2.q with
    | .lower => Complex.I * ((2 * (Real.sinh t / Real.cosh t) : ℝ) : ℂ)
    | .raise => -Complex.I * ((2 * (Real.sinh t / Real.cosh t) : ℝ) : ℂ)
  else ((1 / Real.cosh t : ℝ) : ℂ)

theorem sech_deriv (t : ℝ) :
    HasDerivAt (fun t : ℝ => ((1 / Real.cosh t : ℝ) : ℂ)) ((-(Real.sinh t / Real.cosh t) * (1 / Real.cosh t) : ℝ) : ℂ) t := by
  have hc := (Real.cosh_pos t).ne'
  have h := (Real.hasDerivAt_cosh t).inv hc
  refine HasDerivAt.ofReal_comp (f := fun t => 1 / Real.cosh t) ?_
  have e : (fun t => 1 / Real.cosh t) = (Real.cosh)⁻¹ := by funext t; simp
  rw [e]
  refine h.congr_deriv ?_
  field_simp

theorem tanh_deriv (t : ℝ) :
    HasDerivAt (fun t : ℝ => ((2 * (Real.sinh t / Real.cosh t) : ℝ) : ℂ)) ((2 * (1 / Real.cosh t) ^ 2 : ℝ) : ℂ) t := by
  have hc := (Real.cosh_pos t).ne'
  refine HasDerivAt.ofReal_comp (f := fun t => 2 * (Real.sinh t / Real.cosh t)) ?_
  have h := ((Real.hasDerivAt_sinh t).div (Real.hasDerivAt_cosh t) hc).const_mul 2
  refine h.congr_deriv ?_
  have := Real.cosh_sq t
  field_simp
  linear_combination this

theorem mixing_solves {w} (hw : (crystal (1 / 2)).build (cenv sfg) false true = .ok w) (t : ℝ) :
    ∀ n ∈ at_in sfg, HasDerivAt (fun t => mixing t n) (poly (rhs (w.pt ()).dLt n) (mixing t)) t := by
  have hs := sfg_closed.single
  have hpt : ∀ n, poly (rhs (w.pt ()).dLt n) (mixing t) = poly (rhs w.dLt n) (fun n _ => mixing t n) () :=
    fun n => poly_at () w.dLt n (fun n _ => mixing t n)
  intro n hn
  rw [hpt]
  have e1 : rhs w.dLt (false, ra 1 1) = _ := rhs_of hs hw (L := [(ra 2 0, lo 1 (-1))])
    (show (pairs sfg).filter (fun T => (T.1.pol = T.2.pol ∧ kto T.1 T.2 ∈ sfg) ∧ kto T.1 T.2 = ra 1 1) = _ by decide +kernel)
  have e2 : rhs w.dLt (false, ra 1 (-1)) = _ := rhs_of hs hw (L := [(ra 2 0, lo 1 1)])
    (show (pairs sfg).filter (fun T => (T.1.pol = T.2.pol ∧ kto T.1 T.2 ∈ sfg) ∧ kto T.1 T.2 = ra 1 (-1)) = _ by decide +kernel)
  have e3 : rhs w.dLt (false, ra 2 0) = _ := rhs_of hs hw (L := [(ra 1 1, ra 1 (-1)), (ra 1 (-1), ra 1 1)])
    (show (pairs sfg).filter (fun T => (T.1.pol = T.2.pol ∧ kto T.1 T.2 ∈ sfg) ∧ kto T.1 T.2 = ra 2 0) = _ by decide +kernel)
  have e4 : rhs w.dLt (false, lo 1 1) = _ := rhs_of hs hw (L := [(lo 2 0, ra 1 (-1))])
    (show (pairs sfg).filter (fun T => (T.1.pol = T.2.pol ∧ kto T.1 T.2 ∈ sfg) ∧ kto T.1 T.2 = lo 1 1) = _ by decide +kernel)
  have e5 : rhs w.dLt (false, lo 1 (-1)) = _ := rhs_of hs hw (L := [(lo 2 0, ra 1 1)])
    (show (pairs sfg).filter (fun T => (T.1.pol = T.2.pol ∧ kto T.1 T.2 ∈ sfg) ∧ kto T.1 T.2 = lo 1 (-1)) = _ by decide +kernel)
  have e6 : rhs w.dLt (false, lo 2 0) = _ := rhs_of hs hw (L := [(lo 1 1, lo 1 (-1)), (lo 1 (-1), lo 1 1)])
    (show (pairs sfg).filter (fun T => (T.1.pol = T.2.pol ∧ kto T.1 T.2 ∈ sfg) ∧ kto T.1 T.2 = lo 2 0) = _ by decide +kernel)
  have hI : Complex.I * Complex.I = -1 := Complex.I_mul_I
  have hsech := sech_deriv t
  have htanh := tanh_deriv t
  simp only [at_in, sfg, List.map_cons, List.map_nil, List.mem_cons, List.not_mem_nil, or_false] at hn
  rcases hn with rfl | rfl | rfl | rfl | rfl | rfl
  · rw [e1]
    refine hsech.congr_deriv ?_
    simp [poly, Crystal.gain, Crystal.G, crystal, cenv, ordOf, mixing, lo, ra]
    linear_combination -(Complex.sinh t / Complex.cosh t * (Complex.cosh t)⁻¹) * hI
  · rw [e2]
    refine hsech.congr_deriv ?_
    simp [poly, Crystal.gain, Crystal.G, crystal, cenv, ordOf, mixing, lo, ra]
    linear_combination -(Complex.sinh t / Complex.cosh t * (Complex.cosh t)⁻¹) * hI
  · rw [e3]
    refine (htanh.const_mul (-Complex.I)).congr_deriv ?_
    simp [poly, Crystal.gain, Crystal.G, crystal, cenv, ordOf, mixing, lo, ra]
    ring
  · rw [e4]
    refine hsech.congr_deriv ?_
    simp [poly, Crystal.gain, Crystal.G, crystal, cenv, ordOf, mixing, lo, ra]
    linear_combination -(Complex.sinh t / Complex.cosh t * (Complex.cosh t)⁻¹) * hI
  · rw [e5]
    refine hsech.congr_deriv ?_
    simp [poly, Crystal.gain, Crystal.G, crystal, cenv, ordOf, mixing, lo, ra]
    linear_combination -(Complex.sinh t / Complex.cosh t * (Complex.cosh t)⁻¹) * hI
  · rw [e6]
    refine (htanh.const_mul Complex.I).congr_deriv ?_
    simp [poly, Crystal.gain, Crystal.G, crystal, cenv, ordOf, mixing, lo, ra]
    ring

/-- **C100**, refuted for crystals in which different keys combine: Two sidebands of power one each are mixed into their sum,
and from some number of steps on the crystal emits more than 5 / 2.  The gain of a product of different keys is twice too large:
both orders of the factors appear in the sum, l.206-213 halve only the product of equal keys. -/
theorem C100_power_refuted : ∃ (env : CEnv Bool ℤ ℤ (Unit → ℂ)) (e : Crystal Bool (Unit → ℂ)) (w : Eqs Bool ℤ ℤ (Unit → ℂ))
    (pks : List (Node Bool ℤ ℤ)) (sol : Dict (Node Bool ℤ ℤ) (Unit → ℂ)),
    Closed env false true ∧ env.i () = Complex.I ∧ e.nlg () * e.length_mm () = ((1 / 2 : ℝ) : ℂ) ∧
    e.build env false true = .ok w ∧ Keyed w.dLt pks ∧
    (∀ a ∈ env.okeys false, ∀ b ∈ env.okeys false, a.pol = b.pol → kto a b ∈ env.okeys true → b.q = a.q →
      ordOf env (kto a b).opt = ordOf env a.opt + ordOf env b.opt) ∧
    (∀ k, (false, k) ∈ pks → fed sol id (false, k.conj) () = starRingEnd ℂ (fed sol id (false, k) ())) ∧
    lowPower pks (fun n => fed sol id n ()) = 2 ∧
    ∃ N₀ : ℕ, ∀ N : ℕ, N₀ ≤ N → ∀ o, init w.dLt w.in_map w.out_map N pks = .ok o → ∀ moved st,
      (∃ n ∈ pks, moved (fed sol id n) ((Dict.get? st.vals_prev n).getD 0) = true) →
      ∃ st', o.generate_solution moved st sol = .ok st' ∧ 5 / 2 < lowPower pks (outs st' pks true sol ()) := by
  obtain ⟨w, hw, -⟩ := build_spec (crystal (1 / 2)) (env := cenv sfg) (pi := false) sfg_closed.single
  let sol : Dict (Node Bool ℤ ℤ) (Unit → ℂ) := [((false, lo 1 1), fun _ => 1), ((false, ra 1 1), fun _ => 1),
    ((false, lo 1 (-1)), fun _ => 1), ((false, ra 1 (-1)), fun _ => 1)]
  have hl : (at_in sfg).filter (fun n => n.2.q = .lower) = [(false, lo 1 1), (false, lo 1 (-1)), (false, lo 2 0)] := by
    decide
  refine ⟨cenv sfg, crystal (1 / 2), w, at_in sfg, sol, sfg_closed, rfl, by simp [crystal], hw, sfg_keyed hw,
    (show ∀ a ∈ sfg, ∀ b ∈ sfg, a.pol = b.pol → kto a b ∈ sfg → b.q = a.q →
      (if (kto a b).opt = 0 then [] else [(kto a b).opt]).headD 0
        = (if a.opt = 0 then [] else [a.opt]).headD 0 + (if b.opt = 0 then [] else [b.opt]).headD 0 by decide +kernel),
    ?_, ?_, ?_⟩
  · intro k hk
    have : k ∈ sfg := by
      obtain ⟨k', hk', h⟩ := List.mem_map.1 hk
      injection h with _ h
      exact h ▸ hk'
    simp only [sfg, List.mem_cons, List.not_mem_nil, or_false] at this
    rcases this with rfl | rfl | rfl | rfl | rfl | rfl <;>
      simp [fed, sol, Dict.get?, lo, ra, OKey.conj, Quantum.conj]
  · unfold lowPower
    rw [hl]
    simp [total, fed, sol, Dict.get?, lo, ra]
    norm_num
  · obtain ⟨C, hC, N₀, hN₀, h⟩ := sfg_closed.limit hw (sfg_keyed hw) () sol (φ := mixing) (by
        intro n hn
        simp only [at_in, sfg, List.map_cons, List.map_nil, List.mem_cons, List.not_mem_nil, or_false] at hn
        rcases hn with rfl | rfl | rfl | rfl | rfl | rfl <;>
          simp [mixing, fed, sol, Dict.get?, lo, ra])
      (fun t _ n hn => (mixing_solves hw t n hn).hasDerivWithinAt)
    have hsinh : 1 < Real.sinh 1 := Real.self_lt_sinh_iff.2 one_pos
    have hc := Real.cosh_pos 1
    have hsq := Real.cosh_sq 1
    have hpow : 3 ≤ lowPower (at_in sfg) (mixing 1) := by
      unfold lowPower
      rw [hl]
      have e1 : ‖Complex.sinh 1‖ = Real.sinh 1 := by
        rw [← Complex.ofReal_one, ← Complex.ofReal_sinh, Complex.norm_real, Real.norm_of_nonneg (by linarith)]
      have e2 : ‖Complex.cosh 1‖ = Real.cosh 1 := by
        rw [← Complex.ofReal_one, ← Complex.ofReal_cosh, Complex.norm_real, Real.norm_of_nonneg hc.le]
      simp [total, mixing, lo, e1, e2]
      rw [← sub_nonneg]
      have : (Real.cosh 1 ^ 2)⁻¹ + ((Real.cosh 1 ^ 2)⁻¹ + (2 * (Real.sinh 1 / Real.cosh 1)) ^ 2) - 3
          = (2 + 4 * Real.sinh 1 ^ 2 - 3 * Real.cosh 1 ^ 2) / Real.cosh 1 ^ 2 := by
        field_simp
        ring
      rw [this]
      refine div_nonneg ?_ (by positivity)
      nlinarith
    refine ⟨max N₀ (Nat.ceil (2 * C) + 1), fun N hN o ho moved st hmoved => ?_⟩
    obtain ⟨st', h1, -, h3⟩ := h N ((le_max_left _ _).trans hN) o ho moved st hmoved
    refine ⟨st', h1, ?_⟩
    have hN' : 2 * C < N := by
      have h4 : 2 * C ≤ (Nat.ceil (2 * C) : ℝ) := Nat.le_ceil _
      have h5 : ((Nat.ceil (2 * C) + 1 : ℕ) : ℝ) ≤ N := by exact_mod_cast (le_max_right _ _).trans hN
      push_cast at h5
      linarith
    have h6 : C / N < 1 / 2 := by
      have : (0 : ℝ) < N := by linarith
      rw [div_lt_iff₀ this]; linarith
    have := (abs_le.1 h3).1
    linarith

/-! ## C101 -/

/-- The fundamental and its harmonic pass a dark crystal. -/
example (γ : ℂ) {w} (hw : (crystal γ).build (cenv shg) false true = .ok w) {o}
    (ho : init w.dLt w.in_map w.out_map 7 (at_in shg) = .ok o) (a : ℂ) :
    ∃ st', o.generate_solution (fun v u => decide (v ≠ u)) ⟨[], [((false, lo 1 0), fun _ => 1)], []⟩ [] = .ok st' ∧
      st'.emits (at_in shg) id (true, lo 2 0) (fun n _ => if n = (false, lo 2 0) then a else 0) () = a := by
  obtain ⟨-, h⟩ := C101_transparent_partial shg_closed hw (shg_keyed hw) ho
  obtain ⟨st', h1, h2⟩ := h [] (fun n _ => rfl) (fun v u => decide (v ≠ u)) ⟨[], [((false, lo 1 0), fun _ => 1)], []⟩
    ⟨(false, lo 1 0), by decide, by
      rw [decide_eq_true_eq]
      intro h
      have := congrFun h ()
      simp [fed, Dict.get?] at this⟩
  refine ⟨st', h1, ?_⟩
  have hedge : ∀ n ∈ at_in shg, st'.edge n (true, lo 2 0) = if n = (false, lo 2 0) then 1 else 0 :=
    fun n hn => (h2 n hn (false, lo 2 0) (by decide)).1
  have hinj := (h2 _ (show (false, lo 2 0) ∈ at_in shg by decide) (false, lo 2 0) (by decide)).2
  unfold State.emits
  simp only [at_in, shg, List.map_cons, List.map_nil, List.sum_cons, List.sum_nil]
  have h3 : st'.inj (true, lo 2 0) = 0 := hinj
  rw [h3, hedge _ (by decide), hedge _ (by decide), hedge _ (by decide), hedge _ (by decide)]
  simp [lo, ra]

/-- **C101**, refuted for keys without a partner: Light at the second harmonic alone meets a crystal with ports that carry its
key, and no edge ever leads from the input to the output. -/
theorem C101_transparent_refuted : ∃ (env : CEnv Bool ℤ ℤ (Unit → ℂ)) (e : Crystal Bool (Unit → ℂ))
    (w : Eqs Bool ℤ ℤ (Unit → ℂ)) (k : OKey ℤ ℤ), Closed env false true ∧ k ∈ env.okeys false ∧ k ∈ env.okeys true ∧
    e.build env false true = .ok w ∧ Keyed w.dLt [] ∧ ∀ N o, init w.dLt w.in_map w.out_map N [] = .ok o →
      o.start.edge (false, k) (true, k) = 0 ∧ ∀ moved sol, o.generate_solution moved o.start sol = .ok o.start := by
  refine ⟨cenv [lo 2 0, ra 2 0], crystal 1, ⟨[], [], []⟩, lo 2 0,
    cenv_closed (by decide) (by decide) (by decide), by simp [cenv], by simp [cenv], ?_, ?_, ?_⟩
  · have : ∀ k ∈ [lo 2 0, ra 2 0], ∀ k2 ∈ [lo 2 0, ra 2 0], kto k k2 ∉ [lo 2 0, ra 2 0] := by decide +kernel
    have hskip : ∀ (w : Eqs Bool ℤ ℤ (Unit → ℂ)), ∀ T ∈ pairs [lo 2 0, ra 2 0],
        (crystal 1).pair (cenv [lo 2 0, ra 2 0]) false true w T.1 T.2 = .ok w := by
      intro w T hT
      obtain ⟨h1, h2⟩ := mem_pairs.1 hT
      exact pair_skips w fun h => this _ h1 _ h2 h.2
    rw [build_eq]
    show List.foldlM _ _ (pairs [lo 2 0, ra 2 0]) = _
    generalize pairs [lo 2 0, ra 2 0] = L at hskip
    induction L with
    | nil => rfl
    | cons T L ih =>
      rw [List.foldlM_cons, hskip _ T List.mem_cons_self]
      exact ih fun w T hT => hskip w T (List.mem_cons_of_mem _ hT)
  · exact ⟨Dict.WF_nil, List.nodup_nil, fun n => by simp [Mentions]⟩
  · intro N o ho
    unfold init at ho
    split_ifs at ho
    injection ho with ho
    subst ho
    exact ⟨rfl, fun moved sol => rfl⟩

/-! ## C102 -/

/-- The mixing of two sidebands keeps them conjugate in the limit. -/
example {w} (hw : (crystal (1 / 2)).build (cenv sfg) false true = .ok w) (moved : (Unit → ℂ) → (Unit → ℂ) → Bool)
    (hmv : ∀ v : Unit → ℂ, v ≠ 0 → moved v 0 = true) :
    let sol : Dict (Node Bool ℤ ℤ) (Unit → ℂ) := [((false, lo 1 1), fun _ => 1), ((false, ra 1 1), fun _ => 1),
      ((false, lo 1 (-1)), fun _ => 1), ((false, ra 1 (-1)), fun _ => 1)]
    ∃ C : ℝ, ∃ N₀ : ℕ, ∀ N : ℕ, N₀ ≤ N → ∀ o, init w.dLt w.in_map w.out_map N (at_in sfg) = .ok o →
      ∃ st', o.generate_solution moved o.start sol = .ok st' ∧
        ‖outs st' (at_in sfg) true sol () (false, lo 2 0)
          - starRingEnd ℂ (outs st' (at_in sfg) true sol () (false, ra 2 0))‖ ≤ C / N := by
  intro sol
  obtain ⟨C, N₀, h⟩ := C102_conj_partial (γ := 1 / 2) sfg_closed () rfl (by simp [crystal]) hw (sfg_keyed hw) sol
    (by
      intro k hk
      have : k ∈ sfg := by
        obtain ⟨k', hk', h⟩ := List.mem_map.1 hk
        injection h with _ h
        exact h ▸ hk'
      simp only [sfg, List.mem_cons, List.not_mem_nil, or_false] at this
      rcases this with rfl | rfl | rfl | rfl | rfl | rfl <;>
        simp [fed, sol, Dict.get?, lo, ra, OKey.conj, Quantum.conj])
    (φ := mixing) (by
      intro n hn
      simp only [at_in, sfg, List.map_cons, List.map_nil, List.mem_cons, List.not_mem_nil, or_false] at hn
      rcases hn with rfl | rfl | rfl | rfl | rfl | rfl <;>
        simp [mixing, fed, sol, Dict.get?, lo, ra])
    (fun t _ n hn => (mixing_solves hw t n hn).hasDerivWithinAt)
  refine ⟨C, N₀, fun N hN o ho => ?_⟩
  obtain ⟨st', h1, h2⟩ := h N hN o ho moved o.start ⟨(false, lo 1 1), by decide, by
    have : fed sol id ((false, lo 1 1) : Node Bool ℤ ℤ) = fun _ => 1 := rfl
    rw [this]
    exact hmv _ fun h => one_ne_zero (congrFun h ())⟩
  exact ⟨st', h1, h2 (false, ra 2 0) (by decide)⟩

/-- **C102**, refuted for a given number of steps: With one step the fields of the fundamental leave the crystal with
`1 - i` in the raised and `2 + i` in the lower sideband, although everything enters as one.  The keys take their steps one
after the other, the lower sideband uses the raised one after its step. -/
theorem C102_conj_refuted : ∃ (env : CEnv Bool ℤ ℤ (Unit → ℂ)) (e : Crystal Bool (Unit → ℂ)) (w : Eqs Bool ℤ ℤ (Unit → ℂ))
    (pks : List (Node Bool ℤ ℤ)) (sol : Dict (Node Bool ℤ ℤ) (Unit → ℂ)) (o : ExpMat (Node Bool ℤ ℤ) (Node Bool ℤ ℤ) (Unit → ℂ)),
    Closed env false true ∧ env.i () = Complex.I ∧ e.nlg () * e.length_mm () = ((1 : ℝ) : ℂ) ∧
    e.build env false true = .ok w ∧ Keyed w.dLt pks ∧
    (∀ k, (false, k) ∈ pks → fed sol id (false, k.conj) () = starRingEnd ℂ (fed sol id (false, k) ())) ∧
    init w.dLt w.in_map w.out_map 1 pks = .ok o ∧ ∀ moved st,
      (∃ n ∈ pks, moved (fed sol id n) ((Dict.get? st.vals_prev n).getD 0) = true) →
      ∃ st', o.generate_solution moved st sol = .ok st' ∧ ∃ n ∈ pks,
        outs st' pks true sol () (n.1, n.2.conj) ≠ starRingEnd ℂ (outs st' pks true sol () n) := by
  obtain ⟨w, hw, -⟩ := build_spec (crystal 1) (env := cenv shg) (pi := false) shg_closed.single
  have hs := shg_closed.single
  have hK := shg_keyed hw
  let sol : Dict (Node Bool ℤ ℤ) (Unit → ℂ) := (at_in shg).map fun n => (n, fun _ => 1)
  have hfed : ∀ n ∈ at_in shg, fed sol id n = fun _ => 1 := by
    intro n hn
    simp only [at_in, shg, List.map_cons, List.map_nil, List.mem_cons, List.not_mem_nil, or_false] at hn
    rcases hn with rfl | rfl | rfl | rfl <;> simp [fed, sol, at_in, shg, Dict.get?, lo, ra]
  obtain ⟨o, ho⟩ : ∃ o : ExpMat (Node Bool ℤ ℤ) (Node Bool ℤ ℤ) (Unit → ℂ),
      init w.dLt w.in_map w.out_map 1 (at_in shg) = .ok o := ⟨_, by unfold init; rw [if_neg one_ne_zero]⟩
  refine ⟨cenv shg, crystal 1, w, at_in shg, sol, o, shg_closed, rfl, by simp [crystal], hw, hK, ?_, ho, ?_⟩
  · intro k hk
    have : ((false, k.conj) : Node Bool ℤ ℤ) ∈ at_in shg := by
      obtain ⟨k', hk', h⟩ := List.mem_map.1 hk
      injection h with _ h
      subst h
      exact List.mem_map.2 ⟨_, shg_closed.conj _ hk', rfl⟩
    rw [hfed _ this, hfed _ hk]
    simp
  · intro moved st hmoved
    obtain ⟨st', h0, h1⟩ := generate_emits hK ho (shg_closed.mapped hw hK) moved st sol hmoved
    refine ⟨st', h0, (false, ra 1 0), by decide, ?_⟩
    have e1 : rhs w.dLt (false, ra 1 0) = _ := rhs_of hs hw (L := [(ra 2 0, lo 1 0)])
      (show (pairs shg).filter (fun T => (T.1.pol = T.2.pol ∧ kto T.1 T.2 ∈ shg) ∧ kto T.1 T.2 = ra 1 0) = _ by decide +kernel)
    have e2 : rhs w.dLt (false, ra 2 0) = _ := rhs_of hs hw (L := [(ra 1 0, ra 1 0)])
      (show (pairs shg).filter (fun T => (T.1.pol = T.2.pol ∧ kto T.1 T.2 ∈ shg) ∧ kto T.1 T.2 = ra 2 0) = _ by decide +kernel)
    have e3 : rhs w.dLt (false, lo 1 0) = _ := rhs_of hs hw (L := [(lo 2 0, ra 1 0)])
      (show (pairs shg).filter (fun T => (T.1.pol = T.2.pol ∧ kto T.1 T.2 ∈ shg) ∧ kto T.1 T.2 = lo 1 0) = _ by decide +kernel)
    have e4 : rhs w.dLt (false, lo 2 0) = _ := rhs_of hs hw (L := [(lo 1 0, lo 1 0)])
      (show (pairs shg).filter (fun T => (T.1.pol = T.2.pol ∧ kto T.1 T.2 ∈ shg) ∧ kto T.1 T.2 = lo 2 0) = _ by decide +kernel)
    have hrun : ∀ n ∈ at_in shg, outs st' (at_in shg) true sol () n
        = integrate w.dLt 1 (at_in shg) (fun _ _ => 1) n () := by
      intro n hn
      unfold outs
      rw [congrFun (h1 n hn (true, n.2) rfl) ()]
      have h4 := integrate2_congr hK 1 (p := (fed sol id, fun _ => 0)) (p' := (fun _ _ => 1, fun _ => 0))
        (fun n hn => ⟨hfed n hn, rfl⟩) n hn
      have h5 := h4.1
      rw [integrate2_fst, integrate2_fst] at h5
      exact congrFun h5 ()
    show outs st' (at_in shg) true sol () (false, lo 1 0) ≠ starRingEnd ℂ (outs st' (at_in shg) true sol () (false, ra 1 0))
    rw [hrun _ (by decide), hrun _ (by decide)]
    have hI : Complex.I * Complex.I = -1 := Complex.I_mul_I
    have r1 : integrate w.dLt 1 (at_in shg) (fun _ _ => 1) (false, ra 1 0) () = 1 - Complex.I := by
      simp only [integrate, Function.iterate_one, sweep, at_in, shg, List.map_cons, List.map_nil, List.foldl_cons,
        List.foldl_nil, nudge, e1, e2, e3, e4, poly]
      simp [Function.update, lo, ra, Crystal.gain, Crystal.G, crystal, cenv, ordOf]
      ring
    have r2 : integrate w.dLt 1 (at_in shg) (fun _ _ => 1) (false, lo 1 0) () = 2 + Complex.I := by
      simp only [integrate, Function.iterate_one, sweep, at_in, shg, List.map_cons, List.map_nil, List.foldl_cons,
        List.foldl_nil, nudge, e1, e2, e3, e4, poly]
      simp [Function.update, lo, ra, Crystal.gain, Crystal.G, crystal, cenv, ordOf]
      linear_combination -hI
    rw [r1, r2]
    intro h
    have := congrArg Complex.re h
    simp at this

end Ode
