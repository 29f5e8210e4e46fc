import Mathlib.Analysis.SpecialFunctions.ExpDeriv
import Verif.Ode.Limit
import Verif.Ode.Deriv

/-!
# Properties of the coupling that integrates differential equations

C97: the coupling is the derivative of the integration, the injection what is missing.
C98: with more steps value and coupling tend to the solution of the differential equations and to its variation.

Values are functions from the points `S` of a sweep to the complex numbers.
-/

set_option linter.unusedSectionVars false

namespace Ode
open Py

variable {K P S R : Type} [DecidableEq K] [DecidableEq P] [CommRing R] [Algebra ℚ R] [DecidableEq R] [DecidableEq (S → ℂ)]

/-- The inputs of the integration: the fields at the nodes `inn k`. -/
def fed (sol : Dict P R) (inn : K → P) (k : K) : R := (Dict.get? sol (inn k)).getD 0

/-- The edge of a coupling from one node to another. -/
def State.edge (st : State P R) (a b : P) : R := (Dict.get? st.solution (a, b)).getD 0

/-- The field that a coupling injects at a node. -/
def State.inj (st : State P R) (q : P) : R := (Dict.get? st.vals_inj q).getD 0

/-- What a coupling makes of the inputs `x` at the output node `q`: edges and injection. -/
def State.emits (st : State P R) (pks : List K) (inn : K → P) (q : P) (x : K → R) : R :=
  (pks.map fun k => st.edge (inn k) q * x k).sum + st.inj q

/-- An update of the coupling emits what the integration ends at. -/
theorem generate_emits {dLt : Dict K (Lt K R)} {pks : List K} {in_map : Dict K P} {out_map : Dict K (Option P)}
    {inn : K → P} {out : K → Option P} {N : ℕ} {o : ExpMat K P R} (hK : Keyed dLt pks)
    (ho : init dLt in_map out_map N pks = .ok o) (hM : Mapped pks in_map out_map inn out) (moved : R → R → Bool)
    (st : State P R) (sol : Dict P R)
    (hmoved : ∃ k ∈ pks, moved (fed sol inn k) ((Dict.get? st.vals_prev (inn k)).getD 0) = true) :
    ∃ st', o.generate_solution moved st sol = .ok st' ∧ ∀ k' ∈ pks, ∀ q, out k' = some q →
      st'.emits pks inn q (fed sol inn) = integrate dLt N pks (fed sol inn) k' := by
  obtain ⟨st', h, h1, -⟩ := generate_spec hK ho hM moved st sol hmoved
  refine ⟨st', h, fun k' hk' q hq => ?_⟩
  obtain ⟨-, e2⟩ := h1 k' hk' q hq
  unfold State.emits State.inj
  rw [e2]
  exact add_sub_cancel _ _

variable {dLt : Dict K (Lt K (S → ℂ))} {pks : List K} {in_map : Dict K P} {out_map : Dict K (Option P)}
  {inn : K → P} {out : K → Option P} {N : ℕ} {o : ExpMat K P (S → ℂ)}

/-- **C97**: The coupling linearises the integration.  If an input moved, an update succeeds whatever the coupling was
before; then at every output the coupling emits for the present inputs exactly what the integration ends at, and along any
differentiable change of the inputs the integration changes as the edges say.  There are no edges and no injections
elsewhere. -/
theorem C97_linearises (hK : Keyed dLt pks) (ho : init dLt in_map out_map N pks = .ok o)
    (hM : Mapped pks in_map out_map inn out) (moved : (S → ℂ) → (S → ℂ) → Bool) (st : State P (S → ℂ))
    (sol : Dict P (S → ℂ))
    (hmoved : ∃ k ∈ pks, moved (fed sol inn k) ((Dict.get? st.vals_prev (inn k)).getD 0) = true) :
    ∃ st', o.generate_solution moved st sol = .ok st' ∧
      (∀ k' ∈ pks, ∀ q, out k' = some q → ∀ s,
        st'.emits pks inn q (fed sol inn) s = integrate dLt N pks (fed sol inn) k' s ∧
        ∀ (x : ℝ → K → S → ℂ) (Δ : K → S → ℂ) (t₀ : ℝ), x t₀ = fed sol inn →
          (∀ k ∈ pks, HasDerivAt (fun t => x t k s) (Δ k s) t₀) →
          HasDerivAt (fun t => integrate dLt N pks (x t) k' s) ((pks.map fun k => st'.edge (inn k) q * Δ k).sum s) t₀) ∧
      (∀ a b, st'.edge a b ≠ 0 → ∃ k ∈ pks, ∃ k' ∈ pks, a = inn k ∧ out k' = some b) ∧
      (∀ q, st'.inj q ≠ 0 → ∃ k ∈ pks, out k = some q) := by
  obtain ⟨st', h, h1, h2, h3, -⟩ := generate_spec hK ho hM moved st sol hmoved
  obtain ⟨st'', h', h4⟩ := generate_emits hK ho hM moved st sol hmoved
  rw [h] at h'
  injection h' with h'
  subst h'
  refine ⟨st', h, ?_, ?_, ?_⟩
  · intro k' hk' q hq s
    obtain ⟨e1, -⟩ := h1 k' hk' q hq
    refine ⟨congrFun (h4 k' hk' q hq) s, fun x Δ t₀ hx hd => ?_⟩
    have h5 := integrate_deriv hK N hd k' hk'
    rw [hx] at h5
    exact h5.congr_deriv (congrFun (e1 Δ) s).symm
  · intro a b hab
    refine h2 (a, b) ?_
    by_contra hn
    apply hab
    unfold State.edge
    rw [(Dict.get?_eq_none_iff _ _).2 hn]; rfl
  · intro q hq
    refine h3 q ?_
    by_contra hn
    apply hq
    unfold State.inj
    rw [(Dict.get?_eq_none_iff _ _).2 hn]; rfl

/-- **C97**: A second update with the same fields changes nothing. -/
theorem C97_again {dLt : Dict K (Lt K R)} {o : ExpMat K P R} (hK : Keyed dLt pks) (ho : init dLt in_map out_map N pks = .ok o)
    (hM : Mapped pks in_map out_map inn out) (moved : R → R → Bool) (hsame : ∀ v, moved v v = false)
    (st st' : State P R) (sol : Dict P R) (h : o.generate_solution moved st sol = .ok st') :
    o.generate_solution moved st' sol = .ok st' := by
  have hoo : o.pks = pks ∧ o.in_map = in_map ∧ o.out_map = out_map := by
    unfold init at ho
    split_ifs at ho
    injection ho with ho
    rw [← ho]; exact ⟨rfl, rfl, rfl⟩
  obtain ⟨hp, hi, hu⟩ := hoo
  have hM' : Mapped o.pks o.in_map o.out_map inn out := by rw [hp, hi, hu]; exact hM
  by_cases hmoved : ∃ k ∈ pks, moved (fed sol inn k) ((Dict.get? st.vals_prev (inn k)).getD 0) = true
  · obtain ⟨st'', h', -, -, -, h4⟩ := generate_spec hK ho hM moved st sol hmoved
    rw [h] at h'
    injection h' with h'
    subst h'
    refine generate_still hM' moved st' sol fun k hk => ?_
    rw [h4 k (by rw [← hp]; exact hk)]
    exact hsame _
  · have hst := generate_still hM' moved st sol fun k hk => by
      by_contra hn
      exact hmoved ⟨k, by rw [← hp]; exact hk, Bool.eq_true_of_not_eq_false hn⟩
    rw [h] at hst
    injection hst with hst
    subst hst
    exact h

/-- **C98**: The integration converges.  Let `φ` solve the differential equations from the present inputs and let `ψ` solve
the equations of their variation.  Then there are bounds such that for every large number of steps what an updated coupling
emits differs from `φ 1`, and its edges applied to `ψ 0` from `ψ 1`, by less than `C / N`. -/
theorem C98_limit (hK : Keyed dLt pks) (hM : Mapped pks in_map out_map inn out) (sol : Dict P (S → ℂ)) (s : S)
    {φ ψ : ℝ → K → S → ℂ}
    (hφ0 : ∀ k ∈ pks, φ 0 k = fed sol inn k)
    (hφ : ∀ t ∈ Set.Icc (0 : ℝ) 1, ∀ k ∈ pks,
      HasDerivWithinAt (fun t => φ t k s) (poly (rhs dLt k) (φ t) s) (Set.Icc 0 1) t)
    (hψ : ∀ t ∈ Set.Icc (0 : ℝ) 1, ∀ k ∈ pks,
      HasDerivWithinAt (fun t => ψ t k s) (dpoly (rhs dLt k) (φ t) (ψ t) s) (Set.Icc 0 1) t) :
    ∃ C : ℝ, ∃ N₀ : ℕ, ∀ N : ℕ, N₀ ≤ N → ∀ (o : ExpMat K P (S → ℂ)), init dLt in_map out_map N pks = .ok o →
      ∀ (moved : (S → ℂ) → (S → ℂ) → Bool) (st : State P (S → ℂ)),
      (∃ k ∈ pks, moved (fed sol inn k) ((Dict.get? st.vals_prev (inn k)).getD 0) = true) →
      ∃ st', o.generate_solution moved st sol = .ok st' ∧ ∀ k' ∈ pks, ∀ q, out k' = some q →
        ‖st'.emits pks inn q (fed sol inn) s - φ 1 k' s‖ ≤ C / N ∧
        ‖(pks.map fun k => st'.edge (inn k) q * ψ 0 k).sum s - ψ 1 k' s‖ ≤ C / N := by
  obtain ⟨C, N₀, h⟩ := integrate2_limit_at hK s hφ hψ
  refine ⟨C, N₀, fun N hN o ho moved st hmoved => ?_⟩
  obtain ⟨st', h0, h1, -⟩ := generate_spec hK ho hM moved st sol hmoved
  obtain ⟨st'', h0', h1', -⟩ := C97_linearises hK ho hM moved st sol hmoved
  rw [h0] at h0'
  injection h0' with h0'
  subst h0'
  refine ⟨st', h0, fun k' hk' q hq => ?_⟩
  obtain ⟨b1, b2⟩ := h N hN k' hk'
  have hc := integrate2_congr hK N (p := (φ 0, ψ 0)) (p' := (fed sol inn, ψ 0)) (fun k hk => ⟨hφ0 k hk, rfl⟩) k' hk'
  constructor
  · rw [((h1' k' hk' q hq) s).1]
    have := hc.1
    rw [integrate2_fst, integrate2_fst] at this
    rw [← this]
    exact b1
  · have h5 := congrFun ((h1 k' hk' q hq).1 (ψ 0)) s
    have h6 := congrFun hc.2 s
    refine (congrArg (fun z => ‖z - ψ 1 k' s‖) h5).le.trans ?_
    rw [h6] at b2
    exact b2

/-! ## An example: `x' = c x` -/

section Example

/-- One key that grows at the rate `c`. -/
def growth (c : ℂ) : Dict Bool (Lt Bool (Unit → ℂ)) := [(true, [(fun _ => c, [true])])]

theorem growth_keyed (c : ℂ) : Keyed (growth c) [true] := by
  refine ⟨by simp [growth, Dict.WF, Dict.keys], by simp, ?_⟩
  intro k
  unfold Mentions growth
  constructor
  · intro h
    exact ⟨_, List.mem_singleton.2 rfl, Or.inl (List.mem_singleton.1 h)⟩
  · rintro ⟨T, hT, h⟩
    obtain rfl := List.mem_singleton.1 hT
    rcases h with rfl | ⟨t, ht, hk⟩
    · simp
    · obtain rfl := List.mem_singleton.1 ht
      exact hk

theorem growth_mapped : Mapped [true] [(true, 3)] [(true, some 4)] (fun _ => (3 : ℕ)) fun _ => some 4 := by
  refine ⟨?_, ?_, ?_, ?_⟩
  · intro k hk; rw [List.mem_singleton.1 hk]; rfl
  · intro k hk; rw [List.mem_singleton.1 hk]; rfl
  · intro k hk k' hk' _; rw [List.mem_singleton.1 hk, List.mem_singleton.1 hk']
  · intro k hk k' hk' _ _ _; rw [List.mem_singleton.1 hk, List.mem_singleton.1 hk']

/-- A second update with the same fields. -/
example (c a : ℂ) (N : ℕ) (o : ExpMat Bool ℕ (Unit → ℂ))
    (ho : init (growth c) [(true, 3)] [(true, some 4)] N [true] = .ok o) (st' : State ℕ (Unit → ℂ))
    (h : o.generate_solution (fun v w => decide (v ≠ w)) o.start [(3, fun _ => a)] = .ok st') :
    o.generate_solution (fun v w => decide (v ≠ w)) st' [(3, fun _ => a)] = .ok st' :=
  C97_again (growth_keyed c) ho growth_mapped _ (by simp) _ _ _ h

/-- An amplifier, first with any number of steps and then in the limit, where it amplifies by `exp c`. -/
example (c a : ℂ) (ha : a ≠ 0) (N : ℕ) (hN : N ≠ 0) (moved : (Unit → ℂ) → (Unit → ℂ) → Bool)
    (hmv : ∀ v : Unit → ℂ, v ≠ 0 → moved v 0 = true) :
    ∃ o, init (growth c) [(true, 3)] [(true, some 4)] N [true] = .ok o ∧
      ∃ st', o.generate_solution moved o.start [(3, fun _ => a)] = .ok st' ∧
        HasDerivAt (fun t : ℝ => integrate (growth c) N [true] (fun _ _ => a + t) true ())
          (st'.edge 3 4 ()) 0 := by
  obtain ⟨o, ho⟩ : ∃ o : ExpMat Bool ℕ (Unit → ℂ), init (growth c) [(true, 3)] [(true, some 4)] N [true] = .ok o :=
    ⟨_, by unfold init; rw [if_neg hN]⟩
  refine ⟨o, ho, ?_⟩
  have hfed : ∀ k, fed [((3 : ℕ), fun _ : Unit => a)] (fun _ : Bool => 3) k = fun _ => a := fun _ => rfl
  obtain ⟨st', h, h1, -, -⟩ := C97_linearises (growth_keyed c) ho growth_mapped moved
    o.start [(3, fun _ => a)] ⟨true, by simp, by
      rw [hfed]
      exact hmv _ (fun h => ha (congrFun h ()))⟩
  refine ⟨st', h, ?_⟩
  have h2 := ((h1 true (by simp) 4 rfl ()).2 (fun t _ _ => a + t) (fun _ _ => 1) 0 (by funext k s; simp [fed]; rfl)
    (fun k _ => by
      have : HasDerivAt (fun t : ℝ => (t : ℂ)) 1 0 := Complex.ofRealCLM.hasDerivAt
      simpa using this.const_add a))
  simpa using h2

example (c a : ℂ) (ha : a ≠ 0) (moved : (Unit → ℂ) → (Unit → ℂ) → Bool) (hmv : ∀ v : Unit → ℂ, v ≠ 0 → moved v 0 = true) :
    ∃ C : ℝ, ∃ N₀ : ℕ, ∀ N : ℕ, N₀ ≤ N → ∀ (o : ExpMat Bool ℕ (Unit → ℂ)),
      init (growth c) [(true, 3)] [(true, some 4)] N [true] = .ok o →
      ∃ st', o.generate_solution moved o.start [(3, fun _ => a)] = .ok st' ∧
        ‖st'.edge 3 4 () * a + st'.inj 4 () - Complex.exp c * a‖ ≤ C / N ∧
        ‖st'.edge 3 4 () - Complex.exp c‖ ≤ C / N := by
  have hexp : ∀ (b : ℂ) (t : ℝ), HasDerivAt (fun t : ℝ => Complex.exp (c * t) * b) (c * (Complex.exp (c * t) * b)) t := by
    intro b t
    have h1 : HasDerivAt (fun t : ℝ => c * (t : ℂ)) c t := by
      have : HasDerivAt (fun t : ℝ => (t : ℂ)) 1 t := Complex.ofRealCLM.hasDerivAt
      simpa using this.const_mul c
    have h2 := (h1.cexp).mul_const b
    exact h2.congr_deriv (by ring)
  obtain ⟨C, N₀, h⟩ := C98_limit (growth_keyed c) growth_mapped [(3, fun _ => a)] ()
    (φ := fun t _ _ => Complex.exp (c * t) * a) (ψ := fun t _ _ => Complex.exp (c * t) * 1)
    (fun k _ => by funext s; simp [fed]; rfl)
    (fun t _ k hk => by
      rw [List.mem_singleton.1 hk]
      have : poly (rhs (growth c) true) (fun _ _ => Complex.exp (c * t) * a) () = c * (Complex.exp (c * t) * a) := by
        simp [rhs, growth, Dict.get?, poly]
      rw [this]
      exact (hexp a t).hasDerivWithinAt)
    (fun t _ k hk => by
      rw [List.mem_singleton.1 hk]
      have : dpoly (rhs (growth c) true) (fun _ _ => Complex.exp (c * t) * a) (fun _ _ => Complex.exp (c * t) * 1) ()
          = c * (Complex.exp (c * t) * 1) := by
        simp [rhs, growth, Dict.get?, dpoly, dprod]
      rw [this]
      exact (hexp 1 t).hasDerivWithinAt)
  refine ⟨C, N₀, fun N hN o ho => ?_⟩
  have ho' : o.start.vals_prev = [] := rfl
  obtain ⟨st', h1, h2⟩ := h N hN o ho moved o.start ⟨true, by simp, by
    rw [ho']
    exact hmv _ (fun h => ha (congrFun h ()))⟩
  obtain ⟨h3, h4⟩ := h2 true (by simp) 4 rfl
  refine ⟨st', h1, ?_, ?_⟩
  · have : fed [((3 : ℕ), fun _ : Unit => a)] (fun _ : Bool => 3) true () = a := rfl
    simpa [State.emits, this] using h3
  · simpa using h4

end Example

end Ode
