import Verif.Noise.Solver

/-!
# C77, C78: what the sources insert, and examples
-/

set_option linter.unusedSectionVars false

namespace Noise
open Py

/-! ## the sources insert conjugate pairs -/

section Sources
variable {P K O : Type} [DecidableEq P] [DecidableEq K] [DecidableEq O]

/-- A fluctuation correlates a key with the key of opposite frequency at the same port, with itself only. -/
theorem pairs_conj (keys : P → List K) (flip : K → K) (p : P) (o : O) :
    ∀ c ∈ pairs keys flip p o, c.pk2 = (c.pk1.1, flip c.pk1.2) ∧ c.nobj = o := by
  intro c hc
  obtain ⟨k, -, rfl⟩ := List.mem_map.1 hc
  exact ⟨rfl, rfl⟩

/-- The vacuum correlates a lowering with a raising field of the same keys: with the map to the other kind of field,
which is its own inverse, the pairs are conjugate. -/
theorem vacuum_conj (keys : P → List K) (lower : K → Bool) (toR toL : K → K) (p : P) (o : O) :
    ∀ c ∈ vacuum_pairs keys lower toR toL p o,
      c.pk2 = (c.pk1.1, if lower c.pk1.2 then toR c.pk1.2 else toL c.pk1.2) ∧ c.nobj = o := by
  intro c hc
  obtain ⟨k, -, rfl⟩ := List.mem_map.1 hc
  exact ⟨rfl, rfl⟩

end Sources

/-! ## a source coupled to a readout -/

def exFlip (k : Bool) : Bool := !k

/-- Port 0 is the source, port 1 is read out. -/
def exCplgs : Dict (Fin 2) (List Bool) := [(0, [true, false]), (1, [true, false])]

def exCalls : List (Pair (Fin 2) Bool Unit) := pairs (fun p => (Dict.get? exCplgs p).getD []) exFlip 0 ()

def exSt : St (Fin 2) Bool Unit :=
  ⟨[((0, true), [((0, false), [⟨(0, true), (0, false), ()⟩])]), ((0, false), [((0, true), [⟨(0, false), (0, true), ()⟩])])],
    [(0, true), (0, false)]⟩

/-- The map is built; with a key the port does not have it is not. -/
theorem exSt_ok : noise_map exCplgs id exCalls = .ok exSt := by rfl

example : noise_map [(0, [true])] id exCalls = .error .runtime := by rfl

example : noise_map [(1, [true])] id exCalls = .error .typeError := by rfl

def exGain (k : Bool) : ℂ := ⟨2, if k then 3 else -3⟩

noncomputable def exG : Graph.G (Fin 2 × Bool) ℂ where
  seq := [((0, true), [(1, true)]), ((0, false), [(1, false)])]
  req := [((1, true), [(0, true)]), ((1, false), [(0, false)])]
  em := [(((0, true), (1, true)), exGain true), (((0, false), (1, false)), exGain false)]

def exOpts : Graph.Opts (Fin 2 × Bool) ℂ where
  lt := fun a b => decide (a.1 < b.1)
  pick := fun l => l.headD .vac
  size := fun _ => 1

def exOuts : List (Fin 2 × Bool) := [(1, true), (1, false)]

def isOk {α : Type} : Except Err α → Bool
  | .ok _ => true
  | .error _ => false

theorem exRun_ok : isOk (Graph.inverse_solve exOpts exOuts exSt.pks none exG) = true := by
  decide +kernel

theorem exRun : ∃ r em, Graph.inverse_solve exOpts exOuts exSt.pks none exG = .ok (r, em) := by
  have := exRun_ok
  cases h : Graph.inverse_solve exOpts exOuts exSt.pks none exG with
  | ok r => exact ⟨r.1, r.2, rfl⟩
  | error e => rw [h] at this; cases this

theorem exG_valid : Graph.Valid exG where
  ws := by decide
  wr := by decide
  nds := by decide
  ndp := by decide
  listed := by decide

theorem exG_gain (d t : Fin 2 × Bool) : Graph.gain exG d t = if d.1 = 0 ∧ t.1 = 1 ∧ d.2 = t.2 then exGain d.2 else 0 := by
  obtain ⟨d, i⟩ := d
  obtain ⟨t, j⟩ := t
  fin_cases d <;> fin_cases t <;> cases i <;> cases j <;> rfl

theorem exG_inv : IsUnit (1 - Graph.mat exG) := by
  have h0 : Graph.mat exG * Graph.mat exG = 0 := by
    ext t d
    rw [Matrix.mul_apply]
    apply Finset.sum_eq_zero
    intro r _
    unfold Graph.mat
    rw [exG_gain, exG_gain]
    by_cases h : r.1 = 0
    · rw [if_neg (c := d.1 = 0 ∧ _) (by rw [h]; rintro ⟨-, h, -⟩; exact absurd h (by decide)), mul_zero]
    · rw [if_neg (fun hh => h hh.1), zero_mul]
  have h1 : (1 - Graph.mat exG) * (1 + Graph.mat exG) = 1 := by
    rw [mul_add, sub_mul, sub_mul, h0]
    simp
  exact IsUnit.of_mul_eq_one _ h1

def exMap : Dict Unit (Fin 2) := [((), 1)]

theorem exPick : ∀ l, l ≠ [] → exOpts.pick l ∈ l := by
  intro l hl
  cases l with
  | nil => exact absurd rfl hl
  | cons a l => exact List.mem_cons_self

/-- Two sources of weight 5/2 with the second moments of a noise of spectrum 5. -/
noncomputable def exEns : List (ℂ × (Fin 2 × Bool → ℂ)) :=
  [(5 / 2, fun d => if d.1 = 0 then 1 else 0),
    (5 / 2, fun d => if d.1 = 0 then (if d.2 then Complex.I else -Complex.I) else 0)]

/-- The fields for a source. -/
noncomputable def exField (s : Fin 2 × Bool → ℂ) (n : Fin 2 × Bool) : ℂ :=
  if n.1 = 0 then s n else exGain n.2 * s (0, n.2) + s n

/-- The example meets the hypotheses of `C77_correlation`: the one-sided density is `2 · 5 · |2 + 3i|² = 130`. -/
example : ∃ em, (∃ r, Graph.inverse_solve exOpts exOuts exSt.pks none exG = .ok (r, em)) ∧
    Dict.get? (CSD_builds exMap true false 2 (fun _ => 5) em exSt.nmap).nsums ((), ()) = some 130 := by
  obtain ⟨r, em, h⟩ := exRun
  refine ⟨em, ⟨r, h⟩, ?_⟩
  rw [C77_correlation (ens := exEns) (x := exField) (pa := 1) (pb := 1) exSt_ok (by decide) exPick rfl exG_valid exG_inv h
    ?_ ?_ rfl rfl (by decide) (by decide)]
  · rw [if_pos rfl]
    refine congrArg some ?_
    unfold npreal exEns exField exGain
    apply Complex.ext <;> norm_num [Complex.ext_iff]
  · rintro ⟨d1, k1⟩ ⟨d2, k2⟩
    fin_cases d1 <;> fin_cases d2 <;> cases k1 <;> cases k2 <;>
      norm_num [exEns, exCalls, pairs, exCplgs, exFlip, Dict.get?, Complex.ext_iff]
  · intro s _ n
    simp only [exG_gain]
    obtain ⟨n, k⟩ := n
    fin_cases n
    · simp [exField]
    · cases k <;> simp [exField, Fintype.sum_prod_type]

/-- The example meets the hypotheses of `C78_positive` with the exchange of the signs of the frequency. -/
example : ∃ em, (∃ r, Graph.inverse_solve exOpts exOuts exSt.pks none exG = .ok (r, em)) ∧
    ∀ u : ℂ, ∃ q : ℝ, 0 ≤ q ∧
      u * star u * csd (CSD_builds exMap true false 2 (fun _ => 5) em exSt.nmap) () () = q := by
  obtain ⟨r, em, h⟩ := exRun
  refine ⟨em, ⟨r, h⟩, fun u => ?_⟩
  have hM : ∀ t d : Fin 2 × Bool, Graph.gain exG (d.1, !d.2) (t.1, !t.2) = star (Graph.gain exG d t) := by
    rintro ⟨t, k⟩ ⟨d, j⟩
    rw [exG_gain, exG_gain]
    fin_cases d <;> fin_cases t <;> cases k <;> cases j <;> simp [exGain, Complex.ext_iff]
  obtain ⟨-, -, h3⟩ := C78_positive (port_map := exMap) (keyP := true) (keyN := false) (adjust := 2) (S := fun _ => 5)
    (σ := fun n => (n.1, !n.2)) exSt_ok (by decide) exPick rfl exG_valid exG_inv h (fun n => by simp) hM (by decide)
    (by decide) (fun _ _ => ⟨5, by norm_num, by norm_num⟩) ⟨2, by norm_num, by norm_num⟩
  obtain ⟨q, hq, e⟩ := h3 [()] (fun _ => u) (by decide)
  exact ⟨q, hq, by simpa using e⟩

end Noise
