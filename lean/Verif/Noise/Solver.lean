import Mathlib.LinearAlgebra.Matrix.NonsingularInverse
import Mathlib.Algebra.Star.BigOperators
import Verif.Graph.Props
import Verif.Inject.Basic
import Verif.Noise.Props

/-!
# C77, C78: the noise readout and the solution of the network

`coupling_solution_get` (`/repo/phasor/system/solver_algorithm.py` l.532-603) hands the noise nodes and the nodes read out
to the solver; the couplings it returns are those of `C13_transfer`.
-/

set_option linter.unusedSectionVars false

namespace Noise
open Py Inject

section WF
variable {N V : Type} [DecidableEq N] [Field V] [DecidableEq V]

theorem unwrapInput_WF {g : Graph.G (Graph.WN N) V} {i : N} {ws : List (Graph.WN N)} {m em : Dict (N × N) V}
    (hm : Dict.WF m) (h : Graph.unwrapInput g i ws m = .ok em) : Dict.WF em := by
  induction ws generalizing m with
  | nil => injection h with h; exact h ▸ hm
  | cons w ws ih =>
    unfold Graph.unwrapInput at h
    obtain ⟨v, hv, h⟩ := bind_ok_inv h
    cases w with
    | out o => exact ih (Dict.WF_set hm _ _) h
    | inp j => cases h
    | _ => cases h

theorem unwrapEdges_WF {g : Graph.G (Graph.WN N) V} {is : List N} {m em : Dict (N × N) V}
    (hm : Dict.WF m) (h : Graph.unwrapEdges g is m = .ok em) : Dict.WF em := by
  induction is generalizing m with
  | nil => injection h with h; exact h ▸ hm
  | cons i is ih =>
    unfold Graph.unwrapEdges at h
    obtain ⟨v, hv, h⟩ := bind_ok_inv h
    exact ih (unwrapInput_WF hm hv) h

theorem solve_WF [Fintype N] {o : Graph.Opts N V} {outs ins : List N} {src : Option (Dict N V)} {g : Graph.G N V}
    {r : Option (Dict N V)} {em : Dict (N × N) V} (h : Graph.inverse_solve o outs ins src g = .ok (r, em)) : Dict.WF em := by
  unfold Graph.inverse_solve at h
  obtain ⟨g1, h1, h⟩ := bind_ok_inv h
  obtain ⟨g2, h2, h⟩ := bind_ok_inv h
  obtain ⟨e, h3, h⟩ := bind_ok_inv h
  injection h with h
  injection h with h4 h5
  subst h5
  exact unwrapEdges_WF Dict.WF_nil h3

end WF

variable {P K O Nm : Type} [DecidableEq P] [DecidableEq K] [DecidableEq O] [DecidableEq Nm] [Fintype P] [Fintype K]
variable {port_map : Dict Nm P} {keyP keyN : K} {adjust : ℂ} {S : Pair P K O → ℂ}
variable {cplgs : Dict P (List K)} {base : P → P} {calls : List (Pair P K O)} {st : St P K O}
variable {o : Graph.Opts (P × K) ℂ} {g : Graph.G (P × K) ℂ} {outs : List (P × K)} {r : Option (Dict (P × K) ℂ)}
variable {em : Dict ((P × K) × (P × K)) ℂ}

/-- the couplings found by the solver -/
theorem resp_solve (hpick : ∀ l, l ≠ [] → o.pick l ∈ l) (hneg : o.negative = false) (hv : Graph.Valid g)
    (hinv : IsUnit (1 - Graph.mat g)) {ins : List (P × K)} (h : Graph.inverse_solve o outs ins none g = .ok (r, em))
    {d t : P × K} (hd : d ∈ ins) (ht : t ∈ outs) : resp em d t = (1 - Graph.mat g)⁻¹ t d := by
  have := Graph.C13_inverse hpick hv (fun m hm => by cases hm) hinv h hd ht
  unfold resp
  rw [this, hneg]
  simp [Graph.sgn]

theorem solution_unique (hinv : IsUnit (1 - Graph.mat g)) {w x : P × K → ℂ}
    (hx : ∀ n, x n = (∑ r, Graph.gain g r n * x r) + w n) : x = (1 - Graph.mat g)⁻¹.mulVec w := by
  have : (1 - Graph.mat g).mulVec x = w := by
    funext n
    rw [Matrix.sub_mulVec, Matrix.one_mulVec, Pi.sub_apply]
    have h3 : ((Graph.mat g).mulVec x) n = ∑ r, Graph.gain g r n * x r := rfl
    rw [h3]
    linear_combination hx n
  rw [← this, Matrix.mulVec_mulVec, Matrix.nonsing_inv_mul _ ((Matrix.isUnit_iff_isUnit_det _).1 hinv), Matrix.one_mulVec]

theorem sum_list_finset {A B : Type} [Fintype B] (l : List A) (f : A → B → ℂ) :
    (l.map (fun a => ∑ b, f a b)).sum = ∑ b, (l.map (fun a => f a b)).sum := by
  induction l with
  | nil => simp
  | cons a l ih => simp only [List.map_cons, List.sum_cons, ih, Finset.sum_add_distrib]

theorem sum_list_mul {A : Type} (l : List A) (f : A → ℂ) (c : ℂ) : (l.map (fun a => c * f a)).sum = c * (l.map f).sum := by
  induction l with
  | nil => simp
  | cons a l ih => simp only [List.map_cons, List.sum_cons, ih, mul_add]

/-- sorting the calls by their nodes -/
theorem sum_calls (calls : List (Pair P K O)) (S : Pair P K O → ℂ) (f h : P × K → ℂ) :
    ∑ d1, ∑ d2, f d1 * h d2 * ((calls.filter (fun c => c.pk1 = d1 ∧ c.pk2 = d2)).map S).sum =
      (calls.map (fun c => f c.pk1 * h c.pk2 * S c)).sum := by
  induction calls with
  | nil => simp
  | cons c calls ih =>
    rw [List.map_cons, List.sum_cons, ← ih]
    have : ∀ d1 d2, ((List.filter (fun c => decide (c.pk1 = d1 ∧ c.pk2 = d2)) (c :: calls)).map S).sum =
        (if c.pk1 = d1 then if c.pk2 = d2 then S c else 0 else 0) +
        ((calls.filter (fun c => c.pk1 = d1 ∧ c.pk2 = d2)).map S).sum := by
      intro d1 d2
      rw [List.filter_cons]
      by_cases h1 : c.pk1 = d1
      · by_cases h2 : c.pk2 = d2
        · simp [h1, h2]
        · simp [h1, h2]
      · simp [h1]
    simp only [this, mul_add, Finset.sum_add_distrib]
    congr 1
    rw [Finset.sum_eq_single c.pk1, Finset.sum_eq_single c.pk2]
    · simp
    · intro d2 _ hd
      simp [Ne.symm hd]
    · intro hd
      exact absurd (Finset.mem_univ _) hd
    · intro d1 _ hd
      apply Finset.sum_eq_zero
      intro d2 _
      simp [Ne.symm hd]
    · intro hd
      exact absurd (Finset.mem_univ _) hd

/-- **C77**, meaning of the density: take any ensemble of sources, given by weights and amplitudes at the nodes, whose
second moments are those of the noise objects.  With the couplings returned by the solver, each entry of the cross
spectral density is the second moment of the fields at the two ports which solve the equations of the network for these
sources (the real part of it on the diagonal). -/
theorem C77_correlation (hst : noise_map cplgs base calls = .ok st) (hpm : Dict.WF port_map)
    (hpick : ∀ l, l ≠ [] → o.pick l ∈ l) (hneg : o.negative = false) (hv : Graph.Valid g)
    (hinv : IsUnit (1 - Graph.mat g)) (h : Graph.inverse_solve o outs st.pks none g = .ok (r, em))
    {ens : List (ℂ × (P × K → ℂ))}
    (hens : ∀ d1 d2, (ens.map (fun s => s.1 * s.2 d1 * s.2 d2)).sum =
      ((calls.filter (fun c => c.pk1 = d1 ∧ c.pk2 = d2)).map S).sum)
    {x : (P × K → ℂ) → P × K → ℂ}
    (hx : ∀ s ∈ ens, ∀ n, x s.2 n = (∑ r, Graph.gain g r n * x s.2 r) + s.2 n)
    {a b : Nm} {pa pb : P} (ha : Dict.get? port_map a = some pa) (hb : Dict.get? port_map b = some pb)
    (hoa : (pa, keyP) ∈ outs) (hob : (pb, keyN) ∈ outs) :
    let second := adjust * (ens.map (fun s => s.1 * x s.2 (pa, keyP) * x s.2 (pb, keyN))).sum
    Dict.get? (CSD_builds port_map keyP keyN adjust S em st.nmap).nsums (a, b) =
      some (if a = b then npreal second else second) := by
  intro second
  rw [C77_csd hst (solve_WF h) hpm ha hb]
  have hpks := (C77_noise_map.2 st hst).2
  have key : (calls.map (spectrum adjust S em keyP keyN pa pb)).sum = second := by
    have e1 : (calls.map (spectrum adjust S em keyP keyN pa pb)).sum =
        adjust * (calls.map (fun c => (1 - Graph.mat g)⁻¹ (pa, keyP) c.pk1 * (1 - Graph.mat g)⁻¹ (pb, keyN) c.pk2 * S c)).sum := by
      rw [← sum_list_mul]
      congr 1
      apply List.map_congr_left
      intro c hc
      unfold spectrum
      rw [resp_solve hpick hneg hv hinv h ((hpks _).2 ⟨c, hc, Or.inl rfl⟩) hoa,
        resp_solve hpick hneg hv hinv h ((hpks _).2 ⟨c, hc, Or.inr rfl⟩) hob]
      ring
    rw [e1, ← sum_calls calls S (fun d => (1 - Graph.mat g)⁻¹ (pa, keyP) d) (fun d => (1 - Graph.mat g)⁻¹ (pb, keyN) d)]
    refine congrArg (adjust * ·) ?_
    simp only [← hens]
    have e2 : ens.map (fun s => s.1 * x s.2 (pa, keyP) * x s.2 (pb, keyN)) =
        ens.map (fun s => ∑ d1, ∑ d2, (1 - Graph.mat g)⁻¹ (pa, keyP) d1 * (1 - Graph.mat g)⁻¹ (pb, keyN) d2 *
          (s.1 * s.2 d1 * s.2 d2)) := by
      apply List.map_congr_left
      intro s hs
      rw [solution_unique hinv (hx s hs)]
      change s.1 * (∑ d1, (1 - Graph.mat g)⁻¹ (pa, keyP) d1 * s.2 d1) * (∑ d2, (1 - Graph.mat g)⁻¹ (pb, keyN) d2 * s.2 d2) = _
      rw [mul_assoc, Finset.sum_mul_sum, Finset.mul_sum]
      apply Finset.sum_congr rfl
      intro d1 _
      rw [Finset.mul_sum]
      apply Finset.sum_congr rfl
      intro d2 _
      ring
    rw [e2, sum_list_finset]
    apply Finset.sum_congr rfl
    intro d1 _
    rw [sum_list_finset]
    apply Finset.sum_congr rfl
    intro d2 _
    rw [sum_list_mul]
  rw [key]

/-! ## real signals -/

/-- the response of a network with conjugate couplings at conjugate nodes -/
theorem inverse_conj {N : Type} [DecidableEq N] [Fintype N] {M : Matrix N N ℂ} (hinv : IsUnit (1 - M)) {σ : N → N}
    (hσ : ∀ n, σ (σ n) = n) (hM : ∀ t d, M (σ t) (σ d) = star (M t d)) (t d : N) :
    (1 - M)⁻¹ (σ t) (σ d) = star ((1 - M)⁻¹ t d) := by
  have hdet := (Matrix.isUnit_iff_isUnit_det _).1 hinv
  have hinj : Function.Injective σ := fun a b hab => by rw [← hσ a, hab, hσ]
  let T : Matrix N N ℂ := fun t d => star ((1 - M)⁻¹ (σ t) (σ d))
  have h1 : ∀ t d, (1 - M) (σ t) (σ d) = star ((1 - M) t d) := by
    intro t d
    rw [Matrix.sub_apply, Matrix.sub_apply, star_sub, hM]
    congr 1
    rw [Matrix.one_apply, Matrix.one_apply]
    by_cases htd : t = d
    · rw [if_pos htd, if_pos (by rw [htd]), star_one]
    · rw [if_neg htd, if_neg (fun h => htd (hinj h)), star_zero]
  have h2 : T * (1 - M) = 1 := by
    ext t d
    have h3 : ((1 - M)⁻¹ * (1 - M)) (σ t) (σ d) = (1 : Matrix N N ℂ) (σ t) (σ d) := by
      rw [Matrix.nonsing_inv_mul _ hdet]
    rw [Matrix.mul_apply] at h3 ⊢
    have h4 : ∑ j, (1 - M)⁻¹ (σ t) j * (1 - M) j (σ d) = ∑ j, (1 - M)⁻¹ (σ t) (σ j) * (1 - M) (σ j) (σ d) :=
      (Equiv.sum_comp ⟨σ, σ, hσ, hσ⟩ (fun j => (1 - M)⁻¹ (σ t) j * (1 - M) j (σ d))).symm
    rw [h4] at h3
    have h5 : ∑ j, T t j * (1 - M) j d = star (∑ j, (1 - M)⁻¹ (σ t) (σ j) * (1 - M) (σ j) (σ d)) := by
      rw [star_sum]
      apply Finset.sum_congr rfl
      intro j _
      rw [h1, star_mul', star_star]
    rw [h5, h3, Matrix.one_apply, Matrix.one_apply]
    by_cases htd : t = d
    · rw [if_pos htd, if_pos (by rw [htd]), star_one]
    · rw [if_neg htd, if_neg (fun h => htd (hinj h)), star_zero]
  have h6 : T = (1 - M)⁻¹ := by
    have h8 : T * ((1 - M) * (1 - M)⁻¹) = (1 - M)⁻¹ := by rw [← Matrix.mul_assoc, h2, Matrix.one_mul]
    rwa [Matrix.mul_nonsing_inv _ hdet, Matrix.mul_one] at h8
  have h7 : star ((1 - M)⁻¹ (σ t) (σ d)) = (1 - M)⁻¹ t d := congrFun (congrFun h6 t) d
  rw [← h7, star_star]

theorem sum_list_star {A : Type} (l : List A) (f : A → ℂ) : star (l.map f).sum = (l.map (fun a => star (f a))).sum := by
  induction l with
  | nil => simp
  | cons a l ih => simp only [List.map_cons, List.sum_cons, star_add, ih]

theorem sum_list_mul_sum {A B : Type} (l : List A) (m : List B) (f : A → ℂ) (h : B → ℂ) :
    (l.map (fun a => (m.map (fun b => f a * h b)).sum)).sum = (l.map f).sum * (m.map h).sum := by
  simp only [sum_list_mul]
  induction l with
  | nil => simp
  | cons a l ih => simp only [List.map_cons, List.sum_cons, add_mul, ih]

theorem sum_list_comm {A B : Type} (l : List A) (m : List B) (f : A → B → ℂ) :
    (l.map (fun a => (m.map (fun b => f a b)).sum)).sum = (m.map (fun b => (l.map (fun a => f a b)).sum)).sum := by
  induction l with
  | nil => simp [sum_map_zero]
  | cons a l ih => simp only [List.map_cons, List.sum_cons, sum_map_add, ih]

/-- an entry of the cross spectral density -/
def csd (b : Builds O Nm) (x y : Nm) : ℂ := (Dict.get? b.nsums (x, y)).getD 0

/-- **C78**: in a network with conjugate couplings at conjugate nodes, for sources which correlate every node with its
conjugate only and have spectra which are not negative, the cross spectral density is hermitian and positive
semidefinite; the entries on the diagonal are real before the real part is taken. -/
theorem C78_positive (hst : noise_map cplgs base calls = .ok st) (hpm : Dict.WF port_map)
    (hpick : ∀ l, l ≠ [] → o.pick l ∈ l) (hneg : o.negative = false) (hv : Graph.Valid g)
    (hinv : IsUnit (1 - Graph.mat g)) (h : Graph.inverse_solve o outs st.pks none g = .ok (r, em))
    {σ : P × K → P × K} (hσ : ∀ n, σ (σ n) = n)
    (hM : ∀ t d, Graph.gain g (σ d) (σ t) = star (Graph.gain g d t))
    (hview : ∀ p ∈ port_map, σ (p.2, keyP) = (p.2, keyN) ∧ (p.2, keyP) ∈ outs ∧ (p.2, keyN) ∈ outs)
    (hcalls : ∀ c ∈ calls, c.pk2 = σ c.pk1) (hS : ∀ c ∈ calls, ∃ s : ℝ, 0 ≤ s ∧ S c = s)
    (hadj : ∃ s : ℝ, 0 ≤ s ∧ adjust = s) :
    let B := CSD_builds port_map keyP keyN adjust S em st.nmap
    (∀ x ∈ Dict.keys port_map, ∀ y ∈ Dict.keys port_map, csd B y x = star (csd B x y)) ∧
    (∀ x p, Dict.get? port_map x = some p → csd B x x = (calls.map (spectrum adjust S em keyP keyN p p)).sum) ∧
    ∀ (names : List Nm) (u : Nm → ℂ), (∀ x ∈ names, x ∈ Dict.keys port_map) →
      ∃ q : ℝ, 0 ≤ q ∧
        (names.map (fun x => (names.map (fun y => u x * star (u y) * csd B x y)).sum)).sum = q := by
  intro B
  obtain ⟨α, hα, rfl⟩ := hadj
  have hpks := (C77_noise_map.2 st hst).2
  -- one response per port and pair
  let f : P → Pair P K O → ℂ := fun p c => resp em c.pk1 (p, keyP)
  have hf : ∀ x p, Dict.get? port_map x = some p → ∀ c ∈ calls, resp em c.pk2 (p, keyN) = star (f p c) := by
    intro x p hp c hc
    obtain ⟨v1, v2, v3⟩ := hview _ (Dict.mem_of_get? hp)
    dsimp only at v1 v2 v3
    change _ = star (resp em c.pk1 (p, keyP))
    rw [resp_solve hpick hneg hv hinv h ((hpks _).2 ⟨c, hc, Or.inl rfl⟩) v2,
      resp_solve hpick hneg hv hinv h ((hpks _).2 ⟨c, hc, Or.inr rfl⟩) v3, hcalls c hc, ← v1]
    exact inverse_conj hinv hσ (fun t d => hM t d) _ _
  have hsp : ∀ x p y q, Dict.get? port_map x = some p → Dict.get? port_map y = some q →
      (calls.map (spectrum α S em keyP keyN p q)).sum = α * (calls.map (fun c => S c * (f p c * star (f q c)))).sum := by
    intro x p y q _ hq
    rw [← sum_list_mul]
    congr 1
    apply List.map_congr_left
    intro c hc
    unfold spectrum
    rw [hf y q hq c hc]
    change (α : ℂ) * S c * f p c * star (f q c) = _
    ring
  have hstar : ∀ (p q : P), star ((α : ℂ) * (calls.map (fun c => S c * (f p c * star (f q c)))).sum) =
      α * (calls.map (fun c => S c * (f q c * star (f p c)))).sum := by
    intro p q
    rw [star_mul', sum_list_star]
    congr 1
    · exact Complex.conj_ofReal α
    · congr 1
      apply List.map_congr_left
      intro c hc
      obtain ⟨s, -, hs⟩ := hS c hc
      rw [hs, star_mul', star_mul', star_star]
      rw [show star (s : ℂ) = s from Complex.conj_ofReal s]
      ring
  have hreal : ∀ z : ℂ, star z = z → npreal z = z := by
    intro z hz
    unfold npreal
    exact Complex.conj_eq_iff_re.1 hz
  have hcsd : ∀ x p y q, Dict.get? port_map x = some p → Dict.get? port_map y = some q →
      csd B x y = α * (calls.map (fun c => S c * (f p c * star (f q c)))).sum := by
    intro x p y q hp hq
    unfold csd
    rw [C77_csd hst (solve_WF h) hpm hp hq, Option.getD_some, hsp x p y q hp hq]
    by_cases hxy : x = y
    · subst hxy
      rw [hp] at hq
      injection hq with hq
      subst hq
      rw [if_pos rfl, hreal _ (hstar p p)]
    · rw [if_neg hxy]
  have hget : ∀ x ∈ Dict.keys port_map, ∃ p, Dict.get? port_map x = some p := by
    intro x hx
    rw [Dict.mem_keys_iff, Option.isSome_iff_exists] at hx
    exact hx
  refine ⟨?_, ?_, ?_⟩
  · intro x hx y hy
    obtain ⟨p, hp⟩ := hget x hx
    obtain ⟨q, hq⟩ := hget y hy
    rw [hcsd y q x p hq hp, hcsd x p y q hp hq, hstar]
  · intro x p hp
    rw [hcsd x p x p hp hp, hsp x p x p hp hp]
  · intro names u hnames
    -- the response of the weighted sum of the ports
    let F : Nm → Pair P K O → ℂ := fun x c => u x * (match Dict.get? port_map x with
      | some p => f p c
      | none => 0)
    have h1 : ∀ x ∈ names, ∀ y ∈ names, u x * star (u y) * csd B x y =
        α * (calls.map (fun c => S c * (F x c * star (F y c)))).sum := by
      intro x hx y hy
      obtain ⟨p, hp⟩ := hget x (hnames x hx)
      obtain ⟨q, hq⟩ := hget y (hnames y hy)
      rw [hcsd x p y q hp hq]
      rw [show u x * star (u y) * ((α : ℂ) * (calls.map (fun c => S c * (f p c * star (f q c)))).sum) =
        α * (u x * star (u y) * (calls.map (fun c => S c * (f p c * star (f q c)))).sum) by ring, ← sum_list_mul]
      congr 2
      apply List.map_congr_left
      intro c _
      have e1 : F x c = u x * f p c := by simp only [F, hp]
      have e2 : F y c = u y * f q c := by simp only [F, hq]
      rw [e1, e2, star_mul']
      ring
    have h2 : (names.map (fun x => (names.map (fun y => u x * star (u y) * csd B x y)).sum)).sum =
        (calls.map (fun c => (α : ℂ) * S c * ((names.map (fun x => F x c)).sum * star (names.map (fun x => F x c)).sum))).sum := by
      have e1 : names.map (fun x => (names.map (fun y => u x * star (u y) * csd B x y)).sum) =
          names.map (fun x => (names.map (fun y => (calls.map (fun c => (α : ℂ) * (S c * (F x c * star (F y c))))).sum)).sum) := by
        apply List.map_congr_left
        intro x hx
        congr 1
        apply List.map_congr_left
        intro y hy
        rw [h1 x hx y hy, sum_list_mul]
      rw [e1]
      simp only [sum_list_comm names calls]
      congr 1
      apply List.map_congr_left
      intro c _
      rw [sum_list_star, ← sum_list_mul_sum, ← sum_list_mul]
      congr 1
      apply List.map_congr_left
      intro x _
      rw [← sum_list_mul]
      congr 1
      apply List.map_congr_left
      intro y _
      ring
    rw [h2]
    clear h2 h1
    have h3 : ∀ l : List (Pair P K O), (∀ c ∈ l, c ∈ calls) → ∃ q : ℝ, 0 ≤ q ∧ (l.map (fun c => (α : ℂ) * S c *
        ((names.map (fun x => F x c)).sum * star (names.map (fun x => F x c)).sum))).sum = q := by
      intro l
      induction l with
      | nil => exact fun _ => ⟨0, le_refl 0, by simp⟩
      | cons c l ih =>
        intro hl
        obtain ⟨q, hq, e⟩ := ih (fun c' hc' => hl c' (List.mem_cons_of_mem _ hc'))
        obtain ⟨s, hs, hsc⟩ := hS c (hl c List.mem_cons_self)
        refine ⟨α * s * Complex.normSq (names.map (fun x => F x c)).sum + q,
          add_nonneg (mul_nonneg (mul_nonneg hα hs) (Complex.normSq_nonneg _)) hq, ?_⟩
        rw [List.map_cons, List.sum_cons, e, hsc, Complex.ofReal_add, Complex.ofReal_mul, Complex.ofReal_mul,
          Complex.normSq_eq_conj_mul_self]
        congr 2
        rw [mul_comm]
        rfl
    exact h3 calls (fun c hc => hc)

end Noise
