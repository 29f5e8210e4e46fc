import Mathlib.Analysis.SpecialFunctions.Complex.Arg
import Verif.Noise.Examples
import Verif.Optics.Examples
import Verif.Shot.Bench

/-!
# A laser, a space and a photodiode: an example for C86

The ports: 0 and 1 are those of the laser, 2 and 3 the front and 4 and 5 the back of the space, 6 and 7 those of the
photodiode, 8 its readout and 9 its back action; at 0 and at 7 the vacuum enters.
-/

set_option linter.unusedSectionVars false

namespace Shot
open Py Inject Circuit Optics
open Signal (Balanced)

/-- the carrier and two sidebands in `PolS` -/
def tks : List (OKey Unit ℤ) :=
  [⟨(), 0, .S, .lower⟩, ⟨(), 0, .S, .raise⟩, ⟨(), 1, .S, .lower⟩, ⟨(), 1, .S, .raise⟩, ⟨(), -1, .S, .lower⟩, ⟨(), -1, .S, .raise⟩]

noncomputable abbrev tenv : OEnv (Fin 10) Unit ℤ ℂ := demo (fun _ => tks) (fun _ => [0, 1, -1]) (fun _ => false)

def tκ (k : Fin 13) : Key Unit ℤ :=
  match k with
  | 0 => .opt ⟨(), 0, .S, .lower⟩
  | 1 => .opt ⟨(), 0, .S, .raise⟩
  | 2 => .opt ⟨(), 1, .S, .lower⟩
  | 3 => .opt ⟨(), 1, .S, .raise⟩
  | 4 => .opt ⟨(), -1, .S, .lower⟩
  | 5 => .opt ⟨(), -1, .S, .raise⟩
  | 6 => .sig 0
  | 7 => .sig 1
  | 8 => .sig (-1)
  | 9 => .opt ⟨(), 2, .S, .lower⟩
  | 10 => .opt ⟨(), 2, .S, .raise⟩
  | 11 => .opt ⟨(), -2, .S, .lower⟩
  | 12 => .opt ⟨(), -2, .S, .raise⟩

def tback (k : Key Unit ℤ) : Fin 13 := ((List.finRange 13).find? (fun i => tκ i = k)).getD 0

/-- the laser with 5 W -/
noncomputable def tlaser : Laser (Fin 10) Unit ℤ ℂ := ⟨⟨1, 0⟩, 5, Complex.arg (2 + Complex.I), .S, (), 0⟩

noncomputable def tspace : Space (Fin 10) ℂ := ⟨⟨2, 3⟩, ⟨4, 5⟩, 3, 0⟩

noncomputable def tparts : List (Part (Fin 10) Unit ℤ) :=
  [⟨owire_setup tenv 0 2, [0], [2]⟩, ⟨owire_setup tenv 3 1, [3], [1]⟩, ⟨tspace.setup tenv, [2, 4], [3, 5]⟩,
    ⟨owire_setup tenv 5 6, [5], [6]⟩, ⟨owire_setup tenv 7 4, [7], [4]⟩]

noncomputable def tpd : List (Coupling (Fin 10) (Key Unit ℤ) ℂ) :=
  match pd_setup tenv ⟨6, 7⟩ 9 8 with
  | .ok cs => cs
  | .error _ => []

noncomputable def tsol : SolVec (Fin 10) (Key Unit ℤ) ℂ :=
  [((6, .opt ⟨(), 0, .S, .lower⟩), 2 + Complex.I), ((6, .opt ⟨(), 0, .S, .raise⟩), 2 - Complex.I)]

noncomputable def tall : List (Coupling (Fin 10) (Key Unit ℤ) ℂ) :=
  tparts.flatMap Part.cs ++ tpd ++ tlaser.setup tenv

theorem tpd_ok : Noise.isOk (pd_setup tenv ⟨6, 7⟩ 9 8) = true := by decide +kernel

theorem tpd_eq : pd_setup tenv ⟨6, 7⟩ 9 8 = .ok tpd := by
  have := tpd_ok
  unfold tpd
  cases h : pd_setup tenv ⟨6, 7⟩ 9 8 with
  | ok r => rfl
  | error e => rw [h] at this; cases this

noncomputable def tgraph : Graph.G (Fin 10 × Fin 13) ℂ := ofEdges (merge (edgesOf tsol tback tall))

def tcplgs : Dict (Fin 10) (List (Fin 13)) := [(0, [0, 1, 2, 3, 4, 5]), (7, [0, 1, 2, 3, 4, 5])]

def tnkeys (_ : Fin 10) : List (Fin 13) := [0, 1, 2, 3, 4, 5]

def tlower (k : Fin 13) : Bool := k = 0 ∨ k = 2 ∨ k = 4 ∨ k = 9 ∨ k = 11

def tcj (k : Fin 13) : Fin 13 :=
  if k = 6 then 6 else if k = 7 then 8 else if k = 8 then 7 else if tlower k then k + 1 else k - 1

def tcalls : List (Noise.Pair (Fin 10) (Fin 13) (Fin 10)) :=
  [0, 7].flatMap (fun o => Noise.vacuum_pairs tnkeys tlower (fun k => k + 1) (fun k => k - 1) o o)

theorem tst_ok : Noise.isOk (Noise.noise_map tcplgs id tcalls) = true := by decide +kernel

theorem tst_eq : ∃ st, Noise.noise_map tcplgs id tcalls = .ok st := by
  have := tst_ok
  cases h : Noise.noise_map tcplgs id tcalls with
  | ok r => exact ⟨r, rfl⟩
  | error e => rw [h] at this; cases this

def topts : Graph.Opts (Fin 10 × Fin 13) ℂ where
  lt := fun a b => decide (a.1 < b.1)
  pick := fun l => l.headD .vac
  size := fun _ => 1

def touts : List (Fin 10 × Fin 13) := [(8, 7), (8, 8)]

theorem trun_ok : (Noise.isOk (match Noise.noise_map tcplgs id tcalls with
  | .ok st => Graph.inverse_solve topts touts st.pks none tgraph
  | .error e => .error e)) = true := by decide +kernel

def trank (p : Fin 10) : ℕ :=
  match p with
  | 0 => 0
  | 1 => 4
  | 2 => 1
  | 3 => 3
  | 4 => 1
  | 5 => 2
  | 6 => 3
  | 7 => 0
  | 8 => 9
  | 9 => 0

theorem tcheck : (tall.flatMap (fun c => c.inj.edges.map Prod.fst)).all (fun e =>
    decide (tκ (tback e.1.2) = e.1.2) && decide (tκ (tback e.2.2) = e.2.2) && decide (trank e.1.1 < trank e.2.1)) = true := by
  decide +kernel

theorem tedges {c : Coupling (Fin 10) (Key Unit ℤ) ℂ} (hc : c ∈ tall) {e} (he : e ∈ c.inj.edges) :
    (tκ (tback e.1.1.2) = e.1.1.2 ∧ tκ (tback e.1.2.2) = e.1.2.2) ∧ trank e.1.1.1 < trank e.1.2.1 := by
  have := List.all_eq_true.1 tcheck e.1 (List.mem_flatMap.2 ⟨c, hc, List.mem_map.2 ⟨e, he, rfl⟩⟩)
  rw [Bool.and_eq_true, Bool.and_eq_true] at this
  exact ⟨⟨of_decide_eq_true this.1.1, of_decide_eq_true this.1.2⟩, of_decide_eq_true this.2⟩

theorem tκ_inj : Function.Injective tκ := by
  intro a b
  revert a b
  decide

theorem tgraph_gain (d t : Fin 10 × Fin 13) : Graph.gain tgraph d t = (tall.map (fun c => (c.inj.edges.map (fun e =>
    if e.1 = ((d.1, tκ d.2), (t.1, tκ t.2)) then evalD tsol e.2 else 0)).sum)).sum :=
  edgesOf_gain tκ_inj (fun _ hc _ he => (tedges hc he).1) d t

theorem tgraph_unit : IsUnit (1 - Graph.mat tgraph) := by
  apply isUnit_of_rank (fun n => trank n.1)
  intro t d hne
  by_contra hlt
  apply hne
  change Graph.gain tgraph d t = 0
  rw [tgraph_gain]
  apply List.sum_eq_zero
  intro z hz
  obtain ⟨c, hc, rfl⟩ := List.mem_map.1 hz
  apply List.sum_eq_zero
  intro z hz
  obtain ⟨e, he, rfl⟩ := List.mem_map.1 hz
  refine if_neg (fun h => hlt ?_)
  have := (tedges hc he).2
  rw [h] at this
  exact this

theorem tks_conj : ∀ k ∈ tks, ({ k with q := k.q.conj } : OKey Unit ℤ) ∈ tks := by decide

theorem tbench : Bench tks tparts [0, 7] where
  keys := by decide
  conj := tks_conj
  passive := by
    have hn : tks.Nodup := by decide
    intro p hp
    unfold tparts at hp
    simp only [List.mem_cons, List.not_mem_nil, or_false] at hp
    rcases hp with rfl | rfl | rfl | rfl | rfl
    · exact C86_wire hn tks_conj rfl
    · exact C86_wire hn tks_conj rfl
    · exact C86_space (env := tenv) hn tks_conj xenv_exp.1 xenv_exp.2.1 xenv_exp.2.2.1 xenv_exp.2.2.2 xenv_real.2.2.2.1 xenv_real.2.2.1
        xenv_real.2.1 tspace (star_ofNat 3) (star_zero ℂ) (by decide) (by decide) rfl rfl
    · exact C86_wire hn tks_conj rfl
    · exact C86_wire hn tks_conj rfl
  outs := show [2, 1, 3, 5, 6, 4, 0, 7].Nodup by decide
  ins := show [0, 3, 2, 4, 5, 7].Nodup by decide
  driven := show ∀ a ∈ [0, 3, 2, 4, 5, 7], a ∈ [2, 1, 3, 5, 6, 4, 0, 7] by decide

theorem tsol_eq (k : OKey Unit ℤ) : getd tsol (6, .opt k) 0 =
    if k = ⟨(), 0, .S, .lower⟩ then 2 + Complex.I else if k = ⟨(), 0, .S, .raise⟩ then 2 - Complex.I else 0 := by
  unfold getd tsol
  rw [Dict.get?_cons, Dict.get?_cons]
  have h : ∀ a : OKey Unit ℤ, (((6 : Fin 10), Key.opt a) = (6, Key.opt k)) ↔ k = a := by
    intro a
    constructor
    · intro h
      injection h with _ h
      injection h with h
      exact h.symm
    · rintro rfl
      rfl
  simp only [h]
  split_ifs <;> rfl

theorem trun {st : Noise.St (Fin 10) (Fin 13) (Fin 10)} (hst : Noise.noise_map tcplgs id tcalls = .ok st) :
    ∃ r em, Graph.inverse_solve topts touts st.pks none tgraph = .ok (r, em) := by
  have h := trun_ok
  rw [hst] at h
  dsimp only at h
  revert h
  generalize Graph.inverse_solve topts touts st.pks none tgraph = x
  intro h
  cases x with
  | ok r => exact ⟨r.1, r.2, rfl⟩
  | error e => cases h

/-- 5 W of light on the photodiode: the one-sided density of its readout is `2 h ν · 5 W`. -/
example : ∃ st em, Noise.noise_map tcplgs id tcalls = .ok st ∧
    (∃ r, Graph.inverse_solve topts touts st.pks none tgraph = .ok (r, em)) ∧
    ∀ h : ℝ, Noise.AC_PSD () (Noise.CSD_builds [((), 8)] 7 8 2 (fun x => vacuum_2pt tenv h (tκ x.pk1.2)) em st.nmap) =
      .ok (2 * (h * 299792458 * 1000000 * 5)) := by
  obtain ⟨st, hst⟩ := tst_eq
  obtain ⟨r, em, hr⟩ := trun hst
  refine ⟨st, em, hst, ⟨r, hr⟩, fun h => ?_⟩
  have := C86_shot_noise (κ := tκ) (cj := tcj) (nkeys := tnkeys) (lower := tlower) (toR := fun k => k + 1) (toL := fun k => k - 1)
    (ob := fun o => o) (δ := 1) tenv tsol (fun k h => by omega) tbench ⟨6, 7⟩ 9 8 tpd_eq rfl (fun _ _ => rfl)
    (show Balanced [0, 1, -1] from ⟨by decide, by decide⟩) (show (6 : Fin 10) ∈ [2, 1, 3, 5, 6, 4] by decide)
    (show (6 : Fin 10) ∉ [0, 3, 2, 4, 5, 7] by decide) (rest := tlaser.setup tenv) ?_ (by decide)
    (show (1 : ℤ) ∈ [0, 1, -1] by decide) ?_ ?_ ?_ tκ_inj ?_ ?_ (ofEdges_valid (merge_nodup _)) tgraph_gain tgraph_unit
    (fun o _ => ⟨show [0, 1, 2, 3, 4, 5].Nodup by decide, ?_⟩) ?_ hst (opts := topts) (outs := touts) ?_ rfl hr (port_map := [((), 8)]) ?_ (R := ()) rfl
    (keyP := 7) (keyN := 8) rfl rfl (by decide) (by decide) (h := h) (c := 299792458) (iw := fun _ => 1000000) ?_ ?_
    (fun _ => rfl) (sided := 1) rfl
  · refine this.trans (congrArg Except.ok ?_)
    rw [if_pos (rfl : (1 : ℤ) = 1)]
    refine congrArg (2 * ·) ?_
    simp only [tsol_eq]
    rw [Finset.sum_eq_single ⟨(), 0, .S, .lower⟩]
    · rw [if_pos rfl, if_pos rfl]
      have : Complex.normSq (2 + Complex.I) = 5 := by
        rw [Complex.normSq_apply]
        norm_num
      rw [this]
      push_cast
      ring
    · intro k hk hne
      rw [if_neg hne]
      split_ifs with h1 h2
      · rw [h2] at h1
        cases h1
      · rw [map_zero, mul_zero]
      · rfl
    · intro hn
      exact absurd (List.mem_toFinset.2 (by decide)) hn
  · intro c hc e he
    unfold Laser.setup at hc
    simp only [List.mem_cons, List.not_mem_nil, or_false] at hc
    rcases hc with rfl | rfl <;> cases he
  · intro k hk
    show getd tsol (6, .opt k) 0 = 0
    rw [tsol_eq, if_neg (by rintro rfl; exact hk (by decide)), if_neg (by rintro rfl; exact hk (by decide))]
  · intro k hk
    show getd tsol (6, .opt { k with q := k.q.conj }) 0 = star (getd tsol (6, .opt k) 0)
    rw [tsol_eq, tsol_eq]
    unfold tks at hk
    simp only [List.mem_cons, List.not_mem_nil, or_false] at hk
    rcases hk with rfl | rfl | rfl | rfl | rfl | rfl <;> simp [Quantum.conj, Complex.ext_iff]
  · intro k hk hne
    change getd tsol (6, .opt k) 0 ≠ 0 at hne
    rw [tsol_eq] at hne
    by_cases h1 : k = ⟨(), 0, .S, .lower⟩
    · subst h1
      decide
    · by_cases h2 : k = ⟨(), 0, .S, .raise⟩
      · subst h2
        decide
      · rw [if_neg h1, if_neg h2] at hne
        exact absurd rfl hne
  · decide
  · decide
  · show ∀ k : Fin 13, k ∈ [0, 1, 2, 3, 4, 5] ↔ ∃ j ∈ tks, tκ k = Key.opt j
    decide
  · intro k j h
    have hk : ∀ k : Fin 13, (match tκ k with
        | .opt j => decide (tκ (if tlower k then k + 1 else k - 1) = .opt { j with q := j.q.conj })
        | .sig _ => true) = true := by decide
    have := hk k
    rw [h] at this
    exact of_decide_eq_true this
  · intro l hl
    cases l with
    | nil => exact absurd rfl hl
    | cons a l => exact List.mem_cons_self
  · exact List.nodup_singleton _
  · show (299792458 : ℂ) = ((299792458 : ℝ) : ℂ)
    push_cast
    rfl
  · intro o
    show (1000000 : ℂ) = ((1000000 : ℝ) : ℂ)
    push_cast
    rfl

theorem tsol_out (k : OKey Unit ℤ) (hk : k ∉ tks) : getd tsol (6, .opt k) 0 = 0 := by
  rw [tsol_eq, if_neg (by rintro rfl; exact hk (by decide)), if_neg (by rintro rfl; exact hk (by decide))]

/-- The upper sideband of the lowering field beats with the carrier of the raising field. -/
example : (tpd.map (fun c => (c.inj.edges.map (fun e =>
    if e.1 = (((6 : Fin 10), .opt ⟨(), 1, .S, .lower⟩), ((8 : Fin 10), .sig 1)) then evalD tsol e.2 else 0)).sum)).sum =
      2 - Complex.I := by
  refine ((C85_response (env := tenv) (sol := tsol) (fun k h => by omega) ⟨6, 7⟩ 9 8 (by decide) tks_conj (fun _ _ => rfl)
    (show Balanced [0, 1, -1] from ⟨by decide, by decide⟩) tpd_eq tsol_out (show (1 : ℤ) ∈ [0, 1, -1] by decide)).1
    (show (⟨(), 1, .S, .lower⟩ : OKey Unit ℤ) ∈ tks by decide)).trans ?_
  rw [if_neg (by decide), div_one]
  exact (tsol_eq _).trans (by rw [if_neg (by decide), if_pos (by decide)])

/-- Its output at zero frequency is the power. -/
example : (tpd.map (fun x => x.into (fun n => getd tsol n 0) ((8 : Fin 10), .sig 0))).sum = 5 := by
  have := C86_dc (h := 1) (c := 1) (w := 1) (iw := fun _ => 1) tenv tsol (fun k h => by omega) (by decide) tks_conj
    ⟨6, 7⟩ 9 8 tpd_eq rfl (fun _ _ => rfl) (show Balanced [0, 1, -1] from ⟨by decide, by decide⟩)
    (show Balanced [0, 1, -1] from ⟨by decide, by decide⟩) (show (0 : ℤ) ∈ [0, 1, -1] by decide) tsol_out ?_ (fun _ _ => rfl)
  · simp only [Complex.ofReal_one, one_mul] at this
    rw [← this]
    simp only [tsol_eq]
    rw [Finset.sum_eq_single ⟨(), 0, .S, .lower⟩]
    · rw [if_pos rfl, if_pos rfl, Complex.normSq_apply]
      norm_num
    · intro k hk hne
      rw [if_neg hne]
      split_ifs with h1 h2
      · rw [h2] at h1
        cases h1
      · exact map_zero _
      · rfl
    · intro hn
      exact absurd (List.mem_toFinset.2 (by decide)) hn
  · intro k hk
    show getd tsol (6, .opt { k with q := k.q.conj }) 0 = star (getd tsol (6, .opt k) 0)
    rw [tsol_eq, tsol_eq]
    unfold tks at hk
    simp only [List.mem_cons, List.not_mem_nil, or_false] at hk
    rcases hk with rfl | rfl | rfl | rfl | rfl | rfl <;> simp [Quantum.conj, Complex.ext_iff]

end Shot
