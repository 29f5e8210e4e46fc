import Verif.Signal.Reality
import Verif.Signal.StateSpaceProps
import Mathlib.Algebra.Order.Group.Int

/-!
# Filters act on the keys in their band (C63)
-/

set_option linter.unusedSectionVars false

namespace Signal
open Py Inject Circuit
open scoped List

variable {P K R F : Type} [DecidableEq P] [DecidableEq K] [AddCommGroup K] [AddCommGroup R] [LinearOrder R]
  [IsOrderedAddMonoid R] [Field F] [StarRing F] [DecidableEq F]

/-- The key lies in the band of the filter. -/
def InBand (env : SEnv P K R F) (e : Siso P R F) (k : K) : Prop :=
  (∀ c, e.F_cutoff = some c → |env.center k| ≤ c) ∧ e.F_cutoff_low ≤ |env.center k| ∧
    (e.no_DC = true → env.center k ≠ 0)

theorem skips_iff (env : SEnv P K R F) (e : Siso P R F) (k : K) : e.skips env k = false ↔ InBand env e k := by
  unfold Siso.skips InBand
  rw [Bool.or_eq_false_iff, Bool.or_eq_false_iff, and_assoc]
  refine and_congr ?_ (and_congr ?_ ?_)
  · cases e.F_cutoff with
    | none => simp
    | some c => simp
  · simp
  · cases e.no_DC <;> simp

theorem siso_total {env : SEnv P K R F} {e : Siso P R F} {cs : List (Coupling P K F)} (h : e.setup env = .ok cs)
    (x : P × K → F) (t : P × K) : total cs x t = ((env.keys e.ps_In).map (fun k =>
      match e.filter_func_run (env.cast (env.freq k)) with
      | .ok g => if e.skips env k = false ∧ (e.ps_Out, k) = t then g * x (e.ps_In, k) else 0
      | .error _ => 0)).sum := by
  rw [blocks_flatMap h, List.flatMap_map, total_flatMap]
  congr 1
  apply List.map_congr_left
  intro k _
  by_cases hs : e.skips env k = true
  · rw [if_pos hs]
    dsimp only
    rw [total_nil]
    cases e.filter_func_run (env.cast (env.freq k)) with
    | error _ => rfl
    | ok g => simp [hs]
  · rw [if_neg hs]
    cases e.filter_func_run (env.cast (env.freq k)) with
    | error _ => exact total_nil _ _
    | ok g =>
      show total [Coupling.edge (e.ps_In, k) (e.ps_Out, k) g] x t = _
      rw [total_single]
      show (if (e.ps_Out, k) = t then g * x (e.ps_In, k) else 0) = _
      simp [Bool.eq_false_iff.2 hs]

/-- **C63.**  The element contributes to its output, at a key of its input that lies in the band, the value of the transfer
function at the frequency of the key times the input; at all other keys and ports it contributes nothing. -/
theorem C63_band {env : SEnv P K R F} {e : Siso P R F} (hn : (env.keys e.ps_In).Nodup) {cs : List (Coupling P K F)}
    (h : e.setup env = .ok cs) (x : P × K → F) (k : K) :
    (k ∈ env.keys e.ps_In → InBand env e k → ∃ g, e.filter_func (env.cast (env.freq k)) = .ok g ∧
      (cs.map (fun c => c.into x (e.ps_Out, k))).sum =
        (if e.no_DC = true ∧ env.cast (env.freq k) = 0 then 0 else g) * x (e.ps_In, k)) ∧
    (¬ (k ∈ env.keys e.ps_In ∧ InBand env e k) → (cs.map (fun c => c.into x (e.ps_Out, k))).sum = 0) ∧
    (∀ p, p ≠ e.ps_Out → (cs.map (fun c => c.into x (p, k))).sum = 0) := by
  have ht : ∀ t, (cs.map (fun c => c.into x t)).sum = _ := siso_total h x
  refine ⟨fun hk hb => ?_, fun hk => ?_, fun p hp => ?_⟩
  · have hok := (blocks_sum h).1 _ (List.mem_map_of_mem hk)
    have hs := (skips_iff env e k).2 hb
    obtain ⟨ds, hd⟩ := hok
    rw [hs] at hd
    replace hd : (do
      let pgain ← e.filter_func_run (env.cast (env.freq k))
      return [Coupling.edge (e.ps_In, k) (e.ps_Out, k) pgain] : Except Err (List (Coupling P K F))) = .ok ds := hd
    cases hf : e.filter_func (env.cast (env.freq k)) with
    | error er =>
      unfold Siso.filter_func_run at hd
      rw [hf] at hd
      cases hd
    | ok g =>
      refine ⟨g, rfl, ?_⟩
      have hrun : e.filter_func_run (env.cast (env.freq k)) =
          .ok (if e.no_DC = true ∧ env.cast (env.freq k) = 0 then 0 else g) := by
        unfold Siso.filter_func_run
        rw [hf]
        rfl
      rw [ht]
      have hu := sum_unique (fun l : K => l) (fun l => match e.filter_func_run (env.cast (env.freq l)) with
        | .ok g => g * x (e.ps_In, l)
        | .error _ => 0) (l := env.keys e.ps_In) (by rw [List.map_id']; exact hn) hk
      rw [hrun] at hu
      refine Eq.trans ?_ hu
      congr 1
      apply List.map_congr_left
      intro l _
      by_cases hl : l = k
      · subst hl
        rw [hrun]
        simp [hs]
      · rw [if_neg hl]
        cases e.filter_func_run (env.cast (env.freq l)) with
        | error _ => rfl
        | ok g => simp [hl]
  · rw [ht]
    apply List.sum_eq_zero
    intro a ha
    obtain ⟨l, hl, rfl⟩ := List.mem_map.1 ha
    cases e.filter_func_run (env.cast (env.freq l)) with
    | error _ => rfl
    | ok g =>
      dsimp only
      rw [if_neg]
      rintro ⟨hs, hkl⟩
      have hkl' : l = k := congrArg Prod.snd hkl
      subst hkl'
      exact hk ⟨hl, (skips_iff env e l).1 hs⟩
  · rw [ht]
    apply List.sum_eq_zero
    intro a ha
    obtain ⟨l, hl, rfl⟩ := List.mem_map.1 ha
    cases e.filter_func_run (env.cast (env.freq l)) with
    | error _ => rfl
    | ok g =>
      dsimp only
      rw [if_neg]
      rintro ⟨_, hkl⟩
      exact hp (congrArg Prod.fst hkl).symm

/-- **C63**, errors: the couplings are made exactly when the transfer function has a value at every key of the band; keys
outside of the band are not even evaluated. -/
theorem C63_ok (env : SEnv P K R F) (e : Siso P R F) : (∃ cs, e.setup env = .ok cs) ↔
    ∀ k ∈ env.keys e.ps_In, InBand env e k → ∃ g, e.filter_func (env.cast (env.freq k)) = .ok g := by
  constructor
  · rintro ⟨cs, h⟩ k hk hb
    obtain ⟨c, hc⟩ := (blocks_sum h).1 _ (List.mem_map_of_mem hk)
    have hs : ¬ e.skips env k = true := by rw [(skips_iff env e k).2 hb]; exact Bool.false_ne_true
    rw [if_neg hs] at hc
    cases hf : e.filter_func (env.cast (env.freq k)) with
    | ok g => exact ⟨g, rfl⟩
    | error er =>
      unfold Siso.filter_func_run at hc
      rw [hf] at hc
      cases hc
  · intro h
    apply blocks_ok
    intro b hb
    obtain ⟨k, hk, rfl⟩ := List.mem_map.1 hb
    by_cases hs : e.skips env k = true
    · exact ⟨[], by rw [if_pos hs]⟩
    · obtain ⟨g, hg⟩ := h k hk ((skips_iff env e k).1 (by simpa using hs))
      rw [if_neg hs]
      unfold Siso.filter_func_run
      rw [hg]
      exact ⟨_, rfl⟩

/-- The band of a filter contains a key together with its negative. -/
theorem C63_symmetric (env : SEnv P K R F) (hc : ∀ k, env.center (-k) = -env.center k) (e : Siso P R F) (k : K) :
    InBand env e (-k) ↔ InBand env e k := by
  unfold InBand
  rw [hc, abs_neg, neg_ne_zero]

/-- **C63** is false of the cutoff of state space blocks, `classical_frequency_test_max`: it removes the key at 100 Hz and
keeps the key at -100 Hz, so that a real input no longer gives a real output. -/
theorem C63_test_max_refuted : ∃ (freq : ℤ → ℤ) (m : Option ℤ), (∀ k, freq (-k) = -freq k) ∧
    ∃ k, test_max freq m k = true ∧ test_max freq m (-k) = false :=
  ⟨id, some 10, fun _ => rfl, 100, by decide, by decide⟩

/-- Without a limit no key is removed; with one, exactly the keys of frequency at least the limit. -/
theorem C63_test_max_partial (freq : K → R) (m : Option R) (k : K) :
    test_max (F := R) freq m k = true ↔ ∃ c, m = some c ∧ c ≤ freq k := by
  unfold test_max
  cases m with
  | none => simp
  | some c =>
    by_cases h : freq k < c
    · simp [h]
    · simp [not_lt.1 h]

end Signal
