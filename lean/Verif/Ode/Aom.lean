import Mathlib.Algebra.Order.Field.Basic
import Verif.Ode.Power

/-!
# Model of the acousto-optic modulator

Source: `/repo/phasor/optics/AOM.py` l.182-281, `system_setup_coupling`.

One of the two sets of ports (l.202-205) at a time: `A` and `B` are the inputs with the directions `dir` and `-dir`, `oA` and
`oB` the outputs behind them (`omap`).  `rate` stands for `1 / drive_PWR_nominal**.5 * symbols.pi / 2` (l.219-222).
`center` is `classical_frequency_extract_center` (system.py), a number of an ordered field.  Simplification: exact
arithmetic.  The counter `N` (l.209, l.256) is not used.
-/

set_option linter.unusedSectionVars false

namespace Ode
open Py Optics

variable {P O K R V : Type} [DecidableEq P] [DecidableEq O] [DecidableEq K] [AddCommGroup K] [CommRing R]
  [Algebra ℚ R] [DecidableEq R] [Field V] [LinearOrder V] [IsStrictOrderedRing V]

/-- A node at an optical or signal port. -/
abbrev ANode (P O K : Type) := P × Key O K

/-- What the modulator reads from the system. -/
structure AEnv (P O K R V : Type) where
  /-- `port_set_get` of an optical port -/
  okeys : P → List (OKey O K)
  /-- `port_set_get` of the drive -/
  skeys : P → List K
  /-- `reject_classical_frequency_order` -/
  reject : K → Bool
  /-- `classical_frequency_extract_center` -/
  center : K → V
  /-- `symbols.i` -/
  i : R

/-- An `AOM` (l.16-55), one set of its ports. -/
structure Aom (P R V : Type) where
  N_ode : ℕ
  rate : R
  freq_split_Hz : V
  A : P
  B : P
  oA : P
  oB : P
  Drv : P
  dir : V

/-- A port of the set with its direction, and the other one. -/
structure Arm (P V : Type) where
  port : P
  out : P
  portO : P
  outO : P
  direction : V

/-- l.202-205 and `smap`, `omap` (l.189-200) -/
def Aom.arms (e : Aom P R V) : List (Arm P V) :=
  [⟨e.A, e.oA, e.B, e.oB, e.dir⟩, ⟨e.B, e.oB, e.A, e.oA, -e.dir⟩]

/-- `dLt`, `in_map` and `out_map` (l.206-208). -/
structure AEqs (P O K R : Type) where
  dLt : Dict (ANode P O K) (Lt (ANode P O K) R)
  in_map : Dict (ANode P O K) (ANode P O K)
  out_map : Dict (ANode P O K) (Option (ANode P O K))

/-- l.219-222 -/
def Aom.G (env : AEnv P O K R V) (e : Aom P R V) (q : Quantum) : R :=
  match q with
  | .lower => -env.i * e.rate
  | .raise => env.i * e.rate

/-- l.226-232: the frequency of the light that leaves -/
def shift (k : OKey O K) (d : K) : K :=
  match k.q with
  | .lower => k.cls + d
  | .raise => k.cls - d

/-- `neg` (l.227, l.231) -/
def negOf (q : Quantum) : V :=
  match q with
  | .lower => 1
  | .raise => -1

/-- l.234-242: whether a key and a drive are coupled -/
def Aom.meets (env : AEnv P O K R V) (e : Aom P R V) (a : Arm P V) (k : OKey O K) (d : K) : Bool :=
  !env.reject (shift k d) && decide (e.freq_split_Hz < negOf k.q * env.center d * a.direction)

/-- l.225-269 for one key and one drive -/
def Aom.one (env : AEnv P O K R V) (e : Aom P R V) (w : AEqs P O K R) (a : Arm P V) (k : OKey O K) (d : K) :
    AEqs P O K R :=
  if e.meets env a k d then
    let kto := k.at (shift k d)
    { dLt := app w.dLt (on a.portO kto) (e.G env k.q, [on a.port k, sn e.Drv d])
      in_map := Dict.set (Dict.set (Dict.set (Dict.set (Dict.set w.in_map
        (on a.port kto) (on a.port kto)) (on a.port k) (on a.port k)) (on a.portO kto) (on a.portO kto))
        (on a.portO k) (on a.portO k)) (sn e.Drv d) (sn e.Drv d)
      out_map := Dict.set (Dict.set (Dict.set (Dict.set (Dict.set w.out_map
        (on a.port kto) (some (on a.out kto))) (on a.port k) (some (on a.out k))) (on a.portO kto) (some (on a.outO kto)))
        (on a.portO k) (some (on a.outO k))) (sn e.Drv d) none }
  else w

/-- l.206-280 for one set of ports -/
def Aom.build (env : AEnv P O K R V) (e : Aom P R V) : AEqs P O K R :=
  e.arms.foldl (fun w a => (env.okeys a.port).foldl (fun w k => (env.skeys e.Drv).foldl (fun w d => e.one env w a k d) w) w)
    { dLt := [], in_map := [], out_map := [] }

/-! ## The equations -/

/-- The turns of the loops. -/
def Aom.turns (env : AEnv P O K R V) (e : Aom P R V) : List (Arm P V × OKey O K × K) :=
  e.arms.flatMap fun a => (env.okeys a.port).flatMap fun k => (env.skeys e.Drv).map fun d => (a, k, d)

theorem Aom.build_eq (env : AEnv P O K R V) (e : Aom P R V) :
    e.build env = (e.turns env).foldl (fun w T => e.one env w T.1 T.2.1 T.2.2) { dLt := [], in_map := [], out_map := [] } := by
  unfold Aom.build Aom.turns
  rw [List.foldl_flatMap]
  congr 1
  funext w a
  rw [List.foldl_flatMap]
  congr 1
  funext w k
  rw [List.foldl_map]

/-- Where the light of a node leaves: `omap`. -/
def Aom.outOf (e : Aom P R V) (n : ANode P O K) : Option (ANode P O K) :=
  match n.2 with
  | .opt _ => if n.1 = e.A then some (e.oA, n.2) else some (e.oB, n.2)
  | .sig _ => none

/-- What `build` makes: right hand sides, maps and the keys that occur. -/
theorem Aom.build_spec (env : AEnv P O K R V) (e : Aom P R V) (hAB : e.A ≠ e.B) :
    Dict.WF (e.build env).dLt ∧
    (∀ n, rhs (e.build env).dLt n
      = ((e.turns env).filter fun T => e.meets env T.1 T.2.1 T.2.2 ∧ on T.1.portO (T.2.1.at (shift T.2.1 T.2.2)) = n).map
        fun T => (e.G env T.2.1.q, [on T.1.port T.2.1, sn e.Drv T.2.2])) ∧
    (∀ n, Mentions (e.build env).dLt n → Dict.get? (e.build env).in_map n = some n ∧
      Dict.get? (e.build env).out_map n = some (e.outOf n)) ∧
    (∀ n, Mentions (e.build env).dLt n ↔ ∃ T ∈ e.turns env, e.meets env T.1 T.2.1 T.2.2 = true ∧
      (n = on T.1.port T.2.1 ∨ n = sn e.Drv T.2.2 ∨ n = on T.1.portO (T.2.1.at (shift T.2.1 T.2.2)))) := by
  rw [Aom.build_eq]
  have harm : ∀ T ∈ e.turns env, (T.1.port = e.A ∧ T.1.out = e.oA ∧ T.1.portO = e.B ∧ T.1.outO = e.oB) ∨
      (T.1.port = e.B ∧ T.1.out = e.oB ∧ T.1.portO = e.A ∧ T.1.outO = e.oA) := by
    intro T hT
    unfold Aom.turns Aom.arms at hT
    simp only [List.mem_flatMap, List.mem_cons, List.not_mem_nil, or_false, List.mem_map] at hT
    obtain ⟨a, rfl | rfl, k, -, d, -, rfl⟩ := hT
    · exact Or.inl ⟨rfl, rfl, rfl, rfl⟩
    · exact Or.inr ⟨rfl, rfl, rfl, rfl⟩
  generalize e.turns env = L at harm ⊢
  have main : ∀ (L pre : List (Arm P V × OKey O K × K)) (w : AEqs P O K R),
      (∀ T ∈ L, (T.1.port = e.A ∧ T.1.out = e.oA ∧ T.1.portO = e.B ∧ T.1.outO = e.oB) ∨
        (T.1.port = e.B ∧ T.1.out = e.oB ∧ T.1.portO = e.A ∧ T.1.outO = e.oA)) →
      Dict.WF w.dLt →
      (∀ n, rhs w.dLt n
        = (pre.filter fun T => e.meets env T.1 T.2.1 T.2.2 ∧ on T.1.portO (T.2.1.at (shift T.2.1 T.2.2)) = n).map
          fun T => (e.G env T.2.1.q, [on T.1.port T.2.1, sn e.Drv T.2.2])) →
      (∀ n, Mentions w.dLt n → Dict.get? w.in_map n = some n ∧ Dict.get? w.out_map n = some (e.outOf n)) →
      (∀ n, Mentions w.dLt n ↔ ∃ T ∈ pre, e.meets env T.1 T.2.1 T.2.2 = true ∧
        (n = on T.1.port T.2.1 ∨ n = sn e.Drv T.2.2 ∨ n = on T.1.portO (T.2.1.at (shift T.2.1 T.2.2)))) →
      Dict.WF (L.foldl (fun w T => e.one env w T.1 T.2.1 T.2.2) w).dLt ∧
      (∀ n, rhs (L.foldl (fun w T => e.one env w T.1 T.2.1 T.2.2) w).dLt n
        = ((pre ++ L).filter fun T => e.meets env T.1 T.2.1 T.2.2 ∧ on T.1.portO (T.2.1.at (shift T.2.1 T.2.2)) = n).map
          fun T => (e.G env T.2.1.q, [on T.1.port T.2.1, sn e.Drv T.2.2])) ∧
      (∀ n, Mentions (L.foldl (fun w T => e.one env w T.1 T.2.1 T.2.2) w).dLt n →
        Dict.get? (L.foldl (fun w T => e.one env w T.1 T.2.1 T.2.2) w).in_map n = some n ∧
        Dict.get? (L.foldl (fun w T => e.one env w T.1 T.2.1 T.2.2) w).out_map n = some (e.outOf n)) ∧
      (∀ n, Mentions (L.foldl (fun w T => e.one env w T.1 T.2.1 T.2.2) w).dLt n ↔
        ∃ T ∈ pre ++ L, e.meets env T.1 T.2.1 T.2.2 = true ∧
        (n = on T.1.port T.2.1 ∨ n = sn e.Drv T.2.2 ∨ n = on T.1.portO (T.2.1.at (shift T.2.1 T.2.2)))) := by
    intro L
    induction L with
    | nil =>
      intro pre w _ h0 h1 h2 h3
      rw [List.append_nil]
      exact ⟨h0, h1, h2, h3⟩
    | cons T L ih =>
      intro pre w harm h0 h1 h2 h3
      have hassoc : pre ++ T :: L = (pre ++ [T]) ++ L := by simp
      rw [hassoc, List.foldl_cons]
      have harm' := fun T' hT' => harm T' (List.mem_cons_of_mem T hT')
      by_cases hm : e.meets env T.1 T.2.1 T.2.2 = true
      · have hone : e.one env w T.1 T.2.1 T.2.2 = {
            dLt := app w.dLt (on T.1.portO (T.2.1.at (shift T.2.1 T.2.2)))
              (e.G env T.2.1.q, [on T.1.port T.2.1, sn e.Drv T.2.2])
            in_map := Dict.set (Dict.set (Dict.set (Dict.set (Dict.set w.in_map
              (on T.1.port (T.2.1.at (shift T.2.1 T.2.2))) (on T.1.port (T.2.1.at (shift T.2.1 T.2.2))))
              (on T.1.port T.2.1) (on T.1.port T.2.1))
              (on T.1.portO (T.2.1.at (shift T.2.1 T.2.2))) (on T.1.portO (T.2.1.at (shift T.2.1 T.2.2))))
              (on T.1.portO T.2.1) (on T.1.portO T.2.1)) (sn e.Drv T.2.2) (sn e.Drv T.2.2)
            out_map := Dict.set (Dict.set (Dict.set (Dict.set (Dict.set w.out_map
              (on T.1.port (T.2.1.at (shift T.2.1 T.2.2))) (some (on T.1.out (T.2.1.at (shift T.2.1 T.2.2)))))
              (on T.1.port T.2.1) (some (on T.1.out T.2.1)))
              (on T.1.portO (T.2.1.at (shift T.2.1 T.2.2))) (some (on T.1.outO (T.2.1.at (shift T.2.1 T.2.2)))))
              (on T.1.portO T.2.1) (some (on T.1.outO T.2.1))) (sn e.Drv T.2.2) none } := by
          unfold Aom.one
          rw [if_pos hm]
        rw [hone]
        have houts : ∀ k : OKey O K, e.outOf (on T.1.port k) = some (on T.1.out k) ∧ e.outOf (on T.1.portO k) = some (on T.1.outO k) := by
          intro k
          rcases harm T List.mem_cons_self with ⟨p1, p2, p3, p4⟩ | ⟨p1, p2, p3, p4⟩
          · simp only [Aom.outOf, p1, p2, p3, p4, if_true, if_neg hAB.symm, and_self]
          · simp only [Aom.outOf, p1, p2, p3, p4, if_true, if_neg hAB.symm, and_self]
        have hsig : ∀ d, e.outOf (sn e.Drv d : ANode P O K) = none := fun d => rfl
        refine ih (pre ++ [T]) _ harm' (app_wf h0 _ _) ?_ ?_ ?_
        · intro n
          dsimp only
          rw [rhs_app, h1, List.filter_append, List.map_append]
          congr 1
          by_cases hk : on T.1.portO (T.2.1.at (shift T.2.1 T.2.2)) = n
          · rw [if_pos hk]; simp [hm, hk]
          · rw [if_neg hk]; simp [hk]
        · intro n hn
          dsimp only at hn ⊢
          rw [mentions_app h0] at hn
          simp only [Dict.get?_set]
          refine ⟨?_, ?_⟩
          · by_cases c1 : sn e.Drv T.2.2 = n
            · rw [if_pos c1, c1]
            rw [if_neg c1]
            by_cases c2 : on T.1.portO T.2.1 = n
            · rw [if_pos c2, c2]
            rw [if_neg c2]
            by_cases c3 : on T.1.portO (T.2.1.at (shift T.2.1 T.2.2)) = n
            · rw [if_pos c3, c3]
            rw [if_neg c3]
            by_cases c4 : on T.1.port T.2.1 = n
            · rw [if_pos c4, c4]
            rw [if_neg c4]
            by_cases c5 : on T.1.port (T.2.1.at (shift T.2.1 T.2.2)) = n
            · rw [if_pos c5, c5]
            rw [if_neg c5]
            rcases hn with hn | hn | hn
            · exact (h2 n hn).1
            · exact absurd hn.symm c3
            · simp only [List.mem_cons, List.not_mem_nil, or_false] at hn
              rcases hn with hn | hn
              · exact absurd hn.symm c4
              · exact absurd hn.symm c1
          · by_cases c1 : sn e.Drv T.2.2 = n
            · rw [if_pos c1, ← c1]; rfl
            rw [if_neg c1]
            by_cases c2 : on T.1.portO T.2.1 = n
            · rw [if_pos c2, ← c2, (houts _).2]
            rw [if_neg c2]
            by_cases c3 : on T.1.portO (T.2.1.at (shift T.2.1 T.2.2)) = n
            · rw [if_pos c3, ← c3, (houts _).2]
            rw [if_neg c3]
            by_cases c4 : on T.1.port T.2.1 = n
            · rw [if_pos c4, ← c4, (houts _).1]
            rw [if_neg c4]
            by_cases c5 : on T.1.port (T.2.1.at (shift T.2.1 T.2.2)) = n
            · rw [if_pos c5, ← c5, (houts _).1]
            rw [if_neg c5]
            rcases hn with hn | hn | hn
            · exact (h2 n hn).2
            · exact absurd hn.symm c3
            · simp only [List.mem_cons, List.not_mem_nil, or_false] at hn
              rcases hn with hn | hn
              · exact absurd hn.symm c4
              · exact absurd hn.symm c1
        · intro n
          dsimp only
          rw [mentions_app h0, h3]
          constructor
          · rintro (⟨T', hT', h⟩ | h | h)
            · exact ⟨T', List.mem_append_left _ hT', h⟩
            · exact ⟨T, by simp, hm, Or.inr (Or.inr h)⟩
            · simp only [List.mem_cons, List.not_mem_nil, or_false] at h
              rcases h with h | h
              · exact ⟨T, by simp, hm, Or.inl h⟩
              · exact ⟨T, by simp, hm, Or.inr (Or.inl h)⟩
          · rintro ⟨T', hT', hj, h⟩
            rcases List.mem_append.1 hT' with hT' | hT'
            · exact Or.inl ⟨T', hT', hj, h⟩
            · rw [List.mem_singleton] at hT'; subst hT'
              right
              rcases h with h | h | h
              · right; simp only [List.mem_cons, List.not_mem_nil, or_false]; left; exact h
              · right; simp only [List.mem_cons, List.not_mem_nil, or_false]; right; exact h
              · left; exact h
      · have hone : e.one env w T.1 T.2.1 T.2.2 = w := if_neg hm
        rw [hone]
        refine ih (pre ++ [T]) w harm' h0 ?_ h2 ?_
        · intro n
          rw [h1, List.filter_append]
          simp [hm]
        · intro n
          rw [h3]
          constructor
          · rintro ⟨T', hT', h⟩; exact ⟨T', List.mem_append_left _ hT', h⟩
          · rintro ⟨T', hT', hj, h⟩
            rcases List.mem_append.1 hT' with hT' | hT'
            · exact ⟨T', hT', hj, h⟩
            · rw [List.mem_singleton] at hT'; subst hT'; exact absurd hj hm
  exact main L [] { dLt := [], in_map := [], out_map := [] } harm Dict.WF_nil (by intro n; rfl)
    (by intro n h; obtain ⟨T, hT, _⟩ := h; simp at hT) (by intro n; simp [Mentions])

/-- The maps of the modulator know every key of its equations. -/
theorem Aom.mapped (env : AEnv P O K R V) (e : Aom P R V) (hAB : e.A ≠ e.B) (hO : e.oA ≠ e.oB)
    {pks : List (ANode P O K)} (hK : Keyed (e.build env).dLt pks) :
    Mapped pks (e.build env).in_map (e.build env).out_map id e.outOf := by
  obtain ⟨-, -, h3, h4⟩ := e.build_spec env hAB
  refine ⟨fun n hn => (h3 n ((hK.mem n).1 hn)).1, fun n hn => (h3 n ((hK.mem n).1 hn)).2, fun _ _ _ _ h => h, ?_⟩
  have hport : ∀ n ∈ pks, ∀ k, n.2 = .opt k → n.1 = e.A ∨ n.1 = e.B := by
    intro n hn k hk
    obtain ⟨T, hT, -, h⟩ := (h4 n).1 ((hK.mem n).1 hn)
    unfold Aom.turns Aom.arms at hT
    simp only [List.mem_flatMap, List.mem_cons, List.not_mem_nil, or_false, List.mem_map] at hT
    obtain ⟨a, rfl | rfl, k', -, d, -, rfl⟩ := hT
    · rcases h with rfl | rfl | rfl
      · exact Or.inl rfl
      · exact nomatch hk
      · exact Or.inr rfl
    · rcases h with rfl | rfl | rfl
      · exact Or.inr rfl
      · exact nomatch hk
      · exact Or.inl rfl
  intro n hn n' hn' q hq hq'
  obtain ⟨p, k⟩ := n
  obtain ⟨p', k'⟩ := n'
  cases k with
  | sig k => exact nomatch hq
  | opt k =>
    cases k' with
    | sig k' => exact nomatch hq'
    | opt k' =>
      simp only [Aom.outOf] at hq hq'
      have h1 := hport _ hn k rfl
      have h2 := hport _ hn' k' rfl
      dsimp only at h1 h2
      rcases h1 with rfl | rfl <;> rcases h2 with rfl | rfl
      · rw [if_pos rfl] at hq hq'
        have := (Option.some.inj hq).trans (Option.some.inj hq').symm
        exact Prod.ext rfl (Prod.ext_iff.1 this).2
      · rw [if_pos rfl] at hq
        rw [if_neg hAB.symm] at hq'
        have := (Option.some.inj hq).trans (Option.some.inj hq').symm
        exact absurd (Prod.ext_iff.1 this).1 hO
      · rw [if_neg hAB.symm] at hq
        rw [if_pos rfl] at hq'
        have := (Option.some.inj hq).trans (Option.some.inj hq').symm
        exact absurd (Prod.ext_iff.1 this).1.symm hO
      · rw [if_neg hAB.symm] at hq hq'
        have := (Option.some.inj hq).trans (Option.some.inj hq').symm
        exact Prod.ext rfl (Prod.ext_iff.1 this).2

/-- The right hand side as a sum over the turns of the loops. -/
theorem Aom.poly_turns (env : AEnv P O K R V) (e : Aom P R V) (hAB : e.A ≠ e.B) (n : ANode P O K) (x : ANode P O K → R) :
    poly (rhs (e.build env).dLt n) x = ((e.turns env).map fun T =>
      if e.meets env T.1 T.2.1 T.2.2 ∧ on T.1.portO (T.2.1.at (shift T.2.1 T.2.2)) = n then
        e.G env T.2.1.q * (x (on T.1.port T.2.1) * x (sn e.Drv T.2.2)) else 0).sum := by
  rw [(e.build_spec env hAB).2.1]
  induction e.turns env with
  | nil => rfl
  | cons T L ih =>
    rw [List.map_cons, List.sum_cons, ← ih, List.filter_cons]
    by_cases h : e.meets env T.1 T.2.1 T.2.2 ∧ on T.1.portO (T.2.1.at (shift T.2.1 T.2.2)) = n
    · rw [if_pos (by simpa using h), if_pos h, List.map_cons, poly_cons]
      simp
    · rw [if_neg (by simpa using h), if_neg h, zero_add]

/-! ## Power -/

/-- The keys of light and drive fit together: the modulator can shift there and back. -/
structure Shifts (env : AEnv P O K R V) (e : Aom P R V) : Prop where
  nodupA : (env.okeys e.A).Nodup
  nodupB : (env.okeys e.B).Nodup
  nodupD : (env.skeys e.Drv).Nodup
  neg : ∀ d ∈ env.skeys e.Drv, -d ∈ env.skeys e.Drv
  center : ∀ d, env.center (-d) = -env.center d
  live : ∀ p ∈ [e.A, e.B], ∀ k ∈ env.okeys p, env.reject k.cls = false
  closed : ∀ a ∈ e.arms, ∀ k ∈ env.okeys a.port, ∀ d ∈ env.skeys e.Drv, e.meets env a k d = true →
    k.at (shift k d) ∈ env.okeys a.portO

section Power
variable [DecidableEq ℂ] {env : AEnv P O K ℂ V} {e : Aom P ℂ V}

/-- The lower sidebands at a port. -/
def lowerA (env : AEnv P O K ℂ V) (p : P) : Finset (OKey O K) := (env.okeys p).toFinset.filter fun k => k.q = .lower

theorem mem_lowerA {p : P} {k : OKey O K} : k ∈ lowerA env p ↔ k ∈ env.okeys p ∧ k.q = .lower := by
  rw [lowerA, Finset.mem_filter, List.mem_toFinset]

/-- One arm feeds the other port. -/
theorem Aom.poly_arm (hs : Shifts env e) (hAB : e.A ≠ e.B) {a : Arm P V} (ha : a ∈ e.arms) (k : OKey O K)
    (x : ANode P O K → ℂ) :
    poly (rhs (e.build env).dLt (on a.portO k)) x = ∑ k' ∈ (env.okeys a.port).toFinset, ∑ d ∈ (env.skeys e.Drv).toFinset,
      if e.meets env a k' d ∧ k'.at (shift k' d) = k then e.G env k'.q * (x (on a.port k') * x (sn e.Drv d)) else 0 := by
  have hsum : ∀ (b : Arm P V), (env.okeys b.port).Nodup → ∀ F : Arm P V × OKey O K × K → ℂ,
      (((env.okeys b.port).flatMap fun k => (env.skeys e.Drv).map fun d => (b, k, d)).map F).sum
        = ∑ k' ∈ (env.okeys b.port).toFinset, ∑ d ∈ (env.skeys e.Drv).toFinset, F (b, k', d) := by
    intro b hb F
    rw [List.sum_toFinset _ hb]
    induction env.okeys b.port with
    | nil => rfl
    | cons k l ih =>
      rw [List.flatMap_cons, List.map_append, List.sum_append, ih, List.map_cons, List.sum_cons, List.map_map,
        List.sum_toFinset _ hs.nodupD]
      rfl
  rw [e.poly_turns env hAB]
  unfold Aom.turns Aom.arms
  rw [List.flatMap_cons, List.flatMap_cons, List.flatMap_nil, List.append_nil, List.map_append, List.sum_append,
    hsum _ hs.nodupA, hsum _ hs.nodupB]
  unfold Aom.arms at ha
  simp only [List.mem_cons, List.not_mem_nil, or_false] at ha
  have hne : ∀ (p p' : P) (k k' : OKey O K), on p k = on p' k' ↔ p = p' ∧ k = k' := by
    intro p p' k k'
    constructor
    · intro h
      obtain ⟨h1, h2⟩ := Prod.ext_iff.1 h
      exact ⟨h1, by injection h2⟩
    · rintro ⟨rfl, rfl⟩; rfl
  simp only [hne]
  rcases ha with rfl | rfl
  · simp only [hAB, false_and, and_false, if_false, Finset.sum_const_zero, add_zero, true_and]
  · simp only [hAB.symm, false_and, and_false, if_false, Finset.sum_const_zero, zero_add, true_and]

/-- What an arm adds to the power. -/
theorem Aom.arm_rate (hs : Shifts env e) (hAB : e.A ≠ e.B) {a : Arm P V} (ha : a ∈ e.arms) (x : ANode P O K → ℂ) :
    ∑ k ∈ lowerA env a.portO, starRingEnd ℂ (x (on a.portO k)) * poly (rhs (e.build env).dLt (on a.portO k)) x
      = ∑ T ∈ (lowerA env a.port ×ˢ (env.skeys e.Drv).toFinset).filter (fun T => e.meets env a T.1 T.2 = true),
        e.G env .lower * (starRingEnd ℂ (x (on a.portO (T.1.at (shift T.1 T.2)))) * (x (on a.port T.1) * x (sn e.Drv T.2))) := by
  have e1 : ∀ k ∈ lowerA env a.portO,
      starRingEnd ℂ (x (on a.portO k)) * poly (rhs (e.build env).dLt (on a.portO k)) x
      = ∑ T ∈ (env.okeys a.port).toFinset ×ˢ (env.skeys e.Drv).toFinset,
        if e.meets env a T.1 T.2 ∧ T.1.at (shift T.1 T.2) = k then
          e.G env .lower * (starRingEnd ℂ (x (on a.portO (T.1.at (shift T.1 T.2)))) * (x (on a.port T.1) * x (sn e.Drv T.2)))
        else 0 := by
    intro k hk
    rw [Aom.poly_arm hs hAB ha, Finset.mul_sum, Finset.sum_product]
    refine Finset.sum_congr rfl fun k' _ => ?_
    rw [Finset.mul_sum]
    refine Finset.sum_congr rfl fun d _ => ?_
    by_cases h : e.meets env a k' d = true ∧ k'.at (shift k' d) = k
    · have hq : k'.q = .lower := by
        have := (mem_lowerA.1 hk).2
        rw [← h.2] at this; exact this
      rw [if_pos h, if_pos h, h.2, hq]; ring
    · rw [if_neg h, if_neg h, mul_zero]
  rw [Finset.sum_congr rfl e1, Finset.sum_comm, Finset.sum_filter]
  have hsub : ∀ F : OKey O K × K → ℂ, (∀ T, T.1.q ≠ .lower → F T = 0) →
      ∑ T ∈ lowerA env a.port ×ˢ (env.skeys e.Drv).toFinset, F T
        = ∑ T ∈ (env.okeys a.port).toFinset ×ˢ (env.skeys e.Drv).toFinset, F T := by
    intro F hF
    refine Finset.sum_subset ?_ ?_
    · exact Finset.product_subset_product_left (Finset.filter_subset _ _)
    · intro T hT hT'
      apply hF
      intro hq
      rw [Finset.mem_product] at hT hT'
      exact hT' ⟨mem_lowerA.2 ⟨List.mem_toFinset.1 hT.1, hq⟩, hT.2⟩
  have e2 : ∀ T ∈ lowerA env a.port ×ˢ (env.skeys e.Drv).toFinset, (if e.meets env a T.1 T.2 = true then
        e.G env .lower * (starRingEnd ℂ (x (on a.portO (T.1.at (shift T.1 T.2)))) * (x (on a.port T.1) * x (sn e.Drv T.2)))
        else 0) = if T.1.q = .lower ∧ e.meets env a T.1 T.2 = true then
        e.G env .lower * (starRingEnd ℂ (x (on a.portO (T.1.at (shift T.1 T.2)))) * (x (on a.port T.1) * x (sn e.Drv T.2)))
        else 0 := by
    intro T hT
    have hq := (mem_lowerA.1 (Finset.mem_product.1 hT).1).2
    simp only [hq, true_and]
  rw [Finset.sum_congr rfl e2, hsub _ (fun T hT => if_neg fun h => hT h.1)]
  refine Finset.sum_congr rfl fun T hT => ?_
  rw [Finset.mem_product, List.mem_toFinset, List.mem_toFinset] at hT
  by_cases h : T.1.q = .lower ∧ e.meets env a T.1 T.2 = true
  · rw [if_pos h, Finset.sum_eq_single (T.1.at (shift T.1 T.2))]
    · rw [if_pos ⟨h.2, rfl⟩]
    · intro k _ hk
      exact if_neg fun h' => hk h'.2.symm
    · intro hk
      exact absurd (mem_lowerA.2 ⟨hs.closed a ha _ hT.1 _ hT.2 h.2, h.1⟩) hk
  · rw [if_neg h]
    refine Finset.sum_eq_zero fun k hk => if_neg fun h' => h ⟨?_, h'.1⟩
    have := (mem_lowerA.1 hk).2
    rw [← h'.2] at this; exact this

/-- A drive in conjugate pairs neither adds nor takes power. -/
theorem Aom.power_rate (hs : Shifts env e) (hAB : e.A ≠ e.B) {γ : ℝ} (hi : env.i = Complex.I) (hγ : e.rate = γ)
    {x : ANode P O K → ℂ} (hx : ∀ d, x (sn e.Drv (-d)) = starRingEnd ℂ (x (sn e.Drv d))) :
    ∑ k ∈ lowerA env e.A, 2 * (starRingEnd ℂ (x (on e.A k)) * poly (rhs (e.build env).dLt (on e.A k)) x).re
      + ∑ k ∈ lowerA env e.B, 2 * (starRingEnd ℂ (x (on e.B k)) * poly (rhs (e.build env).dLt (on e.B k)) x).re = 0 := by
  have hG : e.G env .lower = -Complex.I * γ := by simp only [Aom.G, hi, hγ]
  have hA := Aom.arm_rate hs hAB (a := ⟨e.B, e.oB, e.A, e.oA, -e.dir⟩) (by simp [Aom.arms]) x
  have hB := Aom.arm_rate hs hAB (a := ⟨e.A, e.oA, e.B, e.oB, e.dir⟩) (by simp [Aom.arms]) x
  dsimp only at hA hB
  have hlow : ∀ k : OKey O K, k.q = .lower → ∀ d, shift k d = k.cls + d := by
    intro k hk d; unfold shift; rw [hk]
  have hback : ∀ (a b : Arm P V) (k : OKey O K) (d : K), k ∈ env.okeys a.port → a ∈ e.arms → b.direction = -a.direction →
      k.q = .lower → e.meets env a k d = true → e.meets env b (k.at (shift k d)) (-d) = true := by
    intro a b k d hk ha hb hq hm
    have hq' : (k.at (shift k d)).q = .lower := hq
    have hsh : shift (k.at (shift k d)) (-d) = k.cls := by
      rw [hlow _ hq', hlow k hq]
      simp [OKey.at]
    have hlive : env.reject k.cls = false := by
      refine hs.live a.port ?_ k hk
      unfold Aom.arms at ha
      simp only [List.mem_cons, List.not_mem_nil, or_false] at ha
      rcases ha with rfl | rfl <;> simp
    unfold Aom.meets at hm ⊢
    rw [hsh, hlive, hq', hs.center, hb]
    rw [hq] at hm
    simp only [Bool.and_eq_true, decide_eq_true_eq, negOf, one_mul, Bool.not_false, true_and, neg_mul_neg] at hm ⊢
    exact hm.2
  have hswap : ∑ T ∈ (lowerA env e.B ×ˢ (env.skeys e.Drv).toFinset).filter
        (fun T => e.meets env ⟨e.B, e.oB, e.A, e.oA, -e.dir⟩ T.1 T.2 = true),
        e.G env .lower * (starRingEnd ℂ (x (on e.A (T.1.at (shift T.1 T.2)))) * (x (on e.B T.1) * x (sn e.Drv T.2)))
      = ∑ T ∈ (lowerA env e.A ×ˢ (env.skeys e.Drv).toFinset).filter
        (fun T => e.meets env ⟨e.A, e.oA, e.B, e.oB, e.dir⟩ T.1 T.2 = true),
        e.G env .lower * starRingEnd ℂ (starRingEnd ℂ (x (on e.B (T.1.at (shift T.1 T.2))))
          * (x (on e.A T.1) * x (sn e.Drv T.2))) := by
    have hinv : ∀ (k : OKey O K) (d : K), k.q = .lower →
        ((k.at (shift k d)).at (shift (k.at (shift k d)) (-d)), - -d) = (k, d) := by
      intro k d hq
      have hq' : (k.at (shift k d)).q = .lower := hq
      rw [hlow _ hq', hlow k hq, neg_neg]
      obtain ⟨o, c, p, q⟩ := k
      simp [OKey.at]
    refine Finset.sum_nbij' (fun T => (T.1.at (shift T.1 T.2), -T.2)) (fun T => (T.1.at (shift T.1 T.2), -T.2)) ?_ ?_ ?_ ?_ ?_
    · rintro ⟨k, d⟩ h
      rw [Finset.mem_filter, Finset.mem_product, mem_lowerA, List.mem_toFinset] at h ⊢
      obtain ⟨⟨⟨h1, h2⟩, h3⟩, h4⟩ := h
      refine ⟨⟨⟨?_, h2⟩, hs.neg _ h3⟩, ?_⟩
      · exact hs.closed ⟨e.B, e.oB, e.A, e.oA, -e.dir⟩ (by simp [Aom.arms]) k h1 d h3 h4
      · exact hback ⟨e.B, e.oB, e.A, e.oA, -e.dir⟩ ⟨e.A, e.oA, e.B, e.oB, e.dir⟩ k d h1 (by simp [Aom.arms]) (by simp) h2 h4
    · rintro ⟨k, d⟩ h
      rw [Finset.mem_filter, Finset.mem_product, mem_lowerA, List.mem_toFinset] at h ⊢
      obtain ⟨⟨⟨h1, h2⟩, h3⟩, h4⟩ := h
      refine ⟨⟨⟨?_, h2⟩, hs.neg _ h3⟩, ?_⟩
      · exact hs.closed ⟨e.A, e.oA, e.B, e.oB, e.dir⟩ (by simp [Aom.arms]) k h1 d h3 h4
      · exact hback ⟨e.A, e.oA, e.B, e.oB, e.dir⟩ ⟨e.B, e.oB, e.A, e.oA, -e.dir⟩ k d h1 (by simp [Aom.arms]) (by simp) h2 h4
    · rintro ⟨k, d⟩ h
      rw [Finset.mem_filter, Finset.mem_product, mem_lowerA] at h
      exact hinv k d h.1.1.2
    · rintro ⟨k, d⟩ h
      rw [Finset.mem_filter, Finset.mem_product, mem_lowerA] at h
      exact hinv k d h.1.1.2
    · rintro ⟨k, d⟩ h
      rw [Finset.mem_filter, Finset.mem_product, mem_lowerA] at h
      have hk := congrArg Prod.fst (hinv k d h.1.1.2)
      dsimp only at hk ⊢
      rw [hk, hx d]
      simp only [map_mul, Complex.conj_conj]
      ring
  rw [hswap] at hA
  rw [← Finset.mul_sum, ← Finset.mul_sum, ← mul_add, ← Complex.re_sum, ← Complex.re_sum, hA, hB, ← Complex.add_re,
    ← Finset.sum_add_distrib, Complex.re_sum]
  rw [Finset.sum_eq_zero, mul_zero]
  intro T _
  rw [← mul_add, hG]
  generalize starRingEnd ℂ (x (on e.B (T.1.at (shift T.1 T.2)))) * (x (on e.A T.1) * x (sn e.Drv T.2)) = z
  have : starRingEnd ℂ z + z = ((2 * z.re : ℝ) : ℂ) := by rw [add_comm]; exact_mod_cast Complex.add_conj z
  rw [this]
  simp

end Power

end Ode
