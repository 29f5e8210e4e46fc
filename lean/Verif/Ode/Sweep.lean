import Verif.Ode.Power

/-!
# The crystal at one point of a sweep
-/

set_option linter.unusedSectionVars false

namespace Ode
open Py Optics

section
variable {I S : Type} [DecidableEq I] [DecidableEq ℂ] [DecidableEq (S → ℂ)]

theorem eqAt_app (s : S) (d : Dict I (Lt I (S → ℂ))) (k : I) (t : (S → ℂ) × List I) :
    eqAt s (app d k t) = app (eqAt s d) k (t.1 s, t.2) := by
  have hset : ∀ (d : Dict I (Lt I (S → ℂ))) (l : Lt I (S → ℂ)),
      eqAt s (Dict.set d k l) = Dict.set (eqAt s d) k (l.map fun t => (t.1 s, t.2)) := by
    intro d l
    induction d with
    | nil => rfl
    | cons T d ih =>
      obtain ⟨k', v⟩ := T
      show eqAt s (Dict.set ((k', v) :: d) k l) = Dict.set ((k', v.map fun t => (t.1 s, t.2)) :: eqAt s d) k _
      simp only [Dict.set]
      split_ifs with h
      · rfl
      · rw [← ih]; rfl
  unfold app
  rw [hset, List.map_append]
  have := rhs_eqAt s d k
  unfold rhs at this
  rw [this]
  rfl

end

variable {P O K S : Type} [DecidableEq P] [DecidableEq O] [DecidableEq K] [AddCommGroup O] [AddCommGroup K]
  [DecidableEq ℂ] [DecidableEq (S → ℂ)]

/-- What the crystal reads, at one point of the sweep. -/
def CEnv.pt (env : CEnv P O K (S → ℂ)) (s : S) : CEnv P O K ℂ := ⟨env.okeys, env.orders, env.i s⟩

/-- The crystal at one point of the sweep. -/
def Crystal.pt (e : Crystal P (S → ℂ)) (s : S) : Crystal P ℂ := ⟨e.N_ode, e.nlg s, e.length_mm s⟩

/-- The equations at one point of the sweep. -/
def Eqs.pt (w : Eqs P O K (S → ℂ)) (s : S) : Eqs P O K ℂ := ⟨eqAt s w.dLt, w.in_map, w.out_map⟩

theorem gain_pt (env : CEnv P O K (S → ℂ)) (e : Crystal P (S → ℂ)) (s : S) (n : ℤ) (k k2 : OKey O K) :
    (e.pt s).gain (env.pt s) n k k2 = e.gain env n k k2 s := by
  have hG : (e.pt s).G (env.pt s) k.q = e.G env k.q s := by
    unfold Crystal.G
    cases k.q <;> rfl
  unfold Crystal.gain
  rw [hG]
  split_ifs
  · rw [Pi.smul_apply]; rfl
  · rfl

theorem pair_pt (env : CEnv P O K (S → ℂ)) (e : Crystal P (S → ℂ)) (s : S) (pi po : P) (w : Eqs P O K (S → ℂ))
    (k k2 : OKey O K) :
    (e.pt s).pair (env.pt s) pi po (w.pt s) k k2 = (e.pair env pi po w k k2).map fun w => w.pt s := by
  unfold Crystal.pair
  have h1 : (env.pt s).okeys = env.okeys := rfl
  have h2 : (env.pt s).orders = env.orders := rfl
  rw [h1, h2]
  by_cases hp : k.pol ≠ k2.pol
  · rw [if_pos hp, if_pos hp]; rfl
  · rw [if_neg hp, if_neg hp]
    by_cases hk : kto k k2 ∈ env.okeys po
    · rw [if_pos hk, if_pos hk]
      rcases env.orders (kto k k2).opt with _ | ⟨n, _ | ⟨m, l⟩⟩
      · rfl
      · simp only [gain_pt, Except.map, Eqs.pt, eqAt_app]
      · rfl
    · rw [if_neg hk, if_neg hk]; rfl

/-- Building the equations and taking a point of the sweep commute. -/
theorem build_pt (env : CEnv P O K (S → ℂ)) (e : Crystal P (S → ℂ)) (s : S) (pi po : P) {w : Eqs P O K (S → ℂ)}
    (hw : e.build env pi po = .ok w) : (e.pt s).build (env.pt s) pi po = .ok (w.pt s) := by
  have : ∀ (L : List (OKey O K × OKey O K)) (w₀ w : Eqs P O K (S → ℂ)),
      L.foldlM (fun w T => e.pair env pi po w T.1 T.2) w₀ = .ok w →
      L.foldlM (fun w T => (e.pt s).pair (env.pt s) pi po w T.1 T.2) (w₀.pt s) = .ok (w.pt s) := by
    intro L
    induction L with
    | nil => intro w₀ w h; injection h with h; rw [← h]; rfl
    | cons T L ih =>
      intro w₀ w h
      rw [List.foldlM_cons] at h ⊢
      rw [pair_pt]
      cases h1 : e.pair env pi po w₀ T.1 T.2 with
      | error err => rw [h1] at h; exact nomatch h
      | ok w₁ =>
        rw [h1] at h
        exact ih w₁ w h
  rw [build_eq] at hw ⊢
  exact this _ _ _ hw

theorem Closed.pt {env : CEnv P O K (S → ℂ)} {pi po : P} (hc : Closed env pi po) (s : S) : Closed (env.pt s) pi po :=
  ⟨hc.nodup, hc.same, hc.conj, hc.single⟩

theorem integrate_at (s : S) {I : Type} [DecidableEq I] (dLt : Dict I (Lt I (S → ℂ))) (N : ℕ) (pks : List I) (x : I → S → ℂ)
    (k : I) : integrate (eqAt s dLt) N pks (fun k => x k s) k = integrate dLt N pks x k s := by
  have h := congrArg Prod.fst (integrate2_at s dLt N pks (x, fun _ _ => 0))
  have h1 := integrate2_fst (eqAt s dLt) N pks (fun k => x k s, fun _ => 0)
  have h2 := integrate2_fst dLt N pks (x, fun _ _ => 0)
  dsimp only at h h1 h2
  rw [h1, h2] at h
  exact congrFun h k

end Ode
