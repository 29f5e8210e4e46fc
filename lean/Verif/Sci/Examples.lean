import Verif.Sci.Props

/-! # Non-vacuity of C105 and C106: a reference `spsolve`, runs, and where the two solvers differ -/

set_option linter.unusedSectionVars false

namespace Sci
open Py Graph Dag

section reference
variable {V : Type} [Field V] [DecidableEq V]

/-- A regular matrix can be solved for any right side. -/
theorem regular_solves {n : Nat} {A : Coo V} (h : Regular n A) (b : Nat → V) :
    ∃ y : Nat → V, ∀ r < n, ∑ k ∈ Finset.range n, entry A r k * y k = b r := by
  let B : Matrix (Fin n) (Fin n) V := fun r k => entry A r k
  have hi : Function.Injective B.mulVec := by
    intro u v huv
    have h0 : ∀ z : Fin n → V, B.mulVec z = 0 → z = 0 := by
      intro z hz
      funext k
      have := h (fun k => if hk : k < n then z ⟨k, hk⟩ else 0) (fun r hr => by
        rw [Finset.sum_range]
        refine Eq.trans ?_ (congrFun hz ⟨r, hr⟩)
        refine Finset.sum_congr rfl (fun k _ => ?_)
        rw [dif_pos k.2]) k k.2
      simpa using this
    have := h0 (u - v) (by rw [Matrix.mulVec_sub, huv, sub_self])
    exact sub_eq_zero.mp this
  have hs : Function.Surjective B.mulVec := by
    have := (LinearMap.injective_iff_surjective (f := B.mulVecLin)).mp (by
      rw [Matrix.coe_mulVecLin]; exact hi)
    rwa [Matrix.coe_mulVecLin] at this
  obtain ⟨y, hy⟩ := hs (fun r => b r)
  refine ⟨fun k => if hk : k < n then y ⟨k, hk⟩ else 0, fun r hr => ?_⟩
  rw [Finset.sum_range]
  refine Eq.trans ?_ (congrFun hy ⟨r, hr⟩)
  refine Finset.sum_congr rfl (fun k _ => ?_)
  show entry A r k * (if hk : (k : Nat) < n then y ⟨k, hk⟩ else 0) = _
  rw [dif_pos k.2]

open Classical in
/-- The reference: all entries of the solution, stored column by column. -/
noncomputable def ref (n m : Nat) (A b : Coo V) : Except Err (Coo V) :=
  if h : Regular n A then
    .ok (((List.range m).product (List.range n)).map
      (fun q => (q.1, q.2, (regular_solves h (fun r => entry b r q.1)).choose q.2)))
  else .error .runtime

theorem ref_exact : Exact (ref (V := V)) where
  range := by
    intro n m A b x hx t ht
    unfold ref at hx
    split at hx
    · cases hx
      simp only [List.mem_map, List.pair_mem_product, List.mem_range, Prod.exists] at ht
      obtain ⟨c, k, ⟨h1, h2⟩, rfl⟩ := ht
      exact ⟨h1, h2⟩
    · cases hx
  once := by
    intro n m A b x hx
    unfold ref at hx
    split at hx
    · cases hx
      rw [List.map_map]
      refine (List.Nodup.map ?_ (List.Nodup.product List.nodup_range List.nodup_range))
      intro a b hab
      exact hab
    · cases hx
  solves := by
    intro n m A b x hx c hc r hr
    unfold ref at hx
    split at hx
    · rename_i h
      cases hx
      refine Eq.trans ?_ ((regular_solves h (fun r => entry b r c)).choose_spec r hr)
      refine Finset.sum_congr rfl (fun k hk => ?_)
      congr 1
      exact entry_at (row := fun q : Nat × Nat => q.1) (col := fun q => q.2)
        (val := fun q => (regular_solves h (fun r => entry b r q.1)).choose q.2)
        (List.Nodup.product List.nodup_range List.nodup_range) (p := (c, k))
        (List.pair_mem_product.mpr ⟨List.mem_range.mpr hc, List.mem_range.mpr (Finset.mem_range.mp hk)⟩)
        (fun q _ h1 h2 => Prod.ext h1 h2)
    · cases hx
  regular := by
    intro n m A b x hx
    unfold ref at hx
    split at hx
    · assumption
    · cases hx
  returns := by
    intro n m A b _ _ _ _ h
    exact ⟨_, by unfold ref; rw [dif_pos h]⟩

end reference

/-- A library that meets `Lawful` and `Sorts`. -/
noncomputable def refLib (N V : Type) [DecidableEq V] [Field V] : Lib (WN N) V where
  pick := fun l => l.headD .vac
  sortkeys := fun l => .ok l
  sortkeys_split := fun l => .ok l
  spsolve := ref

section
variable {N V : Type} [DecidableEq N] [Field V] [DecidableEq V] [Fintype N]

theorem refLib_lawful : Lawful (refLib N V) where
  pick := by
    intro l hl
    cases l with
    | nil => exact absurd rfl hl
    | cons a l => exact List.mem_cons_self
  sortkeys := by intro l l' h; cases h; exact .refl _
  sortkeys_split := by intro l l' h; cases h; exact .refl _
  spsolve := ref_exact

theorem refLib_sorts : Sorts (refLib N V) := ⟨fun l => ⟨l, rfl⟩, fun l => ⟨l, rfl⟩⟩
end

/-- The example of C21 meets the hypotheses of `C105_returns`, and the run returns what the default solver returns. -/
theorem exS_returns : ∃ om em, inverse_solve (refLib (Fin 3) F2) (exO true) [1] [0] (some [(0, 1)]) exS = .ok (some om, em) := by
  obtain ⟨r, em, hr⟩ := C105_returns (o := exO true) (outs := [1]) (inp := [0]) (src := some [(0, 1)]) (refLib_lawful (N := Fin 3) (V := F2))
    refLib_sorts exS_valid rfl exS_inv (by decide +kernel)
    ⟨0, by simp [srcKeys, Dict.keys], ⟨1, by simp, .single (by unfold Edge; decide +kernel)⟩⟩
  obtain ⟨om, T0, T, h, -⟩ := scattering_core (refLib_lawful (N := Fin 3) (V := F2)) exS_valid rfl rfl hr
  exact ⟨om, em, by rw [hr, h]; rfl⟩

example : ∃ om em, inverse_solve (refLib (Fin 3) F2) (exO true) [1] [0] (some [(0, 1)]) exS = .ok (some om, em) ∧
    (Dict.get? om 1).getD 0 = 1 ∧ (Dict.get? em (0, 1)).getD 0 = 1 := by
  obtain ⟨om, em, hr⟩ := exS_returns
  have := C106_agree_partial refLib_lawful exS_valid rfl (Or.inl rfl) (by decide) (exH_pick 1 true) exA_lawful hr exS_run'
  refine ⟨om, em, hr, ?_, ?_⟩
  · rw [this.1 1]; decide +kernel
  · rw [this.2 0 (by simp) 1 (by simp)]; decide +kernel

/-- The plain example meets the hypotheses of `C105_linear_returns`. -/
example : ∃ r em, inverse_solve (refLib (Fin 3) F2) (exO false) [0, 2] [2] (some [(1, 1)]) exP = .ok (r, em) :=
  C105_linear_returns refLib_lawful refLib_sorts exP_valid rfl exP_inv
    ⟨2, by simp [srcKeys, Dict.keys], ⟨2, by simp, .refl⟩⟩

/-- **C106** without "sources and outputs occur in the graph" is false: of a node without edges that is source and output the scipy
solver returns the source, the default solver nothing. -/
theorem C106_isolated_node_refuted :
    (∃ om em, inverse_solve (refLib (Fin 3) F2) (exO true) [1] [] (some [(1, 1)]) ⟨[], [], []⟩ = .ok (some om, em) ∧
      (Dict.get? om 1).getD 0 = 1) ∧
    Dag.inverse_solve (exH 0 true) exA (fun _ => []) 100 (exO true) [1] [] (some [(1, 1)]) ⟨[], [], []⟩ = .ok (some [], []) := by
  refine ⟨?_, by decide +kernel⟩
  have hv : Valid (⟨[], [], []⟩ : G (Fin 3) F2) := ⟨by decide, by decide, by decide, by decide, by decide +kernel⟩
  have hi : IsUnit (1 - mat (⟨[], [], []⟩ : G (Fin 3) F2)) := by
    rw [Matrix.isUnit_iff_isUnit_det, Matrix.det_fin_three]
    decide +kernel
  obtain ⟨r, em, hr⟩ := C105_returns (o := exO true) (outs := [1]) (inp := []) (src := some [(1, 1)]) (refLib_lawful (N := Fin 3) (V := F2))
    refLib_sorts hv rfl hi (by decide +kernel) ⟨1, by simp [srcKeys, Dict.keys], ⟨1, by simp, .refl⟩⟩
  obtain ⟨om, T0, T, h, -⟩ := scattering_core (refLib_lawful (N := Fin 3) (V := F2)) hv rfl rfl hr
  subst h
  refine ⟨om, em, hr, ?_⟩
  rw [C105_inverse refLib_lawful hv rfl hi hr 1 (by simp)]
  have e : mat (⟨[], [], []⟩ : G (Fin 3) F2) = 0 := by
    ext a b
    rfl
  rw [e, sub_zero, inv_one, Matrix.one_mulVec]
  decide +kernel

end Sci
