import Verif.Dag.Lu
import Verif.Graph.Algebra

/-! # `reduceLU` keeps the system sound and its behaviour -/

set_option linter.unusedSectionVars false

namespace Dag
open Py Graph

variable {M : Type} {V : Type} [DecidableEq M] [Field V] [DecidableEq V]
variable {kind : M → Kind} {K : M → Prop} {d d' : D M V} {n : M} {v : V}

theorem Sound.notAlpha (h : Sound kind K d) (hn : kind n = .int) (b : M) : n ∉ at' d.alpha b := fun hh => by
  have := (h.ai _ _ hh).1
  rw [hn] at this; cases this

theorem Sound.notBeta (h : Sound kind K d) (hn : kind n = .int) (b : M) : n ∉ at' d.beta b := fun hh => by
  have := (h.bi _ _ hh).1
  rw [hn] at this; cases this

/-- Listed edges have present or external ends. -/
theorem Sound.alive (h : Sound kind K d) {r s : M} (hl : Listed d r s) :
    (kind r = .int → K r) ∧ (kind s = .int → K s) := by
  rcases hl with hl | hl | hl
  · exact ⟨fun _ => (h.si _ _ hl).1, fun _ => (h.si _ _ hl).2⟩
  · obtain ⟨k, hh⟩ := h.bi _ _ hl
    refine ⟨fun hr => ?_, fun hs => by rw [k] at hs; cases hs⟩
    rcases hh with hh | hh
    · exact hh
    · rw [hh.1] at hr; cases hr
  · obtain ⟨k, hh⟩ := h.ai _ _ hl
    refine ⟨fun hs => (by rw [k] at hs; cases hs), fun hr => ?_⟩
    rcases hh with hh | hh
    · exact hh
    · rw [hh.1] at hr; cases hr

theorem Sound.cw (h : Sound kind K d) {r s : M} (hr : kind r = .int → K r)
    (hs : kind s = .int → K s) : Cw d r s = ev d r s := by
  unfold Cw
  split
  · rfl
  · rename_i hl
    unfold ev
    cases he : Dict.get? d.em (r, s) with
    | none => rfl
    | some v => exact (hl (h.used r s hr hs (by rw [he]; rfl))).elim

theorem listed_lu (h : Sound kind K d) (hn : kind n = .int) (e : LuEff n v d d') {a b : M} (ha : a ≠ n) (hb : b ≠ n) :
    Listed d' a b ↔ Listed d a b ∨ (Listed d a n ∧ Listed d n b) := by
  have h1 : Listed d a n ↔ (n ∈ at' d.seq a ∨ a ∈ at' d.alpha n) := by
    unfold Listed
    have := h.notBeta hn a
    tauto
  have h2 : Listed d n b ↔ (b ∈ at' d.seq n ∨ b ∈ at' d.beta n) := by
    unfold Listed
    have := h.notAlpha hn b
    tauto
  rw [h1, h2]
  unfold Listed
  rw [e.seq, e.beta, e.alpha]
  tauto

theorem em_lu (h : Sound kind K d) (hn : kind n = .int) (e : LuEff n v d d') {a b : M} (ha : a ≠ n) (hb : b ≠ n) :
    Dict.get? d'.em (a, b) = if Listed d a n ∧ Listed d n b then
      some (ev d a b + ev d n b * (-1 / v) * ev d a n) else Dict.get? d.em (a, b) := by
  have h1 : Listed d a n ↔ (n ∈ at' d.seq a ∨ a ∈ at' d.alpha n) := by
    unfold Listed
    have := h.notBeta hn a
    tauto
  have h2 : Listed d n b ↔ (b ∈ at' d.seq n ∨ b ∈ at' d.beta n) := by
    unfold Listed
    have := h.notAlpha hn b
    tauto
  rw [e.em a b ha hb]
  simp only [h1, h2]

theorem not_listed' (h : Sound kind K d) (hn : kind n = .int) (e : LuEff n v d d') (a : M) :
    ¬ Listed d' a n ∧ ¬ Listed d' n a := by
  unfold Listed
  rw [e.seq, e.beta, e.alpha, e.seq, e.beta, e.alpha]
  have h1 := h.notBeta hn
  have h2 := h.notAlpha hn
  have h3 := h1 a
  have h4 := h1 n
  have h5 := h2 a
  have h6 := h2 n
  tauto

theorem cw_lu (h : Sound kind K d) (hn : K n) (e : LuEff n v d d') {a b : M} (ha : a ≠ n)
    (hb : b ≠ n) : Cw d' a b = Cw d a b - Cw d n b * Cw d a n / v := by
  have kn := h.ki n hn
  by_cases hl : Listed d a n ∧ Listed d n b
  · have aa := (h.alive hl.1).1
    have bb := (h.alive hl.2).2
    rw [h.cw aa bb, h.cw aa (fun _ => hn), h.cw (fun _ => hn) bb]
    unfold Cw
    rw [if_pos ((listed_lu h kn e ha hb).mpr (Or.inr hl)), em_lu h kn e ha hb, if_pos hl]
    simp only [Option.getD_some]
    ring
  · have hz : Cw d n b * Cw d a n = 0 := by
      unfold Cw
      by_cases h1 : Listed d a n
      · have h2 : ¬ Listed d n b := fun hh => hl ⟨h1, hh⟩
        rw [if_neg h2, zero_mul]
      · rw [if_neg h1, mul_zero]
    have hll : Listed d' a b ↔ Listed d a b := by
      rw [listed_lu h kn e ha hb]
      exact ⟨fun hh => hh.elim id (fun q => (hl q).elim), Or.inl⟩
    rw [hz, zero_div, sub_zero]
    unfold Cw
    rw [em_lu h kn e ha hb, if_neg hl]
    simp only [hll]

theorem cw_lu_left (h : Sound kind K d) (hn : K n) (e : LuEff n v d d') (b : M) : Cw d' n b = 0 := by
  unfold Cw
  rw [if_neg (not_listed' h (h.ki n hn) e b).2]

theorem cw_lu_right (h : Sound kind K d) (hn : K n) (e : LuEff n v d d') (a : M) : Cw d' a n = 0 := by
  unfold Cw
  rw [if_neg (not_listed' h (h.ki n hn) e a).1]

theorem sound_lu (h : Sound kind K d) (hn : K n) (e : LuEff n v d d') : Sound kind (fun a => K a ∧ a ≠ n) d' := by
  have kn := h.ki n hn
  constructor
  · intro r s
    rw [e.seq, e.req, h.mir, h.mir, h.mir]
    tauto
  · intro r s hl
    rw [e.seq] at hl
    obtain ⟨hr, hs, hl | hl⟩ := hl
    · exact ⟨⟨(h.si _ _ hl).1, hr⟩, ⟨(h.si _ _ hl).2, hs⟩⟩
    · exact ⟨⟨(h.si _ _ hl.1).1, hr⟩, ⟨(h.si _ _ hl.2).2, hs⟩⟩
  · intro r hr
    exact h.ki r (hr).1
  · intro a s hl
    rw [e.alpha] at hl
    obtain ⟨hs, hl⟩ := hl
    have ka : kind a = .src := by
      rcases hl with hl | hl
      · exact (h.ai _ _ hl).1
      · exact (h.ai _ _ hl.1).1
    have han : a ≠ n := fun hh => by rw [hh, kn] at ka; cases ka
    refine ⟨ka, ?_⟩
    rcases hl with hl | ⟨h1, h2 | h2⟩
    · rcases (h.ai _ _ hl).2 with hh | hh
      · exact Or.inl (⟨hh, hs⟩)
      · exact Or.inr ⟨hh.1, (e.beta _ _).mpr ⟨han, Or.inl hh.2⟩⟩
    · exact Or.inl (⟨(h.si _ _ h2).2, hs⟩)
    · exact Or.inr ⟨(h.bi _ _ h2).1, (e.beta _ _).mpr ⟨han, Or.inr ⟨Or.inr h1, h2⟩⟩⟩
  · intro r b hl
    rw [e.beta] at hl
    obtain ⟨hr, hl⟩ := hl
    have kb : kind b = .snk := by
      rcases hl with hl | hl
      · exact (h.bi _ _ hl).1
      · exact (h.bi _ _ hl.2).1
    have hbn : b ≠ n := fun hh => by rw [hh, kn] at kb; cases kb
    refine ⟨kb, ?_⟩
    rcases hl with hl | ⟨h1 | h1, h2⟩
    · rcases (h.bi _ _ hl).2 with hh | hh
      · exact Or.inl (⟨hh, hr⟩)
      · exact Or.inr ⟨hh.1, (e.alpha _ _).mpr ⟨hbn, Or.inl hh.2⟩⟩
    · exact Or.inl (⟨(h.si _ _ h1).1, hr⟩)
    · exact Or.inr ⟨(h.ai _ _ h1).1, (e.alpha _ _).mpr ⟨hbn, Or.inr ⟨h1, Or.inr h2⟩⟩⟩
  · intro r s hl
    have hr : r ≠ n := fun hh => (not_listed' h kn e s).2 (hh ▸ hl)
    have hs : s ≠ n := fun hh => (not_listed' h kn e r).1 (hh ▸ hl)
    rw [em_lu h kn e hr hs]
    split
    · rfl
    · rename_i hp
      exact h.val _ _ (((listed_lu h kn e hr hs).mp hl).resolve_right hp)
  · intro r s hr hs he
    have hrn : r ≠ n := fun hh => ((hr (hh ▸ kn))).2 hh
    have hsn : s ≠ n := fun hh => ((hs (hh ▸ kn))).2 hh
    rw [em_lu h kn e hrn hsn] at he
    rw [listed_lu h kn e hrn hsn]
    split at he
    · rename_i hp
      exact Or.inr hp
    · exact Or.inl (h.used r s (fun k => ((hr k)).1) (fun k => ((hs k)).1) he)
  · exact e.ld.s
  · exact e.ld.r
  · exact e.ld.a
  · exact e.ld.b

variable [Fintype M]

theorem sum_upd (f : M → V) (x : M → V) (n : M) (y : V) :
    ∑ r, f r * Function.update x n y r = f n * y + ∑ r, (if r = n then 0 else f r * x r) := by
  rw [Graph.sum_split _ n, Function.update_self]
  congr 1
  apply Finset.sum_congr rfl
  intro r _
  by_cases hr : r = n
  · rw [if_pos hr, if_pos hr]
  · rw [if_neg hr, if_neg hr, Function.update_of_ne hr]

theorem sum_lu (h : Sound kind K d) (hn : K n) (e : LuEff n v d d') {b : M}
    (hb : b ≠ n) (x : M → V) (y : V) (hv : v ≠ 0) :
    ∑ r, Cw d' r b * x r = ∑ r, Cw d r b * Function.update x n y r
      - Cw d n b / v * (∑ r, Cw d r n * Function.update x n y r - (Cw d n n - v) * y) := by
  have h0 : ∑ r, Cw d' r b * x r = ∑ r, (if r = n then 0 else Cw d r b * x r)
      - Cw d n b / v * ∑ r, (if r = n then 0 else Cw d r n * x r) := by
    rw [Finset.mul_sum, ← Finset.sum_sub_distrib]
    apply Finset.sum_congr rfl
    intro r _
    by_cases hr : r = n
    · subst hr
      rw [cw_lu_left h hn e]
      simp
    · rw [if_neg hr, if_neg hr, cw_lu h hn e hr hb]
      ring
  rw [h0, sum_upd, sum_upd]
  field_simp
  ring

/-- Solutions of the reduced system are exactly the solutions of the system, and they determine them. -/
theorem sol_lu (h : Sound kind K d) (hn : K n) (hv : Dict.get? d.em (n, n) = some v) (hv0 : v ≠ 0)
    (e : LuEff n v d d') (x : M → V) :
    (Sol kind K d x → Sol kind (fun a => K a ∧ a ≠ n) d' x) ∧ (Sol kind (fun a => K a ∧ a ≠ n) d' x → ∃! y, Sol kind K d (Function.update x n y)) := by
  have kn := h.ki n hn
  have hcn : Cw d n n = v := by
    rw [h.cw (fun _ => hn) (fun _ => hn)]
    unfold ev; rw [hv]; rfl
  have key : ∀ b, b ≠ n → ∀ x y, ∑ r, Cw d r n * Function.update x n y r = 0 →
      ∑ r, Cw d' r b * x r = ∑ r, Cw d r b * Function.update x n y r := by
    intro b hb x y hy
    rw [sum_lu h hn e hb x y hv0, hy, hcn]
    ring
  constructor
  · intro hx
    have hself : Function.update x n (x n) = x := Function.update_eq_self n x
    constructor
    · intro t ht
      obtain ⟨ht1, ht2⟩ := ht
      rw [key t ht2 x (x n) (by rw [hself]; exact hx.int n hn), hself]
      exact hx.int t ht1
    · intro b hb
      have hbn : b ≠ n := fun hh => by rw [hh, kn] at hb; cases hb
      rw [key b hbn x (x n) (by rw [hself]; exact hx.int n hn), hself]
      exact hx.snk b hb
  · intro hx
    have huniq : ∀ y, ∑ r, Cw d r n * Function.update x n y r = 0 ↔
        y = - (∑ r, (if r = n then 0 else Cw d r n * x r)) / v := by
      intro y
      rw [sum_upd, hcn]
      constructor
      · intro hh
        field_simp
        linear_combination hh
      · intro hh
        rw [hh]
        field_simp
        ring
    refine ⟨- (∑ r, (if r = n then 0 else Cw d r n * x r)) / v, ?_, ?_⟩
    · have hy := (huniq _).mpr rfl
      constructor
      · intro t ht
        by_cases htn : t = n
        · rw [htn]; exact hy
        · rw [← key t htn x _ hy]
          exact hx.int t (⟨ht, htn⟩)
      · intro b hb
        have hbn : b ≠ n := fun hh => by rw [hh, kn] at hb; cases hb
        rw [← key b hbn x _ hy, Function.update_of_ne hbn]
        exact hx.snk b hb
    · intro y hy
      exact (huniq y).mp (hy.int n hn)

theorem behav_lu (h : Sound kind K d) (hn : K n) (hv : Dict.get? d.em (n, n) = some v) (hv0 : v ≠ 0)
    (e : LuEff n v d d') (p : M → V) : Behav kind K d p ↔ Behav kind (fun a => K a ∧ a ≠ n) d' p := by
  constructor
  · rintro ⟨x, hx, hp⟩
    exact ⟨x, (sol_lu h hn hv hv0 e x).1 hx, hp⟩
  · rintro ⟨x, hx, hp⟩
    obtain ⟨y, hy, _⟩ := (sol_lu h hn hv hv0 e x).2 hx
    refine ⟨_, hy, fun m hm => ?_⟩
    have : m ≠ n := fun hh => hm (hh ▸ h.ki n hn)
    rw [Function.update_of_ne this]
    exact hp m hm

end Dag
