import Verif.Dag.Pivot
import Verif.Graph.Prepare
import Mathlib.Algebra.BigOperators.Group.Finset.Defs

/-! # Pivots keep the system sound and its behaviour -/

set_option linter.unusedSectionVars false

namespace Dag
open Py Graph

variable {M : Type} {V : Type} [DecidableEq M] [Field V] [DecidableEq V]
variable {kind : M → Kind} {K : M → Prop} {d d' : D M V} {n1 n2 : M}

theorem swap_cases (n1 n2 a : M) : (a = n1 ∧ Equiv.swap n1 n2 a = n2) ∨ (a = n2 ∧ Equiv.swap n1 n2 a = n1) ∨
    (a ≠ n1 ∧ a ≠ n2 ∧ Equiv.swap n1 n2 a = a) := by
  by_cases h1 : a = n1
  · exact Or.inl ⟨h1, by rw [h1]; exact Equiv.swap_apply_left _ _⟩
  · by_cases h2 : a = n2
    · exact Or.inr (Or.inl ⟨h2, by rw [h2]; exact Equiv.swap_apply_right _ _⟩)
    · exact Or.inr (Or.inr ⟨h1, h2, Equiv.swap_apply_of_ne_of_ne h1 h2⟩)

theorem swap_pred {P : M → Prop} (h1 : P n1) (h2 : P n2) (a : M) : P (Equiv.swap n1 n2 a) ↔ P a := by
  rcases swap_cases n1 n2 a with ⟨e1, e2⟩ | ⟨e1, e2⟩ | ⟨_, _, e⟩
  · rw [e1] at e2 ⊢; rw [e2]; exact iff_of_true h2 h1
  · rw [e1] at e2 ⊢; rw [e2]; exact iff_of_true h1 h2
  · rw [e]

theorem swap_ext {a : M} (k1 : kind n1 = .int) (k2 : kind n2 = .int) (ha : kind a ≠ .int) : Equiv.swap n1 n2 a = a :=
  Equiv.swap_apply_of_ne_of_ne (fun e => ha (e ▸ k1)) (fun e => ha (e ▸ k2))

theorem listed_swap (h : Sound kind K d) (h1 : K n1) (h2 : K n2) (e : SwapEff n1 n2 d d') (a b : M) :
    Listed d' a b ↔ Listed d (Equiv.swap n1 n2 a) b := by
  unfold Listed
  rw [e.seq, e.beta, e.alpha]
  have : a ∈ at' d.alpha b ↔ Equiv.swap n1 n2 a ∈ at' d.alpha b := by
    have q1 := h.notAlpha (h.ki n1 h1) b
    have q2 := h.notAlpha (h.ki n2 h2) b
    rcases swap_cases n1 n2 a with ⟨e1, e2⟩ | ⟨e1, e2⟩ | ⟨_, _, e⟩
    · rw [e2, e1]; exact iff_of_false q1 q2
    · rw [e2, e1]; exact iff_of_false q2 q1
    · rw [e]
  rw [this]

theorem em_swap (h : Sound kind K d) (h1 : K n1) (h2 : K n2) (e : SwapEff n1 n2 d d') (a b : M)
    (hb : kind b = .int → K b) : Dict.get? d'.em (a, b) = Dict.get? d.em (Equiv.swap n1 n2 a, b) := by
  rw [e.em]
  have nl : ∀ c, K c → ¬ Listed d c b → Dict.get? d.em (c, b) = none := by
    intro c hc hl
    cases he : Dict.get? d.em (c, b) with
    | none => rfl
    | some v => exact (hl (h.used c b (fun _ => hc) hb (by rw [he]; rfl))).elim
  by_cases ha : a = n1 ∨ a = n2
  · rw [if_pos ha]
    have ka : K a := ha.elim (fun e => e ▸ h1) (fun e => e ▸ h2)
    have ks : K (Equiv.swap n1 n2 a) := (swap_pred h1 h2 a).mpr ka
    by_cases hl : Listed d (Equiv.swap n1 n2 a) b
    · rw [if_pos hl]
    · rw [if_neg hl, nl _ ks hl]
      by_cases hl' : Listed d a b
      · rw [if_pos hl']
      · rw [if_neg hl', nl _ ka hl']
  · rw [if_neg ha, Equiv.swap_apply_of_ne_of_ne (fun e => ha (Or.inl e)) (fun e => ha (Or.inr e))]

theorem cw_swap (h : Sound kind K d) (h1 : K n1) (h2 : K n2) (e : SwapEff n1 n2 d d') (a b : M) :
    Cw d' a b = Cw d (Equiv.swap n1 n2 a) b := by
  unfold Cw
  simp only [listed_swap h h1 h2 e]
  by_cases hl : Listed d (Equiv.swap n1 n2 a) b
  · rw [if_pos hl, if_pos hl, em_swap h h1 h2 e a b (h.alive hl).2]
  · rw [if_neg hl, if_neg hl]

theorem sound_swap (h : Sound kind K d) (h1 : K n1) (h2 : K n2) (e : SwapEff n1 n2 d d') : Sound kind K d' := by
  have k1 := h.ki n1 h1
  have k2 := h.ki n2 h2
  have ext : ∀ a, kind a ≠ .int → Equiv.swap n1 n2 a = a := fun a ha => swap_ext k1 k2 ha
  constructor
  · intro r s
    rw [e.seq, e.req, h.mir]
  · intro r s hl
    rw [e.seq] at hl
    exact ⟨(swap_pred h1 h2 r).mp (h.si _ _ hl).1, (h.si _ _ hl).2⟩
  · exact h.ki
  · intro a s hl
    rw [e.alpha] at hl
    obtain ⟨ka, hh⟩ := h.ai _ _ hl
    refine ⟨ka, hh.imp id (fun q => ⟨q.1, ?_⟩)⟩
    rw [e.beta, ext a (by rw [ka]; simp)]
    exact q.2
  · intro r b hl
    rw [e.beta] at hl
    obtain ⟨kb, hh⟩ := h.bi _ _ hl
    refine ⟨kb, ?_⟩
    rcases hh with hh | ⟨q1, q2⟩
    · exact Or.inl ((swap_pred h1 h2 r).mp hh)
    · have : r = Equiv.swap n1 n2 r := by
        rcases swap_cases n1 n2 r with ⟨e1, e2⟩ | ⟨e1, e2⟩ | ⟨_, _, e⟩
        · rw [e2, k2] at q1; cases q1
        · rw [e2, k1] at q1; cases q1
        · exact e.symm
      rw [← this] at q1 q2
      exact Or.inr ⟨q1, by rw [e.alpha]; exact q2⟩
  · intro r s hl
    rw [listed_swap h h1 h2 e] at hl
    rw [em_swap h h1 h2 e r s (h.alive hl).2]
    exact h.val _ _ hl
  · intro r s hr hs he
    rw [em_swap h h1 h2 e r s hs] at he
    rw [listed_swap h h1 h2 e]
    refine h.used _ _ (fun hk => ?_) hs he
    rcases swap_cases n1 n2 r with ⟨e1, e2⟩ | ⟨e1, e2⟩ | ⟨_, _, e⟩
    · rw [e2]; exact h2
    · rw [e2]; exact h1
    · rw [e] at hk ⊢; exact hr hk
  · exact e.ld.s
  · exact e.ld.r
  · exact e.ld.a
  · exact e.ld.b

section
variable [Fintype M]

theorem sum_swap (h : Sound kind K d) (h1 : K n1) (h2 : K n2) (e : SwapEff n1 n2 d d') (b : M) (x : M → V) :
    ∑ r, Cw d' r b * x r = ∑ r, Cw d r b * x (Equiv.swap n1 n2 r) := by
  rw [← Equiv.sum_comp (Equiv.swap n1 n2)]
  apply Finset.sum_congr rfl
  intro r _
  rw [cw_swap h h1 h2 e, Equiv.swap_apply_self]

theorem sol_swap (h : Sound kind K d) (h1 : K n1) (h2 : K n2) (e : SwapEff n1 n2 d d') (x : M → V) :
    Sol kind K d' x ↔ Sol kind K d (fun m => x (Equiv.swap n1 n2 m)) := by
  have k1 := h.ki n1 h1
  have k2 := h.ki n2 h2
  constructor
  · intro hx
    refine ⟨fun t ht => ?_, fun b hb => ?_⟩
    · rw [← sum_swap h h1 h2 e]; exact hx.int t ht
    · rw [← sum_swap h h1 h2 e]
      rw [swap_ext k1 k2 (by rw [hb]; simp)]
      exact hx.snk b hb
  · intro hx
    refine ⟨fun t ht => ?_, fun b hb => ?_⟩
    · rw [sum_swap h h1 h2 e]; exact hx.int t ht
    · rw [sum_swap h h1 h2 e]
      have := hx.snk b hb
      rw [swap_ext k1 k2 (by rw [hb]; simp)] at this
      exact this

theorem behav_swap (h : Sound kind K d) (h1 : K n1) (h2 : K n2) (e : SwapEff n1 n2 d d') (p : M → V) :
    Behav kind K d p ↔ Behav kind K d' p := by
  have k1 := h.ki n1 h1
  have k2 := h.ki n2 h2
  constructor
  · rintro ⟨x, hx, hp⟩
    refine ⟨fun m => x (Equiv.swap n1 n2 m), (sol_swap h h1 h2 e _).mpr ?_, fun m hm => ?_⟩
    · simpa using hx
    · dsimp only; rw [swap_ext k1 k2 hm]; exact hp m hm
  · rintro ⟨x, hx, hp⟩
    refine ⟨_, (sol_swap h h1 h2 e _).mp hx, fun m hm => ?_⟩
    rw [swap_ext k1 k2 hm]; exact hp m hm

end

/-- Two states hold the same system: the same listed edges and the same stored values. -/
structure Same (d d' : D M V) : Prop where
  seq : ∀ a b, b ∈ at' d'.seq a ↔ b ∈ at' d.seq a
  req : ∀ a b, b ∈ at' d'.req a ↔ b ∈ at' d.req a
  alpha : ∀ a b, b ∈ at' d'.alpha a ↔ b ∈ at' d.alpha a
  beta : ∀ a b, b ∈ at' d'.beta a ↔ b ∈ at' d.beta a
  em : ∀ a b, Dict.get? d'.em (a, b) = Dict.get? d.em (a, b)

theorem swap_twice (h : Sound kind K d) (h1 : K n1) (h2 : K n2) {d'' : D M V} (e : SwapEff n1 n2 d d')
    (e' : SwapEff n1 n2 d' d'') : Same d d'' := by
  constructor
  · intro a b; rw [e'.seq, e.seq, Equiv.swap_apply_self]
  · intro a b; rw [e'.req, e.req, Equiv.swap_apply_self]
  · intro a b; rw [e'.alpha, e.alpha]
  · intro a b; rw [e'.beta, e.beta, Equiv.swap_apply_self]
  · intro a b
    rw [e'.em, e.em, e.em]
    simp only [listed_swap h h1 h2 e, Equiv.swap_apply_self]
    by_cases ha : a = n1 ∨ a = n2
    · have hs : Equiv.swap n1 n2 a = n1 ∨ Equiv.swap n1 n2 a = n2 := by
        rcases swap_cases n1 n2 a with ⟨e1, e2⟩ | ⟨e1, e2⟩ | ⟨q1, q2, e⟩
        · exact Or.inr e2
        · exact Or.inl e2
        · exact (ha.elim q1 q2).elim
      have nl : Listed d a b ∨ ¬ Listed d a b := em _
      rw [if_pos ha, if_pos ha, if_pos hs]
      by_cases l1 : Listed d a b
      · rw [if_pos l1, if_pos l1]
      · rw [if_neg l1]
        by_cases l2 : Listed d (Equiv.swap n1 n2 a) b
        · rw [if_pos l2]
          cases he : Dict.get? d.em (a, b) with
          | none => rfl
          | some v =>
            have ka : K a := ha.elim (fun e => e ▸ h1) (fun e => e ▸ h2)
            exact (l1 (h.used a b (fun _ => ka) (h.alive l2).2 (by rw [he]; rfl))).elim
        · rw [if_neg l2, if_neg l2, if_neg l1]
    · rw [if_neg ha, if_neg ha]

/-! ### Arrow reversal -/

/-- The kinds in the reversed system. -/
def fkind (kind : M → Kind) (m : M) : Kind :=
  match kind m with
  | .int => .int
  | .src => .snk
  | .snk => .src

theorem fkind_int (m : M) : fkind kind m = .int ↔ kind m = .int := by
  unfold fkind; cases kind m <;> simp
theorem fkind_src (m : M) : fkind kind m = .src ↔ kind m = .snk := by
  unfold fkind; cases kind m <;> simp
theorem fkind_snk (m : M) : fkind kind m = .snk ↔ kind m = .src := by
  unfold fkind; cases kind m <;> simp
theorem fkind_fkind : fkind (fkind kind) = kind := by
  funext m; unfold fkind; cases kind m <;> simp

theorem flipKey_inj : Function.Injective (flipKey : M × M → M × M) := by
  rintro ⟨a, b⟩ ⟨c, e⟩ h
  unfold flipKey at h
  simp at h
  simp [h.1, h.2]

theorem flip_em (d : D M V) (a b : M) : Dict.get? (flip d).em (a, b) = Dict.get? d.em (b, a) := by
  have := get?_map_inj d.em flipKey flipKey_inj (fun v => v) (b, a)
  simpa [flip, flipKey] using this

theorem flip_flip (d : D M V) : flip (flip d) = d := by
  unfold flip
  cases d
  simp [flipKey, Function.comp_def]

theorem listed_flip (h : Sound kind K d) (a b : M) : Listed (flip d) a b ↔ Listed d b a := by
  unfold Listed
  show b ∈ at' d.req a ∨ b ∈ at' d.alpha a ∨ a ∈ at' d.beta b ↔ _
  rw [h.mir]
  tauto

theorem cw_flip (h : Sound kind K d) (a b : M) : Cw (flip d) a b = Cw d b a := by
  unfold Cw
  rw [flip_em]
  simp only [listed_flip h]

theorem sound_flip (h : Sound kind K d) : Sound (fkind kind) K (flip d) := by
  constructor
  · exact fun r s => (h.mir s r).symm
  · intro r s hl
    have := h.si s r ((h.mir s r).mpr hl)
    exact ⟨this.2, this.1⟩
  · intro r hr
    rw [fkind_int]; exact h.ki r hr
  · intro a s hl
    rw [fkind_src, fkind_snk]
    exact h.bi _ _ hl
  · intro r b hl
    rw [fkind_src, fkind_snk]
    exact h.ai _ _ hl
  · intro r s hl
    rw [flip_em]
    exact h.val _ _ ((listed_flip h r s).mp hl)
  · intro r s hr hs he
    rw [fkind_int] at hr hs
    rw [flip_em] at he
    exact (listed_flip h r s).mpr (h.used s r hs hr he)
  · exact h.lr
  · exact h.ls
  · exact h.lb
  · exact h.la

theorem sound_unflip (h : Sound (fkind kind) K d) : Sound kind K (flip d) := by
  have := sound_flip h
  rwa [fkind_fkind] at this

variable [Fintype M]

/-- Rows swapped: the same solutions. -/
theorem sol_swap_row (h : Sound kind K d) (h1 : K n1) (h2 : K n2) (e : SwapEff n1 n2 (flip d) d') (x : M → V) :
    Sol kind K (flip d') x ↔ Sol kind K d x := by
  have k1 := h.ki n1 h1
  have k2 := h.ki n2 h2
  have hf := sound_flip h
  have hs := sound_swap hf h1 h2 e
  have hc : ∀ a b, Cw (flip d') a b = Cw d a (Equiv.swap n1 n2 b) := by
    intro a b
    rw [cw_flip hs, cw_swap hf h1 h2 e, cw_flip h]
  constructor
  · intro hx
    refine ⟨fun t ht => ?_, fun b hb => ?_⟩
    · have := hx.int (Equiv.swap n1 n2 t) ((swap_pred h1 h2 t).mpr ht)
      simp only [hc, Equiv.swap_apply_self] at this
      exact this
    · have := hx.snk b hb
      simp only [hc, swap_ext k1 k2 (show kind b ≠ .int by rw [hb]; simp)] at this
      exact this
  · intro hx
    refine ⟨fun t ht => ?_, fun b hb => ?_⟩
    · simp only [hc]
      exact hx.int _ ((swap_pred h1 h2 t).mpr ht)
    · simp only [hc, swap_ext k1 k2 (show kind b ≠ .int by rw [hb]; simp)]
      exact hx.snk b hb

end Dag
