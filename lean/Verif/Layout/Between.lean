import Verif.Layout.Basic

/-!
# `matrix_between` follows the light path
-/

set_option linter.unusedSectionVars false

namespace Alm
open Py

variable {V : Type} [Field V] [DecidableEq V]

theorem except_bind_ok {α β : Type} (a : α) (f : α → Except Err β) : (Except.ok a >>= f) = f a := rfl

theorem pydiv_ok' {x y : V} (h : y ≠ 0) : pydiv x y = .ok (x / y) := if_neg h

/-! ## Elements -/

theorem Thin.matrix_ok {t : Thin V} {rev : Bool} (h : (Leaf.thin t rev).WF) : t.matrix rev = .ok (Leaf.thin t rev).abcd := by
  cases t with
  | nop => rfl
  | target => rfl
  | lens f =>
    obtain ⟨x, rfl, hx⟩ := h
    show (do let m ← Alm.lens (some x); pure (if (0 : V) = 0 then m else _)) = _
    unfold Alm.lens
    dsimp only
    rw [pydiv_ok' hx]
    simp only [if_true, Leaf.abcd, Leaf.curv, neg_div, one_div]
    rfl
  | interface n n' R =>
    obtain ⟨hn, hn', hR⟩ := h
    cases R with
    | none =>
      cases rev
      · simp [Thin.matrix, Thin.interface_matrix, pydiv_ok' hn', Leaf.abcd, Leaf.curv, except_bind_ok]
      · simp [Thin.matrix, Thin.interface_matrix, pydiv_ok' hn, Leaf.abcd, Leaf.curv, except_bind_ok]
    | some R =>
      have hR : R ≠ 0 := fun e => hR (by rw [e])
      cases rev
      · simp only [Thin.matrix, Thin.interface_matrix, pydiv_ok' hn', pydiv_ok' hR, Leaf.abcd, Leaf.curv, except_bind_ok]
        show Except.ok _ = _
        congr 2
        field_simp
      · have hR' : -R ≠ 0 := neg_ne_zero.mpr hR
        simp only [Thin.matrix, Thin.interface_matrix, pydiv_ok' hn, pydiv_ok' hR', Leaf.abcd, Leaf.curv, except_bind_ok]
        show Except.ok _ = _
        congr 2
        field_simp
        ring
  | mirror R =>
    cases R with
    | none => simp [Thin.matrix, Thin.mirror_matrix, Leaf.abcd, Leaf.curv]
    | some R =>
      have hR : R ≠ 0 := fun e => h (by rw [e])
      simp only [Thin.matrix, Thin.mirror_matrix, pydiv_ok' hR, Leaf.abcd, Leaf.curv, except_bind_ok]
      show Except.ok _ = _
      congr 2
      field_simp
  | abcd A B C =>
    have hA : A ≠ 0 := h
    simp only [Thin.matrix, Thin.abcd_matrix, pydiv_ok' hA, Leaf.abcd, except_bind_ok]
    show Except.ok _ = _
    congr 2
    ring

theorem Leaf.det_ne {x : Leaf V} (h : x.WF) : x.abcd.det ≠ 0 := by
  cases x with
  | space L n => simp [Leaf.abcd, Mat.det]
  | thin t rev =>
    cases t with
    | nop => simp [Leaf.abcd, Mat.det]
    | target => simp [Leaf.abcd, Mat.det]
    | lens f => simp [Leaf.abcd, Mat.det]
    | mirror R => simp [Leaf.abcd, Mat.det]
    | interface n n' R =>
      obtain ⟨hn, hn', _⟩ := h
      cases rev <;> simp [Leaf.abcd, Mat.det, hn, hn']
    | abcd A B C =>
      have hA : A ≠ 0 := h
      have : (Leaf.abcd (.thin (.abcd A B C) rev) : Mat V).det = 1 := by
        simp only [Leaf.abcd, Mat.det]
        field_simp
        ring
      rw [this]
      exact one_ne_zero

theorem Thin.matrix_inv_ok {t : Thin V} {rev : Bool} (h : (Leaf.thin t rev).WF) :
    ∃ n : Mat V, t.matrix_inv rev = .ok n ∧ (Leaf.thin t rev).abcd * n = 1 ∧ n * (Leaf.thin t rev).abcd = 1 := by
  cases t with
  | nop => exact ⟨1, rfl, mul_one _, one_mul _⟩
  | target => exact ⟨1, rfl, mul_one _, one_mul _⟩
  | lens f =>
    obtain ⟨x, rfl, hx⟩ := h
    refine ⟨⟨1, 0, 1 / x, 1⟩, ?_, ?_, ?_⟩
    · show (do let m ← Alm.lens (some (-x)); pure (if (0 : V) = 0 then m else _)) = _
      unfold Alm.lens
      dsimp only
      rw [pydiv_ok' (neg_ne_zero.mpr hx)]
      simp only [if_true, neg_div_neg_eq]
      rfl
    · show Mat.mul _ _ = Mat.eye
      simp [Leaf.abcd, Leaf.curv, Mat.mul, Mat.eye]
    · show Mat.mul _ _ = Mat.eye
      simp [Leaf.abcd, Leaf.curv, Mat.mul, Mat.eye]
  | interface n n' R =>
    obtain ⟨hn, hn', hR⟩ := h
    cases R with
    | none =>
      cases rev
      · refine ⟨⟨1, 0, 0, n' / n⟩, ?_, ?_, ?_⟩
        · simp [Thin.matrix_inv, Thin.interface_matrix_inv, pydiv_ok' hn, except_bind_ok]
        · show Mat.mul _ _ = Mat.eye
          simp [Leaf.abcd, Leaf.curv, Mat.mul, Mat.eye, hn, hn']
        · show Mat.mul _ _ = Mat.eye
          simp [Leaf.abcd, Leaf.curv, Mat.mul, Mat.eye, hn, hn']
      · refine ⟨⟨1, 0, 0, n / n'⟩, ?_, ?_, ?_⟩
        · simp [Thin.matrix_inv, Thin.interface_matrix_inv, pydiv_ok' hn', except_bind_ok]
        · show Mat.mul _ _ = Mat.eye
          simp [Leaf.abcd, Leaf.curv, Mat.mul, Mat.eye, hn, hn']
        · show Mat.mul _ _ = Mat.eye
          simp [Leaf.abcd, Leaf.curv, Mat.mul, Mat.eye, hn, hn']
    | some R =>
      have hR : R ≠ 0 := fun e => hR (by rw [e])
      cases rev
      · refine ⟨⟨1, 0, (n' / n - 1) / R, n' / n⟩, ?_, ?_, ?_⟩
        · simp only [Thin.matrix_inv, Thin.interface_matrix_inv, pydiv_ok' hn, pydiv_ok' hR, except_bind_ok]
          rfl
        · show Mat.mul _ _ = Mat.eye
          simp only [Leaf.abcd, Leaf.curv, Mat.mul, Mat.eye]
          congr 1
          · ring
          · ring
          · field_simp
            ring
          · field_simp
            ring
        · show Mat.mul _ _ = Mat.eye
          simp only [Leaf.abcd, Leaf.curv, Mat.mul, Mat.eye]
          congr 1
          · ring
          · ring
          · field_simp
            ring
          · field_simp
            ring
      · refine ⟨⟨1, 0, (n / n' - 1) / (-R), n / n'⟩, ?_, ?_, ?_⟩
        · simp only [Thin.matrix_inv, Thin.interface_matrix_inv, pydiv_ok' hn', pydiv_ok' (neg_ne_zero.mpr hR), except_bind_ok]
          rfl
        · show Mat.mul _ _ = Mat.eye
          simp only [Leaf.abcd, Leaf.curv, Mat.mul, Mat.eye]
          congr 1
          · ring
          · ring
          · field_simp
            ring
          · field_simp
            ring
        · show Mat.mul _ _ = Mat.eye
          simp only [Leaf.abcd, Leaf.curv, Mat.mul, Mat.eye]
          congr 1
          · ring
          · ring
          · field_simp
            ring
          · field_simp
            ring
  | mirror R =>
    obtain ⟨n, hn, h1, h2⟩ := inv_ok (Leaf.det_ne h)
    refine ⟨n, ?_, h1, h2⟩
    show (do let m ← (Thin.mirror R).matrix rev; Mat.inv m) = _
    rw [Thin.matrix_ok h]
    exact hn
  | abcd A B C =>
    obtain ⟨n, hn, h1, h2⟩ := inv_ok (Leaf.det_ne h)
    refine ⟨n, ?_, h1, h2⟩
    show (do let m ← (Thin.abcd A B C).matrix rev; Mat.inv m) = _
    rw [Thin.matrix_ok h]
    exact hn

/-! ## Arrays -/

/-- An `np.ndarray` only ever holds the identity. -/
def Arr.Ok : Arr V → Prop
  | .nd m => m = 1
  | .mx _ => True

theorem Arr.mul_ok {a b : Arr V} (ha : a.Ok) (hb : b.Ok) : (a.mul b).Ok ∧ (a.mul b).m = a.m * b.m := by
  cases a with
  | mx a => cases b <;> exact ⟨trivial, rfl⟩
  | nd a =>
    cases b with
    | mx b => exact ⟨trivial, rfl⟩
    | nd b =>
      have ha : a = 1 := ha
      have hb : b = 1 := hb
      subst ha hb
      have h : (⟨(1 : Mat V).a * (1 : Mat V).a, (1 : Mat V).b * (1 : Mat V).b, (1 : Mat V).c * (1 : Mat V).c,
          (1 : Mat V).d * (1 : Mat V).d⟩ : Mat V) = 1 := by
        show (⟨1 * 1, 0 * 0, 0 * 0, 1 * 1⟩ : Mat V) = Mat.eye
        unfold Mat.eye
        congr 1 <;> ring
      refine ⟨h, ?_⟩
      show (⟨(1 : Mat V).a * (1 : Mat V).a, (1 : Mat V).b * (1 : Mat V).b, (1 : Mat V).c * (1 : Mat V).c,
          (1 : Mat V).d * (1 : Mat V).d⟩ : Mat V) = 1 * 1
      rw [h, mul_one]

/-- Whether an array is an `np.matrix`. -/
def Arr.isMx : Arr V → Prop
  | .nd _ => False
  | .mx _ => True

theorem Arr.mul_isMx_left {a b : Arr V} (h : a.isMx) : (a.mul b).isMx := by
  cases a with
  | nd a => exact h.elim
  | mx a => cases b <;> trivial

theorem Arr.mul_isMx_right {a b : Arr V} (h : b.isMx) : (a.mul b).isMx := by
  cases b with
  | nd b => exact h.elim
  | mx b => cases a <;> trivial

/-! ## Matrices of layouts -/

namespace Comp

theorem matrices_spec (l : List (Comp V)) (ih : ∀ c ∈ l, WF c → ∃ a : Arr V, matrix c = .ok a ∧ a.Ok ∧ a.m = prod (leaves c) ∧ a.isMx)
    (hw : WFL l) (acc : Arr V) (hacc : acc.Ok) :
    ∃ a : Arr V, matrices l acc = .ok a ∧ a.Ok ∧ a.m = prod (leavesL l) * acc.m ∧ (l ≠ [] ∨ acc.isMx → a.isMx) := by
  induction l generalizing acc with
  | nil => exact ⟨acc, rfl, hacc, by simp [leavesL, prod], fun h => h.elim (fun h => (h rfl).elim) id⟩
  | cons c l IH =>
    obtain ⟨a, ha, hok, hm, hmx⟩ := ih c List.mem_cons_self hw.1
    obtain ⟨h1, h2⟩ := Arr.mul_ok hok hacc
    obtain ⟨b, hb, hbok, hbm, hbx⟩ := IH (fun d hd => ih d (List.mem_cons_of_mem _ hd)) hw.2 (a.mul acc) h1
    refine ⟨b, ?_, hbok, ?_, fun _ => hbx (Or.inr (Arr.mul_isMx_left hmx))⟩
    · simp only [matrices, ha, except_bind_ok]
      exact hb
    · rw [hbm, h2, hm, leavesL, prod_append, mul_assoc]

theorem ne_nil_of_leavesL {l : List (Comp V)} (h : leavesL l ≠ []) : l ≠ [] := by
  rintro rfl
  exact h rfl

theorem matrix_spec (c : Comp V) (hw : WF c) : ∃ a : Arr V, matrix c = .ok a ∧ a.Ok ∧ a.m = prod (leaves c) ∧ a.isMx := by
  revert hw
  induction c using Comp.ind with
  | thin t rev =>
    intro hw
    refine ⟨.mx (Leaf.thin t rev).abcd, ?_, trivial, ?_, trivial⟩
    · simp only [matrix, Thin.matrix_ok hw, except_bind_ok]
      rfl
    · simp [leaves, prod, Arr.m]
  | space L n =>
    intro hw
    refine ⟨.mx (Leaf.space L n).abcd, ?_, trivial, ?_, trivial⟩
    · simp only [matrix, pydiv_ok' (show n ≠ 0 from hw), except_bind_ok]
      rfl
    · simp [leaves, prod, Arr.m]
  | sys pos l ih =>
    intro hw
    obtain ⟨a, h1, h2, h3, h4⟩ := matrices_spec l ih hw.2 .eye rfl
    refine ⟨a, by simpa only [matrix] using h1, h2, ?_, h4 (Or.inl (ne_nil_of_leavesL hw.1))⟩
    rw [h3, leaves]
    exact mul_one _
  | mount s ih =>
    intro hw
    obtain ⟨a, h1, h2, h3, h4⟩ := ih hw
    have h5 := Arr.mul_ok (a := .mx Mat.eye) trivial h2
    have h6 := Arr.mul_ok (b := .mx Mat.eye) h5.1 trivial
    refine ⟨((Arr.mx Mat.eye).mul a).mul (.mx Mat.eye), ?_, h6.1, ?_, Arr.mul_isMx_right trivial⟩
    · simp only [matrix, h1, except_bind_ok]
      rfl
    · rw [h6.2, h5.2, h3, leaves]
      show (1 * _) * 1 = _
      rw [one_mul, mul_one]

/-- Two matrices are inverse to each other. -/
def Inv (m n : Mat V) : Prop := m * n = 1 ∧ n * m = 1

theorem Inv.mul {a b c d : Mat V} (h : Inv a c) (h' : Inv b d) : Inv (a * b) (d * c) := by
  constructor
  · rw [mul_assoc, ← mul_assoc b, h'.1, one_mul, h.1]
  · rw [mul_assoc, ← mul_assoc c, h.2, one_mul, h'.2]

theorem matrices_inv_spec (l : List (Comp V)) (ih : ∀ c ∈ l, WF c → ∃ a : Arr V, matrix_inv c = .ok a ∧ a.Ok ∧ Inv a.m (prod (leaves c)))
    (hw : WFL l) (acc : Arr V) (hacc : acc.Ok) :
    ∃ (a : Arr V) (n : Mat V), matrices_inv l acc = .ok a ∧ a.Ok ∧ a.m = n * acc.m ∧ Inv n (prod (leavesL l)) := by
  induction l with
  | nil => exact ⟨acc, 1, rfl, hacc, (one_mul _).symm, one_mul _, one_mul _⟩
  | cons c l IH =>
    obtain ⟨a, ha, hok, hi⟩ := ih c List.mem_cons_self hw.1
    obtain ⟨b, n, hb, hbok, hbm, hn⟩ := IH (fun d hd => ih d (List.mem_cons_of_mem _ hd)) hw.2
    obtain ⟨h1, h2⟩ := Arr.mul_ok hok hbok
    refine ⟨a.mul b, a.m * n, ?_, h1, ?_, ?_⟩
    · simp only [matrices_inv, hb, ha, except_bind_ok]
      rfl
    · rw [h2, hbm, mul_assoc]
    · rw [leavesL, prod_append]
      exact hi.mul hn

theorem matrix_inv_spec (c : Comp V) (hw : WF c) :
    ∃ a : Arr V, matrix_inv c = .ok a ∧ a.Ok ∧ Inv a.m (prod (leaves c)) := by
  revert hw
  induction c using Comp.ind with
  | thin t rev =>
    intro hw
    obtain ⟨n, h1, h2, h3⟩ := Thin.matrix_inv_ok hw
    refine ⟨.mx n, ?_, trivial, ?_, ?_⟩
    · simp only [matrix_inv, h1, except_bind_ok]
      rfl
    · simpa [leaves, prod, Arr.m] using h3
    · simpa [leaves, prod, Arr.m] using h2
  | space L n =>
    intro hw
    have hn : n ≠ 0 := hw
    refine ⟨.mx ⟨1, -L / n, 0, 1⟩, ?_, trivial, ?_, ?_⟩
    · simp only [matrix_inv, pydiv_ok' hn, except_bind_ok]
      rfl
    · rw [leaves, prod, prod, one_mul]
      show Mat.mul _ _ = Mat.eye
      simp only [Leaf.abcd, Arr.m, Mat.mul, Mat.eye]
      congr 1 <;> ring
    · rw [leaves, prod, prod, one_mul]
      show Mat.mul _ _ = Mat.eye
      simp only [Leaf.abcd, Arr.m, Mat.mul, Mat.eye]
      congr 1 <;> ring
  | sys pos l ih =>
    intro hw
    obtain ⟨a, n, h1, h2, h3, h4⟩ := matrices_inv_spec l ih hw.2 .eye rfl
    refine ⟨a, by simpa only [matrix_inv] using h1, h2, ?_⟩
    rw [h3, leaves]
    show Inv (n * 1) _
    rw [mul_one]
    exact h4
  | mount s ih =>
    intro hw
    obtain ⟨a, h1, h2, h3⟩ := ih hw
    have h5 := Arr.mul_ok (a := .mx Mat.eye) trivial h2
    have h6 := Arr.mul_ok (b := .mx Mat.eye) h5.1 trivial
    refine ⟨((Arr.mx Mat.eye).mul a).mul (.mx Mat.eye), ?_, h6.1, ?_⟩
    · simp only [matrix_inv, h1, except_bind_ok]
      rfl
    · rw [h6.2, h5.2, leaves]
      show Inv ((1 * a.m) * 1) _
      rw [one_mul, mul_one]
      exact h3

theorem det_prod {l : List (Leaf V)} (h : ∀ x ∈ l, x.WF) : (prod l).det ≠ 0 := by
  induction l with
  | nil =>
    rw [prod, det_one]
    exact one_ne_zero
  | cons x l ih =>
    rw [prod, det_mul]
    exact mul_ne_zero (ih (fun y hy => h y (List.mem_cons_of_mem _ hy))) (Leaf.det_ne (h x List.mem_cons_self))

theorem leavesL_WF {l : List (Comp V)} (ih : ∀ c ∈ l, WF c → ∀ x ∈ leaves c, x.WF) (hw : WFL l) : ∀ x ∈ leavesL l, x.WF := by
  induction l with
  | nil => exact fun x hx => absurd hx List.not_mem_nil
  | cons c l IH =>
    intro x hx
    rcases List.mem_append.mp hx with h | h
    · exact ih c List.mem_cons_self hw.1 x h
    · exact IH (fun d hd => ih d (List.mem_cons_of_mem _ hd)) hw.2 x h

theorem leaves_WF (c : Comp V) (hw : WF c) : ∀ x ∈ leaves c, x.WF := by
  revert hw
  induction c using Comp.ind with
  | thin t rev =>
    intro hw x hx
    rw [List.mem_singleton.mp hx]
    exact hw
  | space L n =>
    intro hw x hx
    rw [List.mem_singleton.mp hx]
    exact hw
  | sys pos l ih => exact fun hw => leavesL_WF ih hw.2
  | mount s ih => exact fun hw => ih hw

/-- The elements to the left of a target come first in the list of elements. -/
theorem before_prefix (c : Comp V) : ∀ t L, before c t = some L → ∃ R, leaves c = L ++ R := by
  induction c using Comp.ind with
  | thin th rev =>
    intro t L h
    unfold before at h
    split at h
    · exact ⟨_, by rw [← Option.some.inj h]; rfl⟩
    split at h
    · exact ⟨[], by rw [← Option.some.inj h]; rfl⟩
    split at h
    · exact ⟨_, by rw [← Option.some.inj h]; rfl⟩
    · exact absurd h (by simp)
  | space l n =>
    intro t L h
    unfold before at h
    split at h
    · exact ⟨_, by rw [← Option.some.inj h]; rfl⟩
    split at h
    · exact ⟨[], by rw [← Option.some.inj h]; rfl⟩
    · exact absurd h (by simp)
  | sys pos l ih =>
    intro t L h
    unfold before at h
    split at h
    · exact ⟨_, by rw [← Option.some.inj h]; rfl⟩
    split at h
    · exact ⟨[], by rw [← Option.some.inj h, List.append_nil]; rfl⟩
    split at h
    · rename_i i inner _ _
      rw [beforeL_eq] at h
      cases hl : l[i]? with
      | none => simp [hl] at h
      | some d =>
        simp only [hl, Option.bind_some, Option.map_eq_some_iff] at h
        obtain ⟨K, hK, rfl⟩ := h
        obtain ⟨R, hR⟩ := ih d (List.mem_of_getElem? hl) inner K hK
        refine ⟨R ++ leavesL (l.drop (i + 1)), ?_⟩
        have : l = l.take i ++ d :: l.drop (i + 1) := by
          obtain ⟨hi, rfl⟩ := List.getElem?_eq_some_iff.mp hl
          simp
        rw [leaves]
        conv_lhs => rw [this]
        rw [leavesL_append, leavesL, hR]
        simp [List.append_assoc]
    · exact absurd h (by simp)
  | mount s ih =>
    intro t L h
    unfold before at h
    split at h
    · exact ⟨_, by rw [← Option.some.inj h]; rfl⟩
    split at h
    · exact ⟨[], by rw [← Option.some.inj h, List.append_nil]; rfl⟩
    split at h
    · exact ih _ L h
    · exact absurd h (by simp)

theorem before_WF {c : Comp V} (hw : WF c) {t : Tgt} {L : List (Leaf V)} (h : before c t = some L) : ∀ x ∈ L, x.WF := by
  obtain ⟨R, hR⟩ := before_prefix c t L h
  intro x hx
  exact leaves_WF c hw x (by rw [hR]; exact List.mem_append_left _ hx)

/-! ## Computations with stored results -/

/-- From stored results satisfying `I`, the computation keeps `I` and its outcome satisfies `P`. -/
def Triple {α : Type} (I : Memo V → Prop) (x : M V α) (P : Except Err α → Prop) : Prop :=
  ∀ s, I s → I (x.run.run s).2 ∧ P (x.run.run s).1

variable {I : Memo V → Prop} {α β : Type}

theorem Triple.pure {a : α} {P : Except Err α → Prop} (h : P (.ok a)) : Triple I (pure a : M V α) P :=
  fun _ hs => ⟨hs, h⟩

theorem Triple.throw {e : Err} {P : Except Err α → Prop} (h : P (.error e)) : Triple I (throw e : M V α) P :=
  fun _ hs => ⟨hs, h⟩

theorem Triple.lift {x : Except Err (Arr V)} {P : Except Err (Arr V) → Prop} (h : P x) : Triple I (base_between.liftExcept x) P :=
  fun _ hs => ⟨hs, h⟩

theorem run_bind (x : M V α) (f : α → M V β) (s : Memo V) :
    (x >>= f).run.run s = (match (x.run.run s).1 with
      | .ok a => (f a).run.run (x.run.run s).2
      | .error e => (.error e, (x.run.run s).2)) := by
  show (ExceptT.bindCont f (x s).1 (x s).2) = _
  show ExceptT.bindCont f (x s).1 (x s).2 = (match (x s).1 with
      | .ok a => f a (x s).2
      | .error e => (.error e, (x s).2))
  cases (x s).1 <;> rfl

theorem Triple.bind {x : M V α} {f : α → M V β} {P : Except Err α → Prop} {Q : Except Err β → Prop} (hx : Triple I x P)
    (hf : ∀ a, P (.ok a) → Triple I (f a) Q) (he : ∀ e, P (.error e) → Q (.error e)) : Triple I (x >>= f) Q := by
  intro s hs
  obtain ⟨h1, h2⟩ := hx s hs
  rw [run_bind]
  generalize hr : x.run.run s = r at h1 h2
  obtain ⟨o, s'⟩ := r
  cases o with
  | ok a => exact hf a h2 s' h1
  | error e => exact ⟨h1, he e h2⟩

theorem Triple.mono {x : M V α} {P Q : Except Err α → Prop} (hx : Triple I x P) (h : ∀ r, P r → Q r) : Triple I x Q :=
  fun s hs => ⟨(hx s hs).1, h _ (hx s hs).2⟩

end Comp
end Alm
