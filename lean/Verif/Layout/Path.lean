import Verif.Layout.Between

/-!
# `matrix_between` follows the light path, whatever has been stored
-/

set_option linter.unusedSectionVars false

namespace Alm
open Py

variable {V : Type} [Field V] [DecidableEq V]

namespace Comp

/-- The part of a layout at a path. -/
def sub : Comp V → List Nat → Option (Comp V)
  | c, [] => some c
  | .sys _ l, i :: p => (l[i]?).bind (fun c => sub c p)
  | .mount s, 0 :: p => sub s p
  | _, _ :: _ => none

theorem sub_append (c : Comp V) (p q : List Nat) : sub c (p ++ q) = (sub c p).bind (fun d => sub d q) := by
  induction p generalizing c with
  | nil => simp [sub]
  | cons i p ih =>
    cases c with
    | thin t rev => simp [sub]
    | space L n => simp [sub]
    | sys pos l =>
      simp only [List.cons_append, sub]
      cases l[i]? with
      | none => rfl
      | some d => simpa using ih d
    | mount s =>
      cases i with
      | zero => simpa [sub] using ih s
      | succ i => simp [sub]

/-- The outcome of `matrix_between(t1, t2)`: the matrix that takes what arrives at the first target to what arrives at the second. -/
def Post (c : Comp V) (t1 t2 : Tgt) (r : Except Err (Arr V)) : Prop :=
  ∀ L1 L2, before c t1 = some L1 → before c t2 = some L2 → ∃ a : Arr V, r = .ok a ∧ a.Ok ∧ a.m * prod L1 = prod L2

/-- What is stored are right answers. -/
def Good (root : Comp V) (memo : Memo V) : Prop :=
  ∀ p c t1 t2 a, sub root p = some c → Dict.get? memo (p, t1, t2) = some a → Post c t1 t2 (.ok a)

theorem post_error {c : Comp V} {t1 t2 : Tgt} {e : Err} (h : before c t1 = none ∨ before c t2 = none) : Post c t1 t2 (.error e) := by
  intro L1 L2 h1 h2
  rcases h with h | h
  · rw [h] at h1
    exact absurd h1 (by simp)
  · rw [h] at h2
    exact absurd h2 (by simp)

theorem eye_ok : (Arr.eye : Arr V).Ok := rfl
theorem eye_m : (Arr.eye : Arr V).m = 1 := rfl

/-- The common case of elements without inner targets. -/
theorem base_between_spec {I : Memo V → Prop} {c : Comp V} {mat inv : Except Err (Arr V)} {t1 t2 : Tgt}
    (hm : ∃ a : Arr V, mat = .ok a ∧ a.Ok ∧ a.m = prod (leaves c)) (hi : ∃ a : Arr V, inv = .ok a ∧ a.Ok ∧ Inv a.m (prod (leaves c)))
    (hb : ∀ t, t ≠ [.left] → t ≠ [.right] → before c t = none) : Triple I (base_between mat inv t1 t2) (Post c t1 t2) := by
  unfold base_between
  split
  · rename_i h1
    subst h1
    split
    · rename_i h2
      subst h2
      refine Triple.pure ?_
      intro L1 L2 h1 h2
      rw [TargetLeft] at h1 h2
      rw [h1] at h2
      cases Option.some.inj h2
      exact ⟨_, rfl, eye_ok, one_mul _⟩
    split
    · rename_i h2
      subst h2
      refine Triple.lift ?_
      intro L1 L2 h1 h2
      rw [TargetLeft, before_left] at h1
      rw [TargetRight, before_right] at h2
      cases Option.some.inj h1
      cases Option.some.inj h2
      obtain ⟨a, ha, hok, hm⟩ := hm
      exact ⟨a, ha, hok, by rw [hm, prod, mul_one]⟩
    · rename_i h2 h3
      exact Triple.throw (post_error (Or.inr (hb _ h2 h3)))
  split
  · rename_i h1
    subst h1
    split
    · rename_i h2
      subst h2
      refine Triple.lift ?_
      intro L1 L2 h1 h2
      rw [TargetRight, before_right] at h1
      rw [TargetLeft, before_left] at h2
      cases Option.some.inj h1
      cases Option.some.inj h2
      obtain ⟨a, ha, hok, hm⟩ := hi
      exact ⟨a, ha, hok, hm.1⟩
    split
    · rename_i h2
      subst h2
      refine Triple.pure ?_
      intro L1 L2 h1 h2
      rw [TargetRight] at h1 h2
      rw [h1] at h2
      cases Option.some.inj h2
      exact ⟨_, rfl, eye_ok, one_mul _⟩
    · rename_i h2 h3
      exact Triple.throw (post_error (Or.inr (hb _ h2 h3)))
  · rename_i h1 h2
    exact Triple.throw (post_error (Or.inl (hb _ h1 h2)))

theorem between_at_eq (l : List (Comp V)) (i : Nat) (p : List Nat) (a b : Tgt) :
    between_at l i p a b = (match l[i]? with
      | some c => between c p a b
      | none => throw .indexError) := by
  induction l generalizing i with
  | nil => rw [between_at]; rfl
  | cons c l ih =>
    cases i with
    | zero => rw [between_at]; rfl
    | succ i =>
      rw [between_at, ih]
      rfl

theorem memoize_spec {root c : Comp V} {p : List Nat} (hp : sub root p = some c) {t1 t2 : Tgt} {x : M V (Arr V)}
    (hx : Triple (Good root) x (Post c t1 t2)) : Triple (Good root) (memoize p t1 t2 x) (Post c t1 t2) := by
  intro s hs
  unfold memoize
  rw [run_bind]
  show Good root (((match Dict.get? s (p, t1, t2) with
      | some result => pure result
      | none => x >>= fun mat => (modify fun memo => Dict.set memo (p, t1, t2) mat) >>= fun _ => pure mat : M V (Arr V)).run.run s).2) ∧
    Post c t1 t2 (((match Dict.get? s (p, t1, t2) with
      | some result => pure result
      | none => x >>= fun mat => (modify fun memo => Dict.set memo (p, t1, t2) mat) >>= fun _ => pure mat : M V (Arr V)).run.run s).1)
  cases hg : Dict.get? s (p, t1, t2) with
  | some a => exact ⟨hs, hs p c t1 t2 a hp hg⟩
  | none =>
    obtain ⟨h1, h2⟩ := hx s hs
    dsimp only
    rw [run_bind]
    generalize hr : x.run.run s = r at h1 h2
    obtain ⟨o, s'⟩ := r
    cases o with
    | error e => exact ⟨h1, h2⟩
    | ok a =>
      refine ⟨?_, h2⟩
      show Good root (Dict.set s' (p, t1, t2) a)
      intro p' c' t1' t2' a' hp' hg'
      rw [Dict.get?_set] at hg'
      split at hg'
      · rename_i heq
        simp only [Prod.mk.injEq] at heq
        obtain ⟨rfl, rfl, rfl⟩ := heq
        rw [hp] at hp'
        cases Option.some.inj hp'
        cases Option.some.inj hg'
        exact h2
      · exact h1 p' c' t1' t2' a' hp' hg'

/-- Splitting a list at an index. -/
theorem split_at {l : List (Comp V)} {i : Nat} {d : Comp V} (h : l[i]? = some d) : l = l.take i ++ d :: l.drop (i + 1) := by
  obtain ⟨hi, rfl⟩ := List.getElem?_eq_some_iff.mp h
  simp

theorem WFL_sub {l m : List (Comp V)} (h : ∀ x ∈ m, x ∈ l) (hw : WFL l) : WFL m := by
  rw [WFL_iff] at hw ⊢
  exact fun c hc => hw c (h c hc)

theorem WFL_take {l : List (Comp V)} (i : Nat) (hw : WFL l) : WFL (l.take i) := WFL_sub (fun _ hx => List.mem_of_mem_take hx) hw
theorem WFL_drop {l : List (Comp V)} (i : Nat) (hw : WFL l) : WFL (l.drop i) := WFL_sub (fun _ hx => List.mem_of_mem_drop hx) hw

theorem matrices_ok {l : List (Comp V)} (hw : WFL l) {acc : Arr V} (hacc : acc.Ok) :
    ∃ a : Arr V, matrices l acc = .ok a ∧ a.Ok ∧ a.m = prod (leavesL l) * acc.m ∧ (l ≠ [] ∨ acc.isMx → a.isMx) :=
  matrices_spec l (fun c _ hc => matrix_spec c hc) hw acc hacc

theorem matrices_inv_ok {l : List (Comp V)} (hw : WFL l) {acc : Arr V} (hacc : acc.Ok) :
    ∃ (a : Arr V) (n : Mat V), matrices_inv l acc = .ok a ∧ a.Ok ∧ a.m = n * acc.m ∧ Inv n (prod (leavesL l)) :=
  matrices_inv_spec l (fun c _ hc => matrix_inv_spec c hc) hw acc hacc

/-- The elements before a target in the `i`-th part of a system. -/
theorem before_idx {pos : List V} {l : List (Comp V)} {i : Nat} {t : Tgt} {L : List (Leaf V)}
    (h : before (.sys pos l) (.idx i :: t) = some L) :
    ∃ d K, l[i]? = some d ∧ before d t = some K ∧ L = leavesL (l.take i) ++ K := by
  have h' : beforeL l i t = some L := by
    have := h
    unfold before at this
    simpa using this
  rw [beforeL_eq] at h'
  cases hl : l[i]? with
  | none => simp [hl] at h'
  | some d =>
    simp only [hl, Option.bind_some, Option.map_eq_some_iff] at h'
    obtain ⟨K, hK, rfl⟩ := h'
    exact ⟨d, K, rfl, hK, rfl⟩

/-- Targets of a system. -/
theorem before_sys {pos : List V} {l : List (Comp V)} {t : Tgt} (h1 : t ≠ [.left]) (h2 : t ≠ [.right])
    (h3 : ∀ i inner, t ≠ .idx i :: inner) : before (.sys pos l) t = none := by
  unfold before
  rw [if_neg h1, if_neg h2]
  split
  · exact absurd rfl (h3 _ _)
  · rfl

/-- The call of a part: an index outside of the list raises. -/
theorem part_spec {I : Memo V → Prop} {l : List (Comp V)} {p : List Nat}
    (ih : ∀ i d, l[i]? = some d → ∀ a b, Triple I (between d (p ++ [i]) a b) (Post d a b)) (i : Nat) (a b : Tgt) :
    Triple I (between_at l i (p ++ [i]) a b) (fun r => ∀ d, l[i]? = some d → Post d a b r) := by
  rw [between_at_eq]
  cases hl : l[i]? with
  | none => exact Triple.throw (fun d hd => absurd hd (by simp))
  | some d =>
    refine (ih i d hl a b).mono (fun r hr d' hd' => ?_)
    cases Option.some.inj hd'
    exact hr

/-- Access to the outermost index of a target. -/
theorem outer_spec {I : Memo V → Prop} {t : Tgt} {Q : Except Err (Arr V) → Prop} {f : Tok × Tgt → M V (Arr V)}
    (hn : t = [] → Q (.error .indexError)) (hc : ∀ tok inner, t = tok :: inner → Triple I (f (tok, inner)) Q) :
    Triple I (outer t >>= f) Q := by
  cases t with
  | nil => exact Triple.bind (P := fun r => r = .error .indexError) (Triple.throw rfl) (fun a h => by simp at h) (fun e h => by
      cases h
      exact hn rfl)
  | cons tok inner =>
    exact Triple.bind (P := fun r => r = .ok (tok, inner)) (Triple.pure rfl) (fun a h => by
      cases h
      exact hc tok inner rfl) (fun e h => by simp at h)

theorem index_spec {I : Memo V → Prop} {tok : Tok} {Q : Except Err (Arr V) → Prop} {f : Nat → M V (Arr V)}
    (hn : (∀ i, tok ≠ .idx i) → Q (.error .typeError)) (hc : ∀ i, tok = .idx i → Triple I (f i) Q) :
    Triple I (index tok >>= f) Q := by
  cases tok with
  | idx i =>
    exact Triple.bind (P := fun r => r = .ok i) (Triple.pure rfl) (fun a h => by
      cases h
      exact hc i rfl) (fun e h => by simp at h)
  | left | right | qTarget | targetMount =>
    exact Triple.bind (P := fun r => r = .error .typeError) (Triple.throw rfl) (fun a h => by simp at h) (fun e h => by
      cases h
      exact hn (by simp))

theorem sys_between_spec {I : Memo V → Prop} {pos : List V} {l : List (Comp V)} {p : List Nat} (hw : WF (.sys pos l))
    (ih : ∀ i d, l[i]? = some d → ∀ a b, Triple I (between d (p ++ [i]) a b) (Post d a b)) (t1 t2 : Tgt) :
    Triple I (sys_between l (fun i a b => between_at l i (p ++ [i]) a b) t1 t2) (Post (.sys pos l) t1 t2) := by
  have hw2 : WFL l := hw.2
  have part := part_spec ih
  have hleaves : ∀ {i : Nat} {d : Comp V}, l[i]? = some d →
      leavesL l = leavesL (l.take i) ++ (leaves d ++ leavesL (l.drop (i + 1))) := by
    intro i d hd
    conv_lhs => rw [split_at hd]
    rw [leavesL_append, leavesL]
  unfold sys_between
  split
  · rename_i h1
    subst h1
    split
    · rename_i h2
      subst h2
      refine Triple.pure ?_
      intro L1 L2 h1 h2
      rw [h1] at h2
      cases Option.some.inj h2
      exact ⟨_, rfl, eye_ok, one_mul _⟩
    split
    · rename_i h2
      subst h2
      refine Triple.lift ?_
      intro L1 L2 h1 h2
      rw [TargetLeft, before_left] at h1
      rw [TargetRight, before_right] at h2
      cases Option.some.inj h1
      cases Option.some.inj h2
      obtain ⟨a, ha, hok, hm, _⟩ := matrices_ok hw2 eye_ok
      exact ⟨a, ha, hok, by rw [hm, eye_m, prod, leaves, mul_one, mul_one]⟩
    · rename_i h2 h3
      refine outer_spec (fun h => post_error (Or.inr (by subst h; exact before_sys h2 h3 (by simp)))) (fun tok inner h => ?_)
      refine index_spec (fun h' => post_error (Or.inr (by
        subst h
        exact before_sys h2 h3 (fun i inner' e => h' i (List.cons.inj e).1)))) (fun i h' => ?_)
      subst h h'
      obtain ⟨mat, hmat, hmok, hmm, _⟩ := matrices_ok (WFL_take i hw2) eye_ok
      refine Triple.bind (P := fun r => r = .ok mat) (Triple.lift hmat) (fun mat' h => ?_) (fun e h => by simp at h)
      cases h
      refine Triple.bind (part i TargetLeft inner) (fun m hm => Triple.pure ?_) (fun e he => ?_)
      · intro L1 L2 h1 h2
        rw [TargetLeft, before_left] at h1
        cases Option.some.inj h1
        obtain ⟨d, K, hd, hK, rfl⟩ := before_idx h2
        obtain ⟨a, ha, haok, ham⟩ := hm d hd [] K (before_left d) hK
        cases ha
        obtain ⟨h5, h6⟩ := Arr.mul_ok haok hmok
        refine ⟨_, rfl, h5, ?_⟩
        rw [h6, hmm, eye_m, prod_append, ← ham, prod]
        simp only [mul_one]
      · intro L1 L2 h1 h2
        obtain ⟨d, K, hd, hK, rfl⟩ := before_idx h2
        obtain ⟨a, ha, _⟩ := he d hd [] K (before_left d) hK
        exact absurd ha (by simp)
  split
  · rename_i h1
    subst h1
    split
    · rename_i h2
      subst h2
      refine Triple.lift ?_
      intro L1 L2 h1 h2
      rw [TargetRight, before_right] at h1
      rw [TargetLeft, before_left] at h2
      cases Option.some.inj h1
      cases Option.some.inj h2
      obtain ⟨a, ha, hok, hm, hx⟩ := matrices_ok hw2 eye_ok
      have hx := hx (Or.inl (ne_nil_of_leavesL hw.1))
      rw [eye_m, mul_one] at hm
      cases a with
      | nd a => exact hx.elim
      | mx a =>
        have hm : a = prod (leavesL l) := hm
        have hdet : a.det ≠ 0 := by
          rw [hm]
          exact det_prod (leaves_WF (.sys pos l) hw)
        obtain ⟨n, hn, _, hn2⟩ := inv_ok hdet
        refine ⟨.mx n, ?_, trivial, ?_⟩
        · rw [ha]
          show (do let m ← Mat.inv a; return Arr.mx m) = _
          rw [hn]
          rfl
        · rw [leaves, ← hm]
          exact hn2
    split
    · rename_i h2
      subst h2
      refine Triple.pure ?_
      intro L1 L2 h1 h2
      rw [h1] at h2
      cases Option.some.inj h2
      exact ⟨_, rfl, eye_ok, one_mul _⟩
    · rename_i h2 h3
      refine outer_spec (fun h => post_error (Or.inr (by subst h; exact before_sys h2 h3 (by simp)))) (fun tok inner h => ?_)
      refine index_spec (fun h' => post_error (Or.inr (by
        subst h
        exact before_sys h2 h3 (fun i inner' e => h' i (List.cons.inj e).1)))) (fun i h' => ?_)
      subst h h'
      obtain ⟨mat, n, hmat, hmok, hmm, hn⟩ := matrices_inv_ok (WFL_drop (i + 1) hw2) eye_ok
      refine Triple.bind (P := fun r => r = .ok mat) (Triple.lift hmat) (fun mat' h => ?_) (fun e h => by simp at h)
      cases h
      refine Triple.bind (part i TargetRight inner) (fun m hm => Triple.pure ?_) (fun e he => ?_)
      · intro L1 L2 h1 h2
        rw [TargetRight, before_right] at h1
        cases Option.some.inj h1
        obtain ⟨d, K, hd, hK, rfl⟩ := before_idx h2
        obtain ⟨a, ha, haok, ham⟩ := hm d hd _ K (before_right d) hK
        cases ha
        obtain ⟨h5, h6⟩ := Arr.mul_ok haok hmok
        refine ⟨_, rfl, h5, ?_⟩
        rw [h6, hmm, eye_m, leaves, hleaves hd, prod_append, prod_append, prod_append, ← ham, mul_one]
        calc m.m * n * (prod (leavesL (l.drop (i + 1))) * prod (leaves d) * prod (leavesL (l.take i)))
            = m.m * ((n * prod (leavesL (l.drop (i + 1)))) * (prod (leaves d) * prod (leavesL (l.take i)))) := by
              simp only [mul_assoc]
          _ = _ := by rw [hn.1, one_mul, mul_assoc]
      · intro L1 L2 h1 h2
        obtain ⟨d, K, hd, hK, rfl⟩ := before_idx h2
        obtain ⟨a, ha, _⟩ := he d hd _ K (before_right d) hK
        exact absurd ha (by simp)
  · rename_i hl hr
    refine outer_spec (fun h => post_error (Or.inl (by subst h; exact before_sys hl hr (by simp)))) (fun tok1 inner1 h => ?_)
    subst h
    split
    · rename_i h2
      subst h2
      refine index_spec (fun h' => post_error (Or.inl (before_sys hl hr (fun i inner' e => h' i (List.cons.inj e).1)))) (fun i h' => ?_)
      dsimp only at h'
      subst h'
      refine Triple.bind (part i inner1 TargetRight) (fun m hm => Triple.lift ?_) (fun e he => ?_)
      · intro L1 L2 h1 h2
        rw [TargetRight, before_right] at h2
        cases Option.some.inj h2
        obtain ⟨d, K, hd, hK, rfl⟩ := before_idx h1
        obtain ⟨a, ha, haok, ham⟩ := hm d hd K _ hK (before_right d)
        cases ha
        obtain ⟨b, hb, hbok, hbm, _⟩ := matrices_ok (WFL_drop (i + 1) hw2) haok
        refine ⟨b, hb, hbok, ?_⟩
        rw [hbm, leaves, hleaves hd, prod_append, prod_append, prod_append, ← ham]
        simp only [mul_assoc]
      · intro L1 L2 h1 h2
        obtain ⟨d, K, hd, hK, rfl⟩ := before_idx h1
        obtain ⟨a, ha, _⟩ := he d hd K _ hK (before_right d)
        exact absurd ha (by simp)
    split
    · rename_i h2
      subst h2
      refine index_spec (fun h' => post_error (Or.inl (before_sys hl hr (fun i inner' e => h' i (List.cons.inj e).1)))) (fun i h' => ?_)
      dsimp only at h'
      subst h'
      refine Triple.bind (part i inner1 TargetLeft) (fun m hm => Triple.lift ?_) (fun e he => ?_)
      · intro L1 L2 h1 h2
        rw [TargetLeft, before_left] at h2
        cases Option.some.inj h2
        obtain ⟨d, K, hd, hK, rfl⟩ := before_idx h1
        obtain ⟨a, ha, haok, ham⟩ := hm d hd K _ hK (before_left d)
        cases ha
        obtain ⟨b, n, hb, hbok, hbm, hn⟩ := matrices_inv_ok (WFL_take i hw2) haok
        refine ⟨b, hb, hbok, ?_⟩
        rw [hbm, prod_append, prod]
        calc n * m.m * (prod K * prod (leavesL (l.take i))) = n * ((m.m * prod K) * prod (leavesL (l.take i))) := by
              simp only [mul_assoc]
          _ = _ := by rw [ham, prod, one_mul, hn.1]
      · intro L1 L2 h1 h2
        obtain ⟨d, K, hd, hK, rfl⟩ := before_idx h1
        obtain ⟨a, ha, _⟩ := he d hd K _ hK (before_left d)
        exact absurd ha (by simp)
    · rename_i hr2 hl2
      refine outer_spec (fun h => post_error (Or.inr (by subst h; exact before_sys hl2 hr2 (by simp)))) (fun tok2 inner2 h => ?_)
      subst h
      refine index_spec (fun h' => post_error (Or.inl (before_sys hl hr (fun i inner' e => h' i (List.cons.inj e).1)))) (fun i h' => ?_)
      dsimp only at h'
      subst h'
      refine index_spec (fun h' => post_error (Or.inr (before_sys hl2 hr2 (fun i inner' e => h' i (List.cons.inj e).1)))) (fun j h' => ?_)
      dsimp only at h'
      subst h'
      split
      · rename_i hij
        subst hij
        refine (part j inner1 inner2).mono (fun r hr => ?_)
        intro L1 L2 h1 h2
        obtain ⟨d, K, hd, hK, rfl⟩ := before_idx h1
        obtain ⟨d', K', hd', hK', rfl⟩ := before_idx h2
        rw [hd] at hd'
        cases Option.some.inj hd'
        obtain ⟨a, ha, haok, ham⟩ := hr d hd K K' hK hK'
        exact ⟨a, ha, haok, by rw [prod_append, prod_append, ← mul_assoc, ham]⟩
      split
      · rename_i hne hij
        have hij : i < j := hij
        refine Triple.bind (part i inner1 TargetRight) (fun m hm => ?_) (fun e he => ?_)
        · refine Triple.bind (P := fun r => r = matrices ((l.take j).drop (i + 1)) m) (Triple.lift rfl) (fun mat hmat => ?_)
            (fun e he => ?_)
          · refine Triple.bind (part j TargetLeft inner2) (fun m2 hm2 => Triple.pure ?_) (fun e he => ?_)
            · intro L1 L2 h1 h2
              obtain ⟨d, K, hd, hK, rfl⟩ := before_idx h1
              obtain ⟨d', K', hd', hK', rfl⟩ := before_idx h2
              obtain ⟨a, ha, haok, ham⟩ := hm d hd K _ hK (before_right d)
              cases ha
              obtain ⟨b, hb, hbok, hbm, _⟩ := matrices_ok (WFL_drop (i + 1) (WFL_take j hw2)) haok
              rw [hb] at hmat
              cases hmat
              obtain ⟨c, hc, hcok, hcm⟩ := hm2 d' hd' [] K' (before_left d') hK'
              cases hc
              obtain ⟨h5, h6⟩ := Arr.mul_ok hcok hbok
              refine ⟨_, rfl, h5, ?_⟩
              have hd2 : (l.take j)[i]? = some d := by
                rw [List.getElem?_take, if_pos hij]
                exact hd
              have hs : leavesL (l.take j) = leavesL (l.take i) ++ (leaves d ++ leavesL ((l.take j).drop (i + 1))) := by
                conv_lhs => rw [split_at hd2]
                rw [leavesL_append, leavesL, List.take_take, Nat.min_eq_left (Nat.le_of_lt hij)]
              rw [h6, hbm, hs]
              simp only [prod_append]
              rw [← hcm, prod, mul_one, ← ham]
              simp only [mul_assoc]
            · intro L1 L2 h1 h2
              obtain ⟨d', K', hd', hK', rfl⟩ := before_idx h2
              obtain ⟨a, ha, _⟩ := he d' hd' [] K' (before_left d') hK'
              exact absurd ha (by simp)
          · intro L1 L2 h1 h2
            obtain ⟨d, K, hd, hK, rfl⟩ := before_idx h1
            obtain ⟨a, ha, haok, ham⟩ := hm d hd K _ hK (before_right d)
            cases ha
            obtain ⟨b, hb, _⟩ := matrices_ok (WFL_drop (i + 1) (WFL_take j hw2)) haok
            rw [hb] at he
            exact absurd he (by simp)
        · intro L1 L2 h1 h2
          obtain ⟨d, K, hd, hK, rfl⟩ := before_idx h1
          obtain ⟨a, ha, _⟩ := he d hd K _ hK (before_right d)
          exact absurd ha (by simp)
      · rename_i hne hnij
        have hij : j < i := by
          have hnij : ¬ i < j := hnij
          omega
        refine Triple.bind (part i inner1 TargetLeft) (fun m hm => ?_) (fun e he => ?_)
        · refine Triple.bind (P := fun r => r = matrices_inv ((l.take i).drop (j + 1)) m) (Triple.lift rfl) (fun mat hmat => ?_)
            (fun e he => ?_)
          · refine Triple.bind (part j TargetRight inner2) (fun m2 hm2 => Triple.pure ?_) (fun e he => ?_)
            · intro L1 L2 h1 h2
              obtain ⟨d, K, hd, hK, rfl⟩ := before_idx h1
              obtain ⟨d', K', hd', hK', rfl⟩ := before_idx h2
              obtain ⟨a, ha, haok, ham⟩ := hm d hd K _ hK (before_left d)
              cases ha
              obtain ⟨b, n, hb, hbok, hbm, hn⟩ := matrices_inv_ok (WFL_drop (j + 1) (WFL_take i hw2)) haok
              rw [hb] at hmat
              cases hmat
              obtain ⟨c, hc, hcok, hcm⟩ := hm2 d' hd' _ K' (before_right d') hK'
              cases hc
              obtain ⟨h5, h6⟩ := Arr.mul_ok hcok hbok
              refine ⟨_, rfl, h5, ?_⟩
              have hd2 : (l.take i)[j]? = some d' := by
                rw [List.getElem?_take, if_pos hij]
                exact hd'
              have hs : leavesL (l.take i) = leavesL (l.take j) ++ (leaves d' ++ leavesL ((l.take i).drop (j + 1))) := by
                conv_lhs => rw [split_at hd2]
                rw [leavesL_append, leavesL, List.take_take, Nat.min_eq_left (Nat.le_of_lt hij)]
              rw [h6, hbm, hs]
              simp only [prod_append]
              rw [← hcm]
              generalize prod (leavesL ((l.take i).drop (j + 1))) = X at hn
              calc m2.m * (n * m.m) * (prod K * (X * prod (leaves d') * prod (leavesL (l.take j))))
                  = m2.m * (n * ((m.m * prod K) * (X * (prod (leaves d') * prod (leavesL (l.take j)))))) := by
                    simp only [mul_assoc]
                _ = m2.m * ((n * X) * (prod (leaves d') * prod (leavesL (l.take j)))) := by
                    rw [ham, prod, one_mul, mul_assoc]
                _ = _ := by rw [hn.1, one_mul, mul_assoc]
            · intro L1 L2 h1 h2
              obtain ⟨d', K', hd', hK', rfl⟩ := before_idx h2
              obtain ⟨a, ha, _⟩ := he d' hd' _ K' (before_right d') hK'
              exact absurd ha (by simp)
          · intro L1 L2 h1 h2
            obtain ⟨d, K, hd, hK, rfl⟩ := before_idx h1
            obtain ⟨a, ha, haok, ham⟩ := hm d hd K _ hK (before_left d)
            cases ha
            obtain ⟨b, n, hb, _⟩ := matrices_inv_ok (WFL_drop (j + 1) (WFL_take i hw2)) haok
            rw [hb] at he
            exact absurd he (by simp)
        · intro L1 L2 h1 h2
          obtain ⟨d, K, hd, hK, rfl⟩ := before_idx h1
          obtain ⟨a, ha, _⟩ := he d hd K _ hK (before_left d)
          exact absurd ha (by simp)

/-- The call of the mounted layout, from a target that is no end. -/
theorem before_mount {s : Comp V} {tok : Tok} {inner : Tgt} {L : List (Leaf V)} (h1 : tok :: inner ≠ [.left])
    (h2 : tok :: inner ≠ [.right]) (h : before (.mount s) (tok :: inner) = some L) :
    tok ≠ .idx 0 ∧ before s inner = some L := by
  unfold before at h
  rw [if_neg h1, if_neg h2] at h
  split at h
  · rename_i e
    cases e
    exact ⟨by simp, h⟩
  · exact absurd h (by simp)

theorem before_mount_nil {s : Comp V} : before (.mount s) [] = none := by
  simp [before]

theorem mount_between_spec {I : Memo V → Prop} {s : Comp V} {p : List Nat} (hw : WF (.mount s))
    (ih : ∀ a b, Triple I (between s p a b) (Post s a b)) (t1 t2 : Tgt) :
    Triple I (mount_between (matrix (.mount s)) (matrix_inv (.mount s)) (fun a b => between s p a b) t1 t2)
      (Post (.mount s) t1 t2) := by
  obtain ⟨ma, hma, hmaok, hmam, _⟩ := matrix_spec (.mount s) hw
  obtain ⟨mi, hmi, hmiok, hmim⟩ := matrix_inv_spec (.mount s) hw
  have one_ok : (Arr.mx Mat.eye : Arr V).Ok := trivial
  have one_m : (Arr.mx Mat.eye : Arr V).m = 1 := rfl
  unfold mount_between
  split
  · rename_i h1
    subst h1
    split
    · rename_i h2
      subst h2
      refine Triple.pure ?_
      intro L1 L2 h1 h2
      rw [h1] at h2
      cases Option.some.inj h2
      exact ⟨_, rfl, eye_ok, one_mul _⟩
    split
    · rename_i h2
      subst h2
      refine Triple.lift ?_
      intro L1 L2 h1 h2
      rw [TargetLeft, before_left] at h1
      rw [TargetRight, before_right] at h2
      cases Option.some.inj h1
      cases Option.some.inj h2
      exact ⟨ma, hma, hmaok, by rw [hmam, prod, mul_one]⟩
    · rename_i h2 h3
      refine outer_spec (fun h => post_error (Or.inr (by subst h; exact before_mount_nil))) (fun tok inner h => ?_)
      subst h
      dsimp only
      split
      · refine Triple.bind (ih TargetLeft inner) (fun m hm => Triple.pure ?_) (fun e he => ?_)
        · intro L1 L2 h4 h5
          rw [TargetLeft, before_left] at h4
          cases Option.some.inj h4
          obtain ⟨a, ha, haok, ham⟩ := hm [] L2 (before_left s) (before_mount h2 h3 h5).2
          cases ha
          obtain ⟨h7, h8⟩ := Arr.mul_ok haok one_ok
          exact ⟨_, rfl, h7, by rw [h8, one_m, mul_one, ham]⟩
        · intro L1 L2 h4 h5
          obtain ⟨a, ha, _⟩ := he [] L2 (before_left s) (before_mount h2 h3 h5).2
          exact absurd ha (by simp)
      · rename_i h0
        refine Triple.pure ?_
        intro L1 L2 h4 h5
        exact absurd (before_mount h2 h3 h5).1 h0
  split
  · rename_i h1
    subst h1
    split
    · rename_i h2
      subst h2
      refine Triple.lift ?_
      intro L1 L2 h1 h2
      rw [TargetRight, before_right] at h1
      rw [TargetLeft, before_left] at h2
      cases Option.some.inj h1
      cases Option.some.inj h2
      exact ⟨mi, hmi, hmiok, hmim.1⟩
    split
    · rename_i h2
      subst h2
      refine Triple.pure ?_
      intro L1 L2 h1 h2
      rw [h1] at h2
      cases Option.some.inj h2
      exact ⟨_, rfl, eye_ok, one_mul _⟩
    · rename_i h2 h3
      refine outer_spec (fun h => post_error (Or.inr (by subst h; exact before_mount_nil))) (fun tok inner h => ?_)
      subst h
      dsimp only
      split
      · refine Triple.bind (ih TargetRight inner) (fun m hm => Triple.pure ?_) (fun e he => ?_)
        · intro L1 L2 h4 h5
          rw [TargetRight, before_right] at h4
          cases Option.some.inj h4
          obtain ⟨a, ha, haok, ham⟩ := hm _ L2 (before_right s) (before_mount h2 h3 h5).2
          cases ha
          obtain ⟨h7, h8⟩ := Arr.mul_ok haok one_ok
          exact ⟨_, rfl, h7, by rw [h8, one_m, mul_one, leaves, ham]⟩
        · intro L1 L2 h4 h5
          obtain ⟨a, ha, _⟩ := he _ L2 (before_right s) (before_mount h2 h3 h5).2
          exact absurd ha (by simp)
      · rename_i h0
        refine Triple.pure ?_
        intro L1 L2 h4 h5
        exact absurd (before_mount h2 h3 h5).1 h0
  · rename_i hl hr
    refine outer_spec (fun h => post_error (Or.inl (by subst h; exact before_mount_nil))) (fun tok1 inner1 h => ?_)
    subst h
    dsimp only
    split
    · split
      · rename_i h2
        subst h2
        refine Triple.bind (ih inner1 TargetLeft) (fun m hm => Triple.pure ?_) (fun e he => ?_)
        · intro L1 L2 h4 h5
          rw [TargetLeft, before_left] at h5
          cases Option.some.inj h5
          obtain ⟨a, ha, haok, ham⟩ := hm L1 [] (before_mount hl hr h4).2 (before_left s)
          cases ha
          obtain ⟨h7, h8⟩ := Arr.mul_ok one_ok haok
          exact ⟨_, rfl, h7, by rw [h8, one_m, one_mul, ham]⟩
        · intro L1 L2 h4 h5
          obtain ⟨a, ha, _⟩ := he L1 [] (before_mount hl hr h4).2 (before_left s)
          exact absurd ha (by simp)
      split
      · rename_i h2
        subst h2
        refine Triple.bind (ih inner1 TargetRight) (fun m hm => Triple.pure ?_) (fun e he => ?_)
        · intro L1 L2 h4 h5
          rw [TargetRight, before_right] at h5
          cases Option.some.inj h5
          obtain ⟨a, ha, haok, ham⟩ := hm L1 _ (before_mount hl hr h4).2 (before_right s)
          cases ha
          obtain ⟨h7, h8⟩ := Arr.mul_ok one_ok haok
          exact ⟨_, rfl, h7, by rw [h8, one_m, one_mul, ham, leaves]⟩
        · intro L1 L2 h4 h5
          obtain ⟨a, ha, _⟩ := he L1 _ (before_mount hl hr h4).2 (before_right s)
          exact absurd ha (by simp)
      · rename_i hl2 hr2
        refine outer_spec (fun h => post_error (Or.inr (by subst h; exact before_mount_nil))) (fun tok2 inner2 h => ?_)
        subst h
        refine (ih inner1 inner2).mono (fun r hr' => ?_)
        intro L1 L2 h4 h5
        exact hr' L1 L2 (before_mount hl hr h4).2 (before_mount hl2 hr2 h5).2
    · rename_i h0
      have hno : ∀ r, Post (.mount s) (tok1 :: inner1) t2 r := fun r L1 L2 h4 _ => absurd (before_mount hl hr h4).1 h0
      split
      · exact Triple.pure (hno _)
      split
      · exact Triple.pure (hno _)
      · exact Triple.throw (hno _)

/-- `matrix_between` from any right stored results: the answer is right, and what is stored then too. -/
theorem between_spec (root : Comp V) (c : Comp V) : ∀ p, sub root p = some c → WF c → ∀ t1 t2,
    Triple (Good root) (between c p t1 t2) (Post c t1 t2) := by
  induction c using Comp.ind with
  | thin t rev =>
    intro p _ hw t1 t2
    rw [between]
    split
    · rename_i ht
      subst ht
      have hone : ∀ (tgt : Tgt) (L : List (Leaf V)), before (.thin .target rev) tgt = some L → prod L = 1 := by
        intro tgt L h
        obtain ⟨R, hR⟩ := before_prefix _ _ _ h
        have : L = [] ∨ L = [.thin .target rev] := by
          rw [leaves] at hR
          cases L with
          | nil => exact Or.inl rfl
          | cons x L =>
            have hx := (List.cons.inj hR)
            have : L = [] := (List.append_eq_nil_iff.mp hx.2.symm).1
            rw [this, ← hx.1]
            exact Or.inr rfl
        rcases this with h | h
        · rw [h, prod]
        · rw [h, prod, prod, one_mul]
          rfl
      have hb : ∀ tgt : Tgt, ¬ (tgt = TargetLeft ∨ tgt = TargetRight ∨ tgt = [.qTarget]) →
          before (.thin .target rev : Comp V) tgt = none := by
        intro tgt h
        have h1 : tgt ≠ [.left] := fun e => h (Or.inl e)
        have h2 : tgt ≠ [.right] := fun e => h (Or.inr (Or.inl e))
        unfold before
        rw [if_neg h1, if_neg h2, if_neg (fun e => h (Or.inr (Or.inr e.2)))]
      unfold target_between
      split
      · split
        · refine Triple.pure ?_
          intro L1 L2 h1 h2
          exact ⟨_, rfl, eye_ok, by rw [eye_m, one_mul, hone _ _ h1, hone _ _ h2]⟩
        · rename_i h2
          exact Triple.throw (post_error (Or.inr (hb _ h2)))
      · rename_i h1
        exact Triple.throw (post_error (Or.inl (hb _ h1)))
    · rename_i ht
      obtain ⟨a, h1, h2, h3, _⟩ := matrix_spec (.thin t rev) hw
      refine base_between_spec ⟨a, h1, h2, h3⟩ (matrix_inv_spec (.thin t rev) hw) (fun tgt hl hr => ?_)
      unfold before
      rw [if_neg hl, if_neg hr, if_neg (fun e => ht e.1)]
  | space L n =>
    intro p _ hw t1 t2
    rw [between]
    obtain ⟨a, h1, h2, h3, _⟩ := matrix_spec (.space L n) hw
    refine base_between_spec ⟨a, h1, h2, h3⟩ (matrix_inv_spec (.space L n) hw) (fun tgt hl hr => ?_)
    unfold before
    rw [if_neg hl, if_neg hr]
  | sys pos l ih =>
    intro p hp hw t1 t2
    rw [between]
    refine memoize_spec hp (sys_between_spec hw (fun i d hd => ?_) t1 t2)
    refine ih d (List.mem_of_getElem? hd) (p ++ [i]) ?_ ((WFL_iff l).mp hw.2 d (List.mem_of_getElem? hd))
    rw [sub_append, hp]
    simp [sub, hd]
  | mount s ih =>
    intro p hp hw t1 t2
    rw [between]
    refine mount_between_spec hw (ih (p ++ [0]) ?_ hw) t1 t2
    rw [sub_append, hp]
    simp [sub]

end Comp
end Alm
