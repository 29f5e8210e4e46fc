import Verif.Layout.Path

/-!
# Stored results do not change any answer
-/

set_option linter.unusedSectionVars false

namespace Alm
open Py

variable {V : Type} [Field V] [DecidableEq V]

namespace Comp

/-- From stored results satisfying `I` the computation `x` keeps `I` and gives the outcome of `y`, which does not look at them. -/
def Sim {α : Type} (I : Memo V → Prop) (x y : M V α) : Prop :=
  ∃ r, (∀ s, y.run.run s = (r, s)) ∧ ∀ s, I s → I (x.run.run s).2 ∧ (x.run.run s).1 = r

variable {I : Memo V → Prop} {α β : Type}

theorem Sim.pure (a : α) : Sim I (pure a : M V α) (pure a) := ⟨.ok a, fun _ => rfl, fun _ hs => ⟨hs, rfl⟩⟩

theorem Sim.throw (e : Err) : Sim I (throw e : M V α) (throw e) := ⟨.error e, fun _ => rfl, fun _ hs => ⟨hs, rfl⟩⟩

theorem Sim.lift (x : Except Err (Arr V)) : Sim I (base_between.liftExcept x) (base_between.liftExcept x) :=
  ⟨x, fun _ => rfl, fun _ hs => ⟨hs, rfl⟩⟩

theorem Sim.bind {x y : M V α} {f g : α → M V β} (hx : Sim I x y) (hf : ∀ a, Sim I (f a) (g a)) : Sim I (x >>= f) (y >>= g) := by
  obtain ⟨r, h1, h2⟩ := hx
  cases r with
  | error e =>
    refine ⟨.error e, fun s => ?_, fun s hs => ?_⟩
    · rw [run_bind, h1]
    · obtain ⟨h3, h4⟩ := h2 s hs
      rw [run_bind, h4]
      exact ⟨h3, rfl⟩
  | ok a =>
    obtain ⟨r, h5, h6⟩ := hf a
    refine ⟨r, fun s => ?_, fun s hs => ?_⟩
    · rw [run_bind, h1]
      exact h5 s
    · obtain ⟨h3, h4⟩ := h2 s hs
      rw [run_bind, h4]
      exact h6 _ h3

theorem Sim.ite {p : Prop} [Decidable p] {x y x' y' : M V α} (h : p → Sim I x y) (h' : ¬ p → Sim I x' y') :
    Sim I (if p then x else x') (if p then y else y') := by
  by_cases hp : p
  · rw [if_pos hp, if_pos hp]
    exact h hp
  · rw [if_neg hp, if_neg hp]
    exact h' hp

theorem Sim.outer (t : Tgt) : Sim I (outer t : M V (Tok × Tgt)) (outer t) := by
  cases t
  · exact Sim.throw _
  · exact Sim.pure _

theorem Sim.index (t : Tok) : Sim I (index t : M V Nat) (index t) := by
  cases t with
  | idx i => exact Sim.pure i
  | left | right | qTarget | targetMount => exact Sim.throw _

theorem Sim.base (m i : Except Err (Arr V)) (t1 t2 : Tgt) : Sim I (base_between m i t1 t2) (base_between m i t1 t2) := by
  unfold base_between
  refine Sim.ite (fun _ => Sim.ite (fun _ => Sim.pure _) (fun _ => Sim.ite (fun _ => Sim.lift _) (fun _ => Sim.throw _))) (fun _ => ?_)
  exact Sim.ite (fun _ => Sim.ite (fun _ => Sim.lift _) (fun _ => Sim.ite (fun _ => Sim.pure _) (fun _ => Sim.throw _)))
    (fun _ => Sim.throw _)

theorem Sim.target (t1 t2 : Tgt) : Sim I (target_between t1 t2 : M V (Arr V)) (target_between t1 t2) := by
  unfold target_between
  exact Sim.ite (fun _ => Sim.ite (fun _ => Sim.pure _) (fun _ => Sim.throw _)) (fun _ => Sim.throw _)

theorem Sim.mount {m i : Except Err (Arr V)} {f g : Tgt → Tgt → M V (Arr V)} (h : ∀ a b, Sim I (f a b) (g a b)) (t1 t2 : Tgt) :
    Sim I (mount_between m i f t1 t2) (mount_between m i g t1 t2) := by
  unfold mount_between
  refine Sim.ite (fun _ => ?_) (fun _ => ?_)
  · refine Sim.ite (fun _ => Sim.pure _) (fun _ => Sim.ite (fun _ => Sim.lift _) (fun _ => ?_))
    exact Sim.bind (Sim.outer _) (fun o => Sim.ite (fun _ => Sim.bind (h _ _) (fun _ => Sim.pure _)) (fun _ => Sim.pure _))
  refine Sim.ite (fun _ => ?_) (fun _ => ?_)
  · refine Sim.ite (fun _ => Sim.lift _) (fun _ => Sim.ite (fun _ => Sim.pure _) (fun _ => ?_))
    exact Sim.bind (Sim.outer _) (fun o => Sim.ite (fun _ => Sim.bind (h _ _) (fun _ => Sim.pure _)) (fun _ => Sim.pure _))
  refine Sim.bind (Sim.outer _) (fun o => Sim.ite (fun _ => ?_) (fun _ => ?_))
  · refine Sim.ite (fun _ => Sim.bind (h _ _) (fun _ => Sim.pure _)) (fun _ => ?_)
    refine Sim.ite (fun _ => Sim.bind (h _ _) (fun _ => Sim.pure _)) (fun _ => ?_)
    exact Sim.bind (Sim.outer _) (fun o => Sim.ite (fun _ => h _ _) (fun _ => Sim.throw _))
  · exact Sim.ite (fun _ => Sim.pure _) (fun _ => Sim.ite (fun _ => Sim.pure _) (fun _ => Sim.throw _))

theorem Sim.sys {l : List (Comp V)} {f g : Nat → Tgt → Tgt → M V (Arr V)} (h : ∀ i a b, Sim I (f i a b) (g i a b)) (t1 t2 : Tgt) :
    Sim I (sys_between l f t1 t2) (sys_between l g t1 t2) := by
  unfold sys_between
  refine Sim.ite (fun _ => ?_) (fun _ => ?_)
  · refine Sim.ite (fun _ => Sim.pure _) (fun _ => Sim.ite (fun _ => Sim.lift _) (fun _ => ?_))
    exact Sim.bind (Sim.outer _) (fun o => Sim.bind (Sim.index _) (fun i => Sim.bind (Sim.lift _) (fun mat =>
      Sim.bind (h _ _ _) (fun m => Sim.pure _))))
  refine Sim.ite (fun _ => ?_) (fun _ => ?_)
  · refine Sim.ite (fun _ => Sim.lift _) (fun _ => Sim.ite (fun _ => Sim.pure _) (fun _ => ?_))
    exact Sim.bind (Sim.outer _) (fun o => Sim.bind (Sim.index _) (fun i => Sim.bind (Sim.lift _) (fun mat =>
      Sim.bind (h _ _ _) (fun m => Sim.pure _))))
  refine Sim.bind (Sim.outer _) (fun o1 => Sim.ite (fun _ => ?_) (fun _ => Sim.ite (fun _ => ?_) (fun _ => ?_)))
  · exact Sim.bind (Sim.index _) (fun i => Sim.bind (h _ _ _) (fun m => Sim.lift _))
  · exact Sim.bind (Sim.index _) (fun i => Sim.bind (h _ _ _) (fun m => Sim.lift _))
  refine Sim.bind (Sim.outer _) (fun o2 => Sim.bind (Sim.index _) (fun i1 => Sim.bind (Sim.index _) (fun i2 => ?_)))
  refine Sim.ite (fun _ => h _ _ _) (fun _ => Sim.ite (fun _ => ?_) (fun _ => ?_))
  · exact Sim.bind (h _ _ _) (fun m => Sim.bind (Sim.lift _) (fun mat => Sim.bind (h _ _ _) (fun m2 => Sim.pure _)))
  · exact Sim.bind (h _ _ _) (fun m => Sim.bind (Sim.lift _) (fun mat => Sim.bind (h _ _ _) (fun m2 => Sim.pure _)))

mutual
/-- `matrix_between` without any stored results. -/
def fresh : Comp V → Tgt → Tgt → M V (Arr V)
  | .thin t rev, tidx1, tidx2 =>
    if t = .target then target_between tidx1 tidx2
    else base_between (matrix (.thin t rev)) (matrix_inv (.thin t rev)) tidx1 tidx2
  | .space L n, tidx1, tidx2 => base_between (matrix (.space L n)) (matrix_inv (.space L n)) tidx1 tidx2
  | .sys _ filled, tidx1, tidx2 => sys_between filled (fun i a b => fresh_at filled i a b) tidx1 tidx2
  | .mount sub, tidx1, tidx2 =>
    mount_between (matrix (.mount sub)) (matrix_inv (.mount sub)) (fun a b => fresh sub a b) tidx1 tidx2

/-- `comps[i].matrix_between` without any stored results. -/
def fresh_at : List (Comp V) → Nat → Tgt → Tgt → M V (Arr V)
  | [], _, _, _ => throw .indexError
  | comp :: _, 0, tidx1, tidx2 => fresh comp tidx1 tidx2
  | _ :: comps, i + 1, tidx1, tidx2 => fresh_at comps i tidx1 tidx2
end

theorem fresh_at_eq (l : List (Comp V)) (i : Nat) (a b : Tgt) :
    fresh_at l i a b = (match l[i]? with
      | some c => fresh c a b
      | none => throw .indexError) := by
  induction l generalizing i with
  | nil => rw [fresh_at]; rfl
  | cons c l ih =>
    cases i with
    | zero => rw [fresh_at]; rfl
    | succ i =>
      rw [fresh_at, ih]
      rfl

/-- What is stored are the answers without stored results. -/
def Same (root : Comp V) (memo : Memo V) : Prop :=
  ∀ p c t1 t2 a, sub root p = some c → Dict.get? memo (p, t1, t2) = some a → ∀ s, (fresh c t1 t2).run.run s = (.ok a, s)

theorem Sim.memoize {root c : Comp V} {p : List Nat} (hp : sub root p = some c) {t1 t2 : Tgt} {x : M V (Arr V)}
    (hx : Sim (Same root) x (fresh c t1 t2)) : Sim (Same root) (memoize p t1 t2 x) (fresh c t1 t2) := by
  obtain ⟨r, h1, h2⟩ := hx
  refine ⟨r, h1, fun s hs => ?_⟩
  unfold Comp.memoize
  rw [run_bind]
  show Same root (((match Dict.get? s (p, t1, t2) with
      | some result => Pure.pure result
      | none => x >>= fun mat => (modify fun memo => Dict.set memo (p, t1, t2) mat) >>= fun _ => Pure.pure mat :
        M V (Arr V)).run.run s).2) ∧
    (((match Dict.get? s (p, t1, t2) with
      | some result => Pure.pure result
      | none => x >>= fun mat => (modify fun memo => Dict.set memo (p, t1, t2) mat) >>= fun _ => Pure.pure mat :
        M V (Arr V)).run.run s).1) = r
  cases hg : Dict.get? s (p, t1, t2) with
  | some a =>
    refine ⟨hs, ?_⟩
    have := hs p c t1 t2 a hp hg s
    rw [h1] at this
    exact (congrArg Prod.fst this).symm
  | none =>
    obtain ⟨h3, h4⟩ := h2 s hs
    dsimp only
    rw [run_bind]
    generalize hr : x.run.run s = o at h3 h4
    obtain ⟨o, s'⟩ := o
    dsimp only at h4
    subst h4
    cases o with
    | error e => exact ⟨h3, rfl⟩
    | ok a =>
      refine ⟨?_, rfl⟩
      show Same root (Dict.set s' (p, t1, t2) a)
      intro p' c' t1' t2' a' hp' hg'
      rw [Dict.get?_set] at hg'
      split at hg'
      · rename_i heq
        simp only [Prod.mk.injEq] at heq
        obtain ⟨rfl, rfl, rfl⟩ := heq
        rw [hp] at hp'
        cases Option.some.inj hp'
        cases Option.some.inj hg'
        exact h1
      · exact h3 p' c' t1' t2' a' hp' hg'

theorem between_same (root : Comp V) (c : Comp V) : ∀ p, sub root p = some c → ∀ t1 t2,
    Sim (Same root) (between c p t1 t2) (fresh c t1 t2) := by
  induction c using Comp.ind with
  | thin t rev =>
    intro p _ t1 t2
    rw [between, fresh]
    exact Sim.ite (fun _ => Sim.target _ _) (fun _ => Sim.base _ _ _ _)
  | space L n =>
    intro p _ t1 t2
    rw [between, fresh]
    exact Sim.base _ _ _ _
  | sys pos l ih =>
    intro p hp t1 t2
    have key : Sim (Same root) (sys_between l (fun i a b => between_at l i (p ++ [i]) a b) t1 t2) (fresh (.sys pos l) t1 t2) := by
      rw [fresh]
      refine Sim.sys (fun i a b => ?_) t1 t2
      rw [between_at_eq, fresh_at_eq]
      cases hd : l[i]? with
      | none => exact Sim.throw _
      | some d =>
        refine ih d (List.mem_of_getElem? hd) (p ++ [i]) ?_ a b
        rw [sub_append, hp]
        simp [sub, hd]
    rw [between]
    exact Sim.memoize hp key
  | mount s ih =>
    intro p hp t1 t2
    rw [between, fresh]
    refine Sim.mount (fun a b => ih (p ++ [0]) ?_ a b) t1 t2
    rw [sub_append, hp]
    simp [sub]

end Comp
end Alm
