import Verif.Layout.Props
import Verif.Layout.Positions

/-!
# C49: a reversed layout is the mirror image
-/

set_option linter.unusedSectionVars false

namespace Alm
open Py

variable {V : Type} [Field V] [DecidableEq V]

/-- An element seen from the other side. -/
def Leaf.flip : Leaf V → Leaf V
  | .thin t rev => .thin t (!rev)
  | .space L n => .space L n

namespace Comp

mutual
/-- The mirror image of a layout. -/
def flip : Comp V → Comp V
  | .thin t rev => .thin t (!rev)
  | .space L n => .space L n
  | .sys _ filled => .sys (stack_positions 0 (flipL filled).reverse) (flipL filled).reverse
  | .mount sub => .mount (flip sub)

/-- The mirror images of a list of layouts. -/
def flipL : List (Comp V) → List (Comp V)
  | [] => []
  | c :: l => flip c :: flipL l
end

theorem flipL_eq (l : List (Comp V)) : flipL l = l.map flip := by
  induction l with
  | nil => rfl
  | cons c l ih => rw [flipL, ih, List.map_cons]

theorem leaves_flip (c : Comp V) : c.flip.leaves = (c.leaves.map Leaf.flip).reverse := by
  induction c using Comp.ind with
  | thin t rev => rfl
  | space L n => rfl
  | mount s ih => exact ih
  | sys pos l ih =>
    simp only [flip, leaves]
    induction l with
    | nil => rfl
    | cons c l ih' =>
      rw [flipL, List.reverse_cons, leavesL_append, ih' (fun d hd => ih d (List.mem_cons_of_mem _ hd))]
      simp only [leavesL, List.append_nil, ih c List.mem_cons_self, List.map_append, List.reverse_append]

theorem width_flip (c : Comp V) : c.AllTiled → c.flip.width = c.width := by
  induction c using Comp.ind with
  | thin t rev => exact fun _ => rfl
  | space L n => exact fun _ => rfl
  | mount s ih => exact ih
  | sys pos l ih =>
    rintro ⟨ht, hl⟩
    rw [C39_width ht, flip, C39_width (tiles_stack _), List.map_reverse, List.sum_reverse]
    clear ht
    induction l with
    | nil => rfl
    | cons c l ih' =>
      rw [flipL, List.map_cons, List.map_cons, List.sum_cons, List.sum_cons, ih c List.mem_cons_self hl.1,
        ih' (fun d hd => ih d (List.mem_cons_of_mem _ hd)) hl.2]

end Comp

section Fill

/-! ## The auto inserted spaces of the mirror image -/

variable {V : Type} [Field V] [LinearOrder V]

/-- The space after the last component. -/
def tail (n : V) (e : Option V) (last : Option V) : List (Comp V) :=
  match e, last with
  | some e, some p => [.space (e - p) n]
  | _, _ => []

theorem fill_loop_snoc (rev : Bool) (n : V) (prev : Option V) (l : List (V × Comp V)) (x : V × Comp V) :
    (fill_loop rev n prev (l ++ [x])).2.1 =
      (fill_loop rev n prev l).2.1 ++ tail n (some (place rev x)) (fill_loop rev n prev l).2.2 ++ [x.2] ∧
    (fill_loop rev n prev (l ++ [x])).2.2 = some (place rev x + x.2.width) := by
  induction l generalizing prev with
  | nil =>
    obtain ⟨loc, c⟩ := x
    cases prev <;> exact ⟨rfl, rfl⟩
  | cons y l ih =>
    obtain ⟨loc, c⟩ := y
    obtain ⟨h1, h2⟩ := ih (some ((if ¬ rev then loc else -c.width - loc) + c.width))
    cases prev with
    | none =>
      refine ⟨?_, by simpa only [List.cons_append, fill_loop] using h2⟩
      simp only [List.cons_append, fill_loop, h1]
    | some p =>
      refine ⟨?_, by simpa only [List.cons_append, fill_loop] using h2⟩
      simp only [List.cons_append, fill_loop, h1]

/-- The list of a reversed system is the mirror image of the list of the system. -/
theorem fill_mirror (n : V) (items : List (V × Comp V)) (hne : items ≠ []) (hw : ∀ x ∈ items, x.2.flip.width = x.2.width)
    (prev br : Option V) :
    (fill_loop true n (br.map (fun x => -x)) (items.map (fun x => (x.1, x.2.flip))).reverse).2.1 ++
      tail n (prev.map (fun x => -x)) (fill_loop true n (br.map (fun x => -x)) (items.map (fun x => (x.1, x.2.flip))).reverse).2.2 =
    (((fill_loop false n prev items).2.1 ++ tail n br (fill_loop false n prev items).2.2).map Comp.flip).reverse := by
  induction items generalizing prev with
  | nil => exact absurd rfl hne
  | cons x l ih =>
    obtain ⟨ℓ, c⟩ := x
    have hc : c.flip.width = c.width := hw (ℓ, c) List.mem_cons_self
    rw [List.map_cons, List.reverse_cons]
    obtain ⟨h1, h2⟩ := fill_loop_snoc true n (br.map (fun x => -x)) (l.map (fun x => (x.1, x.2.flip))).reverse (ℓ, c.flip)
    rw [h1, h2]
    have e1 : place true (ℓ, c.flip) = -(ℓ + c.width) := by
      simp only [place, hc, not_true, if_false]
      ring
    have e2 : place true (ℓ, c.flip) + c.flip.width = -ℓ := by
      rw [e1, hc]
      ring
    have hpre : tail n (prev.map (fun x => -x)) (some (place true (ℓ, c.flip) + c.flip.width)) =
        (match prev with | none => [] | some p => [Comp.space (ℓ - p) n]) := by
      rw [e2]
      cases prev with
      | none => rfl
      | some p =>
        simp only [tail, Option.map_some]
        congr 2
        ring
    -- the rest
    have hrest : (fill_loop true n (br.map (fun x => -x)) (l.map (fun x => (x.1, x.2.flip))).reverse).2.1 ++
        tail n (some (place true (ℓ, c.flip))) (fill_loop true n (br.map (fun x => -x)) (l.map (fun x => (x.1, x.2.flip))).reverse).2.2 =
        (((fill_loop false n (some (ℓ + c.width)) l).2.1 ++ tail n br (fill_loop false n (some (ℓ + c.width)) l).2.2).map
          Comp.flip).reverse := by
      cases l with
      | nil =>
        cases br with
        | none => rfl
        | some b =>
          simp only [List.map_nil, List.reverse_nil, Option.map_some, fill_loop, tail, List.nil_append, List.map_cons, Comp.flip,
            List.reverse_singleton, e1]
          congr 2
          ring
      | cons y l =>
        have := ih (by simp) (fun x hx => hw x (List.mem_cons_of_mem _ hx)) (some (ℓ + c.width))
        rw [Option.map_some] at this
        rw [e1]
        exact this
    rw [hrest, hpre]
    cases prev with
    | none =>
      simp [fill_loop]
    | some p =>
      simp [fill_loop, Comp.flip]

theorem loc_insert_map (f : Comp V → Comp V) (a : V × Comp V) (l m : List (V × Comp V)) (h : loc_insert a l = .ok m) :
    loc_insert (a.1, f a.2) (l.map (fun x => (x.1, f x.2))) = .ok (m.map (fun x => (x.1, f x.2))) := by
  induction l generalizing m with
  | nil =>
    cases h
    rfl
  | cons b l ih =>
    rw [List.map_cons, loc_insert, loc_lt]
    rw [loc_insert, loc_lt] at h
    dsimp only
    split at h
    · rename_i h1
      rw [if_pos h1]
      cases h
      rfl
    rename_i h1
    rw [if_neg h1]
    split at h
    · rename_i h2
      rw [if_pos h2]
      cases hl : loc_insert a l with
      | error e =>
        rw [hl] at h
        cases h
      | ok k =>
        rw [hl] at h
        cases h
        show (do let l ← loc_insert _ _; Except.ok (_ :: l)) = _
        rw [ih k hl]
        rfl
    · cases h

theorem loc_sort_map (f : Comp V → Comp V) (l m : List (V × Comp V)) (h : loc_sort l = .ok m) :
    loc_sort (l.map (fun x => (x.1, f x.2))) = .ok (m.map (fun x => (x.1, f x.2))) := by
  induction l generalizing m with
  | nil =>
    cases h
    rfl
  | cons a l ih =>
    rw [loc_sort] at h
    cases hl : loc_sort l with
    | error e =>
      rw [hl] at h
      cases h
    | ok k =>
      rw [hl] at h
      rw [List.map_cons, loc_sort, ih k hl]
      exact loc_insert_map f a k m h

theorem lslice_map (b : V) (l : List (V × Comp V)) (hw : ∀ x ∈ l, x.2.flip.width = x.2.width) (k : Nat) :
    lslice b (l.map (fun x => (x.1, x.2.flip))) k = lslice b l k := by
  induction l generalizing k with
  | nil => rfl
  | cons x l ih =>
    obtain ⟨ℓ, c⟩ := x
    have hc : c.flip.width = c.width := hw (ℓ, c) List.mem_cons_self
    rw [List.map_cons, lslice, lslice, hc, ih (fun x hx => hw x (List.mem_cons_of_mem _ hx))]

theorem rslice_map (b : V) (l : List (V × Comp V)) (hw : ∀ x ∈ l, x.2.flip.width = x.2.width) :
    rslice b (l.map (fun x => (x.1, x.2.flip))) = rslice b l := by
  induction l with
  | nil => rfl
  | cons x l ih =>
    obtain ⟨ℓ, c⟩ := x
    have hc : c.flip.width = c.width := hw (ℓ, c) List.mem_cons_self
    rw [List.map_cons, rslice, rslice, hc, ih (fun x hx => hw x (List.mem_cons_of_mem _ hx)), List.length_map]

theorem fill_end_filled {n : V} {b : Bool} {e : Option V} {pos P : List V} {filled F : List (Comp V)} {last : Option V}
    (h : fill_end n b e pos filled last = .ok (P, F)) : F = filled ++ tail n e last := by
  cases e with
  | none =>
    cases h
    simp [tail]
  | some e =>
    unfold fill_end at h
    dsimp only at h
    split at h
    · cases h
    · cases last with
      | none => cases h
      | some p =>
        cases h
        rfl

/-- The list of a system. -/
theorem sys_pairings_filled {rev : Bool} {n : V} {bl br : Option V} {comps : List (V × Comp V)} {pos : List V} {filled : List (Comp V)}
    {l r : Nat} (hl : sys_lslice bl comps = .ok l) (hr : sys_rslice br comps = .ok r)
    (h : sys_pairings rev n bl br comps = .ok (pos, filled)) :
    ∃ items, items = (if rev then ((comps.take r).drop l).reverse else (comps.take r).drop l) ∧
      (items = [] → filled = []) ∧
      (items ≠ [] → filled = (fill_loop rev n (if rev then br.map (fun x => -x) else bl) items).2.1 ++
        tail n (if rev then bl.map (fun x => -x) else br) (fill_loop rev n (if rev then br.map (fun x => -x) else bl) items).2.2) := by
  unfold sys_pairings at h
  simp only [hl, hr, except_bind_ok'] at h
  generalize hit : (if ¬ rev = true then (comps.take r).drop l else ((comps.take r).drop l).reverse) = items at h
  refine ⟨items, ?_, ?_, ?_⟩
  · rw [← hit]
    cases rev <;> rfl
  · rintro rfl
    generalize hle : (if rev = true then bl.map (fun x => -x) else br) = e at h
    cases hf : fill_end n comps.isEmpty e [] [] none with
    | error x =>
      simp only [fill_loop, List.isEmpty_nil, if_true, hf] at h
      cases h
    | ok res =>
      simp only [fill_loop, List.isEmpty_nil, if_true, hf, except_bind_ok'] at h
      cases h
      have := fill_end_filled (P := res.1) (F := res.2) hf
      rw [this]
      cases e <;> rfl
  · intro hne
    have he : items.isEmpty = false := by
      cases items with
      | nil => exact absurd rfl hne
      | cons _ _ => rfl
    simp only [he, Bool.false_eq_true, if_false] at h
    cases hf : fill_end n comps.isEmpty (if rev = true then bl.map (fun x => -x) else br)
        (fill_loop rev n (if rev = true then br.map (fun x => -x) else bl) items).1
        (fill_loop rev n (if rev = true then br.map (fun x => -x) else bl) items).2.1
        (fill_loop rev n (if rev = true then br.map (fun x => -x) else bl) items).2.2 with
    | error x =>
      simp only [hf] at h
      cases h
    | ok res =>
      simp only [hf, except_bind_ok'] at h
      cases h
      exact fill_end_filled (P := res.1) (F := res.2) hf

theorem sys_pairings_mirror {n : V} {bl br : Option V} {comps : List (V × Comp V)} {pos pos' : List V} {filled filled' : List (Comp V)}
    (hs : comps.Pairwise (fun x y => x.1 < y.1)) (hw : ∀ x ∈ comps, x.2.flip.width = x.2.width)
    (h : sys_pairings false n bl br comps = .ok (pos, filled))
    (h' : sys_pairings true n bl br (comps.map (fun x => (x.1, x.2.flip))) = .ok (pos', filled')) :
    Comp.sys pos' filled' = (Comp.sys pos filled).flip := by
  obtain ⟨l, hl⟩ : ∃ l, sys_lslice bl comps = .ok l := by
    unfold sys_pairings at h
    cases hl : sys_lslice bl comps with
    | error e =>
      simp only [hl] at h
      cases h
    | ok l => exact ⟨l, rfl⟩
  obtain ⟨r, hr⟩ : ∃ r, sys_rslice br comps = .ok r := by
    unfold sys_pairings at h
    cases hr : sys_rslice br comps with
    | error e =>
      simp only [hl, hr, except_bind_ok'] at h
      cases h
    | ok l => exact ⟨l, rfl⟩
  have hl' : sys_lslice bl (comps.map (fun x => (x.1, x.2.flip))) = .ok l := by
    rw [← hl]
    cases bl with
    | none => rfl
    | some b => exact lslice_map b comps hw 0
  have hr' : sys_rslice br (comps.map (fun x => (x.1, x.2.flip))) = .ok r := by
    rw [← hr]
    cases br with
    | none => simp [sys_rslice]
    | some b =>
      simp only [sys_rslice]
      rw [← List.map_reverse]
      exact rslice_map b comps.reverse (fun x hx => hw x (List.mem_reverse.mp hx))
  have hs' : (comps.map (fun x => (x.1, x.2.flip))).Pairwise (fun x y => x.1 < y.1) := by
    rw [List.pairwise_map]
    exact hs
  obtain ⟨items, hi, h1, h2⟩ := sys_pairings_filled hl hr h
  obtain ⟨items', hi', h1', h2'⟩ := sys_pairings_filled hl' hr' h'
  simp only [Bool.false_eq_true, if_false] at hi h2
  simp only [if_true] at hi' h2'
  have hii : items' = (items.map (fun x => (x.1, x.2.flip))).reverse := by
    rw [hi', hi, List.map_drop, List.map_take]
  have hfil : filled' = (filled.map Comp.flip).reverse := by
    by_cases hne : items = []
    · rw [h1 hne, h1' (by rw [hii, hne]; rfl)]
      rfl
    · rw [h2 hne, h2' (by rw [hii]; simpa using hne), hii]
      refine fill_mirror n items hne (fun x hx => hw x ?_) bl br
      rw [hi] at hx
      exact List.mem_of_mem_take (List.mem_of_mem_drop hx)
  have hp := (sys_pairings_spec hs' h').1.eq
  rw [Comp.flip, Comp.flipL_eq, hp, hfil]

theorem resolve_located_mirror {n : V} {l : List (El V)} (ih : ∀ e ∈ l, ∀ c c', resolve n false e = .ok c →
    resolve n true e = .ok c' → c' = c.flip) {items items' : List (V × Comp V)} (h : resolve_located n false l = .ok items)
    (h' : resolve_located n true l = .ok items') : items' = items.map (fun x => (x.1, x.2.flip)) := by
  induction l generalizing items items' with
  | nil =>
    cases h
    cases h'
    rfl
  | cons e l IH =>
    have IH' := fun {items items'} h h' => IH (fun e he => ih e (List.mem_cons_of_mem _ he)) (items := items) (items' := items') h h'
    cases hl : e.loc with
    | none => exact IH' (resolve_located_none hl h) (resolve_located_none hl h')
    | some ℓ =>
      obtain ⟨c, cs, hc, hcs, rfl⟩ := resolve_located_some hl h
      obtain ⟨c', cs', hc', hcs', rfl⟩ := resolve_located_some hl h'
      rw [IH' hcs hcs', ih e List.mem_cons_self c c' hc hc', List.map_cons]

theorem resolve_stack_mirror {n : V} {l : List (El V)} (ih : ∀ e ∈ l, ∀ c c', resolve n false e = .ok c →
    resolve n true e = .ok c' → c' = c.flip) {cs cs' : List (Comp V)}
    (h : List.Forall₂ (fun e c => resolve n false e = .ok c) l cs) (h' : List.Forall₂ (fun e c => resolve n true e = .ok c) l cs') :
    cs' = cs.map Comp.flip := by
  induction h generalizing cs' with
  | nil =>
    cases h'
    rfl
  | cons he _ IH =>
    cases h' with
    | cons he' h' =>
      rw [List.map_cons, ← ih _ List.mem_cons_self _ _ he he', IH (fun e he => ih e (List.mem_cons_of_mem _ he)) h']

theorem flip_flip (c : Comp V) : c.AllTiled → c.flip.flip = c := by
  induction c using Comp.ind with
  | thin t rev =>
    intro _
    simp [Comp.flip]
  | space L n => exact fun _ => rfl
  | mount s ih =>
    intro h
    simp only [Comp.flip]
    rw [ih h]
  | sys pos l ih =>
    rintro ⟨ht, hl⟩
    have : (l.map Comp.flip).map Comp.flip = l := by
      rw [List.map_map]
      conv_rhs => rw [← List.map_id l]
      exact List.map_congr_left (fun c hc => ih c hc ((Comp.AllTiledL_iff _).mp hl c hc))
    simp only [Comp.flip, Comp.flipL_eq, List.map_reverse, List.reverse_reverse, this]
    rw [ht.eq]

/-- Two systems resolved in opposite directions. -/
theorem sys_mirror {n : V} {s : Bool} {bl br : Option V} {comps : List (El V)} {loc loc' : Option V} {rev rev' p p' : Bool}
    (ih : ∀ e ∈ comps, ∀ c c', resolve n false e = .ok c → resolve n true e = .ok c' → c' = c.flip)
    (hp : env_reversed p rev = false) (hp' : env_reversed p' rev' = true) {c c' : Comp V}
    (h : resolve n p (.sys s bl br comps loc rev) = .ok c) (h' : resolve n p' (.sys s bl br comps loc' rev') = .ok c') :
    c' = c.flip := by
  cases s with
  | true =>
    obtain ⟨pos, filled, rfl, ht, _, hf⟩ := C39_stack h
    obtain ⟨pos', filled', rfl, ht', _, hf'⟩ := C39_stack h'
    rw [hp] at hf
    rw [hp'] at hf'
    have := resolve_stack_mirror ih hf hf'
    simp only [if_true, Bool.false_eq_true, if_false] at this
    rw [Comp.flip, ht'.eq, Comp.flipL_eq, ← this, List.reverse_reverse]
  | false =>
    obtain ⟨items, sorted, pos, filled, h1, h2, h3, rfl⟩ := resolve_sys h
    obtain ⟨items', sorted', pos', filled', h1', h2', h3', rfl⟩ := resolve_sys h'
    rw [hp] at h1 h3
    rw [hp'] at h1' h3'
    have hi := resolve_located_mirror ih h1 h1'
    rw [hi, loc_sort_map Comp.flip items sorted h2] at h2'
    cases h2'
    obtain ⟨hperm, hs⟩ := loc_sort_spec h2
    refine sys_pairings_mirror hs (fun x hx => ?_) h3 h3'
    obtain ⟨e, _, _, hr⟩ := (resolve_located_spec h1).2 x (hperm.subset hx)
    exact Comp.width_flip x.2 (C39_tiles n e _ _ hr)

theorem resolve_mirror (n : V) (e : El V) : ∀ c c', resolve n false e = .ok c → resolve n true e = .ok c' → c' = c.flip := by
  refine El.ind (P := fun e => ∀ c c', resolve n false e = .ok c → resolve n true e = .ok c' → c' = c.flip) ?_ ?_ ?_ ?_ e
  · intro t loc rev c c' h h'
    rw [resolve] at h h'
    cases h
    cases h'
    cases rev <;> rfl
  · intro L n' loc rev c c' h h'
    rw [resolve] at h h'
    cases h
    cases h'
    rfl
  · intro s bl br comps loc rev ih c c' h h'
    cases rev with
    | false => exact sys_mirror ih rfl rfl h h'
    | true =>
      rw [sys_mirror ih rfl rfl h' h, flip_flip c' (C39_tiles n _ _ _ h')]
  · intro sub rev ih c c' h h'
    rw [resolve] at h h'
    cases h1 : resolve n (env_reversed false rev) sub with
    | error x =>
      simp only [h1] at h
      cases h
    | ok d =>
      cases h2 : resolve n (env_reversed true rev) sub with
      | error x =>
        simp only [h2] at h'
        cases h'
      | ok d' =>
        simp only [h1, except_bind_ok'] at h
        simp only [h2, except_bind_ok'] at h'
        cases h
        cases h'
        cases rev with
        | false => rw [Comp.flip, ih d d' h1 h2]
        | true => rw [Comp.flip, ih d' d h2 h1, flip_flip d' (C39_tiles n _ _ _ h2)]

/-- The layout with the `reversed` flag of its outermost element toggled. -/
def El.toggle : El V → El V
  | .thin t loc rev => .thin t loc (!rev)
  | .space L n loc rev => .space L n loc (!rev)
  | .sys s bl br comps loc rev => .sys s bl br comps loc (!rev)
  | .mount sub rev => .mount sub (!rev)

theorem resolve_toggle (n : V) (parent : Bool) (e : El V) : resolve n parent e.toggle = resolve n (!parent) e := by
  have hx : ∀ rev, env_reversed parent (!rev) = env_reversed (!parent) rev := by
    intro rev
    cases parent <;> cases rev <;> rfl
  cases e with
  | thin t loc rev => rw [El.toggle, resolve, resolve, hx]
  | space L n' loc rev => rw [El.toggle, resolve, resolve]
  | sys s bl br comps loc rev => cases s <;> rw [El.toggle, resolve, resolve, hx]
  | mount sub rev => rw [El.toggle, resolve, resolve, hx]

/-- C49: reversing a layout reverses the order of its elements and turns each of them around.  (If both layouts exist, see
`C49_edge_refuted`.) -/
theorem C49_elements {n : V} {parent : Bool} {e : El V} {c c' : Comp V} (h : resolve n parent e = .ok c)
    (h' : resolve n parent e.toggle = .ok c') : c'.leaves = (c.leaves.map Leaf.flip).reverse ∧ c'.width = c.width := by
  rw [resolve_toggle] at h'
  have hc : c' = c.flip := by
    cases parent with
    | false => exact resolve_mirror n e c c' h h'
    | true => rw [resolve_mirror n e c' c h' h, flip_flip c' (C39_tiles n _ _ _ h')]
  rw [hc]
  exact ⟨Comp.leaves_flip c, Comp.width_flip c (C39_tiles n _ _ _ h)⟩

end Fill

/-! ## The matrix of the mirror image -/

/-- The matrix that turns a ray around. -/
def Mat.J : Mat V := ⟨1, 0, 0, -1⟩

theorem J_J : (Mat.J : Mat V) * Mat.J = 1 := by
  show Mat.mul _ _ = Mat.eye
  simp [Mat.mul, Mat.J, Mat.eye]

/-- A general element looks the same from both sides: `A = D`. -/
def Leaf.Sym : Leaf V → Prop
  | .thin (.abcd A B C) _ => A = (1 + B * C) / A
  | _ => True

theorem flip_abcd {x : Leaf V} (hw : x.WF) (hs : x.Sym) : Mat.J * x.flip.abcd * Mat.J * x.abcd = 1 := by
  show Mat.mul (Mat.mul (Mat.mul _ _) _) _ = Mat.eye
  cases x with
  | space L n => simp [Leaf.flip, Leaf.abcd, Mat.J, Mat.mul, Mat.eye]
  | thin t rev =>
    cases t with
    | nop => simp [Leaf.flip, Leaf.abcd, Mat.J, Mat.mul, Mat.eye]
    | target => simp [Leaf.flip, Leaf.abcd, Mat.J, Mat.mul, Mat.eye]
    | lens f => simp [Leaf.flip, Leaf.abcd, Mat.J, Mat.mul, Mat.eye]
    | mirror R => simp [Leaf.flip, Leaf.abcd, Mat.J, Mat.mul, Mat.eye]
    | abcd A B C =>
      have hA : A ≠ 0 := hw
      have hD : A = (1 + B * C) / A := hs
      have h2 : A * A = 1 + B * C := (eq_div_iff hA).mp hD
      simp only [Leaf.flip, Leaf.abcd, Mat.J, Mat.mul, Mat.eye, ← hD]
      congr 1 <;> first | linear_combination h2 | ring
    | interface n n' R =>
      obtain ⟨h1, h2, _⟩ : n ≠ 0 ∧ n' ≠ 0 ∧ R ≠ some 0 := by cases rev <;> exact hw
      cases rev with
      | false =>
        simp only [Leaf.flip, Leaf.abcd, Mat.J, Mat.mul, Mat.eye, Bool.not_false]
        congr 1 <;> field_simp <;> ring
      | true =>
        simp only [Leaf.flip, Leaf.abcd, Mat.J, Mat.mul, Mat.eye, Bool.not_true]
        congr 1 <;> field_simp <;> ring

theorem prod_flip {l : List (Leaf V)} (hw : ∀ x ∈ l, x.WF) (hs : ∀ x ∈ l, x.Sym) :
    Mat.J * prod (l.map Leaf.flip).reverse * Mat.J * prod l = 1 := by
  induction l with
  | nil => simp [prod, J_J]
  | cons x l ih =>
    have h1 := ih (fun y hy => hw y (List.mem_cons_of_mem _ hy)) (fun y hy => hs y (List.mem_cons_of_mem _ hy))
    have h2 := flip_abcd (hw x List.mem_cons_self) (hs x List.mem_cons_self)
    rw [List.map_cons, List.reverse_cons, prod_append]
    simp only [prod, one_mul]
    calc Mat.J * (x.flip.abcd * prod (l.map Leaf.flip).reverse) * Mat.J * (prod l * x.abcd)
        = Mat.J * x.flip.abcd * (Mat.J * Mat.J) * (prod (l.map Leaf.flip).reverse * Mat.J * prod l * x.abcd) := by
          rw [J_J]
          simp only [mul_assoc, one_mul]
      _ = Mat.J * x.flip.abcd * Mat.J * (Mat.J * prod (l.map Leaf.flip).reverse * Mat.J * prod l) * x.abcd := by
          simp only [mul_assoc]
      _ = 1 := by rw [h1, mul_one, h2]

theorem WF_flip (x : Leaf V) (h : x.WF) : x.flip.WF := by
  cases x with
  | space L n => exact h
  | thin t rev => cases t <;> exact h

theorem Comp.WF_flip (c : Comp V) : c.WF → c.flip.WF := by
  induction c using Comp.ind with
  | thin t rev => exact Alm.WF_flip (.thin t rev)
  | space L n => exact id
  | mount s ih => exact ih
  | sys pos l ih =>
    rintro ⟨hne, hl⟩
    have h := Comp.leaves_flip (.sys pos l)
    simp only [Comp.flip, Comp.leaves] at h
    refine ⟨?_, (Comp.WFL_iff _).mpr ?_⟩
    · rw [h]
      simpa using hne
    · intro c hc
      rw [List.mem_reverse, Comp.flipL_eq] at hc
      obtain ⟨d, hd, rfl⟩ := List.mem_map.mp hc
      exact ih d hd ((Comp.WFL_iff _).mp hl d hd)

/-- The ray `(x, θ)` behind a matrix. -/
def ray (m : Mat V) (x θ : V) : V × V := (m.a * x + m.b * θ, m.c * x + m.d * θ)

section
variable {V : Type} [Field V] [LinearOrder V]

/-- C49: a ray that leaves the layout and is sent back into the reversed layout comes out as it went in, turned around; the matrix of
the reversed layout is that of the layout with `A` and `D` exchanged, over its determinant.  (Partial: for general elements with
`A = D`, see `C49_abcd_refuted`, when the reversed layout exists, see `C49_edge_refuted`, and for the layouts of C38.) -/
theorem C49_retrace_partial {n : V} {parent : Bool} {e : El V} {c c' : Comp V} (h : resolve n parent e = .ok c)
    (h' : resolve n parent e.toggle = .ok c') (hw : c.WF) (hs : ∀ x ∈ c.leaves, x.Sym) :
    ∃ a a' : Arr V, c.matrix = .ok a ∧ c'.matrix = .ok a' ∧
      (∀ x θ, ray a'.m (ray a.m x θ).1 (-(ray a.m x θ).2) = (x, -θ)) ∧
      a'.m.a * a.m.det = a.m.d ∧ a'.m.b * a.m.det = a.m.b ∧ a'.m.c * a.m.det = a.m.c ∧ a'.m.d * a.m.det = a.m.a := by
  have hc : c' = c.flip := by
    rw [resolve_toggle] at h'
    cases parent with
    | false => exact resolve_mirror n e c c' h h'
    | true => rw [resolve_mirror n e c' c h' h, flip_flip c' (C39_tiles n _ _ _ h')]
  obtain ⟨a, ha, _, ham, _⟩ := Comp.matrix_spec c hw
  obtain ⟨a', ha', _, ham', _⟩ := Comp.matrix_spec c' (by rw [hc]; exact Comp.WF_flip c hw)
  refine ⟨a, a', ha, ha', ?_⟩
  have hp := prod_flip (Comp.leaves_WF c hw) hs
  rw [← Comp.leaves_flip, ← hc, ← ham, ← ham'] at hp
  generalize a.m = m at hp
  generalize a'.m = m' at hp
  have hd : m'.det * m.det = 1 := by
    have := congrArg Mat.det hp
    rw [det_mul, det_mul, det_mul, det_one] at this
    have hJ : (Mat.J : Mat V).det = -1 := by simp [Mat.det, Mat.J]
    rw [hJ] at this
    linear_combination this
  change Mat.mul (Mat.mul (Mat.mul Mat.J m') Mat.J) m = Mat.eye at hp
  simp only [Mat.mul, Mat.J, Mat.eye, Mat.mk.injEq] at hp
  obtain ⟨e1, e2, e3, e4⟩ := hp
  simp only [Mat.det] at hd ⊢
  have s1 : m'.a * m.a - m'.b * m.c = 1 := by linear_combination e1
  have s2 : m'.a * m.b - m'.b * m.d = 0 := by linear_combination e2
  have s3 : m'.d * m.c - m'.c * m.a = 0 := by linear_combination e3
  have s4 : m'.d * m.d - m'.c * m.b = 1 := by linear_combination e4
  refine ⟨?_, ?_, ?_, ?_, ?_⟩
  · intro x θ
    simp only [ray, Prod.mk.injEq]
    constructor
    · linear_combination x * s1 + θ * s2
    · linear_combination -x * s3 - θ * s4
  · linear_combination m.d * s1 - m.c * s2
  · linear_combination m.b * s1 - m.a * s2
  · linear_combination m.c * s4 - m.d * s3
  · linear_combination m.a * s4 - m.b * s3
end

/-! ## Examples -/

/-- A thick lens, a space and a mirror, reversed within a system. -/
def bench : El ℚ :=
  .sys true none none [
    .sys true none none [.thin (.interface 1 (3 / 2) (some 2)) none false, .space 1 (3 / 2) none false,
      .thin (.interface (3 / 2) 1 none) none false] none true,
    .space 2 1 none false, .thin (.mirror (some 4)) none false, .thin (.abcd 2 3 1) none false] none false

example : ∃ c c', resolve 1 false bench = .ok c ∧ resolve 1 false bench.toggle = .ok c' ∧ c.WF ∧ (∀ x ∈ c.leaves, x.Sym) := by
  refine ⟨.sys [0, 1, 3, 3, 3] [
      .sys [0, 0, 1, 1] [.thin (.interface (3 / 2) 1 none) true, .space 1 (3 / 2), .thin (.interface 1 (3 / 2) (some 2)) true],
      .space 2 1, .thin (.mirror (some 4)) false, .thin (.abcd 2 3 1) false],
    .sys [0, 0, 0, 2, 3] [.thin (.abcd 2 3 1) true, .thin (.mirror (some 4)) true, .space 2 1,
      .sys [0, 0, 1, 1] [.thin (.interface 1 (3 / 2) (some 2)) false, .space 1 (3 / 2), .thin (.interface (3 / 2) 1 none) false]],
    by with_unfolding_all rfl, by with_unfolding_all rfl, ?_, ?_⟩
  · simp [Comp.WF, Comp.WFL, Comp.leavesL, Comp.leaves, Leaf.WF]
  · intro x hx
    simp only [Comp.leavesL, Comp.leaves, List.append_nil, List.cons_append, List.nil_append, List.mem_cons, List.not_mem_nil,
      or_false] at hx
    rcases hx with rfl | rfl | rfl | rfl | rfl | rfl <;> first | exact trivial | skip
    norm_num [Leaf.Sym]

/-- C49 refuted for general elements: `ABCDGeneric` has the same matrix in both directions, so that a ray does not come back. -/
theorem C49_abcd_refuted : ∃ c c' : Comp ℚ, resolve 1 false (.thin (.abcd 2 1 1) none false) = .ok c ∧
    resolve 1 false (El.toggle (.thin (.abcd 2 1 1) none false)) = .ok c' ∧ c.matrix = .ok (.mx ⟨2, 1, 1, 1⟩) ∧
    c'.matrix = .ok (.mx ⟨2, 1, 1, 1⟩) ∧ ray (⟨2, 1, 1, 1⟩ : Mat ℚ) (ray (⟨2, 1, 1, 1⟩ : Mat ℚ) 1 0).1
      (-(ray (⟨2, 1, 1, 1⟩ : Mat ℚ) 1 0).2) ≠ (1, 0) :=
  ⟨.thin (.abcd 2 1 1) false, .thin (.abcd 2 1 1) true, rfl, rfl, by decide +kernel, by decide +kernel, by decide +kernel⟩

/-- C49 refuted for a system all of whose components are cut off by the left boundary: it has positions, but when reversed it raises. -/
theorem C49_edge_refuted :
    resolve (1 : ℚ) false (.sys false (some 5) none [.thin .nop (some 1) false] none false) = .ok (.sys [0] []) ∧
    resolve (1 : ℚ) false (.sys false (some 5) none [.thin .nop (some 1) false] none true) = .error .typeError := by
  constructor <;> with_unfolding_all rfl

end Alm
