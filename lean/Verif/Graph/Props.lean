import Verif.Graph.Finish
import Verif.Graph.Ops
import Mathlib.Algebra.Field.Rat

set_option linter.unusedSectionVars false

/-!
# Theorems about the graph solver (C11 to C17)

`hpick` says only that `set.pop()` takes an element of the set.  `lt`, `size` and the list orders are
arbitrary, which covers every elimination order.
-/

namespace Graph
open Py
variable {N : Type} {V : Type} [DecidableEq N] [Field V] [DecidableEq V] [Fintype N]

/-! ## C11 -/

/-- **C11**: one reduction fails exactly when the self gain is 1.  Otherwise the reduced graph has no edge at
the node, every solution stays a solution of the remaining equations, and every solution of the remaining
equations has exactly one extension to the node.  `T` is the set of nodes whose equations hold (nodes outside
`T` are free, such as sources). -/
theorem C11_elim {st : St N V} (hb : Balanced st.g)
    (hl : ∀ a b, (Dict.get? st.g.em (a, b)).isSome → b ∈ st.g.succ a) (n : N) :
    (W st.g n n = 1 → elim st n = .error .zeroDivision) ∧
    (W st.g n n ≠ 1 → ∃ st', elim st n = .ok st' ∧ Balanced st'.g ∧
      (∀ a, n ∉ st'.g.succ a ∧ a ∉ st'.g.succ n) ∧
      ∀ T : Set N, n ∈ T →
        (∀ x, Sol (W st.g) T x → Sol (W st'.g) (T \ {n}) x) ∧
        (∀ x, Sol (W st'.g) (T \ {n}) x → ∃! y, Sol (W st.g) T (Function.update x n y))) := by
  have hI : Inv (fun _ => True) st.g := ⟨hb, fun a b _ _ h => hl a b h, fun _ _ _ => ⟨trivial, trivial⟩⟩
  rcases elim_spec (n := n) hI trivial with ⟨h0, he⟩ | ⟨h0, st', he, hI', hW, hs, -⟩
  · have : W st.g n n = 1 := (sub_eq_zero.1 h0).symm
    exact ⟨fun _ => he, fun h => absurd this h⟩
  · refine ⟨fun h => absurd (by rw [h, sub_self]) h0, fun _ => ⟨st', he, hI'.bal, ?_, ?_⟩⟩
    · intro a
      rw [hs, hs]
      exact ⟨fun h => h.2.1 rfl, fun h => h.1 rfl⟩
    · intro T hT
      have hW' : W st'.g = elimW (W st.g) n := by funext a b; exact hW a b
      rw [hW']
      refine ⟨fun x hx => elim_forward h0 hT hx, fun x hx => ⟨backValue (W st.g) n x, elim_back h0 hx, ?_⟩⟩
      intro y hy
      have := elim_unique h0 hT hy
      rw [Function.update_self] at this
      rw [this]
      unfold backValue
      congr 1
      apply Finset.sum_congr rfl
      intro r _
      by_cases hr : r = n
      · simp [hr]
      · simp [hr]

/-! ## The shape of a finished run -/

theorem run_core {o : Opts N V} (hpick : ∀ l, l ≠ [] → o.pick l ∈ l) {outs ins : List N}
    {src : Option (Dict N V)} {g : G N V} (hv : Valid g) (hsrc : ∀ m, src = some m → Dict.WF m)
    {r : Option (Dict N V)} {em : Dict (N × N) V} (h : inverse_solve o outs ins src g = .ok (r, em)) :
    ∃ g2 g3 L om, Prepared (dressed o.negative outs ins src g) g2 ins outs ∧ Simplified g2 L Bnd (W g3) ∧
      r = src.map (fun _ => om) ∧ (∀ t, (Dict.get? om t).isSome → t ∈ outs) ∧
      (∀ t ∈ outs, (Dict.get? om t).getD 0 = W g3 .vac (.out t)) ∧
      (∀ i t, (Dict.get? em (i, t)).isSome → i ∈ ins) ∧
      (∀ i ∈ ins, ∀ t, (Dict.get? em (i, t)).getD 0 = W g3 (.inp i) (.out t)) := by
  obtain ⟨g2, hP, hc⟩ := solve_cases hpick (outs := outs) (ins := ins) hv hsrc
  rcases hc with hc | ⟨g3, L, hS, hval, -, hc⟩
  · rw [hc] at h; cases h
  · rw [hc] at h
    cases hu : unwrapEdges g3 ins [] with
    | error e => rw [hu] at h; cases h
    | ok e =>
      rw [hu] at h
      have h' : (Option.map (fun _ => unwrapOutputs outs g3) src, e) = (r, em) := by
        simpa [Except.map] using h
      obtain ⟨h1, h2⟩ := Prod.mk.inj h'
      subst h2
      have hsp := unwrapEdges_spec g3 ins [] e hu
      refine ⟨g2, g3, L, unwrapOutputs outs g3, hP, hS, h1.symm, ?_, ?_, ?_, ?_⟩
      · intro t ht
        rw [unwrapOutputs_get] at ht
        by_contra hn
        rw [if_neg hn] at ht
        cases ht
      · intro t ht
        rw [unwrapOutputs_get, if_pos ht]
        exact hval .vac (Or.inl rfl) t
      · intro i t ht
        rw [hsp] at ht
        by_contra hn
        rw [if_neg (fun hh => hn hh.1)] at ht
        cases ht
      · intro i hi t
        rw [hsp]
        by_cases hb : WN.out t ∈ g3.succ (.inp i)
        · rw [if_pos ⟨hi, hb⟩]
          exact hval _ (Or.inr ⟨i, rfl⟩) t
        · rw [if_neg (fun hh => hb hh.2)]
          unfold W
          rw [if_neg hb]
          rfl

/-- A full solution of an invertible system is at rest where nothing drives it. -/
theorem solves_of_full {g : G N V} (hinv : IsUnit (1 - mat g)) {S outs : List N} {s x : N → V}
    (hs : ∀ n, n ∉ S → s n = 0) (hx : ∀ n, x n = (∑ r, gain g r n * x r) + s n) : Solves g S outs s x := by
  have hgain : ∀ r n, ¬ Driven g S n → Driven g S r → gain g r n = 0 := by
    intro r n hn hr
    by_contra h0
    apply hn
    obtain ⟨a, ha, har⟩ := hr
    refine ⟨a, ha, har.tail ?_⟩
    unfold Edge
    unfold gain at h0
    cases hh : Dict.get? g.em (r, n) with
    | none => rw [hh] at h0; exact absurd rfl h0
    | some v => rfl
  have hs' : ∀ n, ¬ Driven g S n → s n = 0 := fun n hn => hs n (fun h => hn ⟨n, h, .refl⟩)
  refine ⟨?_, fun n _ _ => hx n⟩
  have hmv : ∀ (f : N → V) (n : N), (mat g).mulVecLin f n = ∑ r, gain g r n * f r := by
    intro f n; rfl
  apply supp_of_injective (mat g).mulVecLin
  · intro f hf
    have h1 : (1 - mat g).mulVec f = 0 := by
      rw [Matrix.sub_mulVec, Matrix.one_mulVec]
      exact sub_eq_zero.2 hf
    have h2 : (1 - mat g)⁻¹.mulVec ((1 - mat g).mulVec f) = f := by
      rw [Matrix.mulVec_mulVec, Matrix.nonsing_inv_mul _ ((Matrix.isUnit_iff_isUnit_det _).1 hinv), Matrix.one_mulVec]
    rw [← h2, h1, Matrix.mulVec_zero]
  · intro f hf n hn
    rw [hmv]
    apply Finset.sum_eq_zero
    intro r _
    by_cases hr : Driven g S r
    · rw [hgain r n hn hr, zero_mul]
    · rw [hf r hr, mul_zero]
  · intro n hn
    rw [hmv, hx n, hs' n hn, add_zero]

/-- The solution of an invertible system. -/
theorem full_solution {g : G N V} (hinv : IsUnit (1 - mat g)) (s : N → V) (n : N) :
    ((1 - mat g)⁻¹.mulVec s) n = (∑ r, gain g r n * ((1 - mat g)⁻¹.mulVec s) r) + s n := by
  have h : (1 - mat g).mulVec ((1 - mat g)⁻¹.mulVec s) = s := by
    rw [Matrix.mulVec_mulVec, Matrix.mul_nonsing_inv _ ((Matrix.isUnit_iff_isUnit_det _).1 hinv), Matrix.one_mulVec]
  rw [Matrix.sub_mulVec, Matrix.one_mulVec] at h
  have h2 := congrFun h n
  rw [Pi.sub_apply] at h2
  have h3 : ((mat g).mulVec ((1 - mat g)⁻¹.mulVec s)) n = ∑ r, gain g r n * ((1 - mat g)⁻¹.mulVec s) r := rfl
  rw [← h3]
  linear_combination h2

/-! ## C12 -/

/-- **C12**: when a run finishes, a solution exists (undriven nodes at rest), every solution has the returned
values (times the sign of `negative`; 0 where absent) at the requested outputs, solutions agree on every node
that matters, and only requested nodes are returned. -/
theorem C12_solution {o : Opts N V} (hpick : ∀ l, l ≠ [] → o.pick l ∈ l) {outs ins : List N}
    {m : Dict N V} {g : G N V} (hv : Valid g) (hm : Dict.WF m) {om : Dict N V} {em : Dict (N × N) V}
    (h : inverse_solve o outs ins (some m) g = .ok (some om, em)) :
    (∃ x, Solves g (Dict.keys m ++ ins) outs (srcVec m) x) ∧
    (∀ x, Solves g (Dict.keys m ++ ins) outs (srcVec m) x →
      ∀ t ∈ outs, (Dict.get? om t).getD 0 = sgn o.negative * x t) ∧
    (∀ x x', Solves g (Dict.keys m ++ ins) outs (srcVec m) x → Solves g (Dict.keys m ++ ins) outs (srcVec m) x' →
      ∀ n, Seen g outs n → x n = x' n) ∧
    (∀ t, (Dict.get? om t).isSome → t ∈ outs) := by
  have hsrc : ∀ m', some m = some m' → Dict.WF m' := by rintro m' ⟨⟩; exact hm
  obtain ⟨g2, g3, L, om', hP, hS, hr, hk, ho, -, -⟩ := run_core hpick hv hsrc h
  cases hr
  obtain ⟨t1, t2, t3⟩ := transfer hv hsrc hP hS 1 (fun _ => 0)
  have e : (fun n => srcVal (some m) n * (1 : V) + if n ∈ ins then (0 : V) else 0) = srcVec m := by
    funext n; simp [srcVal, srcVec]
  simp only [e] at t1 t2 t3
  refine ⟨t1, ?_, t3, hk⟩
  intro x hx t ht
  rw [ho t ht, t2 x hx t ht]
  simp

/-- **C12** for an invertible system: the returned values are those of `(1 - M)⁻¹ source`. -/
theorem C12_inverse {o : Opts N V} (hpick : ∀ l, l ≠ [] → o.pick l ∈ l) {outs ins : List N}
    {m : Dict N V} {g : G N V} (hv : Valid g) (hm : Dict.WF m) (hinv : IsUnit (1 - mat g)) {om : Dict N V}
    {em : Dict (N × N) V} (h : inverse_solve o outs ins (some m) g = .ok (some om, em)) :
    ∀ t ∈ outs, (Dict.get? om t).getD 0 = sgn o.negative * ((1 - mat g)⁻¹.mulVec (srcVec m)) t := by
  refine (C12_solution hpick hv hm h).2.1 _ (solves_of_full hinv ?_ (full_solution hinv _))
  intro n hn
  have : Dict.get? m n = none := by
    cases hh : Dict.get? m n with
    | none => rfl
    | some v =>
      exact absurd (List.mem_append_left _ ((Dict.mem_keys_iff m n).2 (by rw [hh]; rfl))) hn
  unfold srcVec
  rw [this]
  rfl

/-- A division by zero is the only way the solver with both purges (the defaults) can fail. -/
theorem C12_only_failure {o : Opts N V} (hpick : ∀ l, l ≠ [] → o.pick l ∈ l) (hin : o.purge_in = true)
    (hout : o.purge_out = true) {outs ins : List N} {src : Option (Dict N V)} {g : G N V} (hv : Valid g)
    (hsrc : ∀ m, src = some m → Dict.WF m) :
    inverse_solve o outs ins src g = .error .zeroDivision ∨ ∃ r, inverse_solve o outs ins src g = .ok r := by
  obtain ⟨g2, -, hc⟩ := solve_cases hpick (outs := outs) (ins := ins) hv hsrc
  rcases hc with hc | ⟨g3, L, -, -, hok, hc⟩
  · exact Or.inl hc
  · obtain ⟨e, he⟩ := hok hin hout
    exact Or.inr ⟨_, by rw [hc, he]; rfl⟩

/-! ## C13 -/

/-- **C13**: the returned edge from input `i` to output `t` is the response at `t` to a unit source at `i`
with no other source (undriven nodes at rest), times the sign of `negative`. -/
theorem C13_transfer {o : Opts N V} (hpick : ∀ l, l ≠ [] → o.pick l ∈ l) {outs ins : List N}
    {src : Option (Dict N V)} {g : G N V} (hv : Valid g) (hsrc : ∀ m, src = some m → Dict.WF m)
    {r : Option (Dict N V)} {em : Dict (N × N) V} (h : inverse_solve o outs ins src g = .ok (r, em))
    {i : N} (hi : i ∈ ins) :
    (∃ x, Solves g (srcKeys src ++ ins) outs (Pi.single i 1) x) ∧
    ∀ x, Solves g (srcKeys src ++ ins) outs (Pi.single i 1) x →
      ∀ t ∈ outs, (Dict.get? em (i, t)).getD 0 = sgn o.negative * x t := by
  obtain ⟨g2, g3, L, om, hP, hS, -, -, -, -, he⟩ := run_core hpick hv hsrc h
  obtain ⟨t1, t2, -⟩ := transfer hv hsrc hP hS 0 (Pi.single i 1)
  have e : (fun n => srcVal src n * (0 : V) + if n ∈ ins then (Pi.single i 1 : N → V) n else 0) = Pi.single i 1 := by
    funext n
    rw [mul_zero, zero_add]
    by_cases hn : n = i
    · subst hn; rw [if_pos hi]
    · rw [Pi.single_eq_of_ne hn]; simp
  simp only [e] at t1 t2
  refine ⟨t1, ?_⟩
  intro x hx t ht
  rw [he i hi, t2 x hx t ht, Finset.sum_eq_single i]
  · simp [hi]
  · intro b _ hb
    rw [Pi.single_eq_of_ne hb]; simp
  · intro hh; exact absurd (Finset.mem_univ i) hh

/-- **C13** for an invertible system: the returned edges are a block of `(1 - M)⁻¹`. -/
theorem C13_inverse {o : Opts N V} (hpick : ∀ l, l ≠ [] → o.pick l ∈ l) {outs ins : List N}
    {src : Option (Dict N V)} {g : G N V} (hv : Valid g) (hsrc : ∀ m, src = some m → Dict.WF m)
    (hinv : IsUnit (1 - mat g))
    {r : Option (Dict N V)} {em : Dict (N × N) V} (h : inverse_solve o outs ins src g = .ok (r, em))
    {i : N} (hi : i ∈ ins) {t : N} (ht : t ∈ outs) :
    (Dict.get? em (i, t)).getD 0 = sgn o.negative * (1 - mat g)⁻¹ t i := by
  have := (C13_transfer hpick hv hsrc h hi).2 _ (solves_of_full hinv ?_ (full_solution hinv _)) t ht
  · rw [this, Matrix.mulVec_single_one]
    rfl
  · intro n hn
    have : n ≠ i := fun hh => hn (hh ▸ List.mem_append_right _ hi)
    exact Pi.single_eq_of_ne this _

/-! ## C14, C15 -/

/-- **C14**: two finished runs that differ in the queue order, in the elements `set.pop` takes and in
the cost measure return the same outputs and edges. -/
theorem C14_order {o o' : Opts N V} (hpick : ∀ l, l ≠ [] → o.pick l ∈ l) (hpick' : ∀ l, l ≠ [] → o'.pick l ∈ l)
    (hneg : o.negative = o'.negative) {outs ins : List N} {m : Dict N V} {g : G N V}
    (hv : Valid g) (hm : Dict.WF m) {om om' : Dict N V} {em em' : Dict (N × N) V}
    (h : inverse_solve o outs ins (some m) g = .ok (some om, em))
    (h' : inverse_solve o' outs ins (some m) g = .ok (some om', em')) :
    (∀ t, (Dict.get? om t).getD 0 = (Dict.get? om' t).getD 0) ∧
    (∀ i ∈ ins, ∀ t ∈ outs, (Dict.get? em (i, t)).getD 0 = (Dict.get? em' (i, t)).getD 0) := by
  have hsrc : ∀ m', some m = some m' → Dict.WF m' := by rintro m' ⟨⟩; exact hm
  constructor
  · intro t
    obtain ⟨⟨x, hx⟩, h2, -, hk⟩ := C12_solution hpick hv hm h
    obtain ⟨-, h2', -, hk'⟩ := C12_solution hpick' hv hm h'
    by_cases ht : t ∈ outs
    · rw [h2 x hx t ht, h2' x hx t ht, hneg]
    · have e1 : Dict.get? om t = none := by
        cases hh : Dict.get? om t with
        | none => rfl
        | some v => exact absurd (hk t (by rw [hh]; rfl)) ht
      have e2 : Dict.get? om' t = none := by
        cases hh : Dict.get? om' t with
        | none => rfl
        | some v => exact absurd (hk' t (by rw [hh]; rfl)) ht
      rw [e1, e2]
  · intro i hi t ht
    obtain ⟨⟨x, hx⟩, h2⟩ := C13_transfer hpick hv hsrc h hi
    obtain ⟨-, h2'⟩ := C13_transfer hpick' hv hsrc h' hi
    rw [h2 x hx t ht, h2' x hx t ht, hneg]

/-- **C15**: switching either purge off does not change the outputs or edges of a run that finishes. -/
theorem C15_purge {o : Opts N V} (hpick : ∀ l, l ≠ [] → o.pick l ∈ l) (p q : Bool)
    {outs ins : List N} {m : Dict N V} {g : G N V}
    (hv : Valid g) (hm : Dict.WF m) {om om' : Dict N V} {em em' : Dict (N × N) V}
    (h : inverse_solve { o with purge_in := true, purge_out := true } outs ins (some m) g = .ok (some om, em))
    (h' : inverse_solve { o with purge_in := p, purge_out := q } outs ins (some m) g = .ok (some om', em')) :
    (∀ t, (Dict.get? om t).getD 0 = (Dict.get? om' t).getD 0) ∧
    (∀ i ∈ ins, ∀ t ∈ outs, (Dict.get? em (i, t)).getD 0 = (Dict.get? em' (i, t)).getD 0) :=
  C14_order (o := { o with purge_in := true, purge_out := true })
    (o' := { o with purge_in := p, purge_out := q }) hpick hpick rfl hv hm h h'

/-- **C15** on the graph itself: dropping what the sources do not reach keeps every equation of a reached node
for an assignment at rest elsewhere, and dropping what cannot reach the sinks keeps every equation of a node
that does reach them. -/
theorem C15_equations {pick : List N → N} (hpick : ∀ l, l ≠ [] → pick l ∈ l) (S : List N) {g : G N V}
    (hb : Balanced g) (hl : ∀ a b, (Dict.get? g.em (a, b)).isSome → b ∈ g.succ a) (ws : Dict.WF g.seq)
    (wr : Dict.WF g.req) :
    (∃ g', purge_reqless pick S g = .ok g' ∧ ∀ x : N → V, (∀ n, (¬ ∃ s ∈ S, Reach g s n) → x n = 0) →
      ∀ t, (∃ s ∈ S, Reach g s t) → (∑ r, W g' r t * x r) = ∑ r, W g r t * x r) ∧
    (∃ g', purge_seqless pick S g = .ok g' ∧ ∀ x : N → V, ∀ t, (∃ s ∈ S, Reach g t s) →
      (∑ r, W g' r t * x r) = ∑ r, W g r t * x r) := by
  have hI : Inv (fun _ => True) g := ⟨hb, fun a b _ _ h => hl a b h, fun _ _ _ => ⟨trivial, trivial⟩⟩
  constructor
  · obtain ⟨g', P, he, hP, -, -, -, -, hW, -⟩ := purge_inv hpick true S hI ws wr
    refine ⟨g', he, ?_⟩
    intro x hx t ht
    apply Finset.sum_congr rfl
    intro r _
    have htP : t ∉ P := fun h => ((hP t).1 h).2 ht
    by_cases hr : r ∈ P
    · rw [hx r ((hP r).1 hr).2, mul_zero, mul_zero]
    · rw [hW, if_neg (by simp [hr, htP])]
  · obtain ⟨g', P, he, hP, -, -, -, -, hW, -⟩ := purge_inv hpick false S hI ws wr
    refine ⟨g', he, ?_⟩
    have flip : ∀ a b, Relation.ReflTransGen (fun a b => b ∈ g.pred a) b a ↔ Reach g a b := by
      intro a b
      unfold Reach
      rw [← Relation.reflTransGen_swap]
      have : (Function.swap fun a b => b ∈ g.pred a) = (fun a b => b ∈ g.succ a) := by
        funext c d
        exact propext (hb.mirror c d).symm
      rw [this]
    intro x t ht
    apply Finset.sum_congr rfl
    intro r _
    have keep : ∀ n, (∃ s ∈ S, Reach g n s) → n ∉ P := by
      rintro n ⟨s, hs, hr⟩ h
      exact ((hP n).1 h).2 ⟨s, hs, (flip n s).2 hr⟩
    have htP := keep t ht
    by_cases hr : r ∈ P
    · have : W g r t = 0 := by
        unfold W
        rw [if_neg]
        intro hmem
        obtain ⟨s, hs, hts⟩ := ht
        exact keep r ⟨s, hs, Relation.ReflTransGen.head hmem hts⟩ hr
      rw [hW, if_pos (Or.inl hr), this]
    · rw [hW, if_neg (by simp [hr, htP])]

/-! ## C16 -/

/-- **C16**: `color_purge` succeeds and, of the nodes listed in `seq`, keeps exactly those reached from the
start set along the chosen direction; a removed node loses all its adjacency in both directions and its out
edges; nothing between kept nodes changes. -/
theorem C16_color {pick : List N → N} (hpick : ∀ l, l ≠ [] → pick l ∈ l) (forward : Bool) (S : List N) {g : G N V}
    (hb : Balanced g) (ws : Dict.WF g.seq) (wr : Dict.WF g.req) :
    ∃ g', color_purge pick forward S g = .ok g' ∧
      (∀ n, Dict.has g.seq n = true →
        (Dict.has g'.seq n = true ↔ ∃ s ∈ S, if forward then Reach g s n else Reach g n s)) ∧
      (∀ n, Dict.has g.seq n = true → Dict.has g'.seq n = false →
        g'.succ n = [] ∧ g'.pred n = [] ∧ (∀ a, n ∉ g'.succ a ∧ n ∉ g'.pred a) ∧
        ∀ b, b ∈ g.succ n → Dict.get? g'.em (n, b) = none) ∧
      (∀ a b, (Dict.has g.seq a = true → Dict.has g'.seq a = true) →
        (Dict.has g.seq b = true → Dict.has g'.seq b = true) →
        (b ∈ g'.succ a ↔ b ∈ g.succ a) ∧ (a ∈ g'.pred b ↔ a ∈ g.pred b) ∧
        Dict.get? g'.em (a, b) = Dict.get? g.em (a, b)) := by
  obtain ⟨g', P, he, hP, hs, hp, hem, hk, -, -⟩ :=
    color_purge_spec hpick forward S hb.mirror hb.nodup_succ hb.nodup_pred ws wr
  have flip : ∀ a b, Relation.ReflTransGen (fun a b => b ∈ g.pred a) b a ↔ Reach g a b := by
    intro a b
    unfold Reach
    rw [← Relation.reflTransGen_swap]
    have : (Function.swap fun a b => b ∈ g.pred a) = (fun a b => b ∈ g.succ a) := by
      funext c d
      exact propext (hb.mirror c d).symm
    rw [this]
  have hR : ∀ n, ReachFrom (if forward then g.succ else g.pred) S n ↔
      ∃ s ∈ S, if forward then Reach g s n else Reach g n s := by
    intro n
    cases forward with
    | true => rfl
    | false =>
      constructor
      · rintro ⟨s, h1, h2⟩; exact ⟨s, h1, (flip n s).1 h2⟩
      · rintro ⟨s, h1, h2⟩; exact ⟨s, h1, (flip n s).2 h2⟩
  have hkeep : ∀ n, Dict.has g.seq n = true → (Dict.has g'.seq n = true ↔ n ∉ P) := by
    intro n hn
    rw [hk]
    constructor
    · rintro (⟨-, h⟩ | ⟨hf, h⟩)
      · exact h
      · intro hh
        have := ((hP n).1 hh).2
        rw [if_pos hf] at this
        exact this h
    · intro h; exact Or.inl ⟨hn, h⟩
  refine ⟨g', he, ?_, ?_, ?_⟩
  · intro n hn
    rw [hkeep n hn, ← hR n, hP]
    constructor
    · intro h
      by_contra hc
      exact h ⟨hn, hc⟩
    · rintro h ⟨-, h2⟩
      exact h2 h
  · intro n hn hn'
    have hnP : n ∈ P := by
      by_contra hc
      rw [(hkeep n hn).2 hc] at hn'
      cases hn'
    refine ⟨by rw [hs, if_pos hnP], by rw [hp, if_pos hnP], ?_, ?_⟩
    · intro a
      rw [hs, hp]
      constructor <;> (split <;> simp [hnP])
    · intro b hb'
      rw [hem, if_pos ⟨hnP, hb'⟩]
  · intro a b ha hb'
    have hnot : ∀ n, (Dict.has g.seq n = true → Dict.has g'.seq n = true) → n ∉ P := by
      intro n h hn
      have h1 := ((hP n).1 hn).1
      exact (hkeep n h1).1 (h h1) hn
    have haP := hnot a ha
    have hbP := hnot b hb'
    refine ⟨?_, ?_, ?_⟩
    · rw [hs, if_neg haP]; simp [hbP]
    · rw [hp, if_neg hbP]; simp [haP]
    · rw [hem, if_neg (fun h => haP h.1)]

/-! ## C17 -/

/-- **C17**: any sequence of pre-purges, purges and reductions of a balanced graph (with no value stored for
an unlisted edge) ends balanced, or stops on a division by zero; no other failure is possible. -/
theorem C17_ops {pick : List N → N} (hpick : ∀ l, l ≠ [] → pick l ∈ l) (ops : List (Op N)) {g : G N V}
    (hb : Balanced g) (hl : ∀ a b, (Dict.get? g.em (a, b)).isSome → b ∈ g.succ a) (ws : Dict.WF g.seq)
    (wr : Dict.WF g.req) :
    runOps pick ops g = .error .zeroDivision ∨ ∃ g', runOps pick ops g = .ok g' ∧ Balanced g' := by
  rcases runOps_spec hpick ops g (fun _ => True)
    ⟨hb, fun a b _ _ h => hl a b h, fun _ _ _ => ⟨trivial, trivial⟩⟩ ⟨ws, wr⟩ with h | ⟨g', A', h, hI, -⟩
  · exact Or.inl h
  · exact Or.inr ⟨g', h, hI.bal⟩

/-- **C17** for the whole simplification: the balance check passes, the result is balanced and only edges from
nodes without predecessors to nodes without successors are left. -/
theorem C17_simplify (lt : Nat × N → Nat × N → Bool) (size : V → Nat) {g : G N V}
    (hb : Balanced g) (hl : ∀ a b, (Dict.get? g.em (a, b)).isSome → b ∈ g.succ a) (ws : Dict.WF g.seq)
    (wr : Dict.WF g.req) :
    mgraph_simplify lt size g = .error .zeroDivision ∨
    ∃ g', mgraph_simplify lt size g = .ok g' ∧ Balanced g' ∧
      ∀ a b, b ∈ g'.succ a → ¬ (g.succ a ≠ [] ∧ g.pred a ≠ []) ∧ ¬ (g.succ b ≠ [] ∧ g.pred b ≠ []) := by
  rcases simplify_spec lt size (A := fun _ => True)
    ⟨hb, fun a b _ _ h => hl a b h, fun _ _ _ => ⟨trivial, trivial⟩⟩ ws wr with h | ⟨g', L, h, -, hL, hR⟩
  · exact Or.inl h
  · refine Or.inr ⟨g', h, hR.inv.bal, ?_⟩
    intro a b hab
    have := hR.inv.alive a b hab
    exact ⟨fun hh => this.1.2 ((hL a).2 hh), fun hh => this.2.2 ((hL b).2 hh)⟩

/-! ## Concrete cases -/

section Examples

/-- Order of queue entries used in the examples. -/
def exLt : Nat × WN (Fin 3) → Nat × WN (Fin 3) → Bool := fun a b => decide (a.1 < b.1)

def exOpts (pin pout : Bool) : Opts (Fin 3) ℚ where
  purge_in := pin
  purge_out := pout
  lt := exLt
  pick := fun l => l.headD .vac
  size := fun _ => 1

theorem exOpts_pick (pin pout : Bool) : ∀ l, l ≠ [] → (exOpts pin pout).pick l ∈ l := by
  intro l hl
  cases l with
  | nil => exact absurd rfl hl
  | cons a l => exact List.mem_cons_self

/-- A loop `0 → 1 → 0` of gains 1/2, with a dead end `1 → 2`. -/
def exG : G (Fin 3) ℚ where
  seq := [(0, [1]), (1, [0, 2])]
  req := [(1, [0]), (0, [1]), (2, [1])]
  em := [((0, 1), 1/2), ((1, 0), 1/2), ((1, 2), 3)]

theorem valid_of_small {g : G (Fin 3) ℚ} (h1 : Dict.WF g.seq) (h2 : Dict.WF g.req)
    (h3 : ∀ a, (g.succ a).Nodup) (h4 : ∀ a, (g.pred a).Nodup)
    (h5 : ∀ a b, (Dict.get? g.em (a, b)).isSome → b ∈ g.succ a ∧ a ∈ g.pred b) : Valid g := ⟨h1, h2, h3, h4, h5⟩

theorem exG_valid : Valid exG :=
  valid_of_small (by decide) (by decide) (by decide) (by decide) (by decide +kernel)

theorem exG_balanced : Balanced exG := ⟨by decide, by decide +kernel, by decide, by decide⟩

/-- The run of the example: the response at node 1 to a source at node 0 is 2/3. -/
theorem exG_run : inverse_solve (exOpts true true) [1] [0] (some [(0, 1)]) exG =
    .ok (some [(1, 2/3)], [((0, 1), 2/3)]) := by
  decide +kernel

/-- The example meets the hypotheses of `C12_solution`; the solution is determined. -/
example : ∀ x, Solves exG ([0] ++ [0]) [1] (srcVec [(0, 1)]) x → x 1 = 2/3 := by
  intro x hx
  have := (C12_solution (exOpts_pick true true) exG_valid (by decide) exG_run).2.1 x hx 1 (by simp)
  have e : (Dict.get? [((1 : Fin 3), (2/3 : ℚ))] 1).getD 0 = 2/3 := by decide +kernel
  rw [e] at this
  rw [this]
  show x 1 = 1 * x 1
  rw [one_mul]

/-- The example system is invertible, so `C12_inverse` and `C13_inverse` apply. -/
theorem exG_inv : IsUnit (1 - mat exG) := by
  rw [Matrix.isUnit_iff_isUnit_det, Matrix.det_fin_three]
  have : ∀ i j : Fin 3, (1 - mat exG) i j = (1 : Matrix (Fin 3) (Fin 3) ℚ) i j - gain exG j i := fun _ _ => rfl
  simp only [this]
  have e : ((1 : Matrix (Fin 3) (Fin 3) ℚ) 0 0 - gain exG 0 0 = 1) ∧ ((1 : Matrix (Fin 3) (Fin 3) ℚ) 1 1 - gain exG 1 1 = 1) ∧
      ((1 : Matrix (Fin 3) (Fin 3) ℚ) 2 2 - gain exG 2 2 = 1) ∧ ((1 : Matrix (Fin 3) (Fin 3) ℚ) 0 1 - gain exG 1 0 = -1/2) ∧
      ((1 : Matrix (Fin 3) (Fin 3) ℚ) 1 0 - gain exG 0 1 = -1/2) ∧ ((1 : Matrix (Fin 3) (Fin 3) ℚ) 0 2 - gain exG 2 0 = 0) ∧
      ((1 : Matrix (Fin 3) (Fin 3) ℚ) 2 0 - gain exG 0 2 = 0) ∧ ((1 : Matrix (Fin 3) (Fin 3) ℚ) 1 2 - gain exG 2 1 = 0) ∧
      ((1 : Matrix (Fin 3) (Fin 3) ℚ) 2 1 - gain exG 1 2 = -3) := by
    decide +kernel
  obtain ⟨h1, h2, h3, h4, h5, h6, h7, h8, h9⟩ := e
  simp only [h1, h2, h3, h4, h5, h6, h7, h8, h9]
  norm_num

example : (1 - mat exG)⁻¹ 1 0 = 2/3 := by
  have := C13_inverse (exOpts_pick true true) exG_valid (by rintro m ⟨⟩; decide) exG_inv exG_run
    (i := 0) (by simp) (t := 1) (by simp)
  have e : (Dict.get? [(((0 : Fin 3), (1 : Fin 3)), (2/3 : ℚ))] (0, 1)).getD 0 = 2/3 := by decide +kernel
  rw [e] at this
  rw [this]
  show _ = 1 * _
  rw [one_mul]

/-- Two finished runs with different purges and a different queue order, as `C14_order` and `C15_purge`
ask for. -/
example : inverse_solve { exOpts false true with lt := fun a b => decide (b.1 < a.1) } [0, 1] [] (some [(0, 1)])
    { exG with seq := [(0, [1]), (1, [0, 2]), (2, [])] } = .ok (some [(0, 4/3), (1, 2/3)], []) := by
  decide +kernel
example : inverse_solve (exOpts true true) [0, 1] [] (some [(0, 1)])
    { exG with seq := [(0, [1]), (1, [0, 2]), (2, [])] } = .ok (some [(0, 4/3), (1, 2/3)], []) := by
  decide +kernel

/-- A self loop of gain 1/2 at node 0, as in the second case of `C11_elim`; and of gain 1, as in the first. -/
def exLoop (v : ℚ) : G (Fin 3) ℚ where
  seq := [(0, [0, 1])]
  req := [(0, [0]), (1, [0])]
  em := [((0, 0), v), ((0, 1), 1)]

example : Balanced (exLoop (1/2)) ∧ W (exLoop (1/2)) 0 0 ≠ 1 ∧
    ∀ a b, (Dict.get? (exLoop (1/2)).em (a, b)).isSome → b ∈ (exLoop (1/2)).succ a :=
  ⟨⟨by decide, by decide +kernel, by decide, by decide⟩, by decide +kernel, by decide +kernel⟩
example : Balanced (exLoop 1) ∧ W (exLoop 1) 0 0 = 1 :=
  ⟨⟨by decide, by decide +kernel, by decide, by decide⟩, by decide +kernel⟩

/-- Without "undriven nodes at rest" the claim of **C12** is false of the code: with a loop of gain 1 that
nothing drives, `x = (5, 5, 0)` solves `x = M x` at every node, the run finishes, and yet node 1, a requested
output, is returned as absent (0). -/
theorem C12_undriven_loop :
    (∀ n, (fun k : Fin 3 => if k = 2 then (0 : ℚ) else 5) n =
      (∑ r, gain (exLoop 1) r n * (fun k : Fin 3 => if k = 2 then (0 : ℚ) else 5) r) + srcVec [] n) ∧
    inverse_solve (exOpts true true) [1] [] (some []) (exLoop 1) = .ok (some [], []) := by
  decide +kernel

/-- With `purge_in` off a dead end survives the other purge and the run fails in the unwrapping of the edges,
so `C12_only_failure` needs both purges. -/
theorem C12_dead_end_fails :
    inverse_solve (exOpts false true) [1] [0] (some []) exG = .error .valueError := by
  decide +kernel

/-- Node 2 of the example is not seen from output 1 and is listed; `C16_color` says it goes. -/
example : Balanced { exG with seq := [(0, [1]), (1, [0, 2]), (2, [])] } ∧
    ¬ Reach { exG with seq := [(0, [1]), (1, [0, 2]), (2, [])] } 2 1 := by
  refine ⟨⟨by decide, by decide +kernel, by decide, by decide⟩, ?_⟩
  intro h
  rcases Relation.ReflTransGen.cases_head h with h | ⟨c, hc, -⟩
  · exact absurd h (by decide)
  · revert hc; revert c; decide

end Examples

end Graph
