import Verif.Dag.Core
import Verif.Dag.StepProps
import Verif.Graph.Props
import Mathlib.Data.ZMod.Basic
import Mathlib.Algebra.Field.ZMod

/-!
# The default solver (C21, C22)

`hpick` says only that `set.pop()` takes an element of the set.  Costs, queue comparisons, the tests for outdated costs, bad scaling and
large entries, and the nodes re-queued are arbitrary (`Heur`, `inv`), which covers every sequence of steps.
`A.Lawful` are the laws of absolute value, conjugate and square root the Householder step needs; `algC_lawful` has
them for ℂ.
-/

set_option linter.unusedSectionVars false

namespace Dag
open Py Graph

variable {N : Type} {V : Type} {C : Type} [DecidableEq N] [Field V] [DecidableEq V] [Fintype N]
variable {h : Heur (WN N) V C} {A : Alg V} {inv : Nat → List (WN N)} {fuel : Nat} {o : Opts} {outs inp : List N}
  {src : Option (Dict N V)} {g g1 : G N V}

/-! ### Scattering problems -/

theorem rtg_self {E E' : N → N → Prop} (h : ∀ a b, E' a b → E a b ∨ a = b) (h' : ∀ a b, E a b → E' a b) (a b : N) :
    Relation.ReflTransGen E' a b ↔ Relation.ReflTransGen E a b := by
  constructor
  · intro q
    induction q with
    | refl => exact .refl
    | tail _ e ih =>
      rcases h _ _ e with e | e
      · exact ih.tail e
      · exact e ▸ ih
  · exact fun q => Relation.ReflTransGen.mono h' _ _ q

theorem gain_edge {g : G N V} {a b : N} (h : gain g a b ≠ 0) : Edge g a b := by
  unfold Edge
  unfold gain at h
  cases hh : Dict.get? g.em (a, b) with
  | none => rw [hh] at h; exact absurd rfl h
  | some v => rfl

/-- `x` solves `x = M x + b` as far as the run looks at it: at driven nodes an output sees, or at all driven nodes when the
purge of unseen nodes is off. -/
def SolvesFor (o : Opts) (g : G N V) (S outs : List N) (b x : N → V) : Prop :=
  Solves g S outs b x ∧ (o.purge_out = false → ∀ n, Driven g S n → x n = (∑ r, gain g r n * x r) + b n)

/-- What the scattering step needs to know about the nodes `Q` that get an entry of `-1`. -/
structure Shift (Q : N → Prop) [DecidablePred Q] (g g1 : G N V) : Prop where
  valid : Valid g1
  edge : ∀ a b, Edge g1 a b ↔ Edge g a b ∨ (a = b ∧ Q a)
  gain : ∀ a b, Graph.gain g1 a b = Graph.gain g a b - if a = b ∧ Q a then 1 else 0
  key : ∀ a, Dict.has g1.seq a = true ↔ Q a
  all : ∀ a, Key g a → Q a

section shift
variable {Q : N → Prop} [DecidablePred Q]

theorem driven_shift (s : Shift Q g g1) (S : List N) (n : N) : Driven g1 S n ↔ Driven g S n := by
  unfold Driven
  simp only [rtg_self (E := Edge g) (E' := Edge g1) (fun a b q => ((s.edge a b).mp q).imp id And.left) (fun a b q => (s.edge a b).mpr (Or.inl q))]

theorem seen_shift (s : Shift Q g g1) (S : List N) (n : N) : Seen g1 S n ↔ Seen g S n := by
  unfold Seen
  simp only [rtg_self (E := Edge g) (E' := Edge g1) (fun a b q => ((s.edge a b).mp q).imp id And.left) (fun a b q => (s.edge a b).mpr (Or.inl q))]

theorem Shift.right (s : Shift Q g g1) (hv : Valid g) (a b : N) (e : Edge g a b) : Q b := s.all b (by
  have := (hv.listed a b e).2
  right
  unfold G.pred at this
  unfold Dict.has
  cases hg : Dict.get? g.req b with
  | none => rw [hg] at this; simp at this
  | some v => rfl)

theorem Shift.left (s : Shift Q g g1) (hv : Valid g) (a b : N) (e : Edge g a b) : Q a :=
  s.all a (Or.inl (key_of_succ (hv.listed a b e).1))

theorem Shift.driven (s : Shift Q g g1) (hv : Valid g) {S : List N} (hS : ∀ t ∈ S, Q t) {t : N} (h : Driven g S t) : Q t := by
  obtain ⟨u, h1, h2⟩ := h
  cases h2 with
  | refl => exact hS _ h1
  | tail _ e => exact s.right hv _ _ e

theorem Shift.kept (s : Shift Q g g1) (hv : Valid g) {S : List N} (hS : ∀ t ∈ S, Q t) {t : N} (h : Kept o g1 S outs t) : Q t := by
  obtain ⟨k, _⟩ := h
  by_cases hp : o.purge_in = true
  · rw [if_pos hp] at k
    exact s.driven hv hS ((driven_shift s S t).mp k)
  · rw [if_neg hp] at k
    exact (s.key t).mp k

theorem Shift.self (s : Shift Q g g1) {t : N} (k : Q t) : Edge g1 t t := (s.edge t t).mpr (Or.inr ⟨rfl, k⟩)

/-- From the system of the kept nodes to `x = M x + b`. -/
theorem scattering_finish (s : Shift Q g g1) (hv : Valid g) (hkeys : ∀ t ∈ srcKeys src ++ inp ++ outs, Q t) {value : V} {T0 : N → V}
    {T : N → N → V} (v : V) (c : N → V)
    (hx0 : ∃ x, Sys (Kept o g1 (srcKeys src ++ inp) outs) g1 (fun t => srcVal src t * v + if t ∈ inp then c t else 0) x)
    (c7 : ∀ x, Sys (Kept o g1 (srcKeys src ++ inp) outs) g1 (fun t => srcVal src t * v + if t ∈ inp then c t else 0) x →
      ∀ t ∈ outs, value * x t = T0 t * v + ∑ i, if i ∈ inp then T i t * c i else 0) :
    (o.purge_in = true → ∃ x, SolvesFor o g (srcKeys src ++ inp) outs (fun t => srcVal src t * v + if t ∈ inp then c t else 0) x) ∧
    ∀ x, SolvesFor o g (srcKeys src ++ inp) outs (fun t => srcVal src t * v + if t ∈ inp then c t else 0) x →
      ∀ t ∈ outs, value * x t = T0 t * v + ∑ i, if i ∈ inp then T i t * c i else 0 := by
  classical
  set S := srcKeys src ++ inp with hSd
  have hkS : ∀ t ∈ S, Q t := fun t ht => hkeys t (List.mem_append_left _ ht)
  have keyL := s.left hv
  have keyD : ∀ t, Driven g S t → Q t := fun t => s.driven hv hkS
  have hD := driven_shift s S
  have hSn := seen_shift s outs
  have hE := s.edge
  have hK := s.key
  have keyKept : ∀ t, Kept o g1 S outs t → Q t := fun t => s.kept hv hkS
  obtain ⟨x0, hx0⟩ := hx0
  set b : N → V := fun t => srcVal src t * v + if t ∈ inp then c t else 0 with hb
  have hsum : ∀ (x : N → V) t, Q t → ∑ r, gain g1 r t * x r = (∑ r, gain g r t * x r) - x t := by
    intro x t k
    have : ∀ r, gain g1 r t * x r = gain g r t * x r - if r = t then x r else 0 := by
      intro r
      rw [s.gain]
      by_cases hrt : r = t
      · subst hrt; rw [if_pos ⟨rfl, k⟩, if_pos rfl]; ring
      · rw [if_neg (fun q => hrt q.1), if_neg hrt]; ring
    rw [Finset.sum_congr rfl (fun r _ => this r), Finset.sum_sub_distrib]
    simp
  have hb0 : ∀ t, ¬ Driven g S t → b t = 0 := by
    intro t ht
    have htS : t ∉ S := fun q => ht ⟨t, q, .refl⟩
    have h1 : t ∉ srcKeys src := fun q => htS (List.mem_append_left _ q)
    have h2 : t ∉ inp := fun q => htS (List.mem_append_right _ q)
    have h3 : srcVal src t = 0 := by
      unfold srcVal
      rw [mem_srcKeys] at h1
      cases hh : src.bind (fun m => Dict.get? m t) with
      | none => rfl
      | some w => rw [hh] at h1; exact absurd rfl h1
    simp [hb, h2, h3]
  constructor
  · intro hp
    have hkept : ∀ n, Kept o g1 S outs n ↔ Driven g S n ∧ (o.purge_out = true → Seen g outs n) := by
      intro n
      unfold Kept
      rw [if_pos hp, hD, hSn]
    have eqn : ∀ n, Driven g S n → (o.purge_out = true → Seen g outs n) → x0 n = (∑ r, gain g r n * x0 r) + b n := by
      intro n h1 h2
      have := hx0.eqn n ((hkept n).mpr ⟨h1, h2⟩)
      rw [hsum x0 n (keyD n h1)] at this
      linear_combination -this
    refine ⟨x0, ⟨fun n hn => hx0.off n (fun q => hn ((hkept n).mp q).1), fun n h1 h2 => eqn n h1 (fun _ => h2)⟩, fun hq n h1 => eqn n h1 (fun q => ?_)⟩
    rw [hq] at q; cases q
  · rintro x ⟨hx, hx'⟩ t ht
    have hs : Sys (Kept o g1 S outs) g1 b (fun n => if Kept o g1 S outs n then x n else 0) := by
      refine ⟨fun n hn => by simp [hn], fun t kt => ?_⟩
      have hkt := keyKept t kt
      rw [hsum _ t hkt, if_pos kt]
      have e1 : ∀ r, gain g r t * (if Kept o g1 S outs r then x r else 0) = gain g r t * x r := by
        intro r
        by_cases hr : Kept o g1 S outs r
        · rw [if_pos hr]
        · rw [if_neg hr]
          by_cases hg : gain g r t = 0
          · rw [hg, zero_mul, zero_mul]
          · have e := gain_edge hg
            have hnk : ¬ (if o.purge_in = true then Driven g1 S r else Dict.has g1.seq r = true) := by
              intro q
              refine hr ⟨q, fun hq => ?_⟩
              obtain ⟨s, s1, s2⟩ := kt.2 hq
              exact ⟨s, s1, s2.head ((hE r t).mpr (Or.inl e))⟩
            by_cases hp : o.purge_in = true
            · rw [if_pos hp, hD] at hnk
              rw [hx.rest r hnk]
            · rw [if_neg hp, hK] at hnk
              exact absurd (keyL _ _ e) hnk
      rw [Finset.sum_congr rfl (fun r _ => e1 r)]
      by_cases hd : Driven g S t
      · have : x t = (∑ r, gain g r t * x r) + b t := by
          by_cases hq : o.purge_out = true
          · exact hx.eqn t hd ((hSn t).mp (kt.2 hq))
          · exact hx' (by simpa using hq) t hd
        linear_combination -this
      · rw [hx.rest t hd, hb0 t hd, Finset.sum_eq_zero]
        · ring
        · intro r _
          by_cases hg : gain g r t = 0
          · rw [hg, zero_mul]
          · have : ¬ Driven g S r := by
              rintro ⟨s, s1, s2⟩
              exact hd ⟨s, s1, s2.tail (gain_edge hg)⟩
            rw [hx.rest r this, mul_zero]
    rw [← c7 _ hs t ht]
    by_cases kt : Kept o g1 S outs t
    · simp [kt]
    · simp only [kt, if_false]
      -- an unkept output is undriven
      have : ¬ (if o.purge_in = true then Driven g1 S t else Dict.has g1.seq t = true) := fun q =>
        kt ⟨q, fun _ => ⟨t, ht, .refl⟩⟩
      by_cases hp : o.purge_in = true
      · rw [if_pos hp, hD] at this
        rw [hx.rest t this]
      · rw [if_neg hp, hK] at this
        exact absurd (hkeys t (List.mem_append_right _ ht)) this

end shift

theorem scatterStep_shift (hv : Valid g) (ho : o.scattering = true) (h : scatterStep o g = .ok g1) : Shift (Key g) g g1 := by
  obtain ⟨hv1, hE, hG, hK⟩ := scatterStep_spec hv ho h
  exact ⟨hv1, hE, hG, hK, fun _ q => q⟩

/-- Everything a finished scattering run tells. -/
theorem scattering_core (hpick : ∀ l, l ≠ [] → h.pick l ∈ l) (hA : A.Lawful) (hv : Valid g) (ho : o.scattering = true)
    (hkeys : ∀ t ∈ srcKeys src ++ inp ++ outs, Key g t)
    {r : Option (Dict N V)} {em : Dict (N × N) V} (hr : inverse_solve h A inv fuel o outs inp src g = .ok (r, em)) :
    ∃ (om : Dict N V) (T0 : N → V) (T : N → N → V), r = src.map (fun _ => om) ∧
      (∀ t, (Dict.get? om t).isSome → t ∈ outs) ∧ (∀ t ∈ outs, (Dict.get? om t).getD 0 = T0 t) ∧
      (∀ i t, (Dict.get? em (i, t)).isSome → i ∈ inp) ∧ (∀ i ∈ inp, ∀ t, (Dict.get? em (i, t)).getD 0 = T i t) ∧
      ∀ (v : V) (c : N → V),
        (o.purge_in = true → ∃ x, SolvesFor o g (srcKeys src ++ inp) outs (fun t => srcVal src t * v + if t ∈ inp then c t else 0) x) ∧
        ∀ x, SolvesFor o g (srcKeys src ++ inp) outs (fun t => srcVal src t * v + if t ∈ inp then c t else 0) x →
          ∀ t ∈ outs, sgn o.negative * x t = T0 t * v + ∑ i, if i ∈ inp then T i t * c i else 0 := by
  classical
  set S := srcKeys src ++ inp with hSd
  -- the scattering step succeeded
  have hsc : ∃ g1, scatterStep o g = .ok g1 := by
    cases hs : scatterStep o g with
    | ok g1 => exact ⟨g1, rfl⟩
    | error e =>
      unfold inverse_solve prepare at hr
      rw [hs] at hr
      cases hr
  obtain ⟨g1, hg1⟩ := hsc
  have s := scatterStep_shift hv ho hg1
  have hkS : ∀ t ∈ S, Key g t := fun t ht => hkeys t (List.mem_append_left _ ht)
  obtain ⟨om, T0, T, c1, c2, c3, c4, c5, c6⟩ := core (src := src) (inp := inp) (outs := outs) hpick hA hg1 s.valid
    (fun _ a b e => (s.key b).mpr (by
      rcases (s.edge a b).mp e with e | ⟨rfl, k⟩
      · exact s.right hv _ _ e
      · exact k))
    (fun _ t ht => (s.key t).mpr (hkeys t ht))
    (fun _ t ht => ⟨t, s.self (s.driven hv hkS ((driven_shift s S t).mp ht)), ht⟩)
    (fun hp r k => ⟨r, s.self (s.kept hv hkS k), k.2 hp⟩) hr
  refine ⟨om, T0, T, c1, c2, c3, c4, c5, fun v c => ?_⟩
  obtain ⟨hx0, c7⟩ := c6 v c
  have hval : (outVal o : V) = sgn o.negative := by
    unfold outVal sgn
    rw [ho]
    cases o.negative <;> simp
  rw [hval] at c7
  exact scattering_finish s hv hkeys v c hx0 c7

/-- **C21** for a scattering problem: whatever steps the run takes, when it finishes every solution of
`x = M x + source` (undriven nodes at rest) has the returned values at the outputs, up to the sign of `negative`; only outputs are
returned; with `purge_in` a solution exists. -/
theorem C21_solution (hpick : ∀ l, l ≠ [] → h.pick l ∈ l) (hA : A.Lawful) (hv : Valid g) (ho : o.scattering = true)
    {m : Dict N V} (hkeys : ∀ t ∈ Dict.keys m ++ inp ++ outs, Key g t) {om : Dict N V} {em : Dict (N × N) V}
    (hr : inverse_solve h A inv fuel o outs inp (some m) g = .ok (some om, em)) :
    (o.purge_in = true → ∃ x, SolvesFor o g (Dict.keys m ++ inp) outs (srcVec m) x) ∧
    (∀ x, SolvesFor o g (Dict.keys m ++ inp) outs (srcVec m) x → ∀ t ∈ outs, (Dict.get? om t).getD 0 = sgn o.negative * x t) ∧
    (∀ t, (Dict.get? om t).isSome → t ∈ outs) := by
  obtain ⟨om', T0, T, c1, c2, c3, -, -, c6⟩ := scattering_core hpick hA hv ho (src := some m) hkeys hr
  cases c1
  obtain ⟨t1, t2⟩ := c6 1 (fun _ => 0)
  have e : (fun n => srcVal (some m) n * (1 : V) + if n ∈ inp then (0 : V) else 0) = srcVec m := by
    funext n; simp [srcVal, srcVec]
  simp only [e] at t1 t2
  refine ⟨t1, fun x hx t ht => ?_, c2⟩
  rw [c3 t ht, t2 x hx t ht]
  simp

/-- A full solution of an invertible system is one the run may look at. -/
theorem solvesFor_full (hinv : IsUnit (1 - mat g)) {S outs : List N} {s : N → V} (hs : ∀ n, n ∉ S → s n = 0) :
    SolvesFor o g S outs s ((1 - mat g)⁻¹.mulVec s) :=
  ⟨solves_of_full hinv hs (full_solution hinv _), fun _ n _ => full_solution hinv _ n⟩

theorem srcVec_off {m : Dict N V} {inp : List N} (n : N) (hn : n ∉ Dict.keys m ++ inp) : srcVec m n = 0 := by
  have : Dict.get? m n = none := by
    cases hh : Dict.get? m n with
    | none => rfl
    | some v => exact absurd (List.mem_append_left _ ((Dict.mem_keys_iff m n).2 (by rw [hh]; rfl))) hn
  unfold srcVec
  rw [this]
  rfl

/-- **C21** for an invertible scattering problem: the returned values are those of `(1 - M)⁻¹ source`. -/
theorem C21_inverse (hpick : ∀ l, l ≠ [] → h.pick l ∈ l) (hA : A.Lawful) (hv : Valid g) (ho : o.scattering = true)
    {m : Dict N V} (hkeys : ∀ t ∈ Dict.keys m ++ inp ++ outs, Key g t) (hinv : IsUnit (1 - mat g)) {om : Dict N V}
    {em : Dict (N × N) V} (hr : inverse_solve h A inv fuel o outs inp (some m) g = .ok (some om, em)) :
    ∀ t ∈ outs, (Dict.get? om t).getD 0 = sgn o.negative * ((1 - mat g)⁻¹.mulVec (srcVec m)) t :=
  (C21_solution hpick hA hv ho hkeys hr).2.1 _ (solvesFor_full hinv srcVec_off)

/-- **C21**, transfer edges of a scattering problem: the edge from input `i` to output `t` is the response at `t` to a
unit source at `i`, up to the sign of `negative`. -/
theorem C21_transfer (hpick : ∀ l, l ≠ [] → h.pick l ∈ l) (hA : A.Lawful) (hv : Valid g) (ho : o.scattering = true)
    (hkeys : ∀ t ∈ srcKeys src ++ inp ++ outs, Key g t) {r : Option (Dict N V)} {em : Dict (N × N) V}
    (hr : inverse_solve h A inv fuel o outs inp src g = .ok (r, em)) {i : N} (hi : i ∈ inp) :
    (o.purge_in = true → ∃ x, SolvesFor o g (srcKeys src ++ inp) outs (Pi.single i 1) x) ∧
    (∀ x, SolvesFor o g (srcKeys src ++ inp) outs (Pi.single i 1) x →
      ∀ t ∈ outs, (Dict.get? em (i, t)).getD 0 = sgn o.negative * x t) ∧
    (∀ i t, (Dict.get? em (i, t)).isSome → i ∈ inp) := by
  obtain ⟨om', T0, T, -, -, -, c4, c5, c6⟩ := scattering_core hpick hA hv ho hkeys hr
  obtain ⟨t1, t2⟩ := c6 0 (Pi.single i 1)
  have e : (fun n => srcVal src n * (0 : V) + if n ∈ inp then (Pi.single i 1 : N → V) n else 0) = Pi.single i 1 := by
    funext n
    rw [mul_zero, zero_add]
    by_cases hn : n = i
    · subst hn; rw [if_pos hi]
    · rw [Pi.single_eq_of_ne hn]; simp
  simp only [e] at t1 t2
  refine ⟨t1, fun x hx t ht => ?_, c4⟩
  rw [c5 i hi, t2 x hx t ht, Finset.sum_eq_single i]
  · simp [hi]
  · intro b _ hb
    rw [Pi.single_eq_of_ne hb]; simp
  · intro hh; exact absurd (Finset.mem_univ i) hh

/-- **C21**: the transfer edges of an invertible scattering problem are a block of `(1 - M)⁻¹`. -/
theorem C21_transfer_inverse (hpick : ∀ l, l ≠ [] → h.pick l ∈ l) (hA : A.Lawful) (hv : Valid g) (ho : o.scattering = true)
    (hkeys : ∀ t ∈ srcKeys src ++ inp ++ outs, Key g t) (hinv : IsUnit (1 - mat g)) {r : Option (Dict N V)} {em : Dict (N × N) V}
    (hr : inverse_solve h A inv fuel o outs inp src g = .ok (r, em)) {i : N} (hi : i ∈ inp) {t : N} (ht : t ∈ outs) :
    (Dict.get? em (i, t)).getD 0 = sgn o.negative * (1 - mat g)⁻¹ t i := by
  rw [(C21_transfer hpick hA hv ho hkeys hr hi).2.1 _ (solvesFor_full hinv (fun n hn => ?_)) t ht, Matrix.mulVec_single_one]
  · rfl
  · have : n ≠ i := fun hh => hn (hh ▸ List.mem_append_right _ hi)
    exact Pi.single_eq_of_ne this _

/-! ### Plain linear systems -/

/-- An invertible matrix that maps vectors supported on `Q` to such vectors has an inverse that does so too. -/
theorem supp_inv {B : Matrix N N V} (hB : IsUnit B) (Q : N → Prop) (hQ : ∀ t r, ¬ Q t → Q r → B t r = 0) {x b : N → V}
    (hb : ∀ t, ¬ Q t → b t = 0) (hx : B.mulVec x = b) : ∀ t, ¬ Q t → x t = 0 := by
  have hone : ∀ f : N → V, (1 - B).mulVecLin f = f - B.mulVec f := by
    intro f
    rw [Matrix.mulVecLin_apply, Matrix.sub_mulVec, Matrix.one_mulVec]
  apply supp_of_injective (1 - B).mulVecLin
  · intro f hf
    rw [hone] at hf
    have h1 : B.mulVec f = 0 := by
      have := congrArg (fun y => f - y) hf
      simpa using this.symm
    have h2 : B⁻¹.mulVec (B.mulVec f) = f := by
      rw [Matrix.mulVec_mulVec, Matrix.nonsing_inv_mul _ ((Matrix.isUnit_iff_isUnit_det _).1 hB), Matrix.one_mulVec]
    rw [← h2, h1, Matrix.mulVec_zero]
  · intro f hf t ht
    rw [hone, Pi.sub_apply, hf t ht, zero_sub, neg_eq_zero]
    apply Finset.sum_eq_zero
    intro r _
    show B t r * f r = 0
    by_cases hr : Q r
    · rw [hQ t r ht hr, zero_mul]
    · rw [hf r hr, mul_zero]
  · intro t ht
    rw [hone, Pi.sub_apply, hx, hb t ht, sub_zero]

theorem mulVec_inv {B : Matrix N N V} (hB : IsUnit B) (b : N → V) : B.mulVec (B⁻¹.mulVec b) = b := by
  rw [Matrix.mulVec_mulVec, Matrix.mul_nonsing_inv _ ((Matrix.isUnit_iff_isUnit_det _).1 hB), Matrix.one_mulVec]

theorem exists_entry {B : Matrix N N V} (hB : IsUnit B) (Q : N → Prop) (hQ : ∀ t r, ¬ Q t → Q r → B t r = 0) {t : N}
    (ht : Q t) : ∃ r, B t r ≠ 0 ∧ Q r := by
  by_contra hc
  have hx := mulVec_inv hB (Pi.single t 1)
  have hs := supp_inv hB Q hQ (b := Pi.single t 1) (fun u hu => Pi.single_eq_of_ne (fun e => hu (by rw [e]; exact ht)) _) hx
  have h1 := congrFun hx t
  rw [Pi.single_eq_same] at h1
  have h0 : (B.mulVec (B⁻¹.mulVec (Pi.single t 1))) t = 0 := by
    apply Finset.sum_eq_zero
    intro r _
    show B t r * _ = 0
    by_cases hr : Q r
    · by_cases hb : B t r = 0
      · rw [hb, zero_mul]
      · exact absurd ⟨r, hb, hr⟩ hc
    · rw [hs r hr, mul_zero]
  rw [h0] at h1
  exact zero_ne_one h1

/-- Every node of an invertible system occurs in the graph. -/
theorem linear_key (hv : Valid g) (hinv : IsUnit (mat g)) (a : N) : Dict.has g.seq a = true := by
  have hT : IsUnit (mat g).transpose := (Matrix.isUnit_transpose (mat g)).mpr hinv
  obtain ⟨t, ht, _⟩ := exists_entry hT (fun _ => True) (fun t r q => absurd trivial q) (t := a) trivial
  exact key_of_succ (hv.listed a t (gain_edge ht)).1

theorem linear_driven (S : List N) (t r : N) (ht : ¬ Driven g S t) (hr : Driven g S r) : mat g t r = 0 := by
  by_contra hc
  obtain ⟨s, s1, s2⟩ := hr
  exact ht ⟨s, s1, s2.tail (gain_edge hc)⟩

theorem linear_seen (t r : N) (ht : ¬ Seen g outs t) (hr : Seen g outs r) : (mat g).transpose t r = 0 := by
  by_contra hc
  obtain ⟨s, s1, s2⟩ := hr
  exact ht ⟨s, s1, s2.head (gain_edge hc)⟩

/-- From the system of the kept nodes to `A y = b`. -/
theorem linear_finish (hv : Valid g) (hinv : IsUnit (mat g)) {value : V} {T0 : N → V} {T : N → N → V} (v : V) (c : N → V)
    (c7 : ∀ x, Sys (Kept o g (srcKeys src ++ inp) outs) g (fun t => srcVal src t * v + if t ∈ inp then c t else 0) x →
      ∀ t ∈ outs, - value * x t = T0 t * v + ∑ i, if i ∈ inp then T i t * c i else 0) :
    ∀ t ∈ outs, value * ((mat g)⁻¹.mulVec (fun t => srcVal src t * v + if t ∈ inp then c t else 0)) t =
        T0 t * v + ∑ i, if i ∈ inp then T i t * c i else 0 := by
  classical
  intro t ht
  set S := srcKeys src ++ inp with hSd
  have keyA := linear_key hv hinv
  have dq := linear_driven (g := g) S
  set b : N → V := fun t => srcVal src t * v + if t ∈ inp then c t else 0 with hb
  have hb0 : ∀ t, ¬ Driven g S t → b t = 0 := by
    intro t ht
    have htS : t ∉ S := fun q => ht ⟨t, q, .refl⟩
    have h1 : t ∉ srcKeys src := fun q => htS (List.mem_append_left _ q)
    have h2 : t ∉ inp := fun q => htS (List.mem_append_right _ q)
    have h3 : srcVal src t = 0 := by
      unfold srcVal
      rw [mem_srcKeys] at h1
      cases hh : src.bind (fun m => Dict.get? m t) with
      | none => rfl
      | some w => rw [hh] at h1; exact absurd rfl h1
    simp [hb, h2, h3]
  set y := (mat g)⁻¹.mulVec b with hy
  have hMy : (mat g).mulVec y = b := mulVec_inv hinv b
  have hy0 : ∀ t, ¬ Driven g S t → y t = 0 := supp_inv hinv (Driven g S) dq hb0 hMy
  have hs : Sys (Kept o g S outs) g b (fun n => if Kept o g S outs n then - y n else 0) := by
    refine ⟨fun n hn => by simp [hn], fun t kt => ?_⟩
    have e1 : ∀ r, gain g r t * (if Kept o g S outs r then - y r else 0) = - (gain g r t * y r) := by
      intro r
      by_cases hr : Kept o g S outs r
      · rw [if_pos hr]; ring
      · rw [if_neg hr]
        by_cases hg : gain g r t = 0
        · rw [hg]; ring
        · have e := gain_edge hg
          have hnk : ¬ (if o.purge_in = true then Driven g S r else Dict.has g.seq r = true) := by
            intro q
            refine hr ⟨q, fun hq => ?_⟩
            obtain ⟨s, s1, s2⟩ := kt.2 hq
            exact ⟨s, s1, s2.head e⟩
          by_cases hp : o.purge_in = true
          · rw [if_pos hp] at hnk
            rw [hy0 r hnk]; ring
          · rw [if_neg hp] at hnk
            exact absurd (keyA r) hnk
    rw [Finset.sum_congr rfl (fun r _ => e1 r), Finset.sum_neg_distrib]
    have : ∑ r, gain g r t * y r = b t := congrFun hMy t
    rw [this]
    ring
  rw [← c7 _ hs t ht]
  by_cases kt : Kept o g S outs t
  · simp [kt]
  · simp only [kt, if_false]
    have : ¬ (if o.purge_in = true then Driven g S t else Dict.has g.seq t = true) := fun q =>
      kt ⟨q, fun _ => ⟨t, ht, .refl⟩⟩
    by_cases hp : o.purge_in = true
    · rw [if_pos hp] at this
      rw [hy0 t this]; ring
    · rw [if_neg hp] at this
      exact absurd (keyA t) this

/-- Everything a finished run on a plain linear system tells. -/
theorem linear_core (hpick : ∀ l, l ≠ [] → h.pick l ∈ l) (hA : A.Lawful) (hv : Valid g) (ho : o.scattering = false)
    (hinv : IsUnit (mat g))
    {r : Option (Dict N V)} {em : Dict (N × N) V} (hr : inverse_solve h A inv fuel o outs inp src g = .ok (r, em)) :
    ∃ (om : Dict N V) (T0 : N → V) (T : N → N → V), r = src.map (fun _ => om) ∧
      (∀ t, (Dict.get? om t).isSome → t ∈ outs) ∧ (∀ t ∈ outs, (Dict.get? om t).getD 0 = T0 t) ∧
      (∀ i t, (Dict.get? em (i, t)).isSome → i ∈ inp) ∧ (∀ i ∈ inp, ∀ t, (Dict.get? em (i, t)).getD 0 = T i t) ∧
      ∀ (v : V) (c : N → V), ∀ t ∈ outs, sgn o.negative * ((mat g)⁻¹.mulVec (fun t => srcVal src t * v + if t ∈ inp then c t else 0)) t =
        T0 t * v + ∑ i, if i ∈ inp then T i t * c i else 0 := by
  classical
  set S := srcKeys src ++ inp with hSd
  have hg1 : scatterStep o g = .ok g := by
    unfold scatterStep
    rw [ho]
    rfl
  obtain ⟨om, T0, T, c1, c2, c3, c4, c5, c6⟩ := core (src := src) (inp := inp) (outs := outs) hpick hA hg1 hv
    (fun _ a b _ => linear_key hv hinv b) (fun _ t _ => linear_key hv hinv t)
    (fun _ t ht => by
      obtain ⟨r, h1, h2⟩ := exists_entry hinv (Driven g S) (linear_driven S) ht
      exact ⟨r, gain_edge h1, h2⟩)
    (fun hp r k => by
      obtain ⟨t, h1, h2⟩ := exists_entry ((Matrix.isUnit_transpose (mat g)).mpr hinv) (Seen g outs) linear_seen (k.2 hp)
      exact ⟨t, gain_edge h1, h2⟩) hr
  refine ⟨om, T0, T, c1, c2, c3, c4, c5, fun v c t ht => ?_⟩
  obtain ⟨-, c7⟩ := c6 v c
  have hval : (outVal o : V) = - sgn o.negative := by
    unfold outVal sgn
    rw [ho]
    cases o.negative <;> simp
  rw [hval] at c7
  exact linear_finish hv hinv v c c7 t ht

/-- **C21** for a plain system `A y = source` (`scattering = False`, `A` invertible): the returned values are those of
`A⁻¹ source` up to the sign of `negative`. -/
theorem C21_linear (hpick : ∀ l, l ≠ [] → h.pick l ∈ l) (hA : A.Lawful) (hv : Valid g) (ho : o.scattering = false)
    (hinv : IsUnit (mat g)) {m : Dict N V} {om : Dict N V} {em : Dict (N × N) V}
    (hr : inverse_solve h A inv fuel o outs inp (some m) g = .ok (some om, em)) :
    (∀ t ∈ outs, (Dict.get? om t).getD 0 = sgn o.negative * ((mat g)⁻¹.mulVec (srcVec m)) t) ∧
    (∀ t, (Dict.get? om t).isSome → t ∈ outs) := by
  obtain ⟨om', T0, T, c1, c2, c3, -, -, c6⟩ := linear_core hpick hA hv ho hinv (src := some m) hr
  cases c1
  have t2 := c6 1 (fun _ => 0)
  have e : (fun n => srcVal (some m) n * (1 : V) + if n ∈ inp then (0 : V) else 0) = srcVec m := by
    funext n; simp [srcVal, srcVec]
  simp only [e] at t2
  refine ⟨fun t ht => ?_, c2⟩
  rw [c3 t ht, t2 t ht]
  simp

/-- **C21**, transfer edges of a plain system: a block of `A⁻¹`. -/
theorem C21_linear_transfer (hpick : ∀ l, l ≠ [] → h.pick l ∈ l) (hA : A.Lawful) (hv : Valid g) (ho : o.scattering = false)
    (hinv : IsUnit (mat g)) {r : Option (Dict N V)} {em : Dict (N × N) V}
    (hr : inverse_solve h A inv fuel o outs inp src g = .ok (r, em)) {i : N} (hi : i ∈ inp) {t : N} (ht : t ∈ outs) :
    (Dict.get? em (i, t)).getD 0 = sgn o.negative * (mat g)⁻¹ t i := by
  obtain ⟨om', T0, T, -, -, -, c4, c5, c6⟩ := linear_core hpick hA hv ho hinv hr
  have t2 := c6 0 (Pi.single i 1)
  have e : (fun n => srcVal src n * (0 : V) + if n ∈ inp then (Pi.single i 1 : N → V) n else 0) = Pi.single i 1 := by
    funext n
    rw [mul_zero, zero_add]
    by_cases hn : n = i
    · subst hn; rw [if_pos hi]
    · rw [Pi.single_eq_of_ne hn]; simp
  simp only [e] at t2
  have t3 := t2 t ht
  rw [Matrix.mulVec_single_one] at t3
  rw [c5 i hi]
  refine Eq.trans ?_ t3.symm
  rw [Finset.sum_eq_single i]
  · simp [hi]
  · intro b _ hb
    rw [Pi.single_eq_of_ne hb]; simp
  · intro hh; exact absurd (Finset.mem_univ i) hh

/-! ### C22 -/

/-- **C22**: on a scattering problem for which both finish, the default solver and the graph solver return the
same outputs and the same transfer edges.  The default solver has both purges on unless asked otherwise; with both off the
statement asks for an invertible system. -/
theorem C22_agree (hpick : ∀ l, l ≠ [] → h.pick l ∈ l) (hA : A.Lawful) (hv : Valid g) (ho : o.scattering = true)
    (hopt : o.purge_in = true ∨ o.purge_out = true ∨ IsUnit (1 - mat g)) {m : Dict N V} (hm : Dict.WF m)
    (hkeys : ∀ t ∈ Dict.keys m ++ inp ++ outs, Key g t)
    {o' : Graph.Opts N V} (hpick' : ∀ l, l ≠ [] → o'.pick l ∈ l) (hneg : o'.negative = o.negative)
    {om om' : Dict N V} {em em' : Dict (N × N) V}
    (hr : inverse_solve h A inv fuel o outs inp (some m) g = .ok (some om, em))
    (hr' : Graph.inverse_solve o' outs inp (some m) g = .ok (some om', em')) :
    (∀ t, (Dict.get? om t).getD 0 = (Dict.get? om' t).getD 0) ∧
    (∀ i ∈ inp, ∀ t ∈ outs, (Dict.get? em (i, t)).getD 0 = (Dict.get? em' (i, t)).getD 0) := by
  have hsrc : ∀ m', some m = some m' → Dict.WF m' := by rintro m' ⟨⟩; exact hm
  obtain ⟨a1, a2, a3⟩ := C21_solution hpick hA hv ho hkeys hr
  obtain ⟨b1, b2, -, b4⟩ := C12_solution hpick' hv hm hr'
  constructor
  · intro t
    by_cases ht : t ∈ outs
    · have : ∃ x, SolvesFor o g (Dict.keys m ++ inp) outs (srcVec m) x := by
        rcases hopt with q | q | q
        · exact a1 q
        · obtain ⟨x, hx⟩ := b1
          exact ⟨x, hx, fun q' => by rw [q] at q'; cases q'⟩
        · exact ⟨_, solvesFor_full q srcVec_off⟩
      obtain ⟨x, hx⟩ := this
      rw [a2 x hx t ht, b2 x hx.1 t ht, hneg]
    · have e1 : Dict.get? om t = none := by
        cases hh : Dict.get? om t with
        | none => rfl
        | some v => exact absurd (a3 t (by rw [hh]; rfl)) ht
      have e2 : Dict.get? om' t = none := by
        cases hh : Dict.get? om' t with
        | none => rfl
        | some v => exact absurd (b4 t (by rw [hh]; rfl)) ht
      rw [e1, e2]
  · intro i hi t ht
    obtain ⟨a1, a2, -⟩ := C21_transfer hpick hA hv ho (src := some m) hkeys hr hi
    obtain ⟨b1, b2⟩ := C13_transfer hpick' hv hsrc hr' hi
    have : ∃ x, SolvesFor o g (Dict.keys m ++ inp) outs (Pi.single i 1) x := by
      rcases hopt with q | q | q
      · exact a1 q
      · obtain ⟨x, hx⟩ := b1
        exact ⟨x, hx, fun q' => by rw [q] at q'; cases q'⟩
      · exact ⟨_, solvesFor_full q (fun n hn => Pi.single_eq_of_ne (fun hh : n = i => hn (by rw [hh]; exact List.mem_append_right _ hi)) _)⟩
    obtain ⟨x, hx⟩ := this
    rw [a2 x hx t ht, b2 x hx.1 t ht, hneg]

/-! ## Concrete cases

They run over the field of two elements, where the identity is a lawful absolute value, conjugate and square root; for
ℂ see `algC_lawful`. -/

section Examples

abbrev F2 := ZMod 2

instance : Fact (Nat.Prime 2) := ⟨Nat.prime_two⟩

def exA : Alg F2 := ⟨id, id, id⟩

theorem exA_lawful : exA.Lawful := by
  have sq : ∀ a : F2, a * a = a := by decide
  exact ⟨fun _ _ => rfl, fun _ _ => rfl, fun _ => rfl, fun _ => rfl, fun _ => rfl, fun _ => sq _, fun _ => rfl⟩

/-- Heuristics of the examples: `first` is the cheapest node, `b` says whether every node counts as badly scaled; the
large entries of a row are those off the diagonal. -/
def exH (first : Fin 3) (b : Bool) : Heur (WN (Fin 3)) F2 Nat where
  cost := fun _ a => if a = .node first then 0 else 1
  lt := fun a b => decide (a.1 < b.1)
  far := fun _ _ => false
  bad := fun _ _ => b
  big := fun _ a b => decide (a ≠ b)
  pick := fun l => l.headD .vac

theorem exH_pick (first : Fin 3) (b : Bool) : ∀ l, l ≠ [] → (exH first b).pick l ∈ l := by
  intro l hl
  cases l with
  | nil => exact absurd rfl hl
  | cons a l => exact List.mem_cons_self

def exO (s : Bool) : Opts := { scattering := s }

/-- Two loops `0 → 1 → 0` and `0 → 2 → 0`: `x0 = x1 + x2 + s`, `x1 = x0`, `x2 = x0`. -/
def exS : G (Fin 3) F2 where
  seq := [(0, [1, 2]), (1, [0]), (2, [0])]
  req := [(1, [0]), (2, [0]), (0, [1, 2])]
  em := [((0, 1), 1), ((0, 2), 1), ((1, 0), 1), ((2, 0), 1)]

theorem exS_valid : Valid exS := ⟨by decide, by decide, by decide, by decide, by decide +kernel⟩

/-- Runs of the example with reductions only, and with pivots. -/
theorem exS_run : inverse_solve (exH 0 false) exA (fun _ => []) 100 (exO true) [1] [0] (some [(0, 1)]) exS =
    .ok (some [(1, 1)], [((0, 1), 1)]) := by decide +kernel
theorem exS_run' : inverse_solve (exH 1 true) exA (fun _ => []) 100 (exO true) [1] [0] (some [(0, 1)]) exS =
    .ok (some [(1, 1)], [((0, 1), 1)]) := by decide +kernel

/-- The example meets the hypotheses of `C21_solution` (and has a solution). -/
example : ∃ x, SolvesFor (exO true) exS ([0] ++ [0]) [1] (srcVec [(0, 1)]) x :=
  (C21_solution (exH_pick 1 true) exA_lawful exS_valid rfl (by decide) exS_run').1 rfl

theorem exS_inv : IsUnit (1 - mat exS) := by
  rw [Matrix.isUnit_iff_isUnit_det, Matrix.det_fin_three]
  decide +kernel

/-- The example meets those of `C21_transfer_inverse`. -/
example : (1 : F2) = sgn false * (1 - mat exS)⁻¹ 1 0 := by
  have := C21_transfer_inverse (exH_pick 1 true) exA_lawful exS_valid rfl (by decide) exS_inv exS_run' (i := 0) (by simp) (t := 1) (by simp)
  refine Eq.trans ?_ this
  decide +kernel

/-- A plain system: `x1 = s0`, `x0 + x2 = s1`, `x0 = s2`, without a diagonal. -/
def exP : G (Fin 3) F2 where
  seq := [(0, [1, 2]), (1, [0]), (2, [1])]
  req := [(1, [0, 2]), (2, [0]), (0, [1])]
  em := [((0, 1), 1), ((0, 2), 1), ((1, 0), 1), ((2, 1), 1)]

theorem exP_valid : Valid exP := ⟨by decide, by decide, by decide, by decide, by decide +kernel⟩

theorem exP_inv : IsUnit (mat exP) := by
  rw [Matrix.isUnit_iff_isUnit_det, Matrix.det_fin_three]
  decide +kernel

theorem exP_run : inverse_solve (exH 0 true) exA (fun _ => []) 100 (exO false) [0, 2] [2] (some [(1, 1)]) exP =
    .ok (some [(2, 1)], [((2, 0), 1), ((2, 2), 1)]) := by decide +kernel

/-- The example meets the hypotheses of `C21_linear`. -/
example : ((mat exP)⁻¹.mulVec (srcVec [(1, 1)])) 2 = 1 := by
  have := (C21_linear (exH_pick 0 true) exA_lawful exP_valid rfl exP_inv exP_run).1 2 (by simp)
  have e : (Dict.get? [((2 : Fin 3), (1 : F2))] 2).getD 0 = 1 := by decide +kernel
  rw [e] at this
  refine Eq.trans ?_ this.symm
  show _ = 1 * _
  rw [one_mul]

/-- Options of the graph solver for the comparison. -/
def exGO : Graph.Opts (Fin 3) F2 where
  purge_in := true
  purge_out := true
  lt := fun a b => decide (a.1 < b.1)
  pick := fun l => l.headD .vac
  size := fun _ => 1

/-- A chain on which both solvers finish, as `C22_agree` asks for. -/
def exB : G (Fin 3) F2 where
  seq := [(0, [1]), (1, [2]), (2, [])]
  req := [(0, []), (1, [0]), (2, [1])]
  em := [((0, 1), 1), ((1, 2), 1)]

example : inverse_solve (exH 1 true) exA (fun _ => []) 100 (exO true) [2] [1] (some [(0, 1)]) exB =
    .ok (some [(2, 1)], [((1, 2), 1)]) ∧
    Graph.inverse_solve exGO [2] [1] (some [(0, 1)]) exB = .ok (some [(2, 1)], [((1, 2), 1)]) :=
  ⟨by decide +kernel, by decide +kernel⟩

/-- Without "sources and outputs occur in the graph" the claims of **C21** and **C22** are false of the code: a node
without edges that is source and output has no row in the matrix of the default solver, which returns nothing for it;
the graph solver returns the source. -/
theorem C22_isolated_node :
    inverse_solve (exH 0 true) exA (fun _ => []) 100 (exO true) [1] [] (some [(1, 1)]) ⟨[], [], []⟩ = .ok (some [], []) ∧
    Graph.inverse_solve exGO [1] [] (some [(1, 1)]) ⟨[], [], []⟩ = .ok (some [(1, 1)], []) :=
  ⟨by decide +kernel, by decide +kernel⟩

end Examples

end Dag
