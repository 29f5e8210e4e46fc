import Verif.Sci.Total

/-!
# The scipy solver (C105)

`Lawful L` is what is trusted about `set.pop`, `sort` and `spsolve`.  The statements are those of the default solver (C21), plus that a run on
an invertible system returns.
-/

set_option linter.unusedSectionVars false

namespace Sci
open Py Graph Dag

variable {N : Type} {V : Type} [DecidableEq N] [Field V] [DecidableEq V] [Fintype N]
variable {L : Lib (WN N) V} {o : Opts} {outs inp : List N} {src : Option (Dict N V)} {g g1 : G N V}

/-! ### Scattering problems -/

theorem scatter_prepare (hL : Lawful L) (hv : Valid g) (ho : o.scattering = true) (hg1 : scatterStep o outs inp src g = .ok g1) :
    ∃ d, prepare L.pick o outs inp src g = .ok d ∧ Prep (Kept o g1 (srcKeys src ++ inp) outs) (- outVal o) outs inp src g1 d := by
  have s := scatterStep_shift hv ho hg1
  have hkS : ∀ t ∈ srcKeys src ++ inp, Scat outs inp src g t := fun t ht => Or.inr (List.mem_append_left _ ht)
  exact prepare_spec hL hg1 s.valid
    (fun _ a b e => (s.key b).mpr (by
      rcases (s.edge a b).mp e with e | ⟨rfl, k⟩
      · exact s.right hv _ _ e
      · exact k))
    (fun _ t ht => (s.key t).mpr (Or.inr ht))
    (fun _ t ht => ⟨t, s.self (s.driven hv hkS ((driven_shift s _ t).mp ht)), ht⟩)
    (fun hp r k => ⟨r, s.self (s.kept hv hkS k), k.2 hp⟩)

theorem scatterStep_of_run (hne : (outs.isEmpty || (src.isNone && inp.isEmpty)) = false) {r : Option (Dict N V)} {em : Dict (N × N) V}
    (hr : inverse_solve L o outs inp src g = .ok (r, em)) : ∃ g1, scatterStep o outs inp src g = .ok g1 := by
  cases hs : scatterStep o outs inp src g with
  | ok g1 => exact ⟨g1, rfl⟩
  | error e =>
    unfold inverse_solve prepare at hr
    rw [hne, hs] at hr
    cases hr

/-- Everything a finished scattering run tells. -/
theorem scattering_core (hL : Lawful L) (hv : Valid g) (ho : o.scattering = true)
    (hne : (outs.isEmpty || (src.isNone && inp.isEmpty)) = false)
    {r : Option (Dict N V)} {em : Dict (N × N) V} (hr : inverse_solve L o outs inp src g = .ok (r, em)) :
    ∃ (om : Dict N V) (T0 : N → V) (T : N → N → V), r = src.map (fun _ => om) ∧
      (∀ t, (Dict.get? om t).isSome → t ∈ outs) ∧ (∀ t ∈ outs, (Dict.get? om t).getD 0 = T0 t) ∧
      (∀ i t, (Dict.get? em (i, t)).isSome → i ∈ inp) ∧ (∀ i ∈ inp, ∀ t, (Dict.get? em (i, t)).getD 0 = T i t) ∧
      ∀ (v : V) (c : N → V),
        (o.purge_in = true → ∃ x, SolvesFor o g (srcKeys src ++ inp) outs (fun t => srcVal src t * v + if t ∈ inp then c t else 0) x) ∧
        ∀ x, SolvesFor o g (srcKeys src ++ inp) outs (fun t => srcVal src t * v + if t ∈ inp then c t else 0) x →
          ∀ t ∈ outs, sgn o.negative * x t = T0 t * v + ∑ i, if i ∈ inp then T i t * c i else 0 := by
  obtain ⟨g1, hg1⟩ := scatterStep_of_run hne hr
  have s := scatterStep_shift hv ho hg1
  obtain ⟨d, hd, hp⟩ := scatter_prepare hL hv ho hg1
  obtain ⟨om, T0, T, c1, c2, c3, c4, c5, c6⟩ := core hL hne hd hp hr
  refine ⟨om, T0, T, c1, c2, c3, c4, c5, fun v c => ?_⟩
  obtain ⟨hx0, c7⟩ := c6 v c
  have hval : (outVal o : V) = sgn o.negative := by
    unfold outVal sgn
    rw [ho]
    cases o.negative <;> simp
  rw [hval] at c7
  exact scattering_finish s hv (fun t ht => Or.inr ht) v c hx0 c7

theorem empty_run (he : outs = []) {r : Option (Dict N V)} {em : Dict (N × N) V}
    (hr : inverse_solve L o outs inp src g = .ok (r, em)) : r = some [] ∧ em = [] := by
  subst he
  unfold inverse_solve at hr
  rw [if_pos (show (([] : List N).isEmpty || (src.isNone && inp.isEmpty)) = true from rfl)] at hr
  cases hr
  exact ⟨rfl, rfl⟩

/-- **C105** for a scattering problem: when the run returns, every solution of `x = M x + source` (undriven nodes at rest) has the
returned values at the outputs, up to the sign of `negative`; only outputs are returned; with `purge_in` and some output a solution
exists. -/
theorem C105_solution (hL : Lawful L) (hv : Valid g) (ho : o.scattering = true) {m : Dict N V} {om : Dict N V} {em : Dict (N × N) V}
    (hr : inverse_solve L o outs inp (some m) g = .ok (some om, em)) :
    (outs ≠ [] → o.purge_in = true → ∃ x, SolvesFor o g (Dict.keys m ++ inp) outs (srcVec m) x) ∧
    (∀ x, SolvesFor o g (Dict.keys m ++ inp) outs (srcVec m) x → ∀ t ∈ outs, (Dict.get? om t).getD 0 = sgn o.negative * x t) ∧
    (∀ t, (Dict.get? om t).isSome → t ∈ outs) := by
  by_cases he : outs = []
  · obtain ⟨e, -⟩ := empty_run he hr
    cases e
    exact ⟨fun q => absurd he q, fun x _ t ht => by rw [he] at ht; simp at ht, fun t ht => by cases ht⟩
  · have hne : (outs.isEmpty || ((some m).isNone && inp.isEmpty)) = false := by
      cases outs with
      | nil => exact absurd rfl he
      | cons a l => rfl
    obtain ⟨om', T0, T, c1, c2, c3, -, -, c6⟩ := scattering_core hL hv ho (src := some m) hne hr
    cases c1
    obtain ⟨t1, t2⟩ := c6 1 (fun _ => 0)
    have e : (fun n => srcVal (some m) n * (1 : V) + if n ∈ inp then (0 : V) else 0) = srcVec m := by
      funext n; simp [srcVal, srcVec]
    simp only [e] at t1 t2
    refine ⟨fun _ => t1, fun x hx t ht => ?_, c2⟩
    rw [c3 t ht, t2 x hx t ht]
    simp

/-- **C105** for an invertible scattering problem: the returned values are those of `(1 - M)⁻¹ source`. -/
theorem C105_inverse (hL : Lawful L) (hv : Valid g) (ho : o.scattering = true) (hinv : IsUnit (1 - mat g)) {m : Dict N V} {om : Dict N V}
    {em : Dict (N × N) V} (hr : inverse_solve L o outs inp (some m) g = .ok (some om, em)) :
    ∀ t ∈ outs, (Dict.get? om t).getD 0 = sgn o.negative * ((1 - mat g)⁻¹.mulVec (srcVec m)) t :=
  (C105_solution hL hv ho hr).2.1 _ (solvesFor_full hinv srcVec_off)

theorem not_empty {i t : N} (hi : i ∈ inp) (ht : t ∈ outs) : (outs.isEmpty || (src.isNone && inp.isEmpty)) = false := by
  cases outs with
  | nil => simp at ht
  | cons a l =>
    cases inp with
    | nil => simp at hi
    | cons b l => simp

/-- **C105**, transfer edges of a scattering problem: the edge from input `i` to output `t` is the response at `t` to a unit source at
`i`, up to the sign of `negative`. -/
theorem C105_transfer (hL : Lawful L) (hv : Valid g) (ho : o.scattering = true) {r : Option (Dict N V)} {em : Dict (N × N) V}
    (hr : inverse_solve L o outs inp src g = .ok (r, em)) {i : N} (hi : i ∈ inp) {t : N} (ht : t ∈ outs) :
    (o.purge_in = true → ∃ x, SolvesFor o g (srcKeys src ++ inp) outs (Pi.single i 1) x) ∧
    (∀ x, SolvesFor o g (srcKeys src ++ inp) outs (Pi.single i 1) x → (Dict.get? em (i, t)).getD 0 = sgn o.negative * x t) ∧
    (∀ i t, (Dict.get? em (i, t)).isSome → i ∈ inp) := by
  obtain ⟨om', T0, T, -, -, -, c4, c5, c6⟩ := scattering_core hL hv ho (not_empty hi ht) hr
  obtain ⟨t1, t2⟩ := c6 0 (Pi.single i 1)
  have e : (fun n => srcVal src n * (0 : V) + if n ∈ inp then (Pi.single i 1 : N → V) n else 0) = Pi.single i 1 := by
    funext n
    rw [mul_zero, zero_add]
    by_cases hn : n = i
    · subst hn; rw [if_pos hi]
    · rw [Pi.single_eq_of_ne hn]; simp
  simp only [e] at t1 t2
  refine ⟨t1, fun x hx => ?_, c4⟩
  rw [c5 i hi, t2 x hx t ht, Finset.sum_eq_single i]
  · simp [hi]
  · intro b _ hb
    rw [Pi.single_eq_of_ne hb]; simp
  · intro hh; exact absurd (Finset.mem_univ i) hh

/-- **C105**: the transfer edges of an invertible scattering problem are a block of `(1 - M)⁻¹`. -/
theorem C105_transfer_inverse (hL : Lawful L) (hv : Valid g) (ho : o.scattering = true) (hinv : IsUnit (1 - mat g)) {r : Option (Dict N V)}
    {em : Dict (N × N) V} (hr : inverse_solve L o outs inp src g = .ok (r, em)) {i : N} (hi : i ∈ inp) {t : N} (ht : t ∈ outs) :
    (Dict.get? em (i, t)).getD 0 = sgn o.negative * (1 - mat g)⁻¹ t i := by
  rw [(C105_transfer hL hv ho hr hi ht).2.1 _ (solvesFor_full hinv (fun n hn => ?_)), Matrix.mulVec_single_one]
  · rfl
  · have : n ≠ i := fun hh => hn (hh ▸ List.mem_append_right _ hi)
    exact Pi.single_eq_of_ne this _

/-! ### Plain linear systems -/

theorem linear_prepare (hL : Lawful L) (hv : Valid g) (ho : o.scattering = false) (hinv : IsUnit (mat g)) :
    scatterStep o outs inp src g = .ok g ∧
    ∃ d, prepare L.pick o outs inp src g = .ok d ∧ Prep (Kept o g (srcKeys src ++ inp) outs) (- outVal o) outs inp src g d := by
  have hg1 : scatterStep o outs inp src g = .ok g := by
    unfold scatterStep
    rw [ho]
    rfl
  exact ⟨hg1, prepare_spec hL hg1 hv (fun _ a b _ => linear_key hv hinv b) (fun _ t _ => linear_key hv hinv t)
    (fun _ t ht => by
      obtain ⟨r, h1, h2⟩ := exists_entry hinv (Driven g (srcKeys src ++ inp)) (linear_driven _) ht
      exact ⟨r, gain_edge h1, h2⟩)
    (fun hp r k => by
      obtain ⟨t, h1, h2⟩ := exists_entry ((Matrix.isUnit_transpose (mat g)).mpr hinv) (Seen g outs) linear_seen (k.2 hp)
      exact ⟨t, gain_edge h1, h2⟩)⟩

theorem linear_core (hL : Lawful L) (hv : Valid g) (ho : o.scattering = false) (hinv : IsUnit (mat g))
    (hne : (outs.isEmpty || (src.isNone && inp.isEmpty)) = false)
    {r : Option (Dict N V)} {em : Dict (N × N) V} (hr : inverse_solve L o outs inp src g = .ok (r, em)) :
    ∃ (om : Dict N V) (T0 : N → V) (T : N → N → V), r = src.map (fun _ => om) ∧
      (∀ t, (Dict.get? om t).isSome → t ∈ outs) ∧ (∀ t ∈ outs, (Dict.get? om t).getD 0 = T0 t) ∧
      (∀ i t, (Dict.get? em (i, t)).isSome → i ∈ inp) ∧ (∀ i ∈ inp, ∀ t, (Dict.get? em (i, t)).getD 0 = T i t) ∧
      ∀ (v : V) (c : N → V), ∀ t ∈ outs, sgn o.negative * ((mat g)⁻¹.mulVec (fun t => srcVal src t * v + if t ∈ inp then c t else 0)) t =
        T0 t * v + ∑ i, if i ∈ inp then T i t * c i else 0 := by
  obtain ⟨hg1, d, hd, hp⟩ := linear_prepare (outs := outs) (inp := inp) (src := src) hL hv ho hinv
  obtain ⟨om, T0, T, c1, c2, c3, c4, c5, c6⟩ := core hL hne hd hp hr
  refine ⟨om, T0, T, c1, c2, c3, c4, c5, fun v c t ht => ?_⟩
  obtain ⟨-, c7⟩ := c6 v c
  have hval : (outVal o : V) = - sgn o.negative := by
    unfold outVal sgn
    rw [ho]
    cases o.negative <;> simp
  rw [hval] at c7
  exact linear_finish hv hinv v c c7 t ht

/-- **C105** for a plain system `A y = source` (`scattering = False`, `A` invertible): the returned values are those of `A⁻¹ source` up to
the sign of `negative`. -/
theorem C105_linear (hL : Lawful L) (hv : Valid g) (ho : o.scattering = false) (hinv : IsUnit (mat g)) {m : Dict N V} {om : Dict N V}
    {em : Dict (N × N) V} (hr : inverse_solve L o outs inp (some m) g = .ok (some om, em)) :
    (∀ t ∈ outs, (Dict.get? om t).getD 0 = sgn o.negative * ((mat g)⁻¹.mulVec (srcVec m)) t) ∧
    (∀ t, (Dict.get? om t).isSome → t ∈ outs) := by
  by_cases he : outs = []
  · obtain ⟨e, -⟩ := empty_run he hr
    cases e
    exact ⟨fun t ht => by rw [he] at ht; simp at ht, fun t ht => by cases ht⟩
  · have hne : (outs.isEmpty || ((some m).isNone && inp.isEmpty)) = false := by
      cases outs with
      | nil => exact absurd rfl he
      | cons a l => rfl
    obtain ⟨om', T0, T, c1, c2, c3, -, -, c6⟩ := linear_core hL hv ho hinv (src := some m) hne hr
    cases c1
    have t2 := c6 1 (fun _ => 0)
    have e : (fun n => srcVal (some m) n * (1 : V) + if n ∈ inp then (0 : V) else 0) = srcVec m := by
      funext n; simp [srcVal, srcVec]
    simp only [e] at t2
    refine ⟨fun t ht => ?_, c2⟩
    rw [c3 t ht, t2 t ht]
    simp

/-- **C105**, transfer edges of a plain system: a block of `A⁻¹`. -/
theorem C105_linear_transfer (hL : Lawful L) (hv : Valid g) (ho : o.scattering = false) (hinv : IsUnit (mat g)) {r : Option (Dict N V)}
    {em : Dict (N × N) V} (hr : inverse_solve L o outs inp src g = .ok (r, em)) {i : N} (hi : i ∈ inp) {t : N} (ht : t ∈ outs) :
    (Dict.get? em (i, t)).getD 0 = sgn o.negative * (mat g)⁻¹ t i := by
  obtain ⟨om', T0, T, -, -, -, c4, c5, c6⟩ := linear_core hL hv ho hinv (not_empty hi ht) hr
  have t2 := c6 0 (Pi.single i 1)
  have e : (fun n => srcVal src n * (0 : V) + if n ∈ inp then (Pi.single i 1 : N → V) n else 0) = Pi.single i 1 := by
    funext n
    rw [mul_zero, zero_add]
    by_cases hn : n = i
    · subst hn; rw [if_pos hi]
    · rw [Pi.single_eq_of_ne hn]; simp
  simp only [e] at t2
  have t3 := t2 t ht
  rw [Matrix.mulVec_single_one] at t3
  rw [c5 i hi]
  refine Eq.trans ?_ t3.symm
  rw [Finset.sum_eq_single i]
  · simp [hi]
  · intro b _ hb
    rw [Pi.single_eq_of_ne hb]; simp
  · intro hh; exact absurd (Finset.mem_univ i) hh

/-! ### Runs that return -/

/-- A matrix that is invertible has only the zero solution on the kept nodes. -/
theorem kept_unique {B : Matrix N N V} (hB : IsUnit B) (K D S : N → Prop) (hK : ∀ n, K n ↔ D n ∧ S n)
    (hD : ∀ t r, ¬ D t → D r → B t r = 0) (hS : ∀ t r, S t → ¬ S r → B t r = 0) {z : N → V} (h0 : ∀ n, ¬ K n → z n = 0)
    (hz : ∀ t, K t → B.mulVec z t = 0) : ∀ n, z n = 0 := by
  intro n
  by_cases hn : K n
  · refine supp_inv hB (fun n => ¬ S n) (fun t r ht hr => hS t r (not_not.mp ht) hr) (x := z) (b := B.mulVec z) (fun t ht => ?_) rfl n
      (not_not.mpr ((hK n).mp hn).2)
    by_cases hd : D t
    · exact hz t ((hK t).mpr ⟨hd, not_not.mp ht⟩)
    · apply Finset.sum_eq_zero
      intro r _
      show B t r * z r = 0
      by_cases hr : D r
      · rw [hD t r hd hr, zero_mul]
      · rw [h0 r (fun q => hr ((hK r).mp q).1), mul_zero]
  · exact h0 n hn

/-- **C105**: on an invertible scattering problem the run returns, if some source or input reaches an output, the sorts do not raise and
nodes listed as their own successor have an edge to themselves. -/
theorem C105_returns (hL : Lawful L) (hso : Sorts L) (hv : Valid g) (ho : o.scattering = true) (hinv : IsUnit (1 - mat g))
    (hl : ∀ n, n ∈ g.succ n → (Dict.get? g.em (n, n)).isSome) (hst : ∃ s ∈ srcKeys src ++ inp, Seen g outs s) :
    ∃ r em, inverse_solve L o outs inp src g = .ok (r, em) := by
  classical
  obtain ⟨s0, hs0, hseen⟩ := hst
  have hne : (outs.isEmpty || (src.isNone && inp.isEmpty)) = false := by
    obtain ⟨t, ht, _⟩ := hseen
    cases outs with
    | nil => simp at ht
    | cons a l =>
      cases inp with
      | cons b l => simp
      | nil =>
        cases src with
        | none => simp [srcKeys] at hs0
        | some m => simp
  obtain ⟨g1, hg1⟩ : ∃ g1, scatterStep o outs inp src g = .ok g1 := by
    unfold scatterStep
    rw [if_pos ho]
    exact scatter_ok _ g scatter_keys_nodup (fun n _ h => hl n h)
  have s := scatterStep_shift hv ho hg1
  obtain ⟨d, hd, hp⟩ := scatter_prepare hL hv ho hg1
  have hkS : ∀ t ∈ srcKeys src ++ inp, Scat outs inp src g t := fun t ht => Or.inr (List.mem_append_left _ ht)
  have hsub : Sub g1.seq g1.req := by
    intro w hw
    rw [s.key]
    have := hg1
    unfold scatterStep at this
    rw [if_pos ho] at this
    rcases scatter_req _ _ _ this w hw with q | q
    · exact Or.inl (Or.inr q)
    · exact (mem_scat w).mp q
  set S := srcKeys src ++ inp with hS
  have hdr : Driven g1 S s0 := ⟨s0, hs0, .refl⟩
  refine core_ok hL hso hne hd hp (prepare_sub hg1 hsub hd) ⟨s0, hs0, ?_, fun _ => (seen_shift s outs s0).mpr hseen⟩ ?_
  · by_cases hpi : o.purge_in = true
    · rw [if_pos hpi]; exact hdr
    · rw [if_neg hpi]; exact (s.key s0).mpr (hkS s0 hs0)
  intro z h0 hz
  set D : N → Prop := fun n => if o.purge_in = true then Driven g1 S n else Dict.has g1.seq n = true with hDd
  have hDQ : ∀ n, D n → Scat outs inp src g n := by
    intro n hn
    by_cases hpi : o.purge_in = true
    · rw [hDd] at hn
      simp only [if_pos hpi] at hn
      exact s.driven hv hkS ((driven_shift s S n).mp hn)
    · rw [hDd] at hn
      simp only [if_neg hpi] at hn
      exact (s.key n).mp hn
  have closed : ∀ t r, ¬ D t → D r → ¬ Edge g r t := by
    intro t r ht hr e
    apply ht
    by_cases hpi : o.purge_in = true
    · rw [hDd] at hr ⊢
      simp only [if_pos hpi] at hr ⊢
      obtain ⟨u, u1, u2⟩ := hr
      exact ⟨u, u1, u2.tail ((s.edge r t).mpr (Or.inl e))⟩
    · rw [hDd]
      simp only [if_neg hpi]
      exact (s.key t).mpr (s.right hv _ _ e)
  have off : ∀ t r, t ≠ r → ¬ Edge g r t → (1 - mat g) t r = 0 := by
    intro t r hne' he
    rw [Matrix.sub_apply, Matrix.one_apply_ne hne', zero_sub, neg_eq_zero]
    by_contra q
    exact he (gain_edge q)
  refine kept_unique hinv (Kept o g1 S outs) D (fun n => o.purge_out = true → Seen g1 outs n) (fun n => Iff.rfl)
    (fun t r ht hr => off t r (fun e => ht (e ▸ hr)) (closed t r ht hr)) (fun t r ht hr => ?_) h0 (fun t ht => ?_)
  · refine off t r (fun e => hr (e ▸ ht)) (fun e => hr (fun q => ?_))
    obtain ⟨u, u1, u2⟩ := ht q
    exact ⟨u, u1, u2.head ((s.edge r t).mpr (Or.inl e))⟩
  · have h1 := hz t ht
    have hQ := hDQ t ht.1
    have e1 : ∀ r, gain g1 r t * z r = gain g r t * z r - if r = t then z r else 0 := by
      intro r
      rw [s.gain]
      by_cases hrt : r = t
      · subst hrt; rw [if_pos ⟨rfl, hQ⟩, if_pos rfl]; ring
      · rw [if_neg (fun q => hrt q.1), if_neg hrt]; ring
    rw [Finset.sum_congr rfl (fun r _ => e1 r), Finset.sum_sub_distrib, Finset.sum_ite_eq' Finset.univ t z, if_pos (Finset.mem_univ t)] at h1
    rw [Matrix.sub_mulVec, Matrix.one_mulVec, Pi.sub_apply]
    have : (mat g).mulVec z t = ∑ r, gain g r t * z r := rfl
    rw [this]
    linear_combination -h1

/-- **C105**: on an invertible plain system the run returns, if some source or input reaches an output and the sorts do not raise. -/
theorem C105_linear_returns (hL : Lawful L) (hso : Sorts L) (hv : Valid g) (ho : o.scattering = false) (hinv : IsUnit (mat g))
    (hst : ∃ s ∈ srcKeys src ++ inp, Seen g outs s) : ∃ r em, inverse_solve L o outs inp src g = .ok (r, em) := by
  classical
  obtain ⟨s0, hs0, hseen⟩ := hst
  have hne : (outs.isEmpty || (src.isNone && inp.isEmpty)) = false := by
    obtain ⟨t, ht, _⟩ := hseen
    cases outs with
    | nil => simp at ht
    | cons a l =>
      cases inp with
      | cons b l => simp
      | nil =>
        cases src with
        | none => simp [srcKeys] at hs0
        | some m => simp
  obtain ⟨hg1, d, hd, hp⟩ := linear_prepare (outs := outs) (inp := inp) (src := src) hL hv ho hinv
  have keyA := linear_key hv hinv
  refine core_ok hL hso hne hd hp (prepare_sub hg1 (fun w _ => keyA w) hd) ⟨s0, hs0, ?_, fun _ => hseen⟩ ?_
  · by_cases hpi : o.purge_in = true
    · rw [if_pos hpi]; exact ⟨s0, hs0, .refl⟩
    · rw [if_neg hpi]; exact keyA s0
  intro z h0 hz
  refine kept_unique hinv (Kept o g (srcKeys src ++ inp) outs)
    (fun n => if o.purge_in = true then Driven g (srcKeys src ++ inp) n else Dict.has g.seq n = true)
    (fun n => o.purge_out = true → Seen g outs n) (fun n => Iff.rfl) (fun t r ht hr => ?_) (fun t r ht hr => ?_) h0 (fun t ht => hz t ht)
  · by_cases hpi : o.purge_in = true
    · rw [if_pos hpi] at ht hr
      exact linear_driven _ t r ht hr
    · rw [if_neg hpi] at ht
      exact absurd (keyA t) ht
  · by_contra q
    apply hr
    intro hq
    obtain ⟨u, u1, u2⟩ := ht hq
    exact ⟨u, u1, u2.head (gain_edge q)⟩

/-! ### Agreement with the default solver -/

/-- **C106** when sources, inputs and outputs occur in the graph: on a scattering problem for which both return, the scipy solver and the default solver give the same outputs and the same
transfer edges. -/
theorem C106_agree_partial (hL : Lawful L) (hv : Valid g) (ho : o.scattering = true) (hopt : o.purge_in = true ∨ IsUnit (1 - mat g))
    {m : Dict N V} (hkeys : ∀ t ∈ Dict.keys m ++ inp ++ outs, Key g t) {C : Type} {h : Heur (WN N) V C} {A : Alg V} {inv : Nat → List (WN N)}
    {fuel : Nat} (hpick : ∀ l, l ≠ [] → h.pick l ∈ l) (hA : A.Lawful) {om om' : Dict N V} {em em' : Dict (N × N) V}
    (hr : inverse_solve L o outs inp (some m) g = .ok (some om, em))
    (hr' : Dag.inverse_solve h A inv fuel o outs inp (some m) g = .ok (some om', em')) :
    (∀ t, (Dict.get? om t).getD 0 = (Dict.get? om' t).getD 0) ∧
    (∀ i ∈ inp, ∀ t ∈ outs, (Dict.get? em (i, t)).getD 0 = (Dict.get? em' (i, t)).getD 0) := by
  obtain ⟨a1, a2, a3⟩ := C105_solution hL hv ho hr
  obtain ⟨b1, b2, b3⟩ := C21_solution hpick hA hv ho hkeys hr'
  constructor
  · intro t
    by_cases ht : t ∈ outs
    · have : ∃ x, SolvesFor o g (Dict.keys m ++ inp) outs (srcVec m) x := by
        rcases hopt with q | q
        · exact b1 q
        · exact ⟨_, solvesFor_full q srcVec_off⟩
      obtain ⟨x, hx⟩ := this
      rw [a2 x hx t ht, b2 x hx t ht]
    · have e1 : Dict.get? om t = none := by
        cases hh : Dict.get? om t with
        | none => rfl
        | some v => exact absurd (a3 t (by rw [hh]; rfl)) ht
      have e2 : Dict.get? om' t = none := by
        cases hh : Dict.get? om' t with
        | none => rfl
        | some v => exact absurd (b3 t (by rw [hh]; rfl)) ht
      rw [e1, e2]
  · intro i hi t ht
    obtain ⟨a1, a2, -⟩ := C105_transfer hL hv ho hr hi ht
    obtain ⟨b1, b2, -⟩ := C21_transfer hpick hA hv ho (src := some m) hkeys hr' hi
    have : ∃ x, SolvesFor o g (Dict.keys m ++ inp) outs (Pi.single i 1) x := by
      rcases hopt with q | q
      · exact a1 q
      · exact ⟨_, solvesFor_full q (fun n hn => Pi.single_eq_of_ne (fun hh : n = i => hn (by rw [hh]; exact List.mem_append_right _ hi)) _)⟩
    obtain ⟨x, hx⟩ := this
    rw [a2 x hx, b2 x hx t ht]

end Sci
