import Verif.Dag.Kept

/-! # The whole run -/

set_option linter.unusedSectionVars false

namespace Dag
open Py Graph

variable {N : Type} {V : Type} {C : Type} [DecidableEq N] [Field V] [DecidableEq V] [Fintype N]
variable {K : N → Prop} {value : V} {outs inp : List N} {src : Option (Dict N V)} {g : G N V} {d : D (WN N) V}

/-- Kinds of the dressed names. -/
def wkind : WN N → Kind
  | .node _ => .int
  | .vac => .src
  | .inp _ => .src
  | .out _ => .snk

theorem gain_eq (g : G N V) (a b : N) : (Dict.get? g.em (a, b)).getD 0 = gain g a b := rfl

theorem Prep.sound (h : Prep K value outs inp src g d) : Sound wkind (fun w => Dict.has d.seq w = true) d := by
  have hs := h.hs
  refine ⟨h.mir, ?_, ?_, ?_, ?_, ?_, ?_, h.ls, h.lr, h.la, h.lb⟩
  · intro r s q
    obtain ⟨a, b, rfl, rfl, _, k1, k2⟩ := (h.sq _ _).mp q
    exact ⟨(hs _).mpr ⟨a, rfl, k1⟩, (hs _).mpr ⟨b, rfl, k2⟩⟩
  · intro r q
    obtain ⟨n, rfl, _⟩ := (hs _).mp q
    rfl
  · intro a s q
    obtain ⟨t, rfl, k, e⟩ := (h.al _ _).mp q
    refine ⟨?_, Or.inl ((hs _).mpr ⟨t, rfl, k⟩)⟩
    rcases e with ⟨rfl, _⟩ | ⟨rfl, _⟩ <;> rfl
  · intro r b q
    obtain ⟨t, rfl, k, rfl, _⟩ := (h.be _ _).mp q
    exact ⟨rfl, Or.inl ((hs _).mpr ⟨t, rfl, k⟩)⟩
  · rintro r s (q | q | q)
    · obtain ⟨a, b, rfl, rfl, e, k1, k2⟩ := (h.sq _ _).mp q
      rw [h.em _ _ (fun n e => by cases e; exact k1)]
      exact e
    · obtain ⟨t, rfl, k, rfl, ht⟩ := (h.be _ _).mp q
      rw [h.em _ _ (fun n e => by cases e; exact k)]
      simp [em0, ht]
    · obtain ⟨t, rfl, k, e⟩ := (h.al _ _).mp q
      rcases e with ⟨rfl, e⟩ | ⟨rfl, e⟩
      · rw [h.em _ _ (fun n e => by cases e)]
        exact mem_srcKeys.mp e
      · rw [h.em _ _ (fun n e => by cases e)]
        simp [em0, e]
  · intro r s hr hs' q
    have kr : ∀ n, r = .node n → K n := by
      rintro n rfl
      obtain ⟨m, e, k⟩ := (hs _).mp (hr rfl)
      cases e
      exact k
    have ks : ∀ n, s = .node n → K n := by
      rintro n rfl
      obtain ⟨m, e, k⟩ := (hs _).mp (hs' rfl)
      cases e
      exact k
    rw [h.em _ _ kr] at q
    cases r with
    | node r =>
      cases s with
      | node s => exact Or.inl ((h.sq _ _).mpr ⟨r, s, rfl, rfl, q, kr r rfl, ks s rfl⟩)
      | out s =>
        replace q : (if r = s ∧ r ∈ outs then some value else none).isSome = true := q
        split at q
        · rename_i hh
          exact Or.inr (Or.inl ((h.be _ _).mpr ⟨r, rfl, kr r rfl, by rw [hh.1], hh.2⟩))
        · cases q
      | vac => cases q
      | inp s => cases q
    | vac =>
      cases s with
      | node s => exact Or.inr (Or.inr ((h.al _ _).mpr ⟨s, rfl, ks s rfl, Or.inl ⟨rfl, mem_srcKeys.mpr q⟩⟩))
      | out s => cases q
      | vac => cases q
      | inp s => cases q
    | inp r =>
      cases s with
      | node s =>
        replace q : (if r = s ∧ r ∈ inp then some (1 : V) else none).isSome = true := q
        split at q
        · rename_i hh
          exact Or.inr (Or.inr ((h.al _ _).mpr ⟨s, rfl, ks s rfl, Or.inr ⟨by rw [hh.1], hh.1 ▸ hh.2⟩⟩))
        · cases q
      | out s => cases q
      | vac => cases q
      | inp s => cases q
    | out r => cases s <;> cases q

theorem Cw_of_not {d : D (WN N) V} {a b : WN N} (h : ¬ Listed d a b) : Cw d a b = 0 := by
  unfold Cw; rw [if_neg h]

theorem Prep.cw_em (h : Prep K value outs inp src g d) {a b : WN N} (ha : ∀ n, a = .node n → K n) (hb : ∀ n, b = .node n → K n) :
    Cw d a b = (em0 value outs inp src g a b).getD 0 := by
  rw [← h.em a b ha]
  by_cases hl : Listed d a b
  · unfold Cw; rw [if_pos hl]
  · rw [Cw_of_not hl]
    cases hg : Dict.get? d.em (a, b) with
    | none => rfl
    | some v =>
      refine absurd (h.sound.used a b ?_ ?_ (by rw [hg]; rfl)) hl
      · intro e
        cases a <;> first | cases e; done | skip
        rename_i n
        exact (h.hs _).mpr ⟨n, rfl, ha n rfl⟩
      · intro e
        cases b <;> first | cases e; done | skip
        rename_i n
        exact (h.hs _).mpr ⟨n, rfl, hb n rfl⟩

theorem Prep.cw_off (h : Prep K value outs inp src g d) {a b : WN N} (hn : ∃ n, (a = .node n ∨ b = .node n) ∧ ¬ K n) : Cw d a b = 0 := by
  obtain ⟨n, hab, hk⟩ := hn
  apply Cw_of_not
  rintro (q | q | q)
  · obtain ⟨r, t, rfl, rfl, _, k1, k2⟩ := (h.sq _ _).mp q
    rcases hab with e | e <;> cases e
    · exact hk k1
    · exact hk k2
  · obtain ⟨t, rfl, k, rfl, _⟩ := (h.be _ _).mp q
    rcases hab with e | e <;> cases e
    exact hk k
  · obtain ⟨t, rfl, k, e'⟩ := (h.al _ _).mp q
    rcases hab with e | e
    · subst e
      rcases e' with ⟨e, _⟩ | ⟨e, _⟩ <;> cases e
    · cases e
      exact hk k


/-- `x` vanishes off the kept nodes and solves the homogeneous form of the system there. -/
structure Sys (K : N → Prop) (g : G N V) (b : N → V) (x : N → V) : Prop where
  off : ∀ n, ¬ K n → x n = 0
  eqn : ∀ t, K t → (∑ r, gain g r t * x r) + b t = 0

theorem Prep.behav (h : Prep K value outs inp src g d) (p : WN N → V) :
    Behav wkind (fun w => Dict.has d.seq w = true) d p ↔
      ∃ x, Sys K g (fun t => srcVal src t * p .vac + if t ∈ inp then p (.inp t) else 0) x ∧
        ∀ o, p (.out o) = if o ∈ outs then value * x o else 0 := by
  classical
  -- the sums into a kept node and into an output
  have into : ∀ (y : WN N → V) t, K t → ∑ r, Cw d r (.node t) * y r =
      (∑ r, gain g r t * (if K r then y (.node r) else 0)) + (srcVal src t * y .vac + if t ∈ inp then y (.inp t) else 0) := by
    intro y t ht
    have hb : ∀ n, WN.node t = .node n → K n := by rintro n e; cases e; exact ht
    rw [sum_wn]
    have e1 : ∀ r, Cw d (.node r) (.node t) * y (.node r) = gain g r t * (if K r then y (.node r) else 0) := by
      intro r
      by_cases hr : K r
      · rw [h.cw_em (by rintro n e; cases e; exact hr) hb, if_pos hr]; rfl
      · rw [h.cw_off ⟨r, Or.inl rfl, hr⟩, if_neg hr, zero_mul, mul_zero]
    have e2 : Cw d .vac (.node t) = srcVal src t := by
      rw [h.cw_em (by rintro n e; cases e) hb]; rfl
    have e3 : (∑ i, Cw d (.inp i) (.node t) * y (.inp i)) = if t ∈ inp then y (.inp t) else 0 := by
      rw [Finset.sum_eq_single t]
      · rw [h.cw_em (by rintro n e; cases e) hb]
        by_cases ht' : t ∈ inp <;> simp [em0, ht']
      · intro i _ hi
        rw [h.cw_em (by rintro n e; cases e) hb]
        simp [em0, hi]
      · intro q; exact absurd (Finset.mem_univ t) q
    have e4 : (∑ i, Cw d (.out i) (.node t) * y (.out i)) = 0 := by
      apply Finset.sum_eq_zero
      intro i _
      rw [h.cw_em (by rintro n e; cases e) hb]
      simp [em0]
    rw [Finset.sum_congr rfl (fun r _ => e1 r), e2, e3, e4]
    ring
  have outs' : ∀ (y : WN N → V) o, ∑ r, Cw d r (.out o) * y r = if o ∈ outs then value * (if K o then y (.node o) else 0) else 0 := by
    intro y o
    rw [sum_wn]
    have z : ∀ a : WN N, (∀ n, a ≠ .node n) → Cw d a (.out o) = 0 := by
      intro a ha
      rw [h.cw_em (fun n e => absurd e (ha n)) (by rintro n e; cases e)]
      cases a with
      | node n => exact absurd rfl (ha n)
      | vac => rfl
      | inp i => rfl
      | out i => rfl
    have e1 : (∑ r, Cw d (.node r) (.out o) * y (.node r)) = if o ∈ outs then value * (if K o then y (.node o) else 0) else 0 := by
      rw [Finset.sum_eq_single o]
      · by_cases ho : K o
        · rw [h.cw_em (by rintro n e; cases e; exact ho) (by rintro n e; cases e)]
          by_cases h1 : o ∈ outs <;> simp [em0, h1, ho]
        · rw [h.cw_off ⟨o, Or.inl rfl, ho⟩]
          by_cases h1 : o ∈ outs <;> simp [h1, ho]
      · intro r _ hr
        by_cases ho : K r
        · rw [h.cw_em (by rintro n e; cases e; exact ho) (by rintro n e; cases e)]
          simp [em0, hr]
        · rw [h.cw_off ⟨r, Or.inl rfl, ho⟩, zero_mul]
      · intro q; exact absurd (Finset.mem_univ o) q
    rw [e1, z .vac (by simp), Finset.sum_eq_zero (s := Finset.univ) (f := fun i => Cw d (.inp i) (.out o) * y (.inp i)) (fun i _ => by rw [z _ (by simp), zero_mul]),
      Finset.sum_eq_zero (s := Finset.univ) (f := fun i => Cw d (.out i) (.out o) * y (.out i)) (fun i _ => by rw [z _ (by simp), zero_mul])]
    simp
  constructor
  · rintro ⟨y, s, e⟩
    refine ⟨fun n => if K n then y (.node n) else 0, ⟨fun n hn => by simp [hn], fun t ht => ?_⟩, fun o => ?_⟩
    · have := s.int (.node t) ((h.hs _).mpr ⟨t, rfl, ht⟩)
      rw [into y t ht, e .vac (by simp [wkind]), e (.inp t) (by simp [wkind])] at this
      exact this
    · rw [← e (.out o) (by simp [wkind]), s.snk (.out o) rfl, outs' y o]
  · rintro ⟨x, s, e⟩
    refine ⟨fun w => match w with
      | .node n => x n
      | w => p w, ⟨fun w hw => ?_, fun b hb => ?_⟩, fun m hm => ?_⟩
    · obtain ⟨t, rfl, ht⟩ := (h.hs _).mp hw
      rw [into _ t ht]
      refine Eq.trans ?_ (s.eqn t ht)
      congr 1
      apply Finset.sum_congr rfl
      intro r _
      by_cases hr : K r
      · simp [hr]
      · simp [hr, s.off r hr]
    · cases b with
      | out o =>
        rw [outs']
        show p (.out o) = _
        rw [e o]
        by_cases ho : K o
        · simp [ho]
        · simp [ho, s.off o ho]
      | node n => cases hb
      | vac => cases hb
      | inp i => cases hb
    · cases m with
      | node n => exact absurd rfl hm
      | vac => rfl
      | inp i => rfl
      | out i => rfl

/-! ### Unwrapping -/

theorem outStep_spec (d : D (WN N) V) : ∀ (os : List N) (m : Dict N V) (k : N),
    Dict.get? (os.foldl (outStep d) m) k =
      if k ∈ os then (Dict.get? d.em (.vac, .out k)).or (Dict.get? m k) else Dict.get? m k := by
  intro os
  induction os with
  | nil => intro m k; simp
  | cons o os ih =>
    intro m k
    rw [List.foldl_cons, ih]
    unfold outStep
    cases hg : Dict.get? d.em (.vac, .out o) with
    | none =>
      dsimp only
      by_cases h1 : k ∈ os
      · rw [if_pos h1, if_pos (List.mem_cons_of_mem _ h1)]
      · rw [if_neg h1]
        by_cases h2 : k = o
        · subst h2; simp [hg]
        · rw [if_neg (by simp [h1, h2])]
    | some v =>
      dsimp only
      rw [Dict.get?_set]
      by_cases h2 : o = k
      · subst h2; simp [hg]
      · rw [if_neg h2]
        by_cases h1 : k ∈ os
        · rw [if_pos h1, if_pos (List.mem_cons_of_mem _ h1)]
        · rw [if_neg h1, if_neg (by simp [h1, Ne.symm h2])]

theorem unwrapInput_spec (d : D (WN N) V) (i : N) : ∀ (ws : List (WN N)) (m m' : Dict (N × N) V),
    unwrapInput d i ws m = .ok m' →
    ∀ j o, Dict.get? m' (j, o) = if j = i ∧ WN.out o ∈ ws then Dict.get? d.em (.inp i, .out o) else Dict.get? m (j, o) := by
  intro ws
  induction ws with
  | nil => intro m m' h j o; cases h; simp
  | cons w ws ih =>
    intro m m' h j o
    unfold unwrapInput Dict.get at h
    cases hg : Dict.get? d.em (.inp i, w) with
    | none => rw [hg] at h; cases h
    | some v =>
      rw [hg] at h
      cases w with
      | node n => cases h
      | vac => cases h
      | inp n => cases h
      | out n =>
        have h' : unwrapInput d i ws (Dict.set m (i, n) v) = .ok m' := h
        rw [ih _ _ h' j o, Dict.get?_set]
        by_cases h1 : j = i
        · subst h1
          by_cases h2 : o = n
          · subst h2
            by_cases h3 : WN.out o ∈ ws <;> simp [h3, hg]
          · by_cases h3 : WN.out o ∈ ws <;> simp [h3, h2, Ne.symm h2]
        · simp [h1, Ne.symm h1]

theorem unwrapEdges_spec (d : D (WN N) V) : ∀ (is : List N) (m m' : Dict (N × N) V),
    unwrapEdges d is m = .ok m' →
    ∀ j o, Dict.get? m' (j, o) = if j ∈ is ∧ WN.out o ∈ at' d.beta (.inp j) then Dict.get? d.em (.inp j, .out o) else Dict.get? m (j, o) := by
  intro is
  induction is with
  | nil => intro m m' h j o; cases h; simp
  | cons i is ih =>
    intro m m' h j o
    unfold unwrapEdges at h
    cases hu : unwrapInput d i (at' d.beta (.inp i)) m with
    | error e => rw [hu] at h; cases h
    | ok m1 =>
      rw [hu] at h
      rw [ih _ _ h j o, unwrapInput_spec d i _ _ _ hu j o]
      by_cases h1 : j = i
      · subst h1
        by_cases h2 : WN.out o ∈ at' d.beta (.inp j) <;> by_cases h3 : j ∈ is <;> simp [h2, h3]
      · by_cases h3 : j ∈ is <;> simp [h1, h3]

/-- What the run says about the graph it solves after the scattering step. -/
theorem core {h : Heur (WN N) V C} (hpick : ∀ l, l ≠ [] → h.pick l ∈ l) {A : Alg V} (hA : A.Lawful) {inv : Nat → List (WN N)}
    {fuel : Nat} {o : Opts} {g g1 : G N V} (hg1 : scatterStep o g = .ok g1) (hv : Valid g1)
    (hcl : o.purge_in = false → ∀ a b, Edge g1 a b → Dict.has g1.seq b = true)
    (hk : o.purge_in = false → ∀ t ∈ srcKeys src ++ inp ++ outs, Dict.has g1.seq t = true)
    (hP : o.purge_in = true → ∀ t, Driven g1 (srcKeys src ++ inp) t → ∃ r, Edge g1 r t ∧ Driven g1 (srcKeys src ++ inp) r)
    (hS : o.purge_out = true → ∀ r, Kept o g1 (srcKeys src ++ inp) outs r → ∃ t, Edge g1 r t ∧ Seen g1 outs t)
    {r : Option (Dict N V)} {em : Dict (N × N) V} (hr : inverse_solve h A inv fuel o outs inp src g = .ok (r, em)) :
    ∃ (om : Dict N V) (T0 : N → V) (T : N → N → V), r = src.map (fun _ => om) ∧
      (∀ t, (Dict.get? om t).isSome → t ∈ outs) ∧ (∀ t ∈ outs, (Dict.get? om t).getD 0 = T0 t) ∧
      (∀ i t, (Dict.get? em (i, t)).isSome → i ∈ inp) ∧ (∀ i ∈ inp, ∀ t, (Dict.get? em (i, t)).getD 0 = T i t) ∧
      ∀ (v : V) (c : N → V),
        (∃ x, Sys (Kept o g1 (srcKeys src ++ inp) outs) g1 (fun t => srcVal src t * v + if t ∈ inp then c t else 0) x) ∧
        ∀ x, Sys (Kept o g1 (srcKeys src ++ inp) outs) g1 (fun t => srcVal src t * v + if t ∈ inp then c t else 0) x →
          ∀ t ∈ outs, outVal o * x t = T0 t * v + ∑ i, if i ∈ inp then T i t * c i else 0 := by
  have hed : ∀ a b, Edge g1 a b → Dict.has g1.seq a = true := fun a b e => key_of_succ (hv.listed a b e).1
  obtain ⟨d1, d2, e1, e2, hp⟩ := purge_spec' hpick (dress_spec o outs inp src hv) hcl hk hP hS hed
  have hprep : prepare h.pick o outs inp src g = .ok d2 := by
    unfold prepare
    rw [hg1]
    simp only [bind, Except.bind]
    by_cases hpi : o.purge_in = true
    · rw [if_pos hpi] at e1 ⊢
      rw [e1]
      exact e2
    · rw [if_neg hpi] at e1 ⊢
      rw [e1]
      exact e2
  unfold inverse_solve at hr
  rw [hprep] at hr
  simp only [bind, Except.bind] at hr
  cases hsm : mgraph_simplify h A inv fuel d2 with
  | error e => rw [hsm] at hr; cases hr
  | ok d3 =>
    rw [hsm] at hr
    dsimp only at hr
    obtain ⟨st, cov⟩ := simplify_spec hA h inv fuel hp.sound hsm
    have hfin := behav_final st.inv cov
    cases hu : unwrapEdges d3 inp [] with
    | error e => rw [hu] at hr; cases hr
    | ok em' =>
      rw [hu] at hr
      cases hr
      have s3 := st.inv.s
      have hK3 : ∀ w, Dict.has d3.seq w = true → wkind w = .int := s3.ki
      -- values of source to sink edges
      have cwv : ∀ a t, wkind a = .src → Cw d3 a (.out t) = (Dict.get? d3.em (a, .out t)).getD 0 := by
        intro a t ha
        by_cases hl : Listed d3 a (.out t)
        · unfold Cw; rw [if_pos hl]
        · rw [Cw_of_not hl]
          cases hg : Dict.get? d3.em (a, .out t) with
          | none => rfl
          | some v => exact absurd (s3.used a (.out t) (fun e => by rw [ha] at e; cases e) (fun e => by cases e) (by rw [hg]; rfl)) hl
      refine ⟨_, fun t => Cw d3 .vac (.out t), fun i t => Cw d3 (.inp i) (.out t), rfl, ?_, ?_, ?_, ?_, ?_⟩
      · intro t ht
        rw [outStep_spec] at ht
        by_contra hn
        rw [if_neg hn] at ht
        cases ht
      · intro t ht
        show _ = Cw d3 .vac (.out t)
        rw [outStep_spec, if_pos ht, cwv .vac t rfl]
        simp [Dict.get?]
      · intro i t hit
        rw [unwrapEdges_spec d3 inp _ _ hu] at hit
        by_contra hn
        rw [if_neg (fun q => hn q.1)] at hit
        cases hit
      · intro i hi t
        show _ = Cw d3 (.inp i) (.out t)
        rw [unwrapEdges_spec d3 inp _ _ hu]
        by_cases hb : WN.out t ∈ at' d3.beta (.inp i)
        · rw [if_pos ⟨hi, hb⟩, cwv (.inp i) t rfl]
        · rw [if_neg (fun q => hb q.2)]
          have : Cw d3 (.inp i) (.out t) = 0 := by
            apply Cw_of_not
            rintro (q | q | q)
            · have := hK3 _ (s3.si _ _ q).1
              cases this
            · exact hb q
            · rcases (s3.ai _ _ q).2 with q' | q'
              · have := hK3 _ q'
                cases this
              · exact hb q'.2
          rw [this]
          rfl
      · intro v c
        have key : ∀ p : WN N → V, (∃ x, Sys (Kept o g1 (srcKeys src ++ inp) outs) g1 (fun t => srcVal src t * p .vac + if t ∈ inp then p (.inp t) else 0) x ∧
            ∀ o', p (.out o') = if o' ∈ outs then outVal o * x o' else 0) ↔
            ∀ t, p (.out t) = Cw d3 .vac (.out t) * p .vac + ∑ i, Cw d3 (.inp i) (.out t) * p (.inp i) := by
          intro p
          rw [← hp.behav p, st.beh p, hfin p]
          have hsum : ∀ t, (∑ a, if wkind a = Kind.src then Cw d3 a (.out t) * p a else 0) =
              Cw d3 .vac (.out t) * p .vac + ∑ i, Cw d3 (.inp i) (.out t) * p (.inp i) := by
            intro t
            rw [sum_wn]
            simp [wkind]
          constructor
          · intro q t
            rw [q (.out t) rfl, hsum]
          · intro q b hb
            cases b with
            | out t => rw [q t, hsum]
            | node n => cases hb
            | vac => cases hb
            | inp i => cases hb
        have sums : ∀ t, (∑ i, Cw d3 (.inp i) (.out t) * (if i ∈ inp then c i else 0)) =
            ∑ i, if i ∈ inp then Cw d3 (.inp i) (.out t) * c i else 0 := by
          intro t
          apply Finset.sum_congr rfl
          intro i _
          by_cases hi : i ∈ inp <;> simp [hi]
        have bvec : (fun t => srcVal src t * v + if t ∈ inp then (if t ∈ inp then c t else 0) else 0) =
            (fun t => srcVal src t * v + if t ∈ inp then c t else 0) := by
          funext t
          by_cases hi : t ∈ inp <;> simp [hi]
        constructor
        · obtain ⟨x, hx, _⟩ := (key (fun w => match w with
            | .vac => v
            | .inp i => if i ∈ inp then c i else 0
            | .out t => Cw d3 .vac (.out t) * v + ∑ i, Cw d3 (.inp i) (.out t) * (if i ∈ inp then c i else 0)
            | .node _ => 0)).mpr (fun t => rfl)
          dsimp only at hx
          rw [bvec] at hx
          exact ⟨x, hx⟩
        · intro x hx t ht
          have := (key (fun w => match w with
            | .vac => v
            | .inp i => if i ∈ inp then c i else 0
            | .out t => if t ∈ outs then outVal o * x t else 0
            | .node _ => 0)).mp ⟨x, by dsimp only; rw [bvec]; exact hx, fun o' => rfl⟩ t
          dsimp only at this
          rw [if_pos ht, sums] at this
          exact this

end Dag
