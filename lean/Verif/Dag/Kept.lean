import Verif.Dag.Dress

/-! # The prepared system -/

set_option linter.unusedSectionVars false

namespace Dag
open Py Graph

variable {N : Type} {V : Type} [DecidableEq N] [Field V] [DecidableEq V]

/-- The nodes that survive the purges. -/
def Kept (o : Opts) (g : G N V) (S outs : List N) (n : N) : Prop :=
  (if o.purge_in = true then Driven g S n else Dict.has g.seq n = true) ∧ (o.purge_out = true → Seen g outs n)

/-- The prepared system over the kept nodes. -/
structure Prep (K : N → Prop) (value : V) (outs inp : List N) (src : Option (Dict N V)) (g : G N V) (d : D (WN N) V) : Prop where
  sq : ∀ a b, b ∈ at' d.seq a ↔ ∃ r t, a = .node r ∧ b = .node t ∧ Edge g r t ∧ K r ∧ K t
  mir : ∀ a b, b ∈ at' d.seq a ↔ a ∈ at' d.req b
  hs : ∀ w, Dict.has d.seq w = true ↔ ∃ n, w = .node n ∧ K n
  al : ∀ a s, a ∈ at' d.alpha s ↔ ∃ t, s = .node t ∧ K t ∧ ((a = .vac ∧ t ∈ srcKeys src) ∨ (a = .inp t ∧ t ∈ inp))
  be : ∀ r b, b ∈ at' d.beta r ↔ ∃ t, r = .node t ∧ K t ∧ b = .out t ∧ t ∈ outs
  em : ∀ a b, (∀ n, a = .node n → K n) → Dict.get? d.em (a, b) = em0 value outs inp src g a b
  ls : LD d.seq
  lr : LD d.req
  la : LD d.alpha
  lb : LD d.beta

theorem reach_lift {E : N → N → Prop} {T : N → Prop} {emap : WN N → List (WN N)} {S : List (WN N)}
    (hE : ∀ a b, b ∈ emap a ↔ ∃ r t, a = .node r ∧ b = .node t ∧ E r t) (hS : ∀ s, s ∈ S ↔ ∃ t, s = .node t ∧ T t)
    (w : WN N) : ReachFrom emap S w ↔ ∃ n, w = .node n ∧ ∃ s, T s ∧ Relation.ReflTransGen E s n := by
  constructor
  · rintro ⟨s, hs, h⟩
    obtain ⟨t, rfl, ht⟩ := (hS s).mp hs
    induction h with
    | refl => exact ⟨t, rfl, t, ht, .refl⟩
    | tail _ hbc ih =>
      obtain ⟨n, rfl, s, hs, hr⟩ := ih
      obtain ⟨r, u, e1, e2, e3⟩ := (hE _ _).mp hbc
      cases e1
      exact ⟨u, e2, s, hs, hr.tail e3⟩
  · rintro ⟨n, rfl, s, hs, h⟩
    refine ⟨.node s, (hS _).mpr ⟨s, rfl, hs⟩, ?_⟩
    induction h with
    | refl => exact .refl
    | tail _ hbc ih => exact ih.tail ((hE _ _).mpr ⟨_, _, rfl, rfl, hbc⟩)

variable [Fintype N]

theorem isEmpty_false {α : Type} {l : List α} : (!l.isEmpty) = true ↔ ∃ x, x ∈ l := by
  cases l with
  | nil => simp
  | cons x l => simp only [List.isEmpty_cons, Bool.not_false, true_iff]; exact ⟨x, by simp⟩

theorem purge_spec' {pick : List (WN N) → WN N} (hpick : ∀ l, l ≠ [] → pick l ∈ l) {o : Opts} {value : V} {outs inp : List N}
    {src : Option (Dict N V)} {g : G N V} {d0 : D (WN N) V} (h0 : Dressed value outs inp src g d0)
    (hcl : o.purge_in = false → ∀ a b, Edge g a b → Dict.has g.seq b = true)
    (hk : o.purge_in = false → ∀ t ∈ srcKeys src ++ inp ++ outs, Dict.has g.seq t = true)
    (hP : o.purge_in = true → ∀ t, Driven g (srcKeys src ++ inp) t → ∃ r, Edge g r t ∧ Driven g (srcKeys src ++ inp) r)
    (hS : o.purge_out = true → ∀ r, Kept o g (srcKeys src ++ inp) outs r → ∃ t, Edge g r t ∧ Seen g outs t)
    (hed : ∀ a b, Edge g a b → Dict.has g.seq a = true) :
    ∃ d1 d2, (if o.purge_in then purge_reqless pick d0 else pure d0) = .ok d1 ∧
      (if o.purge_out then purge_seqless pick d1 else pure d1) = .ok d2 ∧
      Prep (Kept o g (srcKeys src ++ inp) outs) value outs inp src g d2 := by
  classical
  set S := srcKeys src ++ inp with hSdef
  -- the first purge
  let K1 : N → Prop := fun n => if o.purge_in = true then Driven g S n else Dict.has g.seq n = true
  have K1t : ∀ a b, Edge g a b → K1 a → K1 b := by
    intro a b e k
    by_cases hp : o.purge_in = true
    · simp only [K1, hp, if_true] at k ⊢
      obtain ⟨s, h1, h2⟩ := k
      exact ⟨s, h1, h2.tail e⟩
    · simp only [K1, hp] at k ⊢
      exact hcl (by simpa using hp) a b e
  have st1 : ∃ d1, (if o.purge_in then purge_reqless pick d0 else pure d0) = Except.ok d1 ∧
      (∀ a b, b ∈ at' d1.seq a ↔ ∃ r t, a = .node r ∧ b = .node t ∧ Edge g r t ∧ K1 r) ∧
      (∀ a b, b ∈ at' d1.seq a ↔ a ∈ at' d1.req b) ∧
      (∀ w, Dict.has d1.seq w = true ↔ ∃ n, w = .node n ∧ K1 n) ∧
      d1.alpha = d0.alpha ∧
      (∀ r b, b ∈ at' d1.beta r ↔ ∃ t, r = .node t ∧ K1 t ∧ b = .out t ∧ t ∈ outs) ∧
      (∀ s, s ∈ Dict.keys d1.beta ↔ ∃ t, s = .node t ∧ K1 t ∧ t ∈ outs) ∧
      (∀ a b, (∀ n, a = .node n → K1 n) → Dict.get? d1.em (a, b) = em0 value outs inp src g a b) ∧
      LD d1.seq ∧ LD d1.req ∧ LD d1.beta := by
    by_cases hp : o.purge_in = true
    · obtain ⟨d1, q1, q2, q3, q4, q5, q6, q7, q8, q9⟩ := purge_reqless_spec hpick h0.mir h0.ls h0.lr
      have hR : ∀ w, ReachFrom (at' d0.seq) (Dict.keys d0.alpha) w ↔ ∃ n, w = .node n ∧ K1 n := by
        intro w
        rw [reach_lift h0.sq h0.ak w]
        simp only [K1, hp, if_true]
        rfl
      have hq : ∀ t, K1 t → (!(at' d1.req (.node t)).isEmpty) = true := by
        intro t ht
        simp only [K1, hp, if_true] at ht
        obtain ⟨r, e, hr⟩ := hP hp t ht
        rw [isEmpty_false]
        refine ⟨.node r, (q3 _ _).mpr ⟨(h0.sq _ _).mpr ⟨r, t, rfl, rfl, e⟩, (hR _).mpr ⟨r, rfl, ?_⟩⟩⟩
        simp only [K1, hp, if_true]
        exact hr
      have hq' : ∀ t, (!(at' d1.req (.node t)).isEmpty) = true → K1 t := by
        intro t ht
        obtain ⟨x, hx⟩ := isEmpty_false.mp ht
        obtain ⟨y1, y2⟩ := (q3 _ _).mp hx
        obtain ⟨r, u, e1, e2, e3⟩ := (h0.sq _ _).mp y1
        cases e2
        obtain ⟨n, e4, e5⟩ := (hR _).mp y2
        rw [e1] at e4
        cases e4
        exact K1t _ _ e3 e5
      refine ⟨d1, by rw [if_pos hp, q1], ?_, ?_, ?_, q6, ?_, ?_, ?_, q8, q9, ?_⟩
      · intro a b
        rw [q2, h0.sq, hR]
        constructor
        · rintro ⟨⟨r, t, rfl, rfl, e⟩, n, e2, k⟩
          cases e2
          exact ⟨r, t, rfl, rfl, e, k⟩
        · rintro ⟨r, t, rfl, rfl, e, k⟩
          exact ⟨⟨r, t, rfl, rfl, e⟩, r, rfl, k⟩
      · intro a b; rw [q2, q3]
      · intro w; rw [q4, hR]
      · intro r b
        rw [q7, at_filter (fun k => !(at' d1.req k).isEmpty)]
        split
        · rename_i hh
          rw [h0.be]
          constructor
          · rintro ⟨t, rfl, e1, e2⟩
            exact ⟨t, rfl, hq' t hh, e1, e2⟩
          · rintro ⟨t, e1, _, e2, e3⟩
            exact ⟨t, e1, e2, e3⟩
        · rename_i hh
          simp only [List.not_mem_nil, false_iff]
          rintro ⟨t, rfl, k, _⟩
          exact hh (hq t k)
      · intro s
        rw [q7, keys_filter (fun k => !(at' d1.req k).isEmpty), h0.bk]
        constructor
        · rintro ⟨⟨t, rfl, e⟩, hh⟩
          exact ⟨t, rfl, hq' t hh, e⟩
        · rintro ⟨t, rfl, k, e⟩
          exact ⟨⟨t, rfl, e⟩, hq t k⟩
      · intro a b hab
        by_cases ha : ∃ n, a = .node n
        · obtain ⟨n, rfl⟩ := ha
          rw [q5 _ _ ((hR _).mpr ⟨n, rfl, hab n rfl⟩), h0.em]
        · -- not a key, nothing is removed
          have : ∀ c, Dict.get? d1.em (a, c) = Dict.get? d0.em (a, c) := by
            intro c
            obtain ⟨g', P, he, hPP, -, -, hem, -, -, -⟩ := color_purge_spec hpick true (Dict.keys d0.alpha)
              (g0 := (⟨d0.seq, d0.req, d0.em⟩ : G (WN N) V)) h0.mir h0.ls.nd h0.lr.nd h0.ls.wf h0.lr.wf
            have : purge_reqless pick d0 = .ok { d0 with seq := g'.seq, req := g'.req, em := g'.em, beta := d0.beta.filter (fun kv => !(g'.pred kv.1).isEmpty) } := by
              unfold purge_reqless
              rw [he]
              rfl
            rw [this] at q1
            cases q1
            show Dict.get? g'.em (a, c) = _
            rw [hem, if_neg]
            rintro ⟨q, _⟩
            obtain ⟨n, e, _⟩ := (h0.hs a).mp ((hPP a).mp q).1
            exact ha ⟨n, e⟩
          rw [this, h0.em]
      · rw [q7]; exact LD_filter h0.lb (fun k => !(at' d1.req k).isEmpty)
    · have hp' : o.purge_in = false := by simpa using hp
      have k1 : ∀ n, K1 n ↔ Dict.has g.seq n = true := by intro n; simp only [K1, hp]; exact Iff.rfl
      refine ⟨d0, by rw [if_neg hp]; rfl, ?_, h0.mir, ?_, rfl, ?_, ?_, fun a b _ => h0.em a b, h0.ls, h0.lr, h0.lb⟩
      · intro a b
        rw [h0.sq]
        constructor
        · rintro ⟨r, t, rfl, rfl, e⟩
          exact ⟨r, t, rfl, rfl, e, (k1 r).mpr (hed _ _ e)⟩
        · rintro ⟨r, t, rfl, rfl, e, _⟩
          exact ⟨r, t, rfl, rfl, e⟩
      · intro w; rw [h0.hs]; simp only [k1]
      · intro r b
        rw [h0.be]
        constructor
        · rintro ⟨t, rfl, e1, e2⟩
          exact ⟨t, rfl, (k1 t).mpr (hk hp' t (List.mem_append_right _ e2)), e1, e2⟩
        · rintro ⟨t, e1, _, e2, e3⟩
          exact ⟨t, e1, e2, e3⟩
      · intro s
        rw [h0.bk]
        constructor
        · rintro ⟨t, rfl, e2⟩
          exact ⟨t, rfl, (k1 t).mpr (hk hp' t (List.mem_append_right _ e2)), e2⟩
        · rintro ⟨t, e1, _, e3⟩
          exact ⟨t, e1, e3⟩
  obtain ⟨d1, r1, r2, r3, r4, r5, r6, r7, r8, r9, r10, r11⟩ := st1
  have KS : ∀ t ∈ S, K1 t := by
    intro t ht
    by_cases hp : o.purge_in = true
    · simp only [K1, hp, if_true]
      exact ⟨t, ht, .refl⟩
    · simp only [K1, hp]
      exact hk (by simpa using hp) t (List.mem_append_left _ ht)
  have srcmem : ∀ {a : WN N} {t : N}, ((a = .vac ∧ t ∈ srcKeys src) ∨ (a = .inp t ∧ t ∈ inp)) → t ∈ S := by
    rintro a t (⟨_, h⟩ | ⟨_, h⟩)
    · exact List.mem_append_left _ h
    · exact List.mem_append_right _ h
  refine ⟨d1, ?_⟩
  by_cases hp : o.purge_out = true
  · have hcl1 : ∀ a b, b ∈ at' d1.seq a → Dict.has d1.seq b = true := by
      intro a b h
      obtain ⟨r, t, rfl, rfl, e, k⟩ := (r2 _ _).mp h
      exact (r4 _).mpr ⟨t, rfl, K1t _ _ e k⟩
    obtain ⟨d2, q1, q2, q3, q4, q5, q5', q6, q7, q8, q9⟩ := purge_seqless_spec hpick r3 r9 r10 hcl1
    have hE' : ∀ a b, b ∈ at' d1.req a ↔ ∃ r t, a = WN.node r ∧ b = WN.node t ∧ (Edge g t r ∧ K1 t) := by
      intro a b
      rw [← r3, r2]
      constructor
      · rintro ⟨r, t, e1, e2, e3⟩; exact ⟨t, r, e2, e1, e3⟩
      · rintro ⟨r, t, e1, e2, e3⟩; exact ⟨t, r, e2, e1, e3⟩
    have hb' : ∀ s, s ∈ Dict.keys d1.beta ↔ ∃ t, s = WN.node t ∧ (K1 t ∧ t ∈ outs) := r7
    have hQ : ∀ n, K1 n → (ReachFrom (at' d1.req) (Dict.keys d1.beta) (.node n) ↔ Seen g outs n) := by
      intro n hn
      rw [reach_lift hE' hb']
      constructor
      · rintro ⟨m, e, s, ⟨_, hs⟩, hr⟩
        cases e
        refine ⟨s, hs, ?_⟩
        rw [← Relation.reflTransGen_swap] at hr
        exact Relation.ReflTransGen.mono (fun a b h => h.1) _ _ hr
      · rintro ⟨s, hs, hr⟩
        have key : K1 s ∧ Relation.ReflTransGen (fun r t => Edge g t r ∧ K1 t) s n := by
          clear hs
          induction hr with
          | refl => exact ⟨hn, .refl⟩
          | tail _ hbc ih =>
            obtain ⟨i1, i2⟩ := ih
            exact ⟨K1t _ _ hbc i1, Relation.ReflTransGen.head ⟨hbc, i1⟩ i2⟩
        exact ⟨n, rfl, s, ⟨key.1, hs⟩, key.2⟩
    have hkept : ∀ n, Kept o g S outs n ↔ K1 n ∧ ReachFrom (at' d1.req) (Dict.keys d1.beta) (.node n) := by
      intro n
      constructor
      · rintro ⟨h1, h2⟩; exact ⟨h1, (hQ n h1).mpr (h2 hp)⟩
      · rintro ⟨h1, h2⟩; exact ⟨h1, fun _ => (hQ n h1).mp h2⟩
    have back : ∀ r t, Edge g r t → K1 r → Kept o g S outs t → Kept o g S outs r := by
      intro r t e k ⟨_, h2⟩
      refine ⟨k, fun q => ?_⟩
      obtain ⟨s, h3, h4⟩ := h2 q
      exact ⟨s, h3, h4.head e⟩
    have sq : ∀ a b, b ∈ at' d2.seq a ↔ ∃ r t, a = .node r ∧ b = .node t ∧ Edge g r t ∧ Kept o g S outs r ∧ Kept o g S outs t := by
      intro a b
      rw [q2, r2]
      constructor
      · rintro ⟨⟨r, t, rfl, rfl, e, k⟩, h⟩
        have ht := (hkept t).mpr ⟨K1t _ _ e k, h⟩
        exact ⟨r, t, rfl, rfl, e, back r t e k ht, ht⟩
      · rintro ⟨r, t, rfl, rfl, e, k1, k2⟩
        exact ⟨⟨r, t, rfl, rfl, e, k1.1⟩, ((hkept t).mp k2).2⟩
    have hq : ∀ r, (!(at' d2.seq (.node r)).isEmpty) = true ↔ Kept o g S outs r := by
      intro r
      rw [isEmpty_false]
      constructor
      · rintro ⟨x, hx⟩
        obtain ⟨r', t, e1, _, _, k, _⟩ := (sq _ _).mp hx
        cases e1
        exact k
      · intro k
        obtain ⟨t, e, s⟩ := hS hp r k
        exact ⟨.node t, (sq _ _).mpr ⟨r, t, rfl, rfl, e, k, K1t _ _ e k.1, fun _ => s⟩⟩
    refine ⟨d2, r1, by rw [if_pos hp, q1], sq, fun a b => by rw [q2, q3], ?_, ?_, ?_, ?_, q8, q9, ?_, ?_⟩
    · intro w
      rw [q4, r4]
      constructor
      · rintro ⟨⟨n, rfl, k⟩, h⟩; exact ⟨n, rfl, (hkept n).mpr ⟨k, h⟩⟩
      · rintro ⟨n, rfl, k⟩
        obtain ⟨k1, k2⟩ := (hkept n).mp k
        exact ⟨⟨n, rfl, k1⟩, k2⟩
    · intro a s
      rw [q7, at_filter (fun k => !(at' d2.seq k).isEmpty), r5]
      split
      · rename_i hh
        rw [h0.al]
        constructor
        · rintro ⟨t, rfl, e⟩; exact ⟨t, rfl, (hq t).mp hh, e⟩
        · rintro ⟨t, rfl, _, e⟩; exact ⟨t, rfl, e⟩
      · rename_i hh
        simp only [List.not_mem_nil, false_iff]
        rintro ⟨t, rfl, k, _⟩
        exact hh ((hq t).mpr k)
    · intro r b
      rw [q6, r6]
      constructor
      · rintro ⟨t, e1, k, e2, e3⟩
        exact ⟨t, e1, ⟨k, fun _ => ⟨t, e3, .refl⟩⟩, e2, e3⟩
      · rintro ⟨t, e1, k, e2, e3⟩
        exact ⟨t, e1, k.1, e2, e3⟩
    · intro a b hab
      by_cases ha : ∃ n, a = .node n
      · obtain ⟨n, rfl⟩ := ha
        have k := hab n rfl
        rw [q5 _ _ ((hkept n).mp k).2, r8 _ _ (fun m e => by cases e; exact k.1)]
      · rw [q5' _ _ (fun h => by
          obtain ⟨n, e, _⟩ := (r4 a).mp ((Dict.has_iff _ _).mpr h)
          exact ha ⟨n, e⟩), r8 _ _ (fun m e => absurd ⟨m, e⟩ ha)]
    · rw [q7, r5]; exact LD_filter h0.la (fun k => !(at' d2.seq k).isEmpty)
    · rw [q6]; exact r11
  · have hkept : ∀ n, Kept o g S outs n ↔ K1 n := by
      intro n
      exact ⟨fun h => h.1, fun h => ⟨h, fun q => absurd q hp⟩⟩
    refine ⟨d1, r1, by rw [if_neg hp]; rfl, ?_, r3, ?_, ?_, ?_, ?_, r9, r10, by rw [r5]; exact h0.la, r11⟩
    · intro a b
      rw [r2]
      constructor
      · rintro ⟨r, t, rfl, rfl, e, k⟩
        exact ⟨r, t, rfl, rfl, e, (hkept r).mpr k, (hkept t).mpr (K1t _ _ e k)⟩
      · rintro ⟨r, t, rfl, rfl, e, k, _⟩
        exact ⟨r, t, rfl, rfl, e, (hkept r).mp k⟩
    · intro w
      rw [r4]
      simp only [hkept]
    · intro a s
      rw [r5, h0.al]
      constructor
      · rintro ⟨t, rfl, e⟩; exact ⟨t, rfl, (hkept t).mpr (KS t (srcmem e)), e⟩
      · rintro ⟨t, rfl, _, e⟩; exact ⟨t, rfl, e⟩
    · intro r b
      rw [r6]
      simp only [hkept]
    · intro a b hab
      exact r8 _ _ (fun n e => (hkept n).mp (hab n e))

end Dag
