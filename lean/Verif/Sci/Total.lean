import Verif.Sci.Finish

/-! # A run on an invertible system returns -/

set_option linter.unusedSectionVars false

namespace Sci
open Py Graph Dag

section sub
variable {N : Type} {V : Type} [DecidableEq N]

/-- Every key of `req` is a key of `seq`. -/
def Sub (seq req : Dict N (List N)) : Prop := ∀ w, Dict.has req w = true → Dict.has seq w = true

theorem sremove_mem {l l' : List N} {x : N} (h : sremove l x = .ok l') : x ∈ l := by
  unfold sremove at h
  split at h
  · assumption
  · cases h

theorem has_of_at {d : Dict N (List N)} {a x : N} (h : x ∈ (Dict.get? d a).getD []) : Dict.has d a = true := by
  unfold Dict.has
  cases hg : Dict.get? d a with
  | none => rw [hg] at h; simp at h
  | some v => rfl

theorem has_set_same {d : Dict N (List N)} {s : N} (l : List N) (h : Dict.has d s = true) (w : N) : Dict.has (Dict.set d s l) w = Dict.has d w := by
  rw [Bool.eq_iff_iff, has_set]
  constructor
  · rintro (rfl | q)
    · exact h
    · exact q
  · exact Or.inr

theorem purgeSucc_sub (P : List N) (n : N) : ∀ (ss : List N) (g g' : G N V), purgeSucc P n ss g = .ok g' →
    g'.seq = g.seq ∧ ∀ w, Dict.has g'.req w = Dict.has g.req w := by
  intro ss
  induction ss with
  | nil => intro g g' h; cases h; exact ⟨rfl, fun _ => rfl⟩
  | cons s ss ih =>
    intro g g' h
    unfold purgeSucc at h
    dsimp only at h
    by_cases hs : s ∉ P
    · rw [if_pos hs] at h
      cases hr : ({ g with em := Dict.erase g.em (n, s) } : G N V).reqRemove s n with
      | error e => rw [hr] at h; cases h
      | ok g1 =>
        rw [hr] at h
        obtain ⟨h1, h2⟩ := ih g1 g' h
        unfold G.reqRemove at hr
        cases hq : sremove (({ g with em := Dict.erase g.em (n, s) } : G N V).pred s) n with
        | error e => rw [hq] at hr; cases hr
        | ok l =>
          rw [hq] at hr
          cases hr
          refine ⟨h1, fun w => ?_⟩
          rw [h2]
          show Dict.has (Dict.set g.req s l) w = _
          have hm : Dict.has g.req s = true := has_of_at (sremove_mem hq)
          exact has_set_same l hm w
    · rw [if_neg hs] at h
      obtain ⟨h1, h2⟩ := ih _ g' h
      exact ⟨h1, h2⟩

theorem purgePred_sub (P : List N) (n : N) : ∀ (rs : List N) (g g' : G N V), purgePred P n rs g = .ok g' →
    g'.req = g.req ∧ ∀ w, Dict.has g'.seq w = Dict.has g.seq w := by
  intro rs
  induction rs with
  | nil => intro g g' h; cases h; exact ⟨rfl, fun _ => rfl⟩
  | cons r rs ih =>
    intro g g' h
    unfold purgePred at h
    by_cases hs : r ∉ P
    · rw [if_pos hs] at h
      cases hr : g.seqRemove r n with
      | error e => rw [hr] at h; cases h
      | ok g1 =>
        rw [hr] at h
        obtain ⟨h1, h2⟩ := ih g1 g' h
        unfold G.seqRemove at hr
        cases hq : sremove (g.succ r) n with
        | error e => rw [hq] at hr; cases hr
        | ok l =>
          rw [hq] at hr
          cases hr
          refine ⟨h1, fun w => ?_⟩
          rw [h2]
          show Dict.has (Dict.set g.seq r l) w = _
          have hm : Dict.has g.seq r = true := has_of_at (sremove_mem hq)
          exact has_set_same l hm w
    · rw [if_neg hs] at h
      obtain ⟨h1, h2⟩ := ih _ g' h
      exact ⟨h1, h2⟩

theorem has_erase (d : Dict N (List N)) (n w : N) : Dict.has (Dict.erase d n) w = (decide (n ≠ w) && Dict.has d w) := by
  unfold Dict.has
  rw [Dict.get?_erase]
  by_cases e : n = w <;> simp [e]

theorem purgeSubgraph_sub (P : List N) : ∀ (ns : List N) (g g' : G N V), purgeSubgraph P ns g = .ok g' → Sub g.seq g.req →
    Sub g'.seq g'.req := by
  intro ns
  induction ns with
  | nil => intro g g' h hs; cases h; exact hs
  | cons n ns ih =>
    intro g g' h hs
    unfold purgeSubgraph at h
    cases h1 : purgeSucc P n (g.succ n) g with
    | error e => rw [h1] at h; cases h
    | ok g1 =>
      rw [h1] at h
      simp only [bind, Except.bind] at h
      cases h2 : purgePred P n ((g1.delSeq n).pred n) (g1.delSeq n) with
      | error e => rw [h2] at h; cases h
      | ok g2 =>
        rw [h2] at h
        refine ih _ g' h ?_
        obtain ⟨a1, a2⟩ := purgeSucc_sub P n _ _ _ h1
        obtain ⟨b1, b2⟩ := purgePred_sub P n _ _ _ h2
        intro w hw
        have hw' : Dict.has (Dict.erase g2.req n) w = true := hw
        rw [has_erase, b1] at hw'
        have hr : Dict.has g1.req w = true := by
          have := (Bool.and_eq_true _ _ ▸ hw').2
          exact this
        have hn := (Bool.and_eq_true _ _ ▸ hw').1
        show Dict.has g2.seq w = true
        rw [b2]
        show Dict.has (Dict.erase g1.seq n) w = true
        rw [has_erase, hn, Bool.true_and, a1]
        rw [a2] at hr
        exact hs w hr

theorem has_touch (d : Dict N (List N)) (n w : N) : Dict.has d w = true → Dict.has (touch d n) w = true := by
  intro h
  unfold touch
  split
  · exact h
  · rw [has_set]
    simp [h]

theorem has_touches : ∀ (l : List N) (d : Dict N (List N)) (w : N), Dict.has d w = true → Dict.has (l.foldl touch d) w = true := by
  intro l
  induction l with
  | nil => intro d w h; exact h
  | cons n l ih => intro d w h; exact ih _ w (has_touch d n w h)

theorem color_purge_sub [Fintype N] {pick : List N → N} {fw : Bool} {st : List N} {g g' : G N V}
    (h : color_purge pick fw st g = .ok g') (hs : Sub g.seq g.req) : Sub g'.seq g'.req := by
  unfold color_purge at h
  refine purgeSubgraph_sub _ _ _ _ h ?_
  cases fw
  · exact hs
  · intro w hw
    exact has_touches _ _ w (hs w hw)

end sub

variable {N : Type} {V : Type} [DecidableEq N] [Field V] [DecidableEq V]

theorem scatterNode_req {n : N} {g g' : G N V} (h : scatterNode n g = .ok g') (a : N) (ha : Dict.has g'.req a = true) :
    Dict.has g.req a = true ∨ a = n := by
  unfold scatterNode at h
  by_cases hn : n ∈ g.succ n
  · rw [if_pos hn] at h
    unfold G.edge Dict.get at h
    cases hg : Dict.get? g.em (n, n) with
    | none => rw [hg] at h; cases h
    | some e =>
      rw [hg] at h
      cases h
      exact Or.inl ha
  · rw [if_neg hn] at h
    cases h
    have : Dict.has (Dict.set g.req n (sadd (((g.setEdge n n (-1)).seqAdd n n).pred n) n)) a = true := ha
    rw [has_set] at this
    rcases this with rfl | q
    · exact Or.inr rfl
    · exact Or.inl q

theorem scatter_req : ∀ (ns : List N) (g g' : G N V), scatter ns g = .ok g' → ∀ a, Dict.has g'.req a = true →
    Dict.has g.req a = true ∨ a ∈ ns := by
  intro ns
  induction ns with
  | nil => intro g g' h a ha; cases h; exact Or.inl ha
  | cons n ns ih =>
    intro g g' h a ha
    unfold scatter at h
    cases h1 : scatterNode n g with
    | error e => rw [h1] at h; cases h
    | ok g1 =>
      rw [h1] at h
      rcases ih g1 g' h a ha with q | q
      · rcases scatterNode_req h1 a q with q | rfl
        · exact Or.inl q
        · exact Or.inr (by simp)
      · exact Or.inr (by simp [q])

/-- A node listed as its own successor has an edge to itself. -/
def Loops (g : G N V) (ns : List N) : Prop := ∀ n ∈ ns, n ∈ g.succ n → (Dict.get? g.em (n, n)).isSome

theorem scatter_ok : ∀ (ns : List N) (g : G N V), ns.Nodup → Loops g ns → ∃ g', scatter ns g = .ok g' := by
  intro ns
  induction ns with
  | nil => intro g _ _; exact ⟨g, rfl⟩
  | cons n ns ih =>
    intro g hnd hl
    obtain ⟨hn, hnd'⟩ := List.nodup_cons.mp hnd
    have step : ∃ g1, scatterNode n g = .ok g1 ∧ Loops g1 ns := by
      unfold scatterNode
      by_cases hs : n ∈ g.succ n
      · have := hl n (by simp) hs
        rw [if_pos hs]
        unfold G.edge Dict.get
        cases hg : Dict.get? g.em (n, n) with
        | none => rw [hg] at this; cases this
        | some e =>
          refine ⟨g.setEdge n n (e - 1), rfl, fun m hm hms => ?_⟩
          have hne : n ≠ m := fun e => hn (e ▸ hm)
          show (Dict.get? (Dict.set g.em (n, n) (e - 1)) (m, m)).isSome = true
          rw [Dict.get?_set, if_neg (fun q => hne (Prod.mk.inj q).1)]
          exact hl m (by simp [hm]) hms
      · rw [if_neg hs]
        refine ⟨_, rfl, fun m hm hms => ?_⟩
        have hne : n ≠ m := fun e => hn (e ▸ hm)
        simp only [G.succ_reqAdd, G.succ_seqAdd, G.succ_setEdge, if_neg hne] at hms
        show (Dict.get? (Dict.set g.em (n, n) (-1)) (m, m)).isSome = true
        rw [Dict.get?_set, if_neg (fun q => hne (Prod.mk.inj q).1)]
        exact hl m (by simp [hm]) hms
    obtain ⟨g1, e1, l1⟩ := step
    obtain ⟨g2, e2⟩ := ih g1 hnd' l1
    refine ⟨g2, ?_⟩
    unfold scatter
    rw [e1]
    exact e2

theorem has_lift_req (g : G N V) (w : WN N) (h : Dict.has (pre_purge (lift g)).req w = true) :
    ∃ n, w = .node n ∧ Dict.has g.req n = true := by
  have e : Dict.has (pre_purge (lift g)).req w = Dict.has (lift g).req w := by
    unfold Dict.has pre_purge
    dsimp only
    rw [get?_mapk (lift g).req (fun k v => v.filter (fun s => Dict.has (lift g).em (s, k)))]
    cases Dict.get? (lift g).req w <;> rfl
  rw [e] at h
  by_cases hw : ∃ n, WN.node n = w
  · obtain ⟨n, rfl⟩ := hw
    have : Dict.has (lift g).req (.node n) = Dict.has g.req n := by
      unfold Dict.has lift
      dsimp only
      rw [get?_map_inj g.req WN.node node_inj]
      cases Dict.get? g.req n <;> rfl
    exact ⟨n, rfl, this ▸ h⟩
  · have : Dict.has (lift g).req w = false := by
      unfold Dict.has lift
      dsimp only
      rw [get?_map_none g.req WN.node _ _ (fun n hn => hw ⟨n, hn⟩)]
      rfl
    rw [this] at h
    cases h

variable [Fintype N]
variable {L : Lib (WN N) V} {o : Opts} {outs inp : List N} {src : Option (Dict N V)} {g g1 : G N V}

theorem dressBeta_maps (value : V) : ∀ (l : List (WN N)) (d : D (WN N) V), (dressBeta value l d).seq = d.seq ∧ (dressBeta value l d).req = d.req := by
  intro l
  induction l with
  | nil => intro d; exact ⟨rfl, rfl⟩
  | cons a l ih => intro d; exact ih _

theorem dressAlpha_maps (w : WN N → WN N) (val : WN N → V) : ∀ (l : List (WN N)) (d : D (WN N) V),
    (dressAlpha w val l d).seq = d.seq ∧ (dressAlpha w val l d).req = d.req := by
  intro l
  induction l with
  | nil => intro d; exact ⟨rfl, rfl⟩
  | cons a l ih => intro d; exact ih _

theorem dress_sub (h : Sub g.seq g.req) : Sub (dress o outs inp src g).seq (dress o outs inp src g).req := by
  have e : (dress o outs inp src g).seq = (pre_purge (lift g)).seq ∧ (dress o outs inp src g).req = (pre_purge (lift g)).req := by
    unfold dress
    dsimp only
    rw [(dressBeta_maps _ _ _).1, (dressBeta_maps _ _ _).2, (dressAlpha_maps _ _ _ _).1, (dressAlpha_maps _ _ _ _).2]
    cases src with
    | none => exact ⟨rfl, rfl⟩
    | some m => exact dressAlpha_maps _ _ _ _
  rw [e.1, e.2]
  intro w hw
  obtain ⟨n, rfl, hn⟩ := has_lift_req g w hw
  exact (has_lift g _).mpr ⟨n, rfl, h n hn⟩

theorem prepare_sub (hg1 : scatterStep o outs inp src g = .ok g1) (h : Sub g1.seq g1.req) {pick : List (WN N) → WN N} {d : D (WN N) V}
    (hd : prepare pick o outs inp src g = .ok d) : Sub d.seq d.req := by
  unfold prepare at hd
  rw [hg1] at hd
  simp only [bind, Except.bind] at hd
  have h0 := dress_sub (o := o) (outs := outs) (inp := inp) (src := src) h
  revert hd
  generalize dress o outs inp src g1 = d0 at h0
  intro hd
  have step1 : ∀ d1, (if o.purge_in then Dag.purge_reqless pick d0 else pure d0) = .ok d1 → Sub d1.seq d1.req := by
    intro d1 e
    split at e
    · unfold Dag.purge_reqless at e
      cases hc : color_purge pick true (Dict.keys d0.alpha) (⟨d0.seq, d0.req, d0.em⟩ : G (WN N) V) with
      | error e' => rw [hc] at e; cases e
      | ok g' => rw [hc] at e; cases e; exact color_purge_sub hc h0
    · cases e; exact h0
  cases h1 : (if o.purge_in then Dag.purge_reqless pick d0 else pure d0) with
  | error e =>
    split at hd <;> rename_i hpi
    · rw [if_pos hpi] at h1
      rw [h1] at hd
      cases hd
    · rw [if_neg hpi] at h1
      cases h1
  | ok d1 =>
    have s1 := step1 d1 h1
    have hd' : (if o.purge_out then Dag.purge_seqless pick d1 else pure d1) = .ok d := by
      by_cases hpi : o.purge_in = true
      · rw [if_pos hpi] at h1 hd
        rw [h1] at hd
        exact hd
      · rw [if_neg hpi] at h1 hd
        cases h1
        exact hd
    split at hd'
    · unfold Dag.purge_seqless at hd'
      cases hc : color_purge pick false (Dict.keys d1.beta) (⟨d1.seq, d1.req, d1.em⟩ : G (WN N) V) with
      | error e' => rw [hc] at hd'; cases hd'
      | ok g' => rw [hc] at hd'; cases hd'; exact color_purge_sub hc s1
    · cases hd'; exact s1

/-- The keys are the kept nodes. -/
theorem all_keys_only {K : N → Prop} {value : V} {d : D (WN N) V} (h : Prep K value outs inp src g d) (hsub : Sub d.seq d.req) (w : WN N)
    (hw : w ∈ all_keys d) : ∃ n, w = .node n ∧ K n := by
  unfold all_keys at hw
  rw [mem_foldl_sadd] at hw
  simp only [List.mem_append, List.not_mem_nil, false_or, List.mem_flatMap] at hw
  have hk : ∀ {w}, w ∈ Dict.keys d.seq → ∃ n, w = .node n ∧ K n := fun q => (h.hs _).mp ((Dict.has_iff _ _).mpr q)
  have hr : ∀ {w}, w ∈ Dict.keys d.req → ∃ n, w = .node n ∧ K n := fun q => (h.hs _).mp (hsub _ ((Dict.has_iff _ _).mpr q))
  rcases hw with ((q | q) | ⟨kv, q1, q2⟩) | ⟨kv, q1, q2⟩
  · exact hk q
  · exact hr q
  · rw [List.mem_cons] at q2
    rcases q2 with rfl | q2
    · exact hr (List.mem_map_of_mem q1)
    · have : w ∈ at' d.req kv.1 := by
        unfold at'
        rw [Dict.get?_of_mem h.lr.wf q1]
        exact q2
      obtain ⟨r, t, e1, e2, _, k1, k2⟩ := (h.sq _ _).mp ((h.mir _ _).mpr this)
      exact ⟨r, e1, k1⟩
  · rw [List.mem_cons] at q2
    rcases q2 with rfl | q2
    · exact hk (List.mem_map_of_mem q1)
    · have : w ∈ at' d.seq kv.1 := by
        unfold at'
        rw [Dict.get?_of_mem h.ls.wf q1]
        exact q2
      obtain ⟨r, t, e1, e2, _, k1, k2⟩ := (h.sq _ _).mp this
      exact ⟨t, e2, k2⟩

/-- The sorts do not raise. -/
def Sorts (L : Lib (WN N) V) : Prop := (∀ l, ∃ l', L.sortkeys l = .ok l') ∧ ∀ l, ∃ l', L.sortkeys_split l = .ok l'

/-- A system of kept nodes with only one solution is solved. -/
theorem core_ok (hL : Lawful L) (hso : Sorts L) (hne : (outs.isEmpty || (src.isNone && inp.isEmpty)) = false) {d : D (WN N) V} {K : N → Prop}
    {value : V} (hd : prepare L.pick o outs inp src g = .ok d) (hp : Prep K value outs inp src g1 d) (hsub : Sub d.seq d.req)
    (hst : ∃ s ∈ srcKeys src ++ inp, K s)
    (hu : ∀ z : N → V, (∀ n, ¬ K n → z n = 0) → (∀ t, K t → ∑ r, gain g1 r t * z r = 0) → ∀ n, z n = 0) :
    ∃ r em, inverse_solve L o outs inp src g = .ok (r, em) := by
  obtain ⟨keys, hk⟩ := hso.1 (all_keys d)
  obtain ⟨ka, ha⟩ := hso.2 (all_alpha d)
  have hs : Sorted d keys ka := ⟨hL.sortkeys hk, hL.sortkeys_split ha⟩
  obtain ⟨s, hs1, hs2⟩ := hst
  -- a source reaches the system
  have hal : ∃ a, a ∈ at' d.alpha (.node s) := by
    rw [List.mem_append] at hs1
    rcases hs1 with q | q
    · exact ⟨.vac, (hp.al _ _).mpr ⟨s, rfl, hs2, Or.inl ⟨rfl, q⟩⟩⟩
    · exact ⟨.inp s, (hp.al _ _).mpr ⟨s, rfl, hs2, Or.inr ⟨rfl, q⟩⟩⟩
  obtain ⟨a, hal⟩ := hal
  have hem : ¬ d.em.isEmpty = true := by
    intro q
    have := hp.sound.val a (.node s) (Or.inr (Or.inr hal))
    rw [List.isEmpty_iff.mp q] at this
    cases this
  have hkeys : ∀ w ∈ keys, ∃ n, w = .node n ∧ K n := fun w hw => all_keys_only hp hsub w (hs.keys.mem_iff.mp hw)
  have hreg := regular_of hp hs hkeys hu
  have hpos : 0 < keys.length := List.length_pos_of_mem (hs.mem hp hs2)
  have hposα : 0 < ka.length := List.length_pos_of_mem ((hs.memα hp a).mpr ⟨_, hal⟩)
  obtain ⟨x, hx⟩ := hL.spsolve.returns (m := ka.length) (b := cooα d keys ka) hpos hposα (by
    intro t ht
    unfold coo at ht
    rw [List.mem_map] at ht
    obtain ⟨⟨u, v⟩, hq, rfl⟩ := ht
    rw [mem_pairs hp.ls.wf] at hq
    obtain ⟨r', t', rfl, rfl, _, k1, k2⟩ := (hp.sq _ _).mp hq
    exact ⟨List.idxOf_lt_length_of_mem (hs.mem hp k2), List.idxOf_lt_length_of_mem (hs.mem hp k1)⟩) (by
    intro t ht
    unfold cooα at ht
    rw [List.mem_map] at ht
    obtain ⟨⟨u, v⟩, hq, rfl⟩ := ht
    rw [mem_pairs hp.la.wf] at hq
    obtain ⟨t', rfl, k, _⟩ := (hp.al _ _).mp hq
    exact ⟨List.idxOf_lt_length_of_mem (hs.mem hp k), List.idxOf_lt_length_of_mem ((hs.memα hp v).mpr ⟨_, hq⟩)⟩) hreg
  obtain ⟨d', e', q1, q2, q3⟩ := ab_spec hp hs hreg (hL.spsolve.range hx) (hL.spsolve.once hx)
  obtain ⟨em', hu'⟩ := unwrapEdges_ok (d := d') inp (fun i hi w hw => by
    obtain ⟨n, rfl⟩ := q3 i w hw
    exact ⟨n, rfl, (q2 _ n).mpr ⟨hw, by simp⟩⟩) []
  refine ⟨src.map (fun _ => outs.foldl (outStep d') []), em', ?_⟩
  unfold inverse_solve
  rw [if_neg (by rw [hne]; exact Bool.false_ne_true), hd]
  simp only [bind, Except.bind]
  unfold mgraph_simplify
  rw [check_balance_spec hp.sound]
  simp only [bind, Except.bind]
  rw [build_emb hp]
  dsimp only
  rw [hk]
  dsimp only
  rw [ha]
  dsimp only
  rw [if_neg hem, build_coo hp hs]
  dsimp only
  rw [build_cooα hp hs]
  dsimp only
  rw [hx]
  dsimp only
  rw [e']
  dsimp only
  rw [hu']
  rfl

end Sci
