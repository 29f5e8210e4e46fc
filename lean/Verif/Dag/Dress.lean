import Verif.Dag.Prep

/-! # Dressing and purging -/

set_option linter.unusedSectionVars false

namespace Dag
open Py Graph

section general
variable {M : Type} {V : Type} [DecidableEq M]

theorem dressAlpha_spec (w : M → M) (val : M → V) : ∀ (L : List M) (d : D M V), LD d.alpha →
    (dressAlpha w val L d).seq = d.seq ∧ (dressAlpha w val L d).req = d.req ∧ (dressAlpha w val L d).beta = d.beta ∧
    (∀ s a, a ∈ at' (dressAlpha w val L d).alpha s ↔ a ∈ at' d.alpha s ∨ (s ∈ L ∧ a = w s)) ∧
    (∀ a b, Dict.get? (dressAlpha w val L d).em (a, b) = if b ∈ L ∧ a = w b then some (val b) else Dict.get? d.em (a, b)) ∧
    (∀ k, k ∈ Dict.keys (dressAlpha w val L d).alpha ↔ k ∈ Dict.keys d.alpha ∨ k ∈ L) ∧ LD (dressAlpha w val L d).alpha := by
  intro L
  induction L with
  | nil => intro d h; exact ⟨rfl, rfl, rfl, by simp [dressAlpha], by simp [dressAlpha], by simp [dressAlpha], h⟩
  | cons i L ih =>
    intro d h
    have e : dressAlpha w val (i :: L) d =
        dressAlpha w val L { d with alpha := ins d.alpha i (w i), em := Dict.set d.em (w i, i) (val i) } := rfl
    obtain ⟨h1, h2, h3, h4, h5, h6, h7⟩ := ih { d with alpha := ins d.alpha i (w i), em := Dict.set d.em (w i, i) (val i) }
      (LD_ins h i (w i))
    rw [← e] at h1 h2 h3 h4 h5 h6 h7
    refine ⟨h1, h2, h3, fun s a => ?_, fun a b => ?_, fun k => ?_, h7⟩
    · rw [h4, mem_ins]
      by_cases hs : i = s
      · subst hs; simp
        exact fun _ q => Or.inr q
      · simp [hs, Ne.symm hs]
    · rw [h5]
      dsimp only
      rw [Dict.get?_set]
      by_cases hb : i = b
      · subst hb
        by_cases ha : a = w i
        · subst ha; simp
        · simp [ha, Ne.symm ha]
      · simp [hb, Ne.symm hb]
    · rw [h6]
      have := has_ins d.alpha i (w i) k
      rw [Dict.has_iff, Dict.has_iff] at this
      dsimp only
      rw [this, List.mem_cons]
      constructor
      · rintro ((q | q) | q)
        · exact Or.inr (Or.inl q.symm)
        · exact Or.inl q
        · exact Or.inr (Or.inr q)
      · rintro (q | q | q)
        · exact Or.inl (Or.inr q)
        · exact Or.inl (Or.inl q.symm)
        · exact Or.inr q

end general

variable {N : Type} {V : Type} [DecidableEq N] [Field V] [DecidableEq V]

theorem dressBeta_spec (value : V) : ∀ (L : List (WN N)) (d : D (WN N) V), LD d.beta →
    (dressBeta value L d).seq = d.seq ∧ (dressBeta value L d).req = d.req ∧ (dressBeta value L d).alpha = d.alpha ∧
    (∀ s a, a ∈ at' (dressBeta value L d).beta s ↔ a ∈ at' d.beta s ∨ (s ∈ L ∧ a = wrapOut s)) ∧
    (∀ a b, Dict.get? (dressBeta value L d).em (a, b) = if a ∈ L ∧ b = wrapOut a then some value else Dict.get? d.em (a, b)) ∧
    (∀ k, k ∈ Dict.keys (dressBeta value L d).beta ↔ k ∈ Dict.keys d.beta ∨ k ∈ L) ∧ LD (dressBeta value L d).beta := by
  intro L
  induction L with
  | nil => intro d h; exact ⟨rfl, rfl, rfl, by simp [dressBeta], by simp [dressBeta], by simp [dressBeta], h⟩
  | cons i L ih =>
    intro d h
    have e : dressBeta value (i :: L) d =
        dressBeta value L { d with beta := ins d.beta i (wrapOut i), em := Dict.set d.em (i, wrapOut i) value } := rfl
    obtain ⟨h1, h2, h3, h4, h5, h6, h7⟩ := ih { d with beta := ins d.beta i (wrapOut i), em := Dict.set d.em (i, wrapOut i) value }
      (LD_ins h i (wrapOut i))
    rw [← e] at h1 h2 h3 h4 h5 h6 h7
    refine ⟨h1, h2, h3, fun s a => ?_, fun a b => ?_, fun k => ?_, h7⟩
    · rw [h4, mem_ins]
      by_cases hs : i = s
      · subst hs; simp
        exact fun _ q => Or.inr q
      · simp [hs, Ne.symm hs]
    · rw [h5]
      dsimp only
      rw [Dict.get?_set]
      by_cases hb : i = a
      · subst hb
        by_cases ha : b = wrapOut i
        · subst ha; simp
        · simp [ha, Ne.symm ha]
      · simp [hb, Ne.symm hb]
    · rw [h6]
      have := has_ins d.beta i (wrapOut i) k
      rw [Dict.has_iff, Dict.has_iff] at this
      dsimp only
      rw [this, List.mem_cons]
      constructor
      · rintro ((q | q) | q)
        · exact Or.inr (Or.inl q.symm)
        · exact Or.inl q
        · exact Or.inr (Or.inr q)
      · rintro (q | q | q)
        · exact Or.inl (Or.inr q)
        · exact Or.inl (Or.inl q.symm)
        · exact Or.inr q

/-- The value put on output edges. -/
def outVal (o : Opts) : V := if (if o.scattering then !o.negative else o.negative) = true then 1 else -1

/-- The edge values of the dressed system. -/
def em0 (value : V) (outs inp : List N) (src : Option (Dict N V)) (g : G N V) : WN N → WN N → Option V
  | .node a, .node b => Dict.get? g.em (a, b)
  | .vac, .node b => src.bind (fun m => Dict.get? m b)
  | .inp i, .node j => if i = j ∧ i ∈ inp then some 1 else none
  | .node i, .out j => if i = j ∧ i ∈ outs then some value else none
  | _, _ => none

/-- What dressing gives. -/
structure Dressed (value : V) (outs inp : List N) (src : Option (Dict N V)) (g : G N V) (d : D (WN N) V) : Prop where
  sq : ∀ a b, b ∈ at' d.seq a ↔ ∃ r t, a = .node r ∧ b = .node t ∧ Edge g r t
  mir : ∀ a b, b ∈ at' d.seq a ↔ a ∈ at' d.req b
  hs : ∀ w, Dict.has d.seq w = true ↔ ∃ n, w = .node n ∧ Dict.has g.seq n = true
  al : ∀ a s, a ∈ at' d.alpha s ↔ ∃ t, s = .node t ∧ ((a = .vac ∧ t ∈ srcKeys src) ∨ (a = .inp t ∧ t ∈ inp))
  ak : ∀ s, s ∈ Dict.keys d.alpha ↔ ∃ t, s = .node t ∧ t ∈ srcKeys src ++ inp
  be : ∀ r b, b ∈ at' d.beta r ↔ ∃ t, r = .node t ∧ b = .out t ∧ t ∈ outs
  bk : ∀ s, s ∈ Dict.keys d.beta ↔ ∃ t, s = .node t ∧ t ∈ outs
  em : ∀ a b, Dict.get? d.em (a, b) = em0 value outs inp src g a b
  ls : LD d.seq
  lr : LD d.req
  la : LD d.alpha
  lb : LD d.beta

theorem has_lift (g : G N V) (w : WN N) : Dict.has (pre_purge (lift g)).seq w = true ↔
    ∃ n, w = .node n ∧ Dict.has g.seq n = true := by
  have e : Dict.has (pre_purge (lift g)).seq w = Dict.has (lift g).seq w := by
    unfold Dict.has pre_purge
    dsimp only
    rw [get?_mapk (lift g).seq (fun k v => v.filter (fun s => Dict.has (lift g).em (k, s)))]
    cases Dict.get? (lift g).seq w <;> rfl
  rw [e]
  by_cases hw : ∃ n, WN.node n = w
  · obtain ⟨n, rfl⟩ := hw
    have : Dict.has (lift g).seq (.node n) = Dict.has g.seq n := by
      unfold Dict.has lift
      dsimp only
      rw [get?_map_inj g.seq WN.node node_inj]
      cases Dict.get? g.seq n <;> rfl
    rw [this]
    constructor
    · intro q; exact ⟨n, rfl, q⟩
    · rintro ⟨m, q1, q2⟩; cases q1; exact q2
  · have : Dict.has (lift g).seq w = false := by
      unfold Dict.has lift
      dsimp only
      rw [get?_map_none g.seq WN.node _ _ (fun n hn => hw ⟨n, hn⟩)]
      rfl
    rw [this]
    simp only [Bool.false_eq_true, false_iff]
    rintro ⟨n, q, _⟩
    exact hw ⟨n, q.symm⟩

theorem mem_map_node {l : List N} {w : WN N} : w ∈ l.map WN.node ↔ ∃ t, w = .node t ∧ t ∈ l := by
  rw [List.mem_map]
  constructor
  · rintro ⟨t, h1, h2⟩; exact ⟨t, h2.symm, h1⟩
  · rintro ⟨t, h1, h2⟩; exact ⟨t, h2, h1.symm⟩

theorem dress_spec (o : Opts) (outs inp : List N) (src : Option (Dict N V)) {g : G N V} (hv : Valid g) :
    Dressed (outVal o) outs inp src g (dress o outs inp src g) := by
  have hF := full_pre_purge (valid_lift hv)
  have hem : ∀ a b, Dict.get? (pre_purge (lift g)).em (a, b) = match a, b with
    | .node a, .node b => Dict.get? g.em (a, b)
    | _, _ => none := fun a b => em_lift g a b
  set gp := pre_purge (lift g) with hgp
  let d0 : D (WN N) V := ⟨gp.seq, gp.req, [], [], gp.em⟩
  let d1 : D (WN N) V := match src with
    | none => d0
    | some m => dressAlpha (fun _ => WN.vac)
        (fun w => match w with
          | .node n => (Dict.get? m n).getD 0
          | _ => 0) (m.map (fun kv => .node kv.1)) d0
  have p1 : d1.seq = gp.seq ∧ d1.req = gp.req ∧ d1.beta = [] ∧
      (∀ s a, a ∈ at' d1.alpha s ↔ ∃ t, s = .node t ∧ a = .vac ∧ t ∈ srcKeys src) ∧
      (∀ a b, Dict.get? d1.em (a, b) = match a, b with
        | .node a, .node b => Dict.get? g.em (a, b)
        | .vac, .node b => src.bind (fun m => Dict.get? m b)
        | _, _ => none) ∧
      (∀ k, k ∈ Dict.keys d1.alpha ↔ ∃ t, k = .node t ∧ t ∈ srcKeys src) ∧ LD d1.alpha := by
    cases src with
    | none =>
      refine ⟨rfl, rfl, rfl, ?_, ?_, ?_, LD_nil⟩
      · intro s a
        show a ∈ at' [] s ↔ _
        simp [at', Dict.get?, srcKeys]
      · intro a b
        show Dict.get? gp.em (a, b) = _
        rw [hem]
        cases a <;> cases b <;> rfl
      · intro k
        show k ∈ Dict.keys ([] : Dict (WN N) (List (WN N))) ↔ _
        simp [Dict.keys, srcKeys]
    | some m =>
      obtain ⟨h1, h2, h3, h4, h5, h6, h7⟩ := dressAlpha_spec (fun _ => WN.vac)
        (fun w => match w with
          | .node n => (Dict.get? m n).getD 0
          | _ => 0) (m.map (fun kv => .node kv.1)) d0 LD_nil
      have hL : m.map (fun kv => WN.node kv.1) = (Dict.keys m).map WN.node := by
        unfold Dict.keys
        rw [List.map_map]
        rfl
      rw [hL] at h4 h5 h6
      refine ⟨h1, h2, h3, ?_, ?_, ?_, h7⟩
      · intro s a
        show a ∈ at' (dressAlpha _ _ _ _).alpha s ↔ _
        rw [hL, h4, mem_map_node]
        show a ∈ at' [] s ∨ _ ↔ _
        simp only [at', Dict.get?, srcKeys, Option.map_some, Option.getD_some, Option.getD_none, List.not_mem_nil, false_or]
        constructor
        · rintro ⟨⟨t, q1, q2⟩, q3⟩; exact ⟨t, q1, q3, q2⟩
        · rintro ⟨t, q1, q2, q3⟩; exact ⟨⟨t, q1, q3⟩, q2⟩
      · intro a b
        show Dict.get? (dressAlpha _ _ _ _).em (a, b) = _
        rw [hL, h5]
        show (if _ then _ else Dict.get? gp.em (a, b)) = _
        rw [hem]
        cases b with
        | node b =>
          by_cases hk : b ∈ Dict.keys m
          · have hkm : WN.node b ∈ (Dict.keys m).map WN.node := mem_map_node.mpr ⟨b, rfl, hk⟩
            obtain ⟨v, hv⟩ := Option.isSome_iff_exists.mp ((Dict.mem_keys_iff m b).mp hk)
            cases a <;> simp [hkm, hv]
          · have hkm : WN.node b ∉ (Dict.keys m).map WN.node := fun q => by
              obtain ⟨t, q1, q2⟩ := mem_map_node.mp q
              cases q1
              exact hk q2
            have hnone : Dict.get? m b = none := by
              cases hh : Dict.get? m b with
              | none => rfl
              | some v => exact absurd ((Dict.mem_keys_iff m b).mpr (by rw [hh]; rfl)) hk
            rw [if_neg (fun q => hkm q.1)]
            cases a <;> simp [hnone]
        | vac => cases a <;> simp
        | inp i => cases a <;> simp
        | out i => cases a <;> simp
      · intro k
        show k ∈ Dict.keys (dressAlpha _ _ _ _).alpha ↔ _
        rw [hL, h6, mem_map_node]
        show k ∈ Dict.keys ([] : Dict (WN N) (List (WN N))) ∨ _ ↔ _
        simp [Dict.keys, srcKeys]
  obtain ⟨a1, a2, a3, a4, a5, a6, a7⟩ := p1
  obtain ⟨b1, b2, b3, b4, b5, b6, b7⟩ := dressAlpha_spec (wrapIn (N := N)) (fun _ => (1 : V)) (inp.map .node) d1 a7
  obtain ⟨c1, c2, c3, c4, c5, c6, c7⟩ := dressBeta_spec (outVal o : V) (outs.map .node)
    (dressAlpha (wrapIn (N := N)) (fun _ => (1 : V)) (inp.map .node) d1) (by rw [b3, a3]; exact LD_nil)
  have ed : dress o outs inp src g = dressBeta (outVal o : V) (outs.map .node)
    (dressAlpha (wrapIn (N := N)) (fun _ => (1 : V)) (inp.map .node) d1) := by
    unfold dress outVal
    cases src <;> rfl
  rw [← ed] at c1 c2 c3 c4 c5 c6 c7
  rw [b1, a1] at c1
  rw [b2, a2] at c2
  rw [b3, a3] at c4 c6
  have sq : ∀ a b, b ∈ at' gp.seq a ↔ ∃ r t, a = WN.node r ∧ b = WN.node t ∧ Edge g r t := by
    intro a b
    have := hF.s a b
    rw [hem] at this
    show b ∈ gp.succ a ↔ _
    rw [this]
    cases a <;> cases b <;> simp [Edge]
  refine ⟨fun a b => by rw [c1]; exact sq a b, fun a b => ?_, fun w => by rw [c1]; exact has_lift g w, fun a s => ?_,
    fun s => ?_, fun r b => ?_, fun s => ?_, fun a b => ?_, ?_, ?_, ?_, c7⟩
  · rw [c1, c2]
    exact (hF.s a b).trans (hF.p a b).symm
  · rw [c3, b4, a4, mem_map_node]
    constructor
    · rintro (⟨t, q1, q2, q3⟩ | ⟨⟨t, q1, q2⟩, q3⟩)
      · exact ⟨t, q1, Or.inl ⟨q2, q3⟩⟩
      · subst q1; exact ⟨t, rfl, Or.inr ⟨q3, q2⟩⟩
    · rintro ⟨t, rfl, ⟨q1, q2⟩ | ⟨q1, q2⟩⟩
      · exact Or.inl ⟨t, rfl, q1, q2⟩
      · exact Or.inr ⟨⟨t, rfl, q2⟩, q1⟩
  · rw [c3, b6, a6, mem_map_node]
    constructor
    · rintro (⟨t, q1, q2⟩ | ⟨t, q1, q2⟩)
      · exact ⟨t, q1, List.mem_append_left _ q2⟩
      · exact ⟨t, q1, List.mem_append_right _ q2⟩
    · rintro ⟨t, q1, q2⟩
      rcases List.mem_append.mp q2 with q2 | q2
      · exact Or.inl ⟨t, q1, q2⟩
      · exact Or.inr ⟨t, q1, q2⟩
  · rw [c4, mem_map_node]
    show b ∈ at' [] r ∨ _ ↔ _
    simp only [at', Dict.get?, Option.getD_none, List.not_mem_nil, false_or]
    constructor
    · rintro ⟨⟨t, rfl, q2⟩, q3⟩; exact ⟨t, rfl, q3, q2⟩
    · rintro ⟨t, rfl, q2, q3⟩; exact ⟨⟨t, rfl, q3⟩, q2⟩
  · rw [c6, mem_map_node]
    simp [Dict.keys]
  · rw [c5, b5, a5]
    have i1 : ∀ t, (WN.node t ∈ outs.map WN.node) ↔ t ∈ outs := fun t => by rw [mem_map_node]; simp
    have i2 : ∀ t, (WN.node t ∈ inp.map WN.node) ↔ t ∈ inp := fun t => by rw [mem_map_node]; simp
    have i3 : ∀ (l : List N) w, (∀ t, w ≠ WN.node t) → w ∉ l.map WN.node := fun l w h q => by
      obtain ⟨t, q1, _⟩ := mem_map_node.mp q
      exact h t q1
    cases a with
    | node a =>
      cases b with
      | node b =>
        rw [if_neg (by rintro ⟨_, q⟩; cases q), if_neg (by rintro ⟨_, q⟩; cases q)]; rfl
      | out b =>
        show _ = if a = b ∧ a ∈ outs then some (outVal o) else none
        by_cases h1 : a ∈ outs
        · by_cases h2 : a = b
          · subst h2
            rw [if_pos ⟨(i1 a).mpr h1, rfl⟩, if_pos ⟨rfl, h1⟩]
          · rw [if_neg (fun q => h2 (by have := q.2; cases this; rfl)), if_neg (fun q => i3 inp _ (fun t => by simp) q.1), if_neg (fun q => h2 q.1)]
        · rw [if_neg (fun q => h1 ((i1 a).mp q.1)), if_neg (fun q => i3 inp _ (fun t => by simp) q.1), if_neg (fun q => h1 q.2)]
      | vac => rw [if_neg (by rintro ⟨_, q⟩; cases q), if_neg (fun q => i3 inp _ (fun t => by simp) q.1)]; rfl
      | inp b => rw [if_neg (by rintro ⟨_, q⟩; cases q), if_neg (fun q => i3 inp _ (fun t => by simp) q.1)]; rfl
    | vac =>
      rw [if_neg (fun q => i3 outs _ (fun t => by simp) q.1)]
      cases b with
      | node b => rw [if_neg (by rintro ⟨_, q⟩; cases q)]; rfl
      | out b => rw [if_neg (fun q => i3 inp _ (fun t => by simp) q.1)]; rfl
      | vac => rw [if_neg (fun q => i3 inp _ (fun t => by simp) q.1)]; rfl
      | inp b => rw [if_neg (fun q => i3 inp _ (fun t => by simp) q.1)]; rfl
    | inp a =>
      rw [if_neg (fun q => i3 outs _ (fun t => by simp) q.1)]
      cases b with
      | node b =>
        show _ = if a = b ∧ a ∈ inp then some (1 : V) else none
        by_cases h1 : a = b
        · subst h1
          by_cases h2 : a ∈ inp
          · rw [if_pos ⟨(i2 a).mpr h2, rfl⟩, if_pos ⟨rfl, h2⟩]
          · rw [if_neg (fun q => h2 ((i2 a).mp q.1)), if_neg (fun q => h2 q.2)]
        · rw [if_neg (fun q => h1 (by have := q.2; cases this; rfl)), if_neg (fun q => h1 q.1)]
      | out b => rw [if_neg (fun q => i3 inp _ (fun t => by simp) q.1)]; rfl
      | vac => rw [if_neg (fun q => i3 inp _ (fun t => by simp) q.1)]; rfl
      | inp b => rw [if_neg (fun q => i3 inp _ (fun t => by simp) q.1)]; rfl
    | out a =>
      rw [if_neg (fun q => i3 outs _ (fun t => by simp) q.1)]
      cases b with
      | node b => rw [if_neg (by rintro ⟨_, q⟩; cases q)]; rfl
      | out b => rw [if_neg (fun q => i3 inp _ (fun t => by simp) q.1)]; rfl
      | vac => rw [if_neg (fun q => i3 inp _ (fun t => by simp) q.1)]; rfl
      | inp b => rw [if_neg (fun q => i3 inp _ (fun t => by simp) q.1)]; rfl
  · rw [c1]; exact ⟨hF.ws, hF.nds⟩
  · rw [c2]; exact ⟨hF.wr, hF.ndp⟩
  · rw [c3]; exact b7

end Dag
