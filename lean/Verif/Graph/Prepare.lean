import Verif.Graph.Loop
import Verif.Graph.Purge

set_option linter.unusedSectionVars false

namespace Graph
open Py
variable {N : Type} {V : Type} [DecidableEq N] [Field V] [DecidableEq V]

/-- Dictionaries are well formed and the adjacency lists exactly the stored edges. -/
structure Full (g : G N V) : Prop where
  s : ∀ a b, b ∈ g.succ a ↔ (Dict.get? g.em (a, b)).isSome
  p : ∀ a b, a ∈ g.pred b ↔ (Dict.get? g.em (a, b)).isSome
  nds : ∀ a, (g.succ a).Nodup
  ndp : ∀ a, (g.pred a).Nodup
  ws : Dict.WF g.seq
  wr : Dict.WF g.req

theorem Full.inv {g : G N V} (h : Full g) : Inv (fun _ => True) g :=
  ⟨⟨fun a b => by rw [h.s, h.p], fun a b hab => (h.s a b).1 hab, h.nds, h.ndp⟩,
    fun a b _ _ he => (h.s a b).2 he, fun _ _ _ => ⟨trivial, trivial⟩⟩

theorem Full.W {g : G N V} (h : Full g) (a b : N) : W g a b = (Dict.get? g.em (a, b)).getD 0 := by
  unfold Graph.W
  split
  · rfl
  · rename_i hn
    rw [h.s] at hn
    cases hg : Dict.get? g.em (a, b) with
    | none => rfl
    | some v => simp [hg] at hn

theorem get?_mapk {K X Y : Type} [DecidableEq K] (d : Dict K X) (f : K → X → Y) (k : K) :
    Dict.get? (d.map (fun kv => (kv.1, f kv.1 kv.2))) k = (Dict.get? d k).map (f k) := by
  induction d with
  | nil => rfl
  | cons kv d ih =>
    rw [List.map_cons, Dict.get?_cons, Dict.get?_cons, ih]
    dsimp only
    split
    · rename_i h; subst h; rfl
    · rfl

theorem keys_mapk {K X Y : Type} [DecidableEq K] (d : Dict K X) (f : K → X → Y) :
    Dict.keys (d.map (fun kv => (kv.1, f kv.1 kv.2))) = Dict.keys d := by
  unfold Dict.keys
  rw [List.map_map]
  rfl

theorem succ_pre_purge (g : G N V) (a : N) :
    (pre_purge g).succ a = (g.succ a).filter (fun s => Dict.has g.em (a, s)) := by
  unfold pre_purge G.succ
  dsimp only
  rw [get?_mapk g.seq (fun k v => v.filter (fun s => Dict.has g.em (k, s)))]
  cases Dict.get? g.seq a <;> rfl

theorem pred_pre_purge (g : G N V) (b : N) :
    (pre_purge g).pred b = (g.pred b).filter (fun r => Dict.has g.em (r, b)) := by
  unfold pre_purge G.pred
  dsimp only
  rw [get?_mapk g.req (fun k v => v.filter (fun r => Dict.has g.em (r, k)))]
  cases Dict.get? g.req b <;> rfl

theorem full_pre_purge {g : G N V} (h : Valid g) : Full (pre_purge g) := by
  refine ⟨?_, ?_, ?_, ?_, ?_, ?_⟩
  · intro a b
    rw [succ_pre_purge, List.mem_filter]
    exact ⟨fun hh => hh.2, fun hh => ⟨(h.listed a b hh).1, hh⟩⟩
  · intro a b
    rw [pred_pre_purge, List.mem_filter]
    exact ⟨fun hh => hh.2, fun hh => ⟨(h.listed a b hh).2, hh⟩⟩
  · intro a; rw [succ_pre_purge]; exact (h.nds a).filter _
  · intro a; rw [pred_pre_purge]; exact (h.ndp a).filter _
  · show (Dict.keys _).Nodup
    unfold pre_purge
    dsimp only
    rw [keys_mapk g.seq (fun k v => v.filter (fun s => Dict.has g.em (k, s)))]
    exact h.ws
  · show (Dict.keys _).Nodup
    unfold pre_purge
    dsimp only
    rw [keys_mapk g.req (fun k v => v.filter (fun r => Dict.has g.em (r, k)))]
    exact h.wr

/-- Adding one edge with its adjacency. -/
theorem full_dress {g : G N V} (h : Full g) (a b : N) (v : V) :
    Full (((g.seqAdd a b).reqAdd b a).setEdge a b v) := by
  have hem : ∀ c d, Dict.get? (((g.seqAdd a b).reqAdd b a).setEdge a b v).em (c, d) =
      if a = c ∧ b = d then some v else Dict.get? g.em (c, d) := by
    intro c d
    rw [G.em_setEdge, Dict.get?_set]
    simp only [Prod.mk.injEq]
    rfl
  refine ⟨?_, ?_, ?_, ?_, ?_, ?_⟩
  · intro c d
    rw [hem]
    simp only [G.succ_setEdge, G.succ_reqAdd, G.succ_seqAdd]
    by_cases hc : a = c
    · subst hc
      rw [if_pos rfl, mem_sadd, h.s]
      by_cases hd : b = d
      · subst hd; simp
      · simp [hd, Ne.symm hd]
    · rw [if_neg hc, h.s]; simp [hc]
  · intro c d
    rw [hem]
    simp only [G.pred_setEdge, G.pred_reqAdd, G.pred_seqAdd]
    by_cases hd : b = d
    · subst hd
      rw [if_pos rfl, mem_sadd, h.p]
      by_cases hc : a = c
      · subst hc; simp
      · simp [hc, Ne.symm hc]
    · rw [if_neg hd, h.p]; simp [hd]
  · intro c
    simp only [G.succ_setEdge, G.succ_reqAdd, G.succ_seqAdd]
    split
    · exact nodup_sadd (h.nds _) _
    · exact h.nds _
  · intro c
    simp only [G.pred_setEdge, G.pred_reqAdd, G.pred_seqAdd]
    split
    · exact nodup_sadd (h.ndp _) _
    · exact h.ndp _
  · exact Dict.WF_set h.ws _ _
  · exact Dict.WF_set h.wr _ _

theorem em_dress (g : G N V) (a b : N) (v : V) (c d : N) :
    Dict.get? (((g.seqAdd a b).reqAdd b a).setEdge a b v).em (c, d) =
      if a = c ∧ b = d then some v else Dict.get? g.em (c, d) := by
  rw [G.em_setEdge, Dict.get?_set]
  simp only [Prod.mk.injEq]
  rfl

theorem dressSources_spec : ∀ (m : Dict N V), Dict.WF m → ∀ (g : G (WN N) V), Full g →
    Full (dressSources m g) ∧ ∀ c d, Dict.get? (dressSources m g).em (c, d) =
      match c, d with
      | .vac, .node j => (Dict.get? m j).or (Dict.get? g.em (c, d))
      | _, _ => Dict.get? g.em (c, d) := by
  intro m
  induction m with
  | nil =>
    intro _ g h
    refine ⟨h, ?_⟩
    intro c d
    cases c <;> cases d <;> rfl
  | cons iv m ih =>
    intro hw g h
    have hw' : Dict.WF m := (List.nodup_cons.1 hw).2
    have hni : iv.1 ∉ Dict.keys m := (List.nodup_cons.1 hw).1
    obtain ⟨h1, h2⟩ := ih hw' _ (full_dress h .vac (.node iv.1) iv.2)
    refine ⟨h1, ?_⟩
    intro c d
    have := h2 c d
    unfold dressSources at this ⊢
    rw [List.foldl_cons, this]
    rw [em_dress]
    cases c <;> cases d <;> try (simp; done)
    rename_i j
    simp only [Dict.get?_cons, true_and, WN.node.injEq]
    by_cases hj : iv.1 = j
    · subst hj
      rw [(Dict.get?_eq_none_iff m iv.1).2 hni]
      simp
    · simp [hj]

theorem dressInputs_spec : ∀ (l : List N) (g : G (WN N) V), Full g →
    Full (dressInputs l g) ∧ ∀ c d, Dict.get? (dressInputs l g).em (c, d) =
      match c, d with
      | .inp i, .node j => if i = j ∧ i ∈ l then some 1 else Dict.get? g.em (c, d)
      | _, _ => Dict.get? g.em (c, d) := by
  intro l
  induction l with
  | nil =>
    intro g h
    refine ⟨h, ?_⟩
    intro c d
    cases c <;> cases d <;> simp [dressInputs]
  | cons k l ih =>
    intro g h
    obtain ⟨h1, h2⟩ := ih _ (full_dress h (.inp k) (.node k) 1)
    refine ⟨h1, ?_⟩
    intro c d
    have := h2 c d
    unfold dressInputs at this ⊢
    rw [List.foldl_cons, this]
    rw [em_dress]
    cases c <;> cases d <;> try (simp; done)
    rename_i i j
    simp only [WN.node.injEq, WN.inp.injEq, List.mem_cons]
    by_cases hij : i = j
    · subst hij
      by_cases hk : k = i
      · subst hk; simp
      · simp [hk, Ne.symm hk]
    · simp only [hij, false_and, if_false]
      rw [if_neg]
      rintro ⟨rfl, rfl⟩
      exact hij rfl

theorem dressOutputs_spec (neg : Bool) : ∀ (l : List N) (g : G (WN N) V), Full g →
    Full (dressOutputs neg l g) ∧ ∀ c d, Dict.get? (dressOutputs neg l g).em (c, d) =
      match c, d with
      | .node i, .out j => if i = j ∧ i ∈ l then some (if neg then -1 else 1) else Dict.get? g.em (c, d)
      | _, _ => Dict.get? g.em (c, d) := by
  intro l
  induction l with
  | nil =>
    intro g h
    refine ⟨h, ?_⟩
    intro c d
    cases c <;> cases d <;> simp [dressOutputs]
  | cons k l ih =>
    intro g h
    obtain ⟨h1, h2⟩ := ih _ (full_dress h (.node k) (.out k) (if neg then -1 else 1))
    refine ⟨h1, ?_⟩
    intro c d
    have := h2 c d
    unfold dressOutputs at this ⊢
    dsimp only at this ⊢
    rw [List.foldl_cons, this]
    rw [em_dress]
    cases c <;> cases d <;> try (simp; done)
    rename_i i j
    simp only [WN.node.injEq, WN.out.injEq, List.mem_cons]
    by_cases hij : i = j
    · subst hij
      by_cases hk : k = i
      · subst hk; simp
      · simp [hk, Ne.symm hk]
    · simp only [hij, false_and, if_false]
      rw [if_neg]
      rintro ⟨rfl, rfl⟩
      exact hij rfl

/-- Purging keeps the invariant, with the purged nodes dead. -/
theorem purge_inv [Fintype N] {pick : List N → N} (hpick : ∀ l, l ≠ [] → pick l ∈ l) (forward : Bool) (S : List N)
    {A : N → Prop} {g : G N V} (hI : Inv A g) (ws : Dict.WF g.seq) (wr : Dict.WF g.req) :
    ∃ (g' : G N V) (P : List N), color_purge pick forward S g = .ok g' ∧
      (∀ n, n ∈ P ↔ Dict.has g.seq n = true ∧ ¬ ReachFrom (if forward then g.succ else g.pred) S n) ∧
      Inv (fun a => A a ∧ a ∉ P) g' ∧ Dict.WF g'.seq ∧ Dict.WF g'.req ∧
      (∀ a b, b ∈ g'.succ a ↔ b ∈ g.succ a ∧ a ∉ P ∧ b ∉ P) ∧
      (∀ a b, W g' a b = if a ∈ P ∨ b ∈ P then 0 else W g a b) ∧
      (∀ a b, (Dict.get? g'.em (a, b)).isSome → (Dict.get? g.em (a, b)).isSome) := by
  obtain ⟨g', P, he, hP, hs, hp, hem, _, ws', wr'⟩ :=
    color_purge_spec hpick forward S hI.bal.mirror hI.bal.nodup_succ hI.bal.nodup_pred ws wr
  have hsm : ∀ a b, b ∈ g'.succ a ↔ b ∈ g.succ a ∧ a ∉ P ∧ b ∉ P := by
    intro a b
    rw [hs]
    by_cases ha : a ∈ P
    · simp [ha]
    · simp [ha]
  have hpm : ∀ a b, a ∈ g'.pred b ↔ a ∈ g.pred b ∧ a ∉ P ∧ b ∉ P := by
    intro a b
    rw [hp]
    by_cases hb : b ∈ P
    · simp [hb]
    · simp [hb]
  refine ⟨g', P, he, hP, ⟨⟨?_, ?_, ?_, ?_⟩, ?_, ?_⟩, ws', wr', hsm, ?_, ?_⟩
  · intro a b; rw [hsm, hpm, hI.bal.mirror]
  · intro a b hab
    obtain ⟨h1, h2, _⟩ := (hsm a b).1 hab
    rw [hem, if_neg (fun hh => h2 hh.1)]
    exact hI.bal.valued a b h1
  · intro a; rw [hs]; split
    · simp
    · exact (hI.bal.nodup_succ a).filter _
  · intro a; rw [hp]; split
    · simp
    · exact (hI.bal.nodup_pred a).filter _
  · rintro a b ⟨hAa, ha⟩ ⟨hAb, hb⟩ h
    rw [hem, if_neg (fun hh => ha hh.1)] at h
    exact (hsm a b).2 ⟨hI.used a b hAa hAb h, ha, hb⟩
  · intro a b hab
    obtain ⟨h1, h2, h3⟩ := (hsm a b).1 hab
    obtain ⟨h4, h5⟩ := hI.alive a b h1
    exact ⟨⟨h4, h2⟩, h5, h3⟩
  · intro a b
    unfold W
    simp only [hsm]
    by_cases hab : a ∈ P ∨ b ∈ P
    · rw [if_pos hab, if_neg]
      rintro ⟨_, h1, h2⟩
      rcases hab with h | h
      · exact h1 h
      · exact h2 h
    · obtain ⟨h1, h2⟩ := not_or.1 hab
      have e : Dict.get? g'.em (a, b) = Dict.get? g.em (a, b) := by rw [hem, if_neg (fun hh => h1 hh.1)]
      rw [if_neg hab, e]
      simp [h1, h2]
  · intro a b h
    rw [hem] at h
    split at h
    · simp at h
    · exact h

/-! ## The user's graph inside the dressed graph -/

theorem get?_map_inj {K K' X Y : Type} [DecidableEq K] [DecidableEq K'] (d : Dict K X) (e : K → K') (he : Function.Injective e)
    (f : X → Y) (k : K) : Dict.get? (d.map (fun kv => (e kv.1, f kv.2))) (e k) = (Dict.get? d k).map f := by
  induction d with
  | nil => rfl
  | cons kv d ih =>
    rw [List.map_cons, Dict.get?_cons, Dict.get?_cons, ih]
    dsimp only
    by_cases h : kv.1 = k
    · subst h; simp
    · rw [if_neg h, if_neg (fun hh => h (he hh))]

theorem get?_map_none {K K' X Y : Type} [DecidableEq K] [DecidableEq K'] (d : Dict K X) (e : K → K')
    (f : X → Y) (k' : K') (h : ∀ k, e k ≠ k') : Dict.get? (d.map (fun kv => (e kv.1, f kv.2))) k' = none := by
  induction d with
  | nil => rfl
  | cons kv d ih =>
    rw [List.map_cons, Dict.get?_cons, ih]
    dsimp only
    rw [if_neg (h _)]

theorem node_inj : Function.Injective (WN.node : N → WN N) := fun _ _ h => WN.node.inj h

theorem succ_lift (g : G N V) (n : N) : (lift g).succ (.node n) = (g.succ n).map .node := by
  unfold lift G.succ
  dsimp only
  rw [get?_map_inj g.seq WN.node node_inj]
  cases Dict.get? g.seq n <;> rfl

theorem pred_lift (g : G N V) (n : N) : (lift g).pred (.node n) = (g.pred n).map .node := by
  unfold lift G.pred
  dsimp only
  rw [get?_map_inj g.req WN.node node_inj]
  cases Dict.get? g.req n <;> rfl

theorem succ_lift' (g : G N V) (w : WN N) (h : ∀ n, WN.node n ≠ w) : (lift g).succ w = [] := by
  unfold lift G.succ
  dsimp only
  rw [get?_map_none g.seq WN.node _ _ h]
  rfl

theorem pred_lift' (g : G N V) (w : WN N) (h : ∀ n, WN.node n ≠ w) : (lift g).pred w = [] := by
  unfold lift G.pred
  dsimp only
  rw [get?_map_none g.req WN.node _ _ h]
  rfl

theorem em_lift (g : G N V) (c d : WN N) : Dict.get? (lift g).em (c, d) =
    match c, d with
    | .node a, .node b => Dict.get? g.em (a, b)
    | _, _ => none := by
  have hno : (∀ a b, (c, d) ≠ (WN.node a, WN.node b)) → Dict.get? (lift g).em (c, d) = none := by
    intro h
    have := get?_map_none g.em (fun p : N × N => (WN.node p.1, WN.node p.2)) (fun v : V => v) (c, d)
      (fun k hk => h k.1 k.2 hk.symm)
    exact this
  cases c <;> cases d <;> try (exact hno (by simp))
  rename_i a b
  have hinj : Function.Injective (fun p : N × N => (WN.node p.1, WN.node p.2)) := by
    rintro ⟨p1, p2⟩ ⟨q1, q2⟩ h
    simpa using h
  have := get?_map_inj g.em (fun p : N × N => (WN.node p.1, WN.node p.2)) hinj (fun v : V => v) (a, b)
  have h2 : Dict.get? (lift g).em (.node a, .node b) = Option.map (fun v : V => v) (Dict.get? g.em (a, b)) := this
  rw [h2]
  show Option.map (fun v : V => v) (Dict.get? g.em (a, b)) = Dict.get? g.em (a, b)
  cases Dict.get? g.em (a, b) <;> rfl

theorem valid_lift {g : G N V} (h : Valid g) : Valid (lift g) := by
  refine ⟨?_, ?_, ?_, ?_, ?_⟩
  · unfold lift Dict.WF Dict.keys
    dsimp only
    rw [List.map_map]
    have : (Prod.fst ∘ fun kv : N × List N => (WN.node kv.1, kv.2.map WN.node)) = WN.node ∘ Prod.fst := rfl
    rw [this, ← List.map_map]
    exact h.ws.map node_inj
  · unfold lift Dict.WF Dict.keys
    dsimp only
    rw [List.map_map]
    have : (Prod.fst ∘ fun kv : N × List N => (WN.node kv.1, kv.2.map WN.node)) = WN.node ∘ Prod.fst := rfl
    rw [this, ← List.map_map]
    exact h.wr.map node_inj
  · intro w
    by_cases hw : ∃ n, WN.node n = w
    · obtain ⟨n, rfl⟩ := hw
      rw [succ_lift]
      exact (h.nds n).map node_inj
    · rw [succ_lift' g w (fun n hn => hw ⟨n, hn⟩)]; simp
  · intro w
    by_cases hw : ∃ n, WN.node n = w
    · obtain ⟨n, rfl⟩ := hw
      rw [pred_lift]
      exact (h.ndp n).map node_inj
    · rw [pred_lift' g w (fun n hn => hw ⟨n, hn⟩)]; simp
  · intro c d hcd
    rw [em_lift] at hcd
    cases c <;> cases d <;> try (simp at hcd; done)
    rename_i a b
    obtain ⟨h1, h2⟩ := h.listed a b hcd
    rw [succ_lift, pred_lift]
    exact ⟨List.mem_map_of_mem h1, List.mem_map_of_mem h2⟩

/-- The graph after dressing. -/
def dressed (neg : Bool) (outs ins : List N) (src : Option (Dict N V)) (g : G N V) : G (WN N) V :=
  dressOutputs neg outs (dressInputs ins (match src with
    | none => pre_purge (lift g)
    | some m => dressSources m (pre_purge (lift g))))

/-- Every stored edge of the dressed graph. -/
theorem dressed_spec {neg : Bool} {outs ins : List N} {src : Option (Dict N V)} {g : G N V} (hv : Valid g)
    (hsrc : ∀ m, src = some m → Dict.WF m) :
    Full (dressed neg outs ins src g) ∧ ∀ c d, Dict.get? (dressed neg outs ins src g).em (c, d) =
      match c, d with
      | .node a, .node b => Dict.get? g.em (a, b)
      | .vac, .node b => src.bind (fun m => Dict.get? m b)
      | .inp i, .node j => if i = j ∧ i ∈ ins then some 1 else none
      | .node i, .out j => if i = j ∧ i ∈ outs then some (if neg then -1 else 1) else none
      | _, _ => none := by
  have h0 := full_pre_purge (valid_lift hv)
  have e0 : (pre_purge (lift g)).em = (lift g).em := rfl
  unfold dressed
  cases src with
  | none =>
    dsimp only
    obtain ⟨h1, e1⟩ := dressInputs_spec ins _ h0
    obtain ⟨h2, e2⟩ := dressOutputs_spec neg outs _ h1
    refine ⟨h2, ?_⟩
    intro c d
    rw [e2]
    cases c <;> cases d <;> simp only [e1, e0, em_lift] <;> rfl
  | some m =>
    dsimp only
    obtain ⟨h1, e1⟩ := dressSources_spec m (hsrc m rfl) _ h0
    obtain ⟨h2, e2⟩ := dressInputs_spec ins _ h1
    obtain ⟨h3, e3⟩ := dressOutputs_spec neg outs _ h2
    refine ⟨h3, ?_⟩
    intro c d
    rw [e3]
    cases c <;> cases d <;> simp only [e2, e1, e0, em_lift]
    simp

end Graph
