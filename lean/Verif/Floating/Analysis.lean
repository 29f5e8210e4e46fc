import Verif.Floating.Lift

/-!
# The analysis with floating couplings
-/

set_option linter.unusedSectionVars false

namespace Floating
open Py Inject

variable {P K F : Type} [DecidableEq P] [DecidableEq K] [Field F] [DecidableEq F]

/-- The nodes which can carry a field: sources start fields when all their factors carry one, bonds and edges pass them on,
and a floating pair passes a field at any of its inputs on to all of its outputs. -/
inductive Live (bonds : SR (P × K)) (injs : List (Inj P K F)) (ps : List (Pair P K F)) : P × K → Prop
  | source {n : P × K} {i : Inj P K F} {f : Func P K F} {r : Rule (P × K)} : i ∈ injs → (n, f) ∈ i.sources →
      source_rule n i = .ok r → (∀ z ∈ r.nz, Live bonds injs ps z) → Live bonds injs ps n
  | bond {a b : P × K} : Live bonds injs ps a → mem bonds.seq a b → Live bonds injs ps b
  | edge {a b : P × K} {i : Inj P K F} {f : Func P K F} {r : Rule (P × K)} : Live bonds injs ps a → i ∈ injs →
      ((a, b), f) ∈ i.edges → edge_rule (a, b) i = .ok r → (∀ z ∈ r.nz, Live bonds injs ps z) → Live bonds injs ps b
  | float {a b : P × K} {p : Pair P K F} : Live bonds injs ps a → p ∈ ps → a ∈ p.ins → b ∈ p.outs → Live bonds injs ps b

/-- A step along an edge of the graph or through a floating pair. -/
def Step (seq : SetDict P K) (ps : List (Pair P K F)) (a b : P × K) : Prop :=
  mem seq a b ∨ ∃ p ∈ ps, a ∈ p.ins ∧ b ∈ p.outs

section Insert
variable {injs : List (Inj P K F)} {ports : Dict P (List K)} {m : Algo P K F} (hm : insert_all ports injs = .ok m)
include hm

theorem edgeInj_iff (e : (P × K) × (P × K)) (i : Inj P K F) :
    i ∈ lst m.edgeInj e ↔ i ∈ injs ∧ ∃ f, (e, f) ∈ i.edges := by
  rw [(insert_lists _ hm).edgeInj]
  constructor
  · intro hi
    replace hi := (List.mem_append.1 hi).resolve_left (by simp [lst])
    obtain ⟨i', hi', hf⟩ := List.mem_flatMap.1 hi
    obtain ⟨⟨e', f'⟩, hm', rfl⟩ := List.mem_map.1 hf
    rw [List.mem_filter] at hm'
    have : e' = e := by simpa using hm'.2
    subst this
    exact ⟨hi', f', hm'.1⟩
  · rintro ⟨hi, f, hf⟩
    refine List.mem_append_right _ (List.mem_flatMap.2 ⟨i, hi, ?_⟩)
    exact List.mem_map.2 ⟨(e, f), List.mem_filter.2 ⟨hf, by simp⟩, rfl⟩

theorem srcInj_iff (e : P × K) (i : Inj P K F) :
    i ∈ lst m.srcInj e ↔ i ∈ injs ∧ ∃ f, (e, f) ∈ i.sources := by
  rw [(insert_lists _ hm).srcInj]
  constructor
  · intro hi
    replace hi := (List.mem_append.1 hi).resolve_left (by simp [lst])
    obtain ⟨i', hi', hf⟩ := List.mem_flatMap.1 hi
    obtain ⟨⟨e', f'⟩, hm', rfl⟩ := List.mem_map.1 hf
    rw [List.mem_filter] at hm'
    have : e' = e := by simpa using hm'.2
    subst this
    exact ⟨hi', f', hm'.1⟩
  · rintro ⟨hi, f, hf⟩
    refine List.mem_append_right _ (List.mem_flatMap.2 ⟨i, hi, ?_⟩)
    exact List.mem_map.2 ⟨(e, f), List.mem_filter.2 ⟨hf, by simp⟩, rfl⟩

theorem edgeFunc_of {e : (P × K) × (P × K)} {f : Func P K F} (hf : f ∈ lst m.edgeFunc e) : ∃ i ∈ injs, (e, f) ∈ i.edges := by
  rw [(insert_lists _ hm).edgeFunc] at hf
  replace hf := (List.mem_append.1 hf).resolve_left (by simp [lst])
  obtain ⟨i, hi, hf⟩ := List.mem_flatMap.1 hf
  obtain ⟨⟨e', f'⟩, hm', rfl⟩ := List.mem_map.1 hf
  rw [List.mem_filter] at hm'
  have : e' = e := by simpa using hm'.2
  subst this
  exact ⟨i, hi, hm'.1⟩

theorem srcFunc_of {e : P × K} {f : Func P K F} (hf : f ∈ lst m.srcFunc e) : ∃ i ∈ injs, (e, f) ∈ i.sources := by
  rw [(insert_lists _ hm).srcFunc] at hf
  replace hf := (List.mem_append.1 hf).resolve_left (by simp [lst])
  obtain ⟨i, hi, hf⟩ := List.mem_flatMap.1 hf
  obtain ⟨⟨e', f'⟩, hm', rfl⟩ := List.mem_map.1 hf
  rw [List.mem_filter] at hm'
  have : e' = e := by simpa using hm'.2
  subst this
  exact ⟨i, hi, hm'.1⟩

end Insert

theorem mem_virtual (ps : List (Pair P K F)) (z y : Node P K ps.length) :
    (z, y) ∈ virtual_edges ps ↔ ∃ i : Fin ps.length, (y = vnode i ∧ ∃ a ∈ (ps.get i).ins, z = real a) ∨
      (z = vnode i ∧ ∃ b ∈ (ps.get i).outs, y = real b) := by
  unfold virtual_edges
  rw [List.mem_flatMap]
  constructor
  · rintro ⟨i, -, h⟩
    refine ⟨i, ?_⟩
    rcases List.mem_append.1 h with h | h
    · obtain ⟨a, ha, h⟩ := List.mem_map.1 h
      injection h with h1 h2
      exact Or.inl ⟨h2.symm, a, ha, h1.symm⟩
    · obtain ⟨b, hb, h⟩ := List.mem_map.1 h
      injection h with h1 h2
      exact Or.inr ⟨h1.symm, b, hb, h2.symm⟩
  · rintro ⟨i, h⟩
    refine ⟨i, List.mem_finRange i, List.mem_append.2 ?_⟩
    rcases h with ⟨rfl, a, ha, rfl⟩ | ⟨rfl, b, hb, rfl⟩
    · exact Or.inl (List.mem_map.2 ⟨a, ha, rfl⟩)
    · exact Or.inr (List.mem_map.2 ⟨b, hb, rfl⟩)

/-- What the analysis returns. -/
structure Analysed (bonds : SR (P × K)) (injs : List (Inj P K F)) (ps : List (Pair P K F)) (reqs : List (P × K))
    {n : ℕ} (c : Csgb P K n) : Prop where
  active : ∀ a, real a ∈ c.active ↔ Live bonds injs ps a
  inputs : ∀ a, a ∈ c.inputs ↔ ∃ i ∈ injs, ∃ f r, (a, f) ∈ i.sources ∧ source_rule a i = .ok r ∧
    ∀ z ∈ r.nz, Live bonds injs ps z
  outs : ∀ o, o ∈ c.outs ↔ o ∈ reqs ∨
    (∃ i ∈ injs, ∃ a f r, (a, f) ∈ i.sources ∧ source_rule a i = .ok r ∧ (∀ z ∈ r.nz, Live bonds injs ps z) ∧ o ∈ r.req) ∨
    ∃ i ∈ injs, ∃ e f r, (e, f) ∈ i.edges ∧ edge_rule e i = .ok r ∧ (∀ z ∈ r.nz, Live bonds injs ps z) ∧ o ∈ r.req
  seq : ∀ a b, mem (lower c.full.seq) a b ↔ mem bonds.seq a b ∨ ∃ i ∈ injs, ∃ f r, ((a, b), f) ∈ i.edges ∧
    edge_rule (a, b) i = .ok r ∧ ∀ z ∈ r.nz, Live bonds injs ps z
  bal : ∀ a b, mem (lower c.full.seq) a b ↔ mem (lower c.full.req) b a
  wfs : SetWF (lower c.full.seq)
  wfr : SetWF (lower c.full.req)
  pbal : ∀ a b, mem (lower c.perturb.seq) a b ↔ mem (lower c.perturb.req) b a
  pwfs : SetWF (lower c.perturb.seq)
  pwfr : SetWF (lower c.perturb.req)
  ple : ∀ a b, mem (lower c.perturb.seq) a b → mem (lower c.full.seq) a b
  pge : ∀ a b, mem (lower c.full.seq) a b → (∃ i ∈ c.inputs, Relation.ReflTransGen (Step (lower c.full.seq) ps) i a) →
    (∃ o ∈ c.outs, Relation.ReflTransGen (Step (lower c.full.seq) ps) b o) → mem (lower c.perturb.seq) a b
  gone : ∀ i, vnode i ∉ Dict.keys c.full.seq ∧ vnode i ∉ Dict.keys c.full.req ∧ vnode i ∉ Dict.keys c.perturb.seq ∧
    vnode i ∉ Dict.keys c.perturb.req ∧ ∀ z, ¬ mem c.full.seq z (vnode i) ∧ ¬ mem c.full.req z (vnode i) ∧
      ¬ mem c.perturb.seq z (vnode i) ∧ ¬ mem c.perturb.req z (vnode i)

variable [Fintype P] [Fintype K]

/-- If the injections have rules and the linkage loop comes to an end, the analysis returns. -/
theorem analysis {injs : List (Inj P K F)} {ports : Dict P (List K)} {m : Algo P K F} (hm : insert_all ports injs = .ok m)
    {ps : List (Pair P K F)} {reqs : List (P × K)} {pick pick' : List (Node P K ps.length) → Node P K ps.length}
    (hpick : ∀ l, l ≠ [] → pick l ∈ l) (hpick' : ∀ l, l ≠ [] → pick' l ∈ l) {fuel : ℕ} {bonds : SR (P × K)}
    (hbw : bonds.WF) (hbal : ∀ a b, mem bonds.seq a b ↔ mem bonds.req b a)
    {sr : Dict (P × K) (List (Rule (P × K)))} (hsr : rules source_rule m.srcInj = .ok sr)
    {er : Dict ((P × K) × (P × K)) (List (Rule (P × K)))} (her : rules edge_rule m.edgeInj = .ok er)
    {st : SG (Node P K ps.length)}
    (hsp : sparsity pick fuel ((virtual_edges ps).foldl (fun g e => g.add e.1 e.2) ⟨lift_set bonds.seq, lift_set bonds.req⟩)
      (lift_rules real sr) (lift_rules real_edge er) = some st) :
    ∃ c, coherent_sparsity_graph ps reqs pick pick' fuel bonds m = .ok (some c) ∧ Analysed bonds injs ps reqs c := by
  have hcsg : coherent_sparsity_graph ps reqs pick pick' fuel bonds m = (do
      let st := { st with outs := adds st.outs (reqs.map real) }
      let gp ← Inject.perturb_graph (F := F) pick' st
      let (full, perturb) ← ((List.finRange ps.length).map vnode).foldlM remove_both (st.g, ⟨gp.seq, gp.req⟩)
      pure (some {
        inputs := st.inputs.filterMap unreal
        outs := st.outs.filterMap unreal
        active := st.sub
        full := full
        perturb := perturb })) := by
    unfold coherent_sparsity_graph
    rw [hsr, bind_ok, her, bind_ok]
    dsimp only
    rw [hsp]
  rw [hcsg]
  obtain ⟨g1, g2, g3⟩ := adds_edges (virtual_edges ps)
    (⟨lift_set bonds.seq, lift_set bonds.req⟩ : SR (Node P K ps.length))
  generalize (virtual_edges ps).foldl (fun g e => g.add e.1 e.2)
    (⟨lift_set bonds.seq, lift_set bonds.req⟩ : SR (Node P K ps.length)) = G at g1 g2 g3 hsp
  have hGw : G.WF := g3 ⟨SetWF_lift hbw.1, SetWF_lift hbw.2⟩
  have hGbal : ∀ a b, b ∈ lst G.seq a ↔ a ∈ lst G.req b := by
    intro a b
    rw [g1, g2]
    apply or_congr_left
    refine (mem_lift bonds.seq a b).trans (Iff.trans ?_ (mem_lift bonds.req b a).symm)
    constructor
    · rintro ⟨u, v, h1, h2, h3⟩
      exact ⟨v, u, h2, h1, (hbal _ _).1 h3⟩
    · rintro ⟨u, v, h1, h2, h3⟩
      exact ⟨v, u, h2, h1, (hbal _ _).2 h3⟩
  obtain ⟨ks, rs⟩ := rules_ok hsr
  obtain ⟨ke, re⟩ := rules_ok her
  have hL := insert_lists _ hm
  have hws : Dict.WF sr := by unfold Dict.WF; rw [ks]; exact hL.wfs Dict.WF_nil
  have hwe : Dict.WF er := by unfold Dict.WF; rw [ke]; exact hL.wfe Dict.WF_nil
  have hfr : ∀ a b : P × K, (real a : Node P K ps.length) = real b → a = b := fun _ _ => real_inj
  have hfe : ∀ a b : (P × K) × (P × K), (real_edge a : Node P K ps.length × _) = real_edge b → a = b := by
    intro a b hab
    have h1 := real_inj (congrArg Prod.fst hab)
    have h2 := real_inj (congrArg Prod.snd hab)
    exact Prod.ext h1 h2
  have hws' : Dict.WF (lift_rules (n := ps.length) real sr) := WF_map_key _ hfr _ hws
  have hwe' : Dict.WF (lift_rules (n := ps.length) real_edge er) := WF_map_key _ hfe _ hwe
  have hS : ∀ a r, HasRule sr a r ↔ ∃ i ∈ injs, ∃ f, (a, f) ∈ i.sources ∧ source_rule a i = .ok r := by
    intro a r
    rw [rs]
    constructor
    · rintro ⟨i, hi, hr⟩
      obtain ⟨h1, f, hf⟩ := (srcInj_iff hm a i).1 hi
      exact ⟨i, h1, f, hf, hr⟩
    · rintro ⟨i, hi, f, hf, hr⟩
      exact ⟨i, (srcInj_iff hm a i).2 ⟨hi, f, hf⟩, hr⟩
  have hE : ∀ e r, HasRule er e r ↔ ∃ i ∈ injs, ∃ f, (e, f) ∈ i.edges ∧ edge_rule e i = .ok r := by
    intro e r
    rw [re]
    constructor
    · rintro ⟨i, hi, hr⟩
      obtain ⟨h1, f, hf⟩ := (edgeInj_iff hm e i).1 hi
      exact ⟨i, h1, f, hf, hr⟩
    · rintro ⟨i, hi, f, hf, hr⟩
      exact ⟨i, (edgeInj_iff hm e i).2 ⟨hi, f, hf⟩, hr⟩
  have hS' := fun z r' => hasRule_lift (n := ps.length) real hfr sr z r'
  have hE' := fun z r' => hasRule_lift (n := ps.length) real_edge hfe er z r'
  obtain ⟨c1, c2, c3, c4, c5⟩ := C52_sparsity pick hpick fuel G hGbal _ hws' _ hwe' st hsp
  have hwf : st.g.WF := by
    have h' : link_loop pick fuel (linkStart G (lift_rules real sr) (lift_rules real_edge er)) = some st := hsp
    exact (link_inv pick hpick hws' hwe' fuel _ st (start_inv hws' hwe' hGbal) h').1.wf hGw
  -- the bonds of the extended graph
  have hGreal : ∀ a y, y ∈ lst G.seq (real a) ↔ (∃ b, y = real b ∧ mem bonds.seq a b) ∨
      ∃ i : Fin ps.length, y = vnode i ∧ a ∈ (ps.get i).ins := by
    intro a y
    rw [g1, mem_virtual]
    apply or_congr
    · refine (mem_lift bonds.seq _ y).trans ?_
      constructor
      · rintro ⟨u, v, h1, h2, h3⟩
        cases real_inj h1
        exact ⟨v, h2, h3⟩
      · rintro ⟨b, h1, h2⟩
        exact ⟨a, b, rfl, h1, h2⟩
    · constructor
      · rintro ⟨i, ⟨h1, u, hu, h2⟩ | ⟨h1, -⟩⟩
        · cases real_inj h2
          exact ⟨i, h1, hu⟩
        · exact absurd h1 (real_ne_vnode a i)
      · rintro ⟨i, h1, h2⟩
        exact ⟨i, Or.inl ⟨h1, a, h2, rfl⟩⟩
  have hGv : ∀ (i : Fin ps.length) y, y ∈ lst G.seq (vnode i) ↔ ∃ b ∈ (ps.get i).outs, y = real b := by
    intro i y
    rw [g1, mem_virtual]
    constructor
    · rintro (h | ⟨j, ⟨-, u, -, h⟩ | ⟨h1, b, hb, h2⟩⟩)
      · obtain ⟨u, -, h1, -⟩ := (mem_lift bonds.seq _ y).1 h
        exact absurd h1.symm (real_ne_vnode u i)
      · exact absurd h.symm (real_ne_vnode u i)
      · cases vnode_inj h1
        exact ⟨b, hb, h2⟩
    · rintro ⟨b, hb, h2⟩
      exact Or.inr ⟨i, Or.inr ⟨rfl, b, hb, h2⟩⟩
  -- what is active
  have hfwd : ∀ z, Act G (lift_rules real sr) (lift_rules real_edge er) z →
      (∀ a, z = real a → Live bonds injs ps a) ∧
      (∀ i : Fin ps.length, z = vnode i → ∃ a ∈ (ps.get i).ins, Live bonds injs ps a) := by
    intro z hz
    induction hz with
    | source hr _ ih =>
      obtain ⟨k, r, rfl, hk, rfl⟩ := (hS' _ _).1 hr
      obtain ⟨i, hi, f, hf, hrule⟩ := (hS k r).1 hk
      refine ⟨fun a ha => ?_, fun j hj => absurd hj (real_ne_vnode k j)⟩
      cases real_inj ha
      exact Live.source hi hf hrule fun z hz => (ih (real z) (List.mem_map_of_mem (f := real) hz)).1 z rfl
    | @bond x y _ hb ih =>
      constructor
      · rintro b rfl
        rcases (g1 _ _).1 hb with hb | hb
        · obtain ⟨u, v, h1, h2, h3⟩ := (mem_lift bonds.seq _ _).1 hb
          cases real_inj h2
          exact Live.bond (ih.1 u h1) h3
        · obtain ⟨i, ⟨h1, -⟩ | ⟨h1, v, hv, h2⟩⟩ := (mem_virtual ps _ _).1 hb
          · exact absurd h1 (real_ne_vnode b i)
          · cases real_inj h2
            obtain ⟨a, ha, hl⟩ := ih.2 i h1
            exact Live.float hl (List.get_mem ps i) ha hv
      · rintro i rfl
        rcases (g1 _ _).1 hb with hb | hb
        · obtain ⟨u, v, h1, h2, h3⟩ := (mem_lift bonds.seq _ _).1 hb
          exact absurd h2.symm (real_ne_vnode v i)
        · obtain ⟨j, ⟨h1, a, ha, h2⟩ | ⟨h1, v, hv, h2⟩⟩ := (mem_virtual ps _ _).1 hb
          · cases vnode_inj h1
            exact ⟨a, ha, ih.1 a h2⟩
          · exact absurd h2.symm (real_ne_vnode v i)
    | @edge x y r' _ hr _ ih ih' =>
      obtain ⟨⟨u, v⟩, r, h1, hk, rfl⟩ := (hE' _ _).1 hr
      obtain ⟨i, hi, f, hf, hrule⟩ := (hE _ r).1 hk
      injection h1 with h1 h2
      refine ⟨fun b hb => ?_, fun j hj => absurd (h2.symm.trans hj) (real_ne_vnode v j)⟩
      cases real_inj (h2.symm.trans hb)
      exact Live.edge (ih.1 u h1) hi hf hrule fun z hz => (ih' (real z) (List.mem_map_of_mem (f := real) hz)).1 z rfl
  have hbwd : ∀ a, Live bonds injs ps a → Act G (lift_rules real sr) (lift_rules real_edge er) (real a) := by
    intro a ha
    induction ha with
    | @source n i f r hi hf hr _ ih =>
      refine Active.source ((hS' _ _).2 ⟨n, r, rfl, (hS n r).2 ⟨i, hi, f, hf, hr⟩, rfl⟩) ?_
      intro z hz
      obtain ⟨y, hy, rfl⟩ := List.mem_map.1 (show z ∈ r.nz.map real from hz)
      exact ih y hy
    | bond _ hb ih => exact Active.bond ih ((hGreal _ _).2 (Or.inl ⟨_, rfl, hb⟩))
    | @edge a b i f r _ hi hf hr _ ih ih' =>
      refine Active.edge ih ((hE' (real a, real b) _).2 ⟨(a, b), r, rfl, (hE _ r).2 ⟨i, hi, f, hf, hr⟩, rfl⟩) ?_
      intro z hz
      obtain ⟨y, hy, rfl⟩ := List.mem_map.1 (show z ∈ r.nz.map real from hz)
      exact ih' y hy
    | @float a b p _ hp ha hb ih =>
      obtain ⟨i, rfl⟩ := List.mem_iff_get.1 hp
      exact Active.bond (Active.bond ih ((hGreal _ _).2 (Or.inr ⟨i, rfl, ha⟩))) ((hGv i _).2 ⟨b, hb, rfl⟩)
  have hA : ∀ a, Act G (lift_rules real sr) (lift_rules real_edge er) (real a) ↔ Live bonds injs ps a :=
    fun a => ⟨fun h => (hfwd _ h).1 a rfl, hbwd a⟩
  have hnz : ∀ r : Rule (P × K), (∀ z ∈ (lift_rule r : Rule (Node P K ps.length)).nz,
      Act G (lift_rules real sr) (lift_rules real_edge er) z) ↔ ∀ z ∈ r.nz, Live bonds injs ps z := by
    intro r
    constructor
    · intro h z hz
      exact (hA z).1 (h _ (List.mem_map_of_mem (f := real) hz))
    · intro h z hz
      obtain ⟨y, hy, rfl⟩ := List.mem_map.1 (show z ∈ r.nz.map real from hz)
      exact (hA y).2 (h y hy)
  -- the extended graph
  have hseqr : ∀ a b, real b ∈ lst st.g.seq (real a) ↔ mem bonds.seq a b ∨ ∃ i ∈ injs, ∃ f r, ((a, b), f) ∈ i.edges ∧
      edge_rule (a, b) i = .ok r ∧ ∀ z ∈ r.nz, Live bonds injs ps z := by
    intro a b
    rw [c3, hGreal]
    apply or_congr
    · constructor
      · rintro (⟨v, h1, h2⟩ | ⟨i, h1, -⟩)
        · cases real_inj h1
          exact h2
        · exact absurd h1 (real_ne_vnode b i)
      · exact fun h => Or.inl ⟨b, rfl, h⟩
    · constructor
      · rintro ⟨r', hr, hz⟩
        obtain ⟨⟨u, v⟩, r, h1, hk, rfl⟩ := (hE' _ _).1 hr
        injection h1 with h1 h2
        cases real_inj h1
        cases real_inj h2
        obtain ⟨i, hi, f, hf, hrule⟩ := (hE _ r).1 hk
        exact ⟨i, hi, f, r, hf, hrule, (hnz r).1 hz⟩
      · rintro ⟨i, hi, f, r, hf, hrule, hz⟩
        exact ⟨lift_rule r, (hE' (real a, real b) _).2 ⟨(a, b), r, rfl, (hE _ r).2 ⟨i, hi, f, hf, hrule⟩, rfl⟩, (hnz r).2 hz⟩
  have hseqv : ∀ (i : Fin ps.length) y, y ∈ lst st.g.seq (vnode i) ↔ ∃ b ∈ (ps.get i).outs, y = real b := by
    intro i y
    rw [c3, hGv]
    constructor
    · rintro (h | ⟨r', hr, -⟩)
      · exact h
      · obtain ⟨⟨u, v⟩, r, h1, -⟩ := (hE' _ _).1 hr
        injection h1 with h1 h2
        exact absurd h1.symm (real_ne_vnode u i)
    · exact Or.inl
  have hseqi : ∀ a (i : Fin ps.length), vnode i ∈ lst st.g.seq (real a) ↔ a ∈ (ps.get i).ins := by
    intro a i
    rw [c3, hGreal]
    constructor
    · rintro ((⟨v, h1, -⟩ | ⟨j, h1, h2⟩) | ⟨r', hr, -⟩)
      · exact absurd h1.symm (real_ne_vnode v i)
      · cases vnode_inj h1
        exact h2
      · obtain ⟨⟨u, v⟩, r, h1, -⟩ := (hE' _ _).1 hr
        injection h1 with h1 h2
        exact absurd h2.symm (real_ne_vnode v i)
    · exact fun h => Or.inl (Or.inr ⟨i, rfl, h⟩)
  have hself : ∀ i : Fin ps.length, vnode i ∉ lst st.g.seq (vnode i) := by
    intro i hi
    obtain ⟨b, -, hb⟩ := (hseqv i _).1 hi
    exact absurd hb.symm (real_ne_vnode b i)
  -- the purge and the removals
  obtain ⟨gp, hgp, wp1, wp2, balp, lep, gep⟩ := perturb_graph_spec (F := F) hpick'
    (csgb := { st with outs := adds st.outs (reqs.map real) }) hwf.1 hwf.2 c4
  generalize hvs : (List.finRange ps.length).map (vnode : Fin ps.length → Node P K ps.length) = vs
  have hvmem : ∀ i : Fin ps.length, vnode i ∈ vs := by
    intro i
    rw [← hvs]
    exact List.mem_map_of_mem (List.mem_finRange i)
  have hvreal : ∀ a, real a ∉ vs := by
    intro a ha
    rw [← hvs] at ha
    obtain ⟨i, -, hi⟩ := List.mem_map.1 ha
    exact real_ne_vnode a i hi.symm
  have hvself : ∀ v ∈ vs, v ∉ lst st.g.seq v := by
    intro v hv
    rw [← hvs] at hv
    obtain ⟨i, -, rfl⟩ := List.mem_map.1 hv
    exact hself i
  obtain ⟨f1, r1, r2, r3, r4, r5, r6⟩ := remove_vnodes vs hwf c4 hvself
  obtain ⟨f2, q1, q2, q3, q4, q5, q6⟩ := remove_vnodes vs (g := ⟨gp.seq, gp.req⟩) ⟨wp1, wp2⟩ balp
    (fun v hv hh => hvself v hv (lep v v hh))
  have hfull : ∀ a b, mem (lower f1.seq) a b ↔ real b ∈ lst st.g.seq (real a) := by
    intro a b
    rw [mem_lower]
    refine (r4 _ _).trans ?_
    exact and_iff_left ⟨hvreal a, hvreal b⟩
  have hpert : ∀ a b, mem (lower f2.seq) a b ↔ mem gp.seq (real a) (real b) := by
    intro a b
    rw [mem_lower]
    refine (q4 _ _).trans ?_
    exact and_iff_left ⟨hvreal a, hvreal b⟩
  refine ⟨{
      inputs := st.inputs.filterMap unreal
      outs := (adds st.outs (reqs.map real)).filterMap unreal
      active := st.sub
      full := f1
      perturb := f2 }, ?_, ?_⟩
  · dsimp only
    rw [hgp, bind_ok, remove_boths vs r1 q1, bind_ok]
    rfl
  refine ⟨?_, ?_, ?_, ?_, ?_, SetWF_lower r2.1, SetWF_lower r2.2, ?_, SetWF_lower q2.1, SetWF_lower q2.2, ?_, ?_, ?_⟩
  · intro a
    exact (c1 _).trans (hA a)
  · intro a
    dsimp only
    rw [mem_unreal, c2]
    constructor
    · rintro ⟨r', hr, hz⟩
      obtain ⟨k, r, h1, hk, rfl⟩ := (hS' _ _).1 hr
      cases real_inj h1
      obtain ⟨i, hi, f, hf, hrule⟩ := (hS _ r).1 hk
      exact ⟨i, hi, f, r, hf, hrule, (hnz r).1 hz⟩
    · rintro ⟨i, hi, f, r, hf, hrule, hz⟩
      exact ⟨lift_rule r, (hS' _ _).2 ⟨a, r, rfl, (hS _ r).2 ⟨i, hi, f, hf, hrule⟩, rfl⟩, (hnz r).2 hz⟩
  · intro o
    dsimp only
    rw [mem_unreal, mem_adds, c5]
    rw [or_comm]
    apply or_congr
    · constructor
      · intro ho
        obtain ⟨o', ho', h⟩ := List.mem_map.1 ho
        cases real_inj h
        exact ho'
      · exact fun h => List.mem_map_of_mem (f := real) h
    · apply or_congr
      · constructor
        · rintro ⟨z, r', hr, hz, ho⟩
          obtain ⟨k, r, rfl, hk, rfl⟩ := (hS' _ _).1 hr
          obtain ⟨i, hi, f, hf, hrule⟩ := (hS _ r).1 hk
          obtain ⟨o', ho', h⟩ := List.mem_map.1 (show real o ∈ r.req.map real from ho)
          cases real_inj h
          exact ⟨i, hi, k, f, r, hf, hrule, (hnz r).1 hz, ho'⟩
        · rintro ⟨i, hi, k, f, r, hf, hrule, hz, ho⟩
          exact ⟨real k, lift_rule r, (hS' _ _).2 ⟨k, r, rfl, (hS _ r).2 ⟨i, hi, f, hf, hrule⟩, rfl⟩, (hnz r).2 hz,
            List.mem_map_of_mem (f := real) ho⟩
      · constructor
        · rintro ⟨z, r', hr, hz, ho⟩
          obtain ⟨k, r, rfl, hk, rfl⟩ := (hE' _ _).1 hr
          obtain ⟨i, hi, f, hf, hrule⟩ := (hE _ r).1 hk
          obtain ⟨o', ho', h⟩ := List.mem_map.1 (show real o ∈ r.req.map real from ho)
          cases real_inj h
          exact ⟨i, hi, k, f, r, hf, hrule, (hnz r).1 hz, ho'⟩
        · rintro ⟨i, hi, k, f, r, hf, hrule, hz, ho⟩
          exact ⟨real_edge k, lift_rule r, (hE' _ _).2 ⟨k, r, rfl, (hE _ r).2 ⟨i, hi, f, hf, hrule⟩, rfl⟩, (hnz r).2 hz,
            List.mem_map_of_mem (f := real) ho⟩
  · intro a b
    exact (hfull a b).trans (hseqr a b)
  · intro a b
    rw [mem_lower, mem_lower]
    exact r3 _ _
  · intro a b
    rw [mem_lower, mem_lower]
    exact q3 _ _
  · intro a b hab
    rw [hpert] at hab
    rw [hfull]
    exact lep _ _ hab
  · rintro a b hab ⟨i, hi, hia⟩ ⟨o, ho, hbo⟩
    dsimp only at hab hia hbo hi ho ⊢
    rw [mem_unreal] at hi ho
    have hstep : ∀ u v, Relation.ReflTransGen (Step (lower f1.seq) ps) u v → Chain st.g.seq (real u) (real v) := by
      intro u v huv
      unfold Chain
      induction huv with
      | refl => exact .refl
      | @tail v w _ hvw ih =>
        rcases hvw with hvw | ⟨p, hp, h1, h2⟩
        · exact ih.tail ((hfull _ _).1 hvw)
        · obtain ⟨j, rfl⟩ := List.mem_iff_get.1 hp
          exact (ih.tail ((hseqi v j).2 h1)).tail ((hseqv j _).2 ⟨w, h2, rfl⟩)
    rw [hpert]
    exact gep _ _ ((hfull a b).1 hab) ⟨real i, hi, hstep _ _ hia⟩ ⟨real o, ho, hstep _ _ hbo⟩
  · intro i
    refine ⟨fun h => (r5 _ h).2 (hvmem i), fun h => (r6 _ h).2 (hvmem i), fun h => (q5 _ h).2 (hvmem i),
      fun h => (q6 _ h).2 (hvmem i), fun z => ⟨fun h => ?_, fun h => ?_, fun h => ?_, fun h => ?_⟩⟩
    · exact ((r4 _ _).1 h).2.2 (hvmem i)
    · exact ((r4 _ _).1 ((r3 _ _).2 h)).2.1 (hvmem i)
    · exact ((q4 _ _).1 h).2.2 (hvmem i)
    · exact ((q4 _ _).1 ((q3 _ _).2 h)).2.1 (hvmem i)

theorem analysed {injs : List (Inj P K F)} {ports : Dict P (List K)} {m : Algo P K F} (hm : insert_all ports injs = .ok m)
    {ps : List (Pair P K F)} {reqs : List (P × K)} {pick pick' : List (Node P K ps.length) → Node P K ps.length}
    (hpick : ∀ l, l ≠ [] → pick l ∈ l) (hpick' : ∀ l, l ≠ [] → pick' l ∈ l) {fuel : ℕ} {bonds : SR (P × K)}
    (hbw : bonds.WF) (hbal : ∀ a b, mem bonds.seq a b ↔ mem bonds.req b a) {c : Csgb P K ps.length}
    (h : coherent_sparsity_graph ps reqs pick pick' fuel bonds m = .ok (some c)) : Analysed bonds injs ps reqs c := by
  have h' := h
  unfold coherent_sparsity_graph at h'
  obtain ⟨sr, hsr, h'⟩ := bind_ok_inv h'
  obtain ⟨er, her, h'⟩ := bind_ok_inv h'
  dsimp only at h'
  cases hsp : sparsity pick fuel ((virtual_edges ps).foldl (fun g e => g.add e.1 e.2) ⟨lift_set bonds.seq, lift_set bonds.req⟩)
      (lift_rules real sr) (lift_rules real_edge er) with
  | none => rw [hsp] at h'; injection h' with h'; cases h'
  | some st =>
    obtain ⟨c', h1, h2⟩ := analysis hm (reqs := reqs) hpick hpick' hbw hbal hsr her hsp
    rw [h] at h1
    injection h1 with h1
    injection h1 with h1
    rw [h1]
    exact h2

end Floating
