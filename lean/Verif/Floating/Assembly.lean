import Verif.Floating.Basic
import Verif.Floating.Analysis

/-!
# Properties of the floating blocks and of the analysis with floating couplings (C109, C110)
-/

set_option linter.unusedSectionVars false

namespace Floating
open Py Inject

variable {P K F : Type} [DecidableEq P] [DecidableEq K] [Field F] [DecidableEq F]

/-! ## C109: the blocks in the matrix -/

/-- **C109, where the blocks go.**  When the generation succeeds every block function has a value whose entries lie between the
inputs and the outputs of its pair.  A nonzero entry that no later nonzero entry of the same place follows is the entry of the
matrix; where no block has a nonzero entry the matrix is the one that the ordinary couplings generate.  The two graph dictionaries
gain exactly the places of the nonzero entries. -/
theorem C109_blocks {m : Algo P K F} {ps : List (Pair P K F)} {bonds seq req : SetDict P K} {sol : SolVec P K F}
    {g : Gen P K F} (h : edge_matrix_generate m ps bonds seq req sol = .ok g) :
    ∃ (g0 : Gen P K F) (bs : List (Dict ((P × K) × (P × K)) F)), Inject.edge_matrix_generate m bonds seq req sol = .ok g0 ∧
      List.Forall₂ (fun p b => p.func sol = .ok b ∧ ∀ e ∈ b, e.1.1 ∈ p.ins ∧ e.1.2 ∈ p.outs) ps bs ∧
      (∀ l₁ l₂ e v, bs.flatten = l₁ ++ (e, v) :: l₂ → v ≠ 0 → (∀ w, (e, w) ∈ l₂ → w = 0) → Dict.get? g.mat e = some v) ∧
      (∀ e, (∀ b ∈ bs, ∀ v, (e, v) ∈ b → v = 0) → Dict.get? g.mat e = Dict.get? g0.mat e) ∧
      (∀ a b, mem g.seq a b ↔ mem g0.seq a b ∨ ∃ B ∈ bs, ∃ v, ((a, b), v) ∈ B ∧ v ≠ 0) ∧
      (∀ a b, mem g.req b a ↔ mem g0.req b a ∨ ∃ B ∈ bs, ∃ v, ((a, b), v) ∈ B ∧ v ≠ 0) := by
  unfold edge_matrix_generate at h
  obtain ⟨g0, h0, h⟩ := bind_ok_inv h
  obtain ⟨bs, h1, -, h3⟩ := float_pairs_spec sol ps h
  have hin : List.Forall₂ (fun p b => p.func sol = .ok b ∧ ∀ e ∈ b, e.1.1 ∈ p.ins ∧ e.1.2 ∈ p.outs) ps bs := by
    have key : ∀ (ps : List (Pair P K F)) (bs : List (Dict ((P × K) × (P × K)) F)) (g0 : Gen P K F), Blocks sol ps bs →
        ps.foldlM (float_pair sol) g0 = .ok g →
        List.Forall₂ (fun p b => p.func sol = .ok b ∧ ∀ e ∈ b, e.1.1 ∈ p.ins ∧ e.1.2 ∈ p.outs) ps bs := by
      intro ps bs g0 hb
      unfold Blocks at hb
      induction hb generalizing g0 with
      | nil => exact fun _ => .nil
      | @cons p b ps bs e1 _ ih =>
        intro hf
        obtain ⟨g1, hg1, hl⟩ := foldlM_cons_ok hf
        refine .cons ⟨e1, ?_⟩ (ih g1 hl)
        unfold float_pair at hg1
        rw [e1, bind_ok] at hg1
        by_contra hne
        push Not at hne
        obtain ⟨e, he, hbad⟩ := hne
        rw [float_outside ⟨e, he, fun hh => hbad hh.1 hh.2⟩] at hg1
        cases hg1
    exact key ps bs g0 h1 h
  have hfl : ∀ a b, (∃ v, ((a, b), v) ∈ bs.flatten ∧ v ≠ 0) ↔ ∃ B ∈ bs, ∃ v, ((a, b), v) ∈ B ∧ v ≠ 0 := by
    intro a b
    constructor
    · rintro ⟨v, hv, hv0⟩
      obtain ⟨B, hB, hv⟩ := List.mem_flatten.1 hv
      exact ⟨B, hB, v, hv, hv0⟩
    · rintro ⟨B, hB, v, hv, hv0⟩
      exact ⟨v, List.mem_flatten.2 ⟨B, hB, hv⟩, hv0⟩
  refine ⟨g0, bs, h0, hin, ?_, ?_, fun a b => (h3.seq a b).trans (or_congr_right (hfl a b)),
    fun a b => (h3.req a b).trans (or_congr_right (hfl a b))⟩
  · intro l₁ l₂ e v hl hv hlast
    rw [h3.mat, hl, last_append, last_cons]
    have hn : last_nz l₂ e = none := by
      cases hh : last_nz l₂ e with
      | none => rfl
      | some w =>
        obtain ⟨k1, k2⟩ := last_mem hh
        exact absurd (hlast w k1) k2
    rw [hn, Option.none_or, if_pos ⟨rfl, hv⟩, Option.some_or, Option.some_or]
  · intro e he
    rw [h3.mat]
    have hn : last_nz bs.flatten e = none := by
      cases hh : last_nz bs.flatten e with
      | none => rfl
      | some w =>
        obtain ⟨k1, k2⟩ := last_mem hh
        obtain ⟨B, hB, hv⟩ := List.mem_flatten.1 k1
        exact absurd (he B hB w hv) k2
    rw [hn, Option.none_or]

/-- **C109, no failure.**  The generation succeeds when the ordinary one does, every block function has a value and the entries
lie between the inputs and the outputs of the pairs. -/
theorem C109_no_error {m : Algo P K F} {ps : List (Pair P K F)} {bonds seq req : SetDict P K} {sol : SolVec P K F}
    {g0 : Gen P K F} (h0 : Inject.edge_matrix_generate m bonds seq req sol = .ok g0)
    (hp : ∀ p ∈ ps, ∃ b, p.func sol = .ok b ∧ ∀ e ∈ b, e.1.1 ∈ p.ins ∧ e.1.2 ∈ p.outs) :
    ∃ g, edge_matrix_generate m ps bonds seq req sol = .ok g := generate_total h0 hp

/-- **C109, the assertion.**  An entry outside the inputs and outputs of its pair, even a zero, stops the generation. -/
theorem C109_outside {m : Algo P K F} {ps qs : List (Pair P K F)} {p : Pair P K F} {bonds seq req : SetDict P K}
    {sol : SolVec P K F} {g0 : Gen P K F} (h0 : Inject.edge_matrix_generate m bonds seq req sol = .ok g0)
    (hp : ∀ q ∈ qs, ∃ b, q.func sol = .ok b ∧ ∀ e ∈ b, e.1.1 ∈ q.ins ∧ e.1.2 ∈ q.outs)
    {b : Dict ((P × K) × (P × K)) F} (hb : p.func sol = .ok b) (hout : ∃ e ∈ b, ¬ (e.1.1 ∈ p.ins ∧ e.1.2 ∈ p.outs)) :
    edge_matrix_generate m (qs ++ p :: ps) bonds seq req sol = .error .assertion := by
  obtain ⟨g, hg⟩ := generate_total h0 hp
  unfold edge_matrix_generate at hg ⊢
  rw [h0, bind_ok] at hg ⊢
  rw [List.foldlM_append, hg, bind_ok, List.foldlM_cons]
  have : float_pair sol g p = .error .assertion := by
    unfold float_pair
    rw [hb, bind_ok]
    exact float_outside hout
  rw [this]
  rfl

/-! ## C110: the analysis -/

theorem rules_total {κ : Type} {rule : κ → Inj P K F → Except Err (Rule (P × K))} {d : Dict κ (List (Inj P K F))}
    (h : ∀ kv ∈ d, ∀ i ∈ kv.2, ∃ r, rule kv.1 i = .ok r) : ∃ d', rules rule d = .ok d' := by
  have hm : ∀ (k : κ) (is : List (Inj P K F)), (∀ i ∈ is, ∃ r, rule k i = .ok r) → ∃ rs, is.mapM (rule k) = .ok rs := by
    intro k is
    induction is with
    | nil => exact fun _ => ⟨[], rfl⟩
    | cons i is ih =>
      intro hi
      obtain ⟨r, hr⟩ := hi i List.mem_cons_self
      obtain ⟨rs, hrs⟩ := ih fun j hj => hi j (List.mem_cons_of_mem _ hj)
      exact ⟨r :: rs, by rw [List.mapM_cons, hr, bind_ok, hrs]; rfl⟩
  induction d with
  | nil => exact ⟨[], rfl⟩
  | cons kv d ih =>
    obtain ⟨k, is⟩ := kv
    obtain ⟨rs, hrs⟩ := hm k is (h (k, is) List.mem_cons_self)
    obtain ⟨d', hd'⟩ := ih fun kv hkv => h kv (List.mem_cons_of_mem _ hkv)
    exact ⟨(k, rs) :: d', by unfold rules; rw [hrs, bind_ok, hd']; rfl⟩

variable [Fintype P] [Fintype K]

/-- **C110, what is connected.**  Of the graph that the analysis returns: the virtual nodes are gone from both pairs of
dictionaries; a node is active iff it can carry a field, where a floating pair carries a field from any of its inputs to all of
its outputs; the inputs are the sources that are on; the outputs are the nodes of `floating_req_set` and those which the sources
and edges that are on ask for; the edges are the bonds and the edges that are on; the dictionaries are each other's converse. -/
theorem C110_analysis {injs : List (Inj P K F)} {ports : Dict P (List K)} {m : Algo P K F} (hm : insert_all ports injs = .ok m)
    {ps : List (Pair P K F)} {reqs : List (P × K)} {pick pick' : List (Node P K ps.length) → Node P K ps.length}
    (hpick : ∀ l, l ≠ [] → pick l ∈ l) (hpick' : ∀ l, l ≠ [] → pick' l ∈ l) {fuel : ℕ} {bonds : SR (P × K)}
    (hbw : bonds.WF) (hbal : ∀ a b, mem bonds.seq a b ↔ mem bonds.req b a) {c : Csgb P K ps.length}
    (h : coherent_sparsity_graph ps reqs pick pick' fuel bonds m = .ok (some c)) :
    (∀ i, vnode i ∉ Dict.keys c.full.seq ∧ vnode i ∉ Dict.keys c.full.req ∧ vnode i ∉ Dict.keys c.perturb.seq ∧
      vnode i ∉ Dict.keys c.perturb.req ∧ ∀ z, ¬ mem c.full.seq z (vnode i) ∧ ¬ mem c.full.req z (vnode i) ∧
        ¬ mem c.perturb.seq z (vnode i) ∧ ¬ mem c.perturb.req z (vnode i)) ∧
    (∀ a, real a ∈ c.active ↔ Live bonds injs ps a) ∧
    (∀ a, a ∈ c.inputs ↔ ∃ i ∈ injs, ∃ f r, (a, f) ∈ i.sources ∧ source_rule a i = .ok r ∧ ∀ z ∈ r.nz, Live bonds injs ps z) ∧
    (∀ o, o ∈ c.outs ↔ o ∈ reqs ∨
      (∃ i ∈ injs, ∃ a f r, (a, f) ∈ i.sources ∧ source_rule a i = .ok r ∧ (∀ z ∈ r.nz, Live bonds injs ps z) ∧ o ∈ r.req) ∨
      ∃ i ∈ injs, ∃ e f r, (e, f) ∈ i.edges ∧ edge_rule e i = .ok r ∧ (∀ z ∈ r.nz, Live bonds injs ps z) ∧ o ∈ r.req) ∧
    (∀ a b, mem (lower c.full.seq) a b ↔ mem bonds.seq a b ∨ ∃ i ∈ injs, ∃ f r, ((a, b), f) ∈ i.edges ∧
      edge_rule (a, b) i = .ok r ∧ ∀ z ∈ r.nz, Live bonds injs ps z) ∧
    (∀ a b, mem (lower c.full.seq) a b ↔ mem (lower c.full.req) b a) ∧
    (∀ a b, mem (lower c.perturb.seq) a b ↔ mem (lower c.perturb.req) b a) :=
  have ha := analysed hm hpick hpick' hbw hbal h
  ⟨ha.gone, ha.active, ha.inputs, ha.outs, ha.seq, ha.bal, ha.pbal⟩

/-- **C110, what the iteration keeps.**  The purged graph is part of the full one and keeps every edge on a way from an input to an
output, where the way may lead through floating pairs. -/
theorem C110_purge {injs : List (Inj P K F)} {ports : Dict P (List K)} {m : Algo P K F} (hm : insert_all ports injs = .ok m)
    {ps : List (Pair P K F)} {reqs : List (P × K)} {pick pick' : List (Node P K ps.length) → Node P K ps.length}
    (hpick : ∀ l, l ≠ [] → pick l ∈ l) (hpick' : ∀ l, l ≠ [] → pick' l ∈ l) {fuel : ℕ} {bonds : SR (P × K)}
    (hbw : bonds.WF) (hbal : ∀ a b, mem bonds.seq a b ↔ mem bonds.req b a) {c : Csgb P K ps.length}
    (h : coherent_sparsity_graph ps reqs pick pick' fuel bonds m = .ok (some c)) (a b : P × K) :
    (mem (lower c.perturb.seq) a b → mem (lower c.full.seq) a b) ∧
    (mem (lower c.full.seq) a b →
      (∃ i ∈ c.inputs, Relation.ReflTransGen
        (fun u v => mem (lower c.full.seq) u v ∨ ∃ p ∈ ps, u ∈ p.ins ∧ v ∈ p.outs) i a) →
      (∃ o ∈ c.outs, Relation.ReflTransGen
        (fun u v => mem (lower c.full.seq) u v ∨ ∃ p ∈ ps, u ∈ p.ins ∧ v ∈ p.outs) b o) →
      mem (lower c.perturb.seq) a b) :=
  have ha := analysed hm hpick hpick' hbw hbal h
  ⟨ha.ple a b, ha.pge a b⟩

/-- **C110, no failure.**  If every source and every edge of the injections has a rule, the analysis returns. -/
theorem C110_returns {injs : List (Inj P K F)} {ports : Dict P (List K)} {m : Algo P K F} (hm : insert_all ports injs = .ok m)
    (ps : List (Pair P K F)) (reqs : List (P × K)) {pick pick' : List (Node P K ps.length) → Node P K ps.length}
    (hpick : ∀ l, l ≠ [] → pick l ∈ l) (hpick' : ∀ l, l ≠ [] → pick' l ∈ l) {bonds : SR (P × K)}
    (hbw : bonds.WF) (hbal : ∀ a b, mem bonds.seq a b ↔ mem bonds.req b a)
    (hs : ∀ i ∈ injs, ∀ a f, (a, f) ∈ i.sources → ∃ r, source_rule a i = .ok r)
    (he : ∀ i ∈ injs, ∀ e f, (e, f) ∈ i.edges → ∃ r, edge_rule e i = .ok r) :
    ∃ c, coherent_sparsity_graph ps reqs pick pick' (2 * Fintype.card (Node P K ps.length) + 2) bonds m = .ok (some c) := by
  have hL := insert_lists _ hm
  have hw1 : Dict.WF m.srcInj := hL.wfs Dict.WF_nil
  have hw2 : Dict.WF m.edgeInj := hL.wfe Dict.WF_nil
  obtain ⟨sr, hsr⟩ := rules_total (rule := source_rule) (d := m.srcInj) (by
    rintro ⟨a, is⟩ hkv i hi
    have h1 : i ∈ lst m.srcInj a := by
      unfold lst
      rw [Dict.get?_of_mem hw1 hkv]
      exact hi
    obtain ⟨h2, f, hf⟩ := (srcInj_iff hm a i).1 h1
    exact hs i h2 a f hf)
  obtain ⟨er, her⟩ := rules_total (rule := edge_rule) (d := m.edgeInj) (by
    rintro ⟨a, is⟩ hkv i hi
    have h1 : i ∈ lst m.edgeInj a := by
      unfold lst
      rw [Dict.get?_of_mem hw2 hkv]
      exact hi
    obtain ⟨h2, f, hf⟩ := (edgeInj_iff hm a i).1 h1
    exact he i h2 a f hf)
  obtain ⟨g1, g2, -⟩ := adds_edges (virtual_edges ps)
    (⟨lift_set bonds.seq, lift_set bonds.req⟩ : SR (Node P K ps.length))
  have hGbal : ∀ a b, b ∈ lst ((virtual_edges ps).foldl (fun g e => g.add e.1 e.2)
      (⟨lift_set bonds.seq, lift_set bonds.req⟩ : SR (Node P K ps.length))).seq a ↔
      a ∈ lst ((virtual_edges ps).foldl (fun g e => g.add e.1 e.2)
      (⟨lift_set bonds.seq, lift_set bonds.req⟩ : SR (Node P K ps.length))).req b := by
    intro a b
    rw [g1, g2]
    apply or_congr_left
    refine (mem_lift bonds.seq a b).trans (Iff.trans ?_ (mem_lift bonds.req b a).symm)
    constructor
    · rintro ⟨u, v, h1, h2, h3⟩
      exact ⟨v, u, h2, h1, (hbal _ _).1 h3⟩
    · rintro ⟨u, v, h1, h2, h3⟩
      exact ⟨v, u, h2, h1, (hbal _ _).2 h3⟩
  have hws : Dict.WF (lift_rules (n := ps.length) real sr) := WF_map_key _
    (show ∀ a b : P × K, (real a : Node P K ps.length) = real b → a = b from fun _ _ => real_inj) _ (by
    unfold Dict.WF; rw [(rules_ok hsr).1]; exact hw1)
  have hwe : Dict.WF (lift_rules (n := ps.length) real_edge er) := WF_map_key _
    (show ∀ a b : (P × K) × (P × K), (real_edge a : Node P K ps.length × _) = real_edge b → a = b from fun a b hab =>
      Prod.ext (real_inj (congrArg Prod.fst hab)) (real_inj (congrArg Prod.snd hab))) _ (by
    unfold Dict.WF; rw [(rules_ok her).1]; exact hw2)
  obtain ⟨st, hst⟩ := C52_terminates pick hpick _ hGbal _ hws _ hwe (Finset.univ : Finset (Node P K ps.length)).toList
    (by simp) (by simp) (by simp)
  rw [Finset.length_toList, Finset.card_univ] at hst
  obtain ⟨c, hc, -⟩ := analysis hm (reqs := reqs) hpick hpick' hbw hbal hsr her hst
  exact ⟨c, hc⟩

end Floating
