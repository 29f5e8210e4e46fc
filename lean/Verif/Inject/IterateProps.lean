import Verif.Graph.Combine
import Verif.Inject.IterateTerm

/-!
# The readouts of a converged iteration solve the nonlinear equations (C53)
-/

set_option linter.unusedSectionVars false

namespace Inject
open Py

variable {P K F : Type} [DecidableEq P] [DecidableEq K] [Field F] [DecidableEq F] [Fintype P] [Fintype K]

/-! ## the linear solve -/

theorem matSum_gain {mat : Dict ((P × K) × (P × K)) F} (hw : Dict.WF mat) (seq req : SetDict P K)
    (x : P × K → F) (t : P × K) :
    matSum mat x t = ∑ r, Graph.gain ⟨seq, req, mat⟩ r t * x r := by
  unfold matSum Graph.gain
  dsimp only
  induction mat with
  | nil => simp
  | cons e d ih =>
    obtain ⟨⟨a, b⟩, v⟩ := e
    have hw' : (a, b) ∉ Dict.keys d ∧ Dict.WF d := by simpa [Dict.WF, Dict.keys] using hw
    have hno : Dict.get? d (a, b) = none := by
      cases hg : Dict.get? d (a, b) with
      | none => rfl
      | some v => exact absurd ((Dict.mem_keys_iff d (a, b)).2 (by rw [hg]; rfl)) hw'.1
    rw [List.map_cons, List.sum_cons, ih hw'.2]
    dsimp only
    have hsplit : ∀ r, (Dict.get? (((a, b), v) :: d) (r, t)).getD 0 * x r
        = (if r = a then (if b = t then v * x a else 0) else 0) + (Dict.get? d (r, t)).getD 0 * x r := by
      intro r
      rw [Dict.get?_cons]
      by_cases hr : r = a
      · subst hr
        by_cases hb : b = t
        · subst hb
          simp [hno]
        · have : (r, b) ≠ (r, t) := fun hh => hb (Prod.ext_iff.1 hh).2
          simp [this, hb]
      · have : (a, b) ≠ (r, t) := fun hh => hr (Prod.ext_iff.1 hh).1.symm
        simp [this, hr]
    rw [Finset.sum_congr rfl (fun r _ => hsplit r), Finset.sum_add_distrib, Finset.sum_ite_eq' Finset.univ a]
    simp

/-- What the linear solve returns, in terms of the generated graph. -/
theorem linear_solve_spec {o : Graph.Opts (P × K) F} (hpick : ∀ l, l ≠ [] → o.pick l ∈ l)
    (hneg : o.negative = false) {m : Algo P K F} {bonds seq req : SetDict P K} (hseq : SetWF seq)
    (hreq : SetWF req) (hbal : ∀ a b, mem seq a b ↔ mem req b a) {inputs outs : List (P × K)}
    {sol sol' : SolVec P K F} (h : linear_solve o m bonds seq req inputs outs sol = .ok sol') :
    ∃ g sv, edge_matrix_generate m bonds seq req sol = .ok g ∧ source_vector_generate m inputs sol = .ok sv ∧
      Dict.WF g.mat ∧
      (∀ e v, Dict.get? g.mat e = some v ↔ mem seq e.1 e.2 ∧ v ≠ 0 ∧ v = edgeVal m sol e) ∧
      (∀ k, (Dict.get? sv k).isSome → k ∈ inputs) ∧
      (∀ t, (Dict.get? sol' t).isSome → t ∈ outs) ∧
      ∃ x, Graph.Solves ⟨g.seq, g.req, g.mat⟩ (Dict.keys sv) outs (Graph.srcVec sv) x ∧
        (∀ t ∈ outs, getd sol' t 0 = x t) ∧
        ∀ x', Graph.Solves ⟨g.seq, g.req, g.mat⟩ (Dict.keys sv) outs (Graph.srcVec sv) x' →
          ∀ n, Graph.Seen ⟨g.seq, g.req, g.mat⟩ outs n → x n = x' n := by
  unfold linear_solve at h
  obtain ⟨g, hg, h1⟩ := bind_ok_inv h
  obtain ⟨sv, hsv, h2⟩ := bind_ok_inv h1
  obtain ⟨⟨r, em⟩, hr, h3⟩ := bind_ok_inv h2
  clear h h1 h2
  injection h3 with h3
  dsimp only at h3
  obtain ⟨g1, g2, g3, g4, g5, g6⟩ := generate_spec hseq hg
  have hmat : ∀ e v, Dict.get? g.mat e = some v ↔ mem seq e.1 e.2 ∧ v ≠ 0 ∧ v = edgeVal m sol e := by
    intro e v
    rw [g2, get?_kept, ← mem_pairs hseq.1]
  have hwm : Dict.WF g.mat := by
    unfold Dict.WF
    rw [g2, keys_kept]
    exact (nodup_pairs hseq).filter _
  have hnd : ∀ (d : SetDict P K), SetWF d → ∀ a, ((Dict.get? d a).getD []).Nodup := by
    intro d hd a
    cases hh : Dict.get? d a with
    | none => simp
    | some l => exact hd.2 (a, l) (Dict.mem_of_get? hh)
  have hval : Graph.Valid (⟨g.seq, g.req, g.mat⟩ : Graph.G (P × K) F) := by
    refine ⟨g5.1, (g6 hreq).1, hnd _ g5, hnd _ (g6 hreq), ?_⟩
    intro a b hab
    obtain ⟨v, hv⟩ := Option.isSome_iff_exists.1 hab
    obtain ⟨k1, k2, k3⟩ := (hmat _ _).1 hv
    refine ⟨(g3 a b).2 ⟨k1, by rw [← k3]; exact k2⟩, (g4 a b).2 ⟨(hbal a b).1 k1, ?_⟩⟩
    rintro ⟨_, h0⟩
    exact k2 (k3.trans h0)
  have hsvw : Dict.WF sv := by
    have key : ∀ (l : List (P × K)) (d d' : Dict (P × K) F), l.foldlM (source_step m sol) d = .ok d' →
        Dict.WF d → Dict.WF d' := by
      intro l
      induction l with
      | nil => intro d d' hd hw; cases foldlM_nil_ok hd; exact hw
      | cons k l ih =>
        intro d d' hd hw
        obtain ⟨c, hc, hl⟩ := foldlM_cons_ok hd
        refine ih c d' hl ?_
        rw [(source_step_ok hc).2]
        split
        · exact Dict.WF_set hw _ _
        · exact hw
    exact key inputs [] sv hsv Dict.WF_nil
  have hsvk : ∀ k, (Dict.get? sv k).isSome → k ∈ inputs := by
    intro k hk
    by_contra hn
    rw [(C51_source_vector hsv).2 k hn] at hk
    cases hk
  obtain ⟨_, _, _, om, _, _, hro, _⟩ := Graph.run_core hpick hval
    (show ∀ m', some sv = some m' → Dict.WF m' by intro m' h; cases h; exact hsvw) hr
  rw [show r = some om from hro] at hr h3
  subst h3
  obtain ⟨c1, c2, c3, c4⟩ := Graph.C12_solution hpick hval hsvw hr
  rw [List.append_nil] at c1 c2 c3
  obtain ⟨x, hx⟩ := c1
  refine ⟨g, sv, hg, hsv, hwm, hmat, hsvk, c4, x, hx, ?_, fun x' hx' => c3 x x' hx hx'⟩
  intro t ht
  have := c2 x hx t ht
  rw [hneg] at this
  unfold getd
  rw [Option.getD_some, this]
  simp [Graph.sgn]

/-! ## the purged graph -/

/-- a chain of edges -/
def Chain (seq : SetDict P K) : P × K → P × K → Prop := Relation.ReflTransGen (mem seq)

theorem perturb_graph_spec {pick : List (P × K) → P × K} (hpick : ∀ l, l ≠ [] → pick l ∈ l)
    {csgb : SG (P × K)} (hseq : SetWF csgb.g.seq) (hreq : SetWF csgb.g.req)
    (hbal : ∀ a b, mem csgb.g.seq a b ↔ mem csgb.g.req b a) :
    ∃ g : Graph.G (P × K) F, perturb_graph pick csgb = .ok g ∧ SetWF g.seq ∧ SetWF g.req ∧
      (∀ a b, mem g.seq a b ↔ mem g.req b a) ∧ (∀ a b, mem g.seq a b → mem csgb.g.seq a b) ∧
      ∀ a b, mem csgb.g.seq a b → (∃ i ∈ csgb.inputs, Chain csgb.g.seq i a) →
        (∃ o ∈ csgb.outs, Chain csgb.g.seq b o) → mem g.seq a b := by
  have hnd : ∀ (d : SetDict P K), SetWF d → ∀ a, ((Dict.get? d a).getD []).Nodup := by
    intro d hd a
    cases hh : Dict.get? d a with
    | none => simp
    | some l => exact hd.2 (a, l) (Dict.mem_of_get? hh)
  have hwf : ∀ (d : SetDict P K), Dict.WF d → (∀ a, ((Dict.get? d a).getD []).Nodup) → SetWF d := by
    intro d hd hn
    refine ⟨hd, ?_⟩
    rintro ⟨k, l⟩ hkl
    have := hn k
    rw [Dict.get?_of_mem hd hkl] at this
    exact this
  let g0 : Graph.G (P × K) F := ⟨csgb.g.seq, csgb.g.req, []⟩
  obtain ⟨gb, hb, hb1, hb2⟩ : ∃ gb : Graph.G (P × K) F, Graph.check_seq_req_balance g0 = .ok gb ∧
      gb.seq = csgb.g.seq ∧ gb.req = csgb.g.req := by
    unfold Graph.check_seq_req_balance
    dsimp only
    rw [if_pos]
    · exact ⟨_, rfl, rfl, rfl⟩
    · rw [Bool.and_eq_true, List.all_eq_true, List.all_eq_true]
      constructor
      · intro kv hkv
        rw [List.all_eq_true]
        intro s hs
        refine @decide_eq_true _ (_) ?_
        refine (hbal kv.1 s).1 ?_
        unfold mem
        rw [Dict.get?_of_mem hseq.1 (show (kv.1, kv.2) ∈ _ from hkv)]
        exact hs
      · intro kv hkv
        rw [List.all_eq_true]
        intro s hs
        refine @decide_eq_true _ (_) ?_
        refine (hbal s kv.1).2 ?_
        unfold mem
        rw [Dict.get?_of_mem hreq.1 (show (kv.1, kv.2) ∈ _ from hkv)]
        exact hs
  have hs0 : ∀ a, gb.succ a = (Dict.get? csgb.g.seq a).getD [] := by intro a; unfold Graph.G.succ; rw [hb1]
  have hp0 : ∀ a, gb.pred a = (Dict.get? csgb.g.req a).getD [] := by intro a; unfold Graph.G.pred; rw [hb2]
  obtain ⟨g1, P1, h1, m1, s1, p1, -, -, w1, w1'⟩ := Graph.color_purge_spec hpick true csgb.inputs (g0 := gb)
    (by intro a b; rw [hs0, hp0]; exact hbal a b) (by intro a; rw [hs0]; exact hnd _ hseq a)
    (by intro a; rw [hp0]; exact hnd _ hreq a) (by rw [hb1]; exact hseq.1) (by rw [hb2]; exact hreq.1)
  have mir1 : ∀ a b, b ∈ g1.succ a ↔ a ∈ g1.pred b := by
    intro a b
    rw [s1, p1]
    by_cases ha : a ∈ P1 <;> by_cases hb : b ∈ P1 <;> simp [ha, hb, hs0, hp0]
    exact hbal a b
  have nd1 : ∀ a, (g1.succ a).Nodup := by
    intro a
    rw [s1]
    split
    · simp
    · rw [hs0]; exact (hnd _ hseq a).filter _
  have nd1' : ∀ a, (g1.pred a).Nodup := by
    intro a
    rw [p1]
    split
    · simp
    · rw [hp0]; exact (hnd _ hreq a).filter _
  obtain ⟨g2, P2, h2, m2, s2, p2, -, -, w2, w2'⟩ := Graph.color_purge_spec hpick false csgb.outs (g0 := g1)
    mir1 nd1 nd1' w1 w1'
  have mem2 : ∀ a b, mem g2.seq a b ↔ b ∈ g2.succ a := fun a b => Iff.rfl
  have mem2' : ∀ a b, mem g2.req b a ↔ a ∈ g2.pred b := fun a b => Iff.rfl
  refine ⟨g2, ?_, hwf _ w2 ?_, hwf _ w2' ?_, ?_, ?_, ?_⟩
  · unfold perturb_graph
    rw [show Graph.check_seq_req_balance (⟨csgb.g.seq, csgb.g.req, []⟩ : Graph.G (P × K) F) = .ok gb from hb,
      bind_ok]
    unfold Graph.purge_reqless Graph.purge_seqless
    rw [h1, bind_ok]
    exact h2
  · intro a
    show (g2.succ a).Nodup
    rw [s2]
    split
    · simp
    · exact (nd1 a).filter _
  · intro a
    show (g2.pred a).Nodup
    rw [p2]
    split
    · simp
    · exact (nd1' a).filter _
  · intro a b
    rw [mem2, mem2', s2, p2]
    by_cases ha : a ∈ P2 <;> by_cases hb : b ∈ P2 <;> simp [ha, hb]
    exact mir1 a b
  · intro a b hab
    rw [mem2, s2] at hab
    split at hab
    · simp at hab
    · replace hab := (List.mem_filter.1 hab).1
      rw [s1] at hab
      split at hab
      · simp at hab
      · have := (List.mem_filter.1 hab).1
        rw [hs0] at this
        exact this
  · rintro a b hab ⟨i, hi, hia⟩ ⟨o, ho, hbo⟩
    have hsucc : (fun a b => b ∈ gb.succ a) = mem csgb.g.seq := by
      funext a b
      rw [hs0]
      rfl
    have hreach : ∀ c, Chain csgb.g.seq i c → c ∉ P1 := by
      intro c hc hcP
      refine ((m1 c).1 hcP).2 ⟨i, hi, ?_⟩
      show Relation.ReflTransGen (fun a b => b ∈ gb.succ a) i c
      rw [hsucc]
      exact hc
    have step1 : ∀ c d, Chain csgb.g.seq i c → mem csgb.g.seq c d → d ∈ g1.succ c := by
      intro c d hc hcd
      rw [s1, if_neg (hreach c hc), List.mem_filter]
      refine ⟨by rw [hs0]; exact hcd, ?_⟩
      refine @decide_eq_true _ (_) ?_
      exact hreach d (hc.tail hcd)
    have back : ∀ c, Chain csgb.g.seq i c → Chain csgb.g.seq c o → c ∉ P2 := by
      intro c hc hco hcP
      refine ((m2 c).1 hcP).2 ⟨o, ho, ?_⟩
      show Relation.ReflTransGen (fun a b => b ∈ g1.pred a) o c
      unfold Chain at hco
      clear hcP
      induction hco using Relation.ReflTransGen.head_induction_on with
      | refl => exact .refl
      | head h1 h2 ih =>
        exact (ih (hc.tail h1)).tail ((mir1 _ _).1 (step1 _ _ hc h1))
    rw [mem2, s2, if_neg (back a hia (.head hab hbo)), List.mem_filter]
    refine ⟨step1 a b hia hab, ?_⟩
    refine @decide_eq_true _ (_) ?_
    exact back b (hia.tail hab) hbo

/-! ## the analysis of the inserted couplings -/

/-- The nodes which can carry a field, for the couplings `cs` and the bonds: sources and products start
fields when their factors carry one, bonds and edges pass them on. -/
def Live (bonds : SR (P × K)) (cs : List (Coupling P K F)) : P × K → Prop :=
  Active (fun a b => mem bonds.seq a b)
    (fun n r => ∃ c ∈ cs, ∃ f, (n, f) ∈ c.inj.sources ∧ source_rule n c.inj = .ok r)
    (fun a b r => ∃ c ∈ cs, ∃ f, ((a, b), f) ∈ c.inj.edges ∧ edge_rule (a, b) c.inj = .ok r)

structure Analysed (bonds : SR (P × K)) (cs : List (Coupling P K F)) (st : SG (P × K)) : Prop where
  inputs : ∀ n, n ∈ st.inputs ↔ ∃ c ∈ cs, ∃ f r, (n, f) ∈ c.inj.sources ∧ source_rule n c.inj = .ok r ∧
    ∀ z ∈ r.nz, Live bonds cs z
  seq : ∀ a b, mem st.g.seq a b ↔ mem bonds.seq a b ∨ ∃ c ∈ cs, ∃ f r, ((a, b), f) ∈ c.inj.edges ∧
    edge_rule (a, b) c.inj = .ok r ∧ ∀ z ∈ r.nz, Live bonds cs z
  bal : ∀ a b, mem st.g.seq a b ↔ mem st.g.req b a
  reads : ∀ c ∈ cs, Reads (Live bonds cs) st.outs c
  wfs : SetWF st.g.seq
  wfr : SetWF st.g.req

theorem of_edgeInj {cs : List (Coupling P K F)} {ports : Dict P (List K)} {m : Algo P K F}
    (hm : insert_all ports (cs.map Coupling.inj) = .ok m) {e : (P × K) × (P × K)}
    {i : Inj P K F} (hi : i ∈ lst m.edgeInj e) : ∃ c ∈ cs, c.inj = i ∧ ∃ f, (e, f) ∈ c.inj.edges := by
  rw [(insert_lists _ hm).edgeInj] at hi
  replace hi := (List.mem_append.1 hi).resolve_left (by simp [lst])
  obtain ⟨i', hi', hf⟩ := List.mem_flatMap.1 hi
  obtain ⟨c, hc, rfl⟩ := List.mem_map.1 hi'
  obtain ⟨⟨e', f'⟩, hm', rfl⟩ := List.mem_map.1 hf
  rw [List.mem_filter] at hm'
  have : e' = e := by simpa using hm'.2
  subst this
  exact ⟨c, hc, rfl, f', hm'.1⟩

theorem of_srcInj {cs : List (Coupling P K F)} {ports : Dict P (List K)} {m : Algo P K F}
    (hm : insert_all ports (cs.map Coupling.inj) = .ok m) {e : P × K}
    {i : Inj P K F} (hi : i ∈ lst m.srcInj e) : ∃ c ∈ cs, c.inj = i ∧ ∃ f, (e, f) ∈ c.inj.sources := by
  rw [(insert_lists _ hm).srcInj] at hi
  replace hi := (List.mem_append.1 hi).resolve_left (by simp [lst])
  obtain ⟨i', hi', hf⟩ := List.mem_flatMap.1 hi
  obtain ⟨c, hc, rfl⟩ := List.mem_map.1 hi'
  obtain ⟨⟨e', f'⟩, hm', rfl⟩ := List.mem_map.1 hf
  rw [List.mem_filter] at hm'
  have : e' = e := by simpa using hm'.2
  subst this
  exact ⟨c, hc, rfl, f', hm'.1⟩

theorem analysed {cs : List (Coupling P K F)} {ports : Dict P (List K)} {m : Algo P K F}
    (hm : insert_all ports (cs.map Coupling.inj) = .ok m)
    {pick : List (P × K) → P × K} (hpick : ∀ l, l ≠ [] → pick l ∈ l) {fuel : Nat} {bonds : SR (P × K)}
    (hbw : bonds.WF) (hbal : ∀ a b, mem bonds.seq a b ↔ mem bonds.req b a) {st : SG (P × K)}
    (h : coherent_sparsity_graph pick fuel bonds m = .ok (some st)) : Analysed bonds cs st := by
  unfold coherent_sparsity_graph at h
  obtain ⟨sr, hsr, h1⟩ := bind_ok_inv h
  obtain ⟨er, her, h2⟩ := bind_ok_inv h1
  clear h h1
  injection h2 with h2
  obtain ⟨ks, rs⟩ := rules_ok hsr
  obtain ⟨ke, re⟩ := rules_ok her
  have hL := insert_lists _ hm
  have hws : Dict.WF sr := by unfold Dict.WF; rw [ks]; exact hL.wfs Dict.WF_nil
  have hwe : Dict.WF er := by unfold Dict.WF; rw [ke]; exact hL.wfe Dict.WF_nil
  obtain ⟨_, c2, c3, c4, c5⟩ := C52_sparsity pick hpick fuel bonds hbal sr hws er hwe st h2
  have hwf : st.g.WF := by
    have h' : link_loop pick fuel (linkStart bonds sr er) = some st := h2
    exact (link_inv pick hpick hws hwe fuel _ st (start_inv hws hwe hbal) h').1.wf hbw
  have hS : ∀ n r, HasRule sr n r ↔ ∃ c ∈ cs, ∃ f, (n, f) ∈ c.inj.sources ∧ source_rule n c.inj = .ok r := by
    intro n r
    rw [rs]
    constructor
    · rintro ⟨i, hi, hr⟩
      obtain ⟨c, hc, rfl, f, hf⟩ := of_srcInj hm hi
      exact ⟨c, hc, f, hf, hr⟩
    · rintro ⟨c, hc, f, hf, hr⟩
      exact ⟨c.inj, mem_srcInj hm hc hf, hr⟩
  have hE : ∀ e r, HasRule er e r ↔ ∃ c ∈ cs, ∃ f, (e, f) ∈ c.inj.edges ∧ edge_rule e c.inj = .ok r := by
    intro n r
    rw [re]
    constructor
    · rintro ⟨i, hi, hr⟩
      obtain ⟨c, hc, rfl, f, hf⟩ := of_edgeInj hm hi
      exact ⟨c, hc, f, hf, hr⟩
    · rintro ⟨c, hc, f, hf, hr⟩
      exact ⟨c.inj, mem_edgeInj hm hc hf, hr⟩
  have hA : ∀ z, Act bonds sr er z ↔ Live bonds cs z := by
    intro z
    unfold Act Live
    have e1 : (fun n r => HasRule sr n r) =
        (fun n r => ∃ c ∈ cs, ∃ f, (n, f) ∈ c.inj.sources ∧ source_rule n c.inj = .ok r) := by
      funext n r; exact propext (hS n r)
    have e2 : (fun a b r => HasRule er (a, b) r) =
        (fun a b r => ∃ c ∈ cs, ∃ f, ((a, b), f) ∈ c.inj.edges ∧ edge_rule (a, b) c.inj = .ok r) := by
      funext a b r; exact propext (hE (a, b) r)
    rw [← e1, ← e2]
    rfl
  simp only [hA] at c2 c3 c5
  refine ⟨?_, ?_, c4, ?_, hwf.1, hwf.2⟩
  · intro n
    rw [c2]
    constructor
    · rintro ⟨r, hr, hz⟩
      obtain ⟨c, hc, f, hf, hr⟩ := (hS n r).1 hr
      exact ⟨c, hc, f, r, hf, hr, hz⟩
    · rintro ⟨c, hc, f, r, hf, hr, hz⟩
      exact ⟨r, (hS n r).2 ⟨c, hc, f, hf, hr⟩, hz⟩
  · intro a b
    refine (c3 a b).trans (or_congr_right ?_)
    constructor
    · rintro ⟨r, hr, hz⟩
      obtain ⟨c, hc, f, hf, hr⟩ := (hE _ r).1 hr
      exact ⟨c, hc, f, r, hf, hr, hz⟩
    · rintro ⟨c, hc, f, r, hf, hr, hz⟩
      exact ⟨r, (hE _ r).2 ⟨c, hc, f, hf, hr⟩, hz⟩
  · intro c hc
    constructor
    · intro e f r hf hr hz o ho
      exact (c5 o).2 (Or.inr ⟨e, r, (hE e r).2 ⟨c, hc, f, hf, hr⟩, hz, ho⟩)
    · intro e f r hf hr hz o ho
      exact (c5 o).2 (Or.inl ⟨e, r, (hS e r).2 ⟨c, hc, f, hf, hr⟩, hz, ho⟩)

/-- A driven node can carry a field. -/
theorem live_of_driven {bonds : SR (P × K)} {cs : List (Coupling P K F)} {st : SG (P × K)}
    (ha : Analysed bonds cs st) {g : Graph.G (P × K) F} {S : List (P × K)} (hS : ∀ n ∈ S, n ∈ st.inputs)
    (hE : ∀ a b, Graph.Edge g a b → mem st.g.seq a b) {z : P × K} (h : Graph.Driven g S z) : Live bonds cs z := by
  obtain ⟨s, hs, hsz⟩ := h
  induction hsz with
  | refl =>
    obtain ⟨c, hc, f, r, hf, hr, hz⟩ := (ha.inputs s).1 (hS s hs)
    exact Active.source ⟨c, hc, f, hf, hr⟩ hz
  | tail _ hab ih =>
    rcases (ha.seq _ _).1 (hE _ _ hab) with h | ⟨c, hc, f, r, hf, hr, hz⟩
    · exact Active.bond ih h
    · exact Active.edge ih ⟨c, hc, f, hf, hr⟩ hz

/-- The bonded fields as a sum over all nodes. -/
theorem bond_sum {seq bonds : SetDict P K} (hseq : SetWF seq) (hle : ∀ a b, mem bonds a b → mem seq a b)
    (x : P × K → F) (t : P × K) :
    (((pairs seq).filter (fun e => e.2 = t ∧ mem bonds e.1 e.2)).map (fun e => x e.1)).sum
      = ∑ a, if mem bonds a t then x a else 0 := by
  have hnd : (((pairs seq).filter (fun e => e.2 = t ∧ mem bonds e.1 e.2)).map Prod.fst).Nodup := by
    refine List.Nodup.map_on ?_ ((nodup_pairs hseq).filter _)
    intro a ha b hb hab
    rw [List.mem_filter, decide_eq_true_eq] at ha hb
    exact Prod.ext hab (ha.2.1.trans hb.2.1.symm)
  have hmem : ∀ a, a ∈ (((pairs seq).filter (fun e => e.2 = t ∧ mem bonds e.1 e.2)).map Prod.fst) ↔
      mem bonds a t := by
    intro a
    rw [List.mem_map]
    constructor
    · rintro ⟨e, he, rfl⟩
      rw [List.mem_filter, decide_eq_true_eq] at he
      rw [← he.2.1]
      exact he.2.2
    · intro h
      refine ⟨(a, t), ?_, rfl⟩
      rw [List.mem_filter, decide_eq_true_eq]
      exact ⟨(mem_pairs hseq.1 a t).2 (hle a t h), rfl, h⟩
  have e1 : (((pairs seq).filter (fun e => e.2 = t ∧ mem bonds e.1 e.2)).map (fun e => x e.1))
      = ((((pairs seq).filter (fun e => e.2 = t ∧ mem bonds e.1 e.2)).map Prod.fst).map x) := by
    rw [List.map_map]
    rfl
  rw [e1, ← List.sum_toFinset _ hnd, ← Finset.sum_filter]
  refine Finset.sum_congr ?_ (fun _ _ => rfl)
  ext a
  rw [List.mem_toFinset, hmem]
  simp

theorem readout_get (outs : List (P × K)) (om : SolVec P K F) (n : P × K) :
    Dict.get? (readout_vector outs om) n = if n ∈ outs then some (getd om n 0) else none := by
  have key : ∀ (l : List (P × K)) (d : SolVec P K F),
      Dict.get? (l.foldl (fun kv node => Dict.set kv node (getd om node 0)) d) n
        = if n ∈ l then some (getd om n 0) else Dict.get? d n := by
    intro l
    induction l with
    | nil => intro d; simp
    | cons a l ih =>
      intro d
      rw [List.foldl_cons, ih, Dict.get?_set]
      by_cases hl : n ∈ l
      · rw [if_pos hl, if_pos (List.mem_cons_of_mem _ hl)]
      · rw [if_neg hl]
        by_cases ha : a = n
        · subst ha
          simp
        · have hn : n ∉ a :: l := by
            rw [List.mem_cons, not_or]
            exact ⟨fun h => ha h.symm, hl⟩
          rw [if_neg ha, if_neg hn]
  unfold readout_vector
  rw [key]
  rfl

/-! ## the claim -/

/-- **C53.**  Let `cs` be inserted, let the sparsity analysis give `st`, let `_perturbation_iterate` return
its own argument `sol` (the iteration has converged) and let `driven_solution_get` return `r` for the
readouts `outs`.  Then there are fields `x` on all nodes such that `r` holds `x` at exactly the readouts, `sol`
holds `x` at the nodes the couplings read, nodes which cannot carry a field carry none, and at every readout,
at every node the couplings read, and at every node upstream of these, `x` satisfies the nonlinear equation:
the field is the sum of the fields bonded to it and of what every coupling stands for.

`hnorm`: a normalisation node which is needed must be present in `sol` (an absent one is read as `10¹²`);
`hn`, `hu`: as in C41. -/
theorem C53_converged {cs : List (Coupling P K F)} {ports : Dict P (List K)} {m : Algo P K F}
    (hm : insert_all ports (cs.map Coupling.inj) = .ok m)
    {pick pick' : List (P × K) → P × K} (hpick : ∀ l, l ≠ [] → pick l ∈ l) (hpick' : ∀ l, l ≠ [] → pick' l ∈ l)
    {fuel : Nat} {bonds : SR (P × K)} (hbw : bonds.WF) (hbal : ∀ a b, mem bonds.seq a b ↔ mem bonds.req b a)
    {st : SG (P × K)} (hst : coherent_sparsity_graph pick fuel bonds m = .ok (some st))
    {o o' : Graph.Opts (P × K) F} (ho : ∀ l, l ≠ [] → o.pick l ∈ l) (ho' : ∀ l, l ≠ [] → o'.pick l ∈ l)
    (hneg : o.negative = false) (hneg' : o'.negative = false) {sol sol' : SolVec P K F}
    (hit : perturbation_iterate o pick' m bonds.seq st sol = .ok sol')
    (hfix : ∀ n, Dict.get? sol' n = Dict.get? sol n)
    {outs : List (P × K)} {r : SolVec P K F} (hread : driven_solution_get o' m bonds.seq st outs sol = .ok r)
    (hnorm : ∀ c ∈ cs, (∃ p ∈ c.factors, Live bonds cs p) → ∀ n ∈ c.norms, (Dict.get? sol n).isSome)
    (hn : ∀ c ∈ cs, c.Normed (fun z => getd sol z 0)) (hu : ∀ c ∈ cs, c.Unshifted (fun z => getd sol z 0)) :
    ∃ x : P × K → F,
      (∀ n, Dict.get? r n = if n ∈ outs then some (x n) else none) ∧
      (∀ n ∈ st.outs, getd sol n 0 = x n) ∧
      (∀ n, ¬ Live bonds cs n → x n = 0) ∧
      ∃ g, edge_matrix_generate m bonds.seq st.g.seq st.g.req sol = .ok g ∧
        ∀ t, Graph.Seen ⟨g.seq, g.req, g.mat⟩ (outs ++ st.outs) t →
          x t = (∑ a, if mem bonds.seq a t then x a else 0) + (cs.map (fun c => c.into x t)).sum := by
  have ha := analysed hm hpick hbw hbal hst
  -- the purged solve
  obtain ⟨gp, hgp, wp1, wp2, balp, lep, gep⟩ := perturb_graph_spec (F := F) hpick' ha.wfs ha.wfr ha.bal
  unfold perturbation_iterate at hit
  rw [hgp, bind_ok] at hit
  obtain ⟨g1, sv1, hg1, hsv1, hw1, hmat1, hk1, hout1, z, hz, hzs, _⟩ := linear_solve_spec ho hneg wp1 wp2 balp hit
  -- the full solve
  unfold driven_solution_get at hread
  obtain ⟨om, hom, hr⟩ := bind_ok_inv hread
  injection hr with hr
  obtain ⟨g, sv, hg, hsv, hw, hmat, hk, hout, y, hy, hys, hyu⟩ :=
    linear_solve_spec ho' hneg' ha.wfs ha.wfr ha.bal hom
  have hsvv : sv1 = sv := by
    rw [hsv1] at hsv
    injection hsv
  subst hsvv
  have hS : ∀ n ∈ Dict.keys sv1, n ∈ st.inputs := fun n hn => hk n ((Dict.mem_keys_iff _ _).1 hn)
  have hE : ∀ a b, Graph.Edge (⟨g.seq, g.req, g.mat⟩ : Graph.G (P × K) F) a b → mem st.g.seq a b := by
    intro a b hab
    obtain ⟨v, hv⟩ := Option.isSome_iff_exists.1 hab
    exact ((hmat _ _).1 hv).1
  have hz' : Graph.Solves ⟨g.seq, g.req, g.mat⟩ (Dict.keys sv1) st.outs (Graph.srcVec sv1) z := by
    refine Graph.solves_of_purged ?_ ?_ hz
    · intro a b v hv
      obtain ⟨k1, k2, k3⟩ := (hmat1 _ _).1 hv
      exact (hmat _ _).2 ⟨lep _ _ k1, k2, k3⟩
    · rintro a b hab ⟨s, hs, hsa⟩ ⟨t, ht, hbt⟩
      obtain ⟨v, hv⟩ := Option.isSome_iff_exists.1 hab
      obtain ⟨k1, k2, k3⟩ := (hmat _ _).1 hv
      have hm' : mem gp.seq a b := gep a b k1
        ⟨s, hS s hs, Relation.ReflTransGen.mono hE _ _ hsa⟩ ⟨t, ht, Relation.ReflTransGen.mono hE _ _ hbt⟩
      refine Option.isSome_iff_exists.2 ⟨v, (hmat1 _ _).2 ⟨hm', k2, k3⟩⟩
  obtain ⟨x, hx1, hx2, hx⟩ := Graph.combine hy hyu hz'
  have hsolx : ∀ n ∈ st.outs, getd sol n 0 = x n := by
    intro n hn
    rw [hx2 n ⟨n, hn, .refl⟩, ← hzs n hn]
    unfold getd
    rw [hfix]
  have hdead : ∀ n, ¬ Live bonds cs n → x n = 0 := fun n hn =>
    hx.rest n (fun hd => hn (live_of_driven ha hS hE hd))
  have h0 : ∀ n, ¬ Live bonds cs n → getd sol n 0 = 0 ∧ x n = 0 := by
    intro n hn
    refine ⟨?_, hdead n hn⟩
    by_cases hno : n ∈ st.outs
    · rw [hsolx n hno, hdead n hn]
    · unfold getd
      rw [← hfix]
      cases hh : Dict.get? sol' n with
      | none => rfl
      | some v => exact absurd (hout1 n (by rw [hh]; rfl)) hno
  refine ⟨x, ?_, hsolx, hdead, g, hg, ?_⟩
  · intro n
    rw [← hr, readout_get]
    by_cases hn : n ∈ outs
    · rw [if_pos hn, if_pos hn, hys n hn, hx1 n ⟨n, hn, .refl⟩]
    · rw [if_neg hn, if_neg hn]
  · intro t ht
    have heq : Solves g.mat sv1 x t := by
      unfold Solves
      rw [matSum_gain hw g.seq g.req]
      by_cases hd : Graph.Driven (⟨g.seq, g.req, g.mat⟩ : Graph.G (P × K) F) (Dict.keys sv1) t
      · exact hx.eqn t hd ht
      · rw [hx.rest t hd]
        have hs0 : (Dict.get? sv1 t).getD 0 = 0 := by
          cases hh : Dict.get? sv1 t with
          | none => rfl
          | some v => exact absurd ⟨t, (Dict.mem_keys_iff _ _).2 (by rw [hh]; rfl), .refl⟩ hd
        rw [hs0, add_zero, Finset.sum_eq_zero]
        intro a _
        by_cases hga : Graph.gain (⟨g.seq, g.req, g.mat⟩ : Graph.G (P × K) F) a t = 0
        · rw [hga, zero_mul]
        · rw [hx.rest a ?_, mul_zero]
          rintro ⟨s, hs, hsa⟩
          exact hd ⟨s, hs, hsa.tail (Graph.edge_of_gain hga)⟩
    have hfl : ∀ {κ : Type} [DecidableEq κ] (d : Dict κ (List (Func P K F))) (e : κ) (fl : List (Func P K F)),
        Dict.get? d e = some fl → lst d e = fl := by
      intro κ _ d e fl h
      unfold lst
      rw [h]
      rfl
    have := fixed_point_core cs ports m hm bonds.seq st.g.seq st.g.req ha.wfs st.inputs sol x t
      (fun c hc => term_of_active c sol x t (Live bonds cs) st.outs h0 hsolx (ha.reads c hc) (hnorm c hc)
        (hn c hc) (hu c hc)) g hg sv1 hsv1 ?_ ?_ heq
    · rw [this]
      congr 1
      exact bond_sum ha.wfs (fun a b h => (ha.seq a b).2 (Or.inl h)) x t
    · intro e fl he _ hne
      right
      intro f hf
      obtain ⟨c, hc, hcf⟩ := of_edgeFunc hm (e := e) (f := f) (by rw [hfl _ _ _ he]; exact hf)
      obtain ⟨r, hr, hidle⟩ := edge_idle c hcf
      by_contra hne0
      apply hne
      refine (ha.seq e.1 e.2).2 (Or.inr ⟨c, hc, f, r, hcf, hr, ?_⟩)
      intro w hw
      by_contra hlw
      exact hne0 (hidle sol w hw (h0 w hlw).1)
    · intro fl he hne f hf
      obtain ⟨c, hc, hcf⟩ := of_srcFunc hm (e := t) (f := f) (by rw [hfl _ _ _ he]; exact hf)
      obtain ⟨r, hr, hidle⟩ := source_idle c hcf
      by_contra hne0
      apply hne
      refine (ha.inputs t).2 ⟨c, hc, f, r, hcf, hr, ?_⟩
      intro w hw
      by_contra hlw
      exact hne0 (hidle sol w hw (h0 w hlw).1)

/-! ## example -/

section Examples

/-- two sources into 0 and 1, their product into 2, bonded to 3; the square of 3 goes to 4 which feeds back
to 3 -/
def itCouplings : List (Coupling (Fin 5) Unit ℚ) :=
  [.source (0, ()) 2, .source (1, ()) 3, .triplet (0, ()) (1, ()) (2, ()) 5, .triplet (3, ()) (3, ()) (4, ()) (1 / 60),
    .edge (4, ()) (3, ()) (1 / 2)]

def itPorts : Dict (Fin 5) (List Unit) := [(0, [()]), (1, [()]), (2, [()]), (3, [()]), (4, [()])]

def itBonds : SR (Fin 5 × Unit) := ⟨[((2, ()), [(3, ())])], [((3, ()), [(2, ())])]⟩

/-- the fixed point: `x₃ = 5·2·3 + x₄/2` and `x₄ = x₃²/60` -/
def itSol : SolVec (Fin 5) Unit ℚ := [((0, ()), 2), ((1, ()), 3), ((3, ()), 60)]

def itOpts : Graph.Opts (Fin 5 × Unit) ℚ where
  lt := fun a b => decide (a.1 < b.1)
  pick := fun l => l.headD (.node (0, ()))
  size := fun _ => 1

def itRun : Except Err (Algo (Fin 5) Unit ℚ × Option (SG (Fin 5 × Unit) × SolVec (Fin 5) Unit ℚ ×
    SolVec (Fin 5) Unit ℚ)) := do
  let m ← insert_all itPorts (itCouplings.map Coupling.inj)
  let st ← coherent_sparsity_graph (fun l => l.headD (0, ())) 40 itBonds m
  match st with
  | none => pure (m, none)
  | some st => do
    let sol' ← perturbation_iterate itOpts (fun l => l.headD (0, ())) m itBonds.seq st itSol
    let r ← driven_solution_get itOpts m itBonds.seq st [(4, ())] itSol
    pure (m, some (st, sol', r))

/-- the hypotheses of `C53_converged` are met: the iteration stays at the fixed point and the readout of 4 is
`60²/60` -/
example : ∃ m st sol' r, insert_all itPorts (itCouplings.map Coupling.inj) = .ok m ∧
    coherent_sparsity_graph (fun l => l.headD (0, ())) 40 itBonds m = .ok (some st) ∧
    perturbation_iterate itOpts (fun l => l.headD (0, ())) m itBonds.seq st itSol = .ok sol' ∧ sol' = itSol ∧
    driven_solution_get itOpts m itBonds.seq st [(4, ())] itSol = .ok r ∧ r = [((4, ()), 60)] := by
  have h : (match itRun with
      | .ok (_, some (_, sol', r)) => decide (sol' = itSol ∧ r = [((4, ()), 60)])
      | _ => false) = true := by decide +kernel
  cases hr : itRun with
  | error e => rw [hr] at h; cases h
  | ok q =>
    rw [hr] at h
    unfold itRun at hr
    obtain ⟨m, hm, hr1⟩ := bind_ok_inv hr
    obtain ⟨st, hst, hr2⟩ := bind_ok_inv hr1
    cases st with
    | none => injection hr2 with hr2; subst hr2; cases h
    | some st =>
      obtain ⟨sol', hs, hr3⟩ := bind_ok_inv hr2
      obtain ⟨r, hd, hr4⟩ := bind_ok_inv hr3
      injection hr4 with hr4
      subst hr4
      obtain ⟨h1, h2⟩ := of_decide_eq_true h
      exact ⟨m, st, sol', r, hm, hst, hs, h1, hd, h2⟩

example : (∀ a b, mem itBonds.seq a b ↔ mem itBonds.req b a) ∧ (∀ c ∈ itCouplings, c.norms = []) ∧
    (∀ l, l ≠ [] → itOpts.pick l ∈ l) := by
  refine ⟨by decide, ?_, ?_⟩
  · intro c hc
    simp only [itCouplings, List.mem_cons, List.not_mem_nil, or_false] at hc
    rcases hc with rfl | rfl | rfl | rfl | rfl <;> rfl
  · intro l hl
    cases l with
    | nil => exact absurd rfl hl
    | cons a l => exact List.mem_cons_self

end Examples

end Inject
