import Verif.Floating.Basic
import Verif.Floating.Analysis

/-!
# The readouts of a converged iteration with floating couplings (C109-C111)
-/

set_option linter.unusedSectionVars false

namespace Floating
open Py Inject

variable {P K F : Type} [DecidableEq P] [DecidableEq K] [Field F] [DecidableEq F]

/-! ## the elements -/

/-- A coupling with floating pairs and sources that are always on, like `ExpMatCoupling`. -/
structure FCpl (P K F : Type) where
  pairs : List (Pair P K F)
  reqs : List (P × K)
  sources : Dict (P × K) (Func P K F)

/-- The injection (`optics/ODE_solver.py` l.124-147): no edges, sources with an empty `NZ` set. -/
def FCpl.finj (d : FCpl P K F) : FInj P K F where
  inj := { sources := d.sources, sourcesNZ := d.sources.map fun kv => (kv.1, []) }
  pairs := some d.pairs
  reqs := some d.reqs

/-- An ordinary coupling or a floating one. -/
inductive Elem (P K F : Type)
  | plain (c : Coupling P K F)
  | float (d : FCpl P K F)

def Elem.finj : Elem P K F → FInj P K F
  | .plain c => { inj := c.inj }
  | .float d => d.finj

/-- What a pair adds at a node when its block is taken at `sol`. -/
def Pair.sum (sol : SolVec P K F) (x : P × K → F) (t : P × K) (p : Pair P K F) : F :=
  match p.func sol with
  | .ok b => blockSum b x t
  | .error _ => 0

/-- What a floating coupling adds at a node: its blocks acting on the fields, and its sources. -/
def FCpl.into (sol : SolVec P K F) (x : P × K → F) (t : P × K) (d : FCpl P K F) : F :=
  (d.pairs.map (Pair.sum sol x t)).sum + (d.sources.map fun s => if s.1 = t then evalD sol s.2 else 0).sum

def Elem.into (sol : SolVec P K F) (x : P × K → F) (t : P × K) : Elem P K F → F
  | .plain c => c.into x t
  | .float d => d.into sol x t

/-- The blocks at `sol` do not meet each other nor the edges of the graph. -/
def Separate (sol : SolVec P K F) (ps : List (Pair P K F)) (seq : SetDict P K) : Prop :=
  ∀ bs, Blocks sol ps bs → ((bs.flatten.filter fun e => e.2 ≠ 0).map Prod.fst).Nodup ∧
    ∀ e ∈ bs.flatten, e.2 ≠ 0 → ¬ mem seq e.1.1 e.1.2

theorem all_pairs_elems (es : List (Elem P K F)) :
    all_pairs (es.map Elem.finj) = es.flatMap fun e => match e with | .plain _ => [] | .float d => d.pairs := by
  unfold all_pairs
  induction es with
  | nil => rfl
  | cons e es ih =>
    cases e with
    | plain c => simpa [Elem.finj] using ih
    | float d => simpa [Elem.finj, FCpl.finj] using ih

theorem sum_flatMap {A : Type} (f : A → F) (ls : List (List A)) : (ls.flatten.map f).sum = (ls.map fun l => (l.map f).sum).sum := by
  induction ls with
  | nil => rfl
  | cons l ls ih => rw [List.flatten_cons, List.map_append, List.sum_append, ih, List.map_cons, List.sum_cons]

theorem block_pairs {sol : SolVec P K F} {ps : List (Pair P K F)} {bs : List (Dict ((P × K) × (P × K)) F)}
    (h : Blocks sol ps bs) (x : P × K → F) (t : P × K) : blockSum bs.flatten x t = (ps.map (Pair.sum sol x t)).sum := by
  unfold Blocks at h
  induction h with
  | nil => rfl
  | @cons p b ps bs h1 _ ih =>
    rw [List.flatten_cons, List.map_cons, List.sum_cons, ← ih]
    unfold blockSum
    rw [List.map_append, List.sum_append]
    congr 1
    unfold Pair.sum
    rw [h1]
    rfl

/-- The sums of all elements are those of the injections and those of the blocks. -/
theorem elems_sum (es : List (Elem P K F)) (sol : SolVec P K F) (x : P × K → F) (t : P × K)
    (hterm : ∀ c, Elem.plain c ∈ es → c.inj.linear sol x t = c.into x t) :
    ((es.map fun e => e.finj.inj).map fun i => i.linear sol x t).sum +
      ((all_pairs (es.map Elem.finj)).map (Pair.sum sol x t)).sum = (es.map (Elem.into sol x t)).sum := by
  rw [all_pairs_elems]
  induction es with
  | nil => simp
  | cons e es ih =>
    have ih' := ih fun c hc => hterm c (List.mem_cons_of_mem _ hc)
    rw [List.map_cons, List.map_cons, List.sum_cons, List.flatMap_cons, List.map_append, List.sum_append, List.map_cons,
      List.sum_cons, ← ih']
    have he : e.finj.inj.linear sol x t +
        ((match e with | .plain _ => ([] : List (Pair P K F)) | .float d => d.pairs).map (Pair.sum sol x t)).sum
          = e.into sol x t := by
      cases e with
      | plain c =>
        have := hterm c List.mem_cons_self
        simpa [Elem.finj, Elem.into] using this
      | float d =>
        unfold Elem.into FCpl.into Elem.finj FCpl.finj Inj.linear
        simp [add_comm]
    rw [← he]
    ring

variable [Fintype P] [Fintype K]

/-! ## the linear solve -/

theorem linear_solve_spec {o : Graph.Opts (P × K) F} (hpick : ∀ l, l ≠ [] → o.pick l ∈ l)
    (hneg : o.negative = false) {m : Algo P K F} {ps : List (Pair P K F)} {bonds seq req : SetDict P K} (hseq : SetWF seq)
    (hreq : SetWF req) (hbal : ∀ a b, mem seq a b ↔ mem req b a) {inputs outs : List (P × K)}
    {sol sol' : SolVec P K F} (h : linear_solve o m ps bonds seq req inputs outs sol = .ok sol') :
    ∃ g0 bs g sv, Inject.edge_matrix_generate m bonds seq req sol = .ok g0 ∧ Blocks sol ps bs ∧
      edge_matrix_generate m ps bonds seq req sol = .ok g ∧ source_vector_generate m inputs sol = .ok sv ∧
      (∀ e v, (e, v) ∈ bs.flatten → ∃ p ∈ ps, e.1 ∈ p.ins ∧ e.2 ∈ p.outs) ∧ Wrote bs.flatten g0 g ∧
      Dict.WF g0.mat ∧ Dict.WF g.mat ∧
      (∀ e v, Dict.get? g0.mat e = some v ↔ mem seq e.1 e.2 ∧ v ≠ 0 ∧ v = edgeVal m sol e) ∧
      (∀ k, (Dict.get? sv k).isSome → k ∈ inputs) ∧
      (∀ t, (Dict.get? sol' t).isSome → t ∈ outs) ∧
      ∃ x, Graph.Solves ⟨g.seq, g.req, g.mat⟩ (Dict.keys sv) outs (Graph.srcVec sv) x ∧
        (∀ t ∈ outs, getd sol' t 0 = x t) ∧
        ∀ x', Graph.Solves ⟨g.seq, g.req, g.mat⟩ (Dict.keys sv) outs (Graph.srcVec sv) x' →
          ∀ n, Graph.Seen ⟨g.seq, g.req, g.mat⟩ outs n → x n = x' n := by
  unfold linear_solve at h
  obtain ⟨g, hg, h1⟩ := bind_ok_inv h
  obtain ⟨sv, hsv, h2⟩ := bind_ok_inv h1
  obtain ⟨⟨r, em⟩, hr, h3⟩ := bind_ok_inv h2
  clear h h1 h2
  injection h3 with h3
  dsimp only at h3
  obtain ⟨g0, bs, hg0, hbs, hins, hwr⟩ := generate_spec hg
  obtain ⟨g1, g2, g3, g4, g5, g6⟩ := Inject.generate_spec hseq hg0
  have hmat : ∀ e v, Dict.get? g0.mat e = some v ↔ mem seq e.1 e.2 ∧ v ≠ 0 ∧ v = edgeVal m sol e := by
    intro e v
    rw [g2, get?_kept, ← mem_pairs hseq.1]
  have hwm0 : Dict.WF g0.mat := by
    unfold Dict.WF
    rw [g2, keys_kept]
    exact (nodup_pairs hseq).filter _
  have hwm : Dict.WF g.mat := hwr.wfm hwm0
  have hwsr := hwr.wf ⟨g5, g6 hreq⟩
  have hval : Graph.Valid (⟨g.seq, g.req, g.mat⟩ : Graph.G (P × K) F) := by
    refine ⟨hwsr.1.1, hwsr.2.1, fun a => lst_nodup hwsr.1 a, fun a => lst_nodup hwsr.2 a, ?_⟩
    intro a b hab
    obtain ⟨v, hv⟩ := Option.isSome_iff_exists.1 hab
    replace hv : Dict.get? g.mat (a, b) = some v := hv
    rw [hwr.mat, Option.or_eq_some_iff] at hv
    rcases hv with hv | ⟨-, hv⟩
    · obtain ⟨h1, h2⟩ := last_mem hv
      exact ⟨(hwr.seq a b).2 (Or.inr ⟨v, h1, h2⟩), (hwr.req a b).2 (Or.inr ⟨v, h1, h2⟩)⟩
    · obtain ⟨k1, k2, k3⟩ := (hmat _ _).1 hv
      refine ⟨(hwr.seq a b).2 (Or.inl ((g3 a b).2 ⟨k1, by rw [← k3]; exact k2⟩)),
        (hwr.req a b).2 (Or.inl ((g4 a b).2 ⟨(hbal a b).1 k1, ?_⟩))⟩
      rintro ⟨_, h0⟩
      exact k2 (k3.trans h0)
  have hsvw : Dict.WF sv := by
    have key : ∀ (l : List (P × K)) (d d' : Dict (P × K) F), l.foldlM (source_step m sol) d = .ok d' →
        Dict.WF d → Dict.WF d' := by
      intro l
      induction l with
      | nil => intro d d' hd hw; cases foldlM_nil_ok hd; exact hw
      | cons k l ih =>
        intro d d' hd hw
        obtain ⟨c, hc, hl⟩ := foldlM_cons_ok hd
        refine ih c d' hl ?_
        rw [(source_step_ok hc).2]
        split
        · exact Dict.WF_set hw _ _
        · exact hw
    exact key inputs [] sv hsv Dict.WF_nil
  have hsvk : ∀ k, (Dict.get? sv k).isSome → k ∈ inputs := by
    intro k hk
    by_contra hn
    rw [(C51_source_vector hsv).2 k hn] at hk
    cases hk
  obtain ⟨_, _, _, om, _, _, hro, _⟩ := Graph.run_core hpick hval
    (show ∀ m', some sv = some m' → Dict.WF m' by intro m' h; cases h; exact hsvw) hr
  rw [show r = some om from hro] at hr h3
  subst h3
  obtain ⟨c1, c2, c3, c4⟩ := Graph.C12_solution hpick hval hsvw hr
  rw [List.append_nil] at c1 c2 c3
  obtain ⟨x, hx⟩ := c1
  refine ⟨g0, bs, g, sv, hg0, hbs, hg, hsv, ?_, hwr, hwm0, hwm, hmat, hsvk, c4, x, hx, ?_, fun x' hx' => c3 x x' hx hx'⟩
  · intro e v he
    obtain ⟨p, hp, b, -, -, h1, h2⟩ := hins e v he
    exact ⟨p, hp, h1, h2⟩
  · intro t ht
    have := c2 x hx t ht
    rw [hneg] at this
    unfold getd
    rw [Option.getD_some, this]
    simp [Graph.sgn]

/-- **C111.**  As C53, with floating couplings.  Let the elements be inserted, let the sparsity analysis give `c`, let
`_perturbation_iterate` return its own argument `sol` and let `driven_solution_get` return `r` for the readouts `outs`.  If the
blocks the floating couplings return at `sol` do not meet each other nor the edges of the graph, there are fields `x` on all
nodes such that `r` holds `x` at exactly the readouts, `sol` holds `x` at the nodes the couplings read, among them all those of
`floating_req_set`, nodes which cannot carry a field carry none, and at every readout, at every node the couplings read and at
every node upstream of these the field is the sum of the fields bonded to it, of what every ordinary coupling stands for and of
what every floating coupling emits: its blocks acting on the fields, and its sources. -/
theorem C111_converged {es : List (Elem P K F)} {ports : Dict P (List K)} {m : Algo P K F}
    (hm : insert_all ports (es.map fun e => e.finj.inj) = .ok m) {ps : List (Pair P K F)} (hps : ps = all_pairs (es.map Elem.finj))
    {pick pick' : List (Node P K ps.length) → Node P K ps.length}
    (hpick : ∀ l, l ≠ [] → pick l ∈ l) (hpick' : ∀ l, l ≠ [] → pick' l ∈ l)
    {fuel : ℕ} {bonds : SR (P × K)} (hbw : bonds.WF) (hbal : ∀ a b, mem bonds.seq a b ↔ mem bonds.req b a)
    {c : Csgb P K ps.length}
    (hst : coherent_sparsity_graph ps (all_reqs (es.map Elem.finj)) pick pick' fuel bonds m = .ok (some c))
    {o o' : Graph.Opts (P × K) F} (ho : ∀ l, l ≠ [] → o.pick l ∈ l) (ho' : ∀ l, l ≠ [] → o'.pick l ∈ l)
    (hneg : o.negative = false) (hneg' : o'.negative = false) {sol sol' : SolVec P K F}
    (hit : perturbation_iterate o m ps bonds.seq c sol = .ok sol')
    (hfix : ∀ n, Dict.get? sol' n = Dict.get? sol n)
    {outs : List (P × K)} {r : SolVec P K F} (hread : driven_solution_get o' m ps bonds.seq c outs sol = .ok r)
    (hsep : Separate sol ps (lower c.full.seq))
    (hnorm : ∀ d, Elem.plain d ∈ es → (∃ p ∈ d.factors, Live bonds (es.map fun e => e.finj.inj) ps p) →
      ∀ n ∈ d.norms, (Dict.get? sol n).isSome)
    (hn : ∀ d, Elem.plain d ∈ es → d.Normed (fun z => getd sol z 0))
    (hu : ∀ d, Elem.plain d ∈ es → d.Unshifted (fun z => getd sol z 0)) :
    ∃ x : P × K → F,
      (∀ n, Dict.get? r n = if n ∈ outs then some (x n) else none) ∧
      (∀ n ∈ c.outs, getd sol n 0 = x n) ∧
      (∀ n ∈ all_reqs (es.map Elem.finj), n ∈ c.outs) ∧
      (∀ n, ¬ Live bonds (es.map fun e => e.finj.inj) ps n → x n = 0) ∧
      ∃ g, edge_matrix_generate m ps bonds.seq (lower c.full.seq) (lower c.full.req) sol = .ok g ∧
        ∀ t, Graph.Seen ⟨g.seq, g.req, g.mat⟩ (outs ++ c.outs) t →
          x t = (∑ a, if mem bonds.seq a t then x a else 0) + (es.map (Elem.into sol x t)).sum := by
  have ha := analysed hm hpick hpick' hbw hbal hst
  -- the purged solve
  obtain ⟨g01, bs1, g1, sv1, hg01, hbs1, hg1, hsv1, hins1, hwr1, -, hw1, hmat1, hk1, hout1, z, hz, hzs, -⟩ :=
    linear_solve_spec ho hneg ha.pwfs ha.pwfr ha.pbal hit
  -- the full solve
  unfold driven_solution_get at hread
  obtain ⟨om, hom, hr⟩ := bind_ok_inv hread
  injection hr with hr
  obtain ⟨g0, bs, g, sv, hg0, hbs, hg, hsv, hins, hwr, hw0, hw, hmat, hk, hout, y, hy, hys, hyu⟩ :=
    linear_solve_spec ho' hneg' ha.wfs ha.wfr ha.bal hom
  obtain rfl : bs1 = bs := blocks_unique hbs1 hbs
  have hsvv : sv1 = sv := by
    rw [hsv1] at hsv
    injection hsv
  subst hsvv
  have hS : ∀ n ∈ Dict.keys sv1, n ∈ c.inputs := fun n hn => hk n ((Dict.mem_keys_iff _ _).1 hn)
  have hE : ∀ a b, Graph.Edge (⟨g.seq, g.req, g.mat⟩ : Graph.G (P × K) F) a b → Step (lower c.full.seq) ps a b := by
    intro a b hab
    obtain ⟨v, hv⟩ := Option.isSome_iff_exists.1 hab
    replace hv : Dict.get? g.mat (a, b) = some v := hv
    rw [hwr.mat, Option.or_eq_some_iff] at hv
    rcases hv with hv | ⟨-, hv⟩
    · exact Or.inr (hins _ _ (last_mem hv).1)
    · exact Or.inl ((hmat _ _).1 hv).1
  have hlive : ∀ n, Graph.Driven (⟨g.seq, g.req, g.mat⟩ : Graph.G (P × K) F) (Dict.keys sv1) n →
      Live bonds (es.map fun e => e.finj.inj) ps n := by
    rintro n ⟨s, hs, hsn⟩
    induction hsn with
    | refl =>
      obtain ⟨i, hi, f, r, hf, hr, hz⟩ := (ha.inputs s).1 (hS s hs)
      exact Live.source hi hf hr hz
    | tail _ hab ih =>
      rcases hE _ _ hab with h | ⟨p, hp, h1, h2⟩
      · rcases (ha.seq _ _).1 h with h | ⟨i, hi, f, r, hf, hr, hz⟩
        · exact Live.bond ih h
        · exact Live.edge ih hi hf hr hz
      · exact Live.float ih hp h1 h2
  have hz' : Graph.Solves ⟨g.seq, g.req, g.mat⟩ (Dict.keys sv1) c.outs (Graph.srcVec sv1) z := by
    refine Graph.solves_of_purged ?_ ?_ hz
    · intro a b v hv
      dsimp only at hv ⊢
      rw [hwr1.mat, Option.or_eq_some_iff] at hv
      rw [hwr.mat, Option.or_eq_some_iff]
      rcases hv with hv | ⟨hno, hv⟩
      · exact Or.inl hv
      · obtain ⟨k1, k2, k3⟩ := (hmat1 _ _).1 hv
        exact Or.inr ⟨hno, (hmat _ _).2 ⟨ha.ple _ _ k1, k2, k3⟩⟩
    · rintro a b hab ⟨s, hs, hsa⟩ ⟨t, ht, hbt⟩
      obtain ⟨v, hv⟩ := Option.isSome_iff_exists.1 hab
      replace hv : Dict.get? g.mat (a, b) = some v := hv
      refine Option.isSome_iff_exists.2 ⟨v, ?_⟩
      show Dict.get? g1.mat (a, b) = some v
      rw [hwr.mat, Option.or_eq_some_iff] at hv
      rw [hwr1.mat, Option.or_eq_some_iff]
      rcases hv with hv | ⟨hno, hv⟩
      · exact Or.inl hv
      · obtain ⟨k1, k2, k3⟩ := (hmat _ _).1 hv
        refine Or.inr ⟨hno, (hmat1 _ _).2 ⟨ha.pge a b k1 ⟨s, hS s hs, ?_⟩ ⟨t, ht, ?_⟩, k2, k3⟩⟩
        · exact Relation.ReflTransGen.mono hE _ _ hsa
        · exact Relation.ReflTransGen.mono hE _ _ hbt
  obtain ⟨x, hx1, hx2, hx⟩ := Graph.combine hy hyu hz'
  have hsolx : ∀ n ∈ c.outs, getd sol n 0 = x n := by
    intro n hn
    rw [hx2 n ⟨n, hn, .refl⟩, ← hzs n hn]
    unfold getd
    rw [hfix]
  have hdead : ∀ n, ¬ Live bonds (es.map fun e => e.finj.inj) ps n → x n = 0 := fun n hn =>
    hx.rest n (fun hd => hn (hlive n hd))
  have h0 : ∀ n, ¬ Live bonds (es.map fun e => e.finj.inj) ps n → getd sol n 0 = 0 ∧ x n = 0 := by
    intro n hn
    refine ⟨?_, hdead n hn⟩
    by_cases hno : n ∈ c.outs
    · rw [hsolx n hno, hdead n hn]
    · unfold getd
      rw [← hfix]
      cases hh : Dict.get? sol' n with
      | none => rfl
      | some v => exact absurd (hout1 n (by rw [hh]; rfl)) hno
  refine ⟨x, ?_, hsolx, fun n hn => (ha.outs n).2 (Or.inl hn), hdead, g, hg, ?_⟩
  · intro n
    rw [← hr, readout_get]
    by_cases hn : n ∈ outs
    · rw [if_pos hn, if_pos hn, hys n hn, hx1 n ⟨n, hn, .refl⟩]
    · rw [if_neg hn, if_neg hn]
  · intro t ht
    have heq : x t = matSum g.mat x t + (Dict.get? sv1 t).getD 0 := by
      rw [matSum_gain hw g.seq g.req]
      by_cases hd : Graph.Driven (⟨g.seq, g.req, g.mat⟩ : Graph.G (P × K) F) (Dict.keys sv1) t
      · exact hx.eqn t hd ht
      · rw [hx.rest t hd]
        have hs0 : (Dict.get? sv1 t).getD 0 = 0 := by
          cases hh : Dict.get? sv1 t with
          | none => rfl
          | some v => exact absurd ⟨t, (Dict.mem_keys_iff _ _).2 (by rw [hh]; rfl), .refl⟩ hd
        rw [hs0, add_zero, Finset.sum_eq_zero]
        intro a _
        by_cases hga : Graph.gain (⟨g.seq, g.req, g.mat⟩ : Graph.G (P × K) F) a t = 0
        · rw [hga, zero_mul]
        · rw [hx.rest a ?_, mul_zero]
          rintro ⟨s, hs, hsa⟩
          exact hd ⟨s, hs, hsa.tail (Graph.edge_of_gain hga)⟩
    obtain ⟨hnd, hdis⟩ := hsep bs1 hbs
    have hadd := blocks_sum x t hw0 hwr hnd (by
      intro e he hv
      cases hg : Dict.get? g0.mat e.1 with
      | none => rfl
      | some v => exact absurd ((hmat _ _).1 hg).1 (hdis e he hv))
    have hfl : ∀ {κ : Type} [DecidableEq κ] (d : Dict κ (List (Func P K F))) (e : κ) (fl : List (Func P K F)),
        Dict.get? d e = some fl → lst d e = fl := by
      intro κ _ d e fl h
      unfold lst
      rw [h]
      rfl
    have hcore := system_sum (es.map fun e => e.finj.inj) ports m hm bonds.seq (lower c.full.seq) (lower c.full.req) ha.wfs
      c.inputs sol x t g0 hg0 sv1 hsv1 ?_ ?_
    · have hsum := elems_sum es sol x t fun d hd => term_of_active d sol x t (Live bonds (es.map fun e => e.finj.inj) ps)
        c.outs h0 hsolx ?_ (hnorm d hd) (hn d hd) (hu d hd)
      · rw [heq, hadd, block_pairs hbs x t, add_right_comm, hcore,
          bond_sum ha.wfs (fun a b h => (ha.seq a b).2 (Or.inl h)) x t, ← hsum, hps, add_assoc]
      · have hi : d.inj ∈ es.map fun e => e.finj.inj := List.mem_map.2 ⟨.plain d, hd, rfl⟩
        constructor
        · intro e f r hf hr hz o ho
          exact (ha.outs o).2 (Or.inr (Or.inr ⟨d.inj, hi, e, f, r, hf, hr, hz, ho⟩))
        · intro e f r hf hr hz o ho
          exact (ha.outs o).2 (Or.inr (Or.inl ⟨d.inj, hi, e, f, r, hf, hr, hz, ho⟩))
    · intro e fl he _ hne
      right
      intro f hf
      obtain ⟨i, hi, hcf⟩ := edgeFunc_of hm (e := e) (f := f) (by rw [hfl _ _ _ he]; exact hf)
      obtain ⟨el, hel, rfl⟩ := List.mem_map.1 hi
      cases el with
      | float d => cases hcf
      | plain d =>
        obtain ⟨r, hr, hidle⟩ := edge_idle d hcf
        by_contra hne0
        apply hne
        refine (ha.seq e.1 e.2).2 (Or.inr ⟨d.inj, hi, f, r, hcf, hr, ?_⟩)
        intro w hw
        by_contra hlw
        exact hne0 (hidle sol w hw (h0 w hlw).1)
    · intro fl he hne f hf
      obtain ⟨i, hi, hcf⟩ := srcFunc_of hm (e := t) (f := f) (by rw [hfl _ _ _ he]; exact hf)
      obtain ⟨el, hel, rfl⟩ := List.mem_map.1 hi
      cases el with
      | float d =>
        exfalso
        apply hne
        refine (ha.inputs t).2 ⟨_, hi, f, ⟨[], []⟩, hcf, ?_, by simp⟩
        have hget : Dict.get (d.sources.map fun kv => (kv.1, ([] : List (P × K)))) t = .ok [] := by
          have hs : (Dict.get? (d.sources.map fun kv => (kv.1, ([] : List (P × K)))) t) = some [] := by
            refine (get?_map_key id (fun _ _ h => h) (fun _ => ([] : List (P × K))) d.sources t).trans ?_
            have : t ∈ Dict.keys d.sources := List.mem_map.2 ⟨(t, f), hcf, rfl⟩
            rw [Dict.mem_keys_iff, Option.isSome_iff_exists] at this
            obtain ⟨v, hv⟩ := this
            rw [hv]
            rfl
          unfold Dict.get
          rw [hs]
        unfold source_rule
        show (do
          let nz ← Dict.get (d.sources.map (fun kv : (P × K) × Func P K F => (kv.1, ([] : List (P × K))))) t
          let req ← Dict.get (d.sources.map (fun kv : (P × K) × Func P K F => (kv.1, ([] : List (P × K))))) t
          pure (⟨nz, req⟩ : Rule (P × K))) = _
        rw [hget]
        rfl
      | plain d =>
        obtain ⟨r, hr, hidle⟩ := source_idle d hcf
        by_contra hne0
        apply hne
        refine (ha.inputs t).2 ⟨d.inj, hi, f, r, hcf, hr, ?_⟩
        intro w hw
        by_contra hlw
        exact hne0 (hidle sol w hw (h0 w hlw).1)

end Floating
