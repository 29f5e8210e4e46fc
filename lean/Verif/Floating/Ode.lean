import Verif.Floating.Props
import Verif.Ode.Props

/-!
# The integrating coupling in the system (C112)

Sources: `/repo/phasor/optics/ODE_solver.py` l.84-218.  The coupling keeps a state, the linearisation of the integration about the
last fields it was asked for.  `update_solution` (l.206-210) is called by the block function and by every source function; the
first call updates the state, the others change nothing (`Ode.C97_again`), so that all of them return parts of one state, the
one `generate_solution` makes of the state `st` before the iteration.
-/

set_option linter.unusedSectionVars false

namespace Floating
open Py Inject

variable {P K F : Type} [DecidableEq P] [DecidableEq K] [Field F] [DecidableEq F]

/-! ## when blocks do not meet -/

theorem nodup_block {b : Dict ((P × K) × (P × K)) F} (h : Dict.WF b) :
    ((b.filter fun e => e.2 ≠ 0).map Prod.fst).Nodup :=
  h.sublist (List.filter_sublist.map _)

/-- Blocks that are dictionaries, have no place in common and no edge of the graph do not meet. -/
theorem separate_of {sol : SolVec P K F} {ps : List (Pair P K F)} {seq : SetDict P K}
    (hdis : ps.Pairwise fun p q => ∀ b c, p.func sol = .ok b → q.func sol = .ok c → ∀ e ∈ b, ∀ e' ∈ c, e.1 ≠ e'.1)
    (hwf : ∀ p ∈ ps, ∀ b, p.func sol = .ok b → Dict.WF b ∧ ∀ e ∈ b, ¬ mem seq e.1.1 e.1.2) : Separate sol ps seq := by
  intro bs hbs
  unfold Blocks at hbs
  have hsrc : ∀ e ∈ bs.flatten, ∃ p ∈ ps, ∃ b, p.func sol = .ok b ∧ e ∈ b := by
    clear hdis hwf
    induction hbs with
    | nil => simp
    | @cons p b ps bs h1 _ ih =>
      intro e he
      rw [List.flatten_cons, List.mem_append] at he
      rcases he with he | he
      · exact ⟨p, List.mem_cons_self, b, h1, he⟩
      · obtain ⟨q, hq, h⟩ := ih e he
        exact ⟨q, List.mem_cons_of_mem _ hq, h⟩
  refine ⟨?_, fun e he _ => ?_⟩
  · clear hsrc
    induction hbs with
    | nil => simp
    | @cons p b ps bs h1 h2 ih =>
      obtain ⟨hp, hps⟩ := List.pairwise_cons.1 hdis
      rw [List.flatten_cons, List.filter_append, List.map_append, List.nodup_append']
      refine ⟨nodup_block (hwf p List.mem_cons_self b h1).1, ih hps fun p hp => hwf p (List.mem_cons_of_mem _ hp), ?_⟩
      intro e h3 h4
      obtain ⟨e1, h3', rfl⟩ := List.mem_map.1 h3
      obtain ⟨e2, h4', he⟩ := List.mem_map.1 h4
      have h5 : ∃ q ∈ ps, ∃ b, q.func sol = .ok b ∧ e2 ∈ b := by
        have h6 := (List.mem_filter.1 h4').1
        clear h4 h4' ih hp hps hdis he hwf
        induction h2 with
        | nil => cases h6
        | @cons p' b' ps bs h1' _ ih' =>
          rw [List.flatten_cons, List.mem_append] at h6
          rcases h6 with h6 | h6
          · exact ⟨p', List.mem_cons_self, b', h1', h6⟩
          · obtain ⟨q, hq, h⟩ := ih' h6
            exact ⟨q, List.mem_cons_of_mem _ hq, h⟩
      obtain ⟨q, hq, b', hb', h⟩ := h5
      exact hp q hq b b' h1 hb' e1 (List.mem_filter.1 h3').1 e2 h he.symm
  · obtain ⟨p, hp, b, hb, h⟩ := hsrc e he
    exact (hwf p hp b hb).2 e h

/-! ## the coupling -/

variable {I : Type} [DecidableEq I] [Algebra ℚ F]

/-- `ExpMatCoupling` as an injection (l.124-147): the block function and the source functions return parts of the state that
`generate_solution` makes. -/
def expMat (moved : F → F → Bool) (o : Ode.ExpMat I (P × K) F) (st : Ode.State (P × K) F) : FCpl P K F where
  pairs := [{ ins := o.in_map.map Prod.snd, outs := o.out_map.filterMap Prod.snd
              func := fun sol => do
                let st' ← o.generate_solution moved st sol
                pure st'.solution }]
  reqs := o.in_map.map Prod.snd
  sources := (o.out_map.filterMap Prod.snd).foldl (fun d q => Dict.set d q fun sol => do
    let st' ← o.generate_solution moved st sol
    pure ((Dict.get? st'.vals_inj q).getD 0)) []

/-- An integrating coupling: the equations, the number of steps, the keys and the nodes of the fields that enter and leave. -/
structure OCpl (I P K F : Type) where
  dLt : Dict I (Ode.Lt I F)
  N : ℕ
  pks : List I
  inn : I → P × K
  out : I → Option (P × K)
  o : Ode.ExpMat I (P × K) F
  moved : F → F → Bool
  st : Ode.State (P × K) F

/-- The coupling was made from the equations, its maps hold the nodes of all keys, and its state, when it is asked at `sol`, is
one that was made at `sol`: either now, since an input moved, or at an earlier request for the same fields. -/
structure OCpl.Made (d : OCpl I P K F) (sol : SolVec P K F) : Prop where
  keyed : Ode.Keyed d.dLt d.pks
  init : ∃ in_map out_map, Ode.init d.dLt in_map out_map d.N d.pks = .ok d.o ∧
    Ode.Mapped d.pks in_map out_map d.inn d.out
  same : ∀ v, d.moved v v = false
  fresh : ∃ st0 st1, (∃ k ∈ d.pks, d.moved (Ode.fed sol d.inn k) ((Dict.get? st0.vals_prev (d.inn k)).getD 0) = true) ∧
    d.o.generate_solution d.moved st0 sol = .ok st1 ∧ (d.st = st0 ∨ d.st = st1)

/-- What an integrating coupling adds at a node: where the integration of the fields at its inputs ends. -/
def OCpl.into (x : P × K → F) (t : P × K) (d : OCpl I P K F) : F :=
  ((d.pks.filter fun k => d.out k = some t).map (Ode.integrate d.dLt d.N d.pks fun k => x (d.inn k))).sum

/-- An ordinary coupling or an integrating one. -/
inductive OElem (I P K F : Type)
  | plain (c : Coupling P K F)
  | ode (d : OCpl I P K F)

def OElem.elem : OElem I P K F → Elem P K F
  | .plain c => .plain c
  | .ode d => .float (expMat d.moved d.o d.st)

def OElem.into (x : P × K → F) (t : P × K) : OElem I P K F → F
  | .plain c => c.into x t
  | .ode d => d.into x t

theorem sum_dict {V : Type} {d : Dict (P × K) V} (h : Dict.WF d) (f : V → F) (t : P × K) :
    (d.map fun s => if s.1 = t then f s.2 else 0).sum = ((Dict.get? d t).map f).getD 0 := by
  induction d with
  | nil => rfl
  | cons s d ih =>
    obtain ⟨k, v⟩ := s
    obtain ⟨h1, h2⟩ := List.nodup_cons.1 (show (k :: Dict.keys d).Nodup from h)
    rw [List.map_cons, List.sum_cons, ih h2, Dict.get?_cons]
    by_cases hk : k = t
    · subst hk
      rw [if_pos rfl, if_pos rfl, (Dict.get?_eq_none_iff _ _).2 h1]
      simp
    · rw [if_neg hk, if_neg hk, zero_add]

theorem foldl_set {V : Type} (g : P × K → V) (l : List (P × K)) (d : Dict (P × K) V) (hd : Dict.WF d) :
    Dict.WF (l.foldl (fun d q => Dict.set d q (g q)) d) ∧
      ∀ t, Dict.get? (l.foldl (fun d q => Dict.set d q (g q)) d) t = if t ∈ l then some (g t) else Dict.get? d t := by
  induction l generalizing d with
  | nil => exact ⟨hd, fun t => by simp⟩
  | cons q l ih =>
    obtain ⟨h1, h2⟩ := ih (Dict.set d q (g q)) (Dict.WF_set hd _ _)
    refine ⟨h1, fun t => ?_⟩
    rw [List.foldl_cons, h2, Dict.get?_set]
    by_cases htl : t ∈ l
    · simp [htl]
    · by_cases htq : q = t
      · subst htq; simp
      · have : t ≠ q := fun h => htq h.symm
        simp [htl, htq, this]

/-- The keys of the block and of the injection, once more. -/
theorem collect_wf {o : Ode.ExpMat I (P × K) F} {x : List F} {M : Dict ℕ (Dict ℕ F)} {r : Dict ((P × K) × (P × K)) F × Dict ℕ F}
    (h : o.collect x M = .ok r) : Dict.WF r.1 := by
  have row : ∀ (i : ℕ) (l : Dict ℕ F) (a a' : Dict ((P × K) × (P × K)) F × Dict ℕ F), l.foldlM (o.row_out x i) a = .ok a' →
      Dict.WF a.1 → Dict.WF a'.1 := by
    intro i l
    induction l with
    | nil => intro a a' h hw; cases foldlM_nil_ok h; exact hw
    | cons e l ih =>
      intro a a' h hw
      obtain ⟨c, hc, hl⟩ := foldlM_cons_ok h
      refine ih c a' hl ?_
      obtain ⟨s, dv⟩ := a
      obtain ⟨j, v⟩ := e
      unfold Ode.ExpMat.row_out at hc
      cases hj : o.pks[j]? with
      | none => simp [hj, bind, Except.bind] at hc
      | some k1 =>
        cases hi : o.pks[i]? with
        | none => simp [hj, hi, bind, Except.bind] at hc
        | some k2 =>
          cases h1 : Dict.get o.in_map k1 with
          | error _ => simp [hj, hi, h1, bind, Except.bind] at hc
          | ok p1 =>
            cases h2 : Dict.get o.out_map k2 with
            | error _ => simp [hj, hi, h1, h2, bind, Except.bind] at hc
            | ok p2 =>
              simp only [hj, hi, h1, h2, bind, Except.bind, pure, Except.pure, Except.ok.injEq] at hc
              rw [← hc]
              cases p2 with
              | none => exact hw
              | some q => exact Dict.WF_set hw _ _
  have all : ∀ (M : Dict ℕ (Dict ℕ F)) (a a' : Dict ((P × K) × (P × K)) F × Dict ℕ F),
      M.foldlM (fun a T => T.2.foldlM (o.row_out x T.1) a) a = .ok a' → Dict.WF a.1 → Dict.WF a'.1 := by
    intro M
    induction M with
    | nil => intro a a' h hw; cases foldlM_nil_ok h; exact hw
    | cons T M ih =>
      intro a a' h hw
      obtain ⟨c, hc, hl⟩ := foldlM_cons_ok h
      exact ih c a' hl (row _ _ _ _ hc hw)
  exact all M _ _ h Dict.WF_nil

/-- What a state made at `sol` is. -/
theorem OCpl.Made.state {d : OCpl I P K F} {sol : SolVec P K F} (h : d.Made sol) :
    ∃ st1, d.o.generate_solution d.moved d.st sol = .ok st1 ∧ Dict.WF st1.solution ∧
      (∀ k' ∈ d.pks, ∀ q, d.out k' = some q →
        st1.emits d.pks d.inn q (Ode.fed sol d.inn) = Ode.integrate d.dLt d.N d.pks (Ode.fed sol d.inn) k') ∧
      (∀ T ∈ Dict.keys st1.solution, ∃ k ∈ d.pks, ∃ k' ∈ d.pks, T.1 = d.inn k ∧ d.out k' = some T.2) ∧
      (∀ q ∈ Dict.keys st1.vals_inj, ∃ k ∈ d.pks, d.out k = some q) := by
  obtain ⟨in_map, out_map, ho, hM⟩ := h.init
  obtain ⟨st0, st1, hmv, hg, hst⟩ := h.fresh
  have hg1 : d.o.generate_solution d.moved d.st sol = .ok st1 := by
    rcases hst with e | e
    · rw [e]; exact hg
    · rw [e]; exact Ode.C97_again h.keyed ho hM d.moved h.same st0 st1 sol hg
  obtain ⟨st2, h2, -, h4, h5, -⟩ := Ode.generate_spec h.keyed ho hM d.moved st0 sol hmv
  obtain ⟨st3, h3, h6⟩ := Ode.generate_emits h.keyed ho hM d.moved st0 sol hmv
  rw [hg] at h2 h3
  injection h2 with h2
  injection h3 with h3
  subst h2 h3
  refine ⟨st1, hg1, ?_, h6, h4, h5⟩
  have hoo : d.o.pks = d.pks ∧ d.o.in_map = in_map ∧ d.o.out_map = out_map := by
    unfold Ode.init at ho
    split_ifs at ho
    injection ho with ho
    rw [← ho]; exact ⟨rfl, rfl, rfl⟩
  have hM' : Ode.Mapped d.o.pks d.o.in_map d.o.out_map d.inn d.out := by rw [hoo.1, hoo.2.1, hoo.2.2]; exact hM
  unfold Ode.ExpMat.generate_solution at hg
  obtain ⟨ins, hins, hg⟩ := bind_ok_inv hg
  rw [Ode.inputs_spec hM'] at hins
  injection hins with hins
  dsimp only at hg
  split_ifs at hg with hall
  · exfalso
    obtain ⟨k, hk, hmk⟩ := hmv
    rw [List.all_eq_true] at hall
    have := hall (d.inn k, (Dict.get? sol (d.inn k)).getD 0) (by rw [← hins, hoo.1]; exact List.mem_map.2 ⟨k, hk, rfl⟩)
    unfold Ode.fed at hmk
    rw [hmk] at this
    cases this
  · obtain ⟨⟨s, dv⟩, hs, hg⟩ := bind_ok_inv hg
    dsimp only at hg
    obtain ⟨vi, hvi, hg⟩ := bind_ok_inv hg
    injection hg with hg
    rw [← hg]
    exact collect_wf hs

/-! ## what the coupling adds -/

theorem blockSum_keys {b : Dict ((P × K) × (P × K)) F} (hb : Dict.WF b) {pks : List I} (hnd : pks.Nodup) {inn : I → P × K}
    (hinj : ∀ k ∈ pks, ∀ k' ∈ pks, inn k = inn k' → k = k') {t : P × K}
    (hk : ∀ e ∈ b, e.1.2 = t → ∃ k ∈ pks, e.1.1 = inn k) (x : P × K → F) :
    blockSum b x t = (pks.map fun k => (Dict.get? b (inn k, t)).getD 0 * x (inn k)).sum := by
  unfold blockSum
  induction b with
  | nil => simp [Dict.get?]
  | cons s b ih =>
    obtain ⟨e, v⟩ := s
    obtain ⟨h1, h2⟩ := List.nodup_cons.1 (show (e :: Dict.keys b).Nodup from hb)
    rw [List.map_cons, List.sum_cons, ih h2 fun e he => hk e (List.mem_cons_of_mem _ he)]
    have hsplit : ∀ k, (Dict.get? ((e, v) :: b) (inn k, t)).getD 0 * x (inn k)
        = (if e = (inn k, t) then v * x (inn k) else 0) + (Dict.get? b (inn k, t)).getD 0 * x (inn k) := by
      intro k
      rw [Dict.get?_cons]
      split_ifs with h
      · rw [← h, (Dict.get?_eq_none_iff _ _).2 h1]; simp
      · rw [zero_add]
    simp_rw [hsplit]
    rw [List.sum_map_add]
    congr 1
    have hone : ∀ l : List I, l.Nodup → (∀ k ∈ l, k ∈ pks) →
        (l.map fun k => if e = (inn k, t) then v * x (inn k) else 0).sum
          = if e.2 = t ∧ ∃ k ∈ l, e.1 = inn k then v * x e.1 else 0 := by
      intro l
      induction l with
      | nil => simp
      | cons k l ihl =>
        intro hl hlp
        obtain ⟨g1, g2⟩ := List.nodup_cons.1 hl
        rw [List.map_cons, List.sum_cons, ihl g2 fun k hk => hlp k (List.mem_cons_of_mem _ hk)]
        by_cases he : e = (inn k, t)
        · rw [if_pos he, if_neg, if_pos, add_zero, he]
          · exact ⟨by rw [he], k, List.mem_cons_self, by rw [he]⟩
          · rintro ⟨-, k', hk', h⟩
            rw [he] at h
            exact g1 (hinj k (hlp k List.mem_cons_self) k' (hlp k' (List.mem_cons_of_mem _ hk')) h ▸ hk')
        · rw [if_neg he, zero_add]
          congr 1
          apply propext
          constructor
          · rintro ⟨h, k', hk', h'⟩
            exact ⟨h, k', List.mem_cons_of_mem _ hk', h'⟩
          · rintro ⟨h, k', hk', h'⟩
            rcases List.mem_cons.1 hk' with rfl | hk'
            · exact absurd (Prod.ext h' h) he
            · exact ⟨h, k', hk', h'⟩
    rw [hone pks hnd fun _ h => h]
    by_cases het : e.2 = t
    · rw [if_pos het, if_pos ⟨het, hk _ List.mem_cons_self het⟩]
    · rw [if_neg het, if_neg fun h => het h.1]

/-- A coupling whose state was made at `sol` adds at every node where the integration ends, if `sol` holds the fields at its
inputs. -/
theorem expMat_into {d : OCpl I P K F} {sol : SolVec P K F} (h : d.Made sol) {x : P × K → F}
    (hx : ∀ k ∈ d.pks, getd sol (d.inn k) 0 = x (d.inn k)) (t : P × K) :
    (expMat d.moved d.o d.st).into sol x t = d.into x t := by
  obtain ⟨st1, hg, hwf, hem, hks, hki⟩ := h.state
  obtain ⟨in_map, out_map, ho, hM⟩ := h.init
  have hoo : d.o.pks = d.pks ∧ d.o.in_map = in_map ∧ d.o.out_map = out_map := by
    unfold Ode.init at ho
    split_ifs at ho
    injection ho with ho
    rw [← ho]; exact ⟨rfl, rfl, rfl⟩
  have hsrc : ((expMat d.moved d.o d.st).sources.map fun s => if s.1 = t then evalD sol s.2 else 0).sum = st1.inj t := by
    obtain ⟨w1, w2⟩ := foldl_set (fun q => (fun sol => do
      let st' ← d.o.generate_solution d.moved d.st sol
      pure ((Dict.get? st'.vals_inj q).getD 0) : Func P K F)) (d.o.out_map.filterMap Prod.snd) [] Dict.WF_nil
    unfold expMat
    dsimp only
    rw [sum_dict w1, w2]
    unfold Ode.State.inj
    split_ifs with ht
    · simp [evalD, hg, bind, Except.bind, pure, Except.pure]
    · have : Dict.get? st1.vals_inj t = none := by
        rw [Dict.get?_eq_none_iff]
        intro hh
        obtain ⟨k, hk, hq⟩ := hki t hh
        apply ht
        rw [hoo.2.2]
        exact List.mem_filterMap.2 ⟨(k, some t), Dict.mem_of_get? (by rw [hM.get_out k hk, hq]), rfl⟩
      rw [this]
      simp [Dict.get?]
  have hblk : ((expMat d.moved d.o d.st).pairs.map (Pair.sum sol x t)).sum
      = (d.pks.map fun k => st1.edge (d.inn k) t * x (d.inn k)).sum := by
    have : ((expMat d.moved d.o d.st).pairs.map (Pair.sum sol x t)).sum = blockSum st1.solution x t := by
      unfold expMat Pair.sum
      simp [hg, bind, Except.bind, pure, Except.pure]
    rw [this]
    refine blockSum_keys hwf h.keyed.nodup hM.inn_inj ?_ x
    intro e he _
    obtain ⟨k, hk, -, -, h1, -⟩ := hks e.1 (List.mem_map.2 ⟨e, he, rfl⟩)
    exact ⟨k, hk, h1⟩
  unfold FCpl.into
  rw [hsrc, hblk]
  have hfed : ∀ k ∈ d.pks, Ode.fed sol d.inn k = x (d.inn k) := fun k hk => hx k hk
  unfold OCpl.into
  by_cases ht : ∃ k' ∈ d.pks, d.out k' = some t
  · obtain ⟨k', hk', hq⟩ := ht
    have hl : (d.pks.filter fun k => d.out k = some t) = [k'] := by
      have hnd := h.keyed.nodup.filter (fun k => decide (d.out k = some t))
      have h1 : k' ∈ d.pks.filter fun k => d.out k = some t := List.mem_filter.2 ⟨hk', by simpa using hq⟩
      have h2 : ∀ k ∈ d.pks.filter (fun k => decide (d.out k = some t)), k = k' := by
        intro k hk
        obtain ⟨g1, g2⟩ := List.mem_filter.1 hk
        exact hM.out_inj k g1 k' hk' t (by simpa using g2) hq
      revert hnd h1 h2
      generalize (d.pks.filter fun k => decide (d.out k = some t)) = l
      intro hnd h1 h2
      cases l with
      | nil => cases h1
      | cons a l =>
        cases l with
        | nil => rw [h2 a List.mem_cons_self]
        | cons b l =>
          exfalso
          have e1 := h2 a List.mem_cons_self
          have e2 := h2 b (List.mem_cons_of_mem _ List.mem_cons_self)
          rw [e1, e2] at hnd
          simp at hnd
    rw [hl, List.map_cons, List.map_nil, List.sum_cons, List.sum_nil, add_zero]
    have hc := (Ode.integrate2_congr h.keyed d.N (p := (Ode.fed sol d.inn, fun _ => 0)) (p' := (fun k => x (d.inn k), fun _ => 0))
      (fun k hk => ⟨hfed k hk, rfl⟩) k' hk').1
    rw [Ode.integrate2_fst, Ode.integrate2_fst] at hc
    rw [← hc, ← hem k' hk' t hq]
    unfold Ode.State.emits
    congr 2
    refine List.map_congr_left fun k hk => ?_
    rw [hfed k hk]
  · have hl : (d.pks.filter fun k => d.out k = some t) = [] := by
      rw [List.filter_eq_nil_iff]
      intro k hk hq
      exact ht ⟨k, hk, by simpa using hq⟩
    rw [hl, List.map_nil, List.sum_nil]
    have h1 : st1.inj t = 0 := by
      unfold Ode.State.inj
      rw [(Dict.get?_eq_none_iff _ _).2 fun hh => ht (hki t hh)]
      rfl
    have h2 : ∀ k, st1.edge (d.inn k) t = 0 := by
      intro k
      unfold Ode.State.edge
      rw [(Dict.get?_eq_none_iff _ _).2 ?_]
      · rfl
      · intro hh
        obtain ⟨-, -, k', hk', -, hq⟩ := hks _ hh
        exact ht ⟨k', hk', hq⟩
    rw [h1, add_zero]
    simp [h2]

/-! ## the converged system -/

/-- The pair of an integrating coupling. -/
def OElem.pair : OElem I P K F → Option (Pair P K F)
  | .plain _ => none
  | .ode d => (expMat d.moved d.o d.st).pairs.head?

theorem all_pairs_ode (es : List (OElem I P K F)) : all_pairs ((es.map OElem.elem).map Elem.finj) = es.filterMap OElem.pair := by
  rw [all_pairs_elems]
  induction es with
  | nil => rfl
  | cons e es ih =>
    rw [List.map_cons, List.flatMap_cons, ih]
    cases e with
    | plain c => rfl
    | ode d => rfl

theorem pair_func {d : OCpl I P K F} {p : Pair P K F} (h : (OElem.ode d).pair = some p) {sol : SolVec P K F} (hd : d.Made sol)
    {b : Dict ((P × K) × (P × K)) F} (hb : p.func sol = .ok b) :
    Dict.WF b ∧ ∀ e ∈ b, ∃ k ∈ d.pks, ∃ k' ∈ d.pks, e.1.1 = d.inn k ∧ d.out k' = some e.1.2 := by
  obtain ⟨st1, hg, hwf, -, hks, -⟩ := hd.state
  cases h
  dsimp only at hb
  rw [hg] at hb
  injection hb with hb
  subst hb
  exact ⟨hwf, fun e he => hks e.1 (List.mem_map.2 ⟨e, he, rfl⟩)⟩

variable [Fintype P] [Fintype K]

/-- **C112.**  Ordinary and integrating couplings.  If `_perturbation_iterate` returns its own argument and the states of the
integrating couplings were made at it, the readouts hold fields that solve the nonlinear system: at every readout, at every
node the couplings read and at every node upstream of these the field is the sum of the fields bonded to it, of what every
ordinary coupling stands for, and of what every integration of the fields at the inputs of an integrating coupling ends at
there.  The integrating couplings must not share an output, and nothing else may lead from one of their inputs to one of
their outputs. -/
theorem C112_integrated {es : List (OElem I P K F)} {ports : Dict P (List K)} {m : Algo P K F}
    (hm : insert_all ports (es.map fun e => e.elem.finj.inj) = .ok m) {ps : List (Pair P K F)}
    (hps : ps = all_pairs (es.map fun e => e.elem.finj))
    {pick pick' : List (Node P K ps.length) → Node P K ps.length}
    (hpick : ∀ l, l ≠ [] → pick l ∈ l) (hpick' : ∀ l, l ≠ [] → pick' l ∈ l)
    {fuel : ℕ} {bonds : SR (P × K)} (hbw : bonds.WF) (hbal : ∀ a b, mem bonds.seq a b ↔ mem bonds.req b a)
    {c : Csgb P K ps.length}
    (hst : coherent_sparsity_graph ps (all_reqs (es.map fun e => e.elem.finj)) pick pick' fuel bonds m = .ok (some c))
    {o o' : Graph.Opts (P × K) F} (ho : ∀ l, l ≠ [] → o.pick l ∈ l) (ho' : ∀ l, l ≠ [] → o'.pick l ∈ l)
    (hneg : o.negative = false) (hneg' : o'.negative = false) {sol sol' : SolVec P K F}
    (hit : perturbation_iterate o m ps bonds.seq c sol = .ok sol')
    (hfix : ∀ n, Dict.get? sol' n = Dict.get? sol n)
    {outs : List (P × K)} {r : SolVec P K F} (hread : driven_solution_get o' m ps bonds.seq c outs sol = .ok r)
    (hmade : ∀ d, OElem.ode d ∈ es → d.Made sol)
    (hdis : es.Pairwise fun e e' => ∀ d d', e = .ode d → e' = .ode d' → ∀ k ∈ d.pks, ∀ k' ∈ d'.pks, ∀ q,
      d.out k = some q → d'.out k' ≠ some q)
    (hfree : ∀ d, OElem.ode d ∈ es → ∀ k ∈ d.pks, ∀ k' ∈ d.pks, ∀ q, d.out k' = some q →
      ¬ mem bonds.seq (d.inn k) q ∧ ∀ d', OElem.plain d' ∈ es → ∀ f, ((d.inn k, q), f) ∉ d'.inj.edges)
    (hnorm : ∀ d, OElem.plain d ∈ es → (∃ p ∈ d.factors, Live bonds (es.map fun e => e.elem.finj.inj) ps p) →
      ∀ n ∈ d.norms, (Dict.get? sol n).isSome)
    (hn : ∀ d, OElem.plain d ∈ es → d.Normed (fun z => getd sol z 0))
    (hu : ∀ d, OElem.plain d ∈ es → d.Unshifted (fun z => getd sol z 0)) :
    ∃ x : P × K → F,
      (∀ n, Dict.get? r n = if n ∈ outs then some (x n) else none) ∧
      (∀ n, ¬ Live bonds (es.map fun e => e.elem.finj.inj) ps n → x n = 0) ∧
      (∀ d, OElem.ode d ∈ es → ∀ k ∈ d.pks, d.inn k ∈ c.outs) ∧
      ∃ g, edge_matrix_generate m ps bonds.seq (lower c.full.seq) (lower c.full.req) sol = .ok g ∧
        ∀ t, Graph.Seen ⟨g.seq, g.req, g.mat⟩ (outs ++ c.outs) t →
          x t = (∑ a, if mem bonds.seq a t then x a else 0) + (es.map (OElem.into x t)).sum := by
  have e1 : (es.map fun e => e.elem.finj.inj) = (es.map OElem.elem).map fun e => e.finj.inj := by rw [List.map_map]; rfl
  have e2 : (es.map fun e => e.elem.finj) = (es.map OElem.elem).map Elem.finj := by rw [List.map_map]; rfl
  rw [e1] at hm hnorm ⊢
  rw [e2] at hps hst
  have hpl : ∀ d, Elem.plain d ∈ es.map OElem.elem → OElem.plain d ∈ es := by
    intro d hd
    obtain ⟨e, he, h⟩ := List.mem_map.1 hd
    cases e with
    | plain c => cases h; exact he
    | ode c => cases h
  have ha := analysed hm hpick hpick' hbw hbal hst
  have hreq : ∀ d, OElem.ode d ∈ es → ∀ k ∈ d.pks, d.inn k ∈ all_reqs ((es.map OElem.elem).map Elem.finj) := by
    intro d hd k hk
    obtain ⟨in_map, out_map, hin, hM⟩ := (hmade d hd).init
    have hoo : d.o.in_map = in_map := by
      unfold Ode.init at hin
      split_ifs at hin
      injection hin with hin
      rw [← hin]
    unfold all_reqs
    rw [List.mem_flatten]
    refine ⟨d.o.in_map.map Prod.snd, List.mem_filterMap.2 ⟨(OElem.ode d).elem.finj, ?_, rfl⟩, ?_⟩
    · rw [List.map_map]
      exact List.mem_map.2 ⟨_, hd, rfl⟩
    · rw [hoo]
      exact List.mem_map.2 ⟨(k, d.inn k), Dict.mem_of_get? (hM.get_inn k hk), rfl⟩
  have hsep : Separate sol ps (lower c.full.seq) := by
    have hps' := hps.trans (all_pairs_ode es)
    apply separate_of
    · rw [hps', List.pairwise_filterMap]
      refine hdis.imp_of_mem fun {e e'} he he' hh p hp p' hp' b b' hb hb' T hT T' hT' hTT => ?_
      cases e with
      | plain _ => cases hp
      | ode d =>
        cases e' with
        | plain _ => cases hp'
        | ode d' =>
          obtain ⟨-, -, k, hk, -, hq⟩ := (pair_func hp (hmade d he) hb).2 T hT
          obtain ⟨-, -, k', hk', -, hq'⟩ := (pair_func hp' (hmade d' he') hb').2 T' hT'
          rw [← hTT] at hq'
          exact hh d d' rfl rfl k hk k' hk' _ hq hq'
    · intro p hp b hb
      rw [hps'] at hp
      obtain ⟨e, he, hp⟩ := List.mem_filterMap.1 hp
      cases e with
      | plain _ => cases hp
      | ode d =>
        obtain ⟨hwf, hks⟩ := pair_func hp (hmade d he) hb
        refine ⟨hwf, fun T hT hmem => ?_⟩
        obtain ⟨k, hk, k', hk', h1, hq⟩ := hks T hT
        obtain ⟨f1, f2⟩ := hfree d he k hk k' hk' _ hq
        rw [← h1] at f1 f2
        rcases (ha.seq _ _).1 hmem with h | ⟨i, hi, f, r, hf, -, -⟩
        · exact f1 h
        · rw [List.map_map] at hi
          obtain ⟨e', he', rfl⟩ := List.mem_map.1 hi
          cases e' with
          | plain d' => exact f2 d' he' f hf
          | ode d' => cases hf
  obtain ⟨x, h1, h2, h3, h4, g, hg, h5⟩ := C111_converged hm hps hpick hpick' hbw hbal hst ho ho' hneg hneg' hit hfix hread hsep
    (fun d hd => hnorm d (hpl d hd)) (fun d hd => hn d (hpl d hd)) (fun d hd => hu d (hpl d hd))
  refine ⟨x, h1, h4, fun d hd k hk => h3 _ (hreq d hd k hk), g, hg, fun t ht => ?_⟩
  rw [h5 t ht, List.map_map]
  congr 2
  refine List.map_congr_left fun e he => ?_
  cases e with
  | plain d => rfl
  | ode d => exact expMat_into (hmade d he) (fun k hk => h2 _ (h3 _ (hreq d he k hk))) t

/-- **C112.**  The pairs an integrating coupling declares are kept: the block it returns only has edges from one of the declared
inputs to one of the declared outputs, so that building the matrix never stops at the assertion (`insert_into_matrix`), and every
source function returns a number. -/
theorem C112_declared {d : OCpl I P K F} {sol : SolVec P K F} (h : d.Made sol) :
    (∀ p ∈ (expMat d.moved d.o d.st).pairs, ∃ b, p.func sol = .ok b ∧ ∀ e ∈ b, e.1.1 ∈ p.ins ∧ e.1.2 ∈ p.outs) ∧
    ∀ T ∈ (expMat d.moved d.o d.st).sources, ∃ v, T.2 sol = .ok v := by
  obtain ⟨st1, hg, hwf, hem, hks, hki⟩ := h.state
  obtain ⟨in_map, out_map, ho, hM⟩ := h.init
  have hoo : d.o.pks = d.pks ∧ d.o.in_map = in_map ∧ d.o.out_map = out_map := by
    unfold Ode.init at ho
    split_ifs at ho
    injection ho with ho
    rw [← ho]; exact ⟨rfl, rfl, rfl⟩
  refine ⟨fun p hp => ?_, fun T hT => ?_⟩
  · obtain rfl := List.mem_singleton.1 hp
    refine ⟨st1.solution, by simp [hg, bind, Except.bind, pure, Except.pure], fun e he => ?_⟩
    obtain ⟨k, hk, k', hk', h1, h2⟩ := hks e.1 (List.mem_map.2 ⟨e, he, rfl⟩)
    constructor
    · dsimp only
      rw [hoo.2.1, h1]
      exact List.mem_map.2 ⟨(k, d.inn k), Dict.mem_of_get? (hM.get_inn k hk), rfl⟩
    · dsimp only
      rw [hoo.2.2]
      exact List.mem_filterMap.2 ⟨(k', some e.1.2), Dict.mem_of_get? (by rw [hM.get_out k' hk', h2]), rfl⟩
  · obtain ⟨w1, w2⟩ := foldl_set (fun q => (fun sol => do
      let st' ← d.o.generate_solution d.moved d.st sol
      pure ((Dict.get? st'.vals_inj q).getD 0) : Func P K F)) (d.o.out_map.filterMap Prod.snd) [] Dict.WF_nil
    have hget := Dict.get?_of_mem w1 (k := T.1) (v := T.2) hT
    rw [w2] at hget
    split_ifs at hget with hq
    · rw [← Option.some.inj hget]
      exact ⟨(Dict.get? st1.vals_inj T.1).getD 0, by simp [hg, bind, Except.bind, pure, Except.pure]⟩
    · cases hget

end Floating
