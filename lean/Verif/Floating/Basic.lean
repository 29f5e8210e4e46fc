import Verif.Floating.Model
import Verif.Inject.IterateProps

/-!
# The matrix with floating couplings
-/

set_option linter.unusedSectionVars false

namespace Floating
open Py Inject

variable {P K F : Type} [DecidableEq P] [DecidableEq K] [Field F] [DecidableEq F]

/-- The blocks of the pairs, one after the other. -/
def Blocks (sol : SolVec P K F) (ps : List (Pair P K F)) (bs : List (Dict ((P × K) × (P × K)) F)) : Prop :=
  List.Forall₂ (fun p b => p.func sol = .ok b) ps bs

/-- The last value of an edge in a list of entries, without the zeros. -/
def last_nz (l : List (((P × K) × (P × K)) × F)) (e : (P × K) × (P × K)) : Option F :=
  l.foldl (fun r kv => if kv.1 = e ∧ kv.2 ≠ 0 then some kv.2 else r) none

theorem last_from (l : List (((P × K) × (P × K)) × F)) (e : (P × K) × (P × K)) (r : Option F) :
    l.foldl (fun r kv => if kv.1 = e ∧ kv.2 ≠ 0 then some kv.2 else r) r = (last_nz l e).or r := by
  unfold last_nz
  induction l generalizing r with
  | nil => rfl
  | cons kv l ih =>
    rw [List.foldl_cons, List.foldl_cons, ih, ih (if kv.1 = e ∧ kv.2 ≠ 0 then some kv.2 else none)]
    split_ifs
    · cases l.foldl (fun r kv => if kv.1 = e ∧ kv.2 ≠ 0 then some kv.2 else r) none <;> rfl
    · cases l.foldl (fun r kv => if kv.1 = e ∧ kv.2 ≠ 0 then some kv.2 else r) none <;> rfl

theorem last_append (l l' : List (((P × K) × (P × K)) × F)) (e : (P × K) × (P × K)) :
    last_nz (l ++ l') e = (last_nz l' e).or (last_nz l e) := by
  unfold last_nz
  rw [List.foldl_append, last_from]
  rfl

theorem last_cons (kv : ((P × K) × (P × K)) × F) (l : List (((P × K) × (P × K)) × F)) (e : (P × K) × (P × K)) :
    last_nz (kv :: l) e = (last_nz l e).or (if kv.1 = e ∧ kv.2 ≠ 0 then some kv.2 else none) := by
  unfold last_nz
  rw [List.foldl_cons, last_from]
  rfl

theorem last_isSome (l : List (((P × K) × (P × K)) × F)) (e : (P × K) × (P × K)) :
    (last_nz l e).isSome ↔ ∃ v, (e, v) ∈ l ∧ v ≠ 0 := by
  induction l with
  | nil => simp [last_nz]
  | cons kv l ih =>
    rw [last_cons, Option.isSome_or, Bool.or_eq_true, ih]
    obtain ⟨k, w⟩ := kv
    constructor
    · rintro (⟨v, h, h'⟩ | h)
      · exact ⟨v, List.mem_cons_of_mem _ h, h'⟩
      · split_ifs at h with hc
        · exact ⟨w, by rw [← hc.1]; exact List.mem_cons_self, hc.2⟩
        · cases h
    · rintro ⟨v, h, h'⟩
      rcases List.mem_cons.1 h with h | h
      · right
        injection h with h1 h2
        subst h1 h2
        rw [if_pos ⟨rfl, h'⟩]
        rfl
      · exact Or.inl ⟨v, h, h'⟩

theorem last_mem {l : List (((P × K) × (P × K)) × F)} {e : (P × K) × (P × K)} {v : F} (h : last_nz l e = some v) :
    (e, v) ∈ l ∧ v ≠ 0 := by
  induction l with
  | nil => simp [last_nz] at h
  | cons kv l ih =>
    rw [last_cons, Option.or_eq_some_iff] at h
    rcases h with h | ⟨-, h⟩
    · exact ⟨List.mem_cons_of_mem _ (ih h).1, (ih h).2⟩
    · split_ifs at h with hc
      injection h with h
      obtain ⟨k, w⟩ := kv
      obtain ⟨h1, h2⟩ := hc
      dsimp only at h h1 h2
      subst h h1
      exact ⟨List.mem_cons_self, h2⟩

/-- What a number of entries leaves. -/
structure Wrote (l : List (((P × K) × (P × K)) × F)) (g g' : Gen P K F) : Prop where
  mat : ∀ e, Dict.get? g'.mat e = (last_nz l e).or (Dict.get? g.mat e)
  seq : ∀ a b, mem g'.seq a b ↔ mem g.seq a b ∨ ∃ v, ((a, b), v) ∈ l ∧ v ≠ 0
  req : ∀ a b, mem g'.req b a ↔ mem g.req b a ∨ ∃ v, ((a, b), v) ∈ l ∧ v ≠ 0
  wfm : Dict.WF g.mat → Dict.WF g'.mat
  wf : SR.WF ⟨g.seq, g.req⟩ → SR.WF ⟨g'.seq, g'.req⟩

theorem Wrote.refl (g : Gen P K F) : Wrote [] g g := by
  constructor <;> simp [last_nz]

theorem Wrote.trans {l l' : List (((P × K) × (P × K)) × F)} {g g' g'' : Gen P K F} (h : Wrote l g g')
    (h' : Wrote l' g' g'') : Wrote (l ++ l') g g'' := by
  refine ⟨fun e => ?_, fun a b => ?_, fun a b => ?_, fun hw => h'.wfm (h.wfm hw), fun hw => h'.wf (h.wf hw)⟩
  · rw [h'.mat, h.mat, last_append, Option.or_assoc]
  · rw [h'.seq, h.seq, or_assoc]
    apply or_congr_right
    simp only [List.mem_append, or_and_right, exists_or]
  · rw [h'.req, h.req, or_assoc]
    apply or_congr_right
    simp only [List.mem_append, or_and_right, exists_or]

theorem float_edge_spec (p : Pair P K F) {g g' : Gen P K F} {e : ((P × K) × (P × K)) × F}
    (h : float_edge p g e = .ok g') : (e.1.1 ∈ p.ins ∧ e.1.2 ∈ p.outs) ∧ Wrote [e] g g' := by
  unfold float_edge at h
  by_cases h1 : e.1.1 ∈ p.ins
  · by_cases h2 : e.1.2 ∈ p.outs
    · rw [if_pos h1, if_pos h2] at h
      refine ⟨⟨h1, h2⟩, ?_⟩
      obtain ⟨⟨a, b⟩, v⟩ := e
      dsimp only at h
      by_cases h3 : v ≠ 0
      · rw [if_pos h3] at h
        injection h with h
        subst h
        refine ⟨fun e => ?_, fun c d => ?_, fun c d => ?_, fun hw => Dict.WF_set hw _ _, fun hw => SR.WF_add hw _ _⟩
        · dsimp only
          rw [Dict.get?_set, last_cons]
          by_cases he : (a, b) = e
          · rw [if_pos he, if_pos ⟨he, h3⟩]; rfl
          · rw [if_neg he, if_neg (fun h => he h.1)]; rfl
        · refine (lst_add_seq (⟨g.seq, g.req⟩ : SR (P × K)) a b c d).trans (or_congr Iff.rfl ?_)
          constructor
          · rintro ⟨rfl, rfl⟩
            exact ⟨v, by simp, h3⟩
          · rintro ⟨w, hw, -⟩
            rw [List.mem_singleton] at hw
            injection hw with hw
            injection hw with h1 h2
            exact ⟨h1, h2⟩
        · refine (lst_add_req (⟨g.seq, g.req⟩ : SR (P × K)) a b d c).trans (or_congr Iff.rfl ?_)
          constructor
          · rintro ⟨rfl, rfl⟩
            exact ⟨v, by simp, h3⟩
          · rintro ⟨w, hw, -⟩
            rw [List.mem_singleton] at hw
            injection hw with hw
            injection hw with h1 h2
            exact ⟨h2, h1⟩
      · rw [if_neg h3] at h
        injection h with h
        subst h
        have h0 : v = 0 := not_not.1 h3
        refine ⟨fun e => ?_, fun c d => ?_, fun c d => ?_, id, id⟩
        · rw [last_cons, if_neg (fun h => h3 h.2)]; rfl
        · simp [h0]
        · simp [h0]
    · rw [if_pos h1, if_neg h2] at h; cases h
  · rw [if_neg h1] at h; cases h

theorem float_block_spec (p : Pair P K F) (b : List (((P × K) × (P × K)) × F)) {g g' : Gen P K F}
    (h : b.foldlM (float_edge p) g = .ok g') : (∀ e ∈ b, e.1.1 ∈ p.ins ∧ e.1.2 ∈ p.outs) ∧ Wrote b g g' := by
  induction b generalizing g with
  | nil =>
    cases foldlM_nil_ok h
    exact ⟨by simp, Wrote.refl _⟩
  | cons e b ih =>
    obtain ⟨g1, h1, h2⟩ := foldlM_cons_ok h
    obtain ⟨k1, k2⟩ := float_edge_spec p h1
    obtain ⟨k3, k4⟩ := ih h2
    refine ⟨?_, k2.trans k4⟩
    intro e' he'
    rcases List.mem_cons.1 he' with rfl | he'
    · exact k1
    · exact k3 e' he'

theorem float_pairs_spec (sol : SolVec P K F) (ps : List (Pair P K F)) {g g' : Gen P K F}
    (h : ps.foldlM (float_pair sol) g = .ok g') : ∃ bs, Blocks sol ps bs ∧
      (∀ e v, (e, v) ∈ bs.flatten → ∃ p ∈ ps, ∃ b, p.func sol = .ok b ∧ (e, v) ∈ b ∧ e.1 ∈ p.ins ∧ e.2 ∈ p.outs) ∧
      Wrote bs.flatten g g' := by
  induction ps generalizing g with
  | nil =>
    cases foldlM_nil_ok h
    exact ⟨[], .nil, by simp, Wrote.refl _⟩
  | cons p ps ih =>
    obtain ⟨g1, h1, h2⟩ := foldlM_cons_ok h
    unfold float_pair at h1
    obtain ⟨b, hb, h1⟩ := bind_ok_inv h1
    obtain ⟨k1, k2⟩ := float_block_spec p b h1
    obtain ⟨bs, k3, k4, k5⟩ := ih h2
    refine ⟨b :: bs, .cons hb k3, ?_, ?_⟩
    · intro e v he
      rw [List.flatten_cons, List.mem_append] at he
      rcases he with he | he
      · exact ⟨p, List.mem_cons_self, b, hb, he, (k1 _ he).1, (k1 _ he).2⟩
      · obtain ⟨q, hq, r⟩ := k4 e v he
        exact ⟨q, List.mem_cons_of_mem _ hq, r⟩
    · rw [List.flatten_cons]
      exact k2.trans k5

/-- The whole generation: what the ordinary couplings leave and what the blocks write over it. -/
theorem generate_spec {m : Algo P K F} {ps : List (Pair P K F)} {bonds seq req : SetDict P K} {sol : SolVec P K F}
    {g : Gen P K F} (h : edge_matrix_generate m ps bonds seq req sol = .ok g) :
    ∃ g0 bs, Inject.edge_matrix_generate m bonds seq req sol = .ok g0 ∧ Blocks sol ps bs ∧
      (∀ e v, (e, v) ∈ bs.flatten → ∃ p ∈ ps, ∃ b, p.func sol = .ok b ∧ (e, v) ∈ b ∧ e.1 ∈ p.ins ∧ e.2 ∈ p.outs) ∧
      Wrote bs.flatten g0 g := by
  unfold edge_matrix_generate at h
  obtain ⟨g0, h0, h⟩ := bind_ok_inv h
  obtain ⟨bs, h1, h2, h3⟩ := float_pairs_spec sol ps h
  exact ⟨g0, bs, h0, h1, h2, h3⟩

theorem blocks_unique {sol : SolVec P K F} {ps : List (Pair P K F)} {bs bs' : List (Dict ((P × K) × (P × K)) F)}
    (h : Blocks sol ps bs) (h' : Blocks sol ps bs') : bs = bs' := by
  unfold Blocks at h h'
  induction h generalizing bs' with
  | nil => cases h'; rfl
  | cons h1 _ ih =>
    cases h' with
    | cons h2 h3 =>
      rw [h1] at h2
      injection h2 with h2
      rw [h2, ih h3]

/-- The generation succeeds when the ordinary one does, the functions have values and the blocks stay between the inputs
and the outputs of their pairs. -/
theorem generate_total {m : Algo P K F} {ps : List (Pair P K F)} {bonds seq req : SetDict P K} {sol : SolVec P K F}
    {g0 : Gen P K F} (h0 : Inject.edge_matrix_generate m bonds seq req sol = .ok g0)
    (hp : ∀ p ∈ ps, ∃ b, p.func sol = .ok b ∧ ∀ e ∈ b, e.1.1 ∈ p.ins ∧ e.1.2 ∈ p.outs) :
    ∃ g, edge_matrix_generate m ps bonds seq req sol = .ok g := by
  have hblock : ∀ (p : Pair P K F) (b : List (((P × K) × (P × K)) × F)),
      (∀ e ∈ b, e.1.1 ∈ p.ins ∧ e.1.2 ∈ p.outs) → ∀ g, ∃ g', b.foldlM (float_edge p) g = .ok g' := by
    intro p b
    induction b with
    | nil => exact fun _ g => ⟨g, rfl⟩
    | cons e b ih =>
      intro hb g
      obtain ⟨h1, h2⟩ := hb e List.mem_cons_self
      obtain ⟨g1, hg1⟩ : ∃ g1, float_edge p g e = .ok g1 := by
        unfold float_edge
        rw [if_pos h1, if_pos h2]
        split_ifs
        · exact ⟨_, rfl⟩
        · exact ⟨_, rfl⟩
      obtain ⟨g2, hg2⟩ := ih (fun e he => hb e (List.mem_cons_of_mem _ he)) g1
      exact ⟨g2, by rw [List.foldlM_cons, hg1]; exact hg2⟩
  have hpairs : ∀ (ps : List (Pair P K F)), (∀ p ∈ ps, ∃ b, p.func sol = .ok b ∧ ∀ e ∈ b, e.1.1 ∈ p.ins ∧ e.1.2 ∈ p.outs) →
      ∀ g, ∃ g', ps.foldlM (float_pair sol) g = .ok g' := by
    intro ps
    induction ps with
    | nil => exact fun _ g => ⟨g, rfl⟩
    | cons p ps ih =>
      intro hp g
      obtain ⟨b, hb, hin⟩ := hp p List.mem_cons_self
      obtain ⟨g1, hg1⟩ := hblock p b hin g
      obtain ⟨g2, hg2⟩ := ih (fun p hp' => hp p (List.mem_cons_of_mem _ hp')) g1
      refine ⟨g2, ?_⟩
      have h1 : float_pair sol g p = .ok g1 := by
        unfold float_pair
        rw [hb, bind_ok]
        exact hg1
      rw [List.foldlM_cons, h1]
      exact hg2
  obtain ⟨g, hg⟩ := hpairs ps hp g0
  refine ⟨g, ?_⟩
  unfold edge_matrix_generate
  rw [h0, bind_ok]
  exact hg

/-- An entry outside the pair stops the generation. -/
theorem float_outside {p : Pair P K F} {b : List (((P × K) × (P × K)) × F)} {g : Gen P K F}
    (h : ∃ e ∈ b, ¬ (e.1.1 ∈ p.ins ∧ e.1.2 ∈ p.outs)) : b.foldlM (float_edge p) g = .error .assertion := by
  induction b generalizing g with
  | nil => obtain ⟨e, he, -⟩ := h; cases he
  | cons e b ih =>
    by_cases he : e.1.1 ∈ p.ins ∧ e.1.2 ∈ p.outs
    · obtain ⟨g1, hg1⟩ : ∃ g1, float_edge p g e = .ok g1 := by
        unfold float_edge
        rw [if_pos he.1, if_pos he.2]
        split_ifs
        · exact ⟨_, rfl⟩
        · exact ⟨_, rfl⟩
      rw [List.foldlM_cons, hg1]
      refine ih ?_
      obtain ⟨e', h1, h2⟩ := h
      rcases List.mem_cons.1 h1 with rfl | h1
      · exact absurd he h2
      · exact ⟨e', h1, h2⟩
    · have : float_edge p g e = .error .assertion := by
        unfold float_edge
        by_cases h1 : e.1.1 ∈ p.ins
        · rw [if_pos h1, if_neg (fun h2 => he ⟨h1, h2⟩)]
        · rw [if_neg h1]
      rw [List.foldlM_cons, this]
      rfl

/-! ## sums -/

/-- What a list of entries adds at a node. -/
def blockSum (l : List (((P × K) × (P × K)) × F)) (x : P × K → F) (t : P × K) : F :=
  (l.map fun e => if e.1.2 = t then e.2 * x e.1.1 else 0).sum

theorem last_sum [Fintype P] [Fintype K] (l : List (((P × K) × (P × K)) × F)) (x : P × K → F) (t : P × K)
    (hn : ((l.filter (fun e => e.2 ≠ 0)).map Prod.fst).Nodup) :
    ∑ r, (last_nz l (r, t)).getD 0 * x r = blockSum l x t := by
  unfold blockSum
  induction l with
  | nil => simp [last_nz]
  | cons kv l ih =>
    obtain ⟨⟨a, b⟩, v⟩ := kv
    rw [List.map_cons, List.sum_cons]
    dsimp only
    by_cases hv : v ≠ 0
    · rw [List.filter_cons, if_pos (by simpa using hv), List.map_cons, List.nodup_cons] at hn
      rw [← ih hn.2]
      have hno : last_nz l (a, b) = none := by
        rw [← Option.not_isSome_iff_eq_none, last_isSome]
        rintro ⟨w, hw, hw0⟩
        exact hn.1 (List.mem_map.2 ⟨((a, b), w), List.mem_filter.2 ⟨hw, by simpa using hw0⟩, rfl⟩)
      have hsplit : ∀ r, (last_nz (((a, b), v) :: l) (r, t)).getD 0 * x r
          = (if r = a then (if b = t then v * x a else 0) else 0) + (last_nz l (r, t)).getD 0 * x r := by
        intro r
        rw [last_cons]
        by_cases hr : r = a
        · subst hr
          by_cases hb : b = t
          · subst hb
            simp [hno, hv]
          · have : (r, b) ≠ (r, t) := fun hh => hb (Prod.ext_iff.1 hh).2
            simp [this, hb]
        · have : (a, b) ≠ (r, t) := fun hh => hr (Prod.ext_iff.1 hh).1.symm
          simp [this, hr]
      rw [Finset.sum_congr rfl (fun r _ => hsplit r), Finset.sum_add_distrib, Finset.sum_ite_eq' Finset.univ a]
      simp
    · have h0 : v = 0 := not_not.1 hv
      rw [List.filter_cons, if_neg (by simpa using h0)] at hn
      rw [← ih hn]
      have hsplit : ∀ r, last_nz (((a, b), v) :: l) (r, t) = last_nz l (r, t) := by
        intro r
        rw [last_cons, if_neg (fun h => hv h.2), Option.or_none]
      simp only [hsplit]
      simp [h0]

/-- Blocks which meet neither the ordinary edges nor each other add up. -/
theorem blocks_sum [Fintype P] [Fintype K] {l : List (((P × K) × (P × K)) × F)} {g g' : Gen P K F} (x : P × K → F)
    (t : P × K) (hw : Dict.WF g.mat) (h : Wrote l g g')
    (hn : ((l.filter (fun e => e.2 ≠ 0)).map Prod.fst).Nodup)
    (hd : ∀ e ∈ l, e.2 ≠ 0 → Dict.get? g.mat e.1 = none) :
    matSum g'.mat x t = matSum g.mat x t + blockSum l x t := by
  rw [matSum_gain (h.wfm hw) g.seq g.req, matSum_gain hw g.seq g.req, ← last_sum l x t hn, ← Finset.sum_add_distrib]
  refine Finset.sum_congr rfl fun r _ => ?_
  unfold Graph.gain
  dsimp only
  rw [h.mat, ← add_mul]
  congr 1
  cases hl : last_nz l (r, t) with
  | none => simp
  | some v =>
    obtain ⟨h1, h2⟩ := last_mem hl
    rw [hd _ h1 h2]
    simp

end Floating
