import Mathlib.Algebra.BigOperators.Ring.List
import Mathlib.Data.List.Nodup
import Mathlib.Tactic.Ring
import Verif.Inject.Spec

set_option linter.unusedSectionVars false

namespace Inject
open Py

variable {P K F : Type} [DecidableEq P] [DecidableEq K] [Field F] [DecidableEq F]

theorem bind_ok {A B : Type} (a : A) (f : A → Except Err B) : (Except.ok a >>= f) = f a := rfl

theorem foldlM_cons_ok {A B : Type} {f : B → A → Except Err B} {b b' : B} {a : A} {l : List A}
    (h : (a :: l).foldlM f b = .ok b') : ∃ c, f b a = .ok c ∧ l.foldlM f c = .ok b' := by
  rw [List.foldlM_cons] at h
  cases hc : f b a with
  | error e => rw [hc] at h; cases h
  | ok c => rw [hc] at h; exact ⟨c, rfl, h⟩

theorem foldlM_nil_ok {A B : Type} {f : B → A → Except Err B} {b b' : B}
    (h : ([] : List A).foldlM f b = .ok b') : b' = b := by
  rw [List.foldlM_nil] at h
  injection h with h
  exact h.symm

theorem bind_ok_inv {A B : Type} {x : Except Err A} {f : A → Except Err B} {b : B}
    (h : (x >>= f) = .ok b) : ∃ a, x = .ok a ∧ f a = .ok b := by
  cases x with
  | error e => cases h
  | ok a => exact ⟨a, rfl, h⟩

/-! ## sums over dictionaries -/

theorem set_of_not_mem {A B : Type} [DecidableEq A] (d : Dict A B) (a : A) (b : B)
    (h : a ∉ Dict.keys d) : Dict.set d a b = d ++ [(a, b)] := by
  induction d with
  | nil => rfl
  | cons kv d ih =>
    obtain ⟨k, v⟩ := kv
    have h1 : k ≠ a := fun hk => h (by simp [Dict.keys, hk])
    have h2 : a ∉ Dict.keys d := fun hk => h (by
      simp only [Dict.keys, List.map_cons, List.mem_cons]; exact Or.inr hk)
    unfold Dict.set
    rw [if_neg h1, ih h2]
    rfl

theorem set_sum {A B : Type} [DecidableEq A] (d : Dict A B) (a : A) (b : B) (g : A → B → F) :
    ((Dict.set d a b).map (fun kv => g kv.1 kv.2)).sum + ((Dict.get? d a).elim 0 (g a))
      = (d.map (fun kv => g kv.1 kv.2)).sum + g a b := by
  induction d with
  | nil => simp [Dict.set]
  | cons kv d ih =>
    obtain ⟨k, v⟩ := kv
    unfold Dict.set
    rw [Dict.get?_cons]
    by_cases h : k = a
    · subst h
      simp only [if_true, List.map_cons, List.sum_cons, Option.elim_some]
      ring
    · simp only [if_neg h, List.map_cons, List.sum_cons]
      rw [add_assoc, ih]
      ring

theorem push_sum {A B : Type} [DecidableEq A] (d : Dict A (List B)) (a : A) (b : B)
    (g : A → List B → F) (h : A → B → F) (h0 : ∀ a, g a [] = 0)
    (h1 : ∀ a l b, g a (l ++ [b]) = g a l + h a b) :
    ((push d a b).map (fun kv => g kv.1 kv.2)).sum = (d.map (fun kv => g kv.1 kv.2)).sum + h a b := by
  have := set_sum d a ((Dict.get? d a).getD [] ++ [b]) g
  unfold push
  rw [h1] at this
  cases hg : Dict.get? d a with
  | none =>
    rw [hg] at this
    simp only [Option.elim_none, Option.getD_none, h0, add_zero, zero_add] at this ⊢
    exact this
  | some l =>
    rw [hg] at this
    simp only [Option.elim_some, Option.getD_some] at this ⊢
    have h3 : ((Dict.set d a (l ++ [b])).map (fun kv => g kv.1 kv.2)).sum + g a l
        = (d.map (fun kv => g kv.1 kv.2)).sum + h a b + g a l := by rw [this]; ring
    exact add_right_cancel h3

theorem WF_push {A B : Type} [DecidableEq A] {d : Dict A (List B)} (hd : Dict.WF d) (a : A) (b : B) :
    Dict.WF (push d a b) := Dict.WF_set hd _ _

/-! ## the inserted functions, summed -/

/-- the part of the system an algorithm's function lists stand for -/
def edgeTotal (sol : SolVec P K F) (y : P × K → F) (t : P × K) (m : Algo P K F) : F :=
  (m.edgeFunc.map (fun kv => if kv.1.2 = t then (kv.2.map (evalD sol)).sum * y kv.1.1 else 0)).sum

def srcTotal (sol : SolVec P K F) (t : P × K) (m : Algo P K F) : F :=
  (m.srcFunc.map (fun kv => if kv.1 = t then (kv.2.map (evalD sol)).sum else 0)).sum

theorem insert_edge_ok {inj : Inj P K F} {m m' : Algo P K F}
    {e : ((P × K) × (P × K)) × Func P K F} (h : insert_edge inj m e = .ok m') :
    m' = { m with edgeInj := push m.edgeInj e.1 inj, edgeFunc := push m.edgeFunc e.1 e.2 } := by
  unfold insert_edge at h
  dsimp only at h
  split at h
  · injection h with h; exact h.symm
  · split at h
    · injection h with h; exact h.symm
    · cases h

theorem insert_source_ok {inj : Inj P K F} {m m' : Algo P K F}
    {s : (P × K) × Func P K F} (h : insert_source inj m s = .ok m') :
    m' = { m with srcInj := push m.srcInj s.1 inj, srcFunc := push m.srcFunc s.1 s.2 } := by
  unfold insert_source at h
  dsimp only at h
  split at h
  · injection h with h; exact h.symm
  · split at h
    · injection h with h; exact h.symm
    · cases h

theorem edgeTotal_push (sol : SolVec P K F) (y : P × K → F) (t : P × K)
    (d : Dict ((P × K) × (P × K)) (List (Func P K F))) (a : (P × K) × (P × K)) (f : Func P K F) :
    ((push d a f).map (fun kv => if kv.1.2 = t then (kv.2.map (evalD sol)).sum * y kv.1.1 else 0)).sum
      = (d.map (fun kv => if kv.1.2 = t then (kv.2.map (evalD sol)).sum * y kv.1.1 else 0)).sum
        + (if a.2 = t then evalD sol f * y a.1 else 0) := by
  refine push_sum d a f (fun k l => if k.2 = t then (l.map (evalD sol)).sum * y k.1 else 0)
    (fun k f => if k.2 = t then evalD sol f * y k.1 else 0) ?_ ?_
  · intro a; simp
  · intro a l b
    by_cases h : a.2 = t
    · simp only [if_pos h, List.map_append, List.map_cons, List.map_nil, List.sum_append,
        List.sum_cons, List.sum_nil]
      ring
    · simp [if_neg h]

theorem srcTotal_push (sol : SolVec P K F) (t : P × K)
    (d : Dict (P × K) (List (Func P K F))) (a : P × K) (f : Func P K F) :
    ((push d a f).map (fun kv => if kv.1 = t then (kv.2.map (evalD sol)).sum else 0)).sum
      = (d.map (fun kv => if kv.1 = t then (kv.2.map (evalD sol)).sum else 0)).sum
        + (if a = t then evalD sol f else 0) := by
  refine push_sum d a f (fun k l => if k = t then (l.map (evalD sol)).sum else 0)
    (fun k f => if k = t then evalD sol f else 0) ?_ ?_
  · intro a; simp
  · intro a l b
    by_cases h : a = t
    · simp only [if_pos h, List.map_append, List.map_cons, List.map_nil, List.sum_append,
        List.sum_cons, List.sum_nil]
      ring
    · simp [if_neg h]

/-- well formed function lists -/
structure AlgoWF (m : Algo P K F) : Prop where
  edge : Dict.WF m.edgeFunc
  src : Dict.WF m.srcFunc

theorem insert_edges_total (inj : Inj P K F) (sol : SolVec P K F) (y : P × K → F) (t : P × K)
    (l : List (((P × K) × (P × K)) × Func P K F)) (m m' : Algo P K F)
    (h : l.foldlM (insert_edge inj) m = .ok m') (hw : AlgoWF m) :
    AlgoWF m' ∧ m'.srcFunc = m.srcFunc ∧ m'.srcInj = m.srcInj ∧
    edgeTotal sol y t m' = edgeTotal sol y t m
      + (l.map (fun e => if e.1.2 = t then evalD sol e.2 * y e.1.1 else 0)).sum := by
  induction l generalizing m with
  | nil => cases foldlM_nil_ok h; simp [hw]
  | cons e l ih =>
    obtain ⟨c, hc, hl⟩ := foldlM_cons_ok h
    have hc' := insert_edge_ok hc
    subst hc'
    obtain ⟨h1, h2, h2', h3⟩ := ih _ hl ⟨WF_push hw.edge _ _, hw.src⟩
    refine ⟨h1, h2, h2', ?_⟩
    rw [h3]
    unfold edgeTotal
    dsimp only
    rw [edgeTotal_push]
    simp only [List.map_cons, List.sum_cons]
    ring

theorem insert_sources_total (inj : Inj P K F) (sol : SolVec P K F) (t : P × K)
    (l : List ((P × K) × Func P K F)) (m m' : Algo P K F)
    (h : l.foldlM (insert_source inj) m = .ok m') (hw : AlgoWF m) :
    AlgoWF m' ∧ m'.edgeFunc = m.edgeFunc ∧ m'.edgeInj = m.edgeInj ∧
    srcTotal sol t m' = srcTotal sol t m
      + (l.map (fun s => if s.1 = t then evalD sol s.2 else 0)).sum := by
  induction l generalizing m with
  | nil => cases foldlM_nil_ok h; simp [hw]
  | cons e l ih =>
    obtain ⟨c, hc, hl⟩ := foldlM_cons_ok h
    have hc' := insert_source_ok hc
    subst hc'
    obtain ⟨h1, h2, h2', h3⟩ := ih _ hl ⟨hw.edge, WF_push hw.src _ _⟩
    refine ⟨h1, h2, h2', ?_⟩
    rw [h3]
    unfold srcTotal
    dsimp only
    rw [srcTotal_push]
    simp only [List.map_cons, List.sum_cons]
    ring

theorem injection_insert_total (inj : Inj P K F) (sol : SolVec P K F) (y : P × K → F) (t : P × K)
    (m m' : Algo P K F) (h : injection_insert m inj = .ok m') (hw : AlgoWF m) :
    AlgoWF m' ∧ edgeTotal sol y t m' + srcTotal sol t m'
      = edgeTotal sol y t m + srcTotal sol t m + inj.linear sol y t := by
  unfold injection_insert at h
  obtain ⟨c, hc, hs⟩ := bind_ok_inv h
  obtain ⟨h1, h2, _, h3⟩ := insert_edges_total inj sol y t _ _ _ hc hw
  obtain ⟨g1, g2, _, g3⟩ := insert_sources_total inj sol t _ _ _ hs h1
  refine ⟨g1, ?_⟩
  have e1 : edgeTotal sol y t m' = edgeTotal sol y t c := by unfold edgeTotal; rw [g2]
  have e2 : srcTotal sol t c = srcTotal sol t m := by unfold srcTotal; rw [h2]
  rw [e1, g3, h3, e2]
  unfold Inj.linear
  ring

theorem insert_all_total (sol : SolVec P K F) (y : P × K → F) (t : P × K)
    (ports : Dict P (List K)) (injs : List (Inj P K F)) (m : Algo P K F)
    (h : insert_all ports injs = .ok m) :
    AlgoWF m ∧ edgeTotal sol y t m + srcTotal sol t m
      = (injs.map (fun i => i.linear sol y t)).sum := by
  unfold insert_all at h
  suffices H : ∀ (m0 : Algo P K F), AlgoWF m0 → injs.foldlM injection_insert m0 = .ok m →
      AlgoWF m ∧ edgeTotal sol y t m + srcTotal sol t m
        = edgeTotal sol y t m0 + srcTotal sol t m0 + (injs.map (fun i => i.linear sol y t)).sum by
    obtain ⟨h1, h2⟩ := H _ ⟨Dict.WF_nil, Dict.WF_nil⟩ h
    refine ⟨h1, ?_⟩
    rw [h2]
    simp [edgeTotal, srcTotal]
  clear h
  induction injs with
  | nil => intro m0 h0 h; cases foldlM_nil_ok h; simp [h0]
  | cons i l ih =>
    intro m0 h0 h
    obtain ⟨c, hc, hl⟩ := foldlM_cons_ok h
    obtain ⟨h1, h2⟩ := injection_insert_total i sol y t _ _ hc h0
    obtain ⟨h3, h4⟩ := ih _ h1 hl
    refine ⟨h3, ?_⟩
    rw [h4, h2]
    simp only [List.map_cons, List.sum_cons]
    ring

/-! ## the value of a function list -/

theorem sum_funcs_ok {sol : SolVec P K F} {fl : List (Func P K F)} {v : F}
    (h : sum_funcs sol fl = .ok v) : v = (fl.map (evalD sol)).sum := by
  cases fl with
  | nil => unfold sum_funcs at h; injection h with h; simp [← h]
  | cons f fs =>
    obtain ⟨a, ha, h'⟩ := bind_ok_inv (show (f sol >>= fun val => fs.foldlM
      (fun val g => do let w ← g sol; pure (val + w)) val) = .ok v from h)
    clear h
    have hfa : evalD sol f = a := by unfold evalD; rw [ha]
    simp only [List.map_cons, List.sum_cons, hfa]
    clear ha hfa
    induction fs generalizing a with
    | nil => have := foldlM_nil_ok h'; simp [this]
    | cons g gs ih =>
      obtain ⟨c, hc, hl⟩ := foldlM_cons_ok h'
      obtain ⟨w, hw, hc⟩ := bind_ok_inv hc
      injection hc with hc
      have hgw : evalD sol g = w := by unfold evalD; rw [hw]
      rw [ih _ hl, ← hc]
      simp only [List.map_cons, List.sum_cons, hgw]
      ring

theorem sum_funcs_each {sol : SolVec P K F} {fl : List (Func P K F)} {v : F}
    (h : sum_funcs sol fl = .ok v) : ∀ f ∈ fl, f sol = .ok (evalD sol f) := by
  cases fl with
  | nil => simp
  | cons f fs =>
    obtain ⟨a, ha, h'⟩ := bind_ok_inv (show (f sol >>= fun val => fs.foldlM
      (fun val g => do let w ← g sol; pure (val + w)) val) = .ok v from h)
    clear h
    have hfa : f sol = .ok (evalD sol f) := by unfold evalD; rw [ha]
    suffices H : ∀ g ∈ fs, g sol = .ok (evalD sol g) by
      intro g hg
      rcases List.mem_cons.1 hg with rfl | hg
      · exact hfa
      · exact H g hg
    clear ha hfa
    induction fs generalizing a with
    | nil => simp
    | cons g gs ih =>
      obtain ⟨c, hc, hl⟩ := foldlM_cons_ok h'
      obtain ⟨w, hw, _⟩ := bind_ok_inv hc
      intro g' hg'
      rcases List.mem_cons.1 hg' with rfl | hg'
      · unfold evalD; rw [hw]
      · exact ih _ hl g' hg'

theorem sum_funcs_total {sol : SolVec P K F} {fl : List (Func P K F)}
    (h : ∀ f ∈ fl, ∃ v, f sol = .ok v) : ∃ v, sum_funcs sol fl = .ok v := by
  cases fl with
  | nil => exact ⟨0, rfl⟩
  | cons f fs =>
    obtain ⟨a, ha⟩ := h f (by simp)
    show ∃ v, (f sol >>= fun val => fs.foldlM
      (fun val g => do let w ← g sol; pure (val + w)) val) = .ok v
    rw [ha, bind_ok]
    have h' : ∀ f ∈ fs, ∃ v, f sol = .ok v := fun g hg => h g (by simp [hg])
    clear ha h
    induction fs generalizing a with
    | nil => exact ⟨a, rfl⟩
    | cons g gs ih =>
      obtain ⟨w, hw⟩ := h' g (by simp)
      rw [List.foldlM_cons, hw]
      exact ih (a + w) (fun g hg => h' g (by simp [hg]))

/-! ## the loop over the edges -/

/-- the value the loop gives to an edge -/
def edgeVal (m : Algo P K F) (sol : SolVec P K F) (e : (P × K) × (P × K)) : F :=
  match Dict.get? m.edgeFunc e with
  | none => 1
  | some fl => (fl.map (evalD sol)).sum

/-- when the loop accepts an edge -/
def EdgeOk (m : Algo P K F) (bonds : SetDict P K) (sol : SolVec P K F) (e : (P × K) × (P × K)) : Prop :=
  match Dict.get? m.edgeFunc e with
  | none => e.2.2 = e.1.2 ∧ mem bonds e.1 e.2
  | some fl => ¬ mem bonds e.1 e.2 ∧ ∃ v, sum_funcs sol fl = .ok v

theorem edge_step_ok {m : Algo P K F} {bonds : SetDict P K} {sol : SolVec P K F}
    {st st' : Dict ((P × K) × (P × K)) F × List ((P × K) × (P × K))} {e : (P × K) × (P × K)}
    (h : edge_step m bonds sol st e = .ok st') :
    EdgeOk m bonds sol e ∧ st' = edge_store st e (edgeVal m sol e) := by
  unfold edge_step at h
  unfold EdgeOk edgeVal
  cases hg : Dict.get? m.edgeFunc e with
  | none =>
    rw [hg] at h
    dsimp only at h ⊢
    split at h
    · rename_i h1
      split at h
      · rename_i h2
        injection h with h
        refine ⟨⟨h1, h2⟩, ?_⟩
        rw [← h]
        unfold edge_store
        rw [if_pos one_ne_zero]
      · cases h
    · cases h
  | some fl =>
    rw [hg] at h
    dsimp only at h ⊢
    split at h
    · cases h
    · rename_i h2
      cases hs : sum_funcs sol fl with
      | error x => rw [hs] at h; cases h
      | ok v =>
        rw [hs] at h
        injection h with h
        refine ⟨⟨h2, v, rfl⟩, ?_⟩
        rw [← sum_funcs_ok hs, ← h]

theorem edge_step_total {m : Algo P K F} {bonds : SetDict P K} {sol : SolVec P K F}
    (st : Dict ((P × K) × (P × K)) F × List ((P × K) × (P × K))) {e : (P × K) × (P × K)}
    (h : EdgeOk m bonds sol e) : ∃ st', edge_step m bonds sol st e = .ok st' := by
  unfold EdgeOk at h
  unfold edge_step
  cases hg : Dict.get? m.edgeFunc e with
  | none =>
    rw [hg] at h
    dsimp only at h ⊢
    rw [if_pos h.1, if_pos (show e.2 ∈ (Dict.get? bonds e.1).getD [] from h.2)]
    exact ⟨_, rfl⟩
  | some fl =>
    rw [hg] at h
    dsimp only at h ⊢
    obtain ⟨v, hv⟩ := h.2
    rw [if_neg (show ¬ e.2 ∈ (Dict.get? bonds e.1).getD [] from h.1), hv]
    exact ⟨_, rfl⟩

/-- the entries the loop leaves for a list of edges -/
def kept (m : Algo P K F) (sol : SolVec P K F) (ps : List ((P × K) × (P × K))) :
    Dict ((P × K) × (P × K)) F :=
  (ps.filter (fun e => edgeVal m sol e ≠ 0)).map (fun e => (e, edgeVal m sol e))

theorem edge_loop_ok {m : Algo P K F} {bonds : SetDict P K} {sol : SolVec P K F}
    (ps : List ((P × K) × (P × K))) (hps : ps.Nodup)
    {st st' : Dict ((P × K) × (P × K)) F × List ((P × K) × (P × K))}
    (hst : ∀ e ∈ ps, e ∉ Dict.keys st.1)
    (h : ps.foldlM (edge_step m bonds sol) st = .ok st') :
    (∀ e ∈ ps, EdgeOk m bonds sol e) ∧
    st' = (st.1 ++ kept m sol ps, st.2 ++ ps.filter (fun e => edgeVal m sol e = 0)) := by
  induction ps generalizing st with
  | nil => cases foldlM_nil_ok h; simp [kept]
  | cons e ps ih =>
    obtain ⟨c, hc, hl⟩ := foldlM_cons_ok h
    obtain ⟨h1, h2⟩ := edge_step_ok hc
    rw [List.nodup_cons] at hps
    have hkeys : Dict.keys c.1 = Dict.keys st.1 ++ (if edgeVal m sol e ≠ 0 then [e] else []) := by
      rw [h2]
      unfold edge_store
      by_cases hv : edgeVal m sol e ≠ 0
      · rw [if_pos hv, if_pos hv]
        dsimp only
        rw [set_of_not_mem _ _ _ (hst e (by simp))]
        simp [Dict.keys]
      · rw [if_neg hv, if_neg hv]; simp
    obtain ⟨h3, h4⟩ := ih hps.2 (st := c) (by
      intro e' he' hk
      rw [hkeys, List.mem_append] at hk
      rcases hk with hk | hk
      · exact hst e' (by simp [he']) hk
      · split at hk
        · rw [List.mem_singleton] at hk
          subst hk
          exact hps.1 he'
        · simp at hk) hl
    refine ⟨?_, ?_⟩
    · intro e' he'
      rcases List.mem_cons.1 he' with rfl | he'
      · exact h1
      · exact h3 _ he'
    · rw [h4, h2]
      unfold edge_store kept
      by_cases hv : edgeVal m sol e ≠ 0
      · rw [if_pos hv]
        dsimp only
        rw [set_of_not_mem _ _ _ (hst e (by simp))]
        simp [hv]
      · rw [if_neg hv]
        have hv' : edgeVal m sol e = 0 := not_not.1 hv
        simp [hv']

theorem edge_loop_total {m : Algo P K F} {bonds : SetDict P K} {sol : SolVec P K F}
    (ps : List ((P × K) × (P × K)))
    (st : Dict ((P × K) × (P × K)) F × List ((P × K) × (P × K)))
    (h : ∀ e ∈ ps, EdgeOk m bonds sol e) :
    ∃ st', ps.foldlM (edge_step m bonds sol) st = .ok st' := by
  induction ps generalizing st with
  | nil => exact ⟨st, rfl⟩
  | cons e ps ih =>
    obtain ⟨c, hc⟩ := edge_step_total st (h e (by simp))
    rw [List.foldlM_cons, hc]
    exact ih c (fun e' he' => h e' (by simp [he']))

theorem matSum_kept (m : Algo P K F) (sol : SolVec P K F) (ps : List ((P × K) × (P × K)))
    (y : P × K → F) (t : P × K) :
    matSum (kept m sol ps) y t
      = (ps.map (fun e => if e.2 = t then edgeVal m sol e * y e.1 else 0)).sum := by
  induction ps with
  | nil => simp [matSum, kept]
  | cons e ps ih =>
    unfold matSum kept at ih ⊢
    by_cases hv : edgeVal m sol e ≠ 0
    · simp only [List.filter_cons, hv, decide_true, if_true, List.map_cons, List.sum_cons, ne_eq,
        not_false_eq_true]
      simp only [ne_eq] at ih
      rw [ih]
    · have hv' : edgeVal m sol e = 0 := not_not.1 hv
      simp only [List.filter_cons, hv', ne_eq, not_true, decide_false, List.map_cons,
        List.sum_cons, zero_mul, ite_self, zero_add]
      simp only [ne_eq] at ih
      exact ih

/-! ## pairs of a dictionary of sets -/

theorem mem_pairs {seq : SetDict P K} (h : Dict.WF seq) (f t : P × K) :
    (f, t) ∈ pairs seq ↔ mem seq f t := by
  unfold pairs mem
  rw [List.mem_flatMap]
  constructor
  · rintro ⟨kv, hkv, hm⟩
    rw [List.mem_map] at hm
    obtain ⟨t', ht', he⟩ := hm
    cases he
    rw [Dict.get?_of_mem h (show (kv.1, kv.2) ∈ seq from hkv)]
    exact ht'
  · intro ht
    cases hg : Dict.get? seq f with
    | none => rw [hg] at ht; simp at ht
    | some l =>
      rw [hg] at ht
      exact ⟨(f, l), Dict.mem_of_get? hg, List.mem_map.2 ⟨t, ht, rfl⟩⟩

theorem nodup_pairs {seq : SetDict P K} (h : SetWF seq) : (pairs seq).Nodup := by
  obtain ⟨hw, hn⟩ := h
  induction seq with
  | nil => simp [pairs]
  | cons kv seq ih =>
    have hw' : kv.1 ∉ Dict.keys seq ∧ Dict.WF seq := by simpa [Dict.WF, Dict.keys] using hw
    unfold pairs
    rw [List.flatMap_cons, List.nodup_append]
    refine ⟨?_, ih hw'.2 (fun kv hkv => hn kv (by simp [hkv])), ?_⟩
    · exact (hn kv (by simp)).map (fun a b hab => by cases hab; rfl)
    · intro a ha b hb hab
      subst hab
      rw [List.mem_map] at ha
      obtain ⟨t, _, rfl⟩ := ha
      have hb' : (kv.1, t) ∈ pairs seq := hb
      rw [mem_pairs hw'.2] at hb'
      unfold mem at hb'
      cases hg : Dict.get? seq kv.1 with
      | none => rw [hg] at hb'; simp at hb'
      | some l =>
        exact hw'.1 ((Dict.mem_keys_iff _ _).2 (by rw [hg]; rfl))

/-! ## dropping edges -/

theorem mem_set (d : SetDict P K) (k : P × K) (l : List (P × K)) (a b : P × K) :
    mem (Dict.set d k l) a b ↔ if k = a then b ∈ l else mem d a b := by
  unfold mem
  rw [Dict.get?_set]
  split <;> simp

theorem set_remove_ok {d d' : SetDict P K} {k x : P × K} (h : set_remove d k x = .ok d') :
    mem d k x ∧ (∀ a b, mem d' a b ↔ mem d a b ∧ ¬ (a = k ∧ b = x)) ∧ (SetWF d → SetWF d') := by
  unfold set_remove at h
  split at h
  · rename_i hx
    injection h with h
    subst h
    refine ⟨hx, ?_, ?_⟩
    · intro a b
      rw [mem_set]
      by_cases hk : k = a
      · subst hk
        rw [if_pos rfl, List.mem_filter]
        unfold mem
        simp
      · rw [if_neg hk]
        simp [Ne.symm hk]
    · rintro ⟨hw, hn⟩
      refine ⟨Dict.WF_set hw _ _, ?_⟩
      intro kv hkv
      have hget := Dict.get?_of_mem (Dict.WF_set hw k _) (show (kv.1, kv.2) ∈ _ from hkv)
      rw [Dict.get?_set] at hget
      split at hget
      · injection hget with hget
        rw [← hget]
        apply List.Nodup.filter
        cases hg : Dict.get? d k with
        | none => simp
        | some l => exact hn (k, l) (Dict.mem_of_get? hg)
      · exact hn (kv.1, kv.2) (Dict.mem_of_get? hget)
  · cases h

theorem set_remove_total {d : SetDict P K} {k x : P × K} (h : mem d k x) :
    ∃ d', set_remove d k x = .ok d' := by
  unfold set_remove
  rw [if_pos (show x ∈ (Dict.get? d k).getD [] from h)]
  exact ⟨_, rfl⟩

theorem drop_step_ok {st st' : SetDict P K × SetDict P K} {e : (P × K) × (P × K)}
    (h : drop_step st e = .ok st') :
    (∀ a b, mem st'.1 a b ↔ mem st.1 a b ∧ (a, b) ≠ e) ∧
    (∀ a b, mem st'.2 a b ↔ mem st.2 a b ∧ (b, a) ≠ e) ∧
    (SetWF st.1 → SetWF st'.1) ∧ (SetWF st.2 → SetWF st'.2) := by
  unfold drop_step at h
  obtain ⟨s, hs, h⟩ := bind_ok_inv h
  obtain ⟨r, hr, h⟩ := bind_ok_inv h
  injection h with h
  subst h
  obtain ⟨_, h1, w1⟩ := set_remove_ok hs
  obtain ⟨_, h2, w2⟩ := set_remove_ok hr
  refine ⟨?_, ?_, w1, w2⟩
  · intro a b
    obtain ⟨e1, e2⟩ := e
    rw [h1]
    exact and_congr_right (fun _ => not_congr (Prod.mk.injEq a b e1 e2).symm.to_iff)
  · intro a b
    obtain ⟨e1, e2⟩ := e
    rw [h2]
    exact and_congr_right (fun _ => not_congr
      (and_comm.trans (Prod.mk.injEq b a e1 e2).symm.to_iff))

theorem drop_loop_ok (l : List ((P × K) × (P × K))) {st st' : SetDict P K × SetDict P K}
    (h : l.foldlM drop_step st = .ok st') :
    (∀ a b, mem st'.1 a b ↔ mem st.1 a b ∧ (a, b) ∉ l) ∧
    (∀ a b, mem st'.2 a b ↔ mem st.2 a b ∧ (b, a) ∉ l) ∧
    (SetWF st.1 → SetWF st'.1) ∧ (SetWF st.2 → SetWF st'.2) := by
  induction l generalizing st with
  | nil => cases foldlM_nil_ok h; simp
  | cons e l ih =>
    obtain ⟨c, hc, hl⟩ := foldlM_cons_ok h
    obtain ⟨h1, h2, w1, w2⟩ := drop_step_ok hc
    obtain ⟨g1, g2, v1, v2⟩ := ih hl
    refine ⟨?_, ?_, v1 ∘ w1, v2 ∘ w2⟩
    · intro a b
      rw [g1, h1, List.mem_cons, not_or, and_assoc]
    · intro a b
      rw [g2, h2, List.mem_cons, not_or, and_assoc]

theorem drop_loop_total (l : List ((P × K) × (P × K))) (hl : l.Nodup)
    (st : SetDict P K × SetDict P K)
    (h : ∀ e ∈ l, mem st.1 e.1 e.2 ∧ mem st.2 e.2 e.1) :
    ∃ st', l.foldlM drop_step st = .ok st' := by
  induction l generalizing st with
  | nil => exact ⟨st, rfl⟩
  | cons e l ih =>
    rw [List.nodup_cons] at hl
    obtain ⟨s, hs⟩ := set_remove_total (h e (by simp)).1
    obtain ⟨r, hr⟩ := set_remove_total (h e (by simp)).2
    have hc : drop_step st e = .ok (s, r) := by
      unfold drop_step
      rw [hs, bind_ok, hr]
      rfl
    obtain ⟨h1, h2, _, _⟩ := drop_step_ok hc
    rw [List.foldlM_cons, hc]
    apply ih hl.2
    intro e' he'
    have hne : e' ≠ e := by rintro rfl; exact hl.1 he'
    have := h e' (by simp [he'])
    exact ⟨(h1 _ _).2 ⟨this.1, hne⟩, (h2 _ _).2 ⟨this.2, hne⟩⟩

/-! ## the loop over the sources -/

def srcVal (m : Algo P K F) (sol : SolVec P K F) (k : P × K) : F :=
  match Dict.get? m.srcFunc k with
  | none => 0
  | some fl => (fl.map (evalD sol)).sum

theorem source_step_ok {m : Algo P K F} {sol : SolVec P K F} {sv sv' : Dict (P × K) F} {k : P × K}
    (h : source_step m sol sv k = .ok sv') :
    (∃ fl, Dict.get? m.srcFunc k = some fl ∧ ∃ v, sum_funcs sol fl = .ok v) ∧
    sv' = if srcVal m sol k ≠ 0 then Dict.set sv k (srcVal m sol k) else sv := by
  unfold source_step at h
  obtain ⟨fl, hfl, h⟩ := bind_ok_inv h
  obtain ⟨v, hv, h⟩ := bind_ok_inv h
  injection h with h
  have hg : Dict.get? m.srcFunc k = some fl := by
    unfold Dict.get at hfl
    split at hfl
    · rename_i w hw
      injection hfl with hfl
      rw [hw, hfl]
    · cases hfl
  refine ⟨⟨fl, hg, v, hv⟩, ?_⟩
  have hval : srcVal m sol k = v := by
    unfold srcVal
    rw [hg]
    exact (sum_funcs_ok hv).symm
  rw [hval]
  exact h.symm

theorem source_loop_ok {m : Algo P K F} {sol : SolVec P K F} (l : List (P × K))
    {sv sv' : Dict (P × K) F} (h : l.foldlM (source_step m sol) sv = .ok sv')
    (hsv : ∀ k v, Dict.get? sv k = some v → v = srcVal m sol k ∧ v ≠ 0) :
    (∀ k ∈ l, ∃ fl, Dict.get? m.srcFunc k = some fl ∧ ∃ v, sum_funcs sol fl = .ok v) ∧
    ∀ k v, Dict.get? sv' k = some v ↔
      (v = srcVal m sol k ∧ v ≠ 0 ∧ (k ∈ l ∨ Dict.get? sv k = some v)) := by
  induction l generalizing sv with
  | nil =>
    cases foldlM_nil_ok h
    refine ⟨by simp, ?_⟩
    intro k v
    constructor
    · intro hk
      exact ⟨(hsv k v hk).1, (hsv k v hk).2, Or.inr hk⟩
    · rintro ⟨_, _, h | h⟩
      · simp at h
      · exact h
  | cons e l ih =>
    obtain ⟨c, hc, hl⟩ := foldlM_cons_ok h
    obtain ⟨h1, h2⟩ := source_step_ok hc
    have hcget : ∀ k v, Dict.get? c k = some v ↔
        (e = k ∧ v = srcVal m sol k ∧ v ≠ 0) ∨ Dict.get? sv k = some v := by
      intro k v
      rw [h2]
      by_cases hv : srcVal m sol e ≠ 0
      · rw [if_pos hv, Dict.get?_set]
        by_cases hk : e = k
        · subst hk
          rw [if_pos rfl]
          constructor
          · intro hs
            injection hs with hs
            subst hs
            exact Or.inl ⟨rfl, rfl, hv⟩
          · rintro (⟨_, h, _⟩ | h)
            · rw [h]
            · rw [(hsv _ _ h).1]
        · rw [if_neg hk]
          simp [hk]
      · rw [if_neg hv]
        constructor
        · exact Or.inr
        · rintro (⟨hk, h, hne⟩ | h)
          · subst hk
            rw [h] at hne
            exact absurd hne hv
          · exact h
    obtain ⟨h3, h4⟩ := ih hl (by
      intro k v hk
      rcases (hcget k v).1 hk with ⟨_, h, h'⟩ | h
      · exact ⟨h, h'⟩
      · exact hsv k v h)
    refine ⟨?_, ?_⟩
    · intro k hk
      rcases List.mem_cons.1 hk with rfl | hk
      · exact h1
      · exact h3 k hk
    · intro k v
      rw [h4, hcget, List.mem_cons]
      constructor
      · rintro ⟨a, b, c | ⟨c, _, _⟩ | c⟩
        · exact ⟨a, b, Or.inl (Or.inr c)⟩
        · exact ⟨a, b, Or.inl (Or.inl c.symm)⟩
        · exact ⟨a, b, Or.inr c⟩
      · rintro ⟨a, b, (c | c) | c⟩
        · exact ⟨a, b, Or.inr (Or.inl ⟨c.symm, a, b⟩)⟩
        · exact ⟨a, b, Or.inl c⟩
        · exact ⟨a, b, Or.inr (Or.inr c)⟩

end Inject
