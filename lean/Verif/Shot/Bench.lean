import Mathlib.RingTheory.Nilpotent.Basic
import Verif.Shot.Network

/-!
# Graphs made of lists of edges, for the examples of C86
-/

set_option linter.unusedSectionVars false

namespace Shot
open Py Inject Circuit Optics

section generic
variable {N V : Type} [DecidableEq N]

/-- the elements of a list, each once -/
def once (l : List N) : List N := l.foldr (fun a r => if a ∈ r then r else a :: r) []

theorem mem_once (l : List N) (a : N) : a ∈ once l ↔ a ∈ l := by
  induction l with
  | nil => rfl
  | cons b l ih =>
    change a ∈ (if b ∈ once l then once l else b :: once l) ↔ _
    split_ifs with h
    · rw [ih, List.mem_cons]
      constructor
      · exact Or.inr
      · rintro (rfl | h')
        · exact ih.1 h
        · exact h'
    · rw [List.mem_cons, List.mem_cons, ih]

theorem once_nodup (l : List N) : (once l).Nodup := by
  induction l with
  | nil => exact List.nodup_nil
  | cons b l ih =>
    change (if b ∈ once l then once l else b :: once l).Nodup
    split_ifs with h
    · exact ih
    · exact List.nodup_cons.2 ⟨h, ih⟩

/-- the graph with the given edges -/
def ofEdges (es : List ((N × N) × V)) : Graph.G N V where
  em := es
  seq := (once (es.map (fun e => e.1.1))).map (fun a => (a, (es.filter (fun e => e.1.1 = a)).map (fun e => e.1.2)))
  req := (once (es.map (fun e => e.1.2))).map (fun a => (a, (es.filter (fun e => e.1.2 = a)).map (fun e => e.1.1)))

theorem get_table {B : Type} (l : List N) (f : N → B) (a : N) :
    Dict.get? (l.map (fun a => (a, f a))) a = if a ∈ l then some (f a) else none := by
  induction l with
  | nil => rfl
  | cons b l ih =>
    rw [List.map_cons, Dict.get?_cons, ih]
    dsimp only
    by_cases h : b = a
    · subst h
      simp
    · rw [if_neg h]
      have : a ∈ b :: l ↔ a ∈ l := by
        rw [List.mem_cons]
        exact ⟨fun hh => hh.resolve_left (fun h' => h h'.symm), Or.inr⟩
      simp only [this]

theorem ofEdges_valid {es : List ((N × N) × V)} (hn : (es.map Prod.fst).Nodup) : Graph.Valid (ofEdges es) := by
  have hs : ∀ a, (ofEdges es).succ a = (es.filter (fun e => e.1.1 = a)).map (fun e => e.1.2) := by
    intro a
    unfold Graph.G.succ
    change (Dict.get? ((once (es.map (fun e => e.1.1))).map
      (fun a => (a, (es.filter (fun e => e.1.1 = a)).map (fun e => e.1.2)))) a).getD [] = _
    rw [get_table]
    by_cases h : a ∈ once (es.map (fun e => e.1.1))
    · rw [if_pos h]
      rfl
    · rw [if_neg h]
      rw [mem_once] at h
      symm
      rw [Option.getD_none, List.map_eq_nil_iff, List.filter_eq_nil_iff]
      intro e he hea
      exact h (List.mem_map.2 ⟨e, he, of_decide_eq_true hea⟩)
  have hp : ∀ a, (ofEdges es).pred a = (es.filter (fun e => e.1.2 = a)).map (fun e => e.1.1) := by
    intro a
    unfold Graph.G.pred
    change (Dict.get? ((once (es.map (fun e => e.1.2))).map
      (fun a => (a, (es.filter (fun e => e.1.2 = a)).map (fun e => e.1.1)))) a).getD [] = _
    rw [get_table]
    by_cases h : a ∈ once (es.map (fun e => e.1.2))
    · rw [if_pos h]
      rfl
    · rw [if_neg h]
      rw [mem_once] at h
      symm
      rw [Option.getD_none, List.map_eq_nil_iff, List.filter_eq_nil_iff]
      intro e he hea
      exact h (List.mem_map.2 ⟨e, he, of_decide_eq_true hea⟩)
  have hsub : ∀ q : (N × N) × V → Bool, ((es.filter q).map Prod.fst).Nodup := fun q => hn.sublist (List.filter_sublist.map _)
  refine ⟨?_, ?_, ?_, ?_, ?_⟩
  · change ((List.map _ (once (es.map (fun e => e.1.1)))).map Prod.fst).Nodup
    rw [List.map_map]
    exact (once_nodup _).map (fun _ _ h => h)
  · change ((List.map _ (once (es.map (fun e => e.1.2)))).map Prod.fst).Nodup
    rw [List.map_map]
    exact (once_nodup _).map (fun _ _ h => h)
  · intro a
    rw [hs, show (fun e : (N × N) × V => e.1.2) = Prod.snd ∘ Prod.fst from rfl, ← List.map_map]
    refine List.Nodup.map_on ?_ (hsub _)
    intro x hx y hy hxy
    obtain ⟨e, he, rfl⟩ := List.mem_map.1 hx
    obtain ⟨f, hf, rfl⟩ := List.mem_map.1 hy
    have h1 := of_decide_eq_true (List.mem_filter.1 he).2
    have h2 := of_decide_eq_true (List.mem_filter.1 hf).2
    exact Prod.ext (h1.trans h2.symm) hxy
  · intro a
    rw [hp, show (fun e : (N × N) × V => e.1.1) = Prod.fst ∘ Prod.fst from rfl, ← List.map_map]
    refine List.Nodup.map_on ?_ (hsub _)
    intro x hx y hy hxy
    obtain ⟨e, he, rfl⟩ := List.mem_map.1 hx
    obtain ⟨f, hf, rfl⟩ := List.mem_map.1 hy
    have h1 := of_decide_eq_true (List.mem_filter.1 he).2
    have h2 := of_decide_eq_true (List.mem_filter.1 hf).2
    exact Prod.ext hxy (h1.trans h2.symm)
  · intro a b hab
    obtain ⟨v, hv⟩ := Option.isSome_iff_exists.1 hab
    have hm := Dict.mem_of_get? hv
    rw [hs, hp]
    exact ⟨List.mem_map.2 ⟨_, List.mem_filter.2 ⟨hm, decide_eq_true rfl⟩, rfl⟩,
      List.mem_map.2 ⟨_, List.mem_filter.2 ⟨hm, decide_eq_true rfl⟩, rfl⟩⟩

/-- one edge for all edges between two nodes, with the sum of their values -/
def merge [AddCommMonoid V] (es : List ((N × N) × V)) : List ((N × N) × V) :=
  (once (es.map Prod.fst)).map (fun x => (x, (es.map (fun e => if e.1 = x then e.2 else 0)).sum))

theorem merge_nodup [AddCommMonoid V] (es : List ((N × N) × V)) : ((merge es).map Prod.fst).Nodup := by
  unfold merge
  rw [List.map_map]
  exact (once_nodup _).map (fun _ _ h => h)

theorem merge_gain [AddCommMonoid V] (es : List ((N × N) × V)) (d t : N) :
    Graph.gain (ofEdges (merge es)) d t = (es.map (fun e => if e.1 = (d, t) then e.2 else 0)).sum := by
  change (Dict.get? ((once (es.map Prod.fst)).map
    (fun x => (x, (es.map (fun e => if e.1 = x then e.2 else 0)).sum))) (d, t)).getD 0 = _
  rw [get_table]
  by_cases h : (d, t) ∈ once (es.map Prod.fst)
  · rw [if_pos h]
    rfl
  · rw [if_neg h]
    symm
    apply List.sum_eq_zero
    intro z hz
    obtain ⟨e, he, rfl⟩ := List.mem_map.1 hz
    exact if_neg (fun h' => h ((mem_once _ _).2 (List.mem_map.2 ⟨e, he, h'⟩)))

/-- networks without loops have a response -/
theorem isUnit_of_rank [Fintype N] {M : Matrix N N ℂ} (rank : N → ℕ) (h : ∀ t d, M t d ≠ 0 → rank d < rank t) :
    IsUnit (1 - M) := by
  apply IsNilpotent.isUnit_one_sub
  have hpow : ∀ n t d, (M ^ n) t d ≠ 0 → rank d + n ≤ rank t := by
    intro n
    induction n with
    | zero =>
      intro t d hne
      rw [pow_zero] at hne
      by_cases htd : t = d
      · rw [htd]
        exact le_refl _
      · exact absurd (Matrix.one_apply_ne htd) hne
    | succ n ih =>
      intro t d hne
      rw [pow_succ, Matrix.mul_apply] at hne
      obtain ⟨j, _, hj⟩ := Finset.exists_ne_zero_of_sum_ne_zero hne
      have h1 := ih t j (fun h0 => hj (by rw [h0, zero_mul]))
      have h2 := h j d (fun h0 => hj (by rw [h0, mul_zero]))
      omega
  refine ⟨Finset.univ.sup rank + 1, ?_⟩
  ext t d
  by_contra hne
  have h1 := hpow _ t d hne
  have h2 : rank t ≤ Finset.univ.sup rank := Finset.le_sup (Finset.mem_univ t)
  omega

end generic

variable {P Kf : Type} [DecidableEq P] [DecidableEq Kf]

/-- the edges of the linear system, with the keys of the graph -/
noncomputable def edgesOf (sol : SolVec P (Key Unit ℤ) ℂ) (back : Key Unit ℤ → Kf) (all : List (Coupling P (Key Unit ℤ) ℂ)) :
    List (((P × Kf) × (P × Kf)) × ℂ) :=
  all.flatMap (fun c => c.inj.edges.map (fun e =>
    (((e.1.1.1, back e.1.1.2), (e.1.2.1, back e.1.2.2)), evalD sol e.2)))

theorem edgesOf_gain {sol : SolVec P (Key Unit ℤ) ℂ} {back : Key Unit ℤ → Kf} {all : List (Coupling P (Key Unit ℤ) ℂ)}
    {κ : Kf → Key Unit ℤ} (hκ : Function.Injective κ)
    (hback : ∀ c ∈ all, ∀ e ∈ c.inj.edges, κ (back e.1.1.2) = e.1.1.2 ∧ κ (back e.1.2.2) = e.1.2.2)
    (d t : P × Kf) : Graph.gain (ofEdges (merge (edgesOf sol back all))) d t = (all.map (fun c => (c.inj.edges.map (fun e =>
      if e.1 = ((d.1, κ d.2), (t.1, κ t.2)) then evalD sol e.2 else 0)).sum)).sum := by
  rw [merge_gain]
  unfold edgesOf
  induction all with
  | nil => rfl
  | cons c l ih =>
    rw [List.flatMap_cons, List.map_append, List.sum_append, ih (fun c hc => hback c (List.mem_cons_of_mem _ hc)),
      List.map_cons, List.sum_cons, List.map_map]
    congr 2
    apply List.map_congr_left
    intro e he
    obtain ⟨h1, h2⟩ := hback c List.mem_cons_self e he
    have hiff : (((e.1.1.1, back e.1.1.2), (e.1.2.1, back e.1.2.2)) = (d, t)) ↔
        (e.1 = ((d.1, κ d.2), (t.1, κ t.2))) := by
      constructor
      · intro h
        injection h with ha hb
        rw [← ha, ← hb]
        dsimp only
        rw [h1, h2]
      · intro h
        have hd : κ (back e.1.1.2) = κ d.2 := by rw [h1, h]
        have ht : κ (back e.1.2.2) = κ t.2 := by rw [h2, h]
        rw [hκ hd, hκ ht, h]
    dsimp only [Function.comp]
    simp only [hiff]

end Shot
