import Verif.Tarjan.Model
import Mathlib.Logic.Relation
import Mathlib.Data.Nat.Basic
import Mathlib.Data.List.Nodup
import Mathlib.Data.List.Perm.Subperm
import Mathlib.Order.Lattice
import Mathlib.Tactic.Set

/-!
# The state of the sort while no cycle has been met
-/

set_option linter.unusedSectionVars false

namespace Tarjan
open Py

variable {N : Type} [DecidableEq N]

/-- There is an edge from `a` to `b`. -/
def Edge (succ : N → List N) (a b : N) : Prop := b ∈ succ a

/-- There is a path, possibly empty. -/
abbrev Path (succ : N → List N) : N → N → Prop := Relation.ReflTransGen (Edge succ)

/-- Reachable from one of the nodes. -/
def Reach (succ : N → List N) (nodes : List N) (v : N) : Prop := ∃ n ∈ nodes, Path succ n v

/-- The stacks, from the top down: `b` is above all indices, `child` is the node above, `r` is the index of the bottom. -/
def Frames (succ : N → List N) (low idx : Dict N Int) (ord : List N) (r : Int) : Int → Option N → List N → List (List N) → Prop
  | _, _, [], [] => True
  | b, child, v :: vs, it :: its =>
    (∃ i l consumed, Dict.get? idx v = some i ∧ Dict.get? low v = some l ∧ 0 < l ∧ r ≤ l ∧ l ≤ i ∧ i < b ∧
      succ v = consumed ++ it ∧ (∀ s ∈ consumed, s ∈ ord ∨ s = v ∨ child = some s ∨ (s ∈ vs ∧ l < i)) ∧
      (∀ c, child = some c → c ∈ consumed) ∧ (l < i → ∃ w ∈ vs, w ∈ succ v) ∧ (vs = [] → i = r) ∧
      Frames succ low idx ord r i (some v) vs its)
  | _, _, _, _ => False

theorem Frames.length {succ : N → List N} {low idx ord r} : ∀ {vs : List N} {its : List (List N)} {b child},
    Frames succ low idx ord r b child vs its → vs.length = its.length
  | [], [], _, _, _ => rfl
  | _ :: vs, _ :: its, _, _, h => by
    obtain ⟨i, l, consumed, _, _, _, _, _, _, _, _, _, _, _, h⟩ := h
    rw [List.length_cons, List.length_cons, h.length]
  | [], _ :: _, _, _, h => h.elim
  | _ :: _, [], _, _, h => h.elim

theorem Frames.congr {succ : N → List N} {low idx low' idx' ord r} : ∀ {vs : List N} {its : List (List N)} {b child},
    Frames succ low idx ord r b child vs its → (∀ v ∈ vs, Dict.get? low' v = Dict.get? low v) →
    (∀ v ∈ vs, Dict.get? idx' v = Dict.get? idx v) → Frames succ low' idx' ord r b child vs its
  | [], [], _, _, _, _, _ => trivial
  | v :: vs, _ :: its, _, _, h, hl, hi => by
    obtain ⟨i, l, consumed, h1, h2, h3, h4, h5, h6, h7, h8, h9, h10, h11, h⟩ := h
    exact ⟨i, l, consumed, (hi v (by simp)).trans h1, (hl v (by simp)).trans h2, h3, h4, h5, h6, h7, h8, h9, h10, h11,
      h.congr (fun w hw => hl w (List.mem_cons_of_mem _ hw)) (fun w hw => hi w (List.mem_cons_of_mem _ hw))⟩
  | [], _ :: _, _, _, h, _, _ => h.elim
  | _ :: _, [], _, _, h, _, _ => h.elim

theorem Frames.grow {succ : N → List N} {low idx ord r} (ord' : List N) (hsub : ∀ x ∈ ord, x ∈ ord') :
    ∀ {vs : List N} {its : List (List N)} {b child},
    Frames succ low idx ord r b child vs its → Frames succ low idx ord' r b child vs its
  | [], [], _, _, _ => trivial
  | v :: vs, _ :: its, _, _, h => by
    obtain ⟨i, l, consumed, h1, h2, h3, h4, h5, h6, h7, h8, h9, h10, h11, h⟩ := h
    exact ⟨i, l, consumed, h1, h2, h3, h4, h5, h6, h7, (fun s hs => (h8 s hs).imp_left (hsub s)), h9, h10, h11,
      h.grow ord' hsub⟩
  | [], _ :: _, _, _, h => h.elim
  | _ :: _, [], _, _, h => h.elim

/-- the node above is finished -/
theorem Frames.childDone {succ : N → List N} {low idx ord r} {vs : List N} {its : List (List N)} {b b' : Int} {c : N} (hb : b ≤ b')
    (h : Frames succ low idx ord r b (some c) vs its) (hc : c ∈ ord) : Frames succ low idx ord r b' none vs its := by
  cases vs with
  | nil => cases its with
    | nil => trivial
    | cons => exact h.elim
  | cons v vs =>
    cases its with
    | nil => exact h.elim
    | cons it its =>
      obtain ⟨i, l, consumed, h1, h2, h3, h4, h5, h6, h7, h8, h9, h10, h11, h⟩ := h
      refine ⟨i, l, consumed, h1, h2, h3, h4, h5, lt_of_lt_of_le h6 hb, h7, ?_, (fun _ h => by cases h), h10, h11, h⟩
      intro s hs
      rcases h8 s hs with h | h | h | h
      · exact Or.inl h
      · exact Or.inr (Or.inl h)
      · cases h; exact Or.inl hc
      · exact Or.inr (Or.inr (Or.inr h))

theorem Frames.mem {succ : N → List N} {low idx ord r} : ∀ {vs : List N} {its : List (List N)} {b child},
    Frames succ low idx ord r b child vs its → ∀ v ∈ vs, ∃ i l, Dict.get? idx v = some i ∧ Dict.get? low v = some l ∧
      0 < l ∧ r ≤ l ∧ l ≤ i ∧ i < b
  | [], _, _, _, _, v, hv => by cases hv
  | _ :: _, [], _, _, h, _, _ => h.elim
  | v0 :: vs, it :: its, b, _, h, v, hv => by
    obtain ⟨i, l, consumed, h1, h2, h3, h4, h5, h6, _, _, _, _, _, h⟩ := h
    rcases List.mem_cons.mp hv with rfl | hv
    · exact ⟨i, l, h1, h2, h3, h4, h5, h6⟩
    · obtain ⟨i', l', g1, g2, g3, g4, g5, g6⟩ := h.mem v hv
      exact ⟨i', l', g1, g2, g3, g4, g5, lt_trans g6 h6⟩

/-- The stack is a path, from the bottom up. -/
theorem Frames.path {succ : N → List N} {low idx ord r} : ∀ {vs : List N} {its : List (List N)} {b child},
    Frames succ low idx ord r b child vs its → vs.Pairwise (fun a b => Path succ b a) ∧
      ∀ c, child = some c → ∀ w ∈ vs, Path succ w c
  | [], _, _, _, _ => ⟨List.Pairwise.nil, fun _ _ w hw => by cases hw⟩
  | _ :: _, [], _, _, h => h.elim
  | v :: vs, it :: its, b, child, h => by
    obtain ⟨i, l, consumed, _, _, _, _, _, _, h7, _, h9, _, _, h⟩ := h
    obtain ⟨g1, g2⟩ := h.path
    refine ⟨List.pairwise_cons.mpr ⟨fun w hw => g2 v rfl w hw, g1⟩, ?_⟩
    intro c hc w hw
    have hvc : Edge succ v c := by
      unfold Edge
      rw [h7]
      exact List.mem_append_left _ (h9 c hc)
    rcases List.mem_cons.mp hw with rfl | hw
    · exact Relation.ReflTransGen.single hvc
    · exact (g2 v rfl w hw).tail hvc

/-- What holds between two turns of the loop; `ord` are the finished nodes in the order they were yielded. -/
structure Inv (succ : N → List N) (nodes : List N) (single : Bool) (r : Int) (st : St N) (ord : List N) : Prop where
  nd : (st.stack ++ ord).Nodup
  vis : ∀ v, v ∈ Dict.keys st.low ↔ v ∈ st.stack ∨ v ∈ ord
  dn : ∀ v ∈ ord, ∃ l, Dict.get? st.low v = some l ∧ l < 0
  ctr : 0 < st.counter
  tp : ∀ pre v post, ord = pre ++ v :: post → ∀ s ∈ succ v, s = v ∨ s ∈ pre
  rc : ∀ v, v ∈ st.stack ∨ v ∈ ord → Reach succ nodes v
  fr : Frames succ st.low st.idx ord r st.counter none st.stack st.iters
  out : st.out = ord.map (item single)

/-! ### Scanning the successors -/

theorem look_of {d : Dict N Int} {n : N} {x : Int} (h : Dict.get? d n = some x) : look d n = .ok x := by
  unfold look; rw [h]

theorem scan_spec {succ : N → List N} {low idx : Dict N Int} {ord vs : List N} {its : List (List N)} {r b i : Int} {v : N}
    (hnd : (v :: vs ++ ord).Nodup) (hfr : Frames succ low idx ord r i (some v) vs its)
    (hdn : ∀ v ∈ ord, ∃ l, Dict.get? low v = some l ∧ l < 0)
    (hvis : ∀ w, w ∈ Dict.keys low ↔ w ∈ v :: vs ∨ w ∈ ord) (hidx : Dict.get? idx v = some i) (hib : i < b)
    (hroot : vs = [] → i = r) (it : List N) : ∀ (lowc : Dict N Int) (l : Int) (consumed : List N),
    (∀ w, w ≠ v → Dict.get? lowc w = Dict.get? low w) → Dict.get? lowc v = some l → 0 < l → r ≤ l → l ≤ i →
    succ v = consumed ++ it → (∀ s ∈ consumed, s ∈ ord ∨ s = v ∨ (s ∈ vs ∧ l < i)) → (l < i → ∃ w ∈ vs, w ∈ succ v) →
    ∃ low' l' consumed' o, scan v it lowc = .ok (low', o) ∧ (∀ w, w ≠ v → Dict.get? low' w = Dict.get? low w) ∧
      Dict.get? low' v = some l' ∧ 0 < l' ∧ r ≤ l' ∧ l' ≤ i ∧
      (∀ s ∈ consumed', s ∈ ord ∨ s = v ∨ (s ∈ vs ∧ l' < i)) ∧ (l' < i → ∃ w ∈ vs, w ∈ succ v) ∧
      match o with
      | none => succ v = consumed'
      | some (s, rest) => succ v = consumed' ++ s :: rest ∧ s ∉ Dict.keys low := by
  induction it with
  | nil =>
    intro lowc l consumed hag hl h0 hr hli hsucc hcon hback
    rw [List.append_nil] at hsucc
    exact ⟨lowc, l, consumed, none, rfl, hag, hl, h0, hr, hli, hcon, hback, hsucc⟩
  | cons s rest ih =>
    intro lowc l consumed hag hl h0 hr hli hsucc hcon hback
    have hsucc' : succ v = (consumed ++ [s]) ++ rest := by rw [hsucc]; simp
    have hs : s ∈ succ v := by rw [hsucc]; simp
    unfold scan
    cases hg : Dict.get? lowc s with
    | none =>
      dsimp only
      refine ⟨lowc, l, consumed, some (s, rest), rfl, hag, hl, h0, hr, hli, hcon, hback, hsucc, ?_⟩
      have hsv : s ≠ v := by rintro rfl; rw [hl] at hg; cases hg
      rw [← Dict.get?_eq_none_iff, ← hag s hsv]
      exact hg
    | some ll =>
      dsimp only
      by_cases hneg : ll < 0
      · rw [if_pos hneg]
        refine ih lowc l (consumed ++ [s]) hag hl h0 hr hli hsucc' ?_ hback
        intro x hx
        rcases List.mem_append.mp hx with hx | hx
        · exact hcon x hx
        · rw [List.mem_singleton] at hx
          subst hx
          -- a negative lowlink marks a finished node
          have hxv : x ≠ v := by rintro rfl; rw [hl] at hg; cases hg; omega
          rw [hag x hxv] at hg
          have hk : x ∈ Dict.keys low := by rw [Dict.mem_keys_iff, hg]; rfl
          rcases (hvis x).mp hk with h | h
          · rcases List.mem_cons.mp h with h | h
            · exact absurd h hxv
            · obtain ⟨_, l', _, hl', hpos, _⟩ := hfr.mem x h
              rw [hg] at hl'
              cases hl'
              omega
          · exact Or.inl h
      · rw [if_neg hneg, look_of hl]
        dsimp only
        by_cases hsv : s = v
        · subst hsv
          rw [hl] at hg
          cases hg
          rw [min_self]
          refine ih (Dict.set lowc s l) l (consumed ++ [s]) ?_ ?_ h0 hr hli hsucc' ?_ hback
          · intro w hw
            rw [Dict.get?_set_ne _ _ (Ne.symm hw)]
            exact hag w hw
          · rw [Dict.get?_set, if_pos rfl]
          · intro x hx
            rcases List.mem_append.mp hx with hx | hx
            · exact hcon x hx
            · rw [List.mem_singleton] at hx
              exact Or.inr (Or.inl hx)
        · rw [hag s hsv] at hg
          have hk : s ∈ Dict.keys low := by rw [Dict.mem_keys_iff, hg]; rfl
          have hsvs : s ∈ vs := by
            rcases (hvis s).mp hk with h | h
            · rcases List.mem_cons.mp h with h | h
              · exact absurd h hsv
              · exact h
            · obtain ⟨l', hl', hlt⟩ := hdn s h
              rw [hg] at hl'
              cases hl'
              exact absurd hlt hneg
          obtain ⟨is, ls, g1, g2, g3, g4, g5, g6⟩ := hfr.mem s hsvs
          rw [hg] at g2
          cases g2
          have hmin : min l ll < i := by
            have : min l ll ≤ ll := min_le_right _ _
            omega
          refine ih (Dict.set lowc v (min l ll)) (min l ll) (consumed ++ [s]) ?_ ?_ (lt_min h0 g3) (le_min hr g4) hmin.le hsucc' ?_ ?_
          · intro w hw
            rw [Dict.get?_set_ne _ _ (Ne.symm hw)]
            exact hag w hw
          · rw [Dict.get?_set, if_pos rfl]
          · intro x hx
            rcases List.mem_append.mp hx with hx | hx
            · rcases hcon x hx with h | h | h
              · exact Or.inl h
              · exact Or.inr (Or.inl h)
              · exact Or.inr (Or.inr ⟨h.1, hmin⟩)
            · rw [List.mem_singleton] at hx
              subst hx
              exact Or.inr (Or.inr ⟨hsvs, hmin⟩)
          · intro _
            exact ⟨s, hsvs, hs⟩

/-! ### Popping a component -/

theorem strong_cons {succ : N → List N} {v : N} {vs popped rest : List N} (hpw : (v :: vs).Pairwise (fun a b => Path succ b a))
    (hvs : vs = popped ++ rest) (hne : popped ≠ []) (hst : ∀ x ∈ popped, ∀ y ∈ popped, Path succ x y)
    (hback : ∃ w ∈ vs, w ∈ succ v) : ∀ x ∈ v :: popped, ∀ y ∈ v :: popped, Path succ x y := by
  obtain ⟨h1, h2⟩ := List.pairwise_cons.mp hpw
  have hup : ∀ x ∈ popped, Path succ x v := fun x hx => h1 x (by rw [hvs]; exact List.mem_append_left _ hx)
  obtain ⟨w, hw, hwe⟩ := hback
  have hdown : ∀ y ∈ popped, Path succ v y := by
    intro y hy
    rw [hvs] at hw h2
    have hw' : Path succ w y := by
      rcases List.mem_append.mp hw with hw | hw
      · exact hst w hw y hy
      · exact (List.pairwise_append.mp h2).2.2 y hy w hw
    exact Relation.ReflTransGen.head hwe hw'
  intro x hx y hy
  rcases List.mem_cons.mp hx with hx' | hx' <;> rcases List.mem_cons.mp hy with hy' | hy'
  · rw [hx', hy']
  · rw [hx']; exact hdown y hy'
  · rw [hy']; exact hup x hx'
  · exact hst x hx' y hy'

theorem popComp_spec {succ : N → List N} {idx : Dict N Int} {ord : List N} {r : Int} : ∀ {vs : List N} {its : List (List N)} {b child}
    {low : Dict N Int}, Frames succ low idx ord r b child vs its → vs.Nodup → vs ≠ [] → ∀ comp,
    ∃ rest low' popped, popComp idx vs low comp = .ok (rest, low', comp ++ popped, true) ∧ vs = popped ++ rest ∧ popped ≠ [] ∧
      ∀ x ∈ popped, ∀ y ∈ popped, Path succ x y
  | [], _, _, _, _, _, _, h, _ => absurd rfl h
  | _ :: _, [], _, _, _, h, _, _, _ => h.elim
  | v :: vs, it :: its, b, child, low, hf, hnd, _, comp => by
    have hpw := hf.path.1
    obtain ⟨i, l, consumed, h1, h2, h3, h4, h5, h6, h7, h8, h9, h10, h11, h⟩ := hf
    unfold popComp
    rw [look_of h2]
    dsimp only
    rw [if_neg (not_not.mpr h3), look_of h1]
    dsimp only
    rw [Int.neg_neg]
    by_cases hli : l = i
    · rw [if_pos hli]
      refine ⟨vs, _, [v], rfl, rfl, by simp, ?_⟩
      intro x hx y hy
      rw [List.mem_singleton] at hx hy
      subst hx hy
      exact Relation.ReflTransGen.refl
    · rw [if_neg hli]
      have hlt : l < i := lt_of_le_of_ne h5 hli
      have hvs : vs ≠ [] := by
        intro he
        have := h11 he
        omega
      obtain ⟨hv, hnd'⟩ := List.nodup_cons.mp hnd
      have hf' : Frames succ (Dict.set low v (-l)) idx ord r i (some v) vs its := by
        refine h.congr ?_ (fun _ _ => rfl)
        intro w hw
        rw [Dict.get?_set_ne]
        rintro rfl
        exact hv hw
      obtain ⟨rest, low', popped, g1, g2, g3, g4⟩ := popComp_spec hf' hnd' hvs (comp ++ [v])
      refine ⟨rest, low', v :: popped, ?_, by rw [g2]; rfl, by simp, strong_cons hpw g2 g3 g4 (h10 hlt)⟩
      rw [g1]
      simp

/-! ### One turn -/

/-- A found cycle: distinct nodes that lead to each other. -/
def Cyclic (succ : N → List N) (nodes : List N) : Prop :=
  ∃ a b, a ≠ b ∧ Reach succ nodes a ∧ Path succ a b ∧ Path succ b a

/-- The component of an `SCCError`: at least two nodes, all leading to each other, all reachable. -/
def GoodComp (succ : N → List N) (nodes : List N) (c : List N) : Prop :=
  2 ≤ c.length ∧ c.Nodup ∧ (∀ x ∈ c, Reach succ nodes x) ∧ ∀ x ∈ c, ∀ y ∈ c, Path succ x y

/-- how many nodes were seen -/
def seen (st : St N) (ord : List N) : Nat := st.stack.length + ord.length

theorem body_spec {succ : N → List N} {nodes : List N} {single : Bool} {r : Int} {st : St N} {ord : List N}
    (h : Inv succ nodes single r st ord) (hne : st.stack ≠ []) :
    (∃ st' ord', body succ single st = .ok (st', false) ∧ Inv succ nodes single r st' ord' ∧ st'.stack ≠ [] ∧
      (st'.stack.length + 2 * seen st ord + 1 = st.stack.length + 2 * seen st' ord') ∧ (∀ x, x ∈ st.stack ∨ x ∈ ord → x ∈ st'.stack ∨ x ∈ ord')) ∨
    (∃ st' ord', body succ single st = .ok (st', true) ∧ Inv succ nodes single r st' ord' ∧ st'.stack = [] ∧
      (∀ x, x ∈ st.stack ∨ x ∈ ord → x ∈ ord')) ∨
    (Cyclic succ nodes ∧ (single = true → ∃ c, body succ single st = .error (.scc c) ∧ GoodComp succ nodes c)) := by
  obtain ⟨counter, low, idx, stack, iters, out⟩ := st
  obtain ⟨hnd, hvis, hdn, hctr, htp, hrc, hfr, hout⟩ := h
  dsimp only at *
  cases stack with
  | nil => exact absurd rfl hne
  | cons v vs =>
    cases iters with
    | nil => exact hfr.elim
    | cons it its =>
      have hpw := hfr.path.1
      obtain ⟨i, l, consumed, h1, h2, h3, h4, h5, h6, h7, h8, h9, h10, h11, hfs⟩ := hfr
      have h8' : ∀ s ∈ consumed, s ∈ ord ∨ s = v ∨ (s ∈ vs ∧ l < i) := by
        intro s hs
        rcases h8 s hs with h | h | h | h
        · exact Or.inl h
        · exact Or.inr (Or.inl h)
        · cases h
        · exact Or.inr (Or.inr h)
      obtain ⟨low', l', consumed', o, g1, g2, g3, g4, g5, g6, g7, g8, g9⟩ :=
        scan_spec hnd hfs hdn hvis h1 h6 h11 it low l consumed (fun _ _ => rfl) h2 h3 h4 h5 h7 h8' h10
      have hvnd : v ∉ vs ∧ v ∉ ord ∧ (vs ++ ord).Nodup := by
        rw [List.cons_append, List.nodup_cons, List.mem_append, not_or] at hnd
        exact ⟨hnd.1.1, hnd.1.2, hnd.2⟩
      have hfs' : Frames succ low' idx ord r i (some v) vs its := by
        refine hfs.congr ?_ (fun _ _ => rfl)
        intro w hw
        apply g2
        rintro rfl
        exact hvnd.1 hw
      have hdn' : ∀ v ∈ ord, ∃ l, Dict.get? low' v = some l ∧ l < 0 := by
        intro w hw
        rw [g2 w (by rintro rfl; exact hvnd.2.1 hw)]
        exact hdn w hw
      have hvis' : ∀ w, w ∈ Dict.keys low' ↔ w ∈ v :: vs ∨ w ∈ ord := by
        intro w
        by_cases hw : w = v
        · subst hw
          rw [Dict.mem_keys_iff, g3]
          simp
        · rw [← hvis w, Dict.mem_keys_iff, Dict.mem_keys_iff, g2 w hw]
      unfold body
      dsimp only
      rw [g1]
      cases o with
      | some sr =>
        obtain ⟨s, rest⟩ := sr
        dsimp only at g9 ⊢
        obtain ⟨g9, g10⟩ := g9
        left
        have hs : s ∉ v :: vs ∧ s ∉ ord := by
          rw [hvis s, not_or] at g10
          exact g10
        refine ⟨_, ord, rfl, ?_, ?_, ?_, ?_⟩
        · unfold insertNode
          constructor
          · show (s :: (v :: vs) ++ ord).Nodup
            rw [List.cons_append, List.nodup_cons, List.mem_append, not_or]
            exact ⟨hs, hnd⟩
          · intro w
            show w ∈ Dict.keys (Dict.set low' s counter) ↔ w ∈ s :: v :: vs ∨ w ∈ ord
            by_cases hw : s = w
            · subst hw
              rw [Dict.mem_keys_iff, Dict.get?_set, if_pos rfl]
              simp
            · rw [Dict.mem_keys_iff, Dict.get?_set_ne _ _ hw, ← Dict.mem_keys_iff, hvis' w, List.mem_cons (l := v :: vs)]
              constructor
              · rintro (h | h)
                · exact Or.inl (Or.inr h)
                · exact Or.inr h
              · rintro ((h | h) | h)
                · exact absurd h.symm hw
                · exact Or.inl h
                · exact Or.inr h
          · intro w hw
            show ∃ l, Dict.get? (Dict.set low' s counter) w = some l ∧ l < 0
            rw [Dict.get?_set_ne _ _ (by rintro rfl; exact hs.2 hw)]
            exact hdn' w hw
          · show 0 < counter + 1
            omega
          · exact htp
          · intro w hw
            by_cases hws : w = s
            · subst hws
              obtain ⟨n, hn, hp⟩ := hrc v (Or.inl (by simp))
              refine ⟨n, hn, hp.tail ?_⟩
              show w ∈ succ v
              rw [g9]; simp
            · apply hrc
              rcases hw with hw | hw
              · exact Or.inl ((List.mem_cons.mp hw).resolve_left hws)
              · exact Or.inr hw
          · show Frames succ (Dict.set low' s counter) (Dict.set idx s counter) ord r (counter + 1) none (s :: v :: vs) (succ s :: rest :: its)
            refine ⟨counter, counter, [], by rw [Dict.get?_set, if_pos rfl], by rw [Dict.get?_set, if_pos rfl], hctr, ?_, le_refl _,
              by omega, rfl, (fun _ h => by cases h), (fun _ h => by cases h), (fun h => absurd h (lt_irrefl _)), (fun h => by cases h), ?_⟩
            · omega
            · refine ⟨i, l', consumed' ++ [s], ?_, ?_, g4, g5, g6, h6, ?_, ?_, ?_, g8, h11, ?_⟩
              · rw [Dict.get?_set_ne _ _ (by rintro rfl; exact hs.1 (by simp))]; exact h1
              · rw [Dict.get?_set_ne _ _ (by rintro rfl; exact hs.1 (by simp))]; exact g3
              · rw [g9]; simp
              · intro x hx
                rcases List.mem_append.mp hx with hx | hx
                · rcases g7 x hx with h | h | h
                  · exact Or.inl h
                  · exact Or.inr (Or.inl h)
                  · exact Or.inr (Or.inr (Or.inr h))
                · rw [List.mem_singleton] at hx
                  subst hx
                  exact Or.inr (Or.inr (Or.inl rfl))
              · rintro c hc
                cases hc
                simp
              · refine hfs'.congr ?_ ?_
                · intro w hw
                  rw [Dict.get?_set_ne _ _ (by rintro rfl; exact hs.1 (List.mem_cons_of_mem _ hw))]
                · intro w hw
                  rw [Dict.get?_set_ne _ _ (by rintro rfl; exact hs.1 (List.mem_cons_of_mem _ hw))]
          · exact hout
        · intro h; cases h
        · unfold seen insertNode
          simp only [List.length_cons]
          omega
        · intro x hx
          rcases hx with hx | hx
          · exact Or.inl (List.mem_cons_of_mem _ hx)
          · exact Or.inr hx
      | none =>
        dsimp only at g9 ⊢
        -- the finished node
        have hfin : ∀ b', i ≤ b' → 0 < b' → l' = i → ∀ st' : St N, st'.counter = b' → st'.idx = idx →
            (st'.low = Dict.set (Dict.set low' v (min l' l')) v (-(min l' l'))) → st'.stack = vs → st'.iters = its →
            st'.out = out ++ [item single v] → Inv succ nodes single r st' (ord ++ [v]) := by
          intro b' hib' hb' hli st' e1 e2 e3 e4 e5 e6
          rw [min_self] at e3
          have hlow : ∀ w, w ≠ v → Dict.get? st'.low w = Dict.get? low' w := by
            intro w hw
            rw [e3, Dict.get?_set_ne _ _ (Ne.symm hw), Dict.get?_set_ne _ _ (Ne.symm hw)]
          have hlowv : Dict.get? st'.low v = some (-l') := by rw [e3, Dict.get?_set, if_pos rfl]
          constructor
          · rw [e4]
            have : (vs ++ (ord ++ [v])).Perm (v :: vs ++ ord) := by
              rw [← List.append_assoc]
              exact (List.perm_append_singleton v (vs ++ ord))
            exact this.nodup_iff.mpr hnd
          · intro w
            rw [e4]
            by_cases hw : w = v
            · subst hw
              rw [Dict.mem_keys_iff, hlowv]
              simp
            · rw [Dict.mem_keys_iff, hlow w hw, ← Dict.mem_keys_iff, hvis' w]
              simp [hw]
          · intro w hw
            by_cases hwv : w = v
            · subst hwv
              exact ⟨-l', hlowv, by omega⟩
            · rw [hlow w hwv]
              rcases List.mem_append.mp hw with hw | hw
              · exact hdn' w hw
              · exact absurd (List.mem_singleton.mp hw) hwv
          · rw [e1]; exact hb'
          · intro pre w post he s hs
            -- the new node comes last
            rcases List.append_eq_append_iff.mp he with ⟨as, ha1, ha2⟩ | ⟨as, ha1, ha2⟩
            · cases as with
              | nil =>
                rw [List.nil_append] at ha2
                rw [List.append_nil] at ha1
                obtain ⟨rfl, _⟩ := List.cons.inj ha2
                rw [g9] at hs
                rcases g7 s hs with h | h | h
                · right; rw [ha1]; exact h
                · exact Or.inl h
                · omega
              | cons a as =>
                rw [List.cons_append] at ha2
                obtain ⟨_, ha2⟩ := List.cons.inj ha2
                exact absurd ha2 (by simp)
            · cases as with
              | nil =>
                rw [List.nil_append] at ha2
                rw [List.append_nil] at ha1
                have hvw := (List.cons.inj ha2).1
                subst hvw
                rw [g9] at hs
                rcases g7 s hs with h | h | h
                · right; rw [← ha1]; exact h
                · exact Or.inl h
                · omega
              | cons a as =>
                rw [List.cons_append] at ha2
                obtain ⟨rfl, _⟩ := List.cons.inj ha2
                exact htp pre w as ha1 s hs
          · intro w hw
            rw [e4] at hw
            apply hrc
            rcases hw with hw | hw
            · exact Or.inl (List.mem_cons_of_mem _ hw)
            · rcases List.mem_append.mp hw with hw | hw
              · exact Or.inr hw
              · rw [List.mem_singleton] at hw
                exact Or.inl (by rw [hw]; simp)
          · rw [e1, e2, e4, e5]
            have hf1 : Frames succ st'.low idx ord r i (some v) vs its := by
              refine hfs'.congr ?_ (fun _ _ => rfl)
              intro w hw
              apply hlow
              rintro rfl
              exact hvnd.1 hw
            exact Frames.childDone hib' (hf1.grow (ord ++ [v]) (fun x hx => List.mem_append_left _ hx)) (by simp)
          · rw [e6, hout, List.map_append]
            rfl
        unfold exhausted
        dsimp only
        rw [look_of g3]
        dsimp only
        cases vs with
        | nil =>
          dsimp only
          have hli : l' = i := by
            have := h11 rfl
            omega
          rw [if_neg (by rw [min_self]; exact not_not.mpr g4)]
          right; left
          refine ⟨_, ord ++ [v], rfl, hfin counter (by omega) hctr hli _ rfl rfl rfl rfl rfl rfl, rfl, ?_⟩
          intro x hx
          rcases hx with hx | hx
          · rw [List.mem_singleton] at hx
            rw [hx]; simp
          · exact List.mem_append_left _ hx
        | cons u us =>
          dsimp only
          rw [look_of h1]
          dsimp only
          rw [min_self]
          by_cases hlt : l' < i
          · right; right
            have hback := g8 hlt
            obtain ⟨w, hw, hwe⟩ := hback
            constructor
            · refine ⟨v, w, ?_, hrc v (Or.inl (by simp)), Relation.ReflTransGen.single hwe, (List.pairwise_cons.mp hpw).1 w hw⟩
              rintro rfl
              exact hvnd.1 hw
            · intro hsing
              rw [if_pos hlt, if_neg (not_not.mpr g4)]
              have hf1 : Frames succ (Dict.set (Dict.set low' v l') v (-l')) idx ord r i (some v) (u :: us) its := by
                refine hfs'.congr ?_ (fun _ _ => rfl)
                intro x hx
                have hxv : v ≠ x := by rintro rfl; exact hvnd.1 hx
                rw [Dict.get?_set_ne _ _ hxv, Dict.get?_set_ne _ _ hxv]
              have hndv : (u :: us).Nodup := (List.nodup_append.mp hvnd.2.2).1
              obtain ⟨rest, low2, popped, k1, k2, k3, k4⟩ := popComp_spec hf1 hndv (by simp) [v]
              rw [k1]
              dsimp only
              rw [if_pos rfl, if_pos hsing]
              refine ⟨_, rfl, ?_, ?_, ?_, ?_⟩
              · show 2 ≤ (v :: popped).length
                cases popped with
                | nil => exact absurd rfl k3
                | cons p ps => simp
              · show (v :: popped).Nodup
                rw [List.nodup_cons]
                rw [k2] at hndv
                refine ⟨?_, (List.nodup_append.mp hndv).1⟩
                intro hv
                exact hvnd.1 (by rw [k2]; exact List.mem_append_left _ hv)
              · intro x hx
                apply hrc
                left
                rcases List.mem_cons.mp (show x ∈ v :: popped from hx) with rfl | hx
                · simp
                · rw [k2]
                  exact List.mem_cons_of_mem _ (List.mem_append_left _ hx)
              · exact strong_cons hpw k2 k3 k4 ⟨w, hw, hwe⟩
          · rw [if_neg hlt]
            have hli : l' = i := by omega
            rw [if_pos hli, if_neg (not_not.mpr g4)]
            left
            refine ⟨_, ord ++ [v], rfl, hfin counter (by omega) hctr hli _ rfl rfl (by rw [min_self]) rfl rfl rfl, by simp, ?_, ?_⟩
            · unfold seen
              simp only [List.length_cons, List.length_append, List.length_nil]
              omega
            · intro x hx
              rcases hx with hx | hx
              · rcases List.mem_cons.mp hx with rfl | hx
                · right; simp
                · exact Or.inl hx
              · exact Or.inr (List.mem_append_left _ hx)

end Tarjan
