import Verif.Tarjan.Basic

/-!
# C29: the topological sort
-/

set_option linter.unusedSectionVars false

namespace Tarjan
open Py

variable {N : Type} [DecidableEq N]

/-! ### The loops -/

theorem seen_le {succ : N → List N} {nodes : List N} {single : Bool} {r : Int} {st : St N} {ord : List N}
    (h : Inv succ nodes single r st ord) {U : List N} (hU : ∀ v, Reach succ nodes v → v ∈ U) : seen st ord ≤ U.length := by
  have hsub : (st.stack ++ ord) ⊆ U := by
    intro x hx
    exact hU x (h.rc x (List.mem_append.mp hx))
  have := (h.nd.subperm hsub).length_le
  rw [List.length_append] at this
  exact this

/-- What the sort has yielded when it stops at a cycle. -/
def Stopped (succ : N → List N) (nodes : List N) (single : Bool) (out : List (Item N)) : Prop :=
  ∃ ord : List N, out = ord.map (item single) ∧ ord.Nodup ∧ (∀ v ∈ ord, Reach succ nodes v) ∧
    ∀ pre v post, ord = pre ++ v :: post → ∀ s ∈ succ v, s = v ∨ s ∈ pre

theorem Inv.stopped {succ : N → List N} {nodes : List N} {single : Bool} {r : Int} {st : St N} {ord : List N}
    (h : Inv succ nodes single r st ord) : Stopped succ nodes single st.out :=
  ⟨ord, h.out, (List.nodup_append.mp h.nd).2.1, (fun v hv => h.rc v (Or.inr hv)), h.tp⟩

theorem loop_spec {succ : N → List N} {nodes : List N} {single : Bool} {r : Int} {U : List N}
    (hU : ∀ v, Reach succ nodes v → v ∈ U) : ∀ (fuel : Nat) (st : St N) (ord : List N), Inv succ nodes single r st ord →
    st.stack ≠ [] → 2 * U.length + st.stack.length ≤ fuel + 2 * seen st ord →
    (∃ st' ord', loop succ single fuel st = (st', .ok ()) ∧ Inv succ nodes single r st' ord' ∧ st'.stack = [] ∧
      ∀ x, x ∈ st.stack ∨ x ∈ ord → x ∈ ord') ∨
    (Cyclic succ nodes ∧ (single = true → ∃ c st', loop succ single fuel st = (st', .error (.scc c)) ∧ GoodComp succ nodes c ∧
      Stopped succ nodes single st'.out)) := by
  intro fuel
  induction fuel with
  | zero =>
    intro st ord h hne hf
    have := seen_le h hU
    have hpos : 0 < st.stack.length := List.length_pos_iff.mpr hne
    omega
  | succ fuel ih =>
    intro st ord h hne hf
    unfold loop
    rcases body_spec h hne with ⟨st', ord', h1, h2, h3, h4, h5⟩ | ⟨st', ord', h1, h2, h3, h4⟩ | ⟨h1, h2⟩
    · rw [h1]
      dsimp only
      rcases ih st' ord' h2 h3 (by omega) with ⟨st2, ord2, g1, g2, g3, g4⟩ | g
      · exact Or.inl ⟨st2, ord2, g1, g2, g3, fun x hx => g4 x (h5 x hx)⟩
      · exact Or.inr g
    · rw [h1]
      exact Or.inl ⟨st', ord', rfl, h2, h3, h4⟩
    · right
      refine ⟨h1, fun hs => ?_⟩
      obtain ⟨c, hc1, hc2⟩ := h2 hs
      rw [hc1]
      exact ⟨c, st, rfl, hc2, h.stopped⟩

theorem Inv.iters_nil {succ : N → List N} {nodes : List N} {single : Bool} {r : Int} {st : St N} {ord : List N}
    (h : Inv succ nodes single r st ord) (he : st.stack = []) : st.iters = [] := by
  have := h.fr.length
  rw [he] at this
  exact List.length_eq_zero_iff.mp this.symm

/-- a node is put on the empty stack -/
theorem Inv.insert {succ : N → List N} {nodes : List N} {single : Bool} {r : Int} {st : St N} {ord : List N}
    (h : Inv succ nodes single r st ord) (he : st.stack = []) {n : N} (hn : n ∈ nodes) (hnew : n ∉ ord) :
    Inv succ nodes single st.counter (insertNode succ n st) ord := by
  have hi := h.iters_nil he
  have hctr := h.ctr
  unfold insertNode
  constructor
  · show ((n :: st.stack) ++ ord).Nodup
    rw [he]
    have hnd := h.nd
    rw [he] at hnd
    exact List.nodup_cons.mpr ⟨hnew, hnd⟩
  · intro v
    show v ∈ Dict.keys (Dict.set st.low n st.counter) ↔ v ∈ n :: st.stack ∨ v ∈ ord
    by_cases hv : n = v
    · subst hv
      rw [Dict.mem_keys_iff, Dict.get?_set, if_pos rfl]
      simp
    · rw [Dict.mem_keys_iff, Dict.get?_set_ne _ _ hv, ← Dict.mem_keys_iff, h.vis v, List.mem_cons]
      constructor
      · rintro (h | h)
        · exact Or.inl (Or.inr h)
        · exact Or.inr h
      · rintro ((h | h) | h)
        · exact absurd h.symm hv
        · exact Or.inl h
        · exact Or.inr h
  · intro v hv
    show ∃ l, Dict.get? (Dict.set st.low n st.counter) v = some l ∧ l < 0
    rw [Dict.get?_set_ne _ _ (by rintro rfl; exact hnew hv)]
    exact h.dn v hv
  · show 0 < st.counter + 1
    omega
  · exact h.tp
  · intro v hv
    by_cases hvn : v = n
    · subst hvn
      exact ⟨v, hn, Relation.ReflTransGen.refl⟩
    · apply h.rc
      rcases hv with hv | hv
      · exact Or.inl ((List.mem_cons.mp hv).resolve_left hvn)
      · exact Or.inr hv
  · show Frames succ (Dict.set st.low n st.counter) (Dict.set st.idx n st.counter) ord st.counter (st.counter + 1) none
      (n :: st.stack) (succ n :: st.iters)
    rw [he, hi]
    exact ⟨st.counter, st.counter, [], by rw [Dict.get?_set, if_pos rfl], by rw [Dict.get?_set, if_pos rfl], hctr, le_refl _,
      le_refl _, by omega, rfl, (fun _ h => by cases h), (fun _ h => by cases h), (fun h => absurd h (lt_irrefl _)), (fun _ => rfl), trivial⟩
  · exact h.out

theorem sortLoop_spec {succ : N → List N} {all : List N} {single : Bool} {U : List N}
    (hU : ∀ v, Reach succ all v → v ∈ U) (fuel : Nat) (hfuel : 2 * U.length ≤ fuel) (nodes : List N) : ∀ (r : Int) (st : St N) (ord : List N),
    (∀ n ∈ nodes, n ∈ all) → Inv succ all single r st ord → st.stack = [] →
    (∃ r' st' ord', sortLoop succ single fuel nodes st = (st', .ok ()) ∧ Inv succ all single r' st' ord' ∧ st'.stack = [] ∧
      (∀ x ∈ nodes, x ∈ ord') ∧ ∀ x ∈ ord, x ∈ ord') ∨
    (Cyclic succ all ∧ (single = true → ∃ c st', sortLoop succ single fuel nodes st = (st', .error (.scc c)) ∧ GoodComp succ all c ∧
      Stopped succ all single st'.out)) := by
  induction nodes with
  | nil =>
    intro r st ord _ h he
    exact Or.inl ⟨r, st, ord, rfl, h, he, (fun _ h => by cases h), fun _ h => h⟩
  | cons n nodes ih =>
    intro r st ord hsub h he
    have hsub' : ∀ x ∈ nodes, x ∈ all := fun x hx => hsub x (List.mem_cons_of_mem _ hx)
    unfold sortLoop strongconnect
    by_cases hhas : Dict.has st.low n = true
    · rw [if_pos hhas]
      dsimp only
      have hn : n ∈ ord := by
        have := (h.vis n).mp ((Dict.has_iff _ _).mp hhas)
        rw [he] at this
        rcases this with h | h
        · cases h
        · exact h
      rcases ih r st ord hsub' h he with ⟨r', st', ord', g1, g2, g3, g4, g5⟩ | g
      · left
        refine ⟨r', st', ord', g1, g2, g3, ?_, g5⟩
        intro x hx
        rcases List.mem_cons.mp hx with rfl | hx
        · exact g5 _ hn
        · exact g4 x hx
      · exact Or.inr g
    · rw [if_neg hhas]
      have hn : n ∉ ord := by
        intro hn
        exact hhas ((Dict.has_iff _ _).mpr ((h.vis n).mpr (Or.inr hn)))
      have hins := h.insert he (hsub n (by simp)) hn
      rcases loop_spec hU fuel (insertNode succ n st) ord hins (by unfold insertNode; simp) (by
          unfold seen insertNode
          simp only [List.length_cons]
          omega) with ⟨st', ord', g1, g2, g3, g4⟩ | ⟨g1, g2⟩
      · rw [g1]
        dsimp only
        have hn' : n ∈ ord' := g4 n (Or.inl (by unfold insertNode; simp))
        rcases ih _ st' ord' hsub' g2 g3 with ⟨r2, st2, ord2, k1, k2, k3, k4, k5⟩ | k
        · left
          refine ⟨r2, st2, ord2, k1, k2, k3, ?_, fun x hx => k5 x (g4 x (Or.inr hx))⟩
          intro x hx
          rcases List.mem_cons.mp hx with rfl | hx
          · exact k5 _ hn'
          · exact k4 x hx
        · exact Or.inr k
      · right
        refine ⟨g1, fun hs => ?_⟩
        obtain ⟨c, st', k1, k2, k3⟩ := g2 hs
        rw [k1]
        exact ⟨c, st', rfl, k2, k3⟩

theorem start_inv (succ : N → List N) (nodes : List N) (single : Bool) : Inv succ nodes single 0 (St.start : St N) [] where
  nd := List.nodup_nil
  vis := fun v => by simp [St.start, Dict.keys]
  dn := fun _ h => by cases h
  ctr := Int.one_pos
  tp := fun pre v post h => by simp at h
  rc := fun v h => by rcases h with h | h <;> cases h
  fr := trivial
  out := rfl

/-- An order with all successors first has no cycle. -/
theorem order_path {succ : N → List N} {ord : List N} (htp : ∀ pre v post, ord = pre ++ v :: post → ∀ s ∈ succ v, s = v ∨ s ∈ pre)
    {pre : List N} {v : N} {post : List N} (h : ord = pre ++ v :: post) {b : N} (hp : Path succ v b) : b = v ∨ b ∈ pre := by
  induction hp with
  | refl => exact Or.inl rfl
  | tail hpc he ih =>
    rename_i c b
    rcases ih with rfl | hc
    · exact htp pre c post h b he
    · right
      obtain ⟨p1, p2, rfl⟩ := List.append_of_mem hc
      rcases htp p1 c (p2 ++ v :: post) (by rw [h]; simp) b he with rfl | hb
      · exact hc
      · exact List.mem_append_left _ hb

theorem order_acyclic {succ : N → List N} {ord : List N} (hnd : ord.Nodup)
    (htp : ∀ pre v post, ord = pre ++ v :: post → ∀ s ∈ succ v, s = v ∨ s ∈ pre) {a b : N} (ha : a ∈ ord)
    (hab : Path succ a b) (hba : Path succ b a) : a = b := by
  obtain ⟨pre, post, h⟩ := List.append_of_mem ha
  rcases order_path htp h hab with hb | hb
  · exact hb.symm
  · obtain ⟨p1, p2, rfl⟩ := List.append_of_mem hb
    have h' : ord = p1 ++ b :: (p2 ++ a :: post) := by rw [h]; simp
    rcases order_path htp h' hba with h2 | h2
    · exact h2
    · exfalso
      rw [h] at hnd
      exact (List.nodup_append.mp hnd).2.2 a (List.mem_append_left _ h2) a (by simp) rfl

/-! ### The theorems -/

/-- No two nodes that can be reached lead to each other (an edge from a node to itself is allowed). -/
def Acyclic (succ : N → List N) (nodes : List N) : Prop :=
  ∀ a b, Reach succ nodes a → Path succ a b → Path succ b a → a = b

/-- **C29.** Without a cycle every node that can be reached is yielded exactly once, by itself, after all its successors. -/
theorem C29_order (succ : N → List N) (nodes U : List N) (hU : ∀ v, Reach succ nodes v → v ∈ U) (fuel : Nat)
    (hfuel : 2 * U.length ≤ fuel) (single : Bool) (hac : Acyclic succ nodes) :
    ∃ ord : List N, topological_sort fuel nodes succ single = (ord.map (item single), .ok ()) ∧ ord.Nodup ∧
      (∀ v, v ∈ ord ↔ Reach succ nodes v) ∧ ∀ pre v post, ord = pre ++ v :: post → ∀ s ∈ succ v, s = v ∨ s ∈ pre := by
  unfold topological_sort
  rcases sortLoop_spec (single := single) hU fuel hfuel nodes 0 St.start [] (fun _ h => h) (start_inv succ nodes single) rfl with
    ⟨r, st, ord, h1, h2, h3, h4, _⟩ | ⟨⟨a, b, hab, h1, h2, h3⟩, _⟩
  · rw [h1]
    have hnd : ord.Nodup := (List.nodup_append.mp h2.nd).2.1
    refine ⟨ord, by dsimp only; rw [h2.out], hnd, ?_, h2.tp⟩
    intro v
    constructor
    · exact fun hv => h2.rc v (Or.inr hv)
    · rintro ⟨n, hn, hp⟩
      obtain ⟨pre, post, he⟩ := List.append_of_mem (h4 n hn)
      rcases order_path h2.tp he hp with rfl | hv
      · exact h4 _ hn
      · rw [he]; exact List.mem_append_left _ hv
  · exact absurd (hac a b h1 h2 h3) hab

/-- **C29.** When single nodes are demanded, a cycle makes the sort raise `SCCError` with at least two distinct nodes that lead
to each other; what was yielded before is in order. -/
theorem C29_cycle (succ : N → List N) (nodes U : List N) (hU : ∀ v, Reach succ nodes v → v ∈ U) (fuel : Nat)
    (hfuel : 2 * U.length ≤ fuel) (hcyc : ¬ Acyclic succ nodes) :
    ∃ out c, topological_sort fuel nodes succ true = (out, .error (.scc c)) ∧
      (2 ≤ c.length ∧ c.Nodup ∧ (∀ x ∈ c, Reach succ nodes x) ∧ ∀ x ∈ c, ∀ y ∈ c, Path succ x y) ∧
      ∃ ord : List N, out = ord.map .node ∧ ord.Nodup ∧ (∀ v ∈ ord, Reach succ nodes v) ∧
        ∀ pre v post, ord = pre ++ v :: post → ∀ s ∈ succ v, s = v ∨ s ∈ pre := by
  unfold topological_sort
  rcases sortLoop_spec (single := true) hU fuel hfuel nodes 0 St.start [] (fun _ h => h) (start_inv succ nodes true) rfl with
    ⟨r, st, ord, h1, h2, h3, h4, _⟩ | ⟨_, h⟩
  · exfalso
    apply hcyc
    intro a b ha hab hba
    refine order_acyclic (List.nodup_append.mp h2.nd).2.1 h2.tp ?_ hab hba
    obtain ⟨n, hn, hp⟩ := ha
    obtain ⟨pre, post, he⟩ := List.append_of_mem (h4 n hn)
    rcases order_path h2.tp he hp with rfl | hv
    · exact h4 _ hn
    · rw [he]; exact List.mem_append_left _ hv
  · obtain ⟨c, st', h1, h2, ord, h3, h4, h5, h6⟩ := h rfl
    rw [h1]
    exact ⟨st'.out, c, rfl, h2, ord, h3, h4, h5, h6⟩

/-- all nodes of a stored graph -/
def graphNodes (graph : Dict N (List N)) : List N := Dict.keys graph ++ graph.flatMap (fun kv => kv.2)

theorem reach_graph (graph : Dict N (List N)) (v : N)
    (h : Reach (fun k => (Dict.get? graph k).getD []) (Dict.keys graph) v) : v ∈ graphNodes graph := by
  obtain ⟨n, hn, hp⟩ := h
  induction hp with
  | refl => exact List.mem_append_left _ hn
  | tail hpc he hih =>
    rename_i c b
    replace he : b ∈ (Dict.get? graph c).getD [] := he
    cases hg : Dict.get? graph c with
    | none => rw [hg] at he; cases he
    | some l =>
      rw [hg] at he
      exact List.mem_append_right _ (List.mem_flatMap.mpr ⟨(c, l), Dict.mem_of_get? hg, he⟩)

/-- **C29.** `topological_sort_dict`: either there is no cycle, and all keys and all nodes they mention come exactly once, after
their successors; or `SCCError` is raised with nodes of one strongly connected component. -/
theorem C29_dict (graph : Dict N (List N)) (hwf : Dict.WF graph) (fuel : Nat) (hfuel : 2 * (graphNodes graph).length ≤ fuel) :
    let succ := fun k => (Dict.get? graph k).getD []
    (Acyclic succ (Dict.keys graph) ∧ ∃ ord : List N, topological_sort_dict fuel graph = (ord.map .node, .ok ()) ∧ ord.Nodup ∧
        (∀ v, v ∈ ord ↔ v ∈ graphNodes graph) ∧ ∀ pre v post, ord = pre ++ v :: post → ∀ s ∈ succ v, s = v ∨ s ∈ pre) ∨
      (¬ Acyclic succ (Dict.keys graph) ∧ ∃ out c, topological_sort_dict fuel graph = (out, .error (.scc c)) ∧
        2 ≤ c.length ∧ c.Nodup ∧ ∀ x ∈ c, ∀ y ∈ c, Path succ x y) := by
  intro succ
  by_cases hac : Acyclic succ (Dict.keys graph)
  · left
    obtain ⟨ord, h1, h2, h3, h4⟩ := C29_order succ (Dict.keys graph) (graphNodes graph) (reach_graph graph) fuel hfuel true hac
    refine ⟨hac, ord, h1, h2, ?_, h4⟩
    intro v
    rw [h3]
    constructor
    · exact reach_graph graph v
    · intro hv
      rcases List.mem_append.mp hv with hv | hv
      · exact ⟨v, hv, Relation.ReflTransGen.refl⟩
      · obtain ⟨⟨k, l⟩, hkl, hvl⟩ := List.mem_flatMap.mp hv
        refine ⟨k, List.mem_map_of_mem (f := Prod.fst) hkl, Relation.ReflTransGen.single ?_⟩
        show v ∈ (Dict.get? graph k).getD []
        rw [Dict.get?_of_mem hwf hkl]
        exact hvl
  · right
    obtain ⟨out, c, h1, ⟨h2, h3, _, h5⟩, _⟩ := C29_cycle succ (Dict.keys graph) (graphNodes graph) (reach_graph graph) fuel hfuel hac
    exact ⟨hac, out, c, h1, h2, h3, h5⟩

/-! ### Components -/

/-- Two nodes that lead to each other: 1 ⇄ 2. -/
def twoCycle : Nat → List Nat := fun n => if n = 1 then [2] else if n = 2 then [1] else []

/-- 1 → 2 → 3 → 1. -/
def threeCycle : Nat → List Nat := fun n => if n = 1 then [2] else if n = 2 then [3] else if n = 3 then [1] else []

/-- 0 → 1 ⇄ 2, 0 → 5. -/
def sideBranch : Nat → List Nat := fun n => if n = 0 then [1, 5] else if n = 1 then [2] else if n = 2 then [1] else []

/-- **C29 (disagreement).** Components of cyclic graphs are not found.  A cycle of two nodes is yielded, then the generator fails
with `IndexError`, whatever the number of turns allowed. -/
theorem C29_two (fuel : Nat) : topological_sort (fuel + 4) [1] twoCycle false = ([.comp [2, 1]], .error .index) := by
  unfold topological_sort sortLoop strongconnect
  rfl

/-- A cycle of three nodes is split into two components: `lowlinks` of a child never reaches its parent. -/
theorem C29_three : topological_sort 100 [1] threeCycle false = ([.comp [3, 2], .comp [1]], .ok ()) ∧
    Path threeCycle 1 3 ∧ Path threeCycle 3 1 := by
  refine ⟨by decide, ?_, ?_⟩
  · exact (Relation.ReflTransGen.single (show Edge threeCycle 1 2 from by unfold Edge; decide)).tail
      (show Edge threeCycle 2 3 from by unfold Edge; decide)
  · exact Relation.ReflTransGen.single (show Edge threeCycle 3 1 from by unfold Edge; decide)

/-- Node 5 can be reached but is never yielded: the iterators of the nodes of a component stay on the stack. -/
theorem C29_lost : topological_sort 100 [0] sideBranch false = ([.comp [2, 1], .comp [0]], .ok ()) ∧ Reach sideBranch [0] 5 :=
  ⟨by decide, 0, by simp, Relation.ReflTransGen.single (show Edge sideBranch 0 5 from by unfold Edge; decide)⟩

/-! ### Examples -/

/-- 1 → 2, 3; 2 → 4, 2; 3 → 4. -/
def exGraph : Dict Nat (List Nat) := [(1, [2, 3]), (2, [4, 2]), (3, [4])]

example : topological_sort_dict 100 exGraph = ([.node 4, .node 2, .node 3, .node 1], .ok ()) := by decide
example : 2 * (graphNodes exGraph).length ≤ 100 := by decide
example : topological_sort_dict 100 [(1, [2]), (2, [3, 5]), (3, [2])] = ([], .error (.scc [3, 2])) := by decide

/-- a graph whose edges go down has no cycle -/
example : Acyclic (fun n : Nat => List.range n) [7] := by
  have hle : ∀ a b, Path (fun n : Nat => List.range n) a b → b ≤ a := by
    intro a b h
    induction h with
    | refl => exact le_refl _
    | tail _ he ih =>
      have := List.mem_range.mp he
      omega
  intro a b _ h1 h2
  have := hle a b h1
  have := hle b a h2
  omega

example : ¬ Acyclic twoCycle [1] := by
  intro h
  have := h 1 2 ⟨1, by simp, Relation.ReflTransGen.refl⟩
    (Relation.ReflTransGen.single (show Edge twoCycle 1 2 from by unfold Edge; decide))
    (Relation.ReflTransGen.single (show Edge twoCycle 2 1 from by unfold Edge; decide))
  cases this

end Tarjan
