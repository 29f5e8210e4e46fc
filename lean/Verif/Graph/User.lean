import Verif.Graph.Final

set_option linter.unusedSectionVars false

namespace Graph
open Py
variable {N : Type} {V : Type} [DecidableEq N] [Field V] [DecidableEq V] [Fintype N]

section dressedGraph
variable {neg : Bool} {outs ins : List N} {src : Option (Dict N V)} {g : G N V}

/-- Nodes named by the optional source map. -/
def srcKeys (src : Option (Dict N V)) : List N := (src.map Dict.keys).getD []

/-- Values of the optional source map. -/
def srcVal (src : Option (Dict N V)) (n : N) : V := (src.bind (fun m => Dict.get? m n)).getD 0

theorem mem_srcKeys {src : Option (Dict N V)} {n : N} :
    n ∈ srcKeys src ↔ (src.bind (fun m => Dict.get? m n)).isSome := by
  cases src with
  | none => simp [srcKeys]
  | some m => simp [srcKeys, Dict.mem_keys_iff]

theorem sum_node (hv : Valid g) (hsrc : ∀ m, src = some m → Dict.WF m) (f : WN N → V) (n : N) :
    ∑ r, W (dressed neg outs ins src g) r (.node n) * f r =
      (∑ a, gain g a n * f (.node a)) + srcVal src n * f .vac + if n ∈ ins then f (.inp n) else 0 := by
  obtain ⟨hF, hem⟩ := dressed_spec (neg := neg) (outs := outs) (ins := ins) hv hsrc
  rw [sum_wn]
  simp only [hF.W, hem]
  have e1 : (∑ a, (if a = n ∧ a ∈ ins then some (1 : V) else none).getD 0 * f (.inp a)) =
      if n ∈ ins then f (.inp n) else 0 := by
    rw [Finset.sum_eq_single n]
    · by_cases h : n ∈ ins <;> simp [h]
    · intro b _ hb; simp [hb]
    · intro h; exact absurd (Finset.mem_univ n) h
  rw [e1]
  simp [gain, srcVal]

theorem sum_out (hv : Valid g) (hsrc : ∀ m, src = some m → Dict.WF m) (f : WN N → V) (n : N) :
    ∑ r, W (dressed neg outs ins src g) r (.out n) * f r = if n ∈ outs then sgn neg * f (.node n) else 0 := by
  obtain ⟨hF, hem⟩ := dressed_spec (neg := neg) (outs := outs) (ins := ins) hv hsrc
  rw [sum_wn]
  simp only [hF.W, hem]
  have e1 : (∑ a, (if a = n ∧ a ∈ outs then some (if neg = true then (-1 : V) else 1) else none).getD 0 * f (.node a)) =
      if n ∈ outs then sgn neg * f (.node n) else 0 := by
    rw [Finset.sum_eq_single n]
    · by_cases h : n ∈ outs <;> simp [h, sgn]
    · intro b _ hb; simp [hb]
    · intro h; exact absurd (Finset.mem_univ n) h
  rw [e1]
  simp

theorem succ_dressed (hv : Valid g) (hsrc : ∀ m, src = some m → Dict.WF m) (c d : WN N) :
    d ∈ (dressed neg outs ins src g).succ c ↔ match c, d with
      | .node a, .node b => Edge g a b
      | .vac, .node b => b ∈ srcKeys src
      | .inp i, .node j => i = j ∧ i ∈ ins
      | .node i, .out j => i = j ∧ i ∈ outs
      | _, _ => False := by
  obtain ⟨hF, hem⟩ := dressed_spec (neg := neg) (outs := outs) (ins := ins) hv hsrc
  rw [hF.s, hem]
  cases c <;> cases d <;> simp only [Edge, mem_srcKeys, Option.isSome_none, Bool.false_eq_true]
  · rename_i i j
    by_cases h : i = j ∧ i ∈ outs
    · rw [if_pos h]; exact ⟨fun _ => h, fun _ => rfl⟩
    · rw [if_neg h]; exact ⟨fun hh => by simp at hh, fun hh => absurd hh h⟩
  · rename_i i j
    by_cases h : i = j ∧ i ∈ ins
    · rw [if_pos h]; exact ⟨fun _ => h, fun _ => rfl⟩
    · rw [if_neg h]; exact ⟨fun hh => by simp at hh, fun hh => absurd hh h⟩

/-- A user node is reached by the first purge exactly when it is driven. -/
theorem reach_node (hv : Valid g) (hsrc : ∀ m, src = some m → Dict.WF m) (n : N) :
    ReachFrom (dressed neg outs ins src g).succ (startIn ins) (.node n) ↔ Driven g (srcKeys src ++ ins) n := by
  have hE := succ_dressed (neg := neg) (outs := outs) (ins := ins) hv hsrc
  constructor
  · rintro ⟨s, hs, hr⟩
    have : ∀ w, Relation.ReflTransGen (fun a b => b ∈ (dressed neg outs ins src g).succ a) s w →
        match w with
        | .node n => Driven g (srcKeys src ++ ins) n
        | .vac => True
        | .inp i => i ∈ ins
        | .out _ => True := by
      intro w hw
      induction hw with
      | refl =>
        rcases List.mem_cons.1 hs with rfl | h
        · trivial
        · obtain ⟨i, hi, rfl⟩ := List.mem_map.1 h
          exact hi
      | @tail b c _ h ih =>
        have h' := (hE b c).1 h
        cases b <;> cases c <;> try (exact h'.elim)
        · obtain ⟨s, hs, hp⟩ := ih
          exact ⟨s, hs, hp.tail h'⟩
        · trivial
        · exact ⟨_, List.mem_append_left _ h', .refl⟩
        · obtain ⟨rfl, hi⟩ := h'
          exact ⟨_, List.mem_append_right _ hi, .refl⟩
    exact this _ hr
  · rintro ⟨s, hs, hp⟩
    have h0 : ReachFrom (dressed neg outs ins src g).succ (startIn ins) (.node s) := by
      rcases List.mem_append.1 hs with h | h
      · exact ⟨.vac, by simp, .single ((hE .vac (.node s)).2 h)⟩
      · exact ⟨.inp s, by simp [h], .single ((hE (.inp s) (.node s)).2 ⟨rfl, h⟩)⟩
    induction hp with
    | refl => exact h0
    | @tail b c _ h ih =>
      obtain ⟨s', hs', hp'⟩ := ih
      exact ⟨s', hs', hp'.tail ((hE (.node b) (.node c)).2 h)⟩

theorem mirror_dressed (hv : Valid g) (hsrc : ∀ m, src = some m → Dict.WF m) (a b : WN N) :
    b ∈ (dressed neg outs ins src g).succ a ↔ a ∈ (dressed neg outs ins src g).pred b := by
  obtain ⟨hF, _⟩ := dressed_spec (neg := neg) (outs := outs) (ins := ins) hv hsrc
  rw [hF.s, hF.p]

theorem coreach_out (ins : List N) {n : N} (hn : n ∈ outs) :
    ReachFrom (dressed neg outs ins src g).pred (startOut outs) (.out n) :=
  ⟨.out n, by simp [hn], .refl⟩

/-- A user node is reached by the second purge exactly when it is seen. -/
theorem coreach_node (hv : Valid g) (hsrc : ∀ m, src = some m → Dict.WF m) (n : N) :
    ReachFrom (dressed neg outs ins src g).pred (startOut outs) (.node n) ↔ Seen g outs n := by
  have hE := succ_dressed (neg := neg) (outs := outs) (ins := ins) hv hsrc
  have hm := mirror_dressed (neg := neg) (outs := outs) (ins := ins) hv hsrc
  constructor
  · rintro ⟨s, hs, hr⟩
    have : ∀ w, Relation.ReflTransGen (fun a b => b ∈ (dressed neg outs ins src g).pred a) s w →
        match w with
        | .node n => Seen g outs n
        | .out i => i ∈ outs
        | _ => True := by
      intro w hw
      induction hw with
      | refl =>
        obtain ⟨i, hi, rfl⟩ := List.mem_map.1 hs
        exact hi
      | @tail b c _ h ih =>
        have h' := (hE c b).1 ((hm c b).2 h)
        cases c <;> cases b <;> try (exact h'.elim)
        · obtain ⟨o, ho, hp⟩ := ih
          exact ⟨o, ho, hp.head h'⟩
        · obtain ⟨rfl, hi⟩ := h'
          exact ⟨_, hi, .refl⟩
        · trivial
        · trivial
    exact this _ hr
  · rintro ⟨o, ho, hp⟩
    have h0 : ReachFrom (dressed neg outs ins src g).pred (startOut outs) (.node o) :=
      ⟨.out o, by simp [ho], .single ((hm _ _).1 ((hE (.node o) (.out o)).2 ⟨rfl, ho⟩))⟩
    induction hp using Relation.ReflTransGen.head_induction_on with
    | refl => exact h0
    | @head a c h _ ih =>
      obtain ⟨s', hs', hp'⟩ := ih
      exact ⟨s', hs', hp'.tail ((hm _ _).1 ((hE (.node a) (.node c)).2 h))⟩

theorem reach_out (hv : Valid g) (hsrc : ∀ m, src = some m → Dict.WF m) (n : N) :
    ReachFrom (dressed neg outs ins src g).succ (startIn ins) (.out n) →
      n ∈ outs ∧ Driven g (srcKeys src ++ ins) n := by
  have hE := succ_dressed (neg := neg) (outs := outs) (ins := ins) hv hsrc
  rintro ⟨s, hs, hr⟩
  cases Relation.ReflTransGen.cases_tail hr with
  | inl h =>
    rcases List.mem_cons.1 hs with h' | h'
    · rw [h'] at h; cases h
    · obtain ⟨i, _, hi⟩ := List.mem_map.1 h'
      rw [← hi] at h; cases h
  | inr h =>
    obtain ⟨u, hu, h2⟩ := h
    have h' := (hE u (.out n)).1 h2
    cases u <;> try (exact h'.elim)
    rename_i m
    obtain ⟨rfl, ho⟩ := h'
    exact ⟨ho, (reach_node (neg := neg) (outs := outs) hv hsrc m).1 ⟨s, hs, hu⟩⟩

end dressedGraph

/-- Extension of a node assignment to the dressed graph with source strength `v` and input drives `c`. -/
def hat (neg : Bool) (outs ins : List N) (v : V) (c : N → V) (x : N → V) : WN N → V
  | .node n => x n
  | .vac => v
  | .inp i => if i ∈ ins then c i else 0
  | .out o => if o ∈ outs then sgn neg * x o else 0

/-- All that a finished solve tells about the gains `w'` it leaves. -/
theorem transfer {neg : Bool} {outs ins : List N} {src : Option (Dict N V)} {g : G N V}
    (hv : Valid g) (hsrc : ∀ m, src = some m → Dict.WF m) {g2 : G (WN N) V} {L : List (WN N)}
    {w' : WN N → WN N → V}
    (hP : Prepared (dressed neg outs ins src g) g2 ins outs) (hS : Simplified g2 L Bnd w') (v : V) (c : N → V) :
    (∃ x, Solves g (srcKeys src ++ ins) outs (fun n => srcVal src n * v + if n ∈ ins then c n else 0) x) ∧
    (∀ x, Solves g (srcKeys src ++ ins) outs (fun n => srcVal src n * v + if n ∈ ins then c n else 0) x →
      ∀ t ∈ outs, sgn neg * x t = w' .vac (.out t) * v + ∑ i, if i ∈ ins then w' (.inp i) (.out t) * c i else 0) ∧
    (∀ x x', Solves g (srcKeys src ++ ins) outs (fun n => srcVal src n * v + if n ∈ ins then c n else 0) x →
      Solves g (srcKeys src ++ ins) outs (fun n => srcVal src n * v + if n ∈ ins then c n else 0) x' →
      ∀ n, Seen g outs n → x n = x' n) := by
  classical
  obtain ⟨hF, hem⟩ := dressed_spec (neg := neg) (outs := outs) (ins := ins) hv hsrc
  have hE := succ_dressed (neg := neg) (outs := outs) (ins := ins) hv hsrc
  have hm := mirror_dressed (neg := neg) (outs := outs) (ins := ins) hv hsrc
  have hrn := reach_node (neg := neg) (outs := outs) (ins := ins) hv hsrc
  have hcn := coreach_node (neg := neg) (outs := outs) (ins := ins) hv hsrc
  have hsn := sum_node (neg := neg) (outs := outs) (ins := ins) hv hsrc
  have hso := sum_out (neg := neg) (outs := outs) (ins := ins) hv hsrc
  have hro := reach_out (neg := neg) (outs := outs) (ins := ins) hv hsrc
  have hco : ∀ {n}, n ∈ outs → ReachFrom (dressed neg outs ins src g).pred (startOut outs) (.out n) :=
    fun h => coreach_out (neg := neg) (src := src) (g := g) ins h
  generalize dressed neg outs ins src g = g0 at *
  have hE2 : ∀ r t, W g2 r t ≠ 0 → t ∈ g0.succ r := by
    intro r t h
    apply hP.sub
    by_contra hc
    exact h (by unfold W; rw [if_neg hc])
  have hE0 : ∀ r t, W g0 r t ≠ 0 → t ∈ g0.succ r := by
    intro r t h
    by_contra hc
    exact h (by unfold W; rw [if_neg hc])
  have hR : ∀ r t, t ∈ g0.succ r → ReachFrom g0.succ (startIn ins) r → ReachFrom g0.succ (startIn ins) t := by
    rintro r t h ⟨s, hs, hp⟩
    exact ⟨s, hs, hp.tail h⟩
  have hC : ∀ r t, t ∈ g0.succ r → ReachFrom g0.pred (startOut outs) t → ReachFrom g0.pred (startOut outs) r := by
    rintro r t h ⟨s, hs, hp⟩
    exact ⟨s, hs, hp.tail ((hm r t).1 h)⟩
  have uniq : ∀ f, Sol (W g2) Bndᶜ f → (∀ b ∈ Bnd, f b = 0) → f = 0 := fun f h h0 => hS.unique h h0
  obtain ⟨y, hy, hyb⟩ := hS.exists (hat neg outs ins v c 0)
  have hyB : ∀ b ∈ Bnd, ¬ ReachFrom g0.succ (startIn ins) b → y b = 0 := by
    intro b hb hn
    rw [hyb b hb]
    rcases hb with rfl | ⟨i, rfl⟩
    · exact absurd ⟨.vac, by simp, .refl⟩ hn
    · show (if i ∈ ins then c i else 0) = 0
      rw [if_neg]
      intro hi
      exact hn ⟨.inp i, by simp [hi], .refl⟩
  have hyvac : y .vac = v := hyb .vac (Or.inl rfl)
  have hyinp : ∀ i, y (.inp i) = if i ∈ ins then c i else 0 := fun i => hyb (.inp i) (Or.inr ⟨i, rfl⟩)
  have hnode : ∀ n, WN.node n ∉ (Bnd : Set (WN N)) := by
    rintro n (h | ⟨i, h⟩) <;> cases h
  have hout : ∀ n, WN.out n ∉ (Bnd : Set (WN N)) := by
    rintro n (h | ⟨i, h⟩) <;> cases h
  have outNotL : ∀ n, WN.out n ∉ L := by
    intro n h
    have := ((hS.mem _).1 h).1
    obtain ⟨d, hd⟩ := List.exists_mem_of_ne_nil _ this
    have := (hE _ _).1 (hP.sub _ _ hd)
    cases d <;> simp at this
  have hyout : ∀ t, y (.out t) = w' .vac (.out t) * v + ∑ i, if i ∈ ins then w' (.inp i) (.out t) * c i else 0 := by
    intro t
    rw [hS.value hy (outNotL t) (hout t), sum_wn]
    have e1 : (∑ n, if WN.node n ∈ (Bnd : Set (WN N)) then w' (.node n) (.out t) * y (.node n) else 0) = 0 := by
      apply Finset.sum_eq_zero; intro n _; rw [if_neg (hnode n)]
    have e2 : (∑ n, if WN.out n ∈ (Bnd : Set (WN N)) then w' (.out n) (.out t) * y (.out n) else 0) = 0 := by
      apply Finset.sum_eq_zero; intro n _; rw [if_neg (hout n)]
    have hvB : (WN.vac : WN N) ∈ (Bnd : Set (WN N)) := Or.inl rfl
    rw [e1, e2, if_pos hvB, hyvac, zero_add, add_zero]
    congr 1
    apply Finset.sum_congr rfl
    intro i _
    have hiB : (WN.inp i : WN N) ∈ (Bnd : Set (WN N)) := Or.inr ⟨i, rfl⟩
    rw [if_pos hiB, hyinp]
    split <;> simp
  have main : ∀ x, Solves g (srcKeys src ++ ins) outs (fun n => srcVal src n * v + if n ∈ ins then c n else 0) x →
      (∀ t, ¬ ReachFrom g0.succ (startIn ins) t → y t = 0) ∧
      ∀ t, ReachFrom g0.pred (startOut outs) t → y t = hat neg outs ins v c x t := by
    intro x hx
    refine agree (w0 := W g0) (w2 := W g2) (B := Bnd) (R := {t | ReachFrom g0.succ (startIn ins) t})
      (C := {t | ReachFrom g0.pred (startOut outs) t}) (E := fun a b => b ∈ g0.succ a) hE0 hE2 hR hC hP.keep uniq hy
      hyB ?_ ?_ ?_
    · intro b hb
      rw [hyb b hb]
      rcases hb with rfl | ⟨i, rfl⟩ <;> rfl
    · intro t ht
      have ht : ¬ ReachFrom g0.succ (startIn ins) t := ht
      cases t with
      | node n => exact hx.rest n (fun h => ht ((hrn n).2 h))
      | vac => exact absurd ⟨.vac, by simp, .refl⟩ ht
      | inp i =>
        show (if i ∈ ins then c i else 0) = 0
        rw [if_neg]
        intro hi
        exact ht ⟨.inp i, by simp [hi], .refl⟩
      | out o =>
        show (if o ∈ outs then sgn neg * x o else 0) = 0
        split
        · rename_i ho
          rw [hx.rest o, mul_zero]
          intro hd
          exact ht (hR _ _ ((hE (.node o) (.out o)).2 ⟨rfl, ho⟩) ((hrn o).2 hd))
        · rfl
    · intro t htB htR htC
      cases t with
      | node n =>
        rw [hsn]
        show x n = (∑ a, gain g a n * x a) + srcVal src n * v + if n ∈ ins then (if n ∈ ins then c n else 0) else 0
        rw [hx.eqn n ((hrn n).1 htR) ((hcn n).1 htC)]
        by_cases hn : n ∈ ins <;> simp [hn, add_assoc]
      | vac => exact absurd (Or.inl rfl) htB
      | inp i => exact absurd (Or.inr ⟨i, rfl⟩) htB
      | out o => rw [hso]; rfl
  refine ⟨?_, ?_, ?_⟩
  · -- y itself is at rest on undriven nodes
    have hyR : ∀ t, ¬ ReachFrom g0.succ (startIn ins) t → y t = 0 := by
      have hinj : ∀ f, f = opM (W g2) Bnd f → f = 0 := by
        intro f hf
        apply uniq
        · intro t ht
          have := congrFun hf t
          rwa [opM_T _ _ ht] at this
        · intro b hb
          have := congrFun hf b
          rwa [opM_B _ _ hb] at this
      apply supp_of_injective (opM (W g2) Bnd) hinj (fun t => ReachFrom g0.succ (startIn ins) t)
      · intro f hf t ht
        by_cases htB : t ∈ (Bnd : Set (WN N))
        · exact opM_B _ _ htB
        · rw [opM_T _ _ htB]
          apply Finset.sum_eq_zero
          intro r _
          by_cases hr : W g2 r t = 0
          · rw [hr, zero_mul]
          · rw [hf r (fun h => ht (hR r t (hE2 r t hr) h)), mul_zero]
      · intro t ht
        by_cases htB : t ∈ (Bnd : Set (WN N))
        · rw [opM_B _ _ htB, hyB t htB ht]
        · rw [opM_T _ _ htB]; exact hy t htB
    refine ⟨fun n => y (.node n), ⟨fun n hn => hyR _ (fun h => hn ((hrn n).1 h)), ?_⟩⟩
    intro n hd hs
    have e : y (.node n) = ∑ r, W g0 r (.node n) * y r := by
      rw [hy (.node n) (hnode n)]
      apply Finset.sum_congr rfl
      intro r _
      by_cases hr : ReachFrom g0.succ (startIn ins) r
      · rw [hP.keep r (.node n) hr ((hcn n).2 hs)]
      · rw [hyR r hr, mul_zero, mul_zero]
    show y (.node n) = _
    rw [e, hsn, hyvac, hyinp]
    by_cases hn : n ∈ ins <;> simp [hn, add_assoc]
  · intro x hx t ht
    rw [← hyout t, (main x hx).2 (.out t) (hco ht)]
    show _ = (if t ∈ outs then sgn neg * x t else 0)
    rw [if_pos ht]
  · intro x x' hx hx' n hn
    have h1 := (main x hx).2 (.node n) ((hcn n).2 hn)
    have h2 := (main x' hx').2 (.node n) ((hcn n).2 hn)
    exact h1.symm.trans h2

end Graph
