import Verif.Graph.User

set_option linter.unusedSectionVars false

namespace Graph
open Py
variable {N : Type} {V : Type} [DecidableEq N] [Field V] [DecidableEq V]

theorem unwrapOutputs_get (g : G (WN N) V) (outs : List N) (k : N) :
    Dict.get? (unwrapOutputs outs g) k = if k ∈ outs then Dict.get? g.em (.vac, .out k) else none := by
  have : ∀ (l : List N) (m : Dict N V),
      Dict.get? (l.foldl (outStep g) m) k =
      if k ∈ l then (Dict.get? g.em (.vac, .out k)).or (Dict.get? m k) else Dict.get? m k := by
    intro l
    induction l with
    | nil => intro m; simp
    | cons o l ih =>
      intro m
      rw [List.foldl_cons, ih]
      unfold outStep
      cases hg : Dict.get? g.em (.vac, .out o) with
      | none =>
        dsimp only
        by_cases hk : k = o
        · subst hk; simp [hg]
        · simp [hk]
      | some v =>
        dsimp only
        rw [Dict.get?_set]
        by_cases hk : k = o
        · subst hk; simp [hg]
        · simp [hk, Ne.symm hk]
  unfold unwrapOutputs
  rw [this]
  simp

theorem unwrapInput_spec (g : G (WN N) V) (i : N) : ∀ (ws : List (WN N)) (m m' : Dict (N × N) V),
    unwrapInput g i ws m = .ok m' → (∀ w ∈ ws, ∃ n, w = .out n) ∧ ∀ a b, Dict.get? m' (a, b) =
      if a = i ∧ .out b ∈ ws then Dict.get? g.em (.inp i, .out b) else Dict.get? m (a, b) := by
  intro ws
  induction ws with
  | nil =>
    intro m m' h
    cases h
    exact ⟨by simp, by simp⟩
  | cons w ws ih =>
    intro m m' h
    unfold unwrapInput at h
    simp only [bind, Except.bind] at h
    cases hg : g.edge (.inp i) w with
    | error e => rw [hg] at h; cases h
    | ok v =>
      rw [hg] at h
      have hgv : Dict.get? g.em (.inp i, w) = some v := by
        unfold G.edge Dict.get at hg
        cases hh : Dict.get? g.em (.inp i, w) with
        | none => rw [hh] at hg; cases hg
        | some u => rw [hh] at hg; cases hg; rfl
      cases w with
      | out o =>
        dsimp only at h
        obtain ⟨h1, h2⟩ := ih _ _ h
        refine ⟨?_, ?_⟩
        · intro w hw
          rcases List.mem_cons.1 hw with rfl | hw
          · exact ⟨o, rfl⟩
          · exact h1 w hw
        · intro a b
          rw [h2, Dict.get?_set]
          simp only [List.mem_cons, WN.out.injEq, Prod.mk.injEq]
          by_cases ha : a = i
          · subst ha
            by_cases hb : b = o
            · subst hb
              by_cases hm : WN.out b ∈ ws <;> simp [hm, hgv]
            · simp [hb, Ne.symm hb]
          · simp [ha, Ne.symm ha]
      | node n => cases h
      | vac => cases h
      | inp n => cases h

theorem unwrapInput_ok (g : G (WN N) V) (i : N) : ∀ (ws : List (WN N)) (m : Dict (N × N) V),
    (∀ w ∈ ws, (∃ n, w = .out n) ∧ (Dict.get? g.em (.inp i, w)).isSome) → ∃ m', unwrapInput g i ws m = .ok m' := by
  intro ws
  induction ws with
  | nil => intro m _; exact ⟨m, rfl⟩
  | cons w ws ih =>
    intro m h
    obtain ⟨⟨o, rfl⟩, hs⟩ := h w (by simp)
    obtain ⟨v, hv⟩ := Option.isSome_iff_exists.1 hs
    unfold unwrapInput
    rw [G.edge_ok _ hv]
    exact ih _ (fun w hw => h w (List.mem_cons_of_mem _ hw))

theorem unwrapEdges_spec (g : G (WN N) V) : ∀ (is : List N) (m m' : Dict (N × N) V),
    unwrapEdges g is m = .ok m' → ∀ a b, Dict.get? m' (a, b) =
      if a ∈ is ∧ .out b ∈ g.succ (.inp a) then Dict.get? g.em (.inp a, .out b) else Dict.get? m (a, b) := by
  intro is
  induction is with
  | nil => intro m m' h; cases h; simp
  | cons i is ih =>
    intro m m' h a b
    unfold unwrapEdges at h
    simp only [bind, Except.bind] at h
    cases hu : unwrapInput g i (g.succ (.inp i)) m with
    | error e => rw [hu] at h; cases h
    | ok m1 =>
      rw [hu] at h
      rw [ih _ _ h, (unwrapInput_spec g i _ _ _ hu).2]
      simp only [List.mem_cons]
      by_cases ha : a = i
      · subst ha
        by_cases hb : WN.out b ∈ g.succ (.inp a) <;> simp [hb]
      · simp [ha]

theorem unwrapEdges_ok (g : G (WN N) V) : ∀ (is : List N) (m : Dict (N × N) V),
    (∀ i w, w ∈ g.succ (.inp i) → (∃ n, w = .out n) ∧ (Dict.get? g.em (.inp i, w)).isSome) →
    ∃ m', unwrapEdges g is m = .ok m' := by
  intro is
  induction is with
  | nil => intro m _; exact ⟨m, rfl⟩
  | cons i is ih =>
    intro m h
    obtain ⟨m1, h1⟩ := unwrapInput_ok g i (g.succ (.inp i)) m (fun w hw => h i w hw)
    obtain ⟨m2, h2⟩ := ih m1 h
    refine ⟨m2, ?_⟩
    unfold unwrapEdges
    rw [h1]
    exact h2

variable [Fintype N]

/-- What a run of the solver is: it fails with a division by zero, or it reduces the prepared graph. -/
theorem solve_cases {o : Opts N V} (hpick : ∀ l, l ≠ [] → o.pick l ∈ l) {outs ins : List N}
    {src : Option (Dict N V)} {g : G N V} (hv : Valid g) (hsrc : ∀ m, src = some m → Dict.WF m) :
    ∃ g2, Prepared (dressed o.negative outs ins src g) g2 ins outs ∧
      (inverse_solve o outs ins src g = .error .zeroDivision ∨
       ∃ g3 L, Simplified g2 L Bnd (W g3) ∧
        (∀ b ∈ Bnd, ∀ n, (Dict.get? g3.em (b, .out n)).getD 0 = W g3 b (.out n)) ∧
        (o.purge_in = true → o.purge_out = true → ∃ e, unwrapEdges g3 ins [] = .ok e) ∧
        inverse_solve o outs ins src g =
          (unwrapEdges g3 ins []).map (fun e => (src.map (fun _ => unwrapOutputs outs g3), e))) := by
  obtain ⟨g2, he, hP, hout⟩ := prepare_spec hpick (outs := outs) (ins := ins) hv hsrc
  obtain ⟨A, hI⟩ := hP.inv
  have hE := succ_dressed (neg := o.negative) (outs := outs) (ins := ins) hv hsrc
  have hm := mirror_dressed (neg := o.negative) (outs := outs) (ins := ins) hv hsrc
  obtain ⟨_, hem0⟩ := dressed_spec (neg := o.negative) (outs := outs) (ins := ins) hv hsrc
  have predB : ∀ b ∈ (Bnd : Set (WN N)), g2.pred b = [] := by
    intro b hb
    by_contra hne
    obtain ⟨c, hc⟩ := List.exists_mem_of_ne_nil _ hne
    have := (hE c b).1 (hP.sub c b ((hI.bal.mirror c b).2 hc))
    rcases hb with rfl | ⟨i, rfl⟩ <;> cases c <;> exact this.elim
  have succOut : ∀ n, g2.succ (.out n) = [] := by
    intro n
    by_contra hne
    obtain ⟨c, hc⟩ := List.exists_mem_of_ne_nil _ hne
    have := (hE _ c).1 (hP.sub _ c hc)
    cases c <;> exact this.elim
  refine ⟨g2, hP, ?_⟩
  unfold inverse_solve
  simp only [bind, Except.bind, he]
  rcases simplify_spec o.lt o.size hI hP.ws hP.wr with hz | ⟨g3, L, hs, hnd, hL, hR⟩
  · left
    rw [hz]
  · right
    refine ⟨g3, L, ⟨hnd, hL, hR.pivots, hR.gains, hI.bal.mirror, ?_, predB⟩, ?_, ?_, ?_⟩
    · intro a b hab
      apply (hR.adj a b).1
      by_contra hc
      exact hab (by unfold W; rw [if_neg hc])
    · intro b hb n
      unfold W
      by_cases hc : WN.out n ∈ g3.succ b
      · rw [if_pos hc]
      · rw [if_neg hc]
        cases hg : Dict.get? g3.em (b, .out n) with
        | none => rfl
        | some v =>
          exfalso
          apply hc
          have hsome : (Dict.get? g3.em (b, .out n)).isSome := by rw [hg]; rfl
          rcases hR.em_new _ _ hsome with h | ⟨h1, h2⟩
          · have := hP.em _ _ h
            rw [hem0] at this
            rcases hb with rfl | ⟨i, rfl⟩ <;> simp at this
          · apply hR.inv.used _ _ ⟨h1, ?_⟩ ⟨h2, ?_⟩ hsome
            · intro hbL
              exact ((hL _).1 hbL).2 (predB b hb)
            · intro hnL
              exact ((hL _).1 hnL).1 (succOut n)
    · intro hpi hpo
      apply unwrapEdges_ok
      intro i w hw
      refine ⟨?_, hR.inv.bal.valued _ _ hw⟩
      obtain ⟨_, hwL, hvia⟩ := (hR.adj _ _).1 hw
      obtain ⟨_, ⟨c, hc⟩⟩ := via_reach hvia
      have hpw : g2.pred w ≠ [] := by
        have := (hI.bal.mirror c w).1 hc
        intro h; rw [h] at this; simp at this
      have hsw : g2.succ w = [] := by
        by_contra h
        exact hwL ((hL w).2 ⟨h, hpw⟩)
      obtain ⟨n, _, rfl⟩ := hout hpi hpo c w hc hsw
      exact ⟨n, rfl⟩
    · rw [hs]
      dsimp only
      cases hu : unwrapEdges g3 ins [] with
      | error e => rfl
      | ok e => rfl

end Graph
