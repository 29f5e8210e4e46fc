import Verif.Graph.Solve
import Mathlib.Algebra.BigOperators.Group.Finset.Sigma
import Mathlib.Data.Fintype.BigOperators

set_option linter.unusedSectionVars false

namespace Graph
open Py
variable {N : Type} {V : Type} [DecidableEq N] [Field V] [DecidableEq V]

/-- The dressed names as a sum type. -/
def wnEquiv : WN N ≃ (N ⊕ Unit) ⊕ (N ⊕ N) where
  toFun
    | .node n => .inl (.inl n)
    | .vac => .inl (.inr ())
    | .inp n => .inr (.inl n)
    | .out n => .inr (.inr n)
  invFun
    | .inl (.inl n) => .node n
    | .inl (.inr _) => .vac
    | .inr (.inl n) => .inp n
    | .inr (.inr n) => .out n
  left_inv := by intro w; cases w <;> rfl
  right_inv := by rintro ((n | n) | (n | n)) <;> rfl

theorem sum_wn [Fintype N] (f : WN N → V) :
    ∑ w, f w = (∑ n, f (.node n)) + f .vac + (∑ n, f (.inp n)) + ∑ n, f (.out n) := by
  rw [Fintype.sum_equiv wnEquiv f (fun s => f (wnEquiv.symm s)) (fun w => by simp)]
  simp only [Fintype.sum_sum_type]
  simp [wnEquiv, add_assoc]

/-- The boundary: nodes whose value is given. -/
def Bnd : Set (WN N) := {w | w = .vac ∨ ∃ i, w = .inp i}

variable [Fintype N]

/-- Start set of `purge_in`. -/
abbrev startIn (ins : List N) : List (WN N) := .vac :: ins.map .inp
/-- Start set of `purge_out`. -/
abbrev startOut (outs : List N) : List (WN N) := outs.map .out

/-- What `prepare` delivers. -/
structure Prepared (g0 g2 : G (WN N) V) (ins outs : List N) : Prop where
  inv : ∃ A, Inv A g2
  ws : Dict.WF g2.seq
  wr : Dict.WF g2.req
  sub : ∀ a b, b ∈ g2.succ a → b ∈ g0.succ a
  keep : ∀ r t, ReachFrom g0.succ (startIn ins) r → ReachFrom g0.pred (startOut outs) t → W g2 r t = W g0 r t
  em : ∀ a b, (Dict.get? g2.em (a, b)).isSome → (Dict.get? g0.em (a, b)).isSome

theorem RTG_filter {α : Type} {E E' : α → α → Prop} {Q : α → Prop} (h : ∀ a b, E a b → Q b → E' a b)
    (hQ : ∀ a b, E a b → Q a → Q b) {a b : α} (ha : Q a) (hab : Relation.ReflTransGen E a b) :
    Relation.ReflTransGen E' a b ∧ Q b := by
  induction hab with
  | refl => exact ⟨.refl, ha⟩
  | tail _ h2 ih => exact ⟨ih.1.tail (h _ _ h2 (hQ _ _ h2 ih.2)), hQ _ _ h2 ih.2⟩

theorem key_of_succ {M : Type} [DecidableEq M] {g : G M V} {a b : M} (h : b ∈ g.succ a) : Dict.has g.seq a = true := by
  unfold G.succ at h
  unfold Dict.has
  cases hg : Dict.get? g.seq a with
  | none => rw [hg] at h; simp at h
  | some v => rfl

/-- Reaching a node along the reversed adjacency. -/
theorem RTG_swap {M : Type} [DecidableEq M] {g : G M V} (hm : ∀ a b, b ∈ g.succ a ↔ a ∈ g.pred b) {s x : M} :
    Relation.ReflTransGen (fun a b => b ∈ g.pred a) s x ↔ Relation.ReflTransGen (fun a b => b ∈ g.succ a) x s := by
  rw [← Relation.reflTransGen_swap]
  have : Function.swap (fun a b => b ∈ g.pred a) = (fun a b => b ∈ g.succ a) := by
    funext a b
    exact propext (hm a b).symm
  rw [this]

theorem prepare_spec {o : Opts N V} (hpick : ∀ l, l ≠ [] → o.pick l ∈ l) {outs ins : List N}
    {src : Option (Dict N V)} {g : G N V} (hv : Valid g) (hsrc : ∀ m, src = some m → Dict.WF m) :
    ∃ g2, prepare o outs ins src g = .ok g2 ∧ Prepared (dressed o.negative outs ins src g) g2 ins outs ∧
      (o.purge_in = true → o.purge_out = true → ∀ a t, t ∈ g2.succ a → g2.succ t = [] → ∃ n ∈ outs, t = .out n) := by
  obtain ⟨hF, -⟩ := dressed_spec (neg := o.negative) (outs := outs) (ins := ins) hv hsrc
  generalize hg0 : dressed o.negative outs ins src g = g0 at hF
  -- first purge
  have h1 : ∃ (g1 : G (WN N) V) (P1 : List (WN N)),
      (if o.purge_in then purge_reqless o.pick (startIn ins) g0 else pure g0) = Except.ok g1 ∧
      (∀ n, ReachFrom g0.succ (startIn ins) n → n ∉ P1) ∧
      (o.purge_in = true → ∀ n, Dict.has g0.seq n = true → n ∉ P1 → ReachFrom g0.succ (startIn ins) n) ∧
      (∃ A, Inv A g1) ∧ Dict.WF g1.seq ∧ Dict.WF g1.req ∧
      (∀ a b, b ∈ g1.succ a ↔ b ∈ g0.succ a ∧ a ∉ P1 ∧ b ∉ P1) ∧
      (∀ a b, W g1 a b = if a ∈ P1 ∨ b ∈ P1 then 0 else W g0 a b) ∧
      (∀ a b, (Dict.get? g1.em (a, b)).isSome → (Dict.get? g0.em (a, b)).isSome) ∧
      (o.purge_in = true → ∀ n, ReachFrom g0.succ (startIn ins) n → Dict.has g1.seq n = true) := by
    by_cases hp : o.purge_in = true
    · rw [if_pos hp]
      obtain ⟨g1, P1, he, hP, hI, ws, wr, hs, hW, hem⟩ := purge_inv hpick true (startIn ins) hF.inv hF.ws hF.wr
      obtain ⟨g1', P1', he', _, _, _, _, hk, _, _⟩ := color_purge_spec hpick true (startIn ins)
        hF.inv.bal.mirror hF.nds hF.ndp hF.ws hF.wr
      have : g1 = g1' := by rw [he] at he'; exact Except.ok.inj he'
      subst this
      simp only [if_true] at hP
      refine ⟨g1, P1, he, ?_, ?_, ⟨_, hI⟩, ws, wr, hs, hW, hem, ?_⟩
      · intro n hn hnP
        exact ((hP n).1 hnP).2 hn
      · intro _ n hk hnP
        by_contra hc
        exact hnP ((hP n).2 ⟨hk, hc⟩)
      · intro _ n hn
        exact (hk n).2 (Or.inr ⟨rfl, hn⟩)
    · rw [if_neg hp]
      exact ⟨g0, [], rfl, by simp, fun h => absurd h hp, ⟨_, hF.inv⟩, hF.ws, hF.wr, by simp, by simp,
        fun _ _ h => h, fun h => absurd h hp⟩
  obtain ⟨g1, P1, he1, hR1, hR1', ⟨A1, hI1⟩, ws1, wr1, hs1, hW1, hem1, hk1⟩ := h1
  have h2 : ∃ (g2 : G (WN N) V) (P2 : List (WN N)),
      (if o.purge_out then purge_seqless o.pick (startOut outs) g1 else pure g1) = Except.ok g2 ∧
      (∀ n, ReachFrom g1.pred (startOut outs) n → n ∉ P2) ∧
      (o.purge_out = true → ∀ n, Dict.has g1.seq n = true → n ∉ P2 → ReachFrom g1.pred (startOut outs) n) ∧
      (∃ A, Inv A g2) ∧ Dict.WF g2.seq ∧ Dict.WF g2.req ∧
      (∀ a b, b ∈ g2.succ a ↔ b ∈ g1.succ a ∧ a ∉ P2 ∧ b ∉ P2) ∧
      (∀ a b, W g2 a b = if a ∈ P2 ∨ b ∈ P2 then 0 else W g1 a b) ∧
      (∀ a b, (Dict.get? g2.em (a, b)).isSome → (Dict.get? g1.em (a, b)).isSome) := by
    by_cases hp : o.purge_out = true
    · rw [if_pos hp]
      obtain ⟨g2, P2, he, hP, hI, ws, wr, hs, hW, hem⟩ := purge_inv hpick false (startOut outs) hI1 ws1 wr1
      simp only [Bool.false_eq_true, if_false] at hP
      refine ⟨g2, P2, he, ?_, ?_, ⟨_, hI⟩, ws, wr, hs, hW, hem⟩
      · intro n hn hnP
        exact ((hP n).1 hnP).2 hn
      · intro _ n hk hnP
        by_contra hc
        exact hnP ((hP n).2 ⟨hk, hc⟩)
    · rw [if_neg hp]
      exact ⟨g1, [], rfl, by simp, fun h => absurd h hp, ⟨_, hI1⟩, ws1, wr1, by simp, by simp, fun _ _ h => h⟩
  obtain ⟨g2, P2, he2, hR2, hR2', hI2, ws2, wr2, hs2, hW2, hem2⟩ := h2
  refine ⟨g2, ?_, ⟨hI2, ws2, wr2, ?_, ?_, ?_⟩, ?_⟩
  · unfold prepare
    have e : dressOutputs o.negative outs (dressInputs ins (match src with
      | none => pre_purge (lift g)
      | some m => dressSources m (pre_purge (lift g)))) = g0 := hg0
    cases src with
    | none =>
      dsimp only at e ⊢
      rw [e]
      by_cases hp : o.purge_in = true
      · rw [if_pos hp] at he1 ⊢
        rw [he1]
        exact he2
      · rw [if_neg hp] at he1 ⊢
        rw [he1]
        exact he2
    | some m =>
      dsimp only at e ⊢
      rw [e]
      by_cases hp : o.purge_in = true
      · rw [if_pos hp] at he1 ⊢
        rw [he1]
        exact he2
      · rw [if_neg hp] at he1 ⊢
        rw [he1]
        exact he2
  · intro a b h
    exact ((hs1 a b).1 ((hs2 a b).1 h).1).1
  · intro r t hr ht
    by_cases hE : t ∈ g0.succ r
    · -- everything on the way to the output is driven, so it survives the first purge
      have hstep : ∀ a b, ReachFrom g0.succ (startIn ins) a → b ∈ g0.succ a → ReachFrom g0.succ (startIn ins) b := by
        rintro a b ⟨s, hs, hab⟩ h
        exact ⟨s, hs, hab.tail h⟩
      have htR := hstep r t hr hE
      have co : ∀ n, ReachFrom g0.succ (startIn ins) n → ReachFrom g0.pred (startOut outs) n →
          ReachFrom g1.pred (startOut outs) n := by
        rintro n hn ⟨s, hs, hp⟩
        refine ⟨s, hs, ?_⟩
        rw [RTG_swap hI1.bal.mirror]
        rw [RTG_swap hF.inv.bal.mirror] at hp
        have : ∀ m, Relation.ReflTransGen (fun a b => b ∈ g0.succ a) n m → ReachFrom g0.succ (startIn ins) m ∧
            Relation.ReflTransGen (fun a b => b ∈ g1.succ a) n m := by
          intro m hm
          induction hm with
          | refl => exact ⟨hn, .refl⟩
          | tail _ h ih =>
            have hb := hstep _ _ ih.1 h
            exact ⟨hb, ih.2.tail ((hs1 _ _).2 ⟨h, hR1 _ ih.1, hR1 _ hb⟩)⟩
        exact (this s hp).2
      have htC := co t htR ht
      have hrC : ReachFrom g1.pred (startOut outs) r := by
        obtain ⟨s, hs, hp⟩ := htC
        refine ⟨s, hs, hp.tail ?_⟩
        exact (hI1.bal.mirror r t).1 ((hs1 r t).2 ⟨hE, hR1 r hr, hR1 t htR⟩)
      rw [hW2, if_neg, hW1, if_neg]
      · rintro (h | h)
        · exact hR1 r hr h
        · exact hR1 t htR h
      · rintro (h | h)
        · exact hR2 r hrC h
        · exact hR2 t htC h
    · have e0 : W g0 r t = 0 := by unfold W; rw [if_neg hE]
      rw [hW2, hW1, e0]
      split <;> [rfl; split <;> rfl]
  · intro a b h
    exact hem1 a b (hem2 a b h)
  · intro hpi hpo a t hat hst
    obtain ⟨h1, ha2, ht2⟩ := (hs2 a t).1 hat
    obtain ⟨h0, ha1, ht1⟩ := (hs1 a t).1 h1
    have haR := hR1' hpi a (key_of_succ h0) ha1
    have htR : ReachFrom g0.succ (startIn ins) t := by
      obtain ⟨s, hs, hp⟩ := haR
      exact ⟨s, hs, hp.tail h0⟩
    obtain ⟨s, hs, hp⟩ := hR2' hpo t (hk1 hpi t htR) ht2
    cases Relation.ReflTransGen.cases_tail hp with
    | inl h =>
      obtain ⟨n, hn, rfl⟩ := List.mem_map.1 hs
      exact ⟨n, hn, h⟩
    | inr h =>
      obtain ⟨u, hu, hut⟩ := h
      exfalso
      have hu2 := hR2 u ⟨s, hs, hu⟩
      have : u ∈ g2.succ t := (hs2 t u).2 ⟨(hI1.bal.mirror t u).2 hut, ht2, hu2⟩
      rw [hst] at this
      simp at this

/-- The system operator of the reduced gains: off the boundary sum the gains, zero on the boundary. -/
noncomputable def opM {M : Type} [Fintype M] (w : M → M → V) (B : Set M) : (M → V) →ₗ[V] (M → V) := by
  classical
  exact
  { toFun := fun f t => if t ∈ B then 0 else ∑ r, w r t * f r
    map_add' := by
      intro f h
      funext t
      by_cases ht : t ∈ B
      · simp [ht]
      · simp only [ht, if_false, Pi.add_apply, mul_add, Finset.sum_add_distrib]
    map_smul' := by
      intro c f
      funext t
      by_cases ht : t ∈ B
      · simp [ht]
      · simp only [ht, if_false, Pi.smul_apply, smul_eq_mul, RingHom.id_apply, Finset.mul_sum]
        apply Finset.sum_congr rfl
        intro r _
        ring }

theorem opM_B {M : Type} [Fintype M] (w : M → M → V) {B : Set M} (f : M → V) {t : M} (h : t ∈ B) : opM w B f t = 0 := by
  simp [opM, h]

theorem opM_T {M : Type} [Fintype M] (w : M → M → V) {B : Set M} (f : M → V) {t : M} (h : t ∉ B) :
    opM w B f t = ∑ r, w r t * f r := by
  simp [opM, h]

/-- The core argument.  `w2` are gains with some edges of `w0` cut, `y` solves them, `x` solves the uncut
system at nodes that are both in `R` (driven) and in `C` (seen) and vanishes off `R`.  Then they agree
on `C`. -/
theorem agree {M : Type} [Fintype M] [DecidableEq M] {w0 w2 : M → M → V} {B R C : Set M} {E : M → M → Prop}
    (hE0 : ∀ r t, w0 r t ≠ 0 → E r t) (hE2 : ∀ r t, w2 r t ≠ 0 → E r t)
    (hR : ∀ r t, E r t → r ∈ R → t ∈ R) (hC : ∀ r t, E r t → t ∈ C → r ∈ C)
    (keep : ∀ r t, r ∈ R → t ∈ C → w2 r t = w0 r t)
    (uniq : ∀ f, Sol w2 Bᶜ f → (∀ b ∈ B, f b = 0) → f = 0)
    {y x : M → V} (hy : Sol w2 Bᶜ y) (hyB : ∀ b ∈ B, b ∉ R → y b = 0) (hxB : ∀ b ∈ B, x b = y b)
    (hx0 : ∀ t, t ∉ R → x t = 0)
    (hx : ∀ t, t ∉ B → t ∈ R → t ∈ C → x t = ∑ r, w0 r t * x r) :
    (∀ t, t ∉ R → y t = 0) ∧ ∀ t ∈ C, y t = x t := by
  classical
  have hinj : ∀ f, f = opM w2 B f → f = 0 := by
    intro f hf
    apply uniq
    · intro t ht
      have := congrFun hf t
      rwa [opM_T _ _ ht] at this
    · intro b hb
      have := congrFun hf b
      rwa [opM_B _ _ hb] at this
  have hyR : ∀ t, t ∉ R → y t = 0 := by
    apply supp_of_injective (opM w2 B) hinj (· ∈ R)
    · intro f hf t ht
      by_cases htB : t ∈ B
      · exact opM_B _ _ htB
      · rw [opM_T _ _ htB]
        apply Finset.sum_eq_zero
        intro r _
        by_cases hr : w2 r t = 0
        · rw [hr, zero_mul]
        · rw [hf r (fun h => ht (hR r t (hE2 r t hr) h)), mul_zero]
    · intro t ht
      by_cases htB : t ∈ B
      · rw [opM_B _ _ htB, hyB t htB ht]
      · rw [opM_T _ _ htB]; exact hy t htB
  refine ⟨hyR, ?_⟩
  -- compare with `x` cut down to `C`
  let d : M → V := fun t => if t ∈ C ∨ t ∈ B then y t - x t else 0
  have hd : ∀ t, ¬ (t ∉ C) → d t = 0 := by
    apply supp_of_injective (opM w2 B) hinj (fun t => t ∉ C)
    · intro f hf t ht
      by_cases htB : t ∈ B
      · exact opM_B _ _ htB
      · rw [opM_T _ _ htB]
        apply Finset.sum_eq_zero
        intro r _
        by_cases hr : w2 r t = 0
        · rw [hr, zero_mul]
        · rw [hf r (not_not.2 (hC r t (hE2 r t hr) (not_not.1 ht))), mul_zero]
    · intro t ht
      have htC : t ∈ C := not_not.1 ht
      by_cases htB : t ∈ B
      · rw [opM_B _ _ htB]
        simp only [d, htB, or_true, if_true, hxB t htB, sub_self]
      · rw [opM_T _ _ htB]
        simp only [d, htC, true_or, if_true]
        have hdr : ∀ r, w2 r t * (if r ∈ C ∨ r ∈ B then y r - x r else 0) = w2 r t * y r - w2 r t * x r := by
          intro r
          by_cases hr : w2 r t = 0
          · rw [hr]; ring
          · rw [if_pos (Or.inl (hC r t (hE2 r t hr) htC))]; ring
        rw [Finset.sum_congr rfl (fun r _ => hdr r), Finset.sum_sub_distrib, ← hy t htB]
        congr 1
        by_cases htR : t ∈ R
        · rw [hx t htB htR htC]
          apply Finset.sum_congr rfl
          intro r _
          by_cases hrR : r ∈ R
          · rw [keep r t hrR htC]
          · rw [hx0 r hrR, mul_zero, mul_zero]
        · rw [hx0 t htR]
          symm
          apply Finset.sum_eq_zero
          intro r _
          by_cases hr : w2 r t = 0
          · rw [hr, zero_mul]
          · rw [hx0 r (fun h => htR (hR r t (hE2 r t hr) h)), mul_zero]
  intro t ht
  have := hd t (not_not.2 ht)
  simp only [d, ht, true_or, if_true] at this
  exact sub_eq_zero.1 this

end Graph
