import Verif.Graph.Props

set_option linter.unusedSectionVars false

/-!
# Solutions seen from different outputs fit together
-/

namespace Graph
open Py
variable {N : Type} {V : Type} [DecidableEq N] [Field V] [DecidableEq V] [Fintype N]

theorem edge_of_gain {g : G N V} {a b : N} (h : gain g a b ≠ 0) : Edge g a b := by
  unfold Edge
  unfold gain at h
  cases hh : Dict.get? g.em (a, b) with
  | none => rw [hh] at h; exact absurd rfl h
  | some v => rfl

theorem seen_pred {g : G N V} {O : List N} {a b : N} (h : Edge g a b) (hb : Seen g O b) : Seen g O a := by
  obtain ⟨o, ho, hp⟩ := hb
  exact ⟨o, ho, .head h hp⟩

/-- Edges whose source is not driven, or whose target is not seen, can be left out. -/
theorem solves_of_purged {g g' : G N V} {S O : List N} {s x : N → V}
    (hle : ∀ a b v, Dict.get? g'.em (a, b) = some v → Dict.get? g.em (a, b) = some v)
    (hge : ∀ a b, Edge g a b → Driven g S a → Seen g O b → Edge g' a b)
    (h : Solves g' S O s x) : Solves g S O s x := by
  have hle' : ∀ a b, Edge g' a b → Edge g a b := by
    intro a b hab
    unfold Edge at hab ⊢
    rw [Option.isSome_iff_exists] at hab ⊢
    obtain ⟨v, hv⟩ := hab
    exact ⟨v, hle a b v hv⟩
  have hd : ∀ a b, Relation.ReflTransGen (Edge g) a b → Driven g' S a → Seen g O b →
      (Driven g S a) → Relation.ReflTransGen (Edge g') a b := by
    intro a b hab _ hb ha
    induction hab with
    | refl => exact .refl
    | tail h1 h2 ih =>
      refine (ih (seen_pred h2 hb)).tail (hge _ _ h2 ?_ hb)
      obtain ⟨s, hs, hsa⟩ := ha
      exact ⟨s, hs, hsa.trans h1⟩
  have hdr : ∀ n, Driven g' S n → Driven g S n := by
    rintro n ⟨s, hs, hsn⟩
    exact ⟨s, hs, Relation.ReflTransGen.mono hle' _ _ hsn⟩
  have hdr' : ∀ n, Driven g S n → Seen g O n → Driven g' S n := by
    rintro n ⟨s, hs, hsn⟩ hn
    exact ⟨s, hs, hd s n hsn ⟨s, hs, .refl⟩ hn ⟨s, hs, .refl⟩⟩
  refine ⟨fun n hn => h.rest n (fun hh => hn (hdr n hh)), ?_⟩
  intro n hn hO
  have hn' := hdr' n hn hO
  have hO' : Seen g' O n := by
    obtain ⟨o, ho, hp⟩ := hO
    exact ⟨o, ho, hd n o hp hn' ⟨o, ho, .refl⟩ hn⟩
  rw [h.eqn n hn' hO']
  congr 1
  apply Finset.sum_congr rfl
  intro r _
  by_cases he : Edge g' r n
  · unfold Edge at he
    obtain ⟨v, hv⟩ := Option.isSome_iff_exists.1 he
    unfold gain
    rw [hv, hle r n v hv]
  · have h0 : gain g' r n = 0 := by
      by_contra h0
      exact he (edge_of_gain h0)
    rw [h0, zero_mul]
    by_cases hg : gain g r n = 0
    · rw [hg, zero_mul]
    · have hx : x r = 0 := by
        apply h.rest
        intro hr
        exact he (hge r n (edge_of_gain hg) (hdr r hr) hO)
      rw [hx, mul_zero]

/-- the operator whose fixed vectors are the solutions without a source -/
noncomputable def homOp (g : G N V) (S R : List N) : (N → V) →ₗ[V] (N → V) := by
  classical
  exact
  { toFun := fun f t => if Driven g S t ∧ Seen g R t then ∑ r, gain g r t * f r else 0
    map_add' := by
      intro f f'
      funext t
      simp only [Pi.add_apply]
      split
      · rw [← Finset.sum_add_distrib]
        exact Finset.sum_congr rfl (fun r _ => by ring)
      · simp
    map_smul' := by
      intro c f
      funext t
      simp only [Pi.smul_apply, smul_eq_mul, RingHom.id_apply]
      split
      · rw [Finset.mul_sum]
        exact Finset.sum_congr rfl (fun r _ => by ring)
      · simp }

theorem homOp_on (g : G N V) (S R : List N) (f : N → V) {t : N} (h : Driven g S t ∧ Seen g R t) :
    homOp g S R f t = ∑ r, gain g r t * f r := by
  unfold homOp
  exact if_pos h

theorem homOp_off (g : G N V) (S R : List N) (f : N → V) {t : N} (h : ¬ (Driven g S t ∧ Seen g R t)) :
    homOp g S R f t = 0 := by
  unfold homOp
  exact if_neg h

/-- If the solution seen from `R` is unique then it agrees with any solution seen from `O`, on the nodes both
see. -/
theorem agree_of_unique {g : G N V} {S R O : List N} {s x z : N → V} (hx : Solves g S R s x)
    (huniq : ∀ x', Solves g S R s x' → ∀ n, Seen g R n → x n = x' n) (hz : Solves g S O s z) :
    ∀ n, Seen g R n → Seen g O n → x n = z n := by
  classical
  have hinj : ∀ f : N → V, f = homOp g S R f → f = 0 := by
    intro f hf
    have hoff : ∀ t, ¬ (Driven g S t ∧ Seen g R t) → f t = 0 := by
      intro t ht
      rw [hf, homOp_off g S R f ht]
    have hs : Solves g S R s (fun n => x n + f n) := by
      refine ⟨?_, ?_⟩
      · intro n hn
        rw [hx.rest n hn, hoff n (fun hh => hn hh.1), add_zero]
      · intro n hn hR
        have h1 := hx.eqn n hn hR
        have h2 : f n = ∑ r, gain g r n * f r := by
          conv_lhs => rw [hf]
          exact homOp_on g S R f ⟨hn, hR⟩
        have h3 : (∑ r, gain g r n * (x r + f r)) = (∑ r, gain g r n * x r) + ∑ r, gain g r n * f r := by
          rw [← Finset.sum_add_distrib]
          exact Finset.sum_congr rfl (fun r _ => by ring)
        rw [h3, ← h2]
        linear_combination h1
    funext t
    by_cases ht : Driven g S t ∧ Seen g R t
    · have := huniq _ hs t ht.2
      have h' : x t = x t + f t := this
      rw [Pi.zero_apply]
      linear_combination -h'
    · exact hoff t ht
  have key := supp_of_injective (homOp g S R) hinj (fun t => ¬ (Seen g R t ∧ Seen g O t))
    (by
      intro f hf t ht
      rw [not_not] at ht
      by_cases hd : Driven g S t
      · rw [homOp_on g S R f ⟨hd, ht.1⟩]
        apply Finset.sum_eq_zero
        intro r _
        by_cases hg : gain g r t = 0
        · rw [hg, zero_mul]
        · have he := edge_of_gain hg
          rw [hf r (not_not.2 ⟨seen_pred he ht.1, seen_pred he ht.2⟩), mul_zero]
      · exact homOp_off g S R f (fun hh => hd hh.1))
    (fun n => x n - z n) (by
      intro t ht
      rw [not_not] at ht
      by_cases hd : Driven g S t
      · rw [homOp_on g S R _ ⟨hd, ht.1⟩, hx.eqn t hd ht.1, hz.eqn t hd ht.2]
        have : (∑ r, gain g r t * (x r - z r)) = (∑ r, gain g r t * x r) - ∑ r, gain g r t * z r := by
          rw [← Finset.sum_sub_distrib]
          exact Finset.sum_congr rfl (fun r _ => by ring)
        rw [this]
        ring
      · rw [homOp_off g S R _ (fun hh => hd hh.1), hx.rest t hd, hz.rest t hd, sub_self])
  intro n hR hO
  exact sub_eq_zero.1 (key n (not_not.2 ⟨hR, hO⟩))

/-- A solution seen from `R`, when unique, and a solution seen from `O` are parts of one solution. -/
theorem combine {g : G N V} {S R O : List N} {s x z : N → V} (hx : Solves g S R s x)
    (huniq : ∀ x', Solves g S R s x' → ∀ n, Seen g R n → x n = x' n) (hz : Solves g S O s z) :
    ∃ y, (∀ n, Seen g R n → y n = x n) ∧ (∀ n, Seen g O n → y n = z n) ∧ Solves g S (R ++ O) s y := by
  classical
  have hag := agree_of_unique hx huniq hz
  refine ⟨fun n => if Seen g R n then x n else z n, fun n h => if_pos h, ?_, ?_, ?_⟩
  · intro n h
    by_cases hR : Seen g R n
    · simp only [if_pos hR]
      exact hag n hR h
    · simp only [if_neg hR]
  · intro n hn
    by_cases hR : Seen g R n
    · simp only [if_pos hR]; exact hx.rest n hn
    · simp only [if_neg hR]; exact hz.rest n hn
  · intro n hn hRO
    by_cases hR : Seen g R n
    · simp only [if_pos hR]
      rw [hx.eqn n hn hR]
      congr 1
      apply Finset.sum_congr rfl
      intro r _
      by_cases hg : gain g r n = 0
      · rw [hg, zero_mul, zero_mul]
      · rw [if_pos (seen_pred (edge_of_gain hg) hR)]
    · have hO : Seen g O n := by
        obtain ⟨o, ho, hp⟩ := hRO
        rcases List.mem_append.1 ho with ho | ho
        · exact absurd ⟨o, ho, hp⟩ hR
        · exact ⟨o, ho, hp⟩
      simp only [if_neg hR]
      rw [hz.eqn n hn hO]
      congr 1
      apply Finset.sum_congr rfl
      intro r _
      by_cases hg : gain g r n = 0
      · rw [hg, zero_mul, zero_mul]
      · by_cases hr : Seen g R r
        · rw [if_pos hr, hag r hr (seen_pred (edge_of_gain hg) hO)]
        · rw [if_neg hr]

end Graph
