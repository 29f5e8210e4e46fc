import Verif.Sci.Run
import Verif.Dag.Props

/-! # The whole run -/

set_option linter.unusedSectionVars false

namespace Sci
open Py Graph Dag

variable {N : Type} {V : Type} [DecidableEq N] [Field V] [DecidableEq V] [Fintype N]
variable {L : Lib (WN N) V} {o : Opts} {outs inp : List N} {src : Option (Dict N V)} {g g1 : G N V}

theorem dress_eq (o : Opts) (outs inp : List N) (src : Option (Dict N V)) (g : G N V) :
    dress o outs inp src g = Dag.dress { o with negative := !o.negative } outs inp src g := by
  unfold dress Dag.dress
  cases o.scattering <;> cases o.negative <;> rfl

theorem outVal_flip (o : Opts) : (outVal { o with negative := !o.negative } : V) = - outVal o := by
  unfold outVal
  cases o.scattering <;> cases o.negative <;> simp

/-- The nodes that get an entry of `-1`. -/
def Scat (outs inp : List N) (src : Option (Dict N V)) (g : G N V) (n : N) : Prop :=
  Key g n ∨ n ∈ srcKeys src ++ inp ++ outs

instance (outs inp : List N) (src : Option (Dict N V)) (g : G N V) (n : N) : Decidable (Scat outs inp src g n) := by
  unfold Scat; infer_instance

theorem mem_scat (a : N) : a ∈ scatter_keys outs inp src g ↔ Scat outs inp src g a := by
  unfold scatter_keys
  rw [mem_foldl_sadd]
  unfold Scat Key
  rw [Dict.has_iff, Dict.has_iff]
  cases src with
  | none =>
    simp only [List.mem_append, srcKeys, List.not_mem_nil, false_or, or_false]
    tauto
  | some m =>
    simp only [List.mem_append, srcKeys, List.not_mem_nil, false_or]
    tauto

theorem scatter_keys_nodup : (scatter_keys outs inp src g).Nodup := foldl_sadd_nodup _ _ List.nodup_nil

theorem scatterStep_shift (hv : Valid g) (ho : o.scattering = true) (h : scatterStep o outs inp src g = .ok g1) :
    Shift (Scat outs inp src g) g g1 := by
  unfold scatterStep at h
  rw [if_pos ho] at h
  obtain ⟨v, e, k⟩ := scatter_spec _ _ _ scatter_keys_nodup hv h
  have e' : ∀ a b, Dict.get? g1.em (a, b) = if a = b ∧ Scat outs inp src g a then some (gain g a a - 1) else Dict.get? g.em (a, b) := by
    intro a b
    rw [e]
    exact if_congr ((and_congr_left' (mem_scat a)).trans and_comm) rfl rfl
  refine ⟨v, fun a b => ?_, fun a b => ?_, fun a => ?_, fun a q => Or.inl q⟩
  · unfold Edge
    rw [e']
    by_cases h1 : a = b ∧ Scat outs inp src g a
    · rw [if_pos h1]; exact ⟨fun _ => Or.inr h1, fun _ => rfl⟩
    · rw [if_neg h1]
      constructor
      · exact Or.inl
      · rintro (q | q)
        · exact q
        · exact absurd q h1
  · unfold gain
    rw [e']
    by_cases h1 : a = b ∧ Scat outs inp src g a
    · rw [if_pos h1, if_pos h1]
      obtain ⟨rfl, _⟩ := h1
      rfl
    · rw [if_neg h1, if_neg h1, sub_zero]
  · rw [k, mem_scat]
    constructor
    · rintro (q | q)
      · exact Or.inl (Or.inl q)
      · exact q
    · exact Or.inr

/-- The prepared system. -/
theorem prepare_spec (hL : Lawful L) (hg1 : scatterStep o outs inp src g = .ok g1) (hv : Valid g1)
    (hcl : o.purge_in = false → ∀ a b, Edge g1 a b → Dict.has g1.seq b = true)
    (hk : o.purge_in = false → ∀ t ∈ srcKeys src ++ inp ++ outs, Dict.has g1.seq t = true)
    (hP : o.purge_in = true → ∀ t, Driven g1 (srcKeys src ++ inp) t → ∃ r, Edge g1 r t ∧ Driven g1 (srcKeys src ++ inp) r)
    (hS : o.purge_out = true → ∀ r, Kept o g1 (srcKeys src ++ inp) outs r → ∃ t, Edge g1 r t ∧ Seen g1 outs t) :
    ∃ d, prepare L.pick o outs inp src g = .ok d ∧ Prep (Kept o g1 (srcKeys src ++ inp) outs) (- outVal o) outs inp src g1 d := by
  have hed : ∀ a b, Edge g1 a b → Dict.has g1.seq a = true := fun a b e => key_of_succ (hv.listed a b e).1
  have hd := dress_spec { o with negative := !o.negative } outs inp src hv
  rw [← dress_eq, outVal_flip] at hd
  obtain ⟨d1, d2, e1, e2, hp⟩ := purge_spec' (o := o) hL.pick hd hcl hk hP hS hed
  refine ⟨d2, ?_, hp⟩
  unfold prepare
  rw [hg1]
  simp only [bind, Except.bind]
  by_cases hpi : o.purge_in = true
  · rw [if_pos hpi] at e1 ⊢
    rw [e1]
    exact e2
  · rw [if_neg hpi] at e1 ⊢
    rw [e1]
    exact e2

theorem unwrapInput_ok {d : D (WN N) V} (i : N) : ∀ (ws : List (WN N)), (∀ w ∈ ws, ∃ n, w = .out n ∧ (Dict.get? d.em (.inp i, .out n)).isSome) →
    ∀ m, ∃ m', unwrapInput d i ws m = .ok m' := by
  intro ws
  induction ws with
  | nil => intro _ m; exact ⟨m, rfl⟩
  | cons w ws ih =>
    intro hw m
    obtain ⟨n, rfl, hs⟩ := hw w (by simp)
    cases hg : Dict.get? d.em (.inp i, .out n) with
    | none => rw [hg] at hs; cases hs
    | some v =>
      obtain ⟨m', e⟩ := ih (fun w hw' => hw w (by simp [hw'])) (Dict.set m (i, n) v)
      refine ⟨m', ?_⟩
      unfold Dag.unwrapInput Dict.get
      rw [hg]
      exact e

theorem unwrapEdges_ok {d : D (WN N) V} : ∀ (is : List N),
    (∀ i ∈ is, ∀ w ∈ at' d.beta (.inp i), ∃ n, w = .out n ∧ (Dict.get? d.em (.inp i, .out n)).isSome) →
    ∀ m, ∃ m', unwrapEdges d is m = .ok m' := by
  intro is
  induction is with
  | nil => intro _ m; exact ⟨m, rfl⟩
  | cons i is ih =>
    intro hw m
    obtain ⟨m1, e1⟩ := unwrapInput_ok i _ (hw i (by simp)) m
    obtain ⟨m2, e2⟩ := ih (fun j hj => hw j (by simp [hj])) m1
    refine ⟨m2, ?_⟩
    unfold Dag.unwrapEdges
    rw [e1]
    exact e2

/-- What the run says about the graph it solves after the scattering step. -/
theorem core (hL : Lawful L) (hne : (outs.isEmpty || (src.isNone && inp.isEmpty)) = false) {d : D (WN N) V} {K : N → Prop} {value : V}
    (hd : prepare L.pick o outs inp src g = .ok d) (hp : Prep K (- value) outs inp src g1 d)
    {r : Option (Dict N V)} {em : Dict (N × N) V} (hr : inverse_solve L o outs inp src g = .ok (r, em)) :
    ∃ (om : Dict N V) (T0 : N → V) (T : N → N → V), r = src.map (fun _ => om) ∧
      (∀ t, (Dict.get? om t).isSome → t ∈ outs) ∧ (∀ t ∈ outs, (Dict.get? om t).getD 0 = T0 t) ∧
      (∀ i t, (Dict.get? em (i, t)).isSome → i ∈ inp) ∧ (∀ i ∈ inp, ∀ t, (Dict.get? em (i, t)).getD 0 = T i t) ∧
      (∀ (v : V) (c : N → V),
        (∃ x, Sys K g1 (fun t => srcVal src t * v + if t ∈ inp then c t else 0) x) ∧
        ∀ x, Sys K g1 (fun t => srcVal src t * v + if t ∈ inp then c t else 0) x →
          ∀ t ∈ outs, value * x t = T0 t * v + ∑ i, if i ∈ inp then T i t * c i else 0) := by
  classical
  unfold inverse_solve at hr
  rw [if_neg (by rw [hne]; exact Bool.false_ne_true), hd] at hr
  simp only [bind, Except.bind] at hr
  unfold mgraph_simplify at hr
  rw [check_balance_spec hp.sound] at hr
  simp only [bind, Except.bind] at hr
  rw [build_emb hp] at hr
  dsimp only at hr
  cases hk : L.sortkeys (all_keys d) with
  | error e => rw [hk] at hr; cases hr
  | ok keys =>
  rw [hk] at hr
  dsimp only at hr
  cases ha : L.sortkeys_split (all_alpha d) with
  | error e => rw [ha] at hr; cases hr
  | ok ka =>
  rw [ha] at hr
  dsimp only at hr
  have hs : Sorted d keys ka := ⟨hL.sortkeys hk, hL.sortkeys_split ha⟩
  by_cases hem : d.em.isEmpty = true
  · rw [if_pos hem] at hr; cases hr
  rw [if_neg hem, build_coo hp hs] at hr
  dsimp only at hr
  rw [build_cooα hp hs] at hr
  dsimp only at hr
  cases hx : L.spsolve keys.length ka.length (coo d keys) (cooα d keys ka) with
  | error e => rw [hx] at hr; cases hr
  | ok x =>
  rw [hx] at hr
  dsimp only at hr
  have E := hL.spsolve
  have hreg := E.regular hx
  obtain ⟨d', e', q1, q2, q3⟩ := ab_spec hp hs hreg (E.range hx) (E.once hx)
  rw [e'] at hr
  dsimp only at hr
  obtain ⟨em', hu⟩ := unwrapEdges_ok (d := d') inp (fun i hi w hw => by
    obtain ⟨n, rfl⟩ := q3 i w hw
    exact ⟨n, rfl, (q2 _ n).mpr ⟨hw, by simp⟩⟩) []
  rw [hu] at hr
  cases hr
  set X := resp K keys ka x with hX
  have hXe : ∀ a, (∀ n, a ≠ WN.node n) → ∀ t, K t → ∑ r, gain g1 r t * X a r = (em0 (-value) outs inp src g1 a (.node t)).getD 0 :=
    fun a ha' t ht => resp_solves hp hs hreg (E.solves hx) a ha' ht
  have hX0 : ∀ a n, ¬ K n → X a n = 0 := by
    intro a n hn
    rw [hX]
    unfold resp
    rw [if_neg (fun q => hn q.2)]
  refine ⟨_, fun t => - (X .vac t * value), fun i t => if t ∈ outs then - (X (.inp i) t * value) else 0, rfl, ?_, ?_, ?_, ?_, ?_⟩
  · intro t ht
    rw [outStep_spec] at ht
    by_contra hn
    rw [if_neg hn] at ht
    cases ht
  · intro t ht
    rw [outStep_spec, if_pos ht]
    have := q1 .vac t
    rw [if_pos ht] at this
    show ((Dict.get? d'.em (.vac, .out t)).or none).getD 0 = _
    rw [Option.or_none, this]
    ring
  · intro i t hit
    rw [unwrapEdges_spec d' inp _ _ hu] at hit
    by_contra hn
    rw [if_neg (fun q => hn q.1)] at hit
    cases hit
  · intro i hi t
    show _ = if t ∈ outs then - (X (.inp i) t * value) else 0
    have hq : (Dict.get? d'.em (.inp i, .out t)).getD 0 = if t ∈ outs then - (X (.inp i) t * value) else 0 := by
      rw [q1]
      split
      · ring
      · rfl
    rw [← hq, unwrapEdges_spec d' inp _ _ hu]
    by_cases hb : WN.out t ∈ at' d'.beta (.inp i)
    · rw [if_pos ⟨hi, hb⟩]
    · rw [if_neg (fun q => hb q.2)]
      cases hg : Dict.get? d'.em (.inp i, .out t) with
      | none => rfl
      | some w => exact absurd ((q2 _ t).mp (by rw [hg]; rfl)).1 hb
  · intro v c
    set b : N → V := fun t => srcVal src t * v + if t ∈ inp then c t else 0 with hb
    set y : N → V := fun n => X .vac n * v + ∑ i, if i ∈ inp then X (.inp i) n * c i else 0 with hy
    have hy0 : ∀ n, ¬ K n → y n = 0 := by
      intro n hn
      rw [hy]
      dsimp only
      rw [hX0 _ n hn, Finset.sum_eq_zero]
      · ring
      · intro i _
        rw [hX0 _ n hn]
        simp
    have hyb : ∀ t, K t → ∑ r, gain g1 r t * y r = b t := by
      intro t ht
      have e1 : ∀ r, gain g1 r t * y r = gain g1 r t * X .vac r * v + ∑ i, if i ∈ inp then gain g1 r t * X (.inp i) r * c i else 0 := by
        intro r
        rw [hy]
        dsimp only
        rw [mul_add, Finset.mul_sum]
        congr 1
        · ring
        · apply Finset.sum_congr rfl
          intro i _
          by_cases hi : i ∈ inp
          · rw [if_pos hi, if_pos hi]; ring
          · rw [if_neg hi, if_neg hi, mul_zero]
      rw [Finset.sum_congr rfl (fun r _ => e1 r), Finset.sum_add_distrib, ← Finset.sum_mul, hXe .vac (by simp) t ht, Finset.sum_comm]
      have e2 : ∀ i, (∑ r, if i ∈ inp then gain g1 r t * X (.inp i) r * c i else 0) = if i = t ∧ i ∈ inp then c i else 0 := by
        intro i
        by_cases hi : i ∈ inp
        · simp only [if_pos hi]
          rw [← Finset.sum_mul, hXe (.inp i) (by simp) t ht]
          by_cases hit : i = t
          · subst hit; simp [em0, hi]
          · simp [em0, hit]
        · simp [hi]
      rw [Finset.sum_congr rfl (fun i _ => e2 i), hb]
      dsimp only
      congr 1
      rw [Finset.sum_eq_single t]
      · simp
      · intro i _ hi
        rw [if_neg (fun q => hi q.1)]
      · intro q; exact absurd (Finset.mem_univ t) q
    have uniq : ∀ x', Sys K g1 b x' → ∀ n, x' n = - y n := by
      intro x' hx' n
      have := sys_unique hp hs hreg (z := fun n => x' n + y n) (fun n hn => by rw [hx'.off n hn, hy0 n hn, add_zero]) (fun t ht => by
        have e1 := hx'.eqn t ht
        have e2 := hyb t ht
        rw [Finset.sum_congr rfl (fun r _ => mul_add _ _ _), Finset.sum_add_distrib, e2]
        exact e1) n
      exact eq_neg_of_add_eq_zero_left this
    constructor
    · refine ⟨fun n => - y n, fun n hn => by rw [hy0 n hn, neg_zero], fun t ht => ?_⟩
      have : ∀ r, gain g1 r t * - y r = - (gain g1 r t * y r) := fun r => by ring
      rw [Finset.sum_congr rfl (fun r _ => this r), Finset.sum_neg_distrib, hyb t ht]
      ring
    · intro x' hx' t ht
      rw [uniq x' hx' t, hy]
      dsimp only
      rw [mul_neg, mul_add, neg_add, Finset.mul_sum]
      congr 1
      · ring
      · rw [← Finset.sum_neg_distrib]
        apply Finset.sum_congr rfl
        intro i _
        by_cases hi : i ∈ inp
        · rw [if_pos hi, if_pos hi, if_pos ht]; ring
        · rw [if_neg hi, if_neg hi]; ring

end Sci
