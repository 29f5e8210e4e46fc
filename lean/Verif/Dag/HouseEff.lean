import Verif.Dag.House

/-! # The effect of a Householder step -/

set_option linter.unusedSectionVars false

namespace Dag
open Py Graph

variable {M : Type} {V : Type} [DecidableEq M] [Field V] [DecidableEq V]
variable {kind : M → Kind} {K : M → Prop} {d d' : D M V}

theorem tab_of_wf : ∀ (acc : Dict M V), Dict.WF acc → acc = tab (Dict.keys acc) (fun k => (Dict.get? acc k).getD 0) := by
  intro acc hwf
  have h : ∀ kv ∈ acc, kv = (kv.1, (Dict.get? acc kv.1).getD 0) := by
    rintro ⟨k, v⟩ hm
    rw [Dict.get?_of_mem hwf hm]
    rfl
  unfold tab Dict.keys
  rw [List.map_map]
  conv_lhs => rw [← List.map_id acc]
  exact List.map_congr_left (fun kv hkv => h kv hkv)

/-- The unnormalised entry of the target. -/
def hhW (A : Alg V) (d : D M V) (into : M) (F : List M) : V :=
  ev d into into + A.sqrt (lsum F (fun k => A.abssq (ev d k into)) + A.abssq (ev d into into)) * ev d into into
    / A.abs (ev d into into)

/-- The norm of the reflected vector. -/
def hhN (A : Alg V) (d : D M V) (into : M) (F : List M) : V :=
  A.sqrt (lsum F (fun k => A.abssq (ev d k into)) + A.abssq (hhW A d into F))

/-- The reflected unit vector. -/
def hhU (A : Alg V) (d : D M V) (into : M) (F : List M) (k : M) : V :=
  if k = into then hhW A d into F / hhN A d into F else if k ∈ F then ev d k into / hhN A d into F else 0

/-- The value written on the diagonal. -/
def hhInj (A : Alg V) (d : D M V) (into : M) (F : List M) : V :=
  ev d into into - 2 * hhU A d into F into *
    (A.conj (hhU A d into F into) * ev d into into + lsum F (fun k => A.abssq (ev d k into)) / hhN A d into F)

theorem hhVec_spec (A : Alg V) (into : M) (F : List M) (hF : F.Nodup) (hi : into ∉ F)
    (hv : ∀ k ∈ F, (Dict.get? d.em (k, into)).isSome) (hs : (Dict.get? d.em (into, into)).isSome) :
    hhVec A into F d = if A.abs (ev d into into) = 0 then .error .zeroDivision
      else if hhN A d into F = 0 then .error .zeroDivision
      else .ok ⟨tab (F ++ [into]) (hhU A d into F), hhInj A d into F⟩ := by
  have h1 := hhFrom_spec A into d F [] 0 hv (by simpa using hF)
  obtain ⟨e, he⟩ := Option.isSome_iff_exists.mp hs
  have hev : ev d into into = e := by unfold ev; rw [he]; rfl
  unfold hhVec
  have h1' : hhFrom A into d F (0, []) = .ok (lsum F (fun k => A.abssq (ev d k into)), tab F (fun k => ev d k into)) := by
    rw [zero_add] at h1
    exact h1
  rw [h1']
  simp only [bind, Except.bind]
  rw [get_ok he]
  simp only [← hev]
  by_cases h0 : A.abs (ev d into into) = 0
  · rw [if_pos h0, if_pos h0]
  · rw [if_neg h0, if_neg h0]
    change (if hhN A d into F = 0 then _ else _) = _
    by_cases hn : hhN A d into F = 0
    · rw [if_pos hn, if_pos hn]
    · rw [if_neg hn, if_neg hn]
      have e1 : List.map (fun kv : M × V => (kv.1, kv.2 / hhN A d into F)) (tab F (fun k => ev d k into))
          = tab F (hhU A d into F) := by
        unfold tab
        rw [List.map_map]
        apply List.map_congr_left
        intro k hk
        have : k ≠ into := fun e => hi (e ▸ hk)
        simp [hhU, this, hk]
      have e2 : hhW A d into F / hhN A d into F = hhU A d into F into := by simp [hhU]
      have e3 := tab_append F (hhU A d into F) into hi
      rw [← e1, ← e2] at e3
      unfold hhInj
      rw [← e2, ← e3]
      rfl

/-- The effect of the row reflection with vector `u` on the nodes `F` and `into`. -/
structure HhEff (A : Alg V) (into : M) (F : List M) (u : M → V) (inj : V) (d d' : D M V) : Prop where
  seq : ∀ a b, b ∈ at' d'.seq a ↔
    (b ∈ at' d.seq a ∨ (a ∈ F ++ [into] ∧ lsum (F ++ [into]) (fun k => A.conj (u k) * sv d k b) ≠ 0)) ∧ ¬ (a ∈ F ∧ b = into)
  mir : ∀ r s, s ∈ at' d'.seq r ↔ r ∈ at' d'.req s
  alpha : d'.alpha = d.alpha
  beta : ∀ a b, b ∈ at' d'.beta a ↔ b ∈ at' d.beta a ∨ (a ∈ F ++ [into] ∧ ∃ k ∈ F ++ [into], b ∈ at' d.beta k)
  emF : ∀ a, a ∈ F → Dict.get? d'.em (a, into) = none
  emI : Dict.get? d'.em (into, into) = some inj
  em1 : ∀ a b, a ∈ F ++ [into] → b ≠ into → lsum (F ++ [into]) (fun k => A.conj (u k) * sv d k b) ≠ 0 →
    Dict.get? d'.em (a, b) = some (sv d a b - 2 * u a * lsum (F ++ [into]) (fun k => A.conj (u k) * sv d k b))
  emB : ∀ a b, a ∈ F ++ [into] → (∃ k ∈ F ++ [into], b ∈ at' d.beta k) →
    Dict.get? d'.em (a, b) = some (bv d a b - 2 * u a * lsum (F ++ [into]) (fun k => A.conj (u k) * bv d k b))
  em0 : ∀ a b, (a ∉ F ++ [into] ∨ (b ≠ into ∧ lsum (F ++ [into]) (fun k => A.conj (u k) * sv d k b) = 0 ∧
      ¬ ∃ k ∈ F ++ [into], b ∈ at' d.beta k)) → Dict.get? d'.em (a, b) = Dict.get? d.em (a, b)
  hs : ∀ a, Dict.has d'.seq a = true ↔ Dict.has d.seq a = true
  hr : ∀ a, Dict.has d.req a = true → Dict.has d'.req a = true
  ld : LD4 d'

theorem householderROW_eff (A : Alg V) (h : Sound kind K d) {into : M} {F : List M} (hF : F.Nodup) (hi : into ∉ F)
    (hl : ∀ k ∈ F ++ [into], into ∈ at' d.seq k) (hz : A.abs (ev d into into) ≠ 0) (hn : hhN A d into F ≠ 0) :
    ∃ d', householderROW A into F d = .ok d' ∧ HhEff A into F (hhU A d into F) (hhInj A d into F) d d' := by
  set L := F ++ [into] with hL
  set u := hhU A d into F with hu
  have hLn : L.Nodup := by
    rw [hL, List.nodup_append]
    exact ⟨hF, by simp, fun a ha b hb e => hi (by rw [List.mem_singleton] at hb; rw [← hb, ← e]; exact ha)⟩
  have iL : into ∈ L := by simp [hL]
  have FL : ∀ a, a ∈ F → a ∈ L := fun a ha => by simp [hL, ha]
  have Ki : K into := (h.si into into (hl into iL)).1
  have KL : ∀ k ∈ L, K k := fun k hk => (h.si k into (hl k hk)).1
  have vS : ∀ r s, s ∈ at' d.seq r → (Dict.get? d.em (r, s)).isSome := fun r s hs => h.val _ _ (Or.inl hs)
  have hvec := hhVec_spec A into F hF hi (fun k hk => vS _ _ (hl k (FL k hk))) (vS _ _ (hl into iL))
  rw [if_neg hz, if_neg hn] at hvec
  have mv : MV d := ⟨h.mir, vS⟩
  obtain ⟨gens, g1, g2, g3⟩ := hhGens_spec A d L u d.req [] h.lr.wf (by
    intro f R hm k hk
    apply vS
    rw [h.mir]
    unfold at'
    rw [Dict.get?_of_mem h.lr.wf hm]
    exact hk)
  have g2' := g2 Dict.WF_nil
  -- the overlaps
  set G : M → V := fun b => lsum L (fun k => A.conj (u k) * sv d k b) with hG
  have g4 : ∀ f, Dict.get? gens f = if G f ≠ 0 then some (G f) else none := by
    intro f
    rw [g3]
    have e0 : ∀ k, (k ∈ at' d.req f) ↔ f ∈ at' d.seq k := fun k => (h.mir k f).symm
    cases hq : Dict.get? d.req f with
    | none =>
      dsimp only
      have : at' d.req f = [] := by unfold at'; rw [hq]; rfl
      have hz : G f = 0 := by
        rw [hG]
        dsimp only
        rw [lsum_congr (g := fun _ => 0)]
        · simp [lsum]
        · intro k _
          have : f ∉ at' d.seq k := by rw [← e0, this]; simp
          unfold sv
          rw [if_neg this, mul_zero]
      rw [if_neg (by simpa using hz)]
      rfl
    | some R =>
      dsimp only
      have hR : at' d.req f = R := by unfold at'; rw [hq]; rfl
      have : lsum L (fun k => if k ∈ R then A.conj (u k) * ev d k f else 0) = G f := by
        rw [hG]
        apply lsum_congr
        intro k _
        unfold sv
        have := e0 k
        rw [hR] at this
        by_cases hk : k ∈ R
        · rw [if_pos hk, if_pos (this.mp hk)]
        · rw [if_neg hk, if_neg (fun q => hk (this.mpr q)), mul_zero]
      rw [this]
      rfl
  set Q := Dict.keys gens with hQ
  have hQm : ∀ f, f ∈ Q ↔ G f ≠ 0 := by
    intro f
    rw [hQ, Dict.mem_keys_iff, g4]
    by_cases hz : G f ≠ 0
    · rw [if_pos hz]; simp [hz]
    · rw [if_neg hz]; simp [hz]
  have gt : gens = tab Q G := by
    rw [tab_of_wf gens g2']
    apply tab_congr
    intro f hf
    rw [g4, if_pos ((hQm f).mp hf)]
    rfl
  have QK : ∀ f, G f ≠ 0 → K f := by
    intro f hf
    by_contra hk
    apply hf
    rw [hG]
    dsimp only
    rw [lsum_congr (g := fun _ => 0)]
    · simp [lsum]
    · intro k _
      unfold sv
      rw [if_neg (fun hh => hk (h.si _ _ hh).2), mul_zero]
  obtain ⟨d1, a1, ap⟩ := hhApply_spec L hLn u G Q d g2' mv
  set d2 : D M V := { d1 with em := Dict.set d1.em (into, into) (hhInj A d into F) } with hd2
  have mv1 := ap.mv mv
  have mv2 : MV d2 := by
    refine ⟨mv1.mir, fun r s hs => ?_⟩
    show (Dict.get? (Dict.set d1.em (into, into) _) (r, s)).isSome
    rw [Dict.get?_set]
    split
    · rfl
    · exact mv1.val r s hs
  obtain ⟨d3, c1, c2, c3, c4, c5, c6, c7, c8, c9, c10⟩ := hhClear_spec into F d2 hF mv2 (by
    intro k hk
    exact (ap.seq k into).mpr (Or.inl (hl k (FL k hk))))
  have b3 : d3.beta = d.beta := c5.trans ap.beta
  have al3 : d3.alpha = d.alpha := c4.trans ap.alpha
  have em3 : ∀ a b, kind b = .snk → Dict.get? d3.em (a, b) = Dict.get? d.em (a, b) := by
    intro a b hb
    have hbi : b ≠ into := fun e => by rw [e, h.ki into Ki] at hb; cases hb
    rw [c6, if_neg (fun q => hbi q.2)]
    show Dict.get? (Dict.set d1.em (into, into) _) (a, b) = _
    rw [Dict.get?_set_ne _ _ (fun q => hbi (Prod.mk.inj q).2.symm), ap.em0]
    rintro ⟨_, q⟩
    have := h.ki b (QK b ((hQm b).mp q))
    rw [this] at hb; cases hb
  have vB : ∀ r s, s ∈ at' d3.beta r → (Dict.get? d3.em (r, s)).isSome := by
    intro r s hs
    rw [b3] at hs
    rw [em3 r s (h.bi r s hs).1]
    exact h.val _ _ (Or.inr (Or.inl hs))
  have evB : ∀ a b, kind b = .snk → ev d3 a b = ev d a b := by
    intro a b hb
    unfold ev
    rw [em3 a b hb]
  obtain ⟨bb, k1, k2, k3⟩ := hhBeta_spec A d3 L hLn u (by rw [b3]; exact h.lb) L [] (fun k _ => vB k)
  obtain ⟨d4, m1, m2, m3, m4, m5, m6, m7⟩ := hhBetaApply_spec bb d3 (k2 Dict.WF_nil) vB
  have k3' : ∀ a t, Dict.get? bb (a, t) = if t ∈ L ∧ ∃ k ∈ L, a ∈ at' d.beta k then
      some (-2 * u t * lsum L (fun k => A.conj (u k) * bv d k a)) else none := by
    intro a t
    rw [k3, b3]
    by_cases hc : t ∈ L ∧ ∃ k ∈ L, a ∈ at' d.beta k
    · rw [if_pos hc, if_pos hc]
      have : (Dict.get? ([] : Dict (M × M) V) (a, t)).getD 0 = 0 := rfl
      rw [this, zero_add]
      congr 2
      apply lsum_congr
      intro k _
      unfold bv
      obtain ⟨q, _, hq⟩ := hc.2
      rw [evB k a (h.bi _ _ hq).1]
      split
      · rfl
      · rw [mul_zero]
    · rw [if_neg hc, if_neg hc]
      rfl
  have mir4 : ∀ r s, s ∈ at' d4.seq r ↔ r ∈ at' d4.req s := by
    intro r s
    rw [m2, m3, c2, c3]
    show s ∈ at' d1.seq r ∧ _ ↔ r ∈ at' d1.req s ∧ _
    rw [mv1.mir]
  refine ⟨d4, ?_, ?_⟩
  · unfold householderROW
    rw [check_ok h.mir, hvec]
    simp only [bind, Except.bind]
    rw [g1]
    dsimp only
    rw [gt, a1]
    dsimp only
    rw [← hd2, c1]
    dsimp only
    rw [k1]
    dsimp only
    rw [m1]
    dsimp only
    rw [check_ok mir4]
    rfl
  · have em4 : ∀ a b, ¬ (a ∈ L ∧ ∃ k ∈ L, b ∈ at' d.beta k) → Dict.get? d4.em (a, b) = Dict.get? d3.em (a, b) := by
      intro a b hq
      rw [m6, k3', if_neg hq]
    have notB : ∀ b, K b → ¬ ∃ k ∈ L, b ∈ at' d.beta k := by
      rintro b hb ⟨k, _, hk⟩
      have q := (h.bi _ _ hk).1
      rw [h.ki b hb] at q; cases q
    have em3' : ∀ a b, Dict.get? d3.em (a, b) = if a ∈ F ∧ b = into then none else
        if a = into ∧ b = into then some (hhInj A d into F) else Dict.get? d1.em (a, b) := by
      intro a b
      rw [c6]
      split
      · rfl
      · show Dict.get? (Dict.set d1.em (into, into) _) (a, b) = _
        rw [Dict.get?_set]
        by_cases hq : a = into ∧ b = into
        · rw [if_pos hq, if_pos (by rw [hq.1, hq.2])]
        · rw [if_neg hq, if_neg (fun e => hq ⟨(Prod.mk.inj e).1.symm, (Prod.mk.inj e).2.symm⟩)]
    constructor
    · intro a b
      rw [m2, c2]
      show b ∈ at' d1.seq a ∧ _ ↔ _
      rw [ap.seq, hQm]
    · exact mir4
    · rw [m4, al3]
    · intro a b
      rw [m5, b3, Dict.has_iff, Dict.mem_keys_iff, k3']
      by_cases hc : a ∈ L ∧ ∃ k ∈ L, b ∈ at' d.beta k
      · rw [if_pos hc]
        simp only [Option.isSome_some, or_true, true_iff]
        exact Or.inr hc
      · rw [if_neg hc]
        simp only [Option.isSome_none, Bool.false_eq_true, or_false]
        exact ⟨Or.inl, fun q => q.elim id (fun q => absurd q hc)⟩
    · intro a ha
      rw [em4 _ _ (fun q => notB into Ki q.2), em3', if_pos ⟨ha, rfl⟩]
    · rw [em4 _ _ (fun q => notB into Ki q.2), em3', if_neg (fun q => hi q.1), if_pos ⟨rfl, rfl⟩]
    · intro a b ha hb hg
      rw [em4 _ _ (fun q => notB b (QK b hg) q.2), em3', if_neg (fun q => hb q.2), if_neg (fun q => hb q.2),
        ap.em1 a b ⟨ha, (hQm b).mpr hg⟩]
    · rintro a b ha ⟨k, hk, hkb⟩
      rw [m6, k3', if_pos ⟨ha, k, hk, hkb⟩]
      dsimp only
      have : bv d3 a b = bv d a b := by
        unfold bv
        rw [b3, evB a b (h.bi _ _ hkb).1]
      rw [this]
      congr 1
      ring
    · intro a b hq
      rw [em4 a b (fun q => hq.elim (fun e => e q.1) (fun e => e.2.2 q.2)), em3']
      have e1 : ¬ (a ∈ F ∧ b = into) := fun q => hq.elim (fun e => e (FL a q.1)) (fun e => e.1 q.2)
      have e2 : ¬ (a = into ∧ b = into) := fun q => hq.elim (fun e => e (by rw [q.1]; exact iL)) (fun e => e.1 q.2)
      rw [if_neg e1, if_neg e2, ap.em0]
      rintro ⟨q1, q2⟩
      exact hq.elim (fun e => e q1) (fun e => (hQm b).mp q2 e.2.1)
    · intro a
      rw [m2, c7]
      show Dict.has d1.seq a = true ↔ _
      refine ⟨fun q => (ap.hs a q).elim id ?_, ap.hs' a⟩
      rintro ⟨b, ha, _⟩
      exact has_of_mem (hl a ha)
    · intro a q
      rw [m3, c8]
      exact ap.hr a q
    · refine ⟨?_, ?_, ?_, ?_⟩
      · rw [m2]; exact c9 (ap.ls h.ls)
      · rw [m3]; exact c10 (ap.lr h.lr)
      · rw [m4, al3]; exact h.la
      · exact m7 (by rw [b3]; exact h.lb)

end Dag
