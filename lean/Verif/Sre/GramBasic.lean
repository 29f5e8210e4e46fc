import Verif.Sre.Gram
import Verif.Sre.Props
import Mathlib.Analysis.InnerProductSpace.GramSchmidtOrtho

/-! Helper lemmas for C113. -/

namespace Sre
open Py Graph InnerProductSpace

variable {N : Type} [DecidableEq N]

theorem getz_set (v : Dict N ℂ) (k j : N) (x : ℂ) : getz (Dict.set v k x) j = if k = j then x else getz v j := by
  unfold getz
  rw [Dict.get?_set]
  split <;> rfl

section
variable [Fintype N]

/-- The vector held by a dictionary. -/
noncomputable def vec (v : Dict N ℂ) : EuclideanSpace ℂ N := WithLp.toLp 2 (getz v)

/-- The row of a sparse matrix. -/
noncomputable def row (g : G N ℂ) (k : N) : EuclideanSpace ℂ N := WithLp.toLp 2 (fun b => gain g k b)

theorem sum_list {ks : List N} (nd : ks.Nodup) (F : N → ℂ) (h0 : ∀ k, k ∉ ks → F k = 0) : (ks.map F).sum = ∑ k, F k := by
  rw [← List.sum_toFinset F nd]
  apply Finset.sum_subset (Finset.subset_univ _)
  intro x _ hx
  exact h0 x (fun h => hx (by simpa using h))

theorem projection_aux (g : G N ℂ) (k : N) (v : Dict N ℂ) (ks : List N) (hks : ∀ b ∈ ks, (Dict.get? g.em (k, b)).isSome) (a : ℂ × ℂ) :
    ks.foldlM (fun (a : ℂ × ℂ) k_to => do
      let e ← Dict.get g.em (k, k_to)
      pure (a.1 + (starRingEnd ℂ) e * getz v k_to, a.2 + e * (starRingEnd ℂ) e)) a =
    (.ok (a.1 + (ks.map (fun b => (starRingEnd ℂ) (gain g k b) * getz v b)).sum,
      a.2 + (ks.map (fun b => gain g k b * (starRingEnd ℂ) (gain g k b))).sum) : Except Err (ℂ × ℂ)) := by
  induction ks generalizing a with
  | nil => simp [pure, Except.pure]
  | cons b ks ih =>
    obtain ⟨e, he, he'⟩ := get_of_isSome (hks b List.mem_cons_self)
    have hg : gain g k b = e := by unfold gain; rw [he]; rfl
    rw [List.foldlM_cons, he']
    simp only [bind, Except.bind, pure, Except.pure] at ih ⊢
    rw [ih (fun b hb => hks b (List.mem_cons_of_mem _ hb))]
    simp only [List.map_cons, List.sum_cons, hg, add_assoc]

theorem inner_row (g : G N ℂ) (sp : Sparse g) (k : N) (v : Dict N ℂ) :
    ((g.succ k).map (fun b => (starRingEnd ℂ) (gain g k b) * getz v b)).sum = inner ℂ (row g k) (vec v) := by
  rw [sum_list (sp.nds k)]
  · rw [PiLp.inner_apply]
    refine Finset.sum_congr rfl fun b _ => ?_
    rw [RCLike.inner_apply, mul_comm]
    rfl
  · intro b hb
    have : gain g k b = 0 := by
      unfold gain
      have := mt (sp.ls k b).mpr hb
      rw [Bool.not_eq_true, Option.isSome_eq_false_iff, Option.isNone_iff_eq_none] at this
      rw [this]; rfl
    rw [this, map_zero, zero_mul]

theorem norm_row (g : G N ℂ) (sp : Sparse g) (k : N) :
    ((g.succ k).map (fun b => gain g k b * (starRingEnd ℂ) (gain g k b))).sum = inner ℂ (row g k) (row g k) := by
  rw [sum_list (sp.nds k)]
  · rw [PiLp.inner_apply]
    refine Finset.sum_congr rfl fun b _ => ?_
    rw [RCLike.inner_apply]
    rfl
  · intro b hb
    have : gain g k b = 0 := by
      unfold gain
      have := mt (sp.ls k b).mpr hb
      rw [Bool.not_eq_true, Option.isSome_eq_false_iff, Option.isNone_iff_eq_none] at this
      rw [this]; rfl
    rw [this, zero_mul]

theorem subtract_aux (g : G N ℂ) (k : N) (p n : ℂ) (hn : n ≠ 0) (ks : List N) (nd : ks.Nodup)
    (hks : ∀ b ∈ ks, (Dict.get? g.em (k, b)).isSome) (v : Dict N ℂ) (wf : Dict.WF v) :
    ∃ v', ks.foldlM (fun v k_to => do
      let e ← Dict.get g.em (k, k_to)
      if n = 0 then Except.error Err.zeroDivision
      else pure (Dict.set v k_to (getz v k_to - p * e / n))) v = Except.ok v' ∧ Dict.WF v' ∧
      ∀ b, getz v' b = getz v b - if b ∈ ks then p * gain g k b / n else 0 := by
  induction ks generalizing v with
  | nil => exact ⟨v, rfl, wf, by simp⟩
  | cons b ks ih =>
    obtain ⟨hb, nd⟩ := List.nodup_cons.mp nd
    obtain ⟨e, he, he'⟩ := get_of_isSome (hks b List.mem_cons_self)
    have hg : gain g k b = e := by unfold gain; rw [he]; rfl
    obtain ⟨v', h1, h2, h3⟩ := ih nd (fun b hb => hks b (List.mem_cons_of_mem _ hb)) (Dict.set v b (getz v b - p * e / n)) (Dict.WF_set wf _ _)
    refine ⟨v', ?_, h2, ?_⟩
    · rw [List.foldlM_cons, he']
      simp only [bind, Except.bind, pure, Except.pure, if_neg hn] at h1 ⊢
      exact h1
    · intro c
      rw [h3, getz_set]
      by_cases hc : b = c
      · subst hc
        rw [if_pos rfl, if_neg hb, if_pos List.mem_cons_self, hg, sub_zero]
      · rw [if_neg hc]
        have : (c ∈ b :: ks) ↔ c ∈ ks := by
          rw [List.mem_cons]
          constructor
          · rintro (rfl | h)
            · exact absurd rfl hc
            · exact h
          · exact Or.inr
        simp only [this]

theorem keep_aux (ks : List N) (v : Dict N ℂ) (wf : Dict.WF v) :
    Dict.WF (ks.foldl (fun v k_to => Dict.set v k_to (getz v k_to)) v) ∧
    ∀ b, getz (ks.foldl (fun v k_to => Dict.set v k_to (getz v k_to)) v) b = getz v b := by
  induction ks generalizing v with
  | nil => exact ⟨wf, fun _ => rfl⟩
  | cons k ks ih =>
    obtain ⟨h1, h2⟩ := ih (Dict.set v k (getz v k)) (Dict.WF_set wf _ _)
    refine ⟨h1, fun b => ?_⟩
    rw [List.foldl_cons, h2, getz_set]
    split
    · rename_i h; rw [h]
    · rfl

/-- One earlier row is projected out. -/
theorem project_spec (g : G N ℂ) (sp : Sparse g) (k : N) (v : Dict N ℂ) (wf : Dict.WF v) :
    ∃ v', project g.em k (g.succ k) v = .ok v' ∧ Dict.WF v' ∧
      vec v' = vec v - (inner ℂ (row g k) (vec v) / inner ℂ (row g k) (row g k)) • row g k := by
  have hs : ∀ b ∈ g.succ k, (Dict.get? g.em (k, b)).isSome := fun b hb => (sp.ls k b).mp hb
  have hp : projection g.em k v (g.succ k) = .ok (inner ℂ (row g k) (vec v), inner ℂ (row g k) (row g k)) := by
    unfold projection
    rw [projection_aux g k v _ hs, inner_row g sp, norm_row g sp]
    simp
  unfold project
  rw [hp]
  simp only [bind, Except.bind]
  by_cases h0 : inner ℂ (row g k) (vec v) = 0
  · rw [if_neg (not_not.mpr h0)]
    obtain ⟨h1, h2⟩ := keep_aux (g.succ k) v wf
    refine ⟨_, rfl, h1, ?_⟩
    rw [h0, zero_div, zero_smul, sub_zero]
    ext b
    exact h2 b
  · rw [if_pos h0]
    have hn : (inner ℂ (row g k) (row g k) : ℂ) ≠ 0 := by
      intro h
      rw [inner_self_eq_zero] at h
      rw [h, inner_zero_left] at h0
      exact h0 rfl
    obtain ⟨v', h1, h2, h3⟩ := subtract_aux g k (inner ℂ (row g k) (vec v)) _ hn (g.succ k) (sp.nds k) hs v wf
    refine ⟨v', h1, h2, ?_⟩
    ext b
    show getz v' b = getz v b - (inner ℂ (row g k) (vec v) / inner ℂ (row g k) (row g k)) * gain g k b
    rw [h3]
    split
    · ring
    · rename_i hb
      have : gain g k b = 0 := by
        unfold gain
        have := mt (sp.ls k b).mpr hb
        rw [Bool.not_eq_true, Option.isSome_eq_false_iff, Option.isNone_iff_eq_none] at this
        rw [this]; rfl
      rw [this]; ring

/-- All earlier rows are projected out. -/
theorem project_all (g : G N ℂ) (sp : Sparse g) (L : List (N × List N)) (hL : ∀ kv ∈ L, kv.2 = g.succ kv.1)
    (h1 : ∀ kv ∈ L, inner ℂ (row g kv.1) (row g kv.1) = (1 : ℂ))
    (ho : L.Pairwise (fun a b => inner ℂ (row g b.1) (row g a.1) = (0 : ℂ))) (v : Dict N ℂ) (wf : Dict.WF v) :
    ∃ v', L.foldlM (fun v kv => project g.em kv.1 kv.2 v) v = .ok v' ∧ Dict.WF v' ∧
      vec v' = vec v - (L.map (fun kv => (inner ℂ (row g kv.1) (vec v) : ℂ) • row g kv.1)).sum := by
  induction L generalizing v with
  | nil => exact ⟨v, rfl, wf, by simp⟩
  | cons kv L ih =>
    obtain ⟨ho1, ho2⟩ := List.pairwise_cons.mp ho
    obtain ⟨v1, a1, a2, a3⟩ := project_spec g sp kv.1 v wf
    rw [h1 kv List.mem_cons_self, div_one] at a3
    obtain ⟨v', b1, b2, b3⟩ := ih (fun kv h => hL kv (List.mem_cons_of_mem _ h)) (fun kv h => h1 kv (List.mem_cons_of_mem _ h)) ho2 v1 a2
    refine ⟨v', ?_, b2, ?_⟩
    · rw [List.foldlM_cons, hL kv List.mem_cons_self, a1]
      exact b1
    · rw [b3, List.map_cons, List.sum_cons]
      have : L.map (fun kv => (inner ℂ (row g kv.1) (vec v1) : ℂ) • row g kv.1) =
          L.map (fun kv => (inner ℂ (row g kv.1) (vec v) : ℂ) • row g kv.1) := by
        refine List.map_congr_left fun kv2 h2 => ?_
        rw [a3, inner_sub_right, inner_smul_right, ho1 kv2 h2, mul_zero, sub_zero]
      rw [this, a3]
      abel

theorem vnorm_eq (v : Dict N ℂ) (wf : Dict.WF v) : vnorm v = (‖vec v‖ : ℂ) := by
  have h : ∀ (l : List (N × ℂ)) (a : ℂ), l.foldl (fun s kv => s + kv.2 * (starRingEnd ℂ) kv.2) a =
      a + (l.map (fun kv => kv.2 * (starRingEnd ℂ) kv.2)).sum := by
    intro l
    induction l with
    | nil => intro a; simp
    | cons kv l ih => intro a; rw [List.foldl_cons, ih, List.map_cons, List.sum_cons, add_assoc]
  unfold vnorm
  rw [h, zero_add]
  have h2 : v.map (fun kv => kv.2 * (starRingEnd ℂ) kv.2) = (Dict.keys v).map (fun k => getz v k * (starRingEnd ℂ) (getz v k)) := by
    unfold Dict.keys
    rw [List.map_map]
    refine List.map_congr_left fun kv hkv => ?_
    have : getz v kv.1 = kv.2 := by
      unfold getz
      rw [Dict.get?_of_mem wf (show (kv.1, kv.2) ∈ v from hkv)]; rfl
    simp only [Function.comp_apply, this]
  rw [h2, sum_list wf]
  · have : ∑ k, getz v k * (starRingEnd ℂ) (getz v k) = inner ℂ (vec v) (vec v) := by
      rw [PiLp.inner_apply]
      refine Finset.sum_congr rfl fun b _ => ?_
      rw [RCLike.inner_apply]
      rfl
    rw [this, inner_self_eq_norm_sq_to_K]
    congr 1
    have e : ((‖vec v‖ : ℂ) ^ 2).re = ‖vec v‖ ^ 2 := by
      rw [← Complex.ofReal_pow, Complex.ofReal_re]
    show Real.sqrt ((‖vec v‖ : ℂ) ^ 2).re = _
    rw [e, Real.sqrt_sq (norm_nonneg _)]
  · intro k hk
    have : getz v k = 0 := by
      unfold getz
      rw [(Dict.get?_eq_none_iff v k).mpr hk]; rfl
    rw [this, zero_mul]

end

/-- What the store loop leaves behind. -/
theorem store_spec (thr : ℝ) (k : N) (n : ℂ) (l : List (N × ℂ)) (nd : (l.map Prod.fst).Nodup)
    (hn : ∀ kv ∈ l, |kv.2.re| + |kv.2.im| > thr → n ≠ 0) (g : G N ℂ) (b : Bool) (sp : Sparse g) :
    ∃ g' b', store thr k n l (g, b) = .ok (g', b') ∧ Sparse g' ∧
      (b' = true ↔ b = true ∨ ∃ kv ∈ l, |kv.2.re| + |kv.2.im| > thr) ∧
      (∀ x ∈ Dict.keys g.seq, x ∈ Dict.keys g'.seq) ∧ (k ∈ Dict.keys g.seq → Dict.keys g'.seq = Dict.keys g.seq) ∧
      (∀ x y, (Dict.get? g'.em (x, y)) =
        match l.find? (fun kv => kv.1 = y) with
        | some kv => if x = k ∧ |kv.2.re| + |kv.2.im| > thr then some (kv.2 / n) else Dict.get? g.em (x, y)
        | none => Dict.get? g.em (x, y)) := by
  induction l generalizing g b with
  | nil =>
    refine ⟨g, b, rfl, sp, by simp, fun x h => h, fun _ => rfl, fun x y => rfl⟩
  | cons kv l ih =>
    obtain ⟨c, e⟩ := kv
    simp only [List.map_cons, List.nodup_cons] at nd
    obtain ⟨hc, nd⟩ := nd
    have hn' : ∀ kv ∈ l, |kv.2.re| + |kv.2.im| > thr → n ≠ 0 := fun kv h => hn kv (List.mem_cons_of_mem _ h)
    have hfind : ∀ y, l.find? (fun kv => decide (kv.1 = y)) = none ∨ y ≠ c := by
      intro y
      by_cases h : y = c
      · left
        subst h
        rw [List.find?_eq_none]
        intro kv hkv
        simp only [decide_eq_true_eq]
        rintro rfl
        exact hc (List.mem_map_of_mem hkv)
      · exact Or.inr h
    unfold store
    by_cases hbig : |e.re| + |e.im| > thr
    · rw [if_pos hbig, if_neg (hn (c, e) List.mem_cons_self hbig)]
      have sp' : Sparse (((g.seqAdd k c).reqAdd c k).setEdge k c (e / n)) := by
        have e1 : ∀ a, (((g.seqAdd k c).reqAdd c k).setEdge k c (e / n)).succ a = (g.seqAdd k c).succ a := fun a => rfl
        have e2 : ∀ a, (((g.seqAdd k c).reqAdd c k).setEdge k c (e / n)).pred a = (g.reqAdd c k).pred a := fun a => rfl
        have e3 : ∀ a b, ((Dict.get? (((g.seqAdd k c).reqAdd c k).setEdge k c (e / n)).em (a, b)).isSome = true) ↔
            ((k, c) = (a, b) ∨ (Dict.get? g.em (a, b)).isSome = true) := by
          intro a b
          show (Dict.get? (Dict.set g.em (k, c) (e / n)) (a, b)).isSome = true ↔ _
          rw [Dict.get?_set]
          split
          · rename_i h; simp [h]
          · rename_i h; simp [h]
        refine ⟨Dict.WF_set sp.ws _ _, Dict.WF_set sp.wr _ _, Dict.WF_set sp.we _ _, ?_, ?_, ?_, ?_⟩
        · intro a
          rw [e1, succ_seqAdd]
          split
          · exact nodup_sadd (sp.nds k)
          · exact sp.nds a
        · intro a
          rw [e2, pred_reqAdd]
          split
          · exact nodup_sadd (sp.ndp c)
          · exact sp.ndp a
        · intro a b
          rw [e1, e3, succ_seqAdd]
          split
          · rename_i h
            subst h
            rw [mem_sadd, sp.ls, Prod.mk.injEq]
            constructor
            · rintro (h | h)
              · exact Or.inr h
              · exact Or.inl ⟨rfl, h.symm⟩
            · rintro (h | h)
              · exact Or.inr h.2.symm
              · exact Or.inl h
          · rename_i h
            rw [sp.ls, Prod.mk.injEq]
            constructor
            · exact Or.inr
            · rintro (h' | h')
              · exact absurd h'.1 h
              · exact h'
        · intro a b
          rw [e2, e3, pred_reqAdd]
          split
          · rename_i h
            subst h
            rw [mem_sadd, sp.lp, Prod.mk.injEq]
            constructor
            · rintro (h | h)
              · exact Or.inr h
              · exact Or.inl ⟨h.symm, rfl⟩
            · rintro (h | h)
              · exact Or.inr h.1.symm
              · exact Or.inl h
          · rename_i h
            rw [sp.lp, Prod.mk.injEq]
            constructor
            · exact Or.inr
            · rintro (h' | h')
              · exact absurd h'.2 h
              · exact h'
      obtain ⟨g', b', r1, r2, r3, r4, r5, r6⟩ := ih nd hn' (((g.seqAdd k c).reqAdd c k).setEdge k c (e / n)) true sp'
      have hkeys : Dict.keys (((g.seqAdd k c).reqAdd c k).setEdge k c (e / n)).seq = if Dict.has g.seq k then Dict.keys g.seq else Dict.keys g.seq ++ [k] := by
        show Dict.keys (Dict.set g.seq k _) = _
        rw [Dict.keys_set]
        simp only [Dict.has_iff]
      refine ⟨g', b', r1, r2, ?_, ?_, ?_, ?_⟩
      · rw [r3]
        simp only [true_or, true_iff]
        exact Or.inr ⟨(c, e), List.mem_cons_self, hbig⟩
      · intro x hx
        apply r4
        rw [hkeys]
        split
        · exact hx
        · exact List.mem_append_left _ hx
      · intro hk
        have hh : Dict.keys (((g.seqAdd k c).reqAdd c k).setEdge k c (e / n)).seq = Dict.keys g.seq := by
          rw [hkeys, if_pos ((Dict.has_iff _ _).mpr hk)]
        rw [r5 (hh ▸ hk), hh]
      · intro x y
        rw [r6, List.find?_cons]
        by_cases hy : c = y
        · subst hy
          have hf : l.find? (fun kv => decide (kv.1 = c)) = none := (hfind c).resolve_right (by simp)
          rw [hf]
          simp only [decide_true]
          show Dict.get? (Dict.set g.em (k, c) (e / n)) (x, c) = _
          rw [Dict.get?_set]
          by_cases hx : k = x
          · subst hx; simp [hbig]
          · have : ¬ ((k, c) = (x, c)) := by rw [Prod.mk.injEq]; exact fun h => hx h.1
            rw [if_neg this, if_neg (fun h => hx h.1.symm)]
        · simp only [decide_eq_false hy]
          have hbase : Dict.get? (((g.seqAdd k c).reqAdd c k).setEdge k c (e / n)).em (x, y) = Dict.get? g.em (x, y) := by
            show Dict.get? (Dict.set g.em (k, c) (e / n)) (x, y) = _
            rw [Dict.get?_set, if_neg]
            rw [Prod.mk.injEq]; exact fun h => hy h.2
          rw [hbase]
    · rw [if_neg hbig]
      obtain ⟨g', b', r1, r2, r3, r4, r5, r6⟩ := ih nd hn' g b sp
      refine ⟨g', b', r1, r2, ?_, r4, r5, ?_⟩
      · rw [r3]
        constructor
        · rintro (h | ⟨kv, h, hh⟩)
          · exact Or.inl h
          · exact Or.inr ⟨kv, List.mem_cons_of_mem _ h, hh⟩
        · rintro (h | ⟨kv, h, hh⟩)
          · exact Or.inl h
          · rcases List.mem_cons.mp h with rfl | h
            · exact absurd hh hbig
            · exact Or.inr ⟨kv, h, hh⟩
      · intro x y
        rw [r6, List.find?_cons]
        by_cases hy : c = y
        · subst hy
          have hf : l.find? (fun kv => decide (kv.1 = c)) = none := (hfind c).resolve_right (by simp)
          rw [hf]
          simp only [decide_true]
          rw [if_neg (fun h => hbig h.2)]
        · simp only [decide_eq_false hy]

end Sre
