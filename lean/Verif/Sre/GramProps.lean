import Verif.Sre.GramBasic

/-!
# C113: orthogonalisation of the rows of a sparse matrix

The specification is the Gram–Schmidt process of Mathlib, `InnerProductSpace.gramSchmidtNormed`.
-/

namespace Sre
open Py Graph InnerProductSpace

variable {N : Type} [DecidableEq N] [Fintype N]

theorem find_dict (v : Dict N ℂ) (y : N) : v.find? (fun kv => decide (kv.1 = y)) = (Dict.get? v y).map (fun e => (y, e)) := by
  induction v with
  | nil => rfl
  | cons kv v ih =>
    rw [List.find?_cons, Dict.get?_cons]
    by_cases h : kv.1 = y
    · subst h; simp
    · simp [h, ih]

theorem pos_of_big {thr : ℝ} (h0 : 0 ≤ thr) {z : ℂ} (h : |z.re| + |z.im| > thr) : z ≠ 0 := by
  rintro rfl
  simp at h
  linarith

/-- One call, with the earlier rows orthonormal. -/
theorem gram_schmidt_spec (thr : ℝ) (h0 : 0 ≤ thr) (g : G N ℂ) (sp : Sparse g) (k : N) (hk : k ∉ Dict.keys g.seq)
    (h1 : ∀ kv ∈ g.seq, inner ℂ (row g kv.1) (row g kv.1) = (1 : ℂ))
    (ho : g.seq.Pairwise (fun a b => inner ℂ (row g b.1) (row g a.1) = (0 : ℂ))) (v : Dict N ℂ) (wf : Dict.WF v)
    (w : EuclideanSpace ℂ N)
    (hw : w = vec v - ((Dict.keys g.seq).map (fun k => (inner ℂ (row g k) (vec v) : ℂ) • row g k)).sum)
    (hbig : ∀ b, w b = 0 ∨ |(w b).re| + |(w b).im| > thr) :
    ∃ g' b', gram_schmidt thr g v k = .ok (g', b') ∧ Sparse g' ∧ (b' = true ↔ w ≠ 0) ∧
      Dict.keys g'.seq = Dict.keys g.seq ++ [k] ∧ row g' k = ((‖w‖ : ℂ)⁻¹) • w ∧ ∀ x, x ≠ k → row g' x = row g x := by
  obtain ⟨v', a1, a2, a3⟩ := project_all g sp g.seq (fun kv h => by
    unfold G.succ
    rw [Dict.get?_of_mem sp.ws (show (kv.1, kv.2) ∈ g.seq from h)]; rfl) h1 ho v wf
  have hv' : vec v' = w := by
    rw [a3, hw]
    unfold Dict.keys
    rw [List.map_map]
    rfl
  have hvz : ∀ b, getz v' b = w b := fun b => by rw [← hv']; rfl
  have hmem : ∀ kv ∈ v', w kv.1 = kv.2 := by
    intro kv h
    rw [← hvz]
    unfold getz
    rw [Dict.get?_of_mem a2 (show (kv.1, kv.2) ∈ v' from h)]; rfl
  have hnone : Dict.get? g.seq k = none := (Dict.get?_eq_none_iff _ _).mpr hk
  have hsucc : ∀ a, ({ g with seq := Dict.set g.seq k [] } : G N ℂ).succ a = g.succ a := by
    intro a
    unfold G.succ
    rw [Dict.get?_set]
    split
    · rename_i h; subst h; rw [hnone]; rfl
    · rfl
  have hke : ∀ b, Dict.get? g.em (k, b) = none := by
    intro b
    have h : b ∉ g.succ k := by unfold G.succ; rw [hnone]; simp
    have := mt (sp.ls k b).mpr h
    rwa [Bool.not_eq_true, Option.isSome_eq_false_iff, Option.isNone_iff_eq_none] at this
  have sp' : Sparse ({ g with seq := Dict.set g.seq k [] } : G N ℂ) :=
    ⟨Dict.WF_set sp.ws _ _, sp.wr, sp.we, fun a => by rw [hsucc]; exact sp.nds a, sp.ndp,
      fun a b => by rw [hsucc]; exact sp.ls a b, sp.lp⟩
  obtain ⟨g', b', r1, r2, r3, r4, r5, r6⟩ := store_spec thr k (vnorm v') v' a2 (fun kv h hb => by
    rw [vnorm_eq v' a2, hv']
    have : w ≠ 0 := by
      intro hz
      have := hmem kv h
      rw [hz] at this
      exact pos_of_big h0 hb this.symm
    exact_mod_cast norm_ne_zero_iff.mpr this) ({ g with seq := Dict.set g.seq k [] } : G N ℂ) false sp'
  have hk0 : Dict.keys (Dict.set g.seq k []) = Dict.keys g.seq ++ [k] := by
    rw [Dict.keys_set, if_neg hk]
  refine ⟨g', b', ?_, r2, ?_, ?_, ?_, ?_⟩
  · unfold gram_schmidt
    rw [a1]
    exact r1
  · rw [r3]
    simp only [Bool.false_eq_true, false_or]
    constructor
    · rintro ⟨kv, h, hb⟩ hz
      have := hmem kv h
      rw [hz] at this
      exact pos_of_big h0 hb this.symm
    · intro hz
      by_contra hcon
      push Not at hcon
      apply hz
      ext b
      show w b = 0
      rw [← hvz]
      unfold getz
      cases hh : Dict.get? v' b with
      | none => rfl
      | some e =>
        have hm := Dict.mem_of_get? hh
        have hle := hcon _ hm
        rcases hbig b with hzb | hbb
        · show e = 0
          rw [← show w b = e from hmem _ hm]; exact hzb
        · rw [hmem _ hm] at hbb
          exact absurd hbb (not_lt.mpr hle)
  · rw [r5 (by rw [hk0]; simp), hk0]
  · ext b
    show gain g' k b = ((‖w‖ : ℂ)⁻¹) * w b
    unfold gain
    rw [r6, find_dict]
    cases hh : Dict.get? v' b with
    | none =>
      simp only [Option.map_none]
      rw [hke b]
      have : w b = 0 := by rw [← hvz]; unfold getz; rw [hh]; rfl
      rw [this, mul_zero]; rfl
    | some e =>
      simp only [Option.map_some]
      have hm := hmem _ (Dict.mem_of_get? hh)
      simp only at hm
      rw [vnorm_eq v' a2, hv']
      split
      · rw [hm, Option.getD_some, div_eq_mul_inv, mul_comm]
      · rename_i hb
        rw [hke b]
        rcases hbig b with hz | hz
        · rw [hz, mul_zero]; rfl
        · rw [hm] at hz
          exact absurd ⟨trivial, hz⟩ hb
  · intro x hx
    ext b
    show gain g' x b = gain g x b
    unfold gain
    rw [r6]
    split
    · rw [if_neg (fun h => hx h.1)]
    · rfl

/-- The row of an edge map. -/
noncomputable def rowE (em : Dict (N × N) ℂ) (k : N) : EuclideanSpace ℂ N :=
  WithLp.toLp 2 (fun b => (Dict.get? em (k, b)).getD 0)

/-- The rows in the order of the list `l`, and zero after it. -/
noncomputable def rows (em : Dict (N × N) ℂ) (l : List N) (n : ℕ) : EuclideanSpace ℂ N := (l[n]?).elim 0 (rowE em)

omit [Fintype N] in
theorem rowsOf_spec (em : Dict (N × N) ℂ) :
    Dict.WF (rowsOf em) ∧ ∀ k, (((Dict.get? (rowsOf em) k).getD []).Nodup ∧
      ∀ b, b ∈ (Dict.get? (rowsOf em) k).getD [] ↔ (k, b) ∈ Dict.keys em) ∧
      (k ∈ Dict.keys (rowsOf em) ↔ ∃ b, (k, b) ∈ Dict.keys em) := by
  have key : ∀ (l : List ((N × N) × ℂ)) (d : Dict N (List N)) (P : N → N → Prop), Dict.WF d →
      (∀ k, ((Dict.get? d k).getD []).Nodup ∧ (∀ b, b ∈ (Dict.get? d k).getD [] ↔ P k b)) → (∀ k, k ∈ Dict.keys d ↔ ∃ b, P k b) →
      let d' := l.foldl (fun d kv => Dict.set d kv.1.1 (sadd ((Dict.get? d kv.1.1).getD []) kv.1.2)) d
      Dict.WF d' ∧ (∀ k, ((Dict.get? d' k).getD []).Nodup ∧ (∀ b, b ∈ (Dict.get? d' k).getD [] ↔ P k b ∨ (k, b) ∈ l.map Prod.fst)) ∧
        ∀ k, k ∈ Dict.keys d' ↔ ∃ b, P k b ∨ (k, b) ∈ l.map Prod.fst := by
    intro l
    induction l with
    | nil =>
      intro d P h1 h2 h3
      exact ⟨h1, by simpa using h2, by simpa using h3⟩
    | cons kv l ih =>
      intro d P h1 h2 h3
      obtain ⟨⟨a, c⟩, e⟩ := kv
      have := ih (Dict.set d a (sadd ((Dict.get? d a).getD []) c)) (fun x y => P x y ∨ (x, y) = (a, c)) (Dict.WF_set h1 _ _) (by
        intro k
        rw [Dict.get?_set]
        by_cases hk : a = k
        · subst hk
          rw [if_pos rfl, Option.getD_some]
          refine ⟨nodup_sadd (h2 a).1, fun b => ?_⟩
          rw [mem_sadd, (h2 a).2, Prod.mk.injEq]
          simp
        · rw [if_neg hk]
          refine ⟨(h2 k).1, fun b => ?_⟩
          rw [(h2 k).2, Prod.mk.injEq]
          constructor
          · exact Or.inl
          · rintro (h | h)
            · exact h
            · exact absurd h.1.symm hk) (by
        intro k
        rw [Dict.keys_set]
        split
        · rename_i ha
          rw [h3]
          constructor
          · rintro ⟨b, hb⟩; exact ⟨b, Or.inl hb⟩
          · rintro ⟨b, hb | hb⟩
            · exact ⟨b, hb⟩
            · rw [Prod.mk.injEq] at hb
              rw [hb.1]
              exact (h3 a).mp ha
        · rw [List.mem_append, h3, List.mem_singleton]
          constructor
          · rintro (⟨b, hb⟩ | rfl)
            · exact ⟨b, Or.inl hb⟩
            · exact ⟨c, Or.inr rfl⟩
          · rintro ⟨b, hb | hb⟩
            · exact Or.inl ⟨b, hb⟩
            · rw [Prod.mk.injEq] at hb; exact Or.inr hb.1)
      simp only at this ⊢
      rw [List.foldl_cons]
      refine ⟨this.1, fun k => ⟨(this.2.1 k).1, fun b => ?_⟩, fun k => ?_⟩
      · rw [(this.2.1 k).2, List.map_cons, List.mem_cons, or_assoc]
      · rw [this.2.2]
        simp only [List.map_cons, List.mem_cons, or_assoc]
  have := key em [] (fun _ _ => False) Dict.WF_nil (by simp) (by simp [Dict.keys])
  simp only [false_or] at this
  exact ⟨this.1, fun k => ⟨this.2.1 k, this.2.2 k⟩⟩

theorem rowVect_spec (em : Dict (N × N) ℂ) (k : N) (ks : List N) (hks : ∀ b, b ∈ ks ↔ (k, b) ∈ Dict.keys em) :
    ∃ v, rowVect em k ks = .ok v ∧ Dict.WF v ∧ vec v = rowE em k := by
  have key : ∀ (l : List N) (v : Dict N ℂ), Dict.WF v → (∀ b ∈ l, (k, b) ∈ Dict.keys em) →
      ∃ v', l.foldlM (fun v k_t => do
        let e ← Dict.get em (k, k_t)
        pure (Dict.set v k_t e)) v = Except.ok v' ∧ Dict.WF v' ∧
        ∀ b, getz v' b = if b ∈ l then (Dict.get? em (k, b)).getD 0 else getz v b := by
    intro l
    induction l with
    | nil => intro v wf _; exact ⟨v, rfl, wf, by simp⟩
    | cons c l ih =>
      intro v wf h
      obtain ⟨e, he, he'⟩ := get_of_isSome ((Dict.mem_keys_iff _ _).mp (h c List.mem_cons_self))
      obtain ⟨v', h1, h2, h3⟩ := ih (Dict.set v c e) (Dict.WF_set wf _ _) (fun b hb => h b (List.mem_cons_of_mem _ hb))
      refine ⟨v', ?_, h2, fun b => ?_⟩
      · rw [List.foldlM_cons, he']; exact h1
      · rw [h3, getz_set]
        by_cases hb : b ∈ l
        · rw [if_pos hb, if_pos (List.mem_cons_of_mem _ hb)]
        · rw [if_neg hb]
          by_cases hc : c = b
          · subst hc; rw [if_pos rfl, if_pos List.mem_cons_self, he]; rfl
          · rw [if_neg hc, if_neg]
            rw [List.mem_cons]
            rintro (h | h)
            · exact hc h.symm
            · exact hb h
  obtain ⟨v, h1, h2, h3⟩ := key ks [] Dict.WF_nil (fun b hb => (hks b).mp hb)
  refine ⟨v, h1, h2, ?_⟩
  ext b
  show getz v b = (Dict.get? em (k, b)).getD 0
  rw [h3]
  split
  · rfl
  · rename_i hb
    rw [(Dict.get?_eq_none_iff em (k, b)).mpr (fun h => hb ((hks b).mpr h))]
    rfl

theorem sum_positions {M : Type} [AddCommMonoid M] {α : Type} (L : List α) (F : α → M) (H : ℕ → M)
    (h : ∀ i (hi : i < L.length), F L[i] = H i) : (L.map F).sum = ∑ i ∈ Finset.range L.length, H i := by
  rw [← Fin.sum_univ_eq_sum_range, ← List.sum_ofFn]
  congr 1
  apply List.ext_getElem
  · simp
  · intro i h1 h2
    simp only [List.getElem_map, List.getElem_ofFn]
    exact h i (by simpa using h1)

/-- The Gram–Schmidt vector as the code computes it. -/
theorem gramSchmidt_normed (f : ℕ → EuclideanSpace ℂ N) (n : ℕ) :
    gramSchmidt ℂ f n = f n - ∑ i ∈ Finset.range n, (inner ℂ (gramSchmidtNormed ℂ f i) (f n) : ℂ) • gramSchmidtNormed ℂ f i := by
  rw [gramSchmidt_def, Nat.Iio_eq_range]
  congr 1
  refine Finset.sum_congr rfl fun i _ => ?_
  rw [Submodule.starProjection_singleton, gramSchmidtNormed, inner_smul_left, smul_smul]
  congr 1
  rw [div_eq_mul_inv, pow_two]
  simp only [map_inv₀, RCLike.conj_ofReal, RCLike.ofReal_mul, mul_inv]
  ring

theorem unitary_rows_spec (thr : ℝ) (h0 : 0 ≤ thr) (em : Dict (N × N) ℂ) (l : List N) (nd : l.Nodup)
    (hbig : ∀ n < l.length, ∀ b, gramSchmidt ℂ (rows em l) n b = 0 ∨
      |(gramSchmidt ℂ (rows em l) n b).re| + |(gramSchmidt ℂ (rows em l) n b).im| > thr)
    (ks pre : List N) (hl : l = pre ++ ks) (g : G N ℂ) (sp : Sparse g) (hkeys : Dict.keys g.seq = pre)
    (hrow : ∀ n k, pre[n]? = some k → row g k = gramSchmidtNormed ℂ (rows em l) n)
    (hnz : ∀ n < pre.length, gramSchmidt ℂ (rows em l) n ≠ 0) :
    ∃ r, unitary_rows thr em (rowsOf em) ks g = .ok r ∧
      (r = none ↔ ∃ n < l.length, gramSchmidt ℂ (rows em l) n = 0) ∧
      ∀ U, r = some U → Sparse U ∧ Dict.keys U.seq = l ∧
        ∀ n k, l[n]? = some k → row U k = gramSchmidtNormed ℂ (rows em l) n := by
  induction ks generalizing pre g with
  | nil =>
    rw [List.append_nil] at hl
    subst hl
    refine ⟨some g, rfl, ?_, ?_⟩
    · simp only [reduceCtorEq, false_iff]
      rintro ⟨n, hn, h⟩
      exact hnz n hn h
    · rintro U hU
      rw [Option.some.injEq] at hU
      subst hU
      exact ⟨sp, hkeys, hrow⟩
  | cons k ks ih =>
    obtain ⟨v, v1, v2, v3⟩ := rowVect_spec em k _ ((rowsOf_spec em).2 k).1.2
    have hn : l[pre.length]? = some k := by rw [hl, List.getElem?_append_right le_rfl]; simp
    have hlen : pre.length < l.length := by rw [hl]; simp
    have hfn : rows em l pre.length = vec v := by unfold rows; rw [hn, v3]; rfl
    have hk : k ∉ Dict.keys g.seq := by
      rw [hkeys]
      rw [hl] at nd
      intro h
      exact (List.nodup_append.mp nd).2.2 k h k List.mem_cons_self rfl
    have hget : ∀ i (hi : i < pre.length), row g pre[i] = gramSchmidtNormed ℂ (rows em l) i :=
      fun i hi => hrow i _ (List.getElem?_eq_getElem hi)
    have hunit : ∀ i < pre.length, (inner ℂ (gramSchmidtNormed ℂ (rows em l) i) (gramSchmidtNormed ℂ (rows em l) i) : ℂ) = 1 := by
      intro i hi
      have : gramSchmidtNormed ℂ (rows em l) i ≠ 0 := by
        unfold gramSchmidtNormed
        rw [smul_ne_zero_iff]
        refine ⟨?_, hnz i hi⟩
        exact inv_ne_zero (RCLike.ofReal_ne_zero.mpr (norm_ne_zero_iff.mpr (hnz i hi)))
      rw [inner_self_eq_norm_sq_to_K, gramSchmidtNormed_unit_length' this]
      simp
    have hlenk : g.seq.length = pre.length := by rw [← hkeys]; simp [Dict.keys]
    have hki : ∀ i (hi : i < g.seq.length), (g.seq[i]).1 = pre[i]'(hlenk ▸ hi) := by
      intro i hi
      have h1 : (Dict.keys g.seq)[i]? = some (g.seq[i]).1 := by unfold Dict.keys; simp [hi]
      rw [hkeys, List.getElem?_eq_getElem (hlenk ▸ hi)] at h1
      exact (Option.some.inj h1).symm
    obtain ⟨g', b', r1, r2, r3, r4, r5, r6⟩ := gram_schmidt_spec thr h0 g sp k hk
      (by
        intro kv hkv
        obtain ⟨i, hi, rfl⟩ := List.mem_iff_getElem.mp hkv
        rw [hki i hi, hget, hunit i (hlenk ▸ hi)])
      (by
        rw [List.pairwise_iff_getElem]
        intro i j hi hj hij
        rw [hki i hi, hki j hj, hget, hget]
        unfold gramSchmidtNormed
        rw [inner_smul_left, inner_smul_right, gramSchmidt_orthogonal ℂ _ hij.ne', mul_zero, mul_zero])
      v v2 (gramSchmidt ℂ (rows em l) pre.length)
      (by
        rw [gramSchmidt_normed, hfn, hkeys]
        congr 1
        symm
        apply sum_positions
        intro i hi
        rw [hget i hi])
      (hbig _ hlen)
    unfold unitary_rows
    rw [v1]
    simp only [bind, Except.bind]
    rw [r1]
    simp only
    cases hb : b' with
    | false =>
      refine ⟨none, by simp, ?_, by simp⟩
      simp only [true_iff]
      refine ⟨pre.length, hlen, ?_⟩
      by_contra hcon
      rw [r3.mpr hcon] at hb
      cases hb
    | true =>
      simp only [if_true]
      apply ih (pre ++ [k]) (by rw [hl]; simp) g' r2 (by rw [r4, hkeys])
      · intro n x hx
        by_cases hnl : n < pre.length
        · rw [List.getElem?_append_left hnl] at hx
          have hxk : x ≠ k := by
            rintro rfl
            exact hk (hkeys ▸ List.mem_of_getElem? hx)
          rw [r6 x hxk, hrow n x hx]
        · rw [List.getElem?_append_right (not_lt.mp hnl)] at hx
          have hnn : n = pre.length := by
            rcases Nat.eq_zero_or_pos (n - pre.length) with h | h
            · omega
            · rw [List.getElem?_eq_none (by simp; omega)] at hx
              cases hx
          subst hnn
          simp only [Nat.sub_self, List.getElem?_cons_zero, Option.some.injEq] at hx
          subst hx
          rw [r5]
          rfl
      · intro n hnl
        rw [List.length_append, List.length_singleton] at hnl
        rcases Nat.lt_succ_iff_lt_or_eq.mp hnl with h | h
        · exact hnz n h
        · rw [h]; exact r3.mp hb

theorem mem_span_iff (f : ℕ → EuclideanSpace ℂ N) (n : ℕ) :
    gramSchmidt ℂ f n = 0 ↔ f n ∈ Submodule.span ℂ (f '' Set.Iio n) := by
  rw [← span_gramSchmidt_Iio ℂ f n]
  constructor
  · intro h
    have e := gramSchmidt_def'' ℂ f n
    rw [h, zero_add] at e
    rw [e]
    refine Submodule.sum_mem _ fun i hi => Submodule.smul_mem _ _ (Submodule.subset_span ⟨i, ?_, rfl⟩)
    simpa using hi
  · intro h
    have hin : gramSchmidt ℂ f n ∈ Submodule.span ℂ (gramSchmidt ℂ f '' Set.Iio n) := by
      have e := gramSchmidt_def'' ℂ f n
      rw [eq_comm, ← eq_sub_iff_add_eq] at e
      rw [e]
      refine Submodule.sub_mem _ h (Submodule.sum_mem _ fun i hi => Submodule.smul_mem _ _ (Submodule.subset_span ⟨i, ?_, rfl⟩))
      simpa using hi
    have hor : ∀ x ∈ Submodule.span ℂ (gramSchmidt ℂ f '' Set.Iio n), (inner ℂ (gramSchmidt ℂ f n) x : ℂ) = 0 := by
      intro x hx
      induction hx using Submodule.span_induction with
      | mem x h =>
        obtain ⟨i, hi, rfl⟩ := h
        exact gramSchmidt_orthogonal ℂ f (ne_of_gt (Set.mem_Iio.mp hi))
      | zero => exact inner_zero_right _
      | add x y _ _ h1 h2 => rw [inner_add_right, h1, h2, add_zero]
      | smul a x _ h => rw [inner_smul_right, h, mul_zero]
    exact inner_self_eq_zero.mp (hor _ hin)

/-- **C113** `edge_matrix_to_unitary_sre` never raises an error, and what it returns is a well formed sparse matrix. -/
theorem C113_no_error (thr : ℝ) (h0 : 0 ≤ thr) (sort : List N → List N) (hsort : ∀ l, (sort l).Perm l) (em : Dict (N × N) ℂ) :
    ∃ r, edge_matrix_to_unitary thr sort em = .ok r ∧ ∀ U, r = some U → Sparse U := by
  have hproj : ∀ (g : G N ℂ), Sparse g → ∀ (L : List (N × List N)), (∀ kv ∈ L, kv.2 = g.succ kv.1) → ∀ v, Dict.WF v →
      ∃ v', L.foldlM (fun v kv => project g.em kv.1 kv.2 v) v = .ok v' ∧ Dict.WF v' := by
    intro g sp L
    induction L with
    | nil => intro _ v wf; exact ⟨v, rfl, wf⟩
    | cons kv L ih =>
      intro hL v wf
      obtain ⟨v1, a1, a2, -⟩ := project_spec g sp kv.1 v wf
      obtain ⟨v', b1, b2⟩ := ih (fun kv h => hL kv (List.mem_cons_of_mem _ h)) v1 a2
      refine ⟨v', ?_, b2⟩
      rw [List.foldlM_cons, hL kv List.mem_cons_self, a1]
      exact b1
  have hgs : ∀ (g : G N ℂ) k v, Sparse g → k ∉ Dict.keys g.seq → Dict.WF v →
      ∃ g' b', gram_schmidt thr g v k = .ok (g', b') ∧ Sparse g' ∧ Dict.keys g'.seq = Dict.keys g.seq ++ [k] := by
    intro g k v sp hk wf
    obtain ⟨v', a1, a2⟩ := hproj g sp g.seq (fun kv h => by
      unfold G.succ
      rw [Dict.get?_of_mem sp.ws (show (kv.1, kv.2) ∈ g.seq from h)]; rfl) v wf
    have hnone : Dict.get? g.seq k = none := (Dict.get?_eq_none_iff _ _).mpr hk
    have hsucc : ∀ a, ({ g with seq := Dict.set g.seq k [] } : G N ℂ).succ a = g.succ a := by
      intro a
      unfold G.succ
      rw [Dict.get?_set]
      split
      · rename_i h; subst h; rw [hnone]; rfl
      · rfl
    have sp' : Sparse ({ g with seq := Dict.set g.seq k [] } : G N ℂ) :=
      ⟨Dict.WF_set sp.ws _ _, sp.wr, sp.we, fun a => by rw [hsucc]; exact sp.nds a, sp.ndp,
        fun a b => by rw [hsucc]; exact sp.ls a b, sp.lp⟩
    obtain ⟨g', b', r1, r2, r3, r4, r5, r6⟩ := store_spec thr k (vnorm v') v' a2 (fun kv h hb => by
      rw [vnorm_eq v' a2]
      have : vec v' ≠ 0 := by
        intro hz
        have h2 : getz v' kv.1 = kv.2 := by
          unfold getz
          rw [Dict.get?_of_mem a2 (show (kv.1, kv.2) ∈ v' from h)]; rfl
        have h3 : getz v' kv.1 = 0 := congrArg (fun w : EuclideanSpace ℂ N => w kv.1) hz
        exact pos_of_big h0 hb (h2 ▸ h3)
      exact_mod_cast norm_ne_zero_iff.mpr this) ({ g with seq := Dict.set g.seq k [] } : G N ℂ) false sp'
    have hk0 : Dict.keys (Dict.set g.seq k []) = Dict.keys g.seq ++ [k] := by
      rw [Dict.keys_set, if_neg hk]
    refine ⟨g', b', ?_, r2, ?_⟩
    · unfold gram_schmidt
      rw [a1]
      exact r1
    · rw [r5 (by rw [hk0]; simp), hk0]
  have hrows : ∀ (ks : List N) (g : G N ℂ), Sparse g → (Dict.keys g.seq ++ ks).Nodup →
      ∃ r, unitary_rows thr em (rowsOf em) ks g = .ok r ∧ ∀ U, r = some U → Sparse U := by
    intro ks
    induction ks with
    | nil => intro g sp _; exact ⟨some g, rfl, fun U h => Option.some.inj h ▸ sp⟩
    | cons k ks ih =>
      intro g sp hnd
      obtain ⟨v, v1, v2, -⟩ := rowVect_spec em k _ ((rowsOf_spec em).2 k).1.2
      have hk : k ∉ Dict.keys g.seq := fun h => (List.nodup_append.mp hnd).2.2 k h k List.mem_cons_self rfl
      obtain ⟨g', b', r1, r2, r3⟩ := hgs g k v sp hk v2
      unfold unitary_rows
      rw [v1]
      simp only [bind, Except.bind]
      rw [r1]
      simp only
      cases b' with
      | false => exact ⟨none, by simp, by simp⟩
      | true => exact ih g' r2 (by rw [r3]; simpa using hnd)
  refine hrows _ _ sparse_empty ?_
  show ([] ++ sort (Dict.keys (rowsOf em))).Nodup
  rw [List.nil_append, (hsort _).nodup_iff]
  exact (rowsOf_spec em).1

/-- **C113** With exact arithmetic `edge_matrix_to_unitary_sre` returns `None` exactly when a row
depends on the rows before it in the sorted order, and otherwise the rows of the Gram–Schmidt process; this holds for any
threshold below which no nonzero entry of that process lies. -/
theorem C113_gram_partial (thr : ℝ) (h0 : 0 ≤ thr) (sort : List N → List N) (hsort : ∀ l, (sort l).Perm l) (em : Dict (N × N) ℂ)
    (l : List N) (hl : l = sort (Dict.keys (rowsOf em)))
    (hbig : ∀ n < l.length, ∀ b, gramSchmidt ℂ (rows em l) n b = 0 ∨
      |(gramSchmidt ℂ (rows em l) n b).re| + |(gramSchmidt ℂ (rows em l) n b).im| > thr) :
    (∀ k, k ∈ l ↔ ∃ b, (k, b) ∈ Dict.keys em) ∧
    ∃ r, edge_matrix_to_unitary thr sort em = .ok r ∧
      (r = none ↔ ∃ n < l.length, rows em l n ∈ Submodule.span ℂ (rows em l '' Set.Iio n)) ∧
      ∀ U, r = some U → Sparse U ∧ Dict.keys U.seq = l ∧
        ∀ n k, l[n]? = some k → row U k = gramSchmidtNormed ℂ (rows em l) n := by
  have nd : l.Nodup := by rw [hl, (hsort _).nodup_iff]; exact (rowsOf_spec em).1
  refine ⟨fun k => by rw [hl, (hsort _).mem_iff, ((rowsOf_spec em).2 k).2], ?_⟩
  obtain ⟨r, r1, r2, r3⟩ := unitary_rows_spec thr h0 em l nd hbig l [] rfl ⟨[], [], []⟩ sparse_empty rfl (by simp) (by simp)
  refine ⟨r, ?_, ?_, r3⟩
  · show unitary_rows thr em (rowsOf em) (sort (Dict.keys (rowsOf em))) _ = _
    rw [← hl]
    exact r1
  · rw [r2]
    simp only [mem_span_iff]

/-- **C113** With exact arithmetic (threshold 0) the rows of the result are orthonormal and those of any first nodes span the
same space as the rows given; `None` is returned only if a row depends on those before it. -/
theorem C113_unitary_partial (sort : List N → List N) (hsort : ∀ l, (sort l).Perm l) (em : Dict (N × N) ℂ)
    (l : List N) (hl : l = sort (Dict.keys (rowsOf em))) :
    ∃ r, edge_matrix_to_unitary 0 sort em = .ok r ∧
      (r = none ↔ ∃ pre k post, l = pre ++ k :: post ∧ rowE em k ∈ Submodule.span ℂ (rowE em '' {x | x ∈ pre})) ∧
      ∀ U, r = some U → Sparse U ∧
        Orthonormal ℂ (fun x : {k // ∃ b, (k, b) ∈ Dict.keys em} => row U x.1) ∧
        (∀ k, (¬ ∃ b, (k, b) ∈ Dict.keys em) → row U k = 0) ∧
        ∀ pre post, l = pre ++ post →
          Submodule.span ℂ (row U '' {x | x ∈ pre}) = Submodule.span ℂ (rowE em '' {x | x ∈ pre}) := by
  have nd : l.Nodup := by rw [hl, (hsort _).nodup_iff]; exact (rowsOf_spec em).1
  have himage : ∀ n ≤ l.length, ∀ (F : ℕ → EuclideanSpace ℂ N) (H : N → EuclideanSpace ℂ N),
      (∀ n k, l[n]? = some k → H k = F n) → F '' Set.Iio n = H '' {x | x ∈ l.take n} := by
    intro n hn F H hFH
    ext x
    simp only [Set.mem_image, Set.mem_Iio, Set.mem_setOf_eq]
    constructor
    · rintro ⟨i, hi, rfl⟩
      have hil : i < l.length := by omega
      refine ⟨l[i], ?_, hFH i _ (List.getElem?_eq_getElem hil)⟩
      rw [List.mem_take_iff_getElem]
      exact ⟨i, by omega, rfl⟩
    · rintro ⟨k, hk, rfl⟩
      rw [List.mem_take_iff_getElem] at hk
      obtain ⟨i, hi, rfl⟩ := hk
      refine ⟨i, by omega, ?_⟩
      exact (hFH i _ (List.getElem?_eq_getElem (by omega))).symm
  have hrows : ∀ n k, l[n]? = some k → rowE em k = rows em l n := by
    intro n k h
    unfold rows
    rw [h]; rfl
  obtain ⟨hmem, r, r1, r2, r3⟩ := C113_gram_partial 0 le_rfl sort hsort em l hl (by
    intro n _ b
    by_cases h : gramSchmidt ℂ (rows em l) n b = 0
    · exact Or.inl h
    · right
      by_contra hcon
      apply h
      have h1 := abs_nonneg (gramSchmidt ℂ (rows em l) n b).re
      have h2 := abs_nonneg (gramSchmidt ℂ (rows em l) n b).im
      apply Complex.ext
      · exact abs_eq_zero.mp (by linarith)
      · exact abs_eq_zero.mp (by linarith))
  refine ⟨r, r1, ?_, ?_⟩
  · rw [r2]
    constructor
    · rintro ⟨n, hn, h⟩
      refine ⟨l.take n, l[n], l.drop (n + 1), ?_, ?_⟩
      · simp
      · rw [hrows n _ (List.getElem?_eq_getElem hn), ← himage n hn.le (rows em l) (rowE em) hrows]
        exact h
    · rintro ⟨pre, k, post, h1, h2⟩
      have hlen : pre.length < l.length := by rw [h1]; simp
      have hk : l[pre.length]? = some k := by rw [h1, List.getElem?_append_right le_rfl]; simp
      refine ⟨pre.length, hlen, ?_⟩
      rw [← hrows _ _ hk, himage _ hlen.le (rows em l) (rowE em) hrows, h1, List.take_left]
      exact h2
  · intro U hU
    obtain ⟨s1, s2, s3⟩ := r3 U hU
    have hpos : ∀ k, (∃ b, (k, b) ∈ Dict.keys em) → ∃ n, n < l.length ∧ l[n]? = some k := by
      intro k hk
      obtain ⟨n, hn, hh⟩ := List.mem_iff_getElem.mp ((hmem k).mpr hk)
      exact ⟨n, hn, by rw [List.getElem?_eq_getElem hn, hh]⟩
    have hne : ∀ n < l.length, gramSchmidt ℂ (rows em l) n ≠ 0 := by
      intro n hn h
      have : r = none := r2.mpr ⟨n, hn, (mem_span_iff _ _).mp h⟩
      rw [this] at hU; cases hU
    refine ⟨s1, ?_, ?_, ?_⟩
    · constructor
      · rintro ⟨k, hk⟩
        obtain ⟨n, hn, hh⟩ := hpos k hk
        show ‖row U k‖ = 1
        rw [s3 n k hh]
        apply gramSchmidtNormed_unit_length'
        unfold gramSchmidtNormed
        rw [smul_ne_zero_iff]
        exact ⟨inv_ne_zero (RCLike.ofReal_ne_zero.mpr (norm_ne_zero_iff.mpr (hne n hn))), hne n hn⟩
      · rintro ⟨k, hk⟩ ⟨k', hk'⟩ hkk
        obtain ⟨n, hn, hh⟩ := hpos k hk
        obtain ⟨n', hn', hh'⟩ := hpos k' hk'
        show inner ℂ (row U k) (row U k') = 0
        rw [s3 n k hh, s3 n' k' hh']
        have : n ≠ n' := by
          rintro rfl
          rw [hh] at hh'
          exact hkk (Subtype.ext (Option.some.inj hh'))
        unfold gramSchmidtNormed
        rw [inner_smul_left, inner_smul_right, gramSchmidt_orthogonal ℂ _ this, mul_zero, mul_zero]
    · intro k hk
      have : k ∉ Dict.keys U.seq := by rw [s2, hmem]; exact hk
      ext b
      show gain U k b = 0
      unfold gain
      have h : b ∉ U.succ k := by unfold G.succ; rw [(Dict.get?_eq_none_iff _ _).mpr this]; simp
      have := mt (s1.ls k b).mpr h
      rw [Bool.not_eq_true, Option.isSome_eq_false_iff, Option.isNone_iff_eq_none] at this
      rw [this]; rfl
    · intro pre post hpp
      have hle : pre.length ≤ l.length := by rw [hpp]; simp
      have ht : l.take pre.length = pre := by rw [hpp, List.take_left]
      have e1 := himage _ hle (gramSchmidtNormed ℂ (rows em l)) (row U) s3
      have e2 := himage _ hle (rows em l) (rowE em) hrows
      rw [ht] at e1 e2
      rw [← e1, ← e2, span_gramSchmidtNormed, span_gramSchmidt_Iio]

/-- `finfo.eps * 10`. -/
noncomputable def thr0 : ℝ := 10 * 2⁻¹ ^ 52

/-- **C113** is false for the threshold of the code: a matrix with a small entry is regular, but `None` is returned. -/
theorem C113_small_refuted :
    ∃ em : Dict (Fin 1 × Fin 1) ℂ, rowE em 0 ≠ 0 ∧ edge_matrix_to_unitary thr0 id em = .ok none := by
  have hp : 0 < thr0 := by unfold thr0; positivity
  refine ⟨[((0, 0), (thr0 : ℂ))], ?_, ?_⟩
  · intro h
    have : (thr0 : ℂ) = 0 := congrArg (fun w : EuclideanSpace ℂ (Fin 1) => w 0) h
    exact hp.ne' (by exact_mod_cast this)
  · simp [edge_matrix_to_unitary, rowsOf, unitary_rows, rowVect, gram_schmidt, store, Dict.keys, Dict.set, Dict.get?, Dict.get,
      bind, Except.bind, pure, Except.pure, sadd, abs_of_pos hp]

/-- **C113** is false for the threshold of the code: small entries are dropped after the norm has been taken, the row that is left
does not have norm 1. -/
theorem C113_norm_refuted :
    ∃ em : Dict (Fin 2 × Fin 2) ℂ, ∃ U, edge_matrix_to_unitary thr0 id em = .ok (some U) ∧ ‖row U 0‖ < 1 := by
  have hp : 0 < thr0 := by unfold thr0; positivity
  have h1 : thr0 < 1 := by unfold thr0; norm_num
  have hn : vnorm [((0 : Fin 2), (1 : ℂ)), (1, (thr0 : ℂ))] = (Real.sqrt (1 + thr0 ^ 2) : ℂ) := by
    unfold vnorm
    congr 2
    simp [pow_two]
  have hs : 1 < Real.sqrt (1 + thr0 ^ 2) := by
    rw [Real.lt_sqrt (by norm_num)]
    nlinarith
  have hs0 : (Real.sqrt (1 + thr0 ^ 2) : ℂ) ≠ 0 := by
    have : Real.sqrt (1 + thr0 ^ 2) ≠ 0 := by linarith
    exact_mod_cast this
  refine ⟨[((0, 0), 1), ((0, 1), (thr0 : ℂ))],
    ⟨[(0, [0])], [(0, [0])], [((0, 0), 1 / (Real.sqrt (1 + thr0 ^ 2) : ℂ))]⟩, ?_, ?_⟩
  · have hv : rowVect [((0, 0), 1), ((0, 1), (thr0 : ℂ))] (0 : Fin 2) [0, 1] = .ok [(0, 1), (1, (thr0 : ℂ))] := by
      simp [rowVect, Dict.get, Dict.get?, Dict.set, bind, Except.bind, pure, Except.pure]
    have hg : gram_schmidt thr0 ⟨[], [], []⟩ [((0 : Fin 2), (1 : ℂ)), (1, (thr0 : ℂ))] 0 =
        .ok (⟨[(0, [0])], [(0, [0])], [((0, 0), 1 / (Real.sqrt (1 + thr0 ^ 2) : ℂ))]⟩, true) := by
      unfold gram_schmidt
      simp only [List.foldlM_nil, bind, Except.bind, pure, Except.pure, hn]
      unfold store
      rw [if_pos (by simpa using h1), if_neg hs0]
      unfold store
      rw [if_neg (by simp [abs_of_pos hp])]
      rfl
    have hr : rowsOf [((0, 0), (1 : ℂ)), ((0, 1), (thr0 : ℂ))] = [((0 : Fin 2), [0, 1])] := rfl
    show unitary_rows thr0 _ (rowsOf _) (id (Dict.keys (rowsOf _))) _ = _
    rw [hr]
    show unitary_rows thr0 _ _ [0] _ = _
    unfold unitary_rows
    show ((rowVect _ 0 [0, 1]) >>= _) = _
    rw [hv]
    simp only [bind, Except.bind]
    rw [hg]
    rfl
  · rw [EuclideanSpace.norm_eq, Real.sqrt_lt' (by norm_num)]
    simp only [Fin.sum_univ_two, row, gain, Dict.get?]
    simp
    rw [inv_lt_one₀ (by positivity)]
    nlinarith

/-- A shear: its rows `(1, 1)` and `(0, 1)` are independent, so a unitary matrix is returned. -/
example : ∃ U : G (Fin 2) ℂ, edge_matrix_to_unitary 0 id [((0, 0), 1), ((0, 1), 1), ((1, 1), 1)] = .ok (some U) ∧
    Orthonormal ℂ (row U) := by
  have hr : id (Dict.keys (rowsOf [((0, 0), (1 : ℂ)), ((0, 1), 1), ((1, 1), 1)])) = [(0 : Fin 2), 1] := rfl
  obtain ⟨r, h1, h2, h3⟩ := C113_unitary_partial (N := Fin 2) id (fun l => List.Perm.refl l) [((0, 0), 1), ((0, 1), 1), ((1, 1), 1)] _ hr.symm
  cases r with
  | none =>
    exfalso
    obtain ⟨pre, k, post, e1, e2⟩ := h2.mp rfl
    match pre, e1 with
    | [], e1 =>
      simp only [List.nil_append, List.cons.injEq] at e1
      obtain ⟨rfl, -⟩ := e1
      simp only [List.not_mem_nil, Set.setOf_false, Set.image_empty, Submodule.span_empty, Submodule.mem_bot] at e2
      have : (1 : ℂ) = 0 := congrArg (fun w : EuclideanSpace ℂ (Fin 2) => w 0) e2
      exact one_ne_zero this
    | [a], e1 =>
      simp only [List.cons_append, List.nil_append, List.cons.injEq] at e1
      obtain ⟨rfl, rfl, -⟩ := e1
      have hs : {x : Fin 2 | x ∈ [(0 : Fin 2)]} = {0} := by ext x; simp
      rw [hs, Set.image_singleton, Submodule.mem_span_singleton] at e2
      obtain ⟨c, hc⟩ := e2
      have a0 : c * 1 = 0 := congrArg (fun w : EuclideanSpace ℂ (Fin 2) => w 0) hc
      have a1 : c * 1 = 1 := congrArg (fun w : EuclideanSpace ℂ (Fin 2) => w 1) hc
      rw [a0] at a1
      exact zero_ne_one a1
    | a :: b :: pre, e1 =>
      have := congrArg List.length e1
      simp at this
  | some U =>
    refine ⟨U, h1, ?_⟩
    obtain ⟨-, ho, -, -⟩ := h3 U rfl
    have hall : ∀ k : Fin 2, ∃ b, (k, b) ∈ Dict.keys ([((0, 0), 1), ((0, 1), 1), ((1, 1), 1)] : Dict (Fin 2 × Fin 2) ℂ) := by
      intro k
      refine ⟨1, ?_⟩
      fin_cases k <;> simp [Dict.keys]
    exact ho.comp (fun k => (⟨k, hall k⟩ : {k // ∃ b, (k, b) ∈ _})) (fun a b h => congrArg Subtype.val h)

/-- Equal rows: `None`. -/
example : edge_matrix_to_unitary 0 id ([((0, 0), 1), ((1, 0), 1)] : Dict (Fin 2 × Fin 2) ℂ) = .ok none := by
  have hr : id (Dict.keys (rowsOf ([((0, 0), 1), ((1, 0), 1)] : Dict (Fin 2 × Fin 2) ℂ))) = [(0 : Fin 2), 1] := rfl
  obtain ⟨r, h1, h2, -⟩ := C113_unitary_partial (N := Fin 2) id (fun l => List.Perm.refl l) [((0, 0), 1), ((1, 0), 1)] _ hr.symm
  rw [h1, h2.mpr]
  refine ⟨[0], 1, [], rfl, Submodule.subset_span ⟨0, by simp, ?_⟩⟩
  ext b
  fin_cases b <;> rfl

end Sre
