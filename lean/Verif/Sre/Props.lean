import Verif.Sre.Model
import Verif.Graph.Spec
import Mathlib.Algebra.BigOperators.Ring.Finset
import Mathlib.Algebra.Star.BigOperators
import Mathlib.LinearAlgebra.Matrix.ConjTranspose
import Mathlib.Tactic.Ring

/-!
# C23, C24: products and adjoints of sparse matrices

`gain g a b` is the entry from `a` to `b`: the stored value, else 0.
-/

set_option linter.unusedSectionVars false

namespace Sre
open Py Graph

variable {N : Type} {V : Type} [DecidableEq N]

/-- A sparse matrix as the callers build it: dictionaries without repeated keys, sets without repeated elements, and the stored
entries are exactly the listed ones, in both directions. -/
structure Sparse (g : G N V) : Prop where
  ws : Dict.WF g.seq
  wr : Dict.WF g.req
  we : Dict.WF g.em
  nds : ∀ a, (g.succ a).Nodup
  ndp : ∀ a, (g.pred a).Nodup
  ls : ∀ a b, b ∈ g.succ a ↔ (Dict.get? g.em (a, b)).isSome
  lp : ∀ a b, a ∈ g.pred b ↔ (Dict.get? g.em (a, b)).isSome

/-- The dense form, rows are the starting nodes. -/
def dense [Zero V] (g : G N V) : Matrix N N V := fun a b => gain g a b

theorem sparse_empty : Sparse (⟨[], [], []⟩ : G N V) :=
  ⟨Dict.WF_nil, Dict.WF_nil, Dict.WF_nil, by simp [G.succ], by simp [G.pred], by simp [G.succ], by simp [G.pred]⟩

theorem mem_sadd {s : List N} {x y : N} : y ∈ sadd s x ↔ y ∈ s ∨ y = x := by
  unfold sadd
  split
  · constructor
    · exact Or.inl
    · rintro (h | rfl) <;> assumption
  · simp

theorem nodup_sadd {s : List N} {x : N} (h : s.Nodup) : (sadd s x).Nodup := by
  unfold sadd
  split
  · exact h
  · rename_i hx
    rw [List.nodup_append]
    refine ⟨h, List.nodup_singleton x, ?_⟩
    intro a ha b hb
    rw [List.mem_singleton] at hb
    subst hb
    rintro rfl
    exact hx ha

theorem succ_seqAdd (g : G N V) (a b x : N) : (g.seqAdd a b).succ x = if a = x then sadd (g.succ a) b else g.succ x := by
  unfold G.seqAdd G.succ
  rw [Dict.get?_set]
  split <;> rfl

theorem pred_reqAdd (g : G N V) (a b x : N) : (g.reqAdd a b).pred x = if a = x then sadd (g.pred a) b else g.pred x := by
  unfold G.reqAdd G.pred
  rw [Dict.get?_set]
  split <;> rfl

theorem setdefault_get (d : Dict N (List N)) (k x : N) : (Dict.get? (setdefault d k) x).getD [] = (Dict.get? d x).getD [] := by
  unfold setdefault
  split
  · rfl
  · rename_i h
    rw [Dict.get?_set]
    by_cases hk : k = x
    · subst hk
      rw [if_pos rfl]
      unfold Dict.has at h
      cases hh : Dict.get? d k with
      | none => rfl
      | some v => rw [hh] at h; exact absurd rfl h
    · rw [if_neg hk]

theorem WF_setdefault {d : Dict N (List N)} (h : Dict.WF d) (k : N) : Dict.WF (setdefault d k) := by
  unfold setdefault
  split
  · exact h
  · exact Dict.WF_set h _ _

theorem sparse_setdefault {g : G N V} (hg : Sparse g) (k : N) : Sparse { g with seq := setdefault g.seq k } := by
  have e : ∀ a, ({ g with seq := setdefault g.seq k } : G N V).succ a = g.succ a := fun a => setdefault_get _ _ _
  exact ⟨WF_setdefault hg.ws k, hg.wr, hg.we, fun a => by rw [e]; exact hg.nds a, hg.ndp, fun a b => by rw [e]; exact hg.ls a b, hg.lp⟩

section mult
variable [Field V]

theorem gain_setEdge (g : G N V) (a b x y : N) (v : V) : gain (g.setEdge a b v) x y = if (a, b) = (x, y) then v else gain g x y := by
  unfold gain G.setEdge
  rw [Dict.get?_set]
  split <;> rfl

theorem get_of_isSome {K W : Type} [DecidableEq K] {d : Dict K W} {k : K} (h : (Dict.get? d k).isSome) :
    ∃ v, Dict.get? d k = some v ∧ Dict.get d k = .ok v := by
  cases hh : Dict.get? d k with
  | none => rw [hh] at h; cases h
  | some v => exact ⟨v, rfl, by unfold Dict.get; rw [hh]⟩

theorem multTo_spec (g2 : G N V) (h2 : Sparse g2) (a mid : N) (e1 : V) (ks : List N) (hnd : ks.Nodup)
    (hks : ∀ k ∈ ks, k ∈ g2.succ mid) (g : G N V) (hg : Sparse g) :
    ∃ g', multTo g2 a mid e1 ks g = .ok g' ∧ Sparse g' ∧
      ∀ x y, gain g' x y = gain g x y + if x = a ∧ y ∈ ks then gain g2 mid y * e1 else 0 := by
  induction ks generalizing g with
  | nil => exact ⟨g, rfl, hg, by simp⟩
  | cons k ks ih =>
    obtain ⟨hk, hnd⟩ := List.nodup_cons.mp hnd
    have hks' : ∀ k ∈ ks, k ∈ g2.succ mid := fun q hq => hks q (List.mem_cons_of_mem _ hq)
    obtain ⟨e2, he2, he2'⟩ := get_of_isSome ((h2.ls mid k).mp (hks k List.mem_cons_self))
    have hg2 : gain g2 mid k = e2 := by unfold gain; rw [he2]; rfl
    unfold multTo
    have hedge : g2.edge mid k = .ok e2 := he2'
    rw [hedge]
    by_cases hin : k ∈ g.succ a
    · obtain ⟨e, he, he'⟩ := get_of_isSome ((hg.ls a k).mp hin)
      have hge : gain g a k = e := by unfold gain; rw [he]; rfl
      have hgedge : g.edge a k = .ok e := he'
      have hs : Sparse (g.setEdge a k (e + e2 * e1)) := by
        have : ∀ x y, (Dict.get? (g.setEdge a k (e + e2 * e1)).em (x, y)).isSome ↔ (Dict.get? g.em (x, y)).isSome := by
          intro x y
          show (Dict.get? (Dict.set g.em (a, k) _) (x, y)).isSome ↔ _
          rw [Dict.get?_set]
          split
          · rename_i q
            rw [← q, he]; simp
          · rfl
        exact ⟨hg.ws, hg.wr, Dict.WF_set hg.we _ _, hg.nds, hg.ndp, fun x y => (hg.ls x y).trans (this x y).symm, fun x y => (hg.lp x y).trans (this x y).symm⟩
      obtain ⟨g', r1, r2, r3⟩ := ih hnd hks' _ hs
      refine ⟨g', ?_, r2, fun x y => ?_⟩
      · show (if k ∈ g.succ a then (do let e ← g.edge a k; multTo g2 a mid e1 ks (g.setEdge a k (e + e2 * e1))) else _) = _
        rw [if_pos hin, hgedge]
        exact r1
      · rw [r3, gain_setEdge]
        by_cases hx : x = a
        · subst hx
          by_cases hy : y = k
          · subst hy
            simp [hk, hge, hg2]
          · have : ¬ (x, k) = (x, y) := fun q => hy (Prod.mk.inj q).2.symm
            simp [this, hy]
        · have : ¬ (a, k) = (x, y) := fun q => hx (Prod.mk.inj q).1.symm
          simp [this, hx]
    · have hnone : Dict.get? g.em (a, k) = none := by
        cases hh : Dict.get? g.em (a, k) with
        | none => rfl
        | some v => exact absurd ((hg.ls a k).mpr (by rw [hh]; rfl)) hin
      have hge : gain g a k = 0 := by unfold gain; rw [hnone]; rfl
      have hs : Sparse (((g.setEdge a k (e2 * e1)).seqAdd a k).reqAdd k a) := by
        have hem : ∀ x y, (Dict.get? (((g.setEdge a k (e2 * e1)).seqAdd a k).reqAdd k a).em (x, y)).isSome ↔
            (Dict.get? g.em (x, y)).isSome ∨ (x = a ∧ y = k) := by
          intro x y
          show (Dict.get? (Dict.set g.em (a, k) _) (x, y)).isSome ↔ _
          rw [Dict.get?_set]
          by_cases q : (a, k) = (x, y)
          · obtain ⟨rfl, rfl⟩ := Prod.mk.inj q
            simp
          · have : ¬ (x = a ∧ y = k) := fun w => q (by rw [w.1, w.2])
            simp [q, this]
        have hsucc : ∀ x, (((g.setEdge a k (e2 * e1)).seqAdd a k).reqAdd k a).succ x = if a = x then sadd (g.succ a) k else g.succ x :=
          fun x => succ_seqAdd _ _ _ _
        have hpred : ∀ x, (((g.setEdge a k (e2 * e1)).seqAdd a k).reqAdd k a).pred x = if k = x then sadd (g.pred k) a else g.pred x :=
          fun x => pred_reqAdd _ _ _ _
        refine ⟨Dict.WF_set hg.ws _ _, Dict.WF_set hg.wr _ _, Dict.WF_set hg.we _ _, fun x => ?_, fun x => ?_, fun x y => ?_, fun x y => ?_⟩
        · rw [hsucc]; split
          · exact nodup_sadd (hg.nds a)
          · exact hg.nds x
        · rw [hpred]; split
          · exact nodup_sadd (hg.ndp k)
          · exact hg.ndp x
        · rw [hem, hsucc, ← hg.ls x y]
          by_cases hx : a = x
          · subst hx; rw [if_pos rfl, mem_sadd]; simp
          · rw [if_neg hx]; simp [Ne.symm hx]
        · rw [hem, hpred, ← hg.lp x y]
          by_cases hx : k = y
          · subst hx; rw [if_pos rfl, mem_sadd]; simp
          · rw [if_neg hx]; simp [Ne.symm hx]
      obtain ⟨g', r1, r2, r3⟩ := ih hnd hks' _ hs
      refine ⟨g', ?_, r2, fun x y => ?_⟩
      · show (if k ∈ g.succ a then _ else multTo g2 a mid e1 ks (((g.setEdge a k (e2 * e1)).seqAdd a k).reqAdd k a)) = _
        rw [if_neg hin]
        exact r1
      · rw [r3]
        have : gain (((g.setEdge a k (e2 * e1)).seqAdd a k).reqAdd k a) x y = gain (g.setEdge a k (e2 * e1)) x y := rfl
        rw [this, gain_setEdge]
        by_cases hx : x = a
        · subst hx
          by_cases hy : y = k
          · subst hy
            simp [hk, hge, hg2]
          · have : ¬ (x, k) = (x, y) := fun q => hy (Prod.mk.inj q).2.symm
            simp [this, hy]
        · have : ¬ (a, k) = (x, y) := fun q => hx (Prod.mk.inj q).1.symm
          simp [this, hx]

theorem multFrom_spec (g1 g2 : G N V) (h1 : Sparse g1) (h2 : Sparse g2) (mid : N) (fs : List N) (hnd : fs.Nodup)
    (hfs : ∀ k ∈ fs, k ∈ g1.pred mid) (g : G N V) (hg : Sparse g) :
    ∃ g', multFrom g1 g2 mid (g2.succ mid) fs g = .ok g' ∧ Sparse g' ∧
      ∀ x y, gain g' x y = gain g x y + if x ∈ fs then gain g1 x mid * gain g2 mid y else 0 := by
  induction fs generalizing g with
  | nil => exact ⟨g, rfl, hg, by simp⟩
  | cons k fs ih =>
    obtain ⟨hk, hnd⟩ := List.nodup_cons.mp hnd
    obtain ⟨e1, he1, he1'⟩ := get_of_isSome ((h1.lp k mid).mp (hfs k List.mem_cons_self))
    have hg1 : gain g1 k mid = e1 := by unfold gain; rw [he1]; rfl
    obtain ⟨g', r1, r2, r3⟩ := multTo_spec g2 h2 k mid e1 (g2.succ mid) (h2.nds mid) (fun _ h => h) _ (sparse_setdefault hg k)
    obtain ⟨g'', s1, s2, s3⟩ := ih hnd (fun q hq => hfs q (List.mem_cons_of_mem _ hq)) g' r2
    refine ⟨g'', ?_, s2, fun x y => ?_⟩
    · unfold multFrom
      have hedge : g1.edge k mid = .ok e1 := he1'
      rw [hedge]
      show (do let g ← multTo g2 k mid e1 (g2.succ mid) { g with seq := setdefault g.seq k }; multFrom g1 g2 mid (g2.succ mid) fs g) = _
      rw [r1]
      exact s1
    · rw [s3, r3]
      have e : gain ({ g with seq := setdefault g.seq k } : G N V) x y = gain g x y := rfl
      rw [e]
      have hz : y ∉ g2.succ mid → gain g2 mid y = 0 := by
        intro hy
        unfold gain
        cases hh : Dict.get? g2.em (mid, y) with
        | none => rfl
        | some v => exact absurd ((h2.ls mid y).mpr (by rw [hh]; rfl)) hy
      by_cases hx : x = k
      · subst hx
        simp only [hk, if_false, add_zero, List.mem_cons, true_or, if_true, true_and]
        by_cases hy : y ∈ g2.succ mid
        · rw [if_pos hy, hg1]; ring
        · rw [if_neg hy, hz hy]; ring
      · simp [hx]

theorem multMid_spec (dflt : Bool) (g1 g2 : G N V) (h1 : Sparse g1) (h2 : Sparse g2) (items : Dict N (List N))
    (hit : ∀ kv ∈ items, kv.2 = g2.succ kv.1)
    (hkey : ∀ kv ∈ items, kv.2 ≠ [] → dflt = true ∨ Dict.has g1.req kv.1 = true) (g : G N V) (hg : Sparse g) :
    ∃ g', multMid dflt g1 g2 items g = .ok g' ∧ Sparse g' ∧
      ∀ x y, gain g' x y = gain g x y + (items.map (fun kv => gain g1 x kv.1 * gain g2 kv.1 y)).sum := by
  induction items generalizing g with
  | nil => exact ⟨g, rfl, hg, by simp⟩
  | cons kv items ih =>
    obtain ⟨mid, mseq⟩ := kv
    have hm : mseq = g2.succ mid := hit _ List.mem_cons_self
    have hit' : ∀ kv ∈ items, kv.2 = g2.succ kv.1 := fun q hq => hit q (List.mem_cons_of_mem _ hq)
    have hkey' : ∀ kv ∈ items, kv.2 ≠ [] → dflt = true ∨ Dict.has g1.req kv.1 = true :=
      fun q hq => hkey q (List.mem_cons_of_mem _ hq)
    have hz : ∀ y, y ∉ g2.succ mid → gain g2 mid y = 0 := by
      intro y hy
      unfold gain
      cases hh : Dict.get? g2.em (mid, y) with
      | none => rfl
      | some v => exact absurd ((h2.ls mid y).mpr (by rw [hh]; rfl)) hy
    have hz1 : ∀ x, x ∉ g1.pred mid → gain g1 x mid = 0 := by
      intro x hx
      unfold gain
      cases hh : Dict.get? g1.em (x, mid) with
      | none => rfl
      | some v => exact absurd ((h1.lp x mid).mpr (by rw [hh]; rfl)) hx
    unfold multMid
    by_cases he : mseq.isEmpty = true
    · obtain ⟨g', r1, r2, r3⟩ := ih hit' hkey' g hg
      refine ⟨g', by rw [if_pos he]; exact r1, r2, fun x y => ?_⟩
      have : gain g2 mid y = 0 := hz y (by rw [← hm, List.isEmpty_iff.mp he]; simp)
      rw [r3, List.map_cons, List.sum_cons, this]
      ring
    · have hne : mseq ≠ [] := fun q => he (by rw [q]; rfl)
      have hread : read dflt g1.req mid = .ok (g1.pred mid) := by
        unfold read G.pred
        cases hh : Dict.get? g1.req mid with
        | some s => rfl
        | none =>
          rcases hkey _ List.mem_cons_self hne with q | q
          · simp [q]
          · unfold Dict.has at q; rw [hh] at q; cases q
      obtain ⟨g', r1, r2, r3⟩ := multFrom_spec g1 g2 h1 h2 mid (g1.pred mid) (h1.ndp mid) (fun _ h => h) g hg
      obtain ⟨g'', s1, s2, s3⟩ := ih hit' hkey' g' r2
      refine ⟨g'', ?_, s2, fun x y => ?_⟩
      · rw [if_neg he, hread]
        show (do let g ← multFrom g1 g2 mid mseq (g1.pred mid) g; multMid dflt g1 g2 items g) = _
        rw [hm, r1]
        exact s1
      · rw [s3, r3, List.map_cons, List.sum_cons]
        by_cases hx : x ∈ g1.pred mid
        · rw [if_pos hx]; ring
        · rw [if_neg hx, hz1 x hx]; ring

theorem checkReq_ok {seq : Dict N (List N)} {node : N} {l : List N} (h : ∀ r ∈ l, node ∈ (Dict.get? seq r).getD []) :
    checkReq seq node l = .ok () := by
  induction l with
  | nil => rfl
  | cons r l ih =>
    have hr := h r List.mem_cons_self
    unfold checkReq Dict.get
    cases hh : Dict.get? seq r with
    | none => rw [hh] at hr; cases hr
    | some s =>
      rw [hh] at hr
      replace hr : node ∈ s := hr
      show (if node ∈ s then checkReq seq node l else _) = _
      rw [if_pos hr]
      exact ih (fun q hq => h q (List.mem_cons_of_mem _ hq))

theorem checkSeq_ok {g : G N V} {node : N} {l : List N} (h : ∀ r ∈ l, node ∈ g.pred r ∧ (Dict.get? g.em (node, r)).isSome) :
    checkSeq g node l = .ok () := by
  induction l with
  | nil => rfl
  | cons r l ih =>
    obtain ⟨hr, he⟩ := h r List.mem_cons_self
    obtain ⟨v, -, hv⟩ := get_of_isSome he
    have hv : g.edge node r = .ok v := hv
    unfold checkSeq
    unfold G.pred at hr
    unfold Dict.get
    cases hh : Dict.get? g.req r with
    | none => rw [hh] at hr; cases hr
    | some s =>
      rw [hh] at hr
      replace hr : node ∈ s := hr
      show (if node ∈ s then (do let _ ← g.edge node r; checkSeq g node l) else _) = _
      rw [if_pos hr, hv]
      exact ih (fun q hq => h q (List.mem_cons_of_mem _ hq))

theorem forM_ok {α : Type} {f : α → Except Err Unit} {l : List α} (h : ∀ a ∈ l, f a = .ok ()) : l.forM f = .ok () := by
  induction l with
  | nil => rfl
  | cons a l ih =>
    show (do f a; l.forM f) = _
    rw [h a List.mem_cons_self]
    exact ih (fun q hq => h q (List.mem_cons_of_mem _ hq))

theorem check_sre_ok {g : G N V} (hg : Sparse g) : check_sre g = .ok () := by
  unfold check_sre
  have hr : g.req.forM (fun kv => checkReq g.seq kv.1 kv.2) = .ok () := forM_ok (fun kv hkv => by
    apply checkReq_ok
    intro r hr
    have : r ∈ g.pred kv.1 := by unfold G.pred; rw [Dict.get?_of_mem hg.wr (k := kv.1) (v := kv.2) hkv]; exact hr
    exact (hg.ls r kv.1).mpr ((hg.lp r kv.1).mp this))
  have hs : g.seq.forM (fun kv => checkSeq g kv.1 kv.2) = .ok () := forM_ok (fun kv hkv => by
    apply checkSeq_ok
    intro r hr
    have : r ∈ g.succ kv.1 := by unfold G.succ; rw [Dict.get?_of_mem hg.ws (k := kv.1) (v := kv.2) hkv]; exact hr
    have := (hg.ls kv.1 r).mp this
    exact ⟨(hg.lp kv.1 r).mpr this, this⟩)
  rw [hr, hs]
  rfl

theorem sum_items [Fintype N] (d : Dict N (List N)) (hd : Dict.WF d) (f : N → V) (hf : ∀ n, Dict.has d n = false → f n = 0) :
    (d.map (fun kv => f kv.1)).sum = ∑ n, f n := by
  have h1 : (d.map (fun kv => f kv.1)) = (Dict.keys d).map f := by unfold Dict.keys; rw [List.map_map]; rfl
  rw [h1, ← List.sum_toFinset _ hd]
  apply Finset.sum_subset (Finset.subset_univ _)
  intro n _ hn
  apply hf
  by_contra hc
  exact hn (List.mem_toFinset.mpr ((Dict.has_iff d n).mp (by simpa using hc)))

/-- **C23**: the product of two sparse matrices succeeds (when `req1` is a plain dictionary: if it has every node the second
matrix starts an edge from) and is the sparse form of the matrix product. -/
theorem C23_product [Fintype N] (dflt : Bool) {g1 g2 : G N V} (h1 : Sparse g1) (h2 : Sparse g2)
    (hkey : ∀ mid, g2.succ mid ≠ [] → dflt = true ∨ Dict.has g1.req mid = true) :
    ∃ g, matrix_mult dflt g1 g2 = .ok g ∧ Sparse g ∧ dense g = dense g1 * dense g2 := by
  have hsucc : ∀ kv ∈ g2.seq, kv.2 = g2.succ kv.1 := by
    intro kv hkv
    unfold G.succ
    rw [Dict.get?_of_mem h2.ws (k := kv.1) (v := kv.2) hkv]
    rfl
  obtain ⟨g, r1, r2, r3⟩ := multMid_spec dflt g1 g2 h1 h2 g2.seq hsucc
    (fun kv hkv hne => hkey kv.1 (by rw [← hsucc kv hkv]; exact hne)) _ sparse_empty
  refine ⟨g, ?_, r2, ?_⟩
  · unfold matrix_mult
    rw [r1]
    show (do check_sre g; pure g) = _
    rw [check_sre_ok r2]
    rfl
  · funext x y
    show gain g x y = _
    rw [r3, sum_items g2.seq h2.ws (fun n => gain g1 x n * gain g2 n y), Matrix.mul_apply]
    · show 0 + _ = _
      rw [zero_add]
      rfl
    · intro n hn
      have : gain g2 n y = 0 := by
        unfold gain
        cases hh : Dict.get? g2.em (n, y) with
        | none => rfl
        | some v =>
          have hm := (h2.ls n y).mpr (by rw [hh]; rfl)
          unfold G.succ at hm
          unfold Dict.has at hn
          cases hq : Dict.get? g2.seq n with
          | none => rw [hq] at hm; cases hm
          | some s => rw [hq] at hn; cases hn
      rw [this, mul_zero]

deriving instance DecidableEq for Graph.G

theorem multMid_keys {dflt : Bool} {g1 g2 : G N V} (items : Dict N (List N)) {g g' : G N V}
    (h : multMid dflt g1 g2 items g = .ok g') : ∀ kv ∈ items, kv.2 ≠ [] → dflt = true ∨ Dict.has g1.req kv.1 = true := by
  induction items generalizing g with
  | nil => simp
  | cons kv items ih =>
    obtain ⟨mid, mseq⟩ := kv
    unfold multMid at h
    intro kv hkv hne
    by_cases he : mseq.isEmpty = true
    · rw [if_pos he] at h
      rcases List.mem_cons.mp hkv with rfl | hkv
      · exact absurd (List.isEmpty_iff.mp he) hne
      · exact ih h kv hkv hne
    · rw [if_neg he] at h
      cases hr : read dflt g1.req mid with
      | error e => rw [hr] at h; cases h
      | ok froms =>
        rw [hr] at h
        replace h : (do let g ← multFrom g1 g2 mid mseq froms g; multMid dflt g1 g2 items g) = .ok g' := h
        rcases List.mem_cons.mp hkv with rfl | hkv
        · unfold read at hr
          unfold Dict.has
          cases hq : Dict.get? g1.req mid with
          | some s => exact Or.inr rfl
          | none =>
            rw [hq] at hr
            cases hd : dflt with
            | true => exact Or.inl rfl
            | false => rw [hd] at hr; cases hr
        · cases hm : multFrom g1 g2 mid mseq froms g with
          | error e => rw [hm] at h; cases h
          | ok g'' =>
            rw [hm] at h
            exact ih h kv hkv hne

/-- **C23**: whenever the product finishes it is the matrix product, in sparse form. -/
theorem C23_finished [Fintype N] {dflt : Bool} {g1 g2 g : G N V} (h1 : Sparse g1) (h2 : Sparse g2)
    (h : matrix_mult dflt g1 g2 = .ok g) : Sparse g ∧ dense g = dense g1 * dense g2 := by
  have hkey : ∀ mid, g2.succ mid ≠ [] → dflt = true ∨ Dict.has g1.req mid = true := by
    intro mid hne
    cases hm : multMid dflt g1 g2 g2.seq ⟨[], [], []⟩ with
    | error e => unfold matrix_mult at h; rw [hm] at h; cases h
    | ok g' =>
      unfold G.succ at hne
      cases hq : Dict.get? g2.seq mid with
      | none => rw [hq] at hne; exact absurd rfl hne
      | some s =>
        rw [hq] at hne
        exact multMid_keys _ hm (mid, s) (Dict.mem_of_get? hq) hne
  obtain ⟨g', r1, r2, r3⟩ := C23_product dflt h1 h2 hkey
  rw [h] at r1
  cases r1
  exact ⟨r2, r3⟩

/-- Two matrices: a single entry, and a node that the first one never reaches. -/
def exA : G (Fin 2) ℚ := ⟨[(0, [0])], [(0, [0])], [((0, 0), 2)]⟩
def exB : G (Fin 2) ℚ := ⟨[(0, [0, 1]), (1, [0])], [(0, [0, 1]), (1, [0])], [((0, 0), 3), ((1, 0), 1), ((0, 1), 5)]⟩

theorem exA_sparse : Sparse exA := ⟨by decide, by decide, by decide, by decide, by decide, by decide +kernel, by decide +kernel⟩
theorem exB_sparse : Sparse exB := ⟨by decide, by decide, by decide, by decide, by decide, by decide +kernel, by decide +kernel⟩

/-- With plain dictionaries **C23** needs that condition: a node the second matrix starts from and the first never reaches makes the
product raise `KeyError`. -/
theorem C23_keyError : matrix_mult false exA exB = .error .keyError := by decide +kernel

/-- With `defaultdict`s the same product succeeds. -/
example : matrix_mult true exA exB = .ok ⟨[(0, [0, 1])], [(0, [0]), (1, [0])], [((0, 0), 6), ((0, 1), 10)]⟩ := by decide +kernel

end mult

/-! ## C24 -/

theorem ofList_get {K W : Type} [DecidableEq K] {l : List (K × W)} (h : Dict.WF (l : Dict K W)) (k : K) :
    Dict.get? (Dict.ofList l) k = Dict.get? l k := by
  unfold Dict.ofList
  rw [Dict.get?_update_of_WF _ h]
  cases Dict.get? (l : Dict K W) k <;> rfl

theorem WF_flip {conj : V → V} {d : Dict (N × N) V} (h : Dict.WF d) :
    Dict.WF (d.map (fun kv => ((kv.1.2, kv.1.1), conj kv.2)) : Dict (N × N) V) := by
  unfold Dict.WF Dict.keys at *
  rw [List.map_map]
  have : (Prod.fst ∘ fun kv : (N × N) × V => ((kv.1.2, kv.1.1), conj kv.2)) = (fun p : N × N => (p.2, p.1)) ∘ Prod.fst := rfl
  rw [this, ← List.map_map]
  exact h.map (fun p q hpq => by
    obtain ⟨a, b⟩ := p
    obtain ⟨c, d⟩ := q
    obtain ⟨h1, h2⟩ := Prod.mk.inj hpq
    rw [show b = d from h1, show a = c from h2])

theorem get_flip {conj : V → V} (d : Dict (N × N) V) (a b : N) :
    Dict.get? (d.map (fun kv => ((kv.1.2, kv.1.1), conj kv.2)) : Dict (N × N) V) (a, b) = (Dict.get? d (b, a)).map conj := by
  induction d with
  | nil => rfl
  | cons kv d ih =>
    obtain ⟨⟨x, y⟩, v⟩ := kv
    rw [List.map_cons, Dict.get?_cons, Dict.get?_cons]
    by_cases h : (x, y) = (b, a)
    · obtain ⟨rfl, rfl⟩ := Prod.mk.inj h
      simp
    · have h' : ¬ (y, x) = (a, b) := fun q => h (by obtain ⟨h1, h2⟩ := Prod.mk.inj q; rw [h1, h2])
      rw [if_neg h, if_neg h', ih]

theorem adjoint_em (conj : V → V) {g : G N V} (hg : Sparse g) (a b : N) :
    Dict.get? (adjoint conj g).em (a, b) = (Dict.get? g.em (b, a)).map conj := by
  unfold adjoint
  rw [ofList_get (WF_flip hg.we), get_flip]

/-- **C24**: the adjoint is sparse and every entry is the conjugate of the mirrored one. -/
theorem C24_adjoint [Zero V] (conj : V → V) (h0 : conj 0 = 0) {g : G N V} (hg : Sparse g) :
    Sparse (adjoint conj g) ∧ ∀ a b, dense (adjoint conj g) a b = conj (dense g b a) := by
  have hsucc : ∀ a, (adjoint conj g).succ a = g.pred a := fun a => by
    unfold adjoint G.succ G.pred; dsimp only; rw [ofList_get hg.wr]
  have hpred : ∀ a, (adjoint conj g).pred a = g.succ a := fun a => by
    unfold adjoint G.succ G.pred; dsimp only; rw [ofList_get hg.ws]
  refine ⟨⟨Dict.WF_ofList _, Dict.WF_ofList _, Dict.WF_ofList _, fun a => by rw [hsucc]; exact hg.ndp a,
    fun a => by rw [hpred]; exact hg.nds a, fun a b => ?_, fun a b => ?_⟩, fun a b => ?_⟩
  · rw [hsucc, adjoint_em conj hg, hg.lp, Option.isSome_map]
  · rw [hpred, adjoint_em conj hg, hg.ls, Option.isSome_map]
  · show gain _ _ _ = conj (gain _ _ _)
    unfold gain
    rw [adjoint_em conj hg]
    cases Dict.get? g.em (b, a) with
    | none => exact h0.symm
    | some v => rfl

/-- **C24**: the adjoint of the adjoint has the original sets and entries. -/
theorem C24_twice [Zero V] (conj : V → V) (h0 : conj 0 = 0) (hc : ∀ v, conj (conj v) = v) {g : G N V} (hg : Sparse g) :
    (∀ k, Dict.get? (adjoint conj (adjoint conj g)).seq k = Dict.get? g.seq k) ∧
    (∀ k, Dict.get? (adjoint conj (adjoint conj g)).req k = Dict.get? g.req k) ∧
    ∀ k, Dict.get? (adjoint conj (adjoint conj g)).em k = Dict.get? g.em k := by
  have ha := (C24_adjoint conj h0 hg).1
  refine ⟨fun k => ?_, fun k => ?_, fun k => ?_⟩
  · show Dict.get? (Dict.ofList (adjoint conj g).req) k = _
    rw [ofList_get ha.wr]
    exact ofList_get hg.ws k
  · show Dict.get? (Dict.ofList (adjoint conj g).seq) k = _
    rw [ofList_get ha.ws]
    exact ofList_get hg.wr k
  · obtain ⟨a, b⟩ := k
    rw [adjoint_em conj ha, adjoint_em conj hg, Option.map_map]
    have : conj ∘ conj = id := funext hc
    rw [this, Option.map_id]
    rfl

/-- **C24**: the adjoint of a product is the product of the adjoints in the other order, when both products succeed (they do with
`defaultdict`s, `C23_product`). -/
theorem C24_product [Field V] [StarRing V] [Fintype N] {d1 d2 : Bool} {A B P Q : G N V} (hA : Sparse A) (hB : Sparse B)
    (hP : matrix_mult d1 A B = .ok P) (hQ : matrix_mult d2 (adjoint star B) (adjoint star A) = .ok Q) :
    dense (adjoint star P) = dense Q ∧ dense (adjoint star P) = (dense P).conjTranspose := by
  have conj : ∀ {g : G N V}, Sparse g → dense (adjoint star g) = (dense g).conjTranspose := by
    intro g hg
    funext a b
    exact (C24_adjoint star (star_zero V) hg).2 a b
  obtain ⟨sP, eP⟩ := C23_finished hA hB hP
  obtain ⟨sQ, eQ⟩ := C23_finished (C24_adjoint star (star_zero V) hB).1 (C24_adjoint star (star_zero V) hA).1 hQ
  refine ⟨?_, conj sP⟩
  rw [conj sP, eP, eQ, conj hA, conj hB, Matrix.conjTranspose_mul]

/-- Both products of `C24_product` succeed for these matrices. -/
example : ∃ P Q, matrix_mult true exA exB = .ok P ∧ matrix_mult true (adjoint star exB) (adjoint star exA) = .ok Q ∧
    dense (adjoint star P) = dense Q := by
  obtain ⟨P, hP, -⟩ := C23_product true exA_sparse exB_sparse (fun _ _ => Or.inl rfl)
  obtain ⟨Q, hQ, -⟩ := C23_product true (C24_adjoint star (star_zero ℚ) exB_sparse).1 (C24_adjoint star (star_zero ℚ) exA_sparse).1
    (fun _ _ => Or.inl rfl)
  exact ⟨P, Q, hP, hQ, (C24_product exA_sparse exB_sparse hP hQ).1⟩

end Sre
