import Verif.Ode.Run

/-!
# From the matrix of the run to the coupling
-/

set_option linter.unusedSectionVars false

namespace Ode
open Py

variable {I K P R : Type} [DecidableEq I] [DecidableEq K] [DecidableEq P] [CommRing R] [Algebra ℚ R] [DecidableEq R]

/-! ### Indices stay in range -/

/-- A row over the first `n` indices. -/
def RowIn (n : ℕ) (r : Dict ℕ R) : Prop := Dict.WF r ∧ ∀ i ∈ Dict.keys r, i < n

/-- A matrix over the first `n` indices. -/
def MatIn (n : ℕ) (M : Dict ℕ (Dict ℕ R)) : Prop := Dict.WF M ∧ ∀ T ∈ M, T.1 < n ∧ RowIn n T.2

/-- Products over the first `n` indices. -/
def LtIn (n : ℕ) (lt : Lt ℕ R) : Prop := ∀ t ∈ lt, ∀ i ∈ t.2, i < n

theorem RowIn.nil (n : ℕ) : RowIn n ([] : Dict ℕ R) := ⟨Dict.WF_nil, by simp [Dict.keys]⟩

theorem RowIn.set {n : ℕ} {r : Dict ℕ R} (h : RowIn n r) {i : ℕ} (hi : i < n) (v : R) : RowIn n (Dict.set r i v) := by
  refine ⟨Dict.WF_set h.1 _ _, fun j hj => ?_⟩
  rw [Dict.mem_keys_iff, Dict.get?_set] at hj
  split_ifs at hj with hij
  · exact hij ▸ hi
  · exact h.2 j ((Dict.mem_keys_iff _ _).2 hj)

theorem RowIn.addTo {n : ℕ} {r : Dict ℕ R} (h : RowIn n r) {i : ℕ} (hi : i < n) (v : R) : RowIn n (addTo r i v) :=
  h.set hi _

theorem RowIn.mem {n : ℕ} {r : Dict ℕ R} (h : RowIn n r) {T : ℕ × R} (hT : T ∈ r) : T.1 < n :=
  h.2 _ (List.mem_map.2 ⟨T, hT, rfl⟩)

theorem MatIn.row {n : ℕ} {M : Dict ℕ (Dict ℕ R)} (h : MatIn n M) (i : ℕ) : RowIn n (row M i) := by
  unfold Ode.row
  cases hg : Dict.get? M i with
  | none => exact RowIn.nil n
  | some r => exact (h.2 _ (Dict.mem_of_get? hg)).2

theorem MatIn.set {n : ℕ} {M : Dict ℕ (Dict ℕ R)} (h : MatIn n M) {i : ℕ} (hi : i < n) {r : Dict ℕ R}
    (hr : RowIn n r) : MatIn n (Dict.set M i r) := by
  refine ⟨Dict.WF_set h.1 _ _, fun T hT => ?_⟩
  have := Dict.get?_of_mem (Dict.WF_set h.1 i r) (k := T.1) (v := T.2) hT
  rw [Dict.get?_set] at this
  split_ifs at this with hij
  · rw [← hij, ← Option.some.inj this]
    exact ⟨hi, hr⟩
  · exact h.2 T (Dict.mem_of_get? this)

theorem rowIn_update_row {n : ℕ} {M : Dict ℕ (Dict ℕ R)} (h : MatIn n M) (vec : Dict ℕ R) : RowIn n (update_row M vec) := by
  have inner : ∀ (v : R) (r : Dict ℕ R), (∀ E ∈ r, E.1 < n) → ∀ u : Dict ℕ R, RowIn n u →
      RowIn n (r.foldl (fun u E => if E.2 = 0 then u else addTo u E.1 (E.2 * v)) u) := by
    intro v r
    induction r with
    | nil => intro _ u hu; exact hu
    | cons E r ih =>
      intro hr u hu
      rw [List.foldl_cons]
      refine ih (fun E hE => hr E (List.mem_cons_of_mem _ hE)) _ ?_
      split_ifs
      · exact hu
      · exact hu.addTo (hr E List.mem_cons_self) _
  have : ∀ u : Dict ℕ R, RowIn n u → RowIn n (vec.foldl (fun u T =>
        (row M T.1).foldl (fun u E => if E.2 = 0 then u else addTo u E.1 (E.2 * T.2)) u) u) := by
    induction vec with
    | nil => intro u hu; exact hu
    | cons T vec ih =>
      intro u hu
      rw [List.foldl_cons]
      exact ih _ (inner _ _ (fun E hE => (h.row T.1).mem hE) _ hu)
  exact this [] (RowIn.nil n)

theorem RowIn.add_row {n : ℕ} {r vec : Dict ℕ R} (hr : RowIn n r) (hv : ∀ T ∈ vec, T.1 < n) :
    RowIn n (add_row r vec) := by
  unfold Ode.add_row
  induction vec generalizing r with
  | nil => exact hr
  | cons T vec ih =>
    rw [List.foldl_cons]
    refine ih ?_ (fun T hT => hv T (List.mem_cons_of_mem _ hT))
    split_ifs
    · exact hr
    · exact hr.addTo (hv T List.mem_cons_self) _

theorem rowIn_matrix_d {n : ℕ} (pkv : ℕ → Option R) {d : Dict ℕ (Lt ℕ R)} (hd : ∀ T ∈ d, T.1 < n) :
    RowIn n (lt_val_matrix_d pkv d) := by
  have inner : ∀ (k : ℕ) (_ : k < n) (lt : Lt ℕ R) (vec : Dict ℕ R), RowIn n vec →
      RowIn n (lt.foldl (fun vec t => addTo vec k (tup_val pkv t)) vec) := by
    intro k hk lt
    induction lt with
    | nil => intro vec h; exact h
    | cons t lt ih => intro vec h; exact ih _ (h.addTo hk _)
  have : ∀ vec : Dict ℕ R, RowIn n vec →
      RowIn n (d.foldl (fun vec T => T.2.foldl (fun vec t => addTo vec T.1 (tup_val pkv t)) vec) vec) := by
    induction d with
    | nil => intro vec h; exact h
    | cons T d ih =>
      intro vec h
      rw [List.foldl_cons]
      exact ih (fun T hT => hd T (List.mem_cons_of_mem _ hT)) _ (inner _ (hd T List.mem_cons_self) _ _ h)
  exact this [] (RowIn.nil n)

theorem generate_lt {n : ℕ} (nz : List ℕ) {lt : Lt ℕ R} (h : LtIn n lt) :
    ∀ T ∈ lt_val_matrix_d_generate nz lt, T.1 < n := by
  have hset : ∀ (d : Dict ℕ (Lt ℕ R)) (i : ℕ) (v : Lt ℕ R), i < n → (∀ T ∈ d, T.1 < n) →
      ∀ T ∈ Dict.set d i v, T.1 < n := by
    intro d i v hi
    induction d with
    | nil => intro _ T hT; simp only [Dict.set, List.mem_singleton] at hT; rw [hT]; exact hi
    | cons E d ih =>
      intro hd T hT
      unfold Dict.set at hT
      split_ifs at hT with hE
      · rcases List.mem_cons.1 hT with rfl | hT
        · exact hd E List.mem_cons_self
        · exact hd T (List.mem_cons_of_mem _ hT)
      · rcases List.mem_cons.1 hT with rfl | hT
        · exact hd (E.1, E.2) List.mem_cons_self
        · exact ih (fun T hT => hd T (List.mem_cons_of_mem _ hT)) T hT
  have inner : ∀ (t : R × List ℕ) (Z : List (ℕ × ℕ)), (∀ T ∈ Z, T.1 < n) → ∀ d : Dict ℕ (Lt ℕ R), (∀ T ∈ d, T.1 < n) →
      ∀ T ∈ Z.foldl (fun d T =>
        let rest := t.2.eraseIdx T.2
        if rest.all (· ∈ nz) then Dict.set d T.1 ((Dict.get? d T.1).getD [] ++ [(t.1, rest)]) else d) d, T.1 < n := by
    intro t Z
    induction Z with
    | nil => intro _ d hd; exact hd
    | cons T Z ih =>
      intro hZ d hd
      rw [List.foldl_cons]
      refine ih (fun T hT => hZ T (List.mem_cons_of_mem _ hT)) _ ?_
      dsimp only
      split_ifs
      · exact hset _ _ _ (hZ T List.mem_cons_self) hd
      · exact hd
  have : ∀ d : Dict ℕ (Lt ℕ R), (∀ T ∈ d, T.1 < n) → ∀ T ∈ lt.foldl (fun d t => t.2.zipIdx.foldl (fun d T =>
        let rest := t.2.eraseIdx T.2
        if rest.all (· ∈ nz) then Dict.set d T.1 ((Dict.get? d T.1).getD [] ++ [(t.1, rest)]) else d) d) d, T.1 < n := by
    induction lt with
    | nil => intro d hd; exact hd
    | cons t lt ih =>
      intro d hd
      rw [List.foldl_cons]
      refine ih (fun t ht => h t (List.mem_cons_of_mem _ ht)) _ (inner _ _ ?_ _ hd)
      rintro ⟨i, p⟩ hT
      exact h t List.mem_cons_self i (List.fst_mem_of_mem_zipIdx hT)
  exact this [] (by simp)

theorem LtIn.collect_from {n : ℕ} {prev : List ℕ} {gain : R} {l : List (List ℕ × R)} (hp : ∀ i ∈ prev, i < n)
    (hl : ∀ T ∈ l, ∀ i ∈ T.1, i < n) : LtIn n (lt_collect_from prev gain l) := by
  induction l generalizing prev gain with
  | nil => intro t ht; simp only [lt_collect_from, List.mem_singleton] at ht; rw [ht]; exact hp
  | cons T l ih =>
    obtain ⟨NL, g⟩ := T
    have hl' : ∀ T ∈ l, ∀ i ∈ T.1, i < n := fun T hT => hl T (List.mem_cons_of_mem _ hT)
    unfold lt_collect_from
    split_ifs
    · exact ih hp hl'
    · intro t ht
      rcases List.mem_cons.1 ht with rfl | ht
      · exact hp
      · exact ih (hl (NL, g) List.mem_cons_self) hl' t ht

theorem LtIn.sort_collect {n : ℕ} {lt : Lt ℕ R} (h : LtIn n lt) : LtIn n (lt_sort_collect lt) := by
  have hs : ∀ T ∈ lt_sorted lt, ∀ i ∈ T.1, i < n := by
    intro T hT i hi
    unfold lt_sorted at hT
    rw [(List.mergeSort_perm _ _).mem_iff, List.mem_map] at hT
    obtain ⟨t, ht, rfl⟩ := hT
    exact h t ht i ((List.mergeSort_perm _ _).mem_iff.1 hi)
  unfold lt_sort_collect
  split
  · intro t ht; simp at ht
  · next NL g rest heq =>
    rw [heq] at hs
    exact LtIn.collect_from (hs (NL, g) List.mem_cons_self) (fun T hT => hs T (List.mem_cons_of_mem _ hT))

theorem step_matIn {n : ℕ} {base : List (ℕ × Lt ℕ R)} (hb : ∀ T ∈ base, T.1 < n ∧ LtIn n T.2) {s : Run R}
    (hc : s.cached = lists base s.pkv_nz_set) (h : MatIn n s.dMexp) (j : ℕ) :
    MatIn n (step base s j).dMexp ∧ (step base s j).cached = lists base (step base s j).pkv_nz_set := by
  unfold step
  split
  · exact ⟨h, hc⟩
  · next idx lt lt_M_d hget =>
    rw [hc] at hget
    have hmem := List.mem_of_getElem? hget
    unfold lists at hmem
    obtain ⟨T, hT, he⟩ := List.mem_map.1 hmem
    cases he
    have hv := rowIn_matrix_d s.pkv (generate_lt s.pkv_nz_set (hb T hT).2)
    refine ⟨h.set (hb T hT).1 ?_, ?_⟩
    · exact ((h.row _).add_row (fun T hT => (rowIn_update_row h _).mem hT)).add_row (fun T hT => hv.mem hT)
    · dsimp only
      split_ifs
      · rfl
      · exact hc

theorem run_matIn {n : ℕ} (o : ExpMat K P R) (hb : ∀ T ∈ o.base, T.1 < n ∧ LtIn n T.2) (pkv : ℕ → Option R)
    (nz : List ℕ) : MatIn n (o.run pkv nz).dMexp := by
  have hpass : ∀ (l : List ℕ) (s : Run R), MatIn n s.dMexp ∧ s.cached = lists o.base s.pkv_nz_set →
      MatIn n (l.foldl (step o.base) s).dMexp ∧
        (l.foldl (step o.base) s).cached = lists o.base (l.foldl (step o.base) s).pkv_nz_set := by
    intro l
    induction l with
    | nil => intro s h; exact h
    | cons j l ih => intro s h; exact ih _ (step_matIn hb h.2 h.1 j)
  have : ∀ m (s : Run R), MatIn n s.dMexp ∧ s.cached = lists o.base s.pkv_nz_set →
      MatIn n ((fun s => (List.range o.base.length).foldl (step o.base) s)^[m] s).dMexp ∧
        ((fun s => (List.range o.base.length).foldl (step o.base) s)^[m] s).cached
          = lists o.base ((fun s => (List.range o.base.length).foldl (step o.base) s)^[m] s).pkv_nz_set := by
    intro m
    induction m with
    | zero => intro s h; exact h
    | succ m ih => intro s h; rw [Function.iterate_succ_apply]; exact ih _ (hpass _ _ h)
  exact (this o.N_ode _ ⟨⟨Dict.WF_nil, by simp⟩, rfl⟩).1

theorem Keyed.base_in {dLt : Dict K (Lt K R)} {pks : List K} (hK : Keyed dLt pks) {N : ℕ} {in_map : Dict K P}
    {out_map : Dict K (Option P)} {o : ExpMat K P R} (ho : init dLt in_map out_map N pks = .ok o) :
    ∀ T ∈ o.base, T.1 < pks.length ∧ LtIn pks.length T.2 := by
  unfold init at ho
  split_ifs at ho with hN
  injection ho with ho
  intro T hT
  have hT' : T ∈ o.dLt_accel := (List.mergeSort_perm _ _).mem_iff.1 hT
  rw [← ho] at hT'
  refine ⟨hK.accel_lt N T hT', ?_⟩
  have h := Dict.get?_of_mem (Dict.WF_ofList _) (k := T.1) (v := T.2) hT'
  unfold Dict.ofList at h
  rw [Dict.get?_update_of_WF _ (hK.map_wf fun lt => lt_sort_collect (lt_remap pks N lt))] at h
  simp only [Dict.get?_nil, Option.or_none] at h
  obtain ⟨E, hE, he⟩ := List.mem_map.1 (Dict.mem_of_get? h)
  rw [← (Prod.ext_iff.1 he).2]
  apply LtIn.sort_collect
  intro t ht i hi
  unfold lt_remap at ht
  obtain ⟨t', ht', rfl⟩ := List.mem_map.1 ht
  obtain ⟨k, hk, rfl⟩ := List.mem_map.1 hi
  exact List.idxOf_lt_length_iff.2 ((hK.mem k).2 ⟨E, hE, Or.inr ⟨t', ht', hk⟩⟩)

/-! ### The diagonal -/

theorem add_one_spec {n : ℕ} {M : Dict ℕ (Dict ℕ R)} (h : MatIn n M) :
    MatIn n (add_one n M) ∧ (∀ i, i < n → i ∈ Dict.keys (add_one n M)) ∧
      ∀ (δ : ℕ → R) i, i < n → lin (row (add_one n M) i) δ = tang M δ i := by
  have main : ∀ m, m ≤ n → MatIn n (add_one m M) ∧ (∀ i, i < m → i ∈ Dict.keys (add_one m M)) ∧
      ∀ (δ : ℕ → R) i, lin (row (add_one m M) i) δ = lin (row M i) δ + (if i < m then δ i else 0) := by
    intro m
    induction m with
    | zero => intro _; exact ⟨h, by simp, by simp [add_one]⟩
    | succ m ih =>
      intro hm
      obtain ⟨h1, h2, h3⟩ := ih (by omega)
      have hs : add_one (m + 1) M = put_one (add_one m M) m := by
        unfold add_one; rw [List.range_succ, List.foldl_append]; rfl
      rw [hs]
      generalize add_one m M = A at h1 h2 h3 ⊢
      have key : ∃ r, RowIn n r ∧ (∀ δ : ℕ → R, lin r δ = lin (row A m) δ + δ m) ∧ put_one A m = Dict.set A m r := by
        unfold put_one
        cases hg : Dict.get? A m with
        | none =>
          refine ⟨_, ?_, ?_, rfl⟩
          · exact (RowIn.nil n).set (show m < n by omega) 1
          · intro δ; simp [row, hg]
        | some r =>
          refine ⟨_, ?_, ?_, rfl⟩
          · have := h1.row m
            simp only [row, hg, Option.getD_some] at this
            exact this.set (show m < n by omega) _
          · intro δ; rw [lin_set]; simp [row, hg]
      obtain ⟨r, hr, hlin, heq⟩ := key
      rw [heq]
      refine ⟨h1.set (by omega) hr, ?_, ?_⟩
      · intro i hi
        rw [Dict.mem_keys_iff, Dict.get?_set]
        split_ifs with hmi
        · rfl
        · exact (Dict.mem_keys_iff _ _).1 (h2 i (by omega))
      · intro δ i
        rw [row_set]
        by_cases hmi : m = i
        · subst hmi
          rw [if_pos rfl, hlin, h3, if_neg (lt_irrefl _), if_pos (Nat.lt_succ_self _)]
          ring
        · rw [if_neg hmi, h3]
          congr 1
          by_cases hi : i < m
          · rw [if_pos hi, if_pos (by omega)]
          · rw [if_neg hi, if_neg (by omega)]
  obtain ⟨h1, h2, h3⟩ := main n le_rfl
  refine ⟨h1, h2, fun δ i hi => ?_⟩
  rw [h3, if_pos hi, tang]; ring

end Ode
