import Verif.Ode.Result

/-!
# The coupling that `generate_solution` stores
-/

set_option linter.unusedSectionVars false

namespace Ode
open Py

variable {I K P R : Type} [DecidableEq I] [DecidableEq K] [DecidableEq P] [CommRing R] [Algebra ℚ R] [DecidableEq R]

/-- The maps know every key and tell the keys apart. -/
structure Mapped (pks : List K) (in_map : Dict K P) (out_map : Dict K (Option P)) (inn : K → P) (out : K → Option P) :
    Prop where
  get_inn : ∀ k ∈ pks, Dict.get? in_map k = some (inn k)
  get_out : ∀ k ∈ pks, Dict.get? out_map k = some (out k)
  inn_inj : ∀ k ∈ pks, ∀ k' ∈ pks, inn k = inn k' → k = k'
  out_inj : ∀ k ∈ pks, ∀ k' ∈ pks, ∀ q, out k = some q → out k' = some q → k = k'

theorem getD_addTo (d : Dict I R) (k : I) (v : R) (i : I) :
    (Dict.get? (addTo d k v) i).getD 0 = (Dict.get? d i).getD 0 + if k = i then v else 0 := by
  unfold addTo
  rw [Dict.get?_set]
  split_ifs with h
  · subst h; simp
  · simp

/-- The entries of a matrix, one after the other. -/
def entries (M : Dict ℕ (Dict ℕ R)) : List (ℕ × ℕ × R) := M.flatMap fun T => T.2.map fun E => (T.1, E.1, E.2)

theorem collect_eq (o : ExpMat K P R) (x : List R) (M : Dict ℕ (Dict ℕ R)) :
    o.collect x M = (entries M).foldlM (fun a E => o.row_out x E.1 a E.2) ([], []) := by
  unfold ExpMat.collect entries
  generalize (([], []) : Dict (P × P) R × Dict ℕ R) = a
  induction M generalizing a with
  | nil => rfl
  | cons T M ih =>
    rw [List.foldlM_cons, List.flatMap_cons, List.foldlM_append, List.foldlM_map]
    congr 1
    funext a
    exact ih a

variable {o : ExpMat K P R} {inn : K → P} {out : K → Option P}

theorem row_out_ok (hM : Mapped o.pks o.in_map o.out_map inn out) (x : List R) {i j : ℕ} (hi : i < o.pks.length)
    (hj : j < o.pks.length) (a : Dict (P × P) R × Dict ℕ R) (e : R) :
    o.row_out x i a (j, e) = .ok
      (match out o.pks[i] with | some q => Dict.set a.1 (inn o.pks[j], q) e | none => a.1,
        if e * x.getD j 0 = 0 then a.2 else addTo a.2 i (e * x.getD j 0)) := by
  obtain ⟨sol, dval⟩ := a
  unfold ExpMat.row_out
  simp only [List.getElem?_eq_getElem hi, List.getElem?_eq_getElem hj, bind, Except.bind, Dict.get, hM.get_inn _ (List.getElem_mem hj), hM.get_out _ (List.getElem_mem hi)]
  rfl

theorem fold_row_out (hM : Mapped o.pks o.in_map o.out_map inn out) (hnd : o.pks.Nodup) (x : List R)
    (L : List (ℕ × ℕ × R)) (hL : ∀ E ∈ L, E.1 < o.pks.length ∧ E.2.1 < o.pks.length)
    (hd : (L.map fun E => (E.1, E.2.1)).Nodup) (a : Dict (P × P) R × Dict ℕ R) :
    ∃ a', L.foldlM (fun a E => o.row_out x E.1 a E.2) a = .ok a' ∧
      (∀ i, (Dict.get? a'.2 i).getD 0
        = (Dict.get? a.2 i).getD 0 + (L.map fun E => if E.1 = i then E.2.2 * x.getD E.2.1 0 else 0).sum) ∧
      (∀ i (hi : i < o.pks.length) j (hj : j < o.pks.length) q, out o.pks[i] = some q →
        ((∀ e, (i, j, e) ∉ L) → Dict.get? a'.1 (inn o.pks[j], q) = Dict.get? a.1 (inn o.pks[j], q)) ∧
        (∀ e, (i, j, e) ∈ L → Dict.get? a'.1 (inn o.pks[j], q) = some e)) ∧
      (∀ T ∈ Dict.keys a'.1, T ∈ Dict.keys a.1 ∨ ∃ k ∈ o.pks, ∃ k' ∈ o.pks, T.1 = inn k ∧ out k' = some T.2) := by
  induction L generalizing a with
  | nil => exact ⟨a, rfl, by simp, by simp, fun T hT => Or.inl hT⟩
  | cons E L ih =>
    obtain ⟨i₀, j₀, e₀⟩ := E
    obtain ⟨hi₀, hj₀⟩ := hL _ List.mem_cons_self
    rw [List.map_cons, List.nodup_cons] at hd
    rw [List.foldlM_cons, row_out_ok hM x hi₀ hj₀]
    obtain ⟨a', h1, h2, h3, h4⟩ := ih (fun E hE => hL E (List.mem_cons_of_mem _ hE)) hd.2
      (match out o.pks[i₀] with | some q => Dict.set a.1 (inn o.pks[j₀], q) e₀ | none => a.1,
        if e₀ * x.getD j₀ 0 = 0 then a.2 else addTo a.2 i₀ (e₀ * x.getD j₀ 0))
    refine ⟨a', h1, ?_, ?_, ?_⟩
    · intro i
      rw [h2, List.map_cons, List.sum_cons]
      dsimp only
      split_ifs with hz hi hi
      · rw [hz]; ring
      · ring
      · rw [getD_addTo, if_pos hi]; ring
      · rw [getD_addTo, if_neg hi]; ring
    · intro i hi j hj q hq
      obtain ⟨h3a, h3b⟩ := h3 i hi j hj q hq
      have hne : ∀ (_ : (i, j) ≠ (i₀, j₀)),
          Dict.get? (match out o.pks[i₀] with | some q => Dict.set a.1 (inn o.pks[j₀], q) e₀ | none => a.1)
            (inn o.pks[j], q) = Dict.get? a.1 (inn o.pks[j], q) := by
        intro hne
        cases hq₀ : out o.pks[i₀] with
        | none => rfl
        | some q₀ =>
          dsimp only
          rw [Dict.get?_set, if_neg]
          intro heq
          obtain ⟨hp, hqq⟩ := Prod.ext_iff.1 heq
          have e1 : o.pks[j₀] = o.pks[j] :=
            hM.inn_inj _ (List.getElem_mem hj₀) _ (List.getElem_mem hj) hp
          have e2 : o.pks[i₀] = o.pks[i] :=
            hM.out_inj _ (List.getElem_mem hi₀) _ (List.getElem_mem hi) q (by rw [hq₀]; exact congrArg some hqq) hq
          exact hne (by rw [(hnd.getElem_inj_iff).1 e1, (hnd.getElem_inj_iff).1 e2])
      constructor
      · intro hno
        rw [h3a (fun e he => hno e (List.mem_cons_of_mem _ he))]
        refine hne ?_
        intro heq
        obtain ⟨rfl, rfl⟩ := Prod.ext_iff.1 heq
        exact hno e₀ List.mem_cons_self
      · intro e he
        rcases List.mem_cons.1 he with heq | he
        · have e1 : i = i₀ := congrArg Prod.fst heq
          have e2 : j = j₀ := congrArg (fun E => E.2.1) heq
          have e3 : e = e₀ := congrArg (fun E => E.2.2) heq
          subst e1; subst e2; subst e3
          rw [h3a (fun e' he' => hd.1 (List.mem_map.2 ⟨_, he', rfl⟩))]
          rw [hq]
          exact Dict.get?_set_self _ _ _
        · exact h3b e he
    · intro T hT
      rcases h4 T hT with h | h
      · cases hq₀ : out o.pks[i₀] with
        | none => rw [hq₀] at h; exact Or.inl h
        | some q₀ =>
          rw [hq₀] at h
          dsimp only at h
          rw [Dict.mem_keys_iff, Dict.get?_set] at h
          split_ifs at h with hT'
          · refine Or.inr ⟨_, List.getElem_mem hj₀, _, List.getElem_mem hi₀, ?_, ?_⟩
            · rw [← hT']
            · rw [hq₀, ← hT']
          · exact Or.inl ((Dict.mem_keys_iff _ _).2 h)
      · exact Or.inr h

theorem entries_nodup {n : ℕ} {M : Dict ℕ (Dict ℕ R)} (h : MatIn n M) : ((entries M).map fun E => (E.1, E.2.1)).Nodup := by
  obtain ⟨hw, hr⟩ := h
  unfold entries
  induction M with
  | nil => simp
  | cons T M ih =>
    have hw' : T.1 ∉ Dict.keys M ∧ Dict.WF M := by simpa [Dict.WF, Dict.keys] using hw
    rw [List.flatMap_cons, List.map_append, List.nodup_append]
    refine ⟨?_, ih hw'.2 (fun T hT => hr T (List.mem_cons_of_mem _ hT)), ?_⟩
    · rw [List.map_map]
      have := (hr T List.mem_cons_self).2.1
      unfold Dict.WF Dict.keys at this
      have he : ((fun E : ℕ × ℕ × R => (E.1, E.2.1)) ∘ fun E : ℕ × R => (T.1, E.1, E.2))
          = (fun i => (T.1, i)) ∘ Prod.fst := rfl
      rw [he, ← List.map_map]
      exact this.map (fun a b hab => (Prod.ext_iff.1 hab).2)
    · intro a ha b hb hab
      subst hab
      obtain ⟨E, hE, rfl⟩ := List.mem_map.1 ha
      obtain ⟨E', hE', heq⟩ := List.mem_map.1 hb
      obtain ⟨_, _, rfl⟩ := List.mem_map.1 hE
      obtain ⟨T', hT', hE''⟩ := List.mem_flatMap.1 hE'
      obtain ⟨_, _, rfl⟩ := List.mem_map.1 hE''
      have : T'.1 = T.1 := (Prod.ext_iff.1 heq).1
      exact hw'.1 (this ▸ List.mem_map.2 ⟨T', hT', rfl⟩)

theorem mem_entries {n : ℕ} {M : Dict ℕ (Dict ℕ R)} (h : MatIn n M) (i j : ℕ) (e : R) :
    (i, j, e) ∈ entries M ↔ Dict.get? (row M i) j = some e := by
  unfold entries row
  rw [List.mem_flatMap]
  constructor
  · rintro ⟨T, hT, hE⟩
    obtain ⟨E, hE', heq⟩ := List.mem_map.1 hE
    cases heq
    rw [Dict.get?_of_mem h.1 (k := T.1) (v := T.2) hT, Option.getD_some]
    exact Dict.get?_of_mem (h.2 T hT).2.1 hE'
  · intro hg
    cases hM : Dict.get? M i with
    | none => rw [hM] at hg; simp at hg
    | some r =>
      rw [hM, Option.getD_some] at hg
      exact ⟨(i, r), Dict.mem_of_get? hM, List.mem_map.2 ⟨(j, e), Dict.mem_of_get? hg, rfl⟩⟩

theorem sum_entries {n : ℕ} {M : Dict ℕ (Dict ℕ R)} (h : MatIn n M) (i : ℕ) (y : ℕ → R) :
    ((entries M).map fun E => if E.1 = i then E.2.2 * y E.2.1 else 0).sum = lin (row M i) y := by
  obtain ⟨hw, -⟩ := h
  unfold entries row
  induction M with
  | nil => simp
  | cons T M ih =>
    have hw' : T.1 ∉ Dict.keys M ∧ Dict.WF M := by simpa [Dict.WF, Dict.keys] using hw
    rw [List.flatMap_cons, List.map_append, List.sum_append, ih hw'.2, Dict.get?_cons, List.map_map]
    by_cases hi : T.1 = i
    · rw [if_pos hi]
      have : Dict.get? M i = none := (Dict.get?_eq_none_iff _ _).2 (hi ▸ hw'.1)
      rw [this]
      simp only [Function.comp_def, hi, if_true, Option.getD_some, Option.getD_none, lin_nil, add_zero]
      rfl
    · rw [if_neg hi]
      simp only [Function.comp_def, hi, if_false]
      simp

/-- A row over the first indices as a sum over the keys. -/
theorem lin_keys {pks : List K} (hnd : pks.Nodup) {r : Dict ℕ R} (hr : RowIn pks.length r) (y : ℕ → R) :
    lin r y = (pks.map fun k => (Dict.get? r (pks.idxOf k)).getD 0 * y (pks.idxOf k)).sum := by
  have e1 : (pks.map fun k => (Dict.get? r (pks.idxOf k)).getD 0 * y (pks.idxOf k))
      = (List.range pks.length).map fun i => (Dict.get? r i).getD 0 * y i := by
    rw [← map_idxOf hnd, List.map_map]; rfl
  rw [e1]
  clear e1
  obtain ⟨hw, hlt⟩ := hr
  generalize pks.length = n at hlt ⊢
  induction r with
  | nil => simp
  | cons T r ih =>
    have hw' : T.1 ∉ Dict.keys r ∧ Dict.WF r := by simpa [Dict.WF, Dict.keys] using hw
    have hn : T.1 < n := hlt _ (by simp [Dict.keys])
    rw [lin_cons, ih hw'.2 (fun i hi => hlt i (by simp only [Dict.keys, List.map_cons, List.mem_cons] at hi ⊢; exact Or.inr hi))]
    have hT : Dict.get? r T.1 = none := (Dict.get?_eq_none_iff _ _).2 hw'.1
    have : ∀ i, (Dict.get? (T :: r) i).getD 0 * y i
        = (if i = T.1 then T.2 * y T.1 else 0) + (Dict.get? r i).getD 0 * y i := by
      intro i
      rw [Dict.get?_cons]
      by_cases h : T.1 = i
      · subst h; simp [hT]
      · simp [h, Ne.symm h]
    simp only [this, List.sum_map_add]
    congr 1
    have hsum : ∀ m, ((List.range m).map fun i => if i = T.1 then T.2 * y T.1 else 0).sum
        = if T.1 < m then T.2 * y T.1 else 0 := by
      intro m
      induction m with
      | zero => simp
      | succ m ihm =>
        rw [List.range_succ, List.map_append, List.sum_append, ihm, List.map_cons, List.map_nil, List.sum_singleton]
        by_cases h1 : T.1 < m
        · rw [if_pos h1, if_neg (by omega), if_pos (by omega), add_zero]
        · by_cases h2 : m = T.1
          · rw [if_neg h1, if_pos h2, if_pos (by omega), zero_add]
          · rw [if_neg h1, if_neg h2, if_neg (by omega), add_zero]
    rw [hsum, if_pos hn]

theorem inject_spec (hM : Mapped o.pks o.in_map o.out_map inn out) (hnd : o.pks.Nodup) (pkv : ℕ → Option R)
    (dval : Dict ℕ R) :
    ∃ inj, o.inject pkv dval = .ok inj ∧
      (∀ k ∈ o.pks, ∀ q, out k = some q →
        Dict.get? inj q = some (num pkv (o.pks.idxOf k) - (Dict.get? dval (o.pks.idxOf k)).getD 0)) ∧
      ∀ q ∈ Dict.keys inj, ∃ k ∈ o.pks, out k = some q := by
  unfold ExpMat.inject
  have main : ∀ (pre l : List K), o.pks = pre ++ l → ∀ inj : Dict P R, ∃ inj',
      (List.zipIdx l pre.length).foldlM (fun inj T => do
        match ← Dict.get o.out_map T.1 with
        | none => pure inj
        | some q => pure (Dict.set inj q (num pkv T.2 - (Dict.get? dval T.2).getD 0))) inj = Except.ok (ε := Err) inj' ∧
      (∀ q, (∀ k ∈ l, out k ≠ some q) → Dict.get? inj' q = Dict.get? inj q) ∧
      (∀ k ∈ l, ∀ q, out k = some q →
        Dict.get? inj' q = some (num pkv (o.pks.idxOf k) - (Dict.get? dval (o.pks.idxOf k)).getD 0)) := by
    intro pre l
    induction l generalizing pre with
    | nil => intro _ inj; exact ⟨inj, rfl, fun _ _ => rfl, by simp⟩
    | cons k l ih =>
      intro hpks inj
      have hk : k ∈ o.pks := by rw [hpks]; simp
      have hidx : o.pks.idxOf k = pre.length := by
        have hlt : pre.length < o.pks.length := by rw [hpks]; simp
        have hge : o.pks[pre.length] = k := by simp [hpks]
        rw [← hge]
        exact hnd.idxOf_getElem _ _
      rw [List.zipIdx_cons, List.foldlM_cons]
      obtain ⟨inj', h1, h2, h3⟩ := ih (pre ++ [k]) (by rw [hpks]; simp)
        (match out k with | none => inj | some q => Dict.set inj q (num pkv pre.length - (Dict.get? dval pre.length).getD 0))
      rw [List.length_append, List.length_singleton] at h1
      refine ⟨inj', ?_, ?_, ?_⟩
      · rw [← h1]
        simp only [Dict.get, hM.get_out k hk]
        cases out k <;> rfl
      · intro q hq
        rw [h2 q (fun k' hk' => hq k' (List.mem_cons_of_mem _ hk'))]
        cases hok : out k with
        | none => rfl
        | some q' =>
          dsimp only
          rw [Dict.get?_set, if_neg]
          rintro rfl
          exact hq k List.mem_cons_self hok
      · intro k' hk' q hq
        rcases List.mem_cons.1 hk' with rfl | hk'
        · rw [h2 q, hq]
          · dsimp only
            rw [Dict.get?_set_self, hidx]
          · intro k'' hk'' hq''
            have := hM.out_inj k'' (by rw [hpks]; simp [hk'']) k' hk q hq'' hq
            subst this
            rw [hpks] at hnd
            have := (List.nodup_append.1 hnd).2.1
            exact (List.nodup_cons.1 this).1 hk''
        · exact h3 k' hk' q hq
  obtain ⟨inj, h1, h2, h3⟩ := main [] o.pks rfl []
  refine ⟨inj, h1, h3, ?_⟩
  intro q hq
  by_contra hno
  push Not at hno
  have := h2 q hno
  rw [Dict.mem_keys_iff, this] at hq
  simp at hq

theorem inputs_spec (hM : Mapped o.pks o.in_map o.out_map inn out) (sol : Dict P R) :
    o.inputs sol = .ok (o.pks.map fun k => (inn k, (Dict.get? sol (inn k)).getD 0)) := by
  unfold ExpMat.inputs
  have : ∀ l : List K, (∀ k ∈ l, k ∈ o.pks) → l.mapM (fun pk => do
      let pk_in ← Dict.get o.in_map pk
      pure (pk_in, (Dict.get? sol pk_in).getD 0)) = Except.ok (ε := Err) (l.map fun k => (inn k, (Dict.get? sol (inn k)).getD 0)) := by
    intro l
    induction l with
    | nil => intro _; rfl
    | cons k l ih =>
      intro hl
      rw [List.mapM_cons, ih fun k hk => hl k (List.mem_cons_of_mem _ hk)]
      simp only [Dict.get, hM.get_inn k (hl k List.mem_cons_self)]
      rfl
  exact this _ fun _ h => h

/-- Values that agree on the keys of the equations stay so. -/
theorem integrate2_congr {dLt : Dict K (Lt K R)} {pks : List K} (hK : Keyed dLt pks) (N : ℕ)
    {p p' : (K → R) × (K → R)} (h : ∀ k ∈ pks, p.1 k = p'.1 k ∧ p.2 k = p'.2 k) :
    ∀ k ∈ pks, (integrate2 dLt N pks p).1 k = (integrate2 dLt N pks p').1 k ∧
      (integrate2 dLt N pks p).2 k = (integrate2 dLt N pks p').2 k := by
  have hmem : ∀ k, ∀ t ∈ rhs dLt k, ∀ i ∈ t.2, i ∈ pks := by
    intro k t ht i hi
    unfold rhs at ht
    cases hg : Dict.get? dLt k with
    | none => rw [hg] at ht; simp at ht
    | some lt =>
      rw [hg, Option.getD_some] at ht
      exact (hK.mem i).2 ⟨(k, lt), Dict.mem_of_get? hg, Or.inr ⟨t, ht, hi⟩⟩
  have hprod : ∀ (l : List K), (∀ i ∈ l, i ∈ pks) → ∀ p p' : (K → R) × (K → R),
      (∀ k ∈ pks, p.1 k = p'.1 k ∧ p.2 k = p'.2 k) →
      (l.map p.1).prod = (l.map p'.1).prod ∧ dprod l p.1 p.2 = dprod l p'.1 p'.2 := by
    intro l
    induction l with
    | nil => intro _ p p' _; exact ⟨rfl, rfl⟩
    | cons i l ih =>
      intro hl p p' hp
      obtain ⟨h1, h2⟩ := ih (fun i hi => hl i (List.mem_cons_of_mem _ hi)) p p' hp
      obtain ⟨e1, e2⟩ := hp i (hl i List.mem_cons_self)
      simp only [List.map_cons, List.prod_cons, dprod, h1, h2, e1, e2, and_self]
  have hpoly : ∀ (lt : Lt K R), (∀ t ∈ lt, ∀ i ∈ t.2, i ∈ pks) → ∀ p p' : (K → R) × (K → R),
      (∀ k ∈ pks, p.1 k = p'.1 k ∧ p.2 k = p'.2 k) →
      poly lt p.1 = poly lt p'.1 ∧ dpoly lt p.1 p.2 = dpoly lt p'.1 p'.2 := by
    intro lt
    induction lt with
    | nil => intro _ p p' _; exact ⟨rfl, rfl⟩
    | cons t lt ih =>
      intro hl p p' hp
      obtain ⟨h1, h2⟩ := ih (fun t ht => hl t (List.mem_cons_of_mem _ ht)) p p' hp
      obtain ⟨e1, e2⟩ := hprod t.2 (hl t List.mem_cons_self) p p' hp
      simp only [poly_cons, dpoly_cons, h1, h2, e1, e2, and_self]
  have hstep : ∀ (h : ℚ) (k : K) (p p' : (K → R) × (K → R)), (∀ k ∈ pks, p.1 k = p'.1 k ∧ p.2 k = p'.2 k) →
      ∀ k' ∈ pks, (nudge2 dLt h p k).1 k' = (nudge2 dLt h p' k).1 k' ∧
        (nudge2 dLt h p k).2 k' = (nudge2 dLt h p' k).2 k' := by
    intro h k p p' hp k' hk'
    obtain ⟨e1, e2⟩ := hpoly (rhs dLt k) (hmem k) p p' hp
    simp only [nudge2, nudge, Function.update_apply]
    by_cases hkk : k' = k
    · subst hkk
      obtain ⟨f1, f2⟩ := hp _ hk'
      simp only [if_true, e1, e2, f1, f2, and_self]
    · simp only [if_neg hkk]
      exact hp k' hk'
  have hsweep : ∀ (h : ℚ) (l : List K) (p p' : (K → R) × (K → R)), (∀ k ∈ pks, p.1 k = p'.1 k ∧ p.2 k = p'.2 k) →
      ∀ k' ∈ pks, (l.foldl (nudge2 dLt h) p).1 k' = (l.foldl (nudge2 dLt h) p').1 k' ∧
        (l.foldl (nudge2 dLt h) p).2 k' = (l.foldl (nudge2 dLt h) p').2 k' := by
    intro h l
    induction l with
    | nil => intro p p' hp; exact hp
    | cons k l ih => intro p p' hp; exact ih _ _ (hstep h k p p' hp)
  unfold integrate2
  have : ∀ m (p p' : (K → R) × (K → R)), (∀ k ∈ pks, p.1 k = p'.1 k ∧ p.2 k = p'.2 k) →
      ∀ k' ∈ pks, ((fun p => pks.foldl (nudge2 dLt (1 / N)) p)^[m] p).1 k'
        = ((fun p => pks.foldl (nudge2 dLt (1 / N)) p)^[m] p').1 k' ∧
        ((fun p => pks.foldl (nudge2 dLt (1 / N)) p)^[m] p).2 k'
        = ((fun p => pks.foldl (nudge2 dLt (1 / N)) p)^[m] p').2 k' := by
    intro m
    induction m with
    | zero => intro p p' hp; exact hp
    | succ m ih =>
      intro p p' hp
      rw [Function.iterate_succ_apply, Function.iterate_succ_apply]
      exact ih _ _ (hsweep _ _ _ _ hp)
  exact this N p p' h

/-- The inputs are remembered. -/
theorem prev_spec (hM : Mapped o.pks o.in_map o.out_map inn out) (hnd : o.pks.Nodup) (v : P → R) :
    ∀ k ∈ o.pks, (Dict.get? ((o.pks.map fun k => (inn k, v (inn k))).foldl
      (fun d T => if T.2 = 0 then d else Dict.set d T.1 T.2) []) (inn k)).getD 0 = v (inn k) := by
  have main : ∀ (l : List K), l.Nodup → (∀ k ∈ l, k ∈ o.pks) → ∀ d : Dict P R,
      (∀ p, (∀ k ∈ l, inn k ≠ p) → Dict.get? ((l.map fun k => (inn k, v (inn k))).foldl
        (fun d T => if T.2 = 0 then d else Dict.set d T.1 T.2) d) p = Dict.get? d p) ∧
      (∀ k ∈ l, Dict.get? d (inn k) = none → (Dict.get? ((l.map fun k => (inn k, v (inn k))).foldl
        (fun d T => if T.2 = 0 then d else Dict.set d T.1 T.2) d) (inn k)).getD 0 = v (inn k)) := by
    intro l
    induction l with
    | nil => intro _ _ d; exact ⟨fun _ _ => rfl, by simp⟩
    | cons k l ih =>
      intro hl hin d
      rw [List.nodup_cons] at hl
      rw [List.map_cons, List.foldl_cons]
      obtain ⟨h1, h2⟩ := ih hl.2 (fun k hk => hin k (List.mem_cons_of_mem _ hk))
        (if v (inn k) = 0 then d else Dict.set d (inn k) (v (inn k)))
      have hne : ∀ k' ∈ l, inn k' ≠ inn k := by
        intro k' hk' he
        have := hM.inn_inj k' (hin k' (List.mem_cons_of_mem _ hk')) k (hin k List.mem_cons_self) he
        exact hl.1 (this ▸ hk')
      refine ⟨?_, ?_⟩
      · intro p hp
        rw [h1 p fun k' hk' => hp k' (List.mem_cons_of_mem _ hk')]
        split_ifs
        · rfl
        · rw [Dict.get?_set, if_neg (hp k List.mem_cons_self)]
      · intro k' hk' hd
        rcases List.mem_cons.1 hk' with rfl | hk'
        · rw [h1 _ hne]
          split_ifs with hz
          · rw [hd, hz]; rfl
          · rw [Dict.get?_set_self]; rfl
        · refine h2 k' hk' ?_
          split_ifs
          · exact hd
          · rw [Dict.get?_set, if_neg (hne k' hk').symm]; exact hd
  intro k hk
  exact (main o.pks hnd (fun _ h => h) []).2 k hk rfl

/-- What one update of the coupling stores: the tangent of the integration at the inputs, and the rest. -/
theorem generate_spec {dLt : Dict K (Lt K R)} {pks : List K} (hK : Keyed dLt pks) {N : ℕ} {in_map : Dict K P}
    {out_map : Dict K (Option P)} (ho : init dLt in_map out_map N pks = .ok o)
    (hM : Mapped pks in_map out_map inn out) (moved : R → R → Bool) (st : State P R) (sol : Dict P R)
    (hmoved : ∃ k ∈ pks, moved ((Dict.get? sol (inn k)).getD 0) ((Dict.get? st.vals_prev (inn k)).getD 0) = true) :
    ∃ st', o.generate_solution moved st sol = .ok st' ∧
      (∀ k' ∈ pks, ∀ q, out k' = some q →
        (∀ Δ : K → R, (pks.map fun k => (Dict.get? st'.solution (inn k, q)).getD 0 * Δ k).sum
          = (integrate2 dLt N pks (fun k => (Dict.get? sol (inn k)).getD 0, Δ)).2 k') ∧
        (Dict.get? st'.vals_inj q).getD 0 = integrate dLt N pks (fun k => (Dict.get? sol (inn k)).getD 0) k'
          - (pks.map fun k => (Dict.get? st'.solution (inn k, q)).getD 0 * (Dict.get? sol (inn k)).getD 0).sum) ∧
      (∀ T ∈ Dict.keys st'.solution, ∃ k ∈ pks, ∃ k' ∈ pks, T.1 = inn k ∧ out k' = some T.2) ∧
      (∀ q ∈ Dict.keys st'.vals_inj, ∃ k ∈ pks, out k = some q) ∧
      (∀ k ∈ pks, (Dict.get? st'.vals_prev (inn k)).getD 0 = (Dict.get? sol (inn k)).getD 0) := by
  have hoo : o.pks = pks ∧ o.in_map = in_map ∧ o.out_map = out_map := by
    unfold init at ho
    split_ifs at ho
    injection ho with ho
    rw [← ho]; exact ⟨rfl, rfl, rfl⟩
  obtain ⟨hp, hi, hu⟩ := hoo
  have hM' : Mapped o.pks o.in_map o.out_map inn out := by rw [hp, hi, hu]; exact hM
  have hnd : o.pks.Nodup := by rw [hp]; exact hK.nodup
  set X : K → R := fun k => (Dict.get? sol (inn k)).getD 0 with hX
  set x : List R := pks.map X with hx
  have hxl : x.length = pks.length := by simp [hx]
  have hxk : ∀ k ∈ pks, x.getD (pks.idxOf k) 0 = X k := by
    intro k hk
    have hlt := List.idxOf_lt_length_iff.2 hk
    rw [List.getD_eq_getElem?_getD, hx, List.getElem?_map, List.getElem?_eq_getElem hlt, List.getElem_idxOf hlt]
    rfl
  set pkv : ℕ → Option R := fun i => if x.getD i 0 = 0 then none else some (x.getD i 0) with hpkv
  set nz := (List.range x.length).filter fun i => x.getD i 0 ≠ 0 with hnz
  have hnum : ∀ i, num pkv i = x.getD i 0 := by
    intro i
    simp only [num, hpkv]
    split_ifs with h
    · rw [h]; rfl
    · rfl
  have hnz' : ∀ i, i ∉ nz → pkv i = none := by
    intro i hi
    simp only [hpkv]
    rw [if_pos]
    by_contra h
    apply hi
    rw [hnz, List.mem_filter]
    refine ⟨List.mem_range.2 ?_, by simpa using h⟩
    by_contra hge
    apply h
    rw [List.getD_eq_getElem?_getD, List.getElem?_eq_none (by omega)]
    rfl
  have hmat := run_matIn o (hK.base_in ho) pkv nz
  obtain ⟨hm1, hm2, hm3⟩ := add_one_spec hmat
  have hspec : ∀ δ : ℕ → R, ∀ k ∈ pks, num (o.run pkv nz).pkv (pks.idxOf k) = integrate dLt N pks X k ∧
      tang (o.run pkv nz).dMexp δ (pks.idxOf k) = (integrate2 dLt N pks (X, fun k => δ (pks.idxOf k))).2 k := by
    intro δ k hk
    have h := run_spec hK ho hnz' δ
    have h1 := congrFun (congrArg Prod.fst h) k
    have h2 := congrFun (congrArg Prod.snd h) k
    simp only [Function.comp] at h1 h2
    have hc := integrate2_congr hK N (p := (num pkv ∘ pks.idxOf, δ ∘ pks.idxOf)) (p' := (X, fun k => δ (pks.idxOf k)))
      (fun k hk => ⟨by simp only [Function.comp]; rw [hnum, hxk k hk], rfl⟩) k hk
    refine ⟨?_, ?_⟩
    · rw [h1, ← integrate2_fst dLt N pks (X, fun k => δ (pks.idxOf k))]
      exact hc.1
    · rw [h2]; exact hc.2
  obtain ⟨a', hc1, hc2, hc3, hc4⟩ := fold_row_out hM' hnd x (entries (add_one x.length (o.run pkv nz).dMexp))
    (by
      rintro ⟨i, j, e⟩ hE
      rw [hxl] at hE
      obtain ⟨T, hT, hE'⟩ := List.mem_flatMap.1 hE
      obtain ⟨E, hE'', heq⟩ := List.mem_map.1 hE'
      cases heq
      rw [hp]
      exact ⟨(hm1.2 T hT).1, (hm1.2 T hT).2.mem hE''⟩)
    (by rw [hxl]; exact entries_nodup hm1) ([], [])
  obtain ⟨inj, hj1, hj2, hj3⟩ := inject_spec hM' hnd (o.run pkv nz).pkv a'.2
  have hdval : ∀ k ∈ pks, (Dict.get? a'.2 (pks.idxOf k)).getD 0
      = lin (row (add_one pks.length (o.run pkv nz).dMexp) (pks.idxOf k)) (fun i => x.getD i 0) := by
    intro k _
    rw [hc2, hxl, sum_entries hm1 _ fun i => x.getD i 0]
    simp
  have hentry : ∀ k ∈ pks, ∀ k' ∈ pks, ∀ q, out k' = some q →
      (Dict.get? a'.1 (inn k, q)).getD 0
        = (Dict.get? (row (add_one pks.length (o.run pkv nz).dMexp) (pks.idxOf k')) (pks.idxOf k)).getD 0 := by
    intro k hk k' hk' q hq
    have hlt := List.idxOf_lt_length_iff.2 hk
    have hlt' := List.idxOf_lt_length_iff.2 hk'
    have hg : o.pks[pks.idxOf k]'(by rw [hp]; exact hlt) = k := by
      simp only [hp]; exact List.getElem_idxOf hlt
    have hg' : o.pks[pks.idxOf k']'(by rw [hp]; exact hlt') = k' := by
      simp only [hp]; exact List.getElem_idxOf hlt'
    have hh := hc3 (pks.idxOf k') (by rw [hp]; exact hlt') (pks.idxOf k) (by rw [hp]; exact hlt) q (by rw [hg']; exact hq)
    rw [hg, hxl] at hh
    cases hr : Dict.get? (row (add_one pks.length (o.run pkv nz).dMexp) (pks.idxOf k')) (pks.idxOf k) with
    | none =>
      rw [hh.1 (fun e he => by rw [mem_entries hm1, hr] at he; cases he)]
      rfl
    | some e => rw [hh.2 e ((mem_entries hm1 _ _ _).2 hr)]
  have hsum : ∀ k' ∈ pks, ∀ q, out k' = some q → ∀ Δ : K → R,
      (pks.map fun k => (Dict.get? a'.1 (inn k, q)).getD 0 * Δ k).sum
        = (integrate2 dLt N pks (X, Δ)).2 k' := by
    intro k' hk' q hq Δ
    set δ : ℕ → R := fun i => ((pks[i]?).map Δ).getD 0 with hδ
    have hδk : ∀ k ∈ pks, δ (pks.idxOf k) = Δ k := by
      intro k hk
      have hlt := List.idxOf_lt_length_iff.2 hk
      simp only [hδ, List.getElem?_eq_getElem hlt, List.getElem_idxOf hlt, Option.map_some, Option.getD_some]
    have e1 : (pks.map fun k => (Dict.get? a'.1 (inn k, q)).getD 0 * Δ k)
        = pks.map fun k => (Dict.get? (row (add_one pks.length (o.run pkv nz).dMexp) (pks.idxOf k')) (pks.idxOf k)).getD 0
            * δ (pks.idxOf k) := by
      apply List.map_congr_left
      intro k hk
      rw [hentry k hk k' hk' q hq, hδk k hk]
    rw [e1, ← lin_keys hK.nodup (hm1.row _), hm3 δ _ (List.idxOf_lt_length_iff.2 hk'), (hspec δ k' hk').2]
    exact (integrate2_congr hK N (p := (X, fun k => δ (pks.idxOf k))) (p' := (X, Δ))
      (fun k hk => ⟨rfl, hδk k hk⟩) k' hk').2
  refine ⟨State.mk a'.1 ((o.pks.map fun k => (inn k, (Dict.get? sol (inn k)).getD 0)).foldl
      (fun d T => if T.2 = 0 then d else Dict.set d T.1 T.2) []) inj, ?_, ?_, ?_, ?_, ?_⟩
  · unfold ExpMat.generate_solution
    rw [inputs_spec hM']
    have hall : (o.pks.map fun k => (inn k, (Dict.get? sol (inn k)).getD 0)).all
        (fun T => !moved T.2 ((Dict.get? st.vals_prev T.1).getD 0)) = false := by
      rw [List.all_eq_false]
      obtain ⟨k, hk, hm⟩ := hmoved
      exact ⟨_, List.mem_map.2 ⟨k, by rw [hp]; exact hk, rfl⟩, by simp [hm]⟩
    have hxx : (o.pks.map fun k => (inn k, (Dict.get? sol (inn k)).getD 0)).map Prod.snd = x := by
      rw [List.map_map, hp]; rfl
    simp only [bind, Except.bind, hall, hxx]
    rw [collect_eq]
    simp only [← hpkv, ← hnz]
    rw [hc1]
    dsimp only
    rw [hj1]
    rfl
  · intro k' hk' q hq
    refine ⟨fun Δ => hsum k' hk' q hq Δ, ?_⟩
    rw [hj2 k' (by rw [hp]; exact hk') q hq, Option.getD_some, hp, (hspec (fun _ => 0) k' hk').1, hdval k' hk',
      hm3 _ _ (List.idxOf_lt_length_iff.2 hk'), (hspec _ k' hk').2]
    congr 1
    rw [hsum k' hk' q hq]
    exact (integrate2_congr hK N (p := (X, fun k => x.getD (pks.idxOf k) 0)) (p' := (X, X))
      (fun k hk => ⟨rfl, hxk k hk⟩) k' hk').2
  · intro T hT
    rcases hc4 T hT with h | h
    · simp [Dict.keys] at h
    · rw [hp] at h; exact h
  · intro q hq
    have := hj3 q hq
    rw [hp] at this; exact this
  · intro k hk
    exact prev_spec hM' hnd (fun p => (Dict.get? sol p).getD 0) k (by rw [hp]; exact hk)

/-- Nothing moved: nothing is done. -/
theorem generate_still (hM : Mapped o.pks o.in_map o.out_map inn out) (moved : R → R → Bool) (st : State P R)
    (sol : Dict P R)
    (h : ∀ k ∈ o.pks, moved ((Dict.get? sol (inn k)).getD 0) ((Dict.get? st.vals_prev (inn k)).getD 0) = false) :
    o.generate_solution moved st sol = .ok st := by
  unfold ExpMat.generate_solution
  rw [inputs_spec hM]
  have hall : (o.pks.map fun k => (inn k, (Dict.get? sol (inn k)).getD 0)).all
      (fun T => !moved T.2 ((Dict.get? st.vals_prev T.1).getD 0)) = true := by
    rw [List.all_eq_true]
    intro T hT
    obtain ⟨k, hk, rfl⟩ := List.mem_map.1 hT
    simp [h k hk]
  simp only [bind, Except.bind, hall]
  rfl

end Ode
