import Verif.KeyMat.Basic
import Mathlib.Data.List.Nodup

/-!
# Filling the arrays
-/

set_option linter.unusedSectionVars false

namespace KeyMat
open Py

variable {K V : Type} [LinearOrder K]

theorem Dget_of_get? {K V : Type} [DecidableEq K] {d : Dict K V} {k : K} {x : V} (h : Dict.get? d k = some x) :
    Dict.get d k = .ok x := by
  unfold Dict.get; rw [h]

theorem Dget_none {K V : Type} [DecidableEq K] {d : Dict K V} {k : K} (h : Dict.get? d k = none) :
    Dict.get d k = .error .keyError := by
  unfold Dict.get; rw [h]

theorem lt_of_getElem? {X : Type} {l : List X} {j : Nat} {x : X} (h : l[j]? = some x) : j < l.length := by
  rw [List.getElem?_eq_some_iff] at h
  exact h.1

/-- writing at the place of `k` in a list indexed by keys -/
theorem set_map {X : Type} {l : List K} (hn : l.Nodup) {j : Nat} {k : K} (hj : l[j]? = some k) (f : K → X) (x : X) :
    (l.map f).set j x = l.map (fun k' => if k' = k then x else f k') := by
  apply List.ext_getElem?
  intro n
  rw [List.getElem?_set, List.length_map, List.getElem?_map, List.getElem?_map]
  have hlt := lt_of_getElem? hj
  by_cases hjn : j = n
  · subst hjn
    rw [if_pos rfl, if_pos hlt, hj, Option.map_some, if_pos rfl]
  · rw [if_neg hjn]
    cases hl : l[n]? with
    | none => rfl
    | some k' =>
      rw [Option.map_some, Option.map_some]
      congr 1
      rw [if_neg]
      rintro rfl
      apply hjn
      have h1 := lt_of_getElem? hl
      rw [List.getElem?_eq_getElem hlt] at hj
      rw [List.getElem?_eq_getElem h1] at hl
      exact (List.Nodup.getElem_inj_iff hn).mp ((Option.some.inj hj).trans (Option.some.inj hl).symm)

theorem put_map {X : Type} {l : List K} (hn : l.Nodup) {j : Nat} {k : K} (hj : l[j]? = some k) (f : K → X) (x : X) :
    put (l.map f) j x = .ok (l.map (fun k' => if k' = k then x else f k')) := by
  unfold put
  rw [List.length_map, if_pos (lt_of_getElem? hj), set_map hn hj]

theorem mem_index {s : Space K} (h : SpaceOK s) {km l} (hm : s.maps = some (km, l)) {k : K} (hk : k ∈ s.keys) :
    ∃ j, Dict.get km k = .ok j ∧ l[j]? = some k := by
  have hkl := ((h.so km l hm).2 k).mpr hk
  obtain ⟨j, hlt, hj⟩ := List.getElem_of_mem hkl
  have hj' : l[j]? = some k := by rw [List.getElem?_eq_getElem hlt, hj]
  exact ⟨j, Dget_of_get? ((h.im km l hm k j).mpr hj'), hj'⟩

theorem not_mem_index {s : Space K} (h : SpaceOK s) {km l} (hm : s.maps = some (km, l)) {k : K} (hk : k ∉ s.keys) :
    Dict.get km k = .error .keyError := by
  apply Dget_none
  cases hg : Dict.get? km k with
  | none => rfl
  | some j =>
    have h1 := (h.im km l hm k j).mp hg
    exact absurd (((h.so km l hm).2 k).mp (List.mem_of_getElem? h1)) hk

/-! ### Vectors -/

theorem fillVec_good (i : Nat) (d : Dict K V) : ∀ (sp : List (Space K)) (arr : List V), HeapOK sp →
    HeapOK (fillVec i d sp arr).1 ∧ HLe sp (fillVec i d sp arr).1 := by
  induction d with
  | nil => intro sp arr h; exact ⟨h, HLe.refl sp⟩
  | cons kv d ih =>
    intro sp arr h
    obtain ⟨k, x⟩ := kv
    obtain ⟨h1, h2⟩ := freezeAt_good h i
    unfold fillVec
    have hf := keyMapAt_fst sp i k
    cases hkm : keyMapAt sp i k with
    | mk sp1 r =>
      rw [hkm] at hf
      replace hf : sp1 = freezeAt sp i := hf
      subst hf
      cases r with
      | error e => exact ⟨h1, h2⟩
      | ok j =>
        dsimp only
        cases hp : put arr j x with
        | error e => exact ⟨h1, h2⟩
        | ok arr' =>
          dsimp only
          obtain ⟨h3, h4⟩ := ih (freezeAt sp i) arr' h1
          exact ⟨h3, h2.trans h4⟩

/-- filling on a frozen space -/
theorem fillVec_frozen {i : Nat} {sp : List (Space K)} {s : Space K} {km l} (hok : SpaceOK s) (hi : sp[i]? = some s)
    (hm : s.maps = some (km, l)) (d : Dict K V) (hd : Dict.WF d) : ∀ f : K → V,
    ((∀ k ∈ Dict.keys d, k ∈ s.keys) →
      fillVec i d sp (l.map f) = (sp, .ok (l.map (fun k => (Dict.get? d k).getD (f k))))) ∧
    ((∃ k ∈ Dict.keys d, k ∉ s.keys) → fillVec i d sp (l.map f) = (sp, .error .keyError)) := by
  induction d with
  | nil =>
    intro f
    constructor
    · intro _; rfl
    · rintro ⟨k, hk, _⟩; cases hk
  | cons kv d ih =>
    intro f
    obtain ⟨k, x⟩ := kv
    have hd' : k ∉ Dict.keys d ∧ Dict.WF d := by
      unfold Dict.WF Dict.keys at hd
      rw [List.map_cons, List.nodup_cons] at hd
      exact hd
    have hk0 : Dict.keys ((k, x) :: d) = k :: Dict.keys d := rfl
    have hrec := ih hd'.2 (fun k' => if k' = k then x else f k')
    unfold fillVec
    rw [keyMapAt_frozen hi hm]
    by_cases hk : k ∈ s.keys
    · obtain ⟨j, hj, hlj⟩ := mem_index hok hm hk
      rw [hj]
      dsimp only
      rw [put_map (hok.so km l hm).nodup hlj]
      dsimp only
      rw [hk0]
      constructor
      · intro hall
        rw [hrec.1 (fun k' hk' => hall k' (List.mem_cons_of_mem k hk'))]
        congr 2
        apply List.map_congr_left
        intro k' _
        rw [Dict.get?_cons]
        dsimp only
        by_cases hkk : k = k'
        · subst hkk
          rw [if_pos rfl, (Dict.get?_eq_none_iff d k).mpr hd'.1, if_pos rfl]
          rfl
        · rw [if_neg hkk, if_neg (Ne.symm hkk)]
      · rintro ⟨k', hk', hn'⟩
        apply hrec.2
        rw [List.mem_cons] at hk'
        rcases hk' with rfl | hk'
        · exact absurd hk hn'
        · exact ⟨k', hk', hn'⟩
    · rw [not_mem_index hok hm hk]
      dsimp only
      constructor
      · intro hall; exact absurd (hall k (by rw [hk0]; simp)) hk
      · intro _; rfl

theorem fillVec_unfreeze (i : Nat) (d : Dict K V) (hne : d ≠ []) (sp : List (Space K)) (arr : List V) :
    fillVec i d sp arr = fillVec i d (freezeAt sp i) arr := by
  cases d with
  | nil => exact absurd rfl hne
  | cons kv d =>
    obtain ⟨k, x⟩ := kv
    rw [fillVec, fillVec, keyMapAt_freeze]

theorem sorted_zero_map {ks l : List K} [Zero V] (hn : ks.Nodup) (h : Sorted ks l) :
    (List.replicate ks.length (0 : V)) = l.map (fun _ => (0 : V)) := by
  rw [List.map_const', h.length hn]

/-- What the array loop computes. -/
theorem fillVec_spec [Zero V] {i : Nat} {sp : List (Space K)} {s : Space K} (h : HeapOK sp) (hi : sp[i]? = some s)
    {d : Dict K V} (hd : Dict.WF d) (hne : d ≠ []) :
    ((∀ k ∈ Dict.keys d, k ∈ s.keys) → ∃ arr, fillVec i d sp (List.replicate (lenAt sp i) 0) = (freezeAt sp i, .ok arr) ∧
        IsVecArray s.keys d arr) ∧
      ((∃ k ∈ Dict.keys d, k ∉ s.keys) →
        fillVec i d sp (List.replicate (lenAt sp i) 0) = (freezeAt sp i, .error .keyError)) := by
  have hlen : lenAt sp i = s.keys.length := by unfold lenAt; rw [hi]; rfl
  have hok := h.ok i s hi
  have hfok := freeze_ok hok
  have hfi : (freezeAt sp i)[i]? = some s.freeze := by rw [freezeAt_get, if_pos rfl, hi]; rfl
  obtain ⟨km, l, hm⟩ := freeze_maps s
  have hso := hfok.so km l hm
  rw [freeze_keys] at hso
  rw [hlen, fillVec_unfreeze i d hne, sorted_zero_map hok.nd hso]
  have hsp := fillVec_frozen hfok hfi hm d hd (fun _ => 0)
  rw [freeze_keys] at hsp
  constructor
  · intro hall
    exact ⟨_, hsp.1 hall, l, hso, rfl⟩
  · exact hsp.2

/-! ### Matrices -/

theorem fillMat_good (f t : Nat) (d : Dict (K × K) V) : ∀ (sp : List (Space K)) (arr : List (List V)), HeapOK sp →
    HeapOK (fillMat f t d sp arr).1 ∧ HLe sp (fillMat f t d sp arr).1 := by
  induction d with
  | nil => intro sp arr h; exact ⟨h, HLe.refl sp⟩
  | cons kv d ih =>
    intro sp arr h
    obtain ⟨⟨kf, kt⟩, x⟩ := kv
    obtain ⟨h1, h2⟩ := freezeAt_good h t
    unfold fillMat
    have hft := keyMapAt_fst sp t kt
    cases hkm : keyMapAt sp t kt with
    | mk sp1 r =>
      rw [hkm] at hft
      replace hft : sp1 = freezeAt sp t := hft
      subst hft
      cases r with
      | error e => exact ⟨h1, h2⟩
      | ok a =>
        dsimp only
        obtain ⟨h3, h4⟩ := freezeAt_good h1 f
        have hff := keyMapAt_fst (freezeAt sp t) f kf
        cases hkm2 : keyMapAt (freezeAt sp t) f kf with
        | mk sp2 r =>
          rw [hkm2] at hff
          replace hff : sp2 = freezeAt (freezeAt sp t) f := hff
          subst hff
          cases r with
          | error e => exact ⟨h3, h2.trans h4⟩
          | ok b =>
            dsimp only
            cases hp : put2 arr a b x with
            | error e => exact ⟨h3, h2.trans h4⟩
            | ok arr' =>
              dsimp only
              obtain ⟨h5, h6⟩ := ih (freezeAt (freezeAt sp t) f) arr' h3
              exact ⟨h5, (h2.trans h4).trans h6⟩

theorem fillIdx_good (f t : Nat) (d : Dict (K × K) V) : ∀ (sp : List (Space K)) (m : Dict (Nat × Nat) V), HeapOK sp →
    HeapOK (fillIdx f t d sp m).1 ∧ HLe sp (fillIdx f t d sp m).1 := by
  induction d with
  | nil => intro sp arr h; exact ⟨h, HLe.refl sp⟩
  | cons kv d ih =>
    intro sp m h
    obtain ⟨⟨kf, kt⟩, x⟩ := kv
    obtain ⟨h1, h2⟩ := freezeAt_good h f
    unfold fillIdx
    have hft := keyMapAt_fst sp f kf
    cases hkm : keyMapAt sp f kf with
    | mk sp1 r =>
      rw [hkm] at hft
      replace hft : sp1 = freezeAt sp f := hft
      subst hft
      cases r with
      | error e => exact ⟨h1, h2⟩
      | ok a =>
        dsimp only
        obtain ⟨h3, h4⟩ := freezeAt_good h1 t
        have hff := keyMapAt_fst (freezeAt sp f) t kt
        cases hkm2 : keyMapAt (freezeAt sp f) t kt with
        | mk sp2 r =>
          rw [hkm2] at hff
          replace hff : sp2 = freezeAt (freezeAt sp f) t := hff
          subst hff
          cases r with
          | error e => exact ⟨h3, h2.trans h4⟩
          | ok b =>
            dsimp only
            obtain ⟨h5, h6⟩ := ih (freezeAt (freezeAt sp f) t) (Dict.set m (a, b) x) h3
            exact ⟨h5, (h2.trans h4).trans h6⟩

theorem put2_map {X : Type} {lf lt : List K} (hf : lf.Nodup) (ht : lt.Nodup) {a b : Nat} {kt kf : K} (ha : lt[a]? = some kt)
    (hb : lf[b]? = some kf) (F : K → K → X) (x : X) :
    put2 (lt.map (fun kt => lf.map (fun kf => F kf kt))) a b x =
      .ok (lt.map (fun kt' => lf.map (fun kf' => if (kf', kt') = (kf, kt) then x else F kf' kt'))) := by
  unfold put2
  rw [List.getElem?_map, ha, Option.map_some]
  dsimp only
  rw [put_map hf hb]
  dsimp only
  rw [put_map ht ha]
  congr 1
  apply List.map_congr_left
  intro kt' _
  by_cases h : kt' = kt
  · subst h
    rw [if_pos rfl]
    apply List.map_congr_left
    intro kf' _
    by_cases h2 : kf' = kf
    · subst h2; rw [if_pos rfl, if_pos rfl]
    · rw [if_neg h2, if_neg]; intro he; exact h2 (Prod.mk.inj he).1
  · rw [if_neg h]
    apply List.map_congr_left
    intro kf' _
    rw [if_neg]; intro he; exact h (Prod.mk.inj he).2

/-- filling on frozen spaces -/
theorem fillMat_frozen {f t : Nat} {sp : List (Space K)} {sf st : Space K} {kmf lf kmt lt} (hokf : SpaceOK sf) (hokt : SpaceOK st)
    (hif : sp[f]? = some sf) (hit : sp[t]? = some st) (hmf : sf.maps = some (kmf, lf)) (hmt : st.maps = some (kmt, lt))
    (d : Dict (K × K) V) (hd : Dict.WF d) : ∀ F : K → K → V,
    ((∀ k ∈ Dict.keys d, k.1 ∈ sf.keys ∧ k.2 ∈ st.keys) →
      fillMat f t d sp (lt.map (fun kt => lf.map (fun kf => F kf kt))) =
        (sp, .ok (lt.map (fun kt => lf.map (fun kf => (Dict.get? d (kf, kt)).getD (F kf kt)))))) ∧
    ((∃ k ∈ Dict.keys d, ¬ (k.1 ∈ sf.keys ∧ k.2 ∈ st.keys)) →
      fillMat f t d sp (lt.map (fun kt => lf.map (fun kf => F kf kt))) = (sp, .error .keyError)) := by
  induction d with
  | nil =>
    intro F
    constructor
    · intro _; rfl
    · rintro ⟨k, hk, _⟩; cases hk
  | cons kv d ih =>
    intro F
    obtain ⟨⟨kf, kt⟩, x⟩ := kv
    have hd' : (kf, kt) ∉ Dict.keys d ∧ Dict.WF d := by
      unfold Dict.WF Dict.keys at hd
      rw [List.map_cons, List.nodup_cons] at hd
      exact hd
    have hk0 : Dict.keys (((kf, kt), x) :: d) = (kf, kt) :: Dict.keys d := rfl
    have hrec := ih hd'.2 (fun kf' kt' => if (kf', kt') = (kf, kt) then x else F kf' kt')
    unfold fillMat
    rw [keyMapAt_frozen hit hmt]
    by_cases hkt : kt ∈ st.keys
    · obtain ⟨a, ha, hla⟩ := mem_index hokt hmt hkt
      rw [ha]
      dsimp only
      rw [keyMapAt_frozen hif hmf]
      by_cases hkf : kf ∈ sf.keys
      · obtain ⟨b, hb, hlb⟩ := mem_index hokf hmf hkf
        rw [hb]
        dsimp only
        rw [put2_map (hokf.so _ _ hmf).nodup (hokt.so _ _ hmt).nodup hla hlb]
        dsimp only
        rw [hk0]
        constructor
        · intro hall
          rw [hrec.1 (fun k' hk' => hall k' (List.mem_cons_of_mem _ hk'))]
          congr 2
          apply List.map_congr_left
          intro kt' _
          apply List.map_congr_left
          intro kf' _
          rw [Dict.get?_cons]
          dsimp only
          by_cases hkk : (kf, kt) = (kf', kt')
          · rw [if_pos hkk, ← hkk, (Dict.get?_eq_none_iff d _).mpr hd'.1, if_pos rfl]
            rfl
          · rw [if_neg hkk, if_neg (Ne.symm hkk)]
        · rintro ⟨k', hk', hn'⟩
          apply hrec.2
          rw [List.mem_cons] at hk'
          rcases hk' with rfl | hk'
          · exact absurd ⟨hkf, hkt⟩ hn'
          · exact ⟨k', hk', hn'⟩
      · rw [not_mem_index hokf hmf hkf]
        dsimp only
        constructor
        · intro hall; exact absurd (hall (kf, kt) (by rw [hk0]; simp)).1 hkf
        · intro _; rfl
    · rw [not_mem_index hokt hmt hkt]
      dsimp only
      constructor
      · intro hall; exact absurd (hall (kf, kt) (by rw [hk0]; simp)).2 hkt
      · intro _; rfl

/-- the state of the spaces after the first look-ups of a matrix -/
def freeze2 (sp : List (Space K)) (f t : Nat) : List (Space K) := freezeAt (freezeAt sp t) f

theorem freeze2_get (sp : List (Space K)) (f t j : Nat) :
    (freeze2 sp f t)[j]? = if f = j ∨ t = j then (sp[j]?).map Space.freeze else sp[j]? := by
  unfold freeze2
  rw [freezeAt_get, freezeAt_get]
  by_cases hf : f = j
  · rw [if_pos hf, if_pos (Or.inl hf)]
    by_cases ht : t = j
    · rw [if_pos ht]
      cases hj : sp[j]? with
      | none => rfl
      | some s => rw [Option.map_some, Option.map_some, freeze_of_frozen (freeze_frozen s)]
    · rw [if_neg ht]
  · rw [if_neg hf]
    by_cases ht : t = j
    · rw [if_pos ht, if_pos (Or.inr ht)]
    · rw [if_neg ht, if_neg]
      rintro (h | h)
      · exact hf h
      · exact ht h

theorem fillMat_unfreeze {f t : Nat} {sp : List (Space K)} {sf st : Space K} (hif : sp[f]? = some sf) (hit : sp[t]? = some st)
    (d : Dict (K × K) V) (hne : d ≠ []) (arr : List (List V)) :
    (fillMat f t d sp arr).2 = (fillMat f t d (freeze2 sp f t) arr).2 ∧
      (∀ a, (fillMat f t d sp arr).2 = .ok a → (fillMat f t d sp arr).1 = (fillMat f t d (freeze2 sp f t) arr).1) := by
  cases d with
  | nil => exact absurd rfl hne
  | cons kv d =>
    obtain ⟨⟨kf, kt⟩, x⟩ := kv
    have gf : (freeze2 sp f t)[f]? = some sf.freeze := by rw [freeze2_get, if_pos (Or.inl rfl), hif]; rfl
    have gt : (freeze2 sp f t)[t]? = some st.freeze := by rw [freeze2_get, if_pos (Or.inr rfl), hit]; rfl
    have g1 : (freezeAt sp t)[t]? = some st.freeze := by rw [freezeAt_get, if_pos rfl, hit]; rfl
    obtain ⟨kmf, lf, hmf⟩ := freeze_maps sf
    obtain ⟨kmt, lt, hmt⟩ := freeze_maps st
    rw [fillMat, fillMat, keyMapAt_frozen gt hmt, ← keyMapAt_freeze, keyMapAt_frozen g1 hmt]
    cases hr : Dict.get kmt kt with
    | error e => exact ⟨rfl, fun a h => by cases h⟩
    | ok a =>
      dsimp only
      rw [keyMapAt_frozen gf hmf, ← keyMapAt_freeze (freezeAt sp t) f kf]
      have g2 : (freezeAt (freezeAt sp t) f)[f]? = some sf.freeze := gf
      rw [keyMapAt_frozen g2 hmf]
      cases hr2 : Dict.get kmf kf with
      | error e => exact ⟨rfl, fun a h => by cases h⟩
      | ok b =>
        dsimp only
        exact ⟨rfl, fun _ _ => rfl⟩

theorem fillMat_spec [Zero V] {f t : Nat} {sp : List (Space K)} {sf st : Space K} (h : HeapOK sp) (hif : sp[f]? = some sf)
    (hit : sp[t]? = some st) {d : Dict (K × K) V} (hd : Dict.WF d) (hne : d ≠ []) :
    ((∀ k ∈ Dict.keys d, k.1 ∈ sf.keys ∧ k.2 ∈ st.keys) →
      ∃ arr, fillMat f t d sp (List.replicate (lenAt sp t) (List.replicate (lenAt sp f) 0)) = (freeze2 sp f t, .ok arr) ∧
        IsMatArray sf.keys st.keys d arr) ∧
      ((∃ k ∈ Dict.keys d, ¬ (k.1 ∈ sf.keys ∧ k.2 ∈ st.keys)) →
        (fillMat f t d sp (List.replicate (lenAt sp t) (List.replicate (lenAt sp f) 0))).2 = .error .keyError) := by
  have hlf : lenAt sp f = sf.keys.length := by unfold lenAt; rw [hif]; rfl
  have hlt : lenAt sp t = st.keys.length := by unfold lenAt; rw [hit]; rfl
  have hokf := h.ok f sf hif
  have hokt := h.ok t st hit
  have gf : (freeze2 sp f t)[f]? = some sf.freeze := by rw [freeze2_get, if_pos (Or.inl rfl), hif]; rfl
  have gt : (freeze2 sp f t)[t]? = some st.freeze := by rw [freeze2_get, if_pos (Or.inr rfl), hit]; rfl
  obtain ⟨kmf, lf, hmf⟩ := freeze_maps sf
  obtain ⟨kmt, lt, hmt⟩ := freeze_maps st
  have hsof := (freeze_ok hokf).so kmf lf hmf
  rw [freeze_keys] at hsof
  have hsot := (freeze_ok hokt).so kmt lt hmt
  rw [freeze_keys] at hsot
  have hz : List.replicate (lenAt sp t) (List.replicate (lenAt sp f) (0 : V)) = lt.map (fun _ => lf.map (fun _ => (0 : V))) := by
    rw [List.map_const', List.map_const', hlf, hlt, hsof.length hokf.nd, hsot.length hokt.nd]
  rw [hz]
  obtain ⟨hu1, hu2⟩ := fillMat_unfreeze hif hit d hne (lt.map (fun _ => lf.map (fun _ => (0 : V))))
  have hsp := fillMat_frozen (freeze_ok hokf) (freeze_ok hokt) gf gt hmf hmt d hd (fun _ _ => 0)
  rw [freeze_keys, freeze_keys] at hsp
  constructor
  · intro hall
    have h1 := hsp.1 hall
    refine ⟨_, ?_, lf, lt, hsof, hsot, rfl⟩
    have h2 : (fillMat f t d sp (lt.map (fun _ => lf.map (fun _ => (0 : V))))).2 =
        .ok (lt.map (fun kt => lf.map (fun kf => (Dict.get? d (kf, kt)).getD 0))) := by rw [hu1, h1]
    have h3 := hu2 _ h2
    rw [h1] at h3
    exact Prod.ext h3 h2
  · intro hex
    rw [hu1, hsp.2 hex]

/-! ### Nested fills -/

theorem nestInner_good (t : Nat) (kf : K) (l : List (K × V)) : ∀ (sp : List (Space K)) (d : Dict (K × K) V), HeapOK sp → Dict.WF d →
    HeapOK (nestInner t kf l sp d).1 ∧ HLe sp (nestInner t kf l sp d).1 ∧ Dict.WF (nestInner t kf l sp d).2.1 := by
  induction l with
  | nil => intro sp d h hd; exact ⟨h, HLe.refl sp, hd⟩
  | cons kv l ih =>
    intro sp d h hd
    obtain ⟨kt, x⟩ := kv
    unfold nestInner
    cases hk : keysAddAt sp t [kt] with
    | error e => exact ⟨h, HLe.refl sp, hd⟩
    | ok sp' =>
      dsimp only
      obtain ⟨h1, h2, _⟩ := keysAddAt_good h hk
      obtain ⟨h3, h4, h5⟩ := ih sp' (Dict.set d (kf, kt) x) h1 (Dict.WF_set hd _ _)
      exact ⟨h3, h2.trans h4, h5⟩

theorem nestOuter_good (f t : Nat) (l : List (K × List (K × V))) : ∀ (sp : List (Space K)) (d : Dict (K × K) V), HeapOK sp → Dict.WF d →
    HeapOK (nestOuter f t l sp d).1 ∧ HLe sp (nestOuter f t l sp d).1 ∧ Dict.WF (nestOuter f t l sp d).2.1 := by
  induction l with
  | nil => intro sp d h hd; exact ⟨h, HLe.refl sp, hd⟩
  | cons kv l ih =>
    intro sp d h hd
    obtain ⟨kf, t'⟩ := kv
    unfold nestOuter
    cases hk : keysAddAt sp f [kf] with
    | error e => exact ⟨h, HLe.refl sp, hd⟩
    | ok sp' =>
      dsimp only
      obtain ⟨h1, h2, _⟩ := keysAddAt_good h hk
      have h3 := nestInner_good t kf t' sp' d h1 hd
      cases hn : nestInner t kf t' sp' d with
      | mk sp2 r =>
        obtain ⟨d2, r⟩ := r
        rw [hn] at h3
        cases r with
        | error e => exact ⟨h3.1, h2.trans h3.2.1, h3.2.2⟩
        | ok u =>
          dsimp only
          obtain ⟨h4, h5, h6⟩ := ih sp2 d2 h3.1 h3.2.2
          exact ⟨h4, (h2.trans h3.2.1).trans h5, h6⟩

end KeyMat
