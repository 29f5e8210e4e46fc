import Verif.Keys.Spec
import Mathlib.Data.List.Perm.Subperm
import Mathlib.Data.List.Nodup
import Mathlib.Algebra.BigOperators.Group.List.Basic
import Mathlib.Algebra.BigOperators.Group.Finset.Basic
import Mathlib.Tactic.Ring

set_option linter.unusedSectionVars false

universe u v

namespace Py.Dict
variable {K : Type u} {V : Type v} [DecidableEq K]

theorem ext_perm_keys {d e : Dict K V} (hd : WF d) (he : WF e)
    (h : ∀ k, get? d k = get? e k) : (keys d).Perm (keys e) := by
  rw [List.perm_ext_iff_of_nodup hd he]
  intro k
  rw [mem_keys_iff, mem_keys_iff, h]

theorem nodup_of_WF {d : Dict K V} (hd : WF d) : d.Nodup := List.Nodup.of_map _ hd

theorem ext_perm {d e : Dict K V} (hd : WF d) (he : WF e)
    (h : ∀ k, get? d k = get? e k) : d.Perm e := by
  rw [List.perm_ext_iff_of_nodup (nodup_of_WF hd) (nodup_of_WF he)]
  rintro ⟨k, v⟩
  rw [mem_iff_get? hd, mem_iff_get? he, h]

theorem beq_iff [DecidableEq V] {d e : Dict K V} (hd : WF d) (he : WF e) :
    beq d e = true ↔ ∀ k, get? d k = get? e k := by
  unfold beq
  rw [Bool.and_eq_true, beq_iff_eq, List.all_eq_true]
  constructor
  · rintro ⟨hlen, hall⟩ k
    have hsub : keys d ⊆ keys e := by
      intro k hk
      obtain ⟨kv, hkv, rfl⟩ := List.mem_map.1 hk
      have := hall kv hkv
      rw [decide_eq_true_eq] at this
      rw [mem_keys_iff, this]; rfl
    have hperm : (keys d).Perm (keys e) :=
      (List.Nodup.subperm hd hsub).perm_of_length_le (by rw [← length_eq_keys, ← length_eq_keys]; omega)
    by_cases hk : k ∈ keys d
    · obtain ⟨kv, hkv, rfl⟩ := List.mem_map.1 hk
      have := hall kv hkv
      rw [decide_eq_true_eq] at this
      rw [this, get?_of_mem hd (v := kv.2) hkv]
    · have hk' : k ∉ keys e := fun h => hk (hperm.mem_iff.2 h)
      rw [(get?_eq_none_iff _ _).2 hk, (get?_eq_none_iff _ _).2 hk']
  · intro h
    refine ⟨(ext_perm hd he h).length_eq, ?_⟩
    intro kv hkv
    rw [decide_eq_true_eq, ← h]
    exact get?_of_mem hd hkv

theorem get?_ofList_of_WF {d : Dict K V} (hd : WF d) (k : K) : get? (ofList d) k = get? d k := by
  unfold ofList
  rw [get?_update_of_WF _ hd]
  simp

end Py.Dict

namespace Keys
open Py

namespace FrequencyKey
variable {F : Type u} [DecidableEq F]

theorem WF_addLoop (self : Dict F Int) (l : List (F × Int)) : ∀ acc : Dict F Int, Dict.WF acc →
    Dict.WF (addLoop self acc l) := by
  induction l with
  | nil => intro acc h; exact h
  | cons fn l ih =>
    intro acc h
    obtain ⟨f, n⟩ := fn
    unfold addLoop
    dsimp only
    split
    · exact ih _ (Dict.WF_erase h _)
    · exact ih _ (Dict.WF_set h _ _)

theorem get?_addLoop (self : Dict F Int) (l : Dict F Int) (hl : Dict.WF l) (f : F) :
    ∀ acc : Dict F Int, Dict.get? (addLoop self acc l) f =
      match Dict.get? l f with
      | none => Dict.get? acc f
      | some n => if (Dict.get? self f).getD 0 + n = 0 ∧ Dict.has acc f = true then none
          else some ((Dict.get? self f).getD 0 + n) := by
  induction l with
  | nil => intro acc; rfl
  | cons fn l ih =>
    intro acc
    obtain ⟨g, n⟩ := fn
    have hl' : g ∉ Dict.keys l ∧ Dict.WF l := by simpa [Dict.WF, Dict.keys] using hl
    unfold addLoop
    dsimp only
    rw [Dict.get?_cons]
    by_cases hg : g = f
    · subst hg
      have hn : Dict.get? l g = none := (Dict.get?_eq_none_iff _ _).2 hl'.1
      split
      · rename_i h
        rw [ih hl'.2, hn]
        simp [h]
      · rename_i h
        rw [ih hl'.2, hn]
        simp [h]
    · have e1 : Dict.get? (Dict.erase acc g) f = Dict.get? acc f := by simp [Dict.get?_erase, hg]
      have e2 : ∀ v, Dict.get? (Dict.set acc g v) f = Dict.get? acc f := by
        intro v; simp [Dict.get?_set, hg]
      split
      · have e3 : Dict.has (Dict.erase acc g) f = Dict.has acc f := by simp only [Dict.has, e1]
        rw [ih hl'.2, e1, e3]
      · have e3 : ∀ v, Dict.has (Dict.set acc g v) f = Dict.has acc f := by
          intro v; simp only [Dict.has, e2]
        rw [ih hl'.2, e2, e3]

theorem subLoop_eq_addLoop (self : Dict F Int) (l : List (F × Int)) : ∀ acc : Dict F Int,
    subLoop self acc l = addLoop self acc (l.map (fun fn => (fn.1, -fn.2))) := by
  induction l with
  | nil => intro acc; rfl
  | cons fn l ih =>
    intro acc
    obtain ⟨f, n⟩ := fn
    simp only [subLoop, addLoop, List.map_cons, ih, ← sub_eq_add_neg]

theorem get?_mapval (d : Dict F Int) (g : Int → Int) (f : F) :
    Dict.get? (d.map (fun fn => (fn.1, g fn.2))) f = (Dict.get? d f).map g := by
  induction d with
  | nil => rfl
  | cons fn d ih =>
    simp only [List.map_cons, Dict.get?_cons, ih]
    split <;> simp

theorem WF_mapval {d : Dict F Int} (hd : Dict.WF d) (g : Int → Int) :
    Dict.WF (d.map (fun fn => (fn.1, g fn.2))) := by
  unfold Dict.WF Dict.keys at *
  simpa [List.map_map, Function.comp_def] using hd

theorem has_iff_get? (d : Dict F Int) (f : F) : Dict.has d f = true ↔ (Dict.get? d f).isSome := Iff.rfl

theorem coef_add (a : FrequencyKey F) {b : FrequencyKey F} (hb : b.WF) (f : F) :
    (a.add b).coef f = a.coef f + b.coef f := by
  unfold coef add
  simp only [get?_addLoop _ _ hb]
  cases h : Dict.get? b.F_dict f with
  | none => simp
  | some n =>
    simp only
    split
    · rename_i h2; simp [h2.1]
    · simp

theorem coef_sub (a : FrequencyKey F) {b : FrequencyKey F} (hb : b.WF) (f : F) :
    (a.sub b).coef f = a.coef f - b.coef f := by
  unfold coef sub
  simp only [subLoop_eq_addLoop, get?_addLoop _ _ (WF_mapval hb _), get?_mapval]
  cases h : Dict.get? b.F_dict f with
  | none => simp
  | some n =>
    simp only [Option.map_some]
    split
    · rename_i h2; simp; omega
    · simp; omega

theorem foldl_set_get? {K : Type u} {V : Type v} [DecidableEq K] {W : Type v} (d : Dict K W) (hd : Dict.WF d)
    (g : K → W → V) (k : K) : ∀ acc : Dict K V,
    Dict.get? (d.foldl (fun acc kv => Dict.set acc kv.1 (g kv.1 kv.2)) acc) k =
      ((Dict.get? d k).map (g k)).or (Dict.get? acc k) := by
  induction d with
  | nil => intro acc; simp
  | cons kv d ih =>
    intro acc
    have hd' : kv.1 ∉ Dict.keys d ∧ Dict.WF d := by simpa [Dict.WF, Dict.keys] using hd
    simp only [List.foldl_cons]
    rw [ih hd'.2, Dict.get?_cons, Dict.get?_set]
    by_cases h : kv.1 = k
    · subst h
      have : Dict.get? d kv.1 = none := (Dict.get?_eq_none_iff _ _).2 hd'.1
      simp [this]
    · simp [h]

theorem foldl_set_WF {K : Type u} {V : Type v} [DecidableEq K] {W : Type v} (d : Dict K W)
    (g : K → W → V) : ∀ acc : Dict K V, Dict.WF acc →
    Dict.WF (d.foldl (fun acc kv => Dict.set acc kv.1 (g kv.1 kv.2)) acc) := by
  induction d with
  | nil => intro acc h; exact h
  | cons kv d ih => intro acc h; exact ih _ (Dict.WF_set h _ _)

theorem get?_rmul (m : Int) {k : FrequencyKey F} (hk : k.WF) (f : F) :
    Dict.get? (rmul m k).F_dict f = (Dict.get? k.F_dict f).map (m * ·) := by
  unfold rmul
  simp only
  rw [foldl_set_get? k.F_dict hk (fun _ n => m * n)]
  simp

theorem get?_neg {k : FrequencyKey F} (hk : k.WF) (f : F) :
    Dict.get? k.neg.F_dict f = (Dict.get? k.F_dict f).map (fun n => -n) := by
  unfold neg
  simp only
  rw [foldl_set_get? k.F_dict hk (fun f _ => -((Dict.get? k.F_dict f).getD 0))]
  cases h : Dict.get? k.F_dict f <;> simp [h]

theorem coef_rmul (m : Int) {k : FrequencyKey F} (hk : k.WF) (f : F) :
    (rmul m k).coef f = m * k.coef f := by
  unfold coef
  rw [get?_rmul m hk]
  cases Dict.get? k.F_dict f <;> simp

theorem coef_neg {k : FrequencyKey F} (hk : k.WF) (f : F) : k.neg.coef f = - k.coef f := by
  unfold coef
  rw [get?_neg hk]
  cases Dict.get? k.F_dict f <;> simp

theorem WF_add {a : FrequencyKey F} (ha : a.WF) (b : FrequencyKey F) : (a.add b).WF :=
  WF_addLoop _ _ _ ha

theorem WF_sub {a : FrequencyKey F} (ha : a.WF) (b : FrequencyKey F) : (a.sub b).WF := by
  unfold sub WF
  simp only [subLoop_eq_addLoop]
  exact WF_addLoop _ _ _ ha

theorem WF_rmul (m : Int) (k : FrequencyKey F) : (rmul m k).WF :=
  foldl_set_WF k.F_dict (fun _ n => m * n) [] Dict.WF_nil

theorem WF_neg (k : FrequencyKey F) : k.neg.WF :=
  foldl_set_WF k.F_dict (fun f _ => -((Dict.get? k.F_dict f).getD 0)) [] Dict.WF_nil

theorem zeroFree_iff {k : FrequencyKey F} (hk : k.WF) :
    k.ZeroFree ↔ ∀ f, Dict.get? k.F_dict f ≠ some 0 := by
  unfold ZeroFree
  constructor
  · intro h f hf
    exact h _ (Dict.mem_of_get? hf) rfl
  · rintro h ⟨f, n⟩ hfn hn
    simp only at hn
    subst hn
    exact h f (Dict.get?_of_mem hk hfn)

theorem zeroFree_add {a b : FrequencyKey F} (ha : a.WF) (hb : b.WF) (za : a.ZeroFree) (zb : b.ZeroFree) :
    (a.add b).ZeroFree := by
  rw [zeroFree_iff (WF_add ha b)]
  rw [zeroFree_iff ha] at za
  rw [zeroFree_iff hb] at zb
  intro f
  have za := za f
  have zb := zb f
  unfold add
  simp only [get?_addLoop _ _ hb]
  cases h : Dict.get? b.F_dict f with
  | none => simpa using za
  | some n =>
    dsimp only
    split
    · simp
    · rename_i hn
      intro h0
      cases h2 : Dict.get? a.F_dict f <;> simp_all [Dict.has]

theorem zeroFree_sub {a b : FrequencyKey F} (ha : a.WF) (hb : b.WF) (za : a.ZeroFree) (zb : b.ZeroFree) :
    (a.sub b).ZeroFree := by
  rw [zeroFree_iff (WF_sub ha b)]
  rw [zeroFree_iff ha] at za
  rw [zeroFree_iff hb] at zb
  intro f
  have za := za f
  have zb := zb f
  unfold sub
  simp only [subLoop_eq_addLoop, get?_addLoop _ _ (WF_mapval hb _), get?_mapval]
  cases h : Dict.get? b.F_dict f with
  | none => simpa using za
  | some n =>
    dsimp only [Option.map_some]
    split
    · simp
    · rename_i hn
      intro h0
      cases h2 : Dict.get? a.F_dict f <;> simp_all [Dict.has]

theorem zeroFree_rmul {m : Int} (hm : m ≠ 0) {k : FrequencyKey F} (hk : k.WF) (zk : k.ZeroFree) :
    (rmul m k).ZeroFree := by
  rw [zeroFree_iff (WF_rmul m k)]
  rw [zeroFree_iff hk] at zk
  intro f
  rw [get?_rmul m hk]
  have := zk f
  cases h : Dict.get? k.F_dict f <;> simp_all

theorem zeroFree_neg {k : FrequencyKey F} (hk : k.WF) (zk : k.ZeroFree) : k.neg.ZeroFree := by
  rw [zeroFree_iff (WF_neg k)]
  rw [zeroFree_iff hk] at zk
  intro f
  rw [get?_neg hk]
  have := zk f
  cases h : Dict.get? k.F_dict f <;> simp_all

/-- Zero-free keys are determined by the combination they denote. -/
theorem eq_iff_coef {a b : FrequencyKey F} (ha : a.WF) (hb : b.WF) (za : a.ZeroFree) (zb : b.ZeroFree) :
    a.eq b = true ↔ ∀ f, a.coef f = b.coef f := by
  unfold eq
  rw [Dict.beq_iff ha hb]
  constructor
  · intro h f; unfold coef; rw [h]
  · intro h f
    have h := h f
    unfold coef at h
    have za := (zeroFree_iff ha).1 za f
    have zb := (zeroFree_iff hb).1 zb f
    cases h1 : Dict.get? a.F_dict f <;> cases h2 : Dict.get? b.F_dict f <;> simp_all

theorem frequency_eq_sum {R : Type v} [CommRing R] (val : F → R) (k : FrequencyKey F) :
    k.frequency val = (k.F_dict.map (fun fn => val fn.1 * (fn.2 : R))).sum := by
  unfold frequency
  have key : ∀ (l : List (F × Int)) (s : R),
      l.foldl (fun F_sum fn => if fn.2 ≠ 0 then F_sum + val fn.1 * (fn.2 : R) else F_sum) s
        = s + (l.map (fun fn => val fn.1 * (fn.2 : R))).sum := by
    intro l
    induction l with
    | nil => intro s; simp
    | cons fn l ih =>
      intro s
      simp only [List.foldl_cons, List.map_cons, List.sum_cons, ih]
      by_cases h : fn.2 = 0
      · simp [h]
      · simp [h, add_assoc]
  simpa using key k.F_dict 0

theorem frequency_eq_finset {R : Type v} [CommRing R] (val : F → R) {k : FrequencyKey F} (hk : k.WF)
    (S : Finset F) (hS : ∀ f ∈ Dict.keys k.F_dict, f ∈ S) :
    k.frequency val = ∑ f ∈ S, val f * (k.coef f : R) := by
  rw [frequency_eq_sum]
  unfold coef
  obtain ⟨d⟩ := k
  simp only at *
  change Dict.WF d at hk
  have h1 : (d.map (fun fn => val fn.1 * (fn.2 : R))).sum
      = ((Dict.keys d).map (fun f => val f * (((Dict.get? d f).getD 0 : Int) : R))).sum := by
    unfold Dict.keys
    rw [List.map_map]
    congr 1
    apply List.map_congr_left
    intro fn hfn
    simp [Dict.get?_of_mem hk (v := fn.2) (k := fn.1) hfn]
  rw [h1, ← List.sum_toFinset _ hk]
  apply Finset.sum_subset
  · intro f hf
    exact hS f (by simpa using hf)
  · intro f _ hf
    have : f ∉ Dict.keys d := by simpa using hf
    rw [(Dict.get?_eq_none_iff _ _).2 this]
    simp

end FrequencyKey

namespace DictKey
variable {K : Type u} {V : Type v} [DecidableEq K] [DecidableEq V]

theorem WF_mk' (d : Dict K V) : (mk' d).WF := Dict.WF_ofList d

theorem view_mk' {d : Dict K V} (hd : Dict.WF d) (k : K) : (mk' d).view k = Dict.get? d k :=
  Dict.get?_ofList_of_WF hd k

theorem kv_contains_iff (a : DictKey K V) (k : K) (v : V) :
    a.kv_contains k v = true ↔ a.view k = some v := by
  unfold kv_contains view
  cases h : Dict.get? a.dict k with
  | none => simp
  | some v2 => simp [eq_comm]

theorem filterLoop (p : K → V → Bool) (d : Dict K V) (hd : Dict.WF d) (k : K) : ∀ acc : Dict K V,
    Dict.get? (d.foldl (fun nd kv => if p kv.1 kv.2 then Dict.set nd kv.1 kv.2 else nd) acc) k =
      ((Dict.get? d k).filter (p k)).or (Dict.get? acc k) := by
  induction d with
  | nil => intro acc; simp
  | cons kv d ih =>
    intro acc
    have hd' : kv.1 ∉ Dict.keys d ∧ Dict.WF d := by simpa [Dict.WF, Dict.keys] using hd
    simp only [List.foldl_cons]
    rw [ih hd'.2, Dict.get?_cons]
    by_cases h : kv.1 = k
    · subst h
      have : Dict.get? d kv.1 = none := (Dict.get?_eq_none_iff _ _).2 hd'.1
      by_cases hp : p kv.1 kv.2 = true
      · simp [this, hp, Option.filter]
      · simp [this, hp, Option.filter]
    · rw [if_neg h]
      split <;> simp [Dict.get?_set, h]

theorem filterLoop_WF (p : K → V → Bool) (d : Dict K V) : ∀ acc : Dict K V, Dict.WF acc →
    Dict.WF (d.foldl (fun nd kv => if p kv.1 kv.2 then Dict.set nd kv.1 kv.2 else nd) acc) := by
  induction d with
  | nil => intro acc h; exact h
  | cons kv d ih =>
    intro acc h
    simp only [List.foldl_cons]
    split
    · exact ih _ (Dict.WF_set h _ _)
    · exact ih _ h

theorem sorted_perm_eq {d e : Dict K V} [LinearOrder K] (hd : Dict.WF d) (h : d.Perm e) :
    d.insertionSort (fun a b => a.1 ≤ b.1) = e.insertionSort (fun a b => a.1 ≤ b.1) := by
  have p1 := List.perm_insertionSort (fun a b : K × V => a.1 ≤ b.1) d
  have p2 := List.perm_insertionSort (fun a b : K × V => a.1 ≤ b.1) e
  have pp := (p1.trans h).trans p2.symm
  have : Std.Total (fun a b : K × V => a.1 ≤ b.1) := ⟨fun a b => le_total a.1 b.1⟩
  have : IsTrans (K × V) (fun a b : K × V => a.1 ≤ b.1) := ⟨fun a b c => le_trans⟩
  refine pp.eq_of_pairwise ?_ (List.pairwise_insertionSort _ _) (List.pairwise_insertionSort _ _)
  intro a b ha hb h1 h2
  have hk : a.1 = b.1 := le_antisymm h1 h2
  have ha' : (a.1, a.2) ∈ d := p1.mem_iff.1 ha
  have hb' : (b.1, b.2) ∈ d := h.mem_iff.2 (p2.mem_iff.1 hb)
  have e1 := Dict.get?_of_mem hd ha'
  have e2 := Dict.get?_of_mem hd hb'
  rw [hk, e2] at e1
  injection e1 with e1
  exact Prod.ext hk e1.symm

theorem delAll_ok_iff (ks : List K) : ∀ (d : Dict K V),
    (∃ r, delAll ks d = .ok r) ↔ ks.Nodup ∧ ∀ k ∈ ks, k ∈ Dict.keys d := by
  induction ks with
  | nil => intro d; simp [delAll]
  | cons k ks ih =>
    intro d
    unfold delAll Dict.del
    by_cases h : Dict.has d k = true
    · rw [if_pos h]
      simp only
      rw [ih]
      have hk := (Dict.has_iff d k).1 h
      rw [Dict.keys_erase]
      simp only [List.mem_filter, List.nodup_cons, List.mem_cons, forall_eq_or_imp, hk, true_and,
        decide_eq_true_eq, ne_eq]
      constructor
      · rintro ⟨h1, h2⟩
        exact ⟨⟨fun hm => (h2 k hm).2 rfl, h1⟩, fun a ha => (h2 a ha).1⟩
      · rintro ⟨⟨h1, h2⟩, h3⟩
        exact ⟨h2, fun a ha => ⟨h3 a ha, fun hh => h1 (hh ▸ ha)⟩⟩
    · rw [if_neg h]
      simp only [reduceCtorEq, exists_false, List.mem_cons, forall_eq_or_imp, false_iff]
      rintro ⟨_, h2, _⟩
      exact h ((Dict.has_iff d k).2 h2)

theorem delAll_view (ks : List K) : ∀ (d r : Dict K V), delAll ks d = .ok r → ∀ j,
    Dict.get? r j = if j ∈ ks then none else Dict.get? d j := by
  induction ks with
  | nil => intro d r h j; simp [delAll] at h; simp [h]
  | cons k ks ih =>
    intro d r h j
    unfold delAll Dict.del at h
    by_cases hk : Dict.has d k = true
    · rw [if_pos hk] at h
      simp only at h
      rw [ih _ _ h, Dict.get?_erase]
      by_cases hj : j = k
      · subst hj; simp
      · simp [hj, Ne.symm hj]
    · rw [if_neg hk] at h
      simp at h

theorem delAll_WF (ks : List K) : ∀ (d r : Dict K V), Dict.WF d → delAll ks d = .ok r → Dict.WF r := by
  induction ks with
  | nil => intro d r hd h; simp [delAll] at h; exact h ▸ hd
  | cons k ks ih =>
    intro d r hd h
    unfold delAll Dict.del at h
    by_cases hk : Dict.has d k = true
    · rw [if_pos hk] at h
      exact ih _ _ (Dict.WF_erase hd _) h
    · rw [if_neg hk] at h
      simp at h

theorem delAll_err (ks : List K) : ∀ (d : Dict K V) (e : Err), delAll ks d = .error e → e = .keyError := by
  induction ks with
  | nil => intro d e h; simp [delAll] at h
  | cons k ks ih =>
    intro d e h
    unfold delAll Dict.del at h
    by_cases hk : Dict.has d k = true
    · rw [if_pos hk] at h
      exact ih _ _ h
    · rw [if_neg hk] at h
      simpa using h.symm

theorem purge_step (cp : Dict K V) (k : K) :
    purgeStep cp k = if k ∈ Dict.keys cp then Dict.erase cp k else cp := by
  unfold purgeStep Dict.del
  by_cases h : Dict.has cp k = true
  · rw [if_pos h, if_pos ((Dict.has_iff _ _).1 h)]
  · rw [if_neg h, if_neg (fun hh => h ((Dict.has_iff _ _).2 hh))]

theorem purge_get? (ks : List K) : ∀ (d : Dict K V) (j : K),
    Dict.get? (ks.foldl purgeStep d) j
      = if j ∈ ks then none else Dict.get? d j := by
  induction ks with
  | nil => intro d j; simp
  | cons k ks ih =>
    intro d j
    simp only [List.foldl_cons]
    rw [ih, purge_step]
    by_cases hj : j = k
    · subst hj
      by_cases hk : j ∈ Dict.keys d
      · simp [hk]
      · simp [hk, (Dict.get?_eq_none_iff _ _).2 hk]
    · by_cases hk : k ∈ Dict.keys d
      · simp [hk, hj, Dict.get?_erase, Ne.symm hj]
      · simp [hk, hj]

theorem purge_WF (ks : List K) : ∀ (d : Dict K V), Dict.WF d →
    Dict.WF (ks.foldl purgeStep d) := by
  induction ks with
  | nil => intro d h; exact h
  | cons k ks ih =>
    intro d h
    simp only [List.foldl_cons]
    refine ih _ ?_
    rw [purge_step]
    split
    · exact Dict.WF_erase h _
    · exact h

theorem subLoop_ok_iff (o : Dict K V) (ho : Dict.WF o) : ∀ (d : Dict K V),
    (∃ r, subLoop o d = .ok r) ↔ ∀ k v, Dict.get? o k = some v → Dict.get? d k = some v := by
  induction o with
  | nil => intro d; simp [subLoop]
  | cons kv o ih =>
    intro d
    obtain ⟨k, v⟩ := kv
    have ho' : k ∉ Dict.keys o ∧ Dict.WF o := by simpa [Dict.WF, Dict.keys] using ho
    have hnone : Dict.get? o k = none := (Dict.get?_eq_none_iff _ _).2 ho'.1
    unfold subLoop
    constructor
    · rintro ⟨r, hr⟩ j w hj
      cases hd : Dict.get? d k with
      | none => rw [hd] at hr; simp at hr
      | some v' =>
        rw [hd] at hr
        simp only at hr
        by_cases hv : v' = v
        · rw [if_pos hv] at hr
          have := (ih ho'.2 _).1 ⟨r, hr⟩
          rw [Dict.get?_cons] at hj
          by_cases hkj : k = j
          · subst hkj
            simp only [if_true] at hj
            rw [hd, hv, hj]
          · simp only [if_neg hkj] at hj
            have := this j w hj
            rwa [Dict.get?_erase, if_neg hkj] at this
        · rw [if_neg hv] at hr
          simp at hr
    · intro h
      have hd : Dict.get? d k = some v := h k v (by simp [Dict.get?_cons])
      rw [hd]
      simp only [if_true]
      rw [ih ho'.2]
      intro j w hj
      have hkj : k ≠ j := by
        rintro rfl
        rw [hnone] at hj
        simp at hj
      rw [Dict.get?_erase, if_neg hkj]
      exact h j w (by rw [Dict.get?_cons, if_neg hkj]; exact hj)

theorem subLoop_get? (o : Dict K V) : ∀ (d r : Dict K V), subLoop o d = .ok r → ∀ j,
    Dict.get? r j = if j ∈ Dict.keys o then none else Dict.get? d j := by
  induction o with
  | nil => intro d r h j; simp [subLoop] at h; simp [h, Dict.keys]
  | cons kv o ih =>
    intro d r h j
    obtain ⟨k, v⟩ := kv
    unfold subLoop at h
    cases hd : Dict.get? d k with
    | none => rw [hd] at h; simp at h
    | some v' =>
      rw [hd] at h
      simp only at h
      by_cases hv : v' = v
      · rw [if_pos hv] at h
        rw [ih _ _ h, Dict.get?_erase]
        by_cases hj : j = k
        · subst hj; simp only [Dict.keys, List.map_cons, List.mem_cons, true_or, if_true, ite_self]
        · simp only [Dict.keys, List.map_cons, List.mem_cons, hj, false_or, Ne.symm hj, if_false]
      · rw [if_neg hv] at h
        simp at h

theorem subLoop_WF (o : Dict K V) : ∀ (d r : Dict K V), Dict.WF d → subLoop o d = .ok r → Dict.WF r := by
  induction o with
  | nil => intro d r hd h; simp [subLoop] at h; exact h ▸ hd
  | cons kv o ih =>
    intro d r hd h
    obtain ⟨k, v⟩ := kv
    unfold subLoop at h
    cases hk : Dict.get? d k with
    | none => rw [hk] at h; simp at h
    | some v' =>
      rw [hk] at h
      simp only at h
      by_cases hv : v' = v
      · rw [if_pos hv] at h
        exact ih _ _ (Dict.WF_erase hd _) h
      · rw [if_neg hv] at h
        simp at h

theorem foldl_update_get? (ds : List (Dict K V)) (hds : ∀ d ∈ ds, Dict.WF d) : ∀ (acc : Dict K V) (k : K),
    Dict.get? (ds.foldl (fun cp kd => kd.foldl (fun cp kv => Dict.set cp kv.1 kv.2) cp) acc) k
      = ((ds.reverse.findSome? (fun d => Dict.get? d k))).or (Dict.get? acc k) := by
  induction ds with
  | nil => intro acc k; simp
  | cons d ds ih =>
    intro acc k
    have h1 := hds d (by simp)
    simp only [List.foldl_cons, List.reverse_cons]
    rw [ih (fun d hd => hds d (List.mem_cons_of_mem _ hd))]
    have := Dict.get?_update_of_WF acc h1 k
    unfold Dict.update at this
    rw [this, List.findSome?_append]
    cases List.findSome? (fun d => Dict.get? d k) ds.reverse <;> simp

theorem foldl_update_WF (ds : List (Dict K V)) : ∀ (acc : Dict K V), Dict.WF acc →
    Dict.WF (ds.foldl (fun cp kd => kd.foldl (fun cp kv => Dict.set cp kv.1 kv.2) cp) acc) := by
  induction ds with
  | nil => intro acc h; exact h
  | cons d ds ih => intro acc h; exact ih _ (Dict.WF_update h d)

end DictKey
end Keys
