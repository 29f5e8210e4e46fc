import Verif.Keys.Lemmas
import Mathlib.Algebra.BigOperators.Ring.Finset

/-!
# Properties of keys: C01 – C07
-/

universe u v

namespace Keys
open Py

section FrequencyKeys
variable {F : Type u} [DecidableEq F]

/-- Concrete keys used by the non-vacuity examples: `+a-2b`, `+2b`, over frequencies `0,1`. -/
def exA : FrequencyKey Nat := ⟨[(0, 1), (1, -2)]⟩
def exB : FrequencyKey Nat := ⟨[(1, 2)]⟩

/-- **C01** (closure): every history of `+`, `-`, unary minus and nonzero multiples of zero-free keys
gives a dictionary without zero entries that denotes the intended combination. -/
theorem C01_closed (e : Expr F) (h : e.Clean) :
    e.eval.WF ∧ e.eval.ZeroFree ∧ ∀ f, e.eval.coef f = e.meaning f := by
  induction e with
  | lit k => exact ⟨h.1, h.2, fun _ => rfl⟩
  | add a b iha ihb =>
    obtain ⟨wa, za, ca⟩ := iha h.1
    obtain ⟨wb, zb, cb⟩ := ihb h.2
    exact ⟨FrequencyKey.WF_add wa _, FrequencyKey.zeroFree_add wa wb za zb,
      fun f => by simp only [Expr.eval, Expr.meaning, FrequencyKey.coef_add _ wb, ca, cb]⟩
  | sub a b iha ihb =>
    obtain ⟨wa, za, ca⟩ := iha h.1
    obtain ⟨wb, zb, cb⟩ := ihb h.2
    exact ⟨FrequencyKey.WF_sub wa _, FrequencyKey.zeroFree_sub wa wb za zb,
      fun f => by simp only [Expr.eval, Expr.meaning, FrequencyKey.coef_sub _ wb, ca, cb]⟩
  | neg a iha =>
    obtain ⟨wa, za, ca⟩ := iha h
    exact ⟨FrequencyKey.WF_neg _, FrequencyKey.zeroFree_neg wa za,
      fun f => by simp only [Expr.eval, Expr.meaning, FrequencyKey.coef_neg wa, ca]⟩
  | smul n a iha =>
    obtain ⟨wa, za, ca⟩ := iha h.2
    exact ⟨FrequencyKey.WF_rmul _ _, FrequencyKey.zeroFree_rmul h.1 wa za,
      fun f => by simp only [Expr.eval, Expr.meaning, FrequencyKey.coef_rmul _ wa, ca]⟩

/-- **C03**, the part that holds: among keys computed from zero-free keys by `+`, `-`, unary minus and
nonzero multiples, `==` decides equality of the combinations and `DC_is` recognises the zero one.
Missing from the full property: multiplication by `0` and literals with zero entries, for which it is
false (`C03_refuted_eq`, `C03_refuted_DC`). -/
theorem C03_partial (a b : Expr F) (ha : a.Clean) (hb : b.Clean) :
    (a.eval.eq b.eval = true ↔ a.meaning = b.meaning) ∧
    (a.eval.DC_is = true ↔ ∀ f, a.meaning f = 0) := by
  obtain ⟨wa, za, ca⟩ := C01_closed a ha
  obtain ⟨wb, zb, cb⟩ := C01_closed b hb
  constructor
  · rw [FrequencyKey.eq_iff_coef wa wb za zb]
    simp only [ca, cb, funext_iff]
  · unfold FrequencyKey.DC_is
    rw [List.isEmpty_iff]
    constructor
    · intro h f
      rw [← ca, FrequencyKey.coef, h]; rfl
    · intro h
      rw [List.eq_nil_iff_forall_not_mem]
      rintro ⟨f, n⟩ hfn
      have hz := za _ hfn
      have := Dict.get?_of_mem wa hfn
      have h2 := h f
      rw [← ca, FrequencyKey.coef, this] at h2
      exact hz h2

example : (Expr.add (.lit exA) (.lit exB)).Clean ∧ (Expr.neg (.smul 2 (.lit exB))).Clean := by
  refine ⟨⟨⟨?_, ?_⟩, ⟨?_, ?_⟩⟩, ⟨by decide, ?_, ?_⟩⟩ <;>
  first
    | (unfold FrequencyKey.WF Dict.WF; decide)
    | decide

/-- **C03** is false of the code: `0*k` and `k-k` are both the zero combination of the same clean key,
yet they compare different. -/
theorem C03_refuted_eq : ∃ k : FrequencyKey Nat, k.WF ∧ k.ZeroFree ∧
    (Expr.smul 0 (.lit k)).meaning = (Expr.sub (.lit k) (.lit k)).meaning ∧
    (Expr.smul 0 (.lit k)).eval.eq (Expr.sub (.lit k) (.lit k)).eval = false := by
  refine ⟨exB, ?_, by decide, ?_, by decide⟩
  · unfold FrequencyKey.WF Dict.WF; decide
  · funext f
    simp [Expr.meaning]

/-- **C03** is false of the code: `0*k` is the zero combination but `DC_is` denies it. -/
theorem C03_refuted_DC : ∃ k : FrequencyKey Nat, k.WF ∧ k.ZeroFree ∧
    (∀ f, (Expr.smul 0 (.lit k)).meaning f = 0) ∧ (Expr.smul 0 (.lit k)).eval.DC_is = false := by
  refine ⟨exB, ?_, by decide, ?_, by decide⟩
  · unfold FrequencyKey.WF Dict.WF; decide
  · intro f; simp [Expr.meaning]

section GroupLaws
variable (a b c : FrequencyKey F)
  (wa : a.WF) (wb : b.WF) (wc : c.WF) (za : a.ZeroFree) (zb : b.ZeroFree) (zc : c.ZeroFree)
include wa wb za zb

/-- **C01**: addition is commutative. -/
theorem C01_add_comm : (a.add b).eq (b.add a) = true :=
  (C03_partial (.add (.lit a) (.lit b)) (.add (.lit b) (.lit a)) ⟨⟨wa, za⟩, wb, zb⟩ ⟨⟨wb, zb⟩, wa, za⟩).1.2
    (by funext f; simp only [Expr.meaning]; omega)

include wc zc in
/-- **C01**: addition is associative. -/
theorem C01_add_assoc : ((a.add b).add c).eq (a.add (b.add c)) = true :=
  (C03_partial (.add (.add (.lit a) (.lit b)) (.lit c)) (.add (.lit a) (.add (.lit b) (.lit c)))
    ⟨⟨⟨wa, za⟩, wb, zb⟩, wc, zc⟩ ⟨⟨wa, za⟩, ⟨wb, zb⟩, wc, zc⟩).1.2
    (by funext f; simp only [Expr.meaning]; omega)

/-- **C01**: subtraction undoes addition. -/
theorem C01_add_sub : ((a.add b).sub b).eq a = true :=
  (C03_partial (.sub (.add (.lit a) (.lit b)) (.lit b)) (.lit a)
    ⟨⟨⟨wa, za⟩, wb, zb⟩, wb, zb⟩ ⟨wa, za⟩).1.2
    (by funext f; simp only [Expr.meaning]; omega)

/-- **C01**: subtraction is addition of the negative. -/
theorem C01_sub_eq_add_neg : (a.sub b).eq (a.add b.neg) = true :=
  (C03_partial (.sub (.lit a) (.lit b)) (.add (.lit a) (.neg (.lit b)))
    ⟨⟨wa, za⟩, wb, zb⟩ ⟨⟨wa, za⟩, wb, zb⟩).1.2
    (by funext f; simp only [Expr.meaning]; omega)

omit wb zb in
/-- **C01**: DC (the empty combination) is neutral. -/
theorem C01_add_DC : (a.add ⟨[]⟩).eq a = true ∧ ((⟨[]⟩ : FrequencyKey F).add a).eq a = true := by
  have wd : (⟨[]⟩ : FrequencyKey F).WF := Dict.WF_nil
  have zd : (⟨[]⟩ : FrequencyKey F).ZeroFree := by intro fn h; simp at h
  exact ⟨(C03_partial (.add (.lit a) (.lit ⟨[]⟩)) (.lit a) ⟨⟨wa, za⟩, wd, zd⟩ ⟨wa, za⟩).1.2
      (by funext f; simp [Expr.meaning, FrequencyKey.coef]),
    (C03_partial (.add (.lit ⟨[]⟩) (.lit a)) (.lit a) ⟨⟨wd, zd⟩, wa, za⟩ ⟨wa, za⟩).1.2
      (by funext f; simp [Expr.meaning, FrequencyKey.coef])⟩

omit wb zb in
/-- **C01**: a key plus its negative, and a key minus itself, are DC and are recognised as such. -/
theorem C01_add_neg : (a.add a.neg).DC_is = true ∧ (a.sub a).DC_is = true :=
  ⟨(C03_partial (.add (.lit a) (.neg (.lit a))) (.lit a) ⟨⟨wa, za⟩, wa, za⟩ ⟨wa, za⟩).2.2
      (by intro f; simp only [Expr.meaning]; omega),
    (C03_partial (.sub (.lit a) (.lit a)) (.lit a) ⟨⟨wa, za⟩, wa, za⟩ ⟨wa, za⟩).2.2
      (by intro f; simp only [Expr.meaning]; omega)⟩

end GroupLaws

/-- The hypotheses of the group laws are met by two keys that overlap and cancel. -/
example : exA.WF ∧ exB.WF ∧ exA.ZeroFree ∧ exB.ZeroFree ∧ (exA.add exB).F_dict = [(0, 1)] :=
  ⟨by unfold FrequencyKey.WF Dict.WF; decide, by unfold FrequencyKey.WF Dict.WF; decide,
    by decide, by decide, by decide⟩

/-- **C02**: whatever history of operations (zero factors and zero entries included) produced a key, its
`frequency()` is the sum of frequencies weighted by the multiplicities of the intended combination. -/
theorem C02_frequency {R : Type v} [CommRing R] (val : F → R) (e : Expr F) (h : e.LitsWF)
    (S : Finset F) (hS : ∀ f, f ∉ S → e.meaning f = 0) :
    e.eval.frequency val = ∑ f ∈ S, val f * (e.meaning f : R) := by
  have key : e.eval.WF ∧ ∀ f, e.eval.coef f = e.meaning f := by
    clear hS
    induction e with
    | lit k => exact ⟨h, fun _ => rfl⟩
    | add a b iha ihb =>
      exact ⟨FrequencyKey.WF_add (iha h.1).1 _, fun f => by
        simp only [Expr.eval, Expr.meaning, FrequencyKey.coef_add _ (ihb h.2).1, (iha h.1).2, (ihb h.2).2]⟩
    | sub a b iha ihb =>
      exact ⟨FrequencyKey.WF_sub (iha h.1).1 _, fun f => by
        simp only [Expr.eval, Expr.meaning, FrequencyKey.coef_sub _ (ihb h.2).1, (iha h.1).2, (ihb h.2).2]⟩
    | neg a iha =>
      exact ⟨FrequencyKey.WF_neg _, fun f => by
        simp only [Expr.eval, Expr.meaning, FrequencyKey.coef_neg (iha h).1, (iha h).2]⟩
    | smul n a iha =>
      exact ⟨FrequencyKey.WF_rmul _ _, fun f => by
        simp only [Expr.eval, Expr.meaning, FrequencyKey.coef_rmul _ (iha h).1, (iha h).2]⟩
  rw [FrequencyKey.frequency_eq_finset val key.1 (S ∪ (Dict.keys e.eval.F_dict).toFinset)
    (fun f hf => Finset.mem_union_right _ (by simpa using hf))]
  symm
  simp only [key.2]
  refine Finset.sum_subset Finset.subset_union_left ?_
  intro f _ hf
  simp [hS f hf]

/-- **C02**, as laws of the four operations. -/
theorem C02_laws {R : Type v} [CommRing R] (val : F → R) (a b : FrequencyKey F) (wa : a.WF) (wb : b.WF) (n : Int) :
    (a.add b).frequency val = a.frequency val + b.frequency val ∧
    (a.sub b).frequency val = a.frequency val - b.frequency val ∧
    a.neg.frequency val = - a.frequency val ∧
    (FrequencyKey.rmul n a).frequency val = (n : R) * a.frequency val := by
  classical
  let S := (Dict.keys a.F_dict).toFinset ∪ (Dict.keys b.F_dict).toFinset
  have ha0 : ∀ f, f ∉ S → a.coef f = 0 := by
    intro f hf
    have : f ∉ Dict.keys a.F_dict := fun h => hf (Finset.mem_union_left _ (by simpa using h))
    rw [FrequencyKey.coef, (Dict.get?_eq_none_iff _ _).2 this]; rfl
  have hb0 : ∀ f, f ∉ S → b.coef f = 0 := by
    intro f hf
    have : f ∉ Dict.keys b.F_dict := fun h => hf (Finset.mem_union_right _ (by simpa using h))
    rw [FrequencyKey.coef, (Dict.get?_eq_none_iff _ _).2 this]; rfl
  have e1 := C02_frequency val (.lit a) wa S ha0
  have e2 := C02_frequency val (.lit b) wb S hb0
  have e3 := C02_frequency val (.add (.lit a) (.lit b)) ⟨wa, wb⟩ S (fun f hf => by simp [Expr.meaning, ha0 f hf, hb0 f hf])
  have e4 := C02_frequency val (.sub (.lit a) (.lit b)) ⟨wa, wb⟩ S (fun f hf => by simp [Expr.meaning, ha0 f hf, hb0 f hf])
  have e5 := C02_frequency val (.neg (.lit a)) wa S (fun f hf => by simp [Expr.meaning, ha0 f hf])
  have e6 := C02_frequency val (.smul n (.lit a)) wa S (fun f hf => by simp [Expr.meaning, ha0 f hf])
  simp only [Expr.eval, Expr.meaning] at e1 e2 e3 e4 e5 e6
  rw [e1, e2, e3, e4, e5, e6]
  refine ⟨?_, ?_, ?_, ?_⟩
  · rw [← Finset.sum_add_distrib]; exact Finset.sum_congr rfl (fun f _ => by push_cast; ring)
  · rw [← Finset.sum_sub_distrib]; exact Finset.sum_congr rfl (fun f _ => by push_cast; ring)
  · rw [← Finset.sum_neg_distrib]; exact Finset.sum_congr rfl (fun f _ => by push_cast; ring)
  · rw [Finset.mul_sum]; exact Finset.sum_congr rfl (fun f _ => by push_cast; ring)

example : (exA.add exB).frequency (fun f : Nat => (f : Int) + 10) = 10 := by decide

/-- **C04** for frequency keys: equal keys have equal hashes, whatever the insertion orders. -/
theorem C04_frequencyKey [LinearOrder F] (h : List (F × Int) → Int) (a b : FrequencyKey F)
    (wa : a.WF) (wb : b.WF) (e : a.eq b = true) : a.hash h = b.hash h := by
  unfold FrequencyKey.hash FrequencyKey.hash_tuple
  congr 1
  have hp := Dict.ext_perm wa wb ((Dict.beq_iff wa wb).1 e)
  refine DictKey.sorted_perm_eq ?_ (hp.filter _)
  unfold FrequencyKey.WF Dict.WF Dict.keys at *
  exact (wa.sublist (List.filter_sublist.map _))

end FrequencyKeys

section DictKeys
variable {K : Type u} {V : Type v} [DecidableEq K] [DecidableEq V]

def exK1 : DictKey Nat Nat := ⟨[(0, 5), (1, 6)]⟩
def exK2 : DictKey Nat Nat := ⟨[(1, 6), (0, 5)]⟩
def exK3 : DictKey Nat Nat := ⟨[(1, 6)]⟩
def exK4 : DictKey Nat Nat := ⟨[(1, 7), (2, 0), (3, 3)]⟩

/-- `==` on dictionary keys is equality of partial maps. -/
theorem C04_eq_iff (a b : DictKey K V) (wa : a.WF) (wb : b.WF) :
    a.eq b = true ↔ ∀ k, a.view k = b.view k := Dict.beq_iff wa wb

/-- **C04** for dictionary keys: equal keys have the same hash tuple, hence the same hash. -/
theorem C04_dictKey [LinearOrder K] (h : List (K × V) → Int) (a b : DictKey K V)
    (wa : a.WF) (wb : b.WF) (e : a.eq b = true) : h a.hash_tuple = h b.hash_tuple := by
  unfold DictKey.hash_tuple
  congr 1
  exact DictKey.sorted_perm_eq wa (Dict.ext_perm wa wb ((Dict.beq_iff wa wb).1 e))

/-- Conversely the hash tuple determines the key: only the tuple hash itself can collide. -/
theorem C04_dictKey_tuple_inj [LinearOrder K] (a b : DictKey K V) (wa : a.WF) (wb : b.WF)
    (e : a.hash_tuple = b.hash_tuple) : a.eq b = true := by
  rw [C04_eq_iff a b wa wb]
  intro k
  have p1 := List.perm_insertionSort (fun a b : K × V => a.1 ≤ b.1) a.dict
  have p2 := List.perm_insertionSort (fun a b : K × V => a.1 ≤ b.1) b.dict
  unfold DictKey.hash_tuple at e
  have pp : a.dict.Perm b.dict := p1.symm.trans (e ▸ p2)
  unfold DictKey.view
  have key : ∀ v, Dict.get? a.dict k = some v ↔ Dict.get? b.dict k = some v := by
    intro v
    rw [← Dict.mem_iff_get? wa, ← Dict.mem_iff_get? wb, pp.mem_iff]
  exact Option.ext key

example : exK1.WF ∧ exK2.WF ∧ exK1.eq exK2 = true ∧ exK1.dict ≠ exK2.dict ∧
    exK1.hash_tuple = exK2.hash_tuple :=
  ⟨by unfold DictKey.WF Dict.WF; decide, by unfold DictKey.WF Dict.WF; decide, by decide, by decide, by decide⟩

/-- **C05**: the union takes the right operand's value where it has one. -/
theorem C05_or (a b : DictKey K V) (wa : a.WF) (wb : b.WF) (k : K) :
    (a.or b).view k = (b.view k).or (a.view k) := by
  unfold DictKey.or
  rw [DictKey.view_mk' (Dict.WF_update wa _), Dict.get?_update_of_WF _ wb]
  rfl

/-- **C05**: the intersection holds exactly the pairs in both, whichever operand is smaller. -/
theorem C05_and (a b : DictKey K V) (wa : a.WF) (wb : b.WF) (k : K) (v : V) :
    (a.and b).view k = some v ↔ a.view k = some v ∧ b.view k = some v := by
  have key : ∀ (s l : DictKey K V), s.WF →
      ((DictKey.mk' (s.dict.foldl
        (fun nd kv => if l.kv_contains kv.1 kv.2 then Dict.set nd kv.1 kv.2 else nd) [])).view k = some v
        ↔ s.view k = some v ∧ l.view k = some v) := by
    intro s l ws
    rw [DictKey.view_mk' (DictKey.filterLoop_WF _ _ _ Dict.WF_nil), DictKey.filterLoop _ _ ws]
    simp only [Dict.get?_nil, Option.or_none, Option.filter_eq_some_iff, DictKey.kv_contains_iff]
    rfl
  unfold DictKey.and
  dsimp only
  split
  · rw [key b a wb, and_comm]
  · rw [key a b wa]

/-- **C05**: `contains` is inclusion of pairs. -/
theorem C05_contains (a b : DictKey K V) (wb : b.WF) :
    a.contains b = true ↔ ∀ k v, b.view k = some v → a.view k = some v := by
  unfold DictKey.contains
  rw [List.all_eq_true]
  constructor
  · intro h k v hb
    exact (DictKey.kv_contains_iff a k v).1 (h (k, v) (Dict.mem_of_get? hb))
  · rintro h ⟨k, v⟩ hkv
    exact (DictKey.kv_contains_iff a k v).2 (h k v (Dict.get?_of_mem wb hkv))

/-- `subkey_has` and `contains` are the same test. -/
theorem C05_subkey_has (a b : DictKey K V) : a.subkey_has b = a.contains b := by
  unfold DictKey.subkey_has DictKey.contains DictKey.kv_contains
  rfl

/-- **C05**: containment is a partial order up to `==`, the union contains its right operand, both
operands contain the intersection, which is the largest such key, and the intersection commutes. -/
theorem C05_order (a b c : DictKey K V) (wa : a.WF) (wb : b.WF) (wc : c.WF) :
    a.contains a = true ∧
    (a.contains b = true → b.contains c = true → a.contains c = true) ∧
    ((a.contains b = true ∧ b.contains a = true) ↔ a.eq b = true) ∧
    (a.or b).contains b = true ∧
    a.contains (a.and b) = true ∧ b.contains (a.and b) = true ∧
    (a.contains c = true → b.contains c = true → (a.and b).contains c = true) ∧
    (a.and b).eq (b.and a) = true ∧
    ((a.or b).contains a = true ↔ ∀ k v w, a.view k = some v → b.view k = some w → v = w) := by
  have wand : (a.and b).WF := DictKey.WF_mk' _
  have wand' : (b.and a).WF := DictKey.WF_mk' _
  refine ⟨?_, ?_, ?_, ?_, ?_, ?_, ?_, ?_, ?_⟩
  · rw [C05_contains a a wa]; exact fun _ _ h => h
  · rw [C05_contains a b wb, C05_contains b c wc, C05_contains a c wc]
    exact fun h1 h2 k v h => h1 k v (h2 k v h)
  · rw [C05_contains a b wb, C05_contains b a wa, C04_eq_iff a b wa wb]
    constructor
    · rintro ⟨h1, h2⟩ k
      exact Option.ext (fun v => ⟨h2 k v, h1 k v⟩)
    · intro h
      exact ⟨fun k v hb => by rw [h]; exact hb, fun k v ha => by rw [← h]; exact ha⟩
  · rw [C05_contains _ b wb]
    intro k v h
    rw [C05_or a b wa wb, h]; rfl
  · rw [C05_contains a _ wand]
    exact fun k v h => ((C05_and a b wa wb k v).1 h).1
  · rw [C05_contains b _ wand]
    exact fun k v h => ((C05_and a b wa wb k v).1 h).2
  · rw [C05_contains a c wc, C05_contains b c wc, C05_contains _ c wc]
    exact fun h1 h2 k v h => (C05_and a b wa wb k v).2 ⟨h1 k v h, h2 k v h⟩
  · rw [C04_eq_iff _ _ wand wand']
    intro k
    refine Option.ext (fun v => ?_)
    rw [C05_and a b wa wb, C05_and b a wb wa, and_comm]
  · rw [C05_contains _ a wa]
    constructor
    · intro h k v w hv hw
      have := h k v hv
      rw [C05_or a b wa wb, hw] at this
      simpa using this.symm
    · intro h k v hv
      rw [C05_or a b wa wb, hv]
      cases hw : b.view k with
      | none => rfl
      | some w => simp [h k v w hv hw]

example : exK1.WF ∧ exK4.WF ∧ (exK1.and exK4).dict = [] ∧ (exK1.and exK3).dict = [(1, 6)] ∧
    exK1.contains exK3 = true ∧ exK3.contains exK1 = false ∧ exK1.contains exK4 = false :=
  ⟨by unfold DictKey.WF Dict.WF; decide, by unfold DictKey.WF Dict.WF; decide,
    by decide, by decide, by decide, by decide, by decide⟩

/-- **C06**: `a - b` succeeds exactly when `a` contains `b`. -/
theorem C06_sub_ok (a b : DictKey K V) (wb : b.WF) :
    (∃ r, a.sub b = .ok r) ↔ a.contains b = true := by
  rw [C05_contains a b wb]
  unfold DictKey.view
  rw [← DictKey.subLoop_ok_iff b.dict wb a.dict]
  unfold DictKey.sub
  constructor
  · rintro ⟨r, hr⟩
    cases h : DictKey.subLoop b.dict a.dict with
    | ok d => exact ⟨d, rfl⟩
    | error e => rw [h] at hr; simp at hr
  · rintro ⟨d, hd⟩
    exact ⟨_, by rw [hd]⟩

/-- **C06**: when it succeeds it removes exactly `b`'s fields, and joining `b` back restores `a`. -/
theorem C06_sub_spec (a b r : DictKey K V) (wa : a.WF) (wb : b.WF) (h : a.sub b = .ok r) :
    r.WF ∧ (∀ k, r.view k = if (b.view k).isSome then none else a.view k) ∧ (r.or b).eq a = true := by
  have hc := (C05_contains a b wb).1 ((C06_sub_ok a b wb).1 ⟨r, h⟩)
  unfold DictKey.sub at h
  cases hd : DictKey.subLoop b.dict a.dict with
  | error e => rw [hd] at h; simp at h
  | ok d =>
    rw [hd] at h
    simp only [Except.ok.injEq] at h
    have wd := DictKey.subLoop_WF _ _ _ wa hd
    have hview : ∀ k, r.view k = if (b.view k).isSome then none else a.view k := by
      intro k
      rw [← h, DictKey.view_mk' wd, DictKey.subLoop_get? _ _ _ hd k]
      unfold DictKey.view
      by_cases hk : k ∈ Dict.keys b.dict
      · rw [if_pos hk, if_pos ((Dict.mem_keys_iff _ _).1 hk)]
      · rw [if_neg hk, if_neg (fun hh => hk ((Dict.mem_keys_iff _ _).2 hh))]
    have wr : r.WF := h ▸ DictKey.WF_mk' _
    refine ⟨wr, hview, ?_⟩
    rw [C04_eq_iff (r.or b) a (DictKey.WF_mk' _) wa]
    intro k
    rw [C05_or r b wr wb, hview]
    cases hb : b.view k with
    | none => simp
    | some v => simp [hc k v hb]

/-- **C06**: `without_keys` succeeds exactly when the names are present and listed once; otherwise it
raises `KeyError`. -/
theorem C06_without_keys (a : DictKey K V) (wa : a.WF) (ks : List K) :
    (∀ r, a.without_keys ks = .ok r → r.WF ∧ ∀ k, r.view k = if k ∈ ks then none else a.view k) ∧
    ((∃ r, a.without_keys ks = .ok r) ↔ ks.Nodup ∧ ∀ k ∈ ks, (a.view k).isSome) ∧
    (∀ e, a.without_keys ks = .error e → e = .keyError) := by
  unfold DictKey.without_keys
  refine ⟨?_, ?_, ?_⟩
  · intro r h
    cases hd : DictKey.delAll ks a.dict with
    | error e => rw [hd] at h; simp at h
    | ok d =>
      rw [hd] at h
      simp only [Except.ok.injEq] at h
      subst h
      refine ⟨DictKey.WF_mk' _, fun k => ?_⟩
      rw [DictKey.view_mk' (DictKey.delAll_WF _ _ _ wa hd), DictKey.delAll_view _ _ _ hd]
      rfl
  · have := DictKey.delAll_ok_iff ks a.dict
    simp only [Dict.mem_keys_iff] at this
    unfold DictKey.view
    rw [← this]
    cases hd : DictKey.delAll ks a.dict <;> simp
  · intro e h
    cases hd : DictKey.delAll ks a.dict with
    | error e' =>
      rw [hd] at h
      simp only [Except.error.injEq] at h
      exact h ▸ DictKey.delAll_err _ _ _ hd
    | ok d => rw [hd] at h; simp at h

/-- **C06**: `purge_keys` never fails and removes exactly the named fields. -/
theorem C06_purge_keys (a : DictKey K V) (wa : a.WF) (ks : List K) (k : K) :
    (a.purge_keys ks).view k = if k ∈ ks then none else a.view k := by
  unfold DictKey.purge_keys
  rw [DictKey.view_mk' (DictKey.purge_WF _ _ wa), DictKey.purge_get?]
  rfl

/-- **C06**: `replace_keys` gives each field its value in the last listed dictionary that has it, and
keeps the others. -/
theorem C06_replace_keys (a : DictKey K V) (wa : a.WF) (d : Dict K V) (ds : List (Dict K V))
    (wd : ∀ e ∈ d :: ds, Dict.WF e) (k : K) :
    (a.replace_keys d ds).view k =
      ((d :: ds).reverse.findSome? (fun e => Dict.get? e k)).or (a.view k) := by
  unfold DictKey.replace_keys
  have := DictKey.foldl_update_get? (d :: ds) wd a.dict k
  simp only [List.foldl_cons] at this
  rw [DictKey.view_mk', this]
  · rfl
  · have := DictKey.foldl_update_WF (d :: ds) a.dict wa
    simpa using this

example : exK1.WF ∧ exK3.WF ∧ (exK1.sub exK3).toOption = some ⟨[(0, 5)]⟩ ∧
    (exK1.sub exK4) = .error .assertion ∧ (exK3.sub exK1) = .error .keyError ∧
    exK1.without_keys [0, 0] = .error .keyError ∧
    (exK1.replace_keys [(0, 1)] [[(0, 2), (7, 7)], [(7, 8)]]).dict = [(0, 2), (1, 6), (7, 8)] :=
  ⟨by unfold DictKey.WF Dict.WF; decide, by unfold DictKey.WF Dict.WF; decide,
    by decide, by decide, by decide, by decide, by decide⟩

/-- **C07** is false of the code: `<` is False for every pair of keys, so no two distinct keys are
ordered. -/
theorem C07_refuted [LinearOrder K] (ltItem : K × V → K × V → Bool) (a b : DictKey K V) :
    DictKey.lt ltItem a b = false := by
  have key : ∀ l : List (K × V), DictKey.tupleLt ltItem l l = false := by
    intro l
    induction l with
    | nil => rfl
    | cons x l ih => simp [DictKey.tupleLt, ih]
  exact key _

/-- Two different keys, ordered in neither direction (the totality of C07 fails). -/
theorem C07_refuted_total : ∃ a b : DictKey Nat Nat, a.WF ∧ b.WF ∧ a.eq b = false ∧
    ∀ ltItem, DictKey.lt ltItem a b = false ∧ DictKey.lt ltItem b a = false :=
  ⟨exK1, exK3, by unfold DictKey.WF Dict.WF; decide, by unfold DictKey.WF Dict.WF; decide,
    by decide, fun _ => ⟨C07_refuted _ _ _, C07_refuted _ _ _⟩⟩

/-- What remains of **C07**: the comparison is irreflexive and transitive (it is the empty relation).
Missing: totality, which is false. -/
theorem C07_partial [LinearOrder K] (ltItem : K × V → K × V → Bool) (a b c : DictKey K V) :
    DictKey.lt ltItem a a = false ∧
    (DictKey.lt ltItem a b = true → DictKey.lt ltItem b c = true → DictKey.lt ltItem a c = true) :=
  ⟨C07_refuted _ _ _, fun h => by rw [C07_refuted] at h; simp at h⟩

end DictKeys
end Keys
