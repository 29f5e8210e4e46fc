/-!
# Python dictionaries and sets

Association lists standing for python `dict` objects (insertion ordered, CPython ≥ 3.7) and duplicate
free lists standing for python `set` objects.  A set's iteration order is arbitrary in python; the list
order stands for whichever order the interpreter uses, theorems quantify over all lists.
-/

set_option linter.unusedSectionVars false

universe u v

namespace Py

/-- The python exceptions that the modelled code can raise. -/
inductive Err
  | keyError
  | assertion
  | zeroDivision
  | empty          -- queue.Empty
  | runtime        -- RuntimeError
  | typeError
  | attributeError
  | indexError
  | valueError
  | notImplemented
  | unboundLocal   -- UnboundLocalError
  deriving DecidableEq, Repr

/-- A python `dict`, as the list of its items in insertion order. -/
abbrev Dict (K : Type u) (V : Type v) := List (K × V)

namespace Dict
variable {K : Type u} {V : Type v} [DecidableEq K]

/-- `d.get(k)`. -/
def get? : Dict K V → K → Option V
  | [], _ => none
  | (k', v) :: d, k => if k' = k then some v else get? d k

/-- `d[k] = v`: overwrites in place, or appends. -/
def set : Dict K V → K → V → Dict K V
  | [], k, v => [(k, v)]
  | (k', v') :: d, k, v => if k' = k then (k', v) :: d else (k', v') :: set d k v

/-- removal of a key (no effect when absent; the raising form is `del`). -/
def erase : Dict K V → K → Dict K V
  | [], _ => []
  | (k', v') :: d, k => if k' = k then erase d k else (k', v') :: erase d k

/-- `k in d`. -/
def has (d : Dict K V) (k : K) : Bool := (get? d k).isSome

/-- `d[k]`. -/
def get (d : Dict K V) (k : K) : Except Err V :=
  match get? d k with
  | some v => .ok v
  | none => .error .keyError

/-- `del d[k]`. -/
def del (d : Dict K V) (k : K) : Except Err (Dict K V) :=
  if has d k then .ok (erase d k) else .error .keyError

/-- `d.keys()`. -/
def keys (d : Dict K V) : List K := d.map Prod.fst

/-- `d.update(e)`: the items of `e` written in order. -/
def update (d e : Dict K V) : Dict K V := e.foldl (fun acc kv => set acc kv.1 kv.2) d

/-- No repeated key: the invariant every python dictionary satisfies. -/
def WF (d : Dict K V) : Prop := (keys d).Nodup

instance (d : Dict K V) : Decidable (WF d) := inferInstanceAs (Decidable (keys d).Nodup)

/-- `dict(items)`. -/
def ofList (l : List (K × V)) : Dict K V := update [] l

/-- `d == e`: same keys, same values, whatever the order. -/
def beq [DecidableEq V] (d e : Dict K V) : Bool :=
  d.length == e.length && d.all (fun kv => decide (get? e kv.1 = some kv.2))

@[simp] theorem get?_nil (k : K) : get? ([] : Dict K V) k = none := rfl

theorem get?_cons (kv : K × V) (d : Dict K V) (k : K) :
    get? (kv :: d) k = if kv.1 = k then some kv.2 else get? d k := rfl

theorem get?_set (d : Dict K V) (k : K) (v : V) (j : K) :
    get? (set d k v) j = if k = j then some v else get? d j := by
  induction d with
  | nil => simp [set, get?]
  | cons kv d ih =>
    obtain ⟨k', v'⟩ := kv
    unfold set
    by_cases h : k' = k
    · subst h
      simp only [if_true, get?_cons]
      by_cases h2 : k' = j <;> simp [h2]
    · simp only [if_neg h, get?_cons, ih]
      by_cases h2 : k' = j
      · subst h2
        simp [Ne.symm h]
      · simp [h2]

@[simp] theorem get?_set_self (d : Dict K V) (k : K) (v : V) : get? (set d k v) k = some v := by
  simp [get?_set]

theorem get?_set_ne (d : Dict K V) {k j : K} (v : V) (h : k ≠ j) :
    get? (set d k v) j = get? d j := by
  simp [get?_set, h]

theorem get?_erase (d : Dict K V) (k j : K) :
    get? (erase d k) j = if k = j then none else get? d j := by
  induction d with
  | nil => simp [erase]
  | cons kv d ih =>
    obtain ⟨k', v'⟩ := kv
    unfold erase
    by_cases h : k' = k
    · subst h
      simp only [if_true, ih, get?_cons]
      by_cases h2 : k' = j <;> simp [h2]
    · simp only [if_neg h, get?_cons, ih]
      by_cases h2 : k' = j
      · subst h2
        simp [Ne.symm h]
      · simp [h2]

@[simp] theorem get?_erase_self (d : Dict K V) (k : K) : get? (erase d k) k = none := by
  simp [get?_erase]

theorem mem_keys_iff (d : Dict K V) (k : K) : k ∈ keys d ↔ (get? d k).isSome := by
  induction d with
  | nil => simp [keys]
  | cons kv d ih =>
    simp only [keys, List.map_cons, List.mem_cons, get?_cons]
    by_cases h : kv.1 = k
    · simp [h]
    · simp only [if_neg h]
      rw [← ih, keys]
      simp [Ne.symm h]

theorem has_iff (d : Dict K V) (k : K) : has d k = true ↔ k ∈ keys d := by
  rw [mem_keys_iff, has]

theorem get?_eq_none_iff (d : Dict K V) (k : K) : get? d k = none ↔ k ∉ keys d := by
  rw [mem_keys_iff]; cases get? d k <;> simp

theorem mem_of_get? {d : Dict K V} {k : K} {v : V} (h : get? d k = some v) : (k, v) ∈ d := by
  induction d with
  | nil => simp at h
  | cons kv d ih =>
    rw [get?_cons] at h
    by_cases hk : kv.1 = k
    · rw [if_pos hk] at h
      injection h with h
      simp [← hk, ← h]
    · rw [if_neg hk] at h
      exact List.mem_cons_of_mem _ (ih h)

theorem get?_of_mem {d : Dict K V} (hd : WF d) {k : K} {v : V} (h : (k, v) ∈ d) :
    get? d k = some v := by
  induction d with
  | nil => simp at h
  | cons kv d ih =>
    rw [get?_cons]
    have hd' : kv.1 ∉ keys d ∧ WF d := by
      simpa [WF, keys] using hd
    rcases List.mem_cons.1 h with h | h
    · subst h; simp
    · have : kv.1 ≠ k := by
        rintro rfl
        exact hd'.1 (List.mem_map.2 ⟨_, h, rfl⟩)
      rw [if_neg this]
      exact ih hd'.2 h

theorem mem_iff_get? {d : Dict K V} (hd : WF d) {k : K} {v : V} :
    (k, v) ∈ d ↔ get? d k = some v := ⟨get?_of_mem hd, mem_of_get?⟩

theorem keys_set (d : Dict K V) (k : K) (v : V) :
    keys (set d k v) = if k ∈ keys d then keys d else keys d ++ [k] := by
  induction d with
  | nil => simp [set, keys]
  | cons kv d ih =>
    obtain ⟨k', v'⟩ := kv
    unfold set
    by_cases h : k' = k
    · subst h; simp [keys]
    · rw [if_neg h]
      simp only [keys, List.map_cons] at ih ⊢
      rw [ih]
      by_cases hm : k ∈ List.map Prod.fst d
      · simp [hm]
      · simp [hm, Ne.symm h]

theorem keys_erase (d : Dict K V) (k : K) : keys (erase d k) = (keys d).filter (· ≠ k) := by
  induction d with
  | nil => simp [erase, keys]
  | cons kv d ih =>
    obtain ⟨k', v'⟩ := kv
    unfold erase
    simp only [keys, List.map_cons] at ih ⊢
    by_cases h : k' = k
    · subst h; simp [ih]
    · simp [h, ih]

@[simp] theorem WF_nil : WF ([] : Dict K V) := by simp [WF, keys]

theorem WF_set {d : Dict K V} (hd : WF d) (k : K) (v : V) : WF (set d k v) := by
  unfold WF at *
  rw [keys_set]
  split
  · exact hd
  · rename_i h
    rw [List.nodup_append]
    refine ⟨hd, by simp, ?_⟩
    intro a ha b hb
    simp only [List.mem_singleton] at hb
    subst hb
    rintro rfl
    exact h ha

theorem WF_erase {d : Dict K V} (hd : WF d) (k : K) : WF (erase d k) := by
  unfold WF at *
  rw [keys_erase]
  exact hd.filter _

theorem WF_update {d : Dict K V} (hd : WF d) (e : Dict K V) : WF (update d e) := by
  unfold update
  induction e generalizing d with
  | nil => exact hd
  | cons kv e ih => exact ih (WF_set hd _ _)

theorem WF_ofList (l : List (K × V)) : WF (ofList l) := WF_update WF_nil l

theorem get?_update_of_WF (d : Dict K V) {e : Dict K V} (he : WF e) (k : K) :
    get? (update d e) k = (get? e k).or (get? d k) := by
  unfold update
  induction e generalizing d with
  | nil => simp
  | cons kv e ih =>
    have he' : kv.1 ∉ keys e ∧ WF e := by simpa [WF, keys] using he
    simp only [List.foldl_cons]
    rw [ih _ he'.2, get?_cons, get?_set]
    by_cases h : kv.1 = k
    · have : get? e k = none := (get?_eq_none_iff _ _).2 (h ▸ he'.1)
      simp [h, this]
    · simp [h]

theorem length_eq_keys (d : Dict K V) : d.length = (keys d).length := by simp [keys]

end Dict
end Py
