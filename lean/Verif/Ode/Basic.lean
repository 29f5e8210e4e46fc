import Mathlib.Algebra.BigOperators.Group.List.Basic
import Mathlib.Algebra.BigOperators.Ring.List
import Mathlib.Tactic.Ring
import Mathlib.Tactic.LinearCombination
import Verif.Ode.Model

/-!
# What the sparse loops of the solver compute

Sums of products and their derivatives as functions, and the loops of `generate_solution` in these terms.
-/

set_option linter.unusedSectionVars false

namespace Ode
open Py

variable {I K P R : Type} [DecidableEq I] [DecidableEq K] [DecidableEq P] [CommRing R] [Algebra ℚ R] [DecidableEq R]

/-- The value of a sum of products. -/
def poly (lt : Lt I R) (x : I → R) : R := (lt.map fun t => t.1 * (t.2.map x).prod).sum

/-- The derivative of a product in the direction `y`. -/
def dprod : List I → (I → R) → (I → R) → R
  | [], _, _ => 0
  | i :: l, x, y => y i * (l.map x).prod + x i * dprod l x y

/-- The derivative of a sum of products in the direction `y`. -/
def dpoly (lt : Lt I R) (x y : I → R) : R := (lt.map fun t => t.1 * dprod t.2 x y).sum

/-- A dictionary of numbers as a linear form. -/
def lin (d : Dict I R) (y : I → R) : R := (d.map fun T => T.2 * y T.1).sum

@[simp] theorem lin_nil (y : I → R) : lin ([] : Dict I R) y = 0 := rfl

@[simp] theorem lin_cons (T : I × R) (d : Dict I R) (y : I → R) : lin (T :: d) y = T.2 * y T.1 + lin d y := by
  simp [lin]

@[simp] theorem poly_nil (x : I → R) : poly ([] : Lt I R) x = 0 := rfl

@[simp] theorem poly_cons (t : R × List I) (lt : Lt I R) (x : I → R) :
    poly (t :: lt) x = t.1 * (t.2.map x).prod + poly lt x := by simp [poly]

@[simp] theorem dpoly_nil (x y : I → R) : dpoly ([] : Lt I R) x y = 0 := rfl

@[simp] theorem dpoly_cons (t : R × List I) (lt : Lt I R) (x y : I → R) :
    dpoly (t :: lt) x y = t.1 * dprod t.2 x y + dpoly lt x y := by simp [dpoly]

theorem poly_append (a b : Lt I R) (x : I → R) : poly (a ++ b) x = poly a x + poly b x := by
  simp [poly]

theorem lin_set (d : Dict I R) (k : I) (v : R) (y : I → R) :
    lin (Dict.set d k ((Dict.get? d k).getD 0 + v)) y = lin d y + v * y k := by
  induction d with
  | nil => simp [Dict.set, Dict.get?]
  | cons T d ih =>
    obtain ⟨k', v'⟩ := T
    by_cases h : k' = k
    · subst h
      simp only [Dict.set, Dict.get?, if_true, Option.getD_some, lin_cons]
      ring
    · simp only [Dict.set, Dict.get?, if_neg h, lin_cons, ih]
      ring

theorem lin_addTo (d : Dict I R) (k : I) (v : R) (y : I → R) : lin (addTo d k v) y = lin d y + v * y k :=
  lin_set d k v y

theorem tup_val_eq (pkv : ℕ → Option R) (t : R × List ℕ) : tup_val pkv t = t.1 * (t.2.map (num pkv)).prod := by
  obtain ⟨g, l⟩ := t
  unfold tup_val
  induction l generalizing g with
  | nil => simp
  | cons i l ih =>
    have := ih (g * num pkv i)
    simp only [List.foldl_cons, List.map_cons, List.prod_cons] at this ⊢
    rw [this]; ring

theorem lt_val_eq (pkv : ℕ → Option R) (lt : Lt ℕ R) : lt_val pkv lt = poly lt (num pkv) := by
  have : ∀ v, lt.foldl (fun val t => val + tup_val pkv t) v = v + poly lt (num pkv) := by
    induction lt with
    | nil => simp
    | cons t lt ih =>
      intro v
      rw [List.foldl_cons, ih, poly_cons, tup_val_eq]; ring
  simpa [lt_val] using this 0

/-- A sum over tables of products. -/
def linD (d : Dict ℕ (Lt ℕ R)) (x y : ℕ → R) : R := (d.map fun T => poly T.2 x * y T.1).sum

theorem linD_set (d : Dict ℕ (Lt ℕ R)) (k : ℕ) (t : R × List ℕ) (x y : ℕ → R) :
    linD (Dict.set d k ((Dict.get? d k).getD [] ++ [t])) x y = linD d x y + t.1 * (t.2.map x).prod * y k := by
  induction d with
  | nil => simp [Dict.set, Dict.get?, linD]
  | cons T d ih =>
    obtain ⟨k', v'⟩ := T
    by_cases h : k' = k
    · subst h
      simp only [Dict.set, Dict.get?, if_true, Option.getD_some, linD, List.map_cons, List.sum_cons, poly_append,
        poly_cons, poly_nil]
      ring
    · simp only [linD] at ih
      simp only [Dict.set, Dict.get?, if_neg h, linD, List.map_cons, List.sum_cons, ih]
      ring

theorem lin_matrix_d (pkv : ℕ → Option R) (d : Dict ℕ (Lt ℕ R)) (y : ℕ → R) :
    lin (lt_val_matrix_d pkv d) y = linD d (num pkv) y := by
  have inner : ∀ (k : ℕ) (lt : Lt ℕ R) (vec : Dict ℕ R),
      lin (lt.foldl (fun vec t => addTo vec k (tup_val pkv t)) vec) y = lin vec y + poly lt (num pkv) * y k := by
    intro k lt
    induction lt with
    | nil => simp
    | cons t lt ih =>
      intro vec
      rw [List.foldl_cons, ih, lin_addTo, poly_cons, tup_val_eq]; ring
  have : ∀ vec : Dict ℕ R,
      lin (d.foldl (fun vec T => T.2.foldl (fun vec t => addTo vec T.1 (tup_val pkv t)) vec) vec) y
        = lin vec y + linD d (num pkv) y := by
    induction d with
    | nil => simp [linD]
    | cons T d ih =>
      intro vec
      rw [List.foldl_cons, ih, inner]
      simp only [linD, List.map_cons, List.sum_cons]
      ring
  simpa [lt_val_matrix_d] using this []

/-- Derivative of a product, factor by factor. -/
theorem dprod_eq_sum (l : List ℕ) (x y : ℕ → R) :
    ((List.zipIdx l).map fun T => y T.1 * ((l.eraseIdx T.2).map x).prod).sum = dprod l x y := by
  induction l with
  | nil => simp [dprod]
  | cons i l ih =>
    rw [List.zipIdx_cons, List.map_cons, List.sum_cons]
    simp only [dprod, List.eraseIdx_cons_zero]
    congr 1
    rw [← ih, ← List.sum_map_mul_left, Nat.zero_add, List.zipIdx_succ, List.map_map]
    congr 1
    apply List.map_congr_left
    intro T _
    simp only [Function.comp, List.eraseIdx_cons_succ, List.map_cons, List.prod_cons]
    ring

theorem prod_zero_of_not_all {nz l : List ℕ} {x : ℕ → R} (hx : ∀ i, i ∉ nz → x i = 0)
    (h : ¬ l.all (· ∈ nz) = true) : (l.map x).prod = 0 := by
  simp only [List.all_eq_true, decide_eq_true_eq, not_forall] at h
  obtain ⟨i, hi, hn⟩ := h
  exact List.prod_eq_zero (List.mem_map.2 ⟨i, hi, hx i hn⟩)

theorem poly_reduced {nz : List ℕ} {x : ℕ → R} (hx : ∀ i, i ∉ nz → x i = 0) (lt : Lt ℕ R) :
    poly (lt_reduced_generate nz lt) x = poly lt x := by
  induction lt with
  | nil => rfl
  | cons t lt ih =>
    by_cases h : t.2.all (· ∈ nz) = true
    · simp only [lt_reduced_generate, List.filter_cons, h, if_true, poly_cons] at ih ⊢
      rw [ih]
    · simp only [lt_reduced_generate, List.filter_cons, h, poly_cons] at ih ⊢
      rw [prod_zero_of_not_all hx h]
      simpa using ih

theorem linD_generate {nz : List ℕ} {x : ℕ → R} (hx : ∀ i, i ∉ nz → x i = 0) (lt : Lt ℕ R) (y : ℕ → R) :
    linD (lt_val_matrix_d_generate nz lt) x y = dpoly lt x y := by
  have inner : ∀ (t : R × List ℕ) (Z : List (ℕ × ℕ)) (d : Dict ℕ (Lt ℕ R)),
      linD (Z.foldl (fun d T =>
        let rest := t.2.eraseIdx T.2
        if rest.all (· ∈ nz) then Dict.set d T.1 ((Dict.get? d T.1).getD [] ++ [(t.1, rest)]) else d) d) x y
        = linD d x y + t.1 * (Z.map fun T => y T.1 * ((t.2.eraseIdx T.2).map x).prod).sum := by
    intro t Z
    induction Z with
    | nil => simp
    | cons T Z ih =>
      intro d
      rw [List.foldl_cons, ih, List.map_cons, List.sum_cons]
      by_cases h : (t.2.eraseIdx T.2).all (· ∈ nz) = true
      · simp only [h, if_true]
        rw [linD_set]; ring
      · simp only [h]
        rw [prod_zero_of_not_all hx h]
        simp
  have : ∀ d : Dict ℕ (Lt ℕ R),
      linD (lt.foldl (fun d t => t.2.zipIdx.foldl (fun d T =>
        let rest := t.2.eraseIdx T.2
        if rest.all (· ∈ nz) then Dict.set d T.1 ((Dict.get? d T.1).getD [] ++ [(t.1, rest)]) else d) d) d) x y
        = linD d x y + dpoly lt x y := by
    induction lt with
    | nil => simp
    | cons t lt ih =>
      intro d
      rw [List.foldl_cons, ih, inner, dprod_eq_sum, dpoly_cons]; ring
  simpa [lt_val_matrix_d_generate, linD] using this []

/-! ### Sorting and collecting -/

theorem dprod_perm {l l' : List I} (h : l.Perm l') (x y : I → R) : dprod l x y = dprod l' x y := by
  induction h with
  | nil => rfl
  | cons i h ih => simp only [dprod, ih, (h.map x).prod_eq]
  | swap i j l => simp only [dprod, List.map_cons, List.prod_cons]; ring
  | trans _ _ h1 h2 => rw [h1, h2]

/-- Any sum over the tuples that does not see the order of the factors is kept. -/
theorem sum_collect_from (F : List ℕ → R) (prev : List ℕ) (gain : R) (l : List (List ℕ × R)) :
    ((lt_collect_from prev gain l).map fun t => t.1 * F t.2).sum
      = gain * F prev + (l.map fun t => t.2 * F t.1).sum := by
  induction l generalizing prev gain with
  | nil => simp [lt_collect_from]
  | cons T l ih =>
    obtain ⟨NL, g⟩ := T
    unfold lt_collect_from
    split_ifs with h
    · subst h
      rw [ih, List.map_cons, List.sum_cons]; ring
    · rw [List.map_cons, List.sum_cons, ih, List.map_cons, List.sum_cons]

theorem sum_sort_collect (F : List ℕ → R) (hF : ∀ l l' : List ℕ, l.Perm l' → F l = F l') (lt : Lt ℕ R) :
    ((lt_sort_collect lt).map fun t => t.1 * F t.2).sum = (lt.map fun t => t.1 * F t.2).sum := by
  have h1 : ((lt_sort_collect lt).map fun t => t.1 * F t.2).sum = ((lt_sorted lt).map fun t => t.2 * F t.1).sum := by
    unfold lt_sort_collect
    split
    · next h => rw [h]; rfl
    · next h => rw [h, sum_collect_from, List.map_cons, List.sum_cons]
  rw [h1]
  unfold lt_sorted
  rw [((List.mergeSort_perm _ _).map _).sum_eq, List.map_map]
  congr 1
  apply List.map_congr_left
  intro t _
  simp only [Function.comp]
  rw [hF _ _ (List.mergeSort_perm t.2 _)]

theorem poly_sort_collect (lt : Lt ℕ R) (x : ℕ → R) : poly (lt_sort_collect lt) x = poly lt x :=
  sum_sort_collect (fun l => (l.map x).prod) (fun _ _ h => (h.map x).prod_eq) lt

theorem dpoly_sort_collect (lt : Lt ℕ R) (x y : ℕ → R) : dpoly (lt_sort_collect lt) x y = dpoly lt x y :=
  sum_sort_collect (fun l => dprod l x y) (fun _ _ h => dprod_perm h x y) lt

theorem dprod_map {J : Type} (f : J → I) (l : List J) (x y : I → R) :
    dprod (l.map f) x y = dprod l (x ∘ f) (y ∘ f) := by
  induction l with
  | nil => rfl
  | cons i l ih => simp only [List.map_cons, dprod, ih, List.map_map, Function.comp]

theorem poly_remap (pks : List K) (N : ℕ) (lt : Lt K R) (x : ℕ → R) :
    poly (lt_remap pks N lt) x = (1 / (N : ℚ)) • poly lt (fun k => x (pks.idxOf k)) := by
  induction lt with
  | nil => simp [lt_remap]
  | cons t lt ih =>
    simp only [lt_remap] at ih
    simp only [lt_remap, List.map_cons, poly_cons, ih, smul_add, List.map_map, smul_mul_assoc]
    rfl

theorem dpoly_remap (pks : List K) (N : ℕ) (lt : Lt K R) (x y : ℕ → R) :
    dpoly (lt_remap pks N lt) x y
      = (1 / (N : ℚ)) • dpoly lt (fun k => x (pks.idxOf k)) (fun k => y (pks.idxOf k)) := by
  induction lt with
  | nil => simp [lt_remap]
  | cons t lt ih =>
    simp only [lt_remap] at ih
    simp only [lt_remap, List.map_cons, dpoly_cons, ih, smul_add, dprod_map, smul_mul_assoc]
    rfl

/-! ### One pass of the loop -/

/-- The rows of the matrix with the diagonal ones, as linear forms. -/
def tang (M : Dict ℕ (Dict ℕ R)) (δ : ℕ → R) (i : ℕ) : R := δ i + lin (row M i) δ

theorem lin_update_row (M : Dict ℕ (Dict ℕ R)) (vec : Dict ℕ R) (δ : ℕ → R) :
    lin (update_row M vec) δ = lin vec (fun j => lin (row M j) δ) := by
  have inner : ∀ (v : R) (r u : Dict ℕ R),
      lin (r.foldl (fun u E => if E.2 = 0 then u else addTo u E.1 (E.2 * v)) u) δ = lin u δ + v * lin r δ := by
    intro v r
    induction r with
    | nil => simp
    | cons E r ih =>
      intro u
      rw [List.foldl_cons, ih, lin_cons]
      split_ifs with h
      · rw [h]; ring
      · rw [lin_addTo]; ring
  have : ∀ u : Dict ℕ R,
      lin (vec.foldl (fun u T =>
        (row M T.1).foldl (fun u E => if E.2 = 0 then u else addTo u E.1 (E.2 * T.2)) u) u) δ
        = lin u δ + lin vec (fun j => lin (row M j) δ) := by
    induction vec with
    | nil => simp
    | cons T vec ih =>
      intro u
      rw [List.foldl_cons, ih, inner, lin_cons]; ring
  simpa [update_row] using this []

theorem lin_add_row (r vec : Dict ℕ R) (δ : ℕ → R) : lin (add_row r vec) δ = lin r δ + lin vec δ := by
  unfold add_row
  induction vec generalizing r with
  | nil => simp
  | cons T vec ih =>
    rw [List.foldl_cons, ih, lin_cons]
    split_ifs with h
    · rw [h]; ring
    · rw [lin_addTo]; ring

theorem lin_add (d : Dict I R) (y z : I → R) : lin d (fun i => y i + z i) = lin d y + lin d z := by
  induction d with
  | nil => simp
  | cons T d ih => rw [lin_cons, lin_cons, lin_cons, ih]; ring

/-- The state of the loop belongs to the values `x` and the tangent `t` in the direction `δ`. -/
structure Holds (base : List (ℕ × Lt ℕ R)) (s : Run R) (δ x t : ℕ → R) : Prop where
  vals : num s.pkv = x
  nz : ∀ i, i ∉ s.pkv_nz_set → s.pkv i = none
  cached : s.cached = lists base s.pkv_nz_set
  tang : tang s.dMexp δ = t

theorem row_set (M : Dict ℕ (Dict ℕ R)) (i j : ℕ) (r : Dict ℕ R) :
    row (Dict.set M i r) j = if i = j then r else row M j := by
  unfold row
  rw [Dict.get?_set]
  split_ifs <;> rfl

theorem step_holds {base : List (ℕ × Lt ℕ R)} {s : Run R} {δ x t : ℕ → R} (h : Holds base s δ x t) {j : ℕ}
    (hj : j < base.length) :
    Holds base (step base s j) δ (Function.update x base[j].1 (x base[j].1 + poly base[j].2 x))
      (Function.update t base[j].1 (t base[j].1 + dpoly base[j].2 x t)) := by
  obtain ⟨hv, hn, hc, ht⟩ := h
  have hx0 : ∀ i, i ∉ s.pkv_nz_set → num s.pkv i = 0 := fun i hi => by simp [num, hn i hi]
  have hget : s.cached[j]? = some (base[j].1, lt_reduced_generate s.pkv_nz_set base[j].2,
      lt_val_matrix_d_generate s.pkv_nz_set base[j].2) := by
    rw [hc, lists, List.getElem?_map, List.getElem?_eq_getElem hj]; rfl
  have hd : lt_val s.pkv (lt_reduced_generate s.pkv_nz_set base[j].2) = poly base[j].2 x := by
    rw [lt_val_eq, poly_reduced hx0, hv]
  have hvec : ∀ y, lin (lt_val_matrix_d s.pkv (lt_val_matrix_d_generate s.pkv_nz_set base[j].2)) y
      = dpoly base[j].2 x y := fun y => by rw [lin_matrix_d, linD_generate hx0, hv]
  unfold step
  rw [hget]
  dsimp only
  rw [hd]
  constructor
  · funext i
    dsimp only
    by_cases h0 : poly base[j].2 x = 0
    · simp only [h0, ne_eq, not_true, if_false, add_zero, Function.update_eq_self]
      rw [hv]
    · simp only [h0, ne_eq, not_false_eq_true, if_true, num, Function.update_apply]
      split_ifs with hi
      · have := congrFun hv base[j].1
        simp only [num] at this
        simp [this]
      · exact congrFun hv i
  · intro i
    dsimp only
    by_cases h0 : poly base[j].2 x = 0
    · simp only [h0, ne_eq, not_true, and_false, if_false]
      exact hn i
    · simp only [h0, ne_eq, not_false_eq_true, and_true, if_true]
      intro hi
      have hi' : i ∉ s.pkv_nz_set := by
        split_ifs at hi with hw
        · exact fun h => hi (List.mem_cons_of_mem _ h)
        · exact hi
      have hne : i ≠ base[j].1 := by
        rintro rfl
        rw [if_pos (hn _ hi')] at hi
        exact hi List.mem_cons_self
      rw [Function.update_of_ne hne]
      exact hn i hi'
  · dsimp only
    split_ifs with hw
    · rfl
    · exact hc
  · funext i
    dsimp only [Ode.tang]
    rw [row_set, Function.update_apply]
    by_cases hi : base[j].1 = i
    · rw [if_pos hi, if_pos hi.symm, lin_add_row, lin_add_row, lin_update_row, hvec, hvec]
      have hdp : dpoly base[j].2 x t = dpoly base[j].2 x (fun k => lin (row s.dMexp k) δ) + dpoly base[j].2 x δ := by
        rw [← hvec, ← hvec, ← hvec, ← lin_add, ← ht]
        congr 1
        funext k
        simp only [Ode.tang]; ring
      rw [hdp, ← ht]
      simp only [Ode.tang]
      subst hi
      ring
    · rw [if_neg hi, if_neg (Ne.symm hi), ← ht]
      rfl

end Ode
