import Mathlib.Algebra.BigOperators.Group.List.Basic
import Mathlib.Algebra.Order.Group.Unbundled.Abs
import Mathlib.Algebra.Star.BigOperators
import Mathlib.Data.List.Perm.Subperm
import Mathlib.Data.List.Nodup
import Mathlib.Tactic.LinearCombination
import Mathlib.Tactic.Ring
import Verif.Signal.Model
import Verif.Signal.FilterProps
import Verif.Circuit.Elements

/-!
# Signals are real (C59)
-/

set_option linter.unusedSectionVars false

namespace Signal
open Py Inject Circuit
open scoped List

variable {P K R F : Type} [DecidableEq P] [DecidableEq K] [AddCommGroup K] [AddCommGroup R] [LinearOrder R]
  [IsOrderedAddMonoid R] [Field F] [StarRing F] [DecidableEq F]

/-- The conjugate field: the amplitude at `k` is the conjugate of the amplitude at `-k`. -/
def mirror (x : P × K → F) : P × K → F := fun t => star (x (t.1, -t.2))

/-- The couplings treat positive and negative frequencies alike: what they make of the conjugate field is the conjugate of
what they make of the field. -/
def Even (cs : List (Coupling P K F)) : Prop :=
  ∀ x p k, total cs (mirror x) (p, -k) = star (total cs x (p, k))

theorem even_nil : Even ([] : List (Coupling P K F)) := fun x p k => by
  rw [total_nil, total_nil, star_zero]

theorem even_append {cs ds : List (Coupling P K F)} (hc : Even cs) (hd : Even ds) : Even (cs ++ ds) := fun x p k => by
  rw [total_append, total_append, hc, hd, star_add]

theorem even_flatMap {α : Type} {l : List α} {f : α → List (Coupling P K F)} (h : ∀ a ∈ l, Even (f a)) :
    Even (l.flatMap f) := by
  induction l with
  | nil => exact even_nil
  | cons a l ih =>
    rw [List.flatMap_cons]
    exact even_append (h a List.mem_cons_self) (ih (fun b hb => h b (List.mem_cons_of_mem _ hb)))

theorem total_flatMap {α : Type} (l : List α) (f : α → List (Coupling P K F)) (x : P × K → F) (t : P × K) :
    total (l.flatMap f) x t = (l.map (fun a => total (f a) x t)).sum := by
  induction l with
  | nil => rfl
  | cons a l ih => rw [List.flatMap_cons, total_append, ih, List.map_cons, List.sum_cons]

theorem star_list_sum (l : List F) : star l.sum = (l.map star).sum := by
  induction l with
  | nil => simp
  | cons a l ih => rw [List.sum_cons, star_add, ih, List.map_cons, List.sum_cons]

/-- A family of couplings indexed by keys, closed under negation. -/
theorem even_keys {ks : List K} (hs : ks.map (fun k => -k) ~ ks) {f : K → List (Coupling P K F)}
    (h : ∀ a ∈ ks, ∀ x p k, total (f (-a)) (mirror x) (p, -k) = star (total (f a) x (p, k))) : Even (ks.flatMap f) := by
  intro x p k
  rw [total_flatMap, total_flatMap, star_list_sum, List.map_map]
  have h1 := hs.map (fun a => total (f a) (mirror x) (p, -k))
  rw [← h1.sum_eq, List.map_map]
  congr 1
  apply List.map_congr_left
  intro a ha
  exact h a ha x p k

/-- Negating the keys of a port permutes them. -/
def Balanced (ks : List K) : Prop := ks.Nodup ∧ ∀ k ∈ ks, -k ∈ ks

theorem Balanced.perm {ks : List K} (h : Balanced ks) : ks.map (fun k => -k) ~ ks := by
  have hn : (ks.map (fun k => -k)).Nodup := h.1.map neg_injective
  refine (List.perm_ext_iff_of_nodup hn h.1).2 (fun k => ?_)
  rw [List.mem_map]
  constructor
  · rintro ⟨a, ha, rfl⟩
    exact h.2 a ha
  · intro hk
    exact ⟨-k, h.2 k hk, neg_neg k⟩

/-! ## single couplings -/

theorem neg_pair (p q : P) (k l : K) : ((p, -k) = (q, -l)) ↔ ((p, k) = (q, l)) := by
  rw [Prod.mk.injEq, Prod.mk.injEq, neg_inj]

theorem mirror_neg (x : P × K → F) (p : P) (k : K) : mirror x (p, -k) = star (x (p, k)) := by
  show star (x (p, - -k)) = _
  rw [neg_neg]

theorem edge_mirror (x : P × K → F) (p q t : P) (a b k : K) (v : F) :
    (Coupling.edge (p, -a) (q, -b) (star v)).into (mirror x) (t, -k) =
      star ((Coupling.edge (p, a) (q, b) v).into x (t, k)) := by
  show (if (q, -b) = (t, -k) then star v * mirror x (p, -a) else 0) = star (if (q, b) = (t, k) then v * x (p, a) else 0)
  by_cases h : (q, b) = (t, k)
  · rw [if_pos h, if_pos ((neg_pair _ _ _ _).2 h), mirror_neg, star_mul']
  · rw [if_neg h, if_neg (fun h' => h ((neg_pair _ _ _ _).1 h')), star_zero]

theorem source_mirror (x : P × K → F) (q t : P) (b k : K) (v : F) :
    (Coupling.source (q, -b) (star v)).into (mirror x) (t, -k) = star ((Coupling.source (q, b) v).into x (t, k)) := by
  show (if (q, -b) = (t, -k) then star v else 0) = star (if (q, b) = (t, k) then v else 0)
  by_cases h : (q, b) = (t, k)
  · rw [if_pos h, if_pos ((neg_pair _ _ _ _).2 h)]
  · rw [if_neg h, if_neg (fun h' => h ((neg_pair _ _ _ _).1 h')), star_zero]

theorem triplet_mirror (x : P × K → F) (p q r t : P) (a b c k : K) (v : F) :
    (Coupling.triplet (p, -a) (q, -b) (r, -c) (star v)).into (mirror x) (t, -k) =
      star ((Coupling.triplet (p, a) (q, b) (r, c) v).into x (t, k)) := by
  show (if (r, -c) = (t, -k) then star v * mirror x (p, -a) * mirror x (q, -b) else 0) =
    star (if (r, c) = (t, k) then v * x (p, a) * x (q, b) else 0)
  by_cases h : (r, c) = (t, k)
  · rw [if_pos h, if_pos ((neg_pair _ _ _ _).2 h), mirror_neg, mirror_neg, star_mul', star_mul']
  · rw [if_neg h, if_neg (fun h' => h ((neg_pair _ _ _ _).1 h')), star_zero]

/-! ## the elements -/

/-- The environment treats positive and negative frequencies alike.  Each clause is a fact about the program: keys come
with their negatives, the order limits look at absolute values (`reject_even` below), frequencies are linear in the
key (C02) and real. -/
structure SEnv.Even (env : SEnv P K R F) : Prop where
  keys : ∀ p, Balanced (env.keys p)
  reject : ∀ k, env.reject (-k) = env.reject k
  freq : ∀ k, env.freq (-k) = -env.freq k
  center : ∀ k, env.center (-k) = -env.center k
  cast_neg : ∀ r, env.cast (-r) = -env.cast r
  cast_real : ∀ r, star (env.cast r) = env.cast r
  i : star env.i = -env.i
  exp : ∀ z, star (env.exp z) = env.exp (star z)

variable {env : SEnv P K R F}

theorem sign_neg (r : R) : (sign (-r) : F) = -sign r := by
  unfold sign
  rcases lt_trichotomy r 0 with h | h | h
  · rw [if_pos (neg_pos.2 h), if_neg (not_lt.2 h.le), if_pos h, neg_neg]
  · subst h
    simp
  · rw [if_neg (not_lt.2 (neg_nonpos.2 h.le)), if_pos (neg_lt_zero.2 h), if_pos h]

theorem sign_star (r : R) : star (sign r : F) = sign r := by
  unfold sign
  split_ifs <;> simp

/-- The data of an element is real: the condition under which the element produces real signals from real signals. -/
def SElem.Real (env : SEnv P K R F) : SElem P K R F → Prop
  | .siso e => ∀ f, star f = f → e.filter_func (-f) = (e.filter_func f).map star
  | .distribution _ g => ∀ a ∈ g, star a.2 = a.2
  | .summing _ g => ∀ a ∈ g, star a.2 = a.2
  | .generator e => star e.phase_rad = e.phase_rad ∧ e.amplitudeC = star e.amplitude
  | .mixer _ _ _ _ => True
  | .modulator _ _ _ _ φ => star φ = φ
  | .harmonic2 _ _ => True
  | .meanSquare _ _ => True
  | .wire _ _ => True

theorem total_single (c : Coupling P K F) (x : P × K → F) (t : P × K) : total [c] x t = c.into x t := by
  rw [total_cons, total_nil, add_zero]

theorem star_half : star (1 / 2 : F) = 1 / 2 := by rw [star_div_, star_one, star_ofNat]
theorem star_quarter : star (1 / 4 : F) = 1 / 4 := by rw [star_div_, star_one, star_ofNat]

theorem skips_neg (he : env.Even) (e : Siso P R F) (k : K) : e.skips env (-k) = e.skips env k := by
  unfold Siso.skips
  rw [he.center, abs_neg]
  simp only [neg_eq_zero]

theorem run_neg (e : Siso P R F) (h : ∀ f, star f = f → e.filter_func (-f) = (e.filter_func f).map star) {f : F}
    (hf : star f = f) : e.filter_func_run (-f) = (e.filter_func_run f).map star := by
  unfold Siso.filter_func_run
  rw [h f hf]
  cases e.filter_func f with
  | error e => rfl
  | ok v =>
    show Except.ok (if e.no_DC = true ∧ -f = 0 then 0 else star v) =
      Except.ok (star (if e.no_DC = true ∧ f = 0 then 0 else v))
    rw [apply_ite star, star_zero]
    simp only [neg_eq_zero]

theorem blocks_flatMap {bs : List (Except Err (List (Coupling P K F)))} {cs : List (Coupling P K F)}
    (h : blocks bs = .ok cs) : cs = bs.flatMap (fun b => match b with | .ok c => c | .error _ => []) := by
  induction bs generalizing cs with
  | nil => exact blocks_nil h
  | cons b bs ih =>
    obtain ⟨c, ds, rfl, hd, rfl⟩ := blocks_cons h
    rw [List.flatMap_cons, ← ih hd]

theorem siso_even (he : env.Even) (e : Siso P R F)
    (h : ∀ f, star f = f → e.filter_func (-f) = (e.filter_func f).map star) {cs : List (Coupling P K F)}
    (hc : e.setup env = .ok cs) : Even cs := by
  rw [blocks_flatMap hc, List.flatMap_map]
  apply even_keys (he.keys _).perm
  intro a _ x p k
  rw [skips_neg he]
  by_cases hs : e.skips env a = true
  · rw [if_pos hs, if_pos hs]
    dsimp only
    rw [total_nil, total_nil, star_zero]
  · rw [if_neg hs, if_neg hs, he.freq, he.cast_neg, run_neg e h (he.cast_real _)]
    cases e.filter_func_run (env.cast (env.freq a)) with
    | error er =>
      show total [] _ _ = star (total [] _ _)
      rw [total_nil, total_nil, star_zero]
    | ok v =>
      show total [Coupling.edge (e.ps_In, -a) (e.ps_Out, -a) (star v)] _ _ =
        star (total [Coupling.edge (e.ps_In, a) (e.ps_Out, a) v] _ _)
      rw [total_single, total_single, edge_mirror]

theorem total_map {α : Type} (l : List α) (f : α → Coupling P K F) (x : P × K → F) (t : P × K) :
    total (l.map f) x t = (l.map (fun a => (f a).into x t)).sum := by
  unfold total
  rw [List.map_map]
  rfl

theorem distribution_even (he : env.Even) (p : P) {g : List (P × F)} (hg : ∀ a ∈ g, star a.2 = a.2) :
    Even (distribution_setup env p g) := by
  apply even_keys (he.keys p).perm
  intro a _ x t k
  rw [total_map, total_map, star_list_sum, List.map_map]
  congr 1
  apply List.map_congr_left
  intro b hb
  show _ = star _
  rw [← edge_mirror, hg b hb]

theorem flatMap_single {α β : Type} (l : List α) (f : α → β) : l.flatMap (fun a => [f a]) = l.map f := by
  induction l with
  | nil => rfl
  | cons a l ih => rw [List.flatMap_cons, ih]; rfl

theorem summing_even (he : env.Even) (p : P) {g : List (P × F)} (hg : ∀ a ∈ g, star a.2 = a.2) :
    Even (summing_setup env p g) := by
  apply even_flatMap
  intro b hb
  have : (env.keys b.1).map (fun k => Coupling.edge (b.1, k) (p, k) b.2) =
      (env.keys b.1).flatMap (fun k => [Coupling.edge (b.1, k) (p, k) b.2]) := by
    exact (flatMap_single _ _).symm
  rw [this]
  apply even_keys (he.keys b.1).perm
  intro a _ x t k
  rw [total_single, total_single, ← edge_mirror, hg b hb]

theorem wire_even (he : env.Even) (p q : P) : Even (wire_setup env p q : List (Coupling P K F)) := by
  have : (wire_setup env p q : List (Coupling P K F)) =
      (env.keys p).flatMap (fun k => [Coupling.edge (p, k) (q, k) 1]) := by
    exact (flatMap_single _ _).symm
  rw [this]
  apply even_keys (he.keys p).perm
  intro a _ x t k
  rw [total_single, total_single, ← edge_mirror, star_one]

theorem generator_even (he : env.Even) (e : Generator P K F) (hφ : star e.phase_rad = e.phase_rad)
    (hA : e.amplitudeC = star e.amplitude) : Even (e.setup env) := by
  have pair : ∀ (p : P) (a : K) (v w : F), w = star v → Even [Coupling.source (p, a) v, Coupling.source (p, -a) w] := by
    intro p a v w hw x t k
    subst hw
    rw [total_cons, total_single, total_cons, total_single, star_add, ← source_mirror, ← source_mirror, star_star,
      neg_neg, add_comm]
  apply even_append
  · apply pair
    rw [star_mul', he.exp, star_mul', he.i, hφ, hA]
  · apply even_flatMap
    intro h _
    rw [neg_smul]
    apply pair
    rw [star_mul', he.exp, star_mul', star_mul', he.i, hφ, star_intCast]

theorem mixer_even (he : env.Even) (a b c d : P) : Even (mixer_setup env a b c d : List (Coupling P K F)) := by
  apply even_keys (he.keys a).perm
  intro k1 _ x p k
  rw [total_flatMap, total_flatMap, star_list_sum, List.map_map]
  have h1 := (he.keys b).perm.map (fun k2 => total (if env.reject (-k1 + k2) then [] else
    if -k1 + k2 ≠ 0 then
      [Coupling.triplet (a, -k1) (b, k2) (c, -k1 + k2) (1 / 2),
        .triplet (a, -k1) (b, k2) (d, -k1 + k2) (env.i * sign (env.freq (-k1)) / 2)]
    else
      [Coupling.triplet (a, -k1) (b, k2) (c, -k1 + k2) (1 / 4),
        .triplet (a, -k1) (b, k2) (d, -k1 + k2) (env.i * sign (env.freq (-k1)) / 4)]) (mirror x) (p, -k))
  rw [← h1.sum_eq, List.map_map]
  congr 1
  apply List.map_congr_left
  intro k2 _
  show total (if env.reject (-k1 + -k2) then [] else _) _ _ = star (total (if env.reject (k1 + k2) then [] else _) _ _)
  have hs : -k1 + -k2 = -(k1 + k2) := (neg_add k1 k2).symm
  rw [hs, he.reject, he.freq, sign_neg]
  by_cases hr : env.reject (k1 + k2) = true
  · rw [if_pos hr, if_pos hr, total_nil, total_nil, star_zero]
  · rw [if_neg hr, if_neg hr]
    dsimp only
    have e2 : env.i * -sign (env.freq k1) / 2 = star (env.i * sign (env.freq k1) / 2) := by
      rw [star_div_, star_mul', he.i, sign_star, star_ofNat]
      ring
    have e4 : env.i * -sign (env.freq k1) / 4 = star (env.i * sign (env.freq k1) / 4) := by
      rw [star_div_, star_mul', he.i, sign_star, star_ofNat]
      ring
    by_cases h0 : k1 + k2 = 0
    · rw [if_neg (not_not.2 h0), if_neg (by rw [h0, neg_zero]; exact not_not.2 rfl), total_cons, total_single,
        total_cons, total_single, star_add, ← triplet_mirror, ← triplet_mirror, star_quarter, e4]
    · rw [if_pos h0, if_pos (neg_ne_zero.2 h0), total_cons, total_single,
        total_cons, total_single, star_add, ← triplet_mirror, ← triplet_mirror, star_half, e2]

theorem rotation_neg (he : env.Even) {φ : F} (hφ : star φ = φ) (k : K) :
    rotation env φ (-k) = star (rotation env φ k) := by
  unfold rotation
  rw [he.center]
  rcases lt_trichotomy (env.center k) 0 with h | h | h
  · rw [if_pos (neg_pos.2 h), if_neg (not_lt.2 h.le), if_pos h, he.exp, star_mul', star_neg, he.i, hφ, neg_neg]
  · rw [h]
    simp
  · rw [if_neg (not_lt.2 (neg_nonpos.2 h.le)), if_pos (neg_lt_zero.2 h), if_pos h, he.exp, star_mul', he.i, hφ]

theorem modulator_even (he : env.Even) (a b c d : P) {φ : F} (hφ : star φ = φ) :
    Even (modulator_setup env a b c d φ : List (Coupling P K F)) := by
  apply even_keys (he.keys a).perm
  intro k1 _ x p k
  have sub : ∀ (m : P) (v w : F), w = star v →
      total ((env.keys m).flatMap (fun k2 =>
        if env.reject (-k1 + k2) then [] else
          if -k1 + k2 ≠ 0 then [Coupling.triplet (a, -k1) (m, k2) (d, -k1 + k2) (w / 2)]
          else [Coupling.triplet (a, -k1) (m, k2) (d, -k1 + k2) (w / 4)])) (mirror x) (p, -k) =
      star (total ((env.keys m).flatMap (fun k2 =>
        if env.reject (k1 + k2) then [] else
          if k1 + k2 ≠ 0 then [Coupling.triplet (a, k1) (m, k2) (d, k1 + k2) (v / 2)]
          else [Coupling.triplet (a, k1) (m, k2) (d, k1 + k2) (v / 4)])) x (p, k)) := by
    intro m v w hw
    subst hw
    rw [total_flatMap, total_flatMap, star_list_sum, List.map_map]
    have h1 := (he.keys m).perm.map (fun k2 => total (if env.reject (-k1 + k2) then [] else
      if -k1 + k2 ≠ 0 then [Coupling.triplet (a, -k1) (m, k2) (d, -k1 + k2) (star v / 2)]
      else [Coupling.triplet (a, -k1) (m, k2) (d, -k1 + k2) (star v / 4)]) (mirror x) (p, -k))
    rw [← h1.sum_eq, List.map_map]
    congr 1
    apply List.map_congr_left
    intro k2 _
    show total (if env.reject (-k1 + -k2) then [] else _) _ _ = star (total (if env.reject (k1 + k2) then [] else _) _ _)
    have hs : -k1 + -k2 = -(k1 + k2) := (neg_add k1 k2).symm
    rw [hs, he.reject]
    by_cases hr : env.reject (k1 + k2) = true
    · rw [if_pos hr, if_pos hr, total_nil, total_nil, star_zero]
    · rw [if_neg hr, if_neg hr]
      by_cases h0 : k1 + k2 = 0
      · rw [if_neg (not_not.2 h0), if_neg (by rw [h0, neg_zero]; exact not_not.2 rfl), total_single, total_single,
          ← triplet_mirror, star_div_, star_ofNat]
      · rw [if_pos h0, if_pos (neg_ne_zero.2 h0), total_single, total_single, ← triplet_mirror, star_div_, star_ofNat]
  rw [total_append, total_append, total_append, total_append, star_add, star_add, total_single, total_single,
    ← edge_mirror, rotation_neg he hφ, sub b _ _ rfl, sub c _ _ ?_]
  rw [he.freq, sign_neg, star_mul', star_mul', he.i, sign_star]
  ring

theorem opposite_neg (c1 c2 : R) : opposite (-c1) (-c2) = opposite c1 c2 := by
  unfold opposite
  rcases lt_trichotomy c1 0 with h | h | h
  · rw [if_pos (neg_pos.2 h), if_neg (not_lt.2 h.le), if_neg h.ne]
    simp
  · subst h
    simp
  · rw [if_neg (not_lt.2 (neg_nonpos.2 h.le)), if_neg (neg_ne_zero.2 h.ne'), if_pos h]
    simp

theorem harmonic2_even (he : env.Even) (a b : P) : Even (harmonic2_setup env a b : List (Coupling P K F)) := by
  apply even_keys (he.keys a).perm
  intro k1 _ x p k
  rw [total_flatMap, total_flatMap, star_list_sum, List.map_map]
  have h1 := (he.keys a).perm.map (fun k2 => total (if opposite (env.center (-k1)) (env.center k2) then [] else
    if env.reject (-k1 + k2) then [] else [Coupling.triplet (a, -k1) (a, k2) (b, -k1 + k2) 1]) (mirror x) (p, -k))
  rw [← h1.sum_eq, List.map_map]
  congr 1
  apply List.map_congr_left
  intro k2 _
  show total (if opposite (env.center (-k1)) (env.center (-k2)) then [] else if env.reject (-k1 + -k2) then [] else _) _ _ =
    star (total (if opposite (env.center k1) (env.center k2) then [] else if env.reject (k1 + k2) then [] else _) _ _)
  have hs : -k1 + -k2 = -(k1 + k2) := (neg_add k1 k2).symm
  rw [hs, he.reject, he.center, he.center, opposite_neg]
  by_cases ho : opposite (env.center k1) (env.center k2) = true
  · rw [if_pos ho, if_pos ho, total_nil, total_nil, star_zero]
  rw [if_neg ho, if_neg ho]
  by_cases hr : env.reject (k1 + k2) = true
  · rw [if_pos hr, if_pos hr, total_nil, total_nil, star_zero]
  · rw [if_neg hr, if_neg hr, total_single, total_single, ← triplet_mirror, star_one]

theorem mean_square_even (env : SEnv P K R F) (a b : P) (already ks : List K) :
    Even (mean_square_loop env a b already ks : List (Coupling P K F)) := by
  have cons : ∀ (c : Coupling P K F) (cs : List (Coupling P K F)), Even [c] → Even cs → Even (c :: cs) := by
    intro c cs h1 h2
    exact even_append (cs := [c]) h1 h2
  induction ks generalizing already with
  | nil => exact even_nil
  | cons k ks ih =>
    rw [mean_square_loop]
    split_ifs with h1 h2 h3
    · exact ih _
    · apply cons _ _ _ (ih _)
      intro x p l
      subst h2
      rw [total_single, total_single]
      show (if (b, (0 : K)) = (p, -l) then (1 : F) * ([(a, (0 : K))].map (mirror x)).prod * mirror x (a, 0) else 0) =
        star (if (b, (0 : K)) = (p, l) then (1 : F) * ([(a, (0 : K))].map x).prod * x (a, 0) else 0)
      have e : ((b, (0 : K)) = (p, -l)) ↔ ((b, (0 : K)) = (p, l)) := by
        have := neg_pair b p (0 : K) l
        rwa [neg_zero] at this
      have em : mirror x (a, 0) = star (x (a, 0)) := by
        have := mirror_neg x a 0
        rwa [neg_zero] at this
      by_cases h : (b, (0 : K)) = (p, l)
      · rw [if_pos h, if_pos (e.2 h)]
        simp only [List.map_cons, List.map_nil, List.prod_cons, List.prod_nil, em, mul_one, one_mul, star_mul']
      · rw [if_neg h, if_neg (fun h' => h (e.1 h')), star_zero]
    · exact ih _
    · apply cons _ _ _ (ih _)
      intro x p l
      rw [total_single, total_single]
      show (if (b, (0 : K)) = (p, -l) then (1 / 2 : F) * mirror x (a, k) * mirror x (a, -k) else 0) =
        star (if (b, (0 : K)) = (p, l) then (1 / 2 : F) * x (a, k) * x (a, -k) else 0)
      have e : ((b, (0 : K)) = (p, -l)) ↔ ((b, (0 : K)) = (p, l)) := by
        have := neg_pair b p (0 : K) l
        rwa [neg_zero] at this
      by_cases h : (b, (0 : K)) = (p, l)
      · rw [if_pos h, if_pos (e.2 h), mirror_neg, star_mul', star_mul', star_half]
        show 1 / 2 * star (x (a, -k)) * star (x (a, k)) = _
        ring
      · rw [if_neg h, if_neg (fun h' => h (e.1 h')), star_zero]

/-! ## the properties -/

/-- **C59, every element.**  What an element with real data makes of the conjugate field is the conjugate of what it
makes of the field, for all iteration orders of the keys. -/
theorem C59_element (he : env.Even) (e : SElem P K R F) (hr : e.Real env) {cs : List (Coupling P K F)}
    (h : e.setup env = .ok cs) (x : P × K → F) (p : P) (k : K) :
    (cs.map (fun c => c.into (mirror x) (p, -k))).sum = star (cs.map (fun c => c.into x (p, k))).sum := by
  suffices hE : Even cs from hE x p k
  cases e with
  | siso e => exact siso_even he e hr h
  | distribution p g => cases h; exact distribution_even he p hr
  | summing p g => cases h; exact summing_even he p hr
  | generator e => cases h; exact generator_even he e hr.1 hr.2
  | mixer a b c d => cases h; exact mixer_even he a b c d
  | modulator a b c d φ => cases h; exact modulator_even he a b c d hr
  | harmonic2 a b => cases h; exact harmonic2_even he a b
  | meanSquare a b => cases h; exact mean_square_even env a b _ _
  | wire a b => cases h; exact wire_even he a b

/-- Zero-pole filters with a real gain and a real delay (C57) are elements with real data. -/
theorem C59_rational (env : SEnv P K R F) (r : Rational F) {sym : Sym F} (hs : sym.Real) (hg : star r.gain = r.gain)
    (hd : ∀ d, r.delay_s = some d → star d = d) (no_DC : Bool) (c : Option R) (cl : R) (p q : P) :
    (SElem.siso ⟨no_DC, c, cl, p, q, r.filter_func sym⟩ : SElem P K R F).Real env :=
  fun _ hf => C57_conjugate r hs hf hg hd

/-- `x` solves the (nonlinear) node equations of a system of signal elements. -/
def Solves (cs : List (Coupling P K F)) (x : P × K → F) : Prop :=
  ∀ t, x t = (cs.map (fun c => c.into x t)).sum

/-- **C59.**  If a field solves the equations of a system of elements with real data, so does its conjugate field; when the
solution is unique, the amplitude at `-k` is the conjugate of the amplitude at `k`: all signals are real. -/
theorem C59_real (he : env.Even) (es : List (SElem P K R F)) (hr : ∀ e ∈ es, e.Real env) {cs : List (Coupling P K F)}
    (h : blocks (es.map (SElem.setup env)) = .ok cs) {x : P × K → F} (hx : Solves cs x) :
    Solves cs (fun t => star (x (t.1, -t.2))) ∧
    ((∀ y, Solves cs y → y = x) → ∀ p k, x (p, -k) = star (x (p, k))) := by
  have hE : Even cs := by
    rw [blocks_flatMap h, List.flatMap_map]
    have hall := (blocks_sum h).1
    apply even_flatMap
    intro e hm
    obtain ⟨ds, hd⟩ := hall _ (List.mem_map_of_mem hm)
    rw [hd]
    exact fun x p k => C59_element he e (hr e hm) hd x p k
  have h1 : Solves cs (mirror x) := by
    rintro ⟨p, k⟩
    have := hE x p (-k)
    rw [neg_neg] at this
    exact (this.trans (congrArg star (hx (p, -k)).symm)).symm
  refine ⟨h1, fun hu p k => ?_⟩
  have := congrFun (hu _ h1) (p, -k)
  rw [← this, mirror_neg]

end Signal
