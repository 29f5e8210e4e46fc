import Mathlib.Tactic.Ring
import Mathlib.Tactic.FieldSimp
import Mathlib.Tactic.LinearCombination
import Mathlib.Algebra.BigOperators.Group.List.Basic
import Verif.Inject.Basic
import Verif.Circuit.Spec

/-!
# The elements obey the circuit laws (C42)
-/

set_option linter.unusedSectionVars false

namespace Circuit
open Py Inject

variable {P K F : Type} [DecidableEq P] [DecidableEq K] [Field F] [DecidableEq F]

/-- what a list of couplings adds to a node -/
def total (cs : List (Coupling P K F)) (x : P × K → F) (t : P × K) : F := (cs.map (fun c => c.into x t)).sum

theorem total_nil (x : P × K → F) (t : P × K) : total ([] : List (Coupling P K F)) x t = 0 := rfl

theorem total_append (cs ds : List (Coupling P K F)) (x : P × K → F) (t : P × K) :
    total (cs ++ ds) x t = total cs x t + total ds x t := by
  simp [total]

theorem total_cons (c : Coupling P K F) (cs : List (Coupling P K F)) (x : P × K → F) (t : P × K) :
    total (c :: cs) x t = c.into x t + total cs x t := by
  simp [total]

theorem into_edge (x : P × K → F) (p q t : P × K) (v : F) :
    (Coupling.edge p q v).into x t = if q = t then v * x p else 0 := rfl

theorem into_source (x : P × K → F) (q t : P × K) (v : F) :
    (Coupling.source q v).into x t = if q = t then v else 0 := rfl

theorem blocks_nil {cs : List (Coupling P K F)} (h : blocks [] = .ok cs) : cs = [] := by
  injection h with h
  exact h.symm

theorem blocks_cons {b : Except Err (List (Coupling P K F))} {bs : List (Except Err (List (Coupling P K F)))}
    {cs : List (Coupling P K F)} (h : blocks (b :: bs) = .ok cs) :
    ∃ c ds, b = .ok c ∧ blocks bs = .ok ds ∧ cs = c ++ ds := by
  unfold blocks at h
  obtain ⟨c, hc, h1⟩ := bind_ok_inv h
  obtain ⟨ds, hd, h2⟩ := bind_ok_inv h1
  injection h2 with h2
  exact ⟨c, ds, hc, hd, h2.symm⟩

/-- a block of couplings made key by key -/
theorem keyed_into {ks : List K} {p q : P} {g : K → Except Err F} {cs : List (Coupling P K F)}
    (h : ks.mapM (fun k => (g k).map (fun v => Coupling.edge (p, k) (q, k) v)) = .ok cs) (hn : ks.Nodup)
    {k : K} (hk : k ∈ ks) :
    ∃ v, g k = .ok v ∧ ∀ x t, total cs x (t, k) = if q = t then v * x (p, k) else 0 := by
  induction ks generalizing cs with
  | nil => cases hk
  | cons k' ks ih =>
    rw [List.mapM_cons] at h
    obtain ⟨c, hc, h1⟩ := bind_ok_inv h
    obtain ⟨ds, hd, h2⟩ := bind_ok_inv h1
    injection h2 with h2
    subst h2
    cases hg : g k' with
    | error e => rw [hg] at hc; cases hc
    | ok v' =>
      rw [hg] at hc
      injection hc with hc
      subst hc
      have off : ∀ {ks : List K} {ds : List (Coupling P K F)},
          ks.mapM (fun k => (g k).map (fun v => Coupling.edge (p, k) (q, k) v)) = .ok ds → k ∉ ks →
          ∀ x t, total ds x (t, k) = 0 := by
        intro ks
        induction ks with
        | nil =>
          intro ds hd _ x t
          rw [List.mapM_nil] at hd
          injection hd with hd
          subst hd
          rfl
        | cons k2 ks ih2 =>
          intro ds hd hk x t
          rw [List.mapM_cons] at hd
          obtain ⟨c, hc, h1⟩ := bind_ok_inv hd
          obtain ⟨ds', hd', h2⟩ := bind_ok_inv h1
          injection h2 with h2
          subst h2
          cases hg : g k2 with
          | error e => rw [hg] at hc; cases hc
          | ok v2 =>
            rw [hg] at hc
            injection hc with hc
            subst hc
            rw [total_cons, ih2 hd' (fun h => hk (List.mem_cons_of_mem _ h)), into_edge, if_neg, add_zero]
            rw [Prod.mk.injEq]
            rintro ⟨-, rfl⟩
            exact hk List.mem_cons_self
      rcases List.mem_cons.1 hk with rfl | hk'
      · refine ⟨v', hg, ?_⟩
        intro x t
        rw [total_cons, off hd (List.nodup_cons.1 hn).1, into_edge, add_zero]
        by_cases hq : q = t
        · rw [if_pos (by rw [hq]), if_pos hq]
        · rw [if_neg (by rw [Prod.mk.injEq]; exact fun h => hq h.1), if_neg hq]
      · obtain ⟨v, hv, hx⟩ := ih hd (List.nodup_cons.1 hn).2 hk'
        refine ⟨v, hv, ?_⟩
        intro x t
        rw [total_cons, hx, into_edge, if_neg, zero_add]
        rw [Prod.mk.injEq]
        rintro ⟨-, rfl⟩
        exact (List.nodup_cons.1 hn).1 hk'

theorem per_key_into {env : Env P K F} {p q : P} {g : K → Except Err F} {cs : List (Coupling P K F)}
    (h : per_key env p q g = .ok cs) (hn : (env.keys p).Nodup) {k : K} (hk : k ∈ env.keys p) :
    ∃ v, g k = .ok v ∧ ∀ x t, total cs x (t, k) = if q = t then v * x (p, k) else 0 := keyed_into h hn hk

theorem pdiv_ok {a b v : F} (h : pdiv a b = .ok v) : b ≠ 0 ∧ v = a / b := by
  unfold pdiv at h
  split_ifs at h with hb
  injection h with h
  exact ⟨hb, h.symm⟩

theorem dc_into {env : Env P K F} {q : P} {test val : F} {cs : List (Coupling P K F)}
    (h : dc_source env q test val = .ok cs) (h0 : test = 0 → val = 0) (k : K) (x : P × K → F) (t : P) :
    total cs x (t, k) = if q = t then (if k = env.dc then val else 0) else 0 := by
  unfold dc_source at h
  injection h with h
  subst h
  by_cases ht : test = 0
  · rw [if_neg (not_not.2 ht), h0 ht, ite_self, ite_self]
    rfl
  · rw [if_pos ht, total_cons, into_source, total_nil, add_zero]
    by_cases hq : q = t
    · by_cases hk : k = env.dc
      · rw [if_pos (by rw [hq, hk]), if_pos hq, if_pos hk]
      · rw [if_neg (by rw [Prod.mk.injEq]; exact fun h => hk h.2.symm), if_pos hq, if_neg hk]
    · rw [if_neg (by rw [Prod.mk.injEq]; exact fun h => hq h.1), if_neg hq]

theorem ok_source_into {env : Env P K F} {q : P} {val : F} {cs : List (Coupling P K F)}
    (h : (Except.ok [Coupling.source (q, env.dc) val] : Except Err _) = .ok cs) (k : K) (x : P × K → F) (t : P) :
    total cs x (t, k) = if q = t then (if k = env.dc then val else 0) else 0 := by
  injection h with h
  subst h
  rw [total_cons, into_source, total_nil, add_zero]
  by_cases hq : q = t
  · by_cases hk : k = env.dc
    · rw [if_pos (by rw [hq, hk]), if_pos hq, if_pos hk]
    · rw [if_neg (by rw [Prod.mk.injEq]; exact fun h => hk h.2.symm), if_pos hq, if_neg hk]
  · rw [if_neg (by rw [Prod.mk.injEq]; exact fun h => hq h.1), if_neg hq]

/-! ## the scattering blocks -/

theorem setup1_into {env : Env P K F} {S : F → Except Err F} {A : Port P} {cs : List (Coupling P K F)}
    (h : setup1 env S A = .ok cs) (hn : ∀ p, (env.keys p).Nodup) {k : K} (hA : k ∈ env.keys A.i) :
    ∃ r, S (env.freq k) = .ok r ∧ ∀ x t, total cs x (t, k) = if A.o = t then r * x (A.i, k) else 0 :=
  per_key_into h (hn _) hA

theorem setup2_into {env : Env P K F} {S11 S12 S21 S22 : F → Except Err F} {A B : Port P}
    {cs : List (Coupling P K F)} (h : setup2 env S11 S12 S21 S22 A B = .ok cs) (hn : ∀ p, (env.keys p).Nodup) {k : K}
    (hA : k ∈ env.keys A.i) (hB : k ∈ env.keys B.i) (hAB : A.o ≠ B.o) :
    ∃ r t u w, S11 (env.freq k) = .ok r ∧ S12 (env.freq k) = .ok t ∧ S21 (env.freq k) = .ok u ∧
      S22 (env.freq k) = .ok w ∧ ∀ x, total cs x (A.o, k) = r * x (A.i, k) + u * x (B.i, k) ∧
        total cs x (B.o, k) = t * x (A.i, k) + w * x (B.i, k) := by
  unfold setup2 at h
  obtain ⟨c1, _, h1, g1, rfl⟩ := blocks_cons h
  obtain ⟨c2, _, h2, g2, rfl⟩ := blocks_cons g1
  obtain ⟨c3, _, h3, g3, rfl⟩ := blocks_cons g2
  obtain ⟨c4, _, h4, g4, rfl⟩ := blocks_cons g3
  obtain rfl := blocks_nil g4
  obtain ⟨r, hr, e1⟩ := per_key_into h1 (hn _) hA
  obtain ⟨t, ht, e2⟩ := per_key_into h2 (hn _) hA
  obtain ⟨u, hu, e3⟩ := per_key_into h3 (hn _) hB
  obtain ⟨w, hw, e4⟩ := per_key_into h4 (hn _) hB
  refine ⟨r, t, u, w, hr, ht, hu, hw, ?_⟩
  intro x
  simp only [total_append, total_nil, e1, e2, e3, e4, if_pos, if_neg hAB, if_neg (Ne.symm hAB)]
  constructor <;> ring

theorem law_impedance {Z Ze a b : F} (hZe : Ze ≠ 0) (hD : Z + Ze ≠ 0) :
    b = (Z - Ze) / (Z + Ze) * a ↔ a + b = Z * ((a - b) / Ze) := by
  rw [div_mul_eq_mul_div, eq_div_iff hD, mul_div_assoc', eq_div_iff hZe]
  constructor <;> intro h <;> linear_combination h

theorem law_admittance {Y Ze a b : F} (hZe : Ze ≠ 0) (hD : 1 + Y * Ze ≠ 0) :
    b = (1 - Y * Ze) / (1 + Y * Ze) * a ↔ (a - b) / Ze = Y * (a + b) := by
  rw [div_mul_eq_mul_div, eq_div_iff hD, div_eq_iff hZe]
  constructor <;> intro h <;> linear_combination -h

theorem law_series_impedance {Z Ze a b a' b' : F} (hZe : Ze ≠ 0) (hD : Z + Ze * 2 ≠ 0) :
    (b = Z / (Z + Ze * 2) * a + 2 * Ze / (Z + Ze * 2) * a' ∧ b' = 2 * Ze / (Z + Ze * 2) * a + Z / (Z + Ze * 2) * a') ↔
    (a + b - (a' + b') = Z * ((a - b) / Ze) ∧ (a - b) / Ze + (a' - b') / Ze = 0) := by
  rw [← add_div, div_eq_zero_iff, or_iff_left hZe, mul_div_assoc', eq_div_iff hZe, div_mul_eq_mul_div,
    div_mul_eq_mul_div, div_mul_eq_mul_div, div_mul_eq_mul_div, ← add_div, ← add_div, eq_div_iff hD, eq_div_iff hD]
  constructor
  · rintro ⟨h1, h2'⟩
    have hs : a - b + (a' - b') = 0 := by
      apply mul_right_cancel₀ hD
      linear_combination -h1 - h2'
    refine ⟨?_, hs⟩
    linear_combination h1 + Ze * hs
  · rintro ⟨h1, hs⟩
    exact ⟨by linear_combination h1 - Ze * hs, by linear_combination -h1 - (Z + Ze) * hs⟩

theorem law_series_admittance {Y Ze a b a' b' : F} (hZe : Ze ≠ 0) (hD : 1 + Y * Ze * 2 ≠ 0) :
    (b = 1 / (1 + Y * Ze * 2) * a + 2 * Y * Ze / (1 + Y * Ze * 2) * a' ∧
      b' = 2 * Y * Ze / (1 + Y * Ze * 2) * a + 1 / (1 + Y * Ze * 2) * a') ↔
    ((a - b) / Ze = Y * (a + b - (a' + b')) ∧ (a - b) / Ze + (a' - b') / Ze = 0) := by
  rw [← add_div, div_eq_zero_iff, or_iff_left hZe, div_eq_iff hZe, div_mul_eq_mul_div,
    div_mul_eq_mul_div, div_mul_eq_mul_div, div_mul_eq_mul_div, ← add_div, ← add_div, eq_div_iff hD, eq_div_iff hD]
  constructor
  · rintro ⟨h1, h2'⟩
    have hs : a - b + (a' - b') = 0 := by
      apply mul_right_cancel₀ hD
      linear_combination -h1 - h2'
    refine ⟨?_, hs⟩
    linear_combination -h1 - Ze * Y * hs
  · rintro ⟨h1, hs⟩
    exact ⟨by linear_combination -h1 - Ze * Y * hs, by linear_combination h1 - (1 + Y * Ze) * hs⟩

/-! ## the connection -/

theorem sum_flatMap {α : Type} (l : List α) (f : α → List F) : (l.flatMap f).sum = (l.map (fun a => (f a).sum)).sum := by
  induction l with
  | nil => rfl
  | cons a l ih => rw [List.flatMap_cons, List.sum_append, ih, List.map_cons, List.sum_cons]

theorem sum_sub {α : Type} (l : List α) (f g : α → F) :
    (l.map (fun a => f a - g a)).sum = (l.map f).sum - (l.map g).sum := by
  induction l with
  | nil => simp
  | cons a l ih =>
    rw [List.map_cons, List.sum_cons, ih, List.map_cons, List.sum_cons, List.map_cons, List.sum_cons]
    ring

theorem sum_mul_left {α : Type} (l : List α) (c : F) (f : α → F) :
    (l.map (fun a => c * f a)).sum = c * (l.map f).sum := by
  induction l with
  | nil => simp
  | cons a l ih => rw [List.map_cons, List.sum_cons, ih, List.map_cons, List.sum_cons, mul_add]

/-- what a block adds to a node -/
def part (x : P × K → F) (t : P × K) : Except Err (List (Coupling P K F)) → F
  | .ok e => total e x t
  | .error _ => 0

theorem blocks_sum {bs : List (Except Err (List (Coupling P K F)))} {cs : List (Coupling P K F)}
    (h : blocks bs = .ok cs) : (∀ b ∈ bs, ∃ e, b = .ok e) ∧ ∀ x t, total cs x t = (bs.map (part x t)).sum := by
  induction bs generalizing cs with
  | nil =>
    obtain rfl := blocks_nil h
    exact ⟨fun b hb => absurd hb List.not_mem_nil, fun x t => rfl⟩
  | cons b bs ih =>
    obtain ⟨c, ds, rfl, hd, rfl⟩ := blocks_cons h
    obtain ⟨h1, h2⟩ := ih hd
    refine ⟨?_, ?_⟩
    · intro b hb
      rcases List.mem_cons.1 hb with rfl | hb
      · exact ⟨c, rfl⟩
      · exact h1 b hb
    · intro x t
      rw [total_append, h2, List.map_cons, List.sum_cons]
      rfl

theorem sum_unique {α β : Type} [DecidableEq β] (f : α → β) (h : α → F) {l : List α} (hn : (l.map f).Nodup) {q : α}
    (hq : q ∈ l) : (l.map (fun p => if f p = f q then h p else 0)).sum = h q := by
  induction l with
  | nil => cases hq
  | cons a l ih =>
    rw [List.map_cons, List.nodup_cons] at hn
    rw [List.map_cons, List.sum_cons]
    rcases List.mem_cons.1 hq with rfl | hq
    · rw [if_pos rfl]
      have : (l.map (fun p => if f p = f q then h p else 0)) = l.map (fun _ => 0) := by
        apply List.map_congr_left
        intro p hp
        rw [if_neg]
        intro he
        exact hn.1 (he ▸ List.mem_map_of_mem hp)
      rw [this]
      simp
    · rw [ih hn.2 hq, if_neg, zero_add]
      intro he
      exact hn.1 (he ▸ List.mem_map_of_mem hq)

theorem connection_into {env : Env P K F} {ps : List (Port P)} {cs : List (Coupling P K F)}
    (h : connection_setup env ps = .ok cs) (hn : ∀ p, (env.keys p).Nodup) {k : K}
    (hk : ∀ p ∈ ps, k ∈ env.keys p.i) (hd : (ps.map Port.o).Nodup) (x : P × K → F) {q : Port P} (hq : q ∈ ps) :
    (ps.length : F) ≠ 0 ∧
    total cs x (q.o, k) = 2 / (ps.length : F) * (ps.map (fun p => x (p.i, k))).sum - x (q.i, k) := by
  obtain ⟨h1, h2⟩ := blocks_sum h
  obtain ⟨j, hj, hj'⟩ := List.getElem_of_mem hq
  have hz : (q, j) ∈ ps.zipIdx := by
    rw [List.mem_zipIdx_iff_getElem?]
    rw [List.getElem?_eq_getElem hj, hj']
  have hfst : ps.zipIdx.map (fun z => z.1.o) = ps.map Port.o := by
    rw [show (fun z : Port P × Nat => z.1.o) = Port.o ∘ Prod.fst from rfl, ← List.map_map, List.zipIdx_map_fst]
  have hsnd : (ps.zipIdx.map (fun z => z.2)).Nodup := by
    rw [show (fun z : Port P × Nat => z.2) = Prod.snd from rfl, List.zipIdx_map_snd]
    exact List.nodup_range'
  let N : F := (ps.length : F)
  let G : Port P × Nat → Port P × Nat → Except Err F := fun p1 p2 =>
    if p1.2 = p2.2 then pdiv (2 - N) N else pdiv 2 N
  have hG : ∀ p1 ∈ ps.zipIdx, ∀ p2 ∈ ps.zipIdx, N ≠ 0 ∧
      part x (q.o, k) (per_key env p1.1.i p2.1.o (fun _ => G p1 p2)) =
        if p2.1.o = q.o then (if p1.2 = p2.2 then (2 - N) / N else 2 / N) * x (p1.1.i, k) else 0 := by
    intro p1 hp1 p2 hp2
    obtain ⟨e, he⟩ := h1 (per_key env p1.1.i p2.1.o (fun _ => G p1 p2))
      (List.mem_flatMap.2 ⟨p1, hp1, List.mem_map.2 ⟨p2, hp2, rfl⟩⟩)
    have hp1' : p1.1 ∈ ps := (List.zipIdx_map_fst 0 ps) ▸ List.mem_map_of_mem hp1
    obtain ⟨v, hv, hx⟩ := per_key_into he (hn _) (hk _ hp1')
    rw [he]
    dsimp only [part]
    rw [hx]
    dsimp only [G] at hv
    split_ifs at hv with hi
    · obtain ⟨h3, rfl⟩ := pdiv_ok hv
      rw [if_pos hi]
      exact ⟨h3, rfl⟩
    · obtain ⟨h3, rfl⟩ := pdiv_ok hv
      rw [if_neg hi]
      exact ⟨h3, rfl⟩
  have hN : N ≠ 0 := (hG _ hz _ hz).1
  refine ⟨hN, ?_⟩
  rw [h2, List.map_flatMap, sum_flatMap]
  simp only [List.map_map]
  have e1 : (ps.zipIdx.map (fun p1 => (ps.zipIdx.map (part x (q.o, k) ∘ fun p2 =>
      per_key env p1.1.i p2.1.o (fun _ => G p1 p2))).sum)) =
      ps.zipIdx.map (fun p1 => 2 / N * x (p1.1.i, k) - if p1.2 = (q, j).2 then x (p1.1.i, k) else 0) := by
    apply List.map_congr_left
    intro p1 hp1
    have e2 : (ps.zipIdx.map (part x (q.o, k) ∘ fun p2 => per_key env p1.1.i p2.1.o (fun _ => G p1 p2))) =
        ps.zipIdx.map (fun p2 => if p2.1.o = ((q, j) : Port P × Nat).1.o then
          (if p1.2 = p2.2 then (2 - N) / N else 2 / N) * x (p1.1.i, k) else 0) :=
      List.map_congr_left (fun p2 hp2 => (hG p1 hp1 p2 hp2).2)
    rw [e2, sum_unique (fun z : Port P × Nat => z.1.o)
      (fun p2 => (if p1.2 = p2.2 then (2 - N) / N else 2 / N) * x (p1.1.i, k)) (by rw [hfst]; exact hd) hz]
    by_cases hi : p1.2 = (q, j).2
    · rw [if_pos hi, if_pos hi]
      field_simp
    · rw [if_neg hi, if_neg hi, sub_zero]
  refine (congrArg List.sum e1).trans ?_
  rw [sum_sub, sum_unique (fun z : Port P × Nat => z.2) (fun p1 => x (p1.1.i, k)) hsnd hz, sum_mul_left]
  congr 2
  rw [show (fun z : Port P × Nat => x (z.1.i, k)) = (fun p : Port P => x (p.i, k)) ∘ Prod.fst from rfl,
    ← List.map_map, List.zipIdx_map_fst]

theorem law_connection {ps : List (Port P)} {a b : Port P → F} {Ze : F} (hZe : Ze ≠ 0)
    (hN : ps ≠ [] → (ps.length : F) ≠ 0) :
    (∀ q ∈ ps, b q = 2 / (ps.length : F) * (ps.map a).sum - a q) ↔
    ((∀ p ∈ ps, ∀ q ∈ ps, a p + b p = a q + b q) ∧ (ps.map (fun p => (a p - b p) / Ze)).sum = 0) := by
  rcases eq_or_ne ps [] with rfl | hne
  · simp
  have hN := hN hne
  have hdiv : (ps.map (fun p => (a p - b p) / Ze)).sum = ((ps.map a).sum - (ps.map b).sum) / Ze := by
    rw [← sum_sub, div_eq_mul_inv, mul_comm, ← sum_mul_left]
    simp only [div_eq_mul_inv, mul_comm]
  have hconst : ∀ c : F, (ps.map (fun _ => c)).sum = (ps.length : F) * c := by
    intro c
    simp
  rw [hdiv, div_eq_zero_iff, or_iff_left hZe]
  constructor
  · intro h
    refine ⟨?_, ?_⟩
    · intro p hp q hq
      rw [h p hp, h q hq]
      ring
    · have : (ps.map b).sum = (ps.map (fun q => 2 / (ps.length : F) * (ps.map a).sum - a q)).sum := by
        congr 1
        exact List.map_congr_left h
      rw [this, sum_sub, hconst]
      field_simp
      ring
  · rintro ⟨hv, hs⟩ q hq
    have e : (ps.map (fun p => a p + b p)).sum = (ps.map (fun _ => a q + b q)).sum := by
      congr 1
      exact List.map_congr_left (fun p hp => hv p hp q hq)
    rw [hconst, List.sum_map_add] at e
    rw [div_mul_eq_mul_div, eq_sub_iff_add_eq, eq_div_iff hN]
    linear_combination -e - hs

end Circuit
