import Verif.Layout.ToZ
import Verif.Layout.Props
import Verif.Layout.Positions
import Mathlib.Algebra.Order.Field.Basic
import Mathlib.Algebra.Order.BigOperators.Group.List
import Mathlib.Tactic.Linarith

/-!
# The matrix to a place is that of the light path up to the place
-/

set_option linter.unusedSectionVars false

namespace Alm
open Py

variable {V : Type} [Field V] [LinearOrder V] [IsStrictOrderedRing V]

/-- The total length of elements. -/
def total_length (l : List (Leaf V)) : V := (l.map Leaf.length).sum

/-- `P` is what the light has passed at the place `z` of the elements `ls`: some of the first elements, and perhaps a part of a space
after them.  (At the place of a thin element there are two such lists, without it and with it.) -/
def Cut (ls : List (Leaf V)) (z : V) (P : List (Leaf V)) : Prop :=
  (∃ post, ls = P ++ post ∧ total_length P = z) ∨
  (∃ pre L n post s, ls = pre ++ .space L n :: post ∧ 0 ≤ s ∧ s ≤ L ∧ P = pre ++ [.space s n] ∧ total_length pre + s = z)

theorem total_length_append (l m : List (Leaf V)) : total_length (l ++ m) = total_length l + total_length m := by
  simp [total_length]

theorem total_length_nonneg {l : List (Leaf V)} (h : ∀ x ∈ l, 0 ≤ x.length) : 0 ≤ total_length l := by
  unfold total_length
  apply List.sum_nonneg
  intro x hx
  obtain ⟨y, hy, rfl⟩ := List.mem_map.mp hx
  exact h y hy

theorem Cut.wrap {A B C P : List (Leaf V)} {z p : V} (h : Cut B (z - p) P) (hp : total_length A = p) :
    Cut (A ++ (B ++ C)) z (A ++ P) := by
  rcases h with ⟨post, h1, h2⟩ | ⟨pre, L, n, post, s, h1, h2, h3, h4, h5⟩
  · refine Or.inl ⟨post ++ C, ?_, ?_⟩
    · rw [h1]; simp
    · rw [total_length_append, h2, hp]; ring
  · refine Or.inr ⟨A ++ pre, L, n, post ++ C, s, ?_, h2, h3, ?_, ?_⟩
    · rw [h1]; simp
    · rw [h4]; simp
    · rw [total_length_append, hp]
      linear_combination h5

/-! ## Searching sorted lists -/

theorem takeWhile_get {l : List V} {f : V → Bool} {i : Nat} (h : i < (l.takeWhile f).length) : ∃ p, l[i]? = some p ∧ f p = true := by
  induction l generalizing i with
  | nil => simp at h
  | cons x l ih =>
    rw [List.takeWhile_cons] at h
    split at h
    · rename_i hx
      cases i with
      | zero => exact ⟨x, rfl, hx⟩
      | succ i => exact ih (by simpa using h)
    · simp at h

theorem takeWhile_stop {l : List V} {f : V → Bool} {p : V} (h : l[(l.takeWhile f).length]? = some p) : f p = false := by
  induction l with
  | nil => simp at h
  | cons x l ih =>
    rw [List.takeWhile_cons] at h
    split at h
    · rename_i hx
      exact ih (by simpa using h)
    · rename_i hx
      simp at h
      rw [← h]
      simpa using hx

theorem takeWhile_ge {l : List V} {f : V → Bool} {k : Nat} (hk : k ≤ l.length) (h : ∀ j < k, ∀ p, l[j]? = some p → f p = true) :
    k ≤ (l.takeWhile f).length := by
  induction l generalizing k with
  | nil => simpa using hk
  | cons x l ih =>
    cases k with
    | zero => exact Nat.zero_le _
    | succ k =>
      rw [List.takeWhile_cons, if_pos (h 0 (Nat.succ_pos _) x rfl)]
      have := ih (k := k) (by simpa using hk) (fun j hj p hp => h (j + 1) (by omega) p (by simpa using hp))
      simpa using this

theorem takeWhile_le (l : List V) (f : V → Bool) : (l.takeWhile f).length ≤ l.length := (List.takeWhile_prefix f).length_le

namespace Comp

/-- Every element has a length that is not negative. -/
def Nonneg (c : Comp V) : Prop := ∀ x ∈ leaves c, 0 ≤ x.length

/-- The outcome of `matrix_target_to_z_single(t, z)` for places within the layout. -/
def Reach (c : Comp V) (t : Tgt) (z : V) (r : Except Err (Arr V)) : Prop :=
  ∀ L1, before c t = some L1 → 0 ≤ z → z ≤ c.width →
    ∃ a P, r = .ok a ∧ a.Ok ∧ Cut (leaves c) z P ∧ a.m * prod L1 = prod P

theorem to_z_at_eq (l : List (Comp V)) (i : Nat) (t : Tgt) (z : V) (c : Comp V) (h : l[i]? = some c) :
    to_z_at l i t z = to_z c t z := by
  induction l generalizing i with
  | nil => simp at h
  | cons d l ih =>
    cases i with
    | zero =>
      cases Option.some.inj h
      rw [to_z_at]
    | succ i =>
      rw [to_z_at]
      exact ih i (by simpa using h)

/-- What is known about the parts of a system. -/
structure Parts (pos : List V) (l : List (Comp V)) : Prop where
  ne : leavesL l ≠ []
  wf : WFL l
  len : pos.length = l.length + 1
  get : ∀ i ≤ l.length, pos[i]? = some (total_length (leavesL (l.take i)))
  mono : ∀ i j, i ≤ j → total_length (leavesL (l.take i)) ≤ total_length (leavesL (l.take j))
  step : ∀ i c, l[i]? = some c → total_length (leavesL (l.take (i + 1))) = total_length (leavesL (l.take i)) + c.width
  width : Comp.width (.sys pos l) = total_length (leavesL l)

theorem parts {pos : List V} {l : List (Comp V)} (hw : WF (.sys pos l)) (ht : AllTiled (.sys pos l)) (hn : Nonneg (.sys pos l)) :
    Parts pos l := by
  have htl := ht.2
  have hsub : ∀ i, AllTiledL (l.take i) := fun i => (AllTiledL_iff _).mpr fun c hc => (AllTiledL_iff _).mp htl c (List.mem_of_mem_take hc)
  have hlw : ∀ i, ((l.take i).map Comp.width).sum = total_length (leavesL (l.take i)) := fun i => (leavesL_width _ (hsub i)).symm
  have hpos : pos = stack_positions 0 l := ht.1.eq
  refine ⟨hw.1, hw.2, ht.1.1, ?_, ?_, ?_, ?_⟩
  · intro i hi
    rw [hpos, stack_positions_get 0 l i hi, zero_add, hlw]
  · intro i j hij
    have : l.take j = l.take i ++ (l.take j).drop i := by
      conv_lhs => rw [← List.take_append_drop i (l.take j)]
      rw [List.take_take, Nat.min_eq_left hij]
    rw [this, leavesL_append, total_length_append]
    have h0 : 0 ≤ total_length (leavesL ((l.take j).drop i)) := by
      apply total_length_nonneg
      intro x hx
      apply hn
      have : l = l.take i ++ (l.take j).drop i ++ l.drop j := by
        rw [← this, List.take_append_drop]
      rw [leaves, this, leavesL_append, leavesL_append]
      exact List.mem_append_left _ (List.mem_append_right _ hx)
    linarith
  · intro i c hc
    obtain ⟨hi, rfl⟩ := List.getElem?_eq_some_iff.mp hc
    rw [List.take_succ_eq_append_getElem hi, leavesL_append, total_length_append]
    congr 1
    have := width_leaves l[i] ((AllTiledL_iff _).mp htl _ (List.getElem_mem hi))
    rw [this, leavesL, leavesL, List.append_nil]
    rfl
  · exact width_leaves _ ht

theorem between_ok {d : Comp V} (hw : WF d) {t1 t2 : Tgt} {L1 L2 : List (Leaf V)} (h1 : before d t1 = some L1)
    (h2 : before d t2 = some L2) : ∃ a : Arr V, (matrix_between d t1 t2 []).1 = .ok a ∧ a.Ok ∧ a.m * prod L1 = prod L2 :=
  (between_spec d d [] rfl hw t1 t2 _ (history_good hw [])).2 L1 L2 h1 h2

theorem space_zero : matrix_space (0 : V) = 1 := rfl

theorem pos_at_ok {pos : List V} {i : Nat} {p : V} (h : pos[i]? = some p) : pos_at pos i = .ok p := by
  unfold pos_at
  rw [h]

/-- The leaves of a list around one of its members. -/
theorem leaves_split {l : List (Comp V)} {i : Nat} {d : Comp V} (hd : l[i]? = some d) :
    leavesL l = leavesL (l.take i) ++ (leaves d ++ leavesL (l.drop (i + 1))) := by
  conv_lhs => rw [split_at hd]
  rw [leavesL_append, leavesL]

/-- The leaves of a list between two of its members. -/
theorem leaves_between {l : List (Comp V)} {i j : Nat} {d : Comp V} (hd : l[i]? = some d) (hij : i < j) :
    leavesL (l.take j) = leavesL (l.take i) ++ (leaves d ++ leavesL ((l.take j).drop (i + 1))) := by
  have h : (l.take j)[i]? = some d := by
    rw [List.getElem?_take, if_pos hij, hd]
  have := leaves_split h
  rwa [List.take_take, Nat.min_eq_left (le_of_lt hij)] at this

theorem at_single_spec {pos : List V} {l : List (Comp V)} (hp : Parts pos l)
    (ih : ∀ (i : Nat) (d : Comp V), l[i]? = some d → ∀ t z, Reach d t z (to_z d t z)) {z : V} (h0 : 0 ≤ z) (h1 : z ≤ total_length (leavesL l)) :
    ∃ a P, at_single pos l (fun i t z => to_z_at l i t z) z = .ok a ∧ a.Ok ∧ Cut (leavesL l) z P ∧ a.m = prod P := by
  obtain ⟨full, hf, hfok, hfm, -⟩ := matrices_ok hp.wf (acc := Arr.eye) rfl
  have hge : 1 ≤ search_right pos z := by
    refine takeWhile_ge (by rw [hp.len]; omega) ?_
    intro j hj p hpj
    obtain rfl : j = 0 := by omega
    rw [hp.get 0 (Nat.zero_le _)] at hpj
    cases hpj
    simpa [leavesL, total_length] using h0
  obtain ⟨idx, hidx⟩ : ∃ idx, search_right pos z = idx + 1 := ⟨search_right pos z - 1, by omega⟩
  have hle : search_right pos z ≤ pos.length := takeWhile_le _ _
  rw [hp.len, hidx] at hle
  obtain ⟨p, hpg, hpz⟩ := takeWhile_get (l := pos) (f := fun p => p ≤ z) (i := idx) (by
    show idx < search_right pos z
    omega)
  have hpz' : p ≤ z := by simpa using hpz
  have hpe := hpg
  rw [hp.get idx (by omega)] at hpe
  unfold at_single
  rw [hf, except_bind_ok, hidx]
  dsimp only
  by_cases hlt : idx < l.length
  · rw [if_pos hlt]
    obtain ⟨d, hd⟩ : ∃ d, l[idx]? = some d := ⟨l[idx], List.getElem?_eq_getElem hlt⟩
    obtain ⟨mat, hm, hmok, hmm, -⟩ := matrices_ok (WFL_take idx hp.wf) (acc := Arr.eye) rfl
    have hstop : z < p + d.width := by
      have h2 := hp.get (idx + 1) (by omega)
      rw [hp.step idx d hd, Option.some.inj hpe] at h2
      have := takeWhile_stop (l := pos) (f := fun p => p ≤ z) (p := p + d.width) (by
        show pos[search_right pos z]? = _
        rw [hidx, h2])
      simpa using this
    obtain ⟨a, P, ha, haok, hcut, ham⟩ := ih idx d hd TargetLeft (z - p) [] (before_left d) (by linarith) (by linarith)
    obtain ⟨m1, m2⟩ := Arr.mul_ok haok hmok
    refine ⟨a.mul mat, leavesL (l.take idx) ++ P, ?_, m1, ?_, ?_⟩
    · rw [hm, except_bind_ok, pos_at_ok hpg, except_bind_ok, to_z_at_eq l idx _ _ d hd, ha, except_bind_ok]
    · rw [leaves_split hd]
      exact hcut.wrap (Option.some.inj hpe)
    · rw [m2, hmm, prod_append, ← ham, eye_m, prod, mul_one, mul_one]
  · rw [if_neg hlt]
    obtain rfl : idx = l.length := by omega
    rw [List.take_length] at hpe
    have hzp : z = p := le_antisymm (by rw [← Option.some.inj hpe]; exact h1) hpz'
    obtain ⟨m1, m2⟩ := Arr.mul_ok (a := Arr.mx (matrix_space (z - p))) trivial hfok
    refine ⟨_, leavesL l, ?_, m1, Or.inl ⟨[], (List.append_nil _).symm, ?_⟩, ?_⟩
    · have : pos.length - 1 = l.length := by rw [hp.len]; rfl
      rw [this, pos_at_ok hpg, except_bind_ok]
    · rw [hzp]
      exact Option.some.inj hpe
    · rw [m2, hfm, eye_m, mul_one, hzp, sub_self]
      show matrix_space (0 : V) * _ = _
      rw [space_zero, one_mul]

theorem sys_to_z_spec {pos : List V} {l : List (Comp V)} (hp : Parts pos l)
    (ih : ∀ (i : Nat) (d : Comp V), l[i]? = some d → ∀ t z, Reach d t z (to_z d t z)) (t : Tgt) (z : V) :
    Reach (.sys pos l) t z (sys_to_z pos l (fun i t z => to_z_at l i t z) t z) := by
  intro L1 hL h0 h1
  rw [hp.width] at h1
  show ∃ a P, _ ∧ _ ∧ Cut (leavesL l) z P ∧ _
  unfold sys_to_z
  by_cases hl : t = TargetLeft
  · subst hl
    rw [if_pos rfl]
    obtain ⟨a, P, ha, haok, hc, ham⟩ := at_single_spec hp ih h0 h1
    rw [show before (.sys pos l) TargetLeft = some [] from before_left _] at hL
    cases hL
    exact ⟨a, P, ha, haok, hc, by rw [prod, mul_one, ham]⟩
  rw [if_neg hl]
  by_cases hr : t = TargetRight
  · subst hr
    rw [if_pos rfl]
    obtain ⟨a, P, ha, haok, hc, ham⟩ := at_single_spec hp ih h0 h1
    rw [show before (.sys pos l) TargetRight = some (leavesL l) from before_right _] at hL
    cases hL
    obtain ⟨full, hf, -, hfm, hfx⟩ := matrices_ok hp.wf (acc := Arr.eye) rfl
    have hx := hfx (Or.inl (ne_nil_of_leavesL hp.ne))
    cases full with
    | nd m => exact hx.elim
    | mx m =>
      rw [eye_m, mul_one] at hfm
      have hfm' : m = prod (leavesL l) := hfm
      obtain ⟨n, hn1, hn2, hn3⟩ := inv_ok (m := m) (by
        rw [hfm']
        exact det_prod (leavesL_WF (fun c _ hc => leaves_WF c hc) hp.wf))
      have hinv : Arr.inv (.mx m) = .ok (.mx n) := by
        show (Mat.inv m >>= fun m => pure (Arr.mx m)) = _
        rw [hn1]
        rfl
      obtain ⟨m1, m2⟩ := Arr.mul_ok (b := Arr.mx n) haok trivial
      refine ⟨a.mul (.mx n), P, ?_, m1, hc, ?_⟩
      · rw [ha, except_bind_ok, hf, except_bind_ok, hinv, except_bind_ok]
      · rw [m2, ham, ← hfm', mul_assoc]
        show prod P * (n * m) = _
        rw [hn3, mul_one]
  rw [if_neg hr]
  by_cases hi : ∃ i inner, t = .idx i :: inner
  swap
  · rw [before_sys hl hr (fun i inner h => hi ⟨i, inner, h⟩)] at hL
    cases hL
  obtain ⟨i, inner, rfl⟩ := hi
  obtain ⟨d, K, hd, hK, rfl⟩ := before_idx hL
  have hil : i < l.length := (List.getElem?_eq_some_iff.mp hd).1
  have hwd : WF d := (WFL_iff l).mp hp.wf d (List.mem_of_getElem? hd)
  have hpL := hp.get i (le_of_lt hil)
  have hpR := hp.get (i + 1) hil
  dsimp only
  rw [hd]
  dsimp only
  rw [pos_at_ok hpL, except_bind_ok, pos_at_ok hpR, except_bind_ok]
  generalize hA : total_length (leavesL (l.take i)) = pL at *
  generalize hB : total_length (leavesL (l.take (i + 1))) = pR at *
  have hstep : pR = pL + d.width := by rw [← hA, ← hB]; exact hp.step i d hd
  by_cases hz : z < pL
  · rw [if_pos hz]
    obtain ⟨mat, hm, hmok, hmm⟩ := between_ok hwd hK (before_left d)
    rw [show (matrix_between d inner TargetLeft []).1 = .ok mat from hm, except_bind_ok]
    rw [prod] at hmm
    cases hs : search_left pos z with
    | zero =>
      obtain ⟨b, n, hb, hbok, hbm, hn⟩ := matrices_inv_ok (WFL_take i hp.wf) hmok
      have h00 := hp.get 0 (Nat.zero_le _)
      have hz0 : z = 0 := by
        have := takeWhile_stop (l := pos) (f := fun p => p < z) (p := 0) (by
          show pos[search_left pos z]? = _
          rw [hs, h00]
          simp [leavesL, total_length])
        have h2 : z ≤ 0 := by simpa using this
        exact le_antisymm h2 h0
      have h00' : pos[0]? = some 0 := by
        rw [h00]
        simp [leavesL, total_length]
      obtain ⟨m1, m2⟩ := Arr.mul_ok (a := Arr.mx (matrix_space (z - 0))) trivial hbok
      refine ⟨_, [], ?_, m1, Or.inl ⟨leavesL l, rfl, by simp [total_length, hz0]⟩, ?_⟩
      · dsimp only
        rw [hb, except_bind_ok, pos_at_ok h00', except_bind_ok]
      · rw [m2, hz0, sub_self]
        show matrix_space (0 : V) * b.m * _ = _
        rw [space_zero, one_mul, hbm, prod_append, prod, mul_assoc, ← mul_assoc mat.m, hmm, one_mul, hn.1]
    | succ idx =>
      dsimp only
      obtain ⟨p, hpg, hpz⟩ := takeWhile_get (l := pos) (f := fun p => p < z) (i := idx) (by
        show idx < search_left pos z
        omega)
      have hpz' : p < z := by simpa using hpz
      have hidx : idx < i := by
        by_contra hge
        obtain ⟨q, hq, hqz⟩ := takeWhile_get (l := pos) (f := fun p => p < z) (i := i) (by
          show i < search_left pos z
          omega)
        rw [hpL] at hq
        cases hq
        have : pL < z := by simpa using hqz
        exact absurd this (not_lt.mpr (le_of_lt hz))
      have hpe := hpg
      rw [hp.get idx (by omega)] at hpe
      obtain ⟨e, he⟩ : ∃ e, l[idx]? = some e := ⟨l[idx]'(by omega), List.getElem?_eq_getElem (by omega)⟩
      have hstop : z ≤ p + e.width := by
        have h2 := hp.get (idx + 1) (by omega)
        rw [hp.step idx e he, Option.some.inj hpe] at h2
        have := takeWhile_stop (l := pos) (f := fun p => p < z) (p := p + e.width) (by
          show pos[search_left pos z]? = _
          rw [hs, h2])
        simpa using this
      obtain ⟨b, n, hb, hbok, hbm, hn⟩ := matrices_inv_ok (WFL_drop (idx + 1) (WFL_take i hp.wf)) hmok
      obtain ⟨a, P, ha, haok, hcut, ham⟩ := ih idx e he TargetRight (z - p) (leaves e) (before_right e) (by linarith) (by linarith)
      obtain ⟨m1, m2⟩ := Arr.mul_ok haok hbok
      refine ⟨a.mul b, leavesL (l.take idx) ++ P, ?_, m1, ?_, ?_⟩
      · rw [hb, except_bind_ok, pos_at_ok hpg, except_bind_ok, to_z_at_eq l idx _ _ e he, ha, except_bind_ok]
      · rw [leaves_split he]
        exact hcut.wrap (Option.some.inj hpe)
      · rw [m2, hbm, leaves_between he hidx, prod_append, prod_append, prod_append, prod_append, ← ham]
        have e1 : ∀ x y w : Mat V, a.m * (n * mat.m) * (prod K * (x * y * w)) = a.m * (n * ((mat.m * prod K) * x)) * (y * w) := by
          intro x y w
          simp only [mul_assoc]
        rw [e1, hmm, one_mul, hn.1, mul_one, mul_assoc]
  rw [if_neg hz]
  have hz' := not_lt.mp hz
  by_cases hz2 : z > pR
  · rw [if_pos hz2]
    obtain ⟨mat, hm, hmok, hmm⟩ := between_ok hwd hK (before_right d)
    rw [show (matrix_between d inner TargetRight []).1 = .ok mat from hm, except_bind_ok]
    have hge : i + 2 ≤ search_right pos z := by
      refine takeWhile_ge (by rw [hp.len]; omega) ?_
      intro j hj p hpj
      rw [hp.get j (by omega)] at hpj
      cases hpj
      have h3 := hp.mono j (i + 1) (by omega)
      rw [hB] at h3
      simpa using le_trans h3 (le_of_lt hz2)
    obtain ⟨idx, hidx⟩ : ∃ idx, search_right pos z = idx + 1 := ⟨search_right pos z - 1, by omega⟩
    have hle : search_right pos z ≤ pos.length := takeWhile_le _ _
    rw [hp.len, hidx] at hle
    obtain ⟨p, hpg, hpz⟩ := takeWhile_get (l := pos) (f := fun p => p ≤ z) (i := idx) (by
      show idx < search_right pos z
      omega)
    have hpz' : p ≤ z := by simpa using hpz
    have hpe := hpg
    rw [hp.get idx (by omega)] at hpe
    rw [hidx, Nat.add_sub_cancel]
    by_cases hlt : idx < l.length
    · rw [if_pos hlt]
      obtain ⟨e, he⟩ : ∃ e, l[idx]? = some e := ⟨l[idx], List.getElem?_eq_getElem hlt⟩
      obtain ⟨b, hb, hbok, hbm, -⟩ := matrices_ok (WFL_drop (i + 1) (WFL_take idx hp.wf)) hmok
      have hstop : z < p + e.width := by
        have h2 := hp.get (idx + 1) (by omega)
        rw [hp.step idx e he, Option.some.inj hpe] at h2
        have := takeWhile_stop (l := pos) (f := fun p => p ≤ z) (p := p + e.width) (by
          show pos[search_right pos z]? = _
          rw [hidx, h2])
        simpa using this
      obtain ⟨a, P, ha, haok, hcut, ham⟩ := ih idx e he TargetLeft (z - p) [] (before_left e) (by linarith) (by linarith)
      obtain ⟨m1, m2⟩ := Arr.mul_ok haok hbok
      refine ⟨a.mul b, leavesL (l.take idx) ++ P, ?_, m1, ?_, ?_⟩
      · rw [hb, except_bind_ok, pos_at_ok hpg, except_bind_ok, to_z_at_eq l idx _ _ e he, ha, except_bind_ok]
      · rw [leaves_split he]
        exact hcut.wrap (Option.some.inj hpe)
      · rw [m2, hbm, leaves_between hd (show i < idx by omega), prod_append, prod_append, prod_append, prod_append, ← ham, ← hmm, prod]
        simp only [mul_assoc, mul_one, one_mul]
    · rw [if_neg hlt]
      obtain rfl : idx = l.length := by omega
      rw [List.take_length] at hpe
      have hzp : z = p := le_antisymm (by rw [← Option.some.inj hpe]; exact h1) hpz'
      obtain ⟨b, hb, hbok, hbm, -⟩ := matrices_ok (WFL_drop (i + 1) hp.wf) hmok
      obtain ⟨m1, m2⟩ := Arr.mul_ok (a := Arr.mx (matrix_space (z - p))) trivial hbok
      refine ⟨_, leavesL l, ?_, m1, Or.inl ⟨[], (List.append_nil _).symm, ?_⟩, ?_⟩
      · have : pos.length - 1 = l.length := by rw [hp.len]; rfl
        rw [hb, except_bind_ok, this, pos_at_ok hpg, except_bind_ok]
      · rw [hzp]
        exact Option.some.inj hpe
      · rw [m2, hbm, hzp, sub_self]
        show matrix_space (0 : V) * _ * _ = _
        rw [space_zero, one_mul, leaves_split hd, prod_append, prod_append, prod_append, ← hmm]
        simp only [mul_assoc]
  · rw [if_neg hz2]
    have hz2' := not_lt.mp hz2
    obtain ⟨a, P, ha, haok, hcut, ham⟩ := ih i d hd inner (z - pL) K hK (by linarith) (by linarith)
    refine ⟨a, leavesL (l.take i) ++ P, ?_, haok, ?_, ?_⟩
    · rw [to_z_at_eq l i _ _ d hd, ha]
    · rw [leaves_split hd]
      exact hcut.wrap hA
    · rw [prod_append, prod_append, ← ham, mul_assoc]

theorem nonneg_part {pos : List V} {l : List (Comp V)} (hn : Nonneg (.sys pos l)) {i : Nat} {d : Comp V} (hd : l[i]? = some d) :
    Nonneg d := by
  intro x hx
  apply hn
  rw [leaves, leaves_split hd]
  exact List.mem_append_right _ (List.mem_append_left _ hx)

/-- `matrix_target_to_z_single` within the layout. -/
theorem to_z_spec (c : Comp V) : WF c → AllTiled c → Nonneg c → ∀ t z, Reach c t z (to_z c t z) := by
  induction c using Comp.ind with
  | thin th rev =>
    intro hw _ _ t z L1 hL h0 h1
    have hz : z = 0 := le_antisymm h1 h0
    rw [to_z, if_neg (not_not.mpr hz)]
    by_cases hr : t = TargetRight
    · subst hr
      rw [if_pos rfl]
      rw [show before (.thin th rev) TargetRight = some _ from before_right _] at hL
      cases hL
      obtain ⟨a, ha, haok, hi⟩ := matrix_inv_spec (.thin th rev) hw
      exact ⟨a, [], ha, haok, Or.inl ⟨_, rfl, by simp [total_length, hz]⟩, hi.1⟩
    · rw [if_neg hr]
      obtain ⟨a, ha, haok, ham, -⟩ := matrix_spec (.thin th rev) hw
      have hL0 : L1 = [] := by
        rw [before] at hL
        split at hL
        · cases hL; rfl
        · split at hL
          · rename_i h
            exact absurd h hr
          · split at hL
            · cases hL; rfl
            · cases hL
      refine ⟨a, leaves (.thin th rev), ha, haok, Or.inl ⟨[], (List.append_nil _).symm, ?_⟩, ?_⟩
      · simp [total_length, leaves, Leaf.length, hz]
      · rw [hL0, prod, mul_one, ham]
  | space L n =>
    intro hw _ _ t z L1 hL h0 h1
    have hn : n ≠ 0 := hw
    have h1' : z ≤ L := h1
    rw [to_z, if_neg (by
      rintro (h | h)
      · exact absurd h (not_lt.mpr h0)
      · exact absurd h (not_lt.mpr h1'))]
    have hcut : Cut (leaves (.space L n)) z [.space z n] :=
      Or.inr ⟨[], L, n, [], z, rfl, h0, h1', rfl, by simp [total_length]⟩
    by_cases hr : t = TargetRight
    · subst hr
      rw [if_pos rfl]
      rw [show before (.space L n) TargetRight = some _ from before_right _] at hL
      cases hL
      refine ⟨.mx ⟨1, (z - L) / n, 0, 1⟩, [.space z n], ?_, trivial, hcut, ?_⟩
      · rw [pydiv_ok' hn, except_bind_ok]
      · rw [leaves, prod, prod, prod, prod, one_mul, one_mul]
        show Mat.mul _ _ = _
        simp only [Leaf.abcd, Arr.m, Mat.mul]
        congr 1 <;> ring
    · rw [if_neg hr]
      have hL0 : L1 = [] := by
        rw [before] at hL
        split at hL
        · cases hL; rfl
        · split at hL
          · rename_i h
            exact absurd h hr
          · cases hL
      refine ⟨.mx ⟨1, z / n, 0, 1⟩, [.space z n], ?_, trivial, hcut, ?_⟩
      · rw [pydiv_ok' hn, except_bind_ok]
      · rw [hL0, prod, prod, prod, one_mul, mul_one]
        rfl
  | sys pos l ih =>
    intro hw ht hn t z
    rw [to_z]
    refine sys_to_z_spec (parts hw ht hn) ?_ t z
    intro i d hd
    exact ih d (List.mem_of_getElem? hd) ((WFL_iff l).mp hw.2 d (List.mem_of_getElem? hd))
      ((AllTiledL_iff l).mp ht.2 d (List.mem_of_getElem? hd)) (nonneg_part hn hd)
  | mount s ih =>
    intro hw ht hn t z L1 hL h0 h1
    have ihs := ih hw ht hn
    rw [to_z.eq_def]
    dsimp only
    by_cases hl : t = TargetLeft
    · subst hl
      rw [if_pos rfl]
      rw [show before (.mount s) TargetLeft = some _ from before_left _] at hL
      cases hL
      obtain ⟨a, P, ha, haok, hc, ham⟩ := ihs TargetLeft z [] (before_left s) h0 h1
      obtain ⟨m1, m2⟩ := Arr.mul_ok (b := Arr.mx Mat.eye) haok trivial
      refine ⟨_, P, by rw [ha, except_bind_ok], m1, hc, ?_⟩
      rw [m2]
      show a.m * 1 * _ = _
      rw [mul_one, ham]
    rw [if_neg hl]
    by_cases hr : t = TargetRight
    · subst hr
      rw [if_pos rfl]
      rw [show before (.mount s) TargetRight = some _ from before_right _] at hL
      cases hL
      obtain ⟨a, P, ha, haok, hc, ham⟩ := ihs TargetRight z (leaves s) (before_right s) h0 h1
      obtain ⟨m1, m2⟩ := Arr.mul_ok (b := Arr.mx Mat.eye) haok trivial
      refine ⟨_, P, by rw [ha, except_bind_ok], m1, hc, ?_⟩
      rw [m2]
      show a.m * 1 * _ = _
      rw [mul_one]
      exact ham
    rw [if_neg hr]
    cases t with
    | nil =>
      rw [before_mount_nil] at hL
      cases hL
    | cons tok inner =>
      obtain ⟨hne, hin⟩ := before_mount hl hr hL
      obtain ⟨a, P, ha, hrest⟩ := ihs inner z L1 hin h0 h1
      refine ⟨a, P, ?_, hrest⟩
      split
      · rename_i h
        cases h
      · rename_i h
        cases h
        exact absurd rfl hne
      · rename_i h
        cases h
        exact ha

end Comp
end Alm
