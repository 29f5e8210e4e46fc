import Verif.Layout.ToZProps

/-!
# Places outside a system: C116
-/

set_option linter.unusedSectionVars false

namespace Alm
open Py

variable {V : Type} [Field V] [LinearOrder V] [IsStrictOrderedRing V]

namespace Comp

theorem at_before {pos : List V} {l : List (Comp V)} (hp : Parts pos l) (sub : Nat → Tgt → V → Except Err (Arr V)) {z : V} (hz : z < 0) :
    at_single pos l sub z = .ok (.mx (matrix_space z)) := by
  obtain ⟨full, hf, -⟩ := matrices_ok hp.wf (acc := Arr.eye) rfl
  have h0 : search_right pos z = 0 := by
    by_contra hc
    obtain ⟨p, hpg, hpz⟩ := takeWhile_get (l := pos) (f := fun p => p ≤ z) (i := 0) (by
      show 0 < search_right pos z
      omega)
    rw [hp.get 0 (Nat.zero_le _)] at hpg
    cases hpg
    simp [leavesL, total_length] at hpz
    linarith
  unfold at_single
  rw [hf, except_bind_ok, h0]

theorem search_after {pos : List V} {l : List (Comp V)} (hp : Parts pos l) {z : V} (hz : total_length (leavesL l) < z) :
    search_right pos z = l.length + 1 := by
  refine le_antisymm ?_ ?_
  · rw [← hp.len]
    exact takeWhile_le _ _
  · refine takeWhile_ge (by rw [hp.len]) ?_
    intro j hj p hpj
    rw [hp.get j (by omega)] at hpj
    cases hpj
    have h3 := hp.mono j l.length (by omega)
    rw [List.take_length] at h3
    simpa using le_trans h3 (le_of_lt hz)

theorem pos_last {pos : List V} {l : List (Comp V)} (hp : Parts pos l) : pos_at pos (pos.length - 1) = .ok (total_length (leavesL l)) := by
  have : pos.length - 1 = l.length := by rw [hp.len]; rfl
  rw [this]
  have h := hp.get l.length le_rfl
  rw [List.take_length] at h
  exact pos_at_ok h

theorem at_after {pos : List V} {l : List (Comp V)} (hp : Parts pos l) (sub : Nat → Tgt → V → Except Err (Arr V)) {z : V}
    (hz : total_length (leavesL l) < z) :
    ∃ a, at_single pos l sub z = .ok a ∧ a.Ok ∧ a.m = matrix_space (z - total_length (leavesL l)) * prod (leavesL l) := by
  obtain ⟨full, hf, hfok, hfm, -⟩ := matrices_ok hp.wf (acc := Arr.eye) rfl
  obtain ⟨m1, m2⟩ := Arr.mul_ok (a := Arr.mx (matrix_space (z - total_length (leavesL l)))) trivial hfok
  refine ⟨_, ?_, m1, ?_⟩
  · unfold at_single
    rw [hf, except_bind_ok, search_after hp hz]
    dsimp only
    rw [if_neg (by omega), pos_last hp, except_bind_ok]
  · rw [m2, hfm, eye_m, mul_one]
    rfl

/-- From the right end of a system. -/
theorem from_right {pos : List V} {l : List (Comp V)} (hp : Parts pos l) {sub : Nat → Tgt → V → Except Err (Arr V)} {z : V} {a : Arr V}
    (ha : at_single pos l sub z = .ok a) (hok : a.Ok) :
    ∃ b, sys_to_z pos l sub TargetRight z = .ok b ∧ b.m * prod (leavesL l) = a.m := by
  obtain ⟨full, hf, -, hfm, hfx⟩ := matrices_ok hp.wf (acc := Arr.eye) rfl
  have hx := hfx (Or.inl (ne_nil_of_leavesL hp.ne))
  cases full with
  | nd m => exact hx.elim
  | mx m =>
    rw [eye_m, mul_one] at hfm
    have hfm' : m = prod (leavesL l) := hfm
    obtain ⟨n, hn1, hn2, hn3⟩ := inv_ok (m := m) (by
      rw [hfm']
      exact det_prod (leavesL_WF (fun c _ hc => leaves_WF c hc) hp.wf))
    have hinv : Arr.inv (.mx m) = .ok (.mx n) := by
      show (Mat.inv m >>= fun m => pure (Arr.mx m)) = _
      rw [hn1]
      rfl
    obtain ⟨m1, m2⟩ := Arr.mul_ok (b := Arr.mx n) hok trivial
    refine ⟨a.mul (.mx n), ?_, ?_⟩
    · unfold sys_to_z
      rw [if_neg (by simp [TargetLeft, TargetRight]), if_pos rfl, ha, except_bind_ok, hf, except_bind_ok, hinv, except_bind_ok]
    · rw [m2, ← hfm', mul_assoc]
      show a.m * (n * m) = _
      rw [hn3, mul_one]

theorem sys_before {pos : List V} {l : List (Comp V)} (hp : Parts pos l) (sub : Nat → Tgt → V → Except Err (Arr V)) {t : Tgt}
    {L1 : List (Leaf V)} (hL : before (.sys pos l) t = some L1) {z : V} (hz0 : z < 0) :
    ∃ a, sys_to_z pos l sub t z = .ok a ∧ a.m * prod L1 = matrix_space z := by
  by_cases hl : t = TargetLeft
  · subst hl
    rw [show before (.sys pos l) TargetLeft = some [] from before_left _] at hL
    cases hL
    refine ⟨.mx (matrix_space z), ?_, ?_⟩
    · unfold sys_to_z
      rw [if_pos rfl, at_before hp sub hz0]
    · rw [prod, mul_one]
      rfl
  by_cases hr : t = TargetRight
  · subst hr
    rw [show before (.sys pos l) TargetRight = some (leavesL l) from before_right _] at hL
    cases hL
    exact from_right hp (at_before hp sub hz0) trivial
  unfold sys_to_z
  rw [if_neg hl, if_neg hr]
  by_cases hi : ∃ i inner, t = .idx i :: inner
  swap
  · rw [before_sys hl hr (fun i inner h => hi ⟨i, inner, h⟩)] at hL
    cases hL
  obtain ⟨i, inner, rfl⟩ := hi
  obtain ⟨d, K, hd, hK, rfl⟩ := before_idx hL
  have hil : i < l.length := (List.getElem?_eq_some_iff.mp hd).1
  have hwd : WF d := (WFL_iff l).mp hp.wf d (List.mem_of_getElem? hd)
  have hpL := hp.get i (le_of_lt hil)
  have hpR := hp.get (i + 1) hil
  have h0L : 0 ≤ total_length (leavesL (l.take i)) := by
    have := hp.mono 0 i (Nat.zero_le _)
    simpa [leavesL, total_length] using this
  dsimp only
  rw [hd]
  dsimp only
  rw [pos_at_ok hpL, except_bind_ok, pos_at_ok hpR, except_bind_ok, if_pos (by linarith)]
  obtain ⟨mat, hm, hmok, hmm⟩ := between_ok hwd hK (before_left d)
  rw [show (matrix_between d inner TargetLeft []).1 = .ok mat from hm, except_bind_ok]
  rw [prod] at hmm
  have hs : search_left pos z = 0 := by
    by_contra hc
    obtain ⟨p, hpg, hpz⟩ := takeWhile_get (l := pos) (f := fun p => p < z) (i := 0) (by
      show 0 < search_left pos z
      omega)
    rw [hp.get 0 (Nat.zero_le _)] at hpg
    cases hpg
    simp [leavesL, total_length] at hpz
    linarith
  rw [hs]
  dsimp only
  obtain ⟨b, n, hb, hbok, hbm, hn⟩ := matrices_inv_ok (WFL_take i hp.wf) hmok
  have h00' : pos[0]? = some 0 := by
    rw [hp.get 0 (Nat.zero_le _)]
    simp [leavesL, total_length]
  obtain ⟨m1, m2⟩ := Arr.mul_ok (a := Arr.mx (matrix_space (z - 0))) trivial hbok
  refine ⟨(Arr.mx (matrix_space (z - 0))).mul b, ?_, ?_⟩
  · rw [hb, except_bind_ok, pos_at_ok h00', except_bind_ok]
  · rw [m2, sub_zero]
    show matrix_space z * b.m * _ = _
    rw [hbm, prod_append, mul_assoc, mul_assoc n, ← mul_assoc mat.m, hmm, one_mul, hn.1, mul_one]

theorem sys_after {pos : List V} {l : List (Comp V)} (hp : Parts pos l) (sub : Nat → Tgt → V → Except Err (Arr V)) {t : Tgt}
    {L1 : List (Leaf V)} (hL : before (.sys pos l) t = some L1) {z : V} (hz : total_length (leavesL l) < z) :
    ∃ a, sys_to_z pos l sub t z = .ok a ∧ a.m * prod L1 = matrix_space (z - total_length (leavesL l)) * prod (leavesL l) := by
  by_cases hl : t = TargetLeft
  · subst hl
    rw [show before (.sys pos l) TargetLeft = some [] from before_left _] at hL
    cases hL
    obtain ⟨a, h1, -, h2⟩ := at_after hp sub hz
    refine ⟨a, ?_, ?_⟩
    · unfold sys_to_z
      rw [if_pos rfl, h1]
    · rw [prod, mul_one, h2]
  by_cases hr : t = TargetRight
  · subst hr
    rw [show before (.sys pos l) TargetRight = some (leavesL l) from before_right _] at hL
    cases hL
    obtain ⟨a, h1, h2, h3⟩ := at_after hp sub hz
    obtain ⟨b, h4, h5⟩ := from_right hp h1 h2
    exact ⟨b, h4, by rw [h5, h3]⟩
  unfold sys_to_z
  rw [if_neg hl, if_neg hr]
  by_cases hi : ∃ i inner, t = .idx i :: inner
  swap
  · rw [before_sys hl hr (fun i inner h => hi ⟨i, inner, h⟩)] at hL
    cases hL
  obtain ⟨i, inner, rfl⟩ := hi
  obtain ⟨d, K, hd, hK, rfl⟩ := before_idx hL
  have hil : i < l.length := (List.getElem?_eq_some_iff.mp hd).1
  have hwd : WF d := (WFL_iff l).mp hp.wf d (List.mem_of_getElem? hd)
  have hpL := hp.get i (le_of_lt hil)
  have hpR := hp.get (i + 1) hil
  have hR : total_length (leavesL (l.take (i + 1))) ≤ total_length (leavesL l) := by
    have := hp.mono (i + 1) l.length hil
    rwa [List.take_length] at this
  have hLR := hp.mono i (i + 1) (by omega)
  dsimp only
  rw [hd]
  dsimp only
  rw [pos_at_ok hpL, except_bind_ok, pos_at_ok hpR, except_bind_ok, if_neg (by linarith), if_pos (by
    show total_length (leavesL (l.take (i + 1))) < z
    linarith)]
  obtain ⟨mat, hm, hmok, hmm⟩ := between_ok hwd hK (before_right d)
  rw [show (matrix_between d inner TargetRight []).1 = .ok mat from hm, except_bind_ok]
  rw [search_after hp hz, Nat.add_sub_cancel, if_neg (by omega)]
  obtain ⟨b, hb, hbok, hbm, -⟩ := matrices_ok (WFL_drop (i + 1) hp.wf) hmok
  obtain ⟨m1, m2⟩ := Arr.mul_ok (a := Arr.mx (matrix_space (z - total_length (leavesL l)))) trivial hbok
  refine ⟨(Arr.mx (matrix_space (z - total_length (leavesL l)))).mul b, ?_, ?_⟩
  · rw [hb, except_bind_ok, pos_last hp, except_bind_ok]
  · rw [m2, hbm, leaves_split hd, prod_append, prod_append, prod_append, ← hmm]
    show matrix_space _ * _ * _ = _
    simp only [mul_assoc]

/-- C116: before a system and after it the light goes through empty space: from every target the matrix to a place `z` before is that of
the space `z` after going back to the start, and to a place behind the end that of the rest of the way after the whole system. -/
theorem C116_outside {n : V} {parent : Bool} {e : El V} {pos : List V} {l : List (Comp V)} (hr : resolve n parent e = .ok (.sys pos l))
    (hw : WF (.sys pos l)) (hn : Nonneg (.sys pos l)) {t : Tgt} {L : List (Leaf V)} (ht : before (.sys pos l) t = some L) (z : V) :
    (z < 0 → ∃ a : Arr V, to_z (.sys pos l) t z = .ok a ∧ Mat.mul a.m (prod L) = ⟨1, z, 0, 1⟩) ∧
    ((Comp.sys pos l).width < z → ∃ a : Arr V, to_z (.sys pos l) t z = .ok a ∧
      Mat.mul a.m (prod L) = Mat.mul ⟨1, z - (Comp.sys pos l).width, 0, 1⟩ (prod (leaves (.sys pos l)))) := by
  have hp := parts hw (C39_tiles n e parent _ hr) hn
  rw [hp.width]
  constructor
  · intro hz
    obtain ⟨a, h1, h2⟩ := sys_before hp (fun i t z => to_z_at l i t z) ht hz
    refine ⟨a, ?_, h2⟩
    rw [to_z, h1]
  · intro hz
    obtain ⟨a, h1, h2⟩ := sys_after hp (fun i t z => to_z_at l i t z) ht hz
    refine ⟨a, ?_, h2⟩
    rw [to_z, h1]

example : to_z lensedC [.idx 4, .qTarget] (-1) = .ok (.mx ⟨-1, 0, 1, -1⟩) := by decide +kernel

end Comp
end Alm
