import Verif.Layout.MeasureNames

/-!
# The descriptions of waists and the constraints of layouts (C145, C146)

Source: `/repo/phasor/alm/space.py` l.107-131 and l.141-149, `/repo/phasor/alm/measurements.py` l.135-140, l.356-391 and l.420-445,
`/repo/phasor/alm/system.py` l.414-437, `/repo/phasor/alm/mounts.py` l.45-51 and l.173-175, `/repo/phasor/alm/bases.py` l.127-129.

Left out: the texts of the descriptions; `alm/constraints.py`, which cannot be imported (it takes `substrate_environment` from
`measurements.py` and `NoP` from `beam.py`, which do not have them), so that no element has `q_constraints`.
-/

set_option linter.unusedSectionVars false

namespace Alm
open Py Cplx

variable {V : Type} [Field V] [LinearOrder V]

/-! ## model -/

/-- The string of a name in a target tuple. -/
def Tok.str : Tok → String
  | .left => "left"
  | .right => "right"
  | .qTarget => "q_target"
  | .targetMount => "target_mount"
  | .idx _ => ""

/-- `tidx_beam[::-1] <= tidx[::-1]`, measurements.py l.370: tuples are compared at the first entry where they differ; a string and an
integer cannot be compared. -/
def tgt_le : Tgt → Tgt → Except Err Bool
  | [], _ => .ok true
  | _ :: _, [] => .ok false
  | a :: s, b :: t =>
    if a = b then tgt_le s t
    else
      match a, b with
      | .idx i, .idx j => .ok (decide (i < j))
      | .idx _, _ => .error .typeError
      | _, .idx _ => .error .typeError
      | a, b => .ok (decide (a.str < b.str))

/-- A space of a layout: where it is, its length and its refractive index. -/
structure Gap (V : Type) where
  tidx : Tgt
  L : V
  n : V
  deriving DecidableEq, Repr

namespace Comp

mutual
/-- `system_data_targets('waist_description')`: `Space`, space.py l.141-149; `System`, system.py l.414-419; `MountBase`, mounts.py
l.45-51; the thin elements have none. -/
def waists : Comp V → List (Gap V)
  | .thin _ _ => []
  | .space L n => [⟨[], L, n⟩]
  | .sys _ filled => waists_from 0 filled
  | .mount sub => (waists sub).map (fun g => ⟨.idx 1 :: g.tidx, g.L, g.n⟩)

/-- The loop system.py l.416-418, from the `k`-th component on. -/
def waists_from : Nat → List (Comp V) → List (Gap V)
  | _, [] => []
  | k, c :: l => (waists c).map (fun g => ⟨.idx k :: g.tidx, g.L, g.n⟩) ++ waists_from (k + 1) l
end

mutual
/-- `constraints`: `Space`, space.py l.107-110 (`min_spacing` is zero, the upper bound infinite); `System`, system.py l.426-437;
`MountBase`, mounts.py l.173-175; `MatrixAtsBase`, bases.py l.127-129.  Pairs of value and lower bound. -/
def constraints : Comp V → List (V × V)
  | .thin _ _ => []
  | .space L _ => [(L, 0 * 2 * (254 / 10000))]
  | .sys _ filled => constraints_of filled
  | .mount sub => constraints sub

/-- The loop system.py l.430-436. -/
def constraints_of : List (Comp V) → List (V × V)
  | [] => []
  | c :: l => constraints c ++ constraints_of l
end

end Comp

/-- `Space.waist_description`, space.py l.112-131: the position and the Rayleigh range; `right` tells that `from_target` is
`TargetRight`. -/
def waist_description (L n z : V) (q : Beam V) (right : Bool) : Option (V × V) :=
  let qZ := q.Z * n
  let zw := z - qZ
  if right = false then
    if -qZ > -(1 / 10 ^ 16) ∧ -qZ < L then some (zw, q.ZR) else none
  else
    if qZ > -(1 / 10 ^ 16) ∧ qZ < L then some (zw, q.ZR) else none

/-- What is gathered for a space: the space, the target whose beam is taken, and the `z`, `q` and `target_side` of l.430. -/
structure Entry (V : Type) where
  gap : Gap V
  source : String
  z : V
  q : Beam V
  right : Bool
  deriving DecidableEq, Repr

namespace Meas

variable (pi : V) (sqrt : V → Except Err V)

/-- One turn of the loop l.368-381 of `_z_q_descmap`. -/
def gap_entry (s : Meas V) (source : String) (tidx_beam : Tgt) (g : Gap V) : Except Err (Entry V) := do
  let le ← tgt_le tidx_beam g.tidx
  let tlr := if le then Tok.left else Tok.right
  let z ← s.layout.target_pos (g.tidx ++ [tlr])
  let q ← s.target_q pi sqrt (.idx (g.tidx ++ [tlr])) (some (.idx tidx_beam))
  .ok ⟨g, source, z, q, !le⟩

/-- `_z_q_descmap(funcmap, target)`, l.356-382, for the name of a target. -/
def z_q_descmap (s : Meas V) (source : String) : Except Err (List (Entry V)) := do
  let tidx_beam ← s.target_idx (.str source)
  s.layout.waists.mapM (s.gap_entry pi sqrt source tidx_beam)

/-- `z > z1 and z <= z2` with the bounds of l.425-433: below the second target all is the first one's, beyond the last target all is
the last one's. -/
def in_window (zs : List V) (idx : Nat) (z : V) : Bool :=
  (if idx ≠ 0 then (match zs[idx]? with | some z1 => decide (z1 < z) | none => false) else true) &&
  (match zs[idx + 1]? with | some z2 => decide (z ≤ z2) | none => true)

/-- One turn of the loop l.424-436. -/
def waist_row (s : Meas V) (tgts : List (V × String)) (idx : Nat) : Except Err (List (Entry V)) :=
  match tgts[idx]? with
  | some t => do
    let l ← s.z_q_descmap pi sqrt t.2
    .ok (l.filter (fun e => in_window (tgts.map Prod.fst) idx e.z))
  | none => .error .indexError

/-- `data` of `waist_descriptions`, l.421-436. -/
def waist_data (s : Meas V) : Except Err (List (Entry V)) := do
  let tgts ← s.beam_targets
  let rows ← (List.range tgts.length).mapM (s.waist_row pi sqrt tgts)
  .ok rows.flatten

/-- `waist_descriptions`, l.420-443. -/
def waist_descriptions (s : Meas V) : Except Err (List (V × V)) := do
  let data ← s.waist_data pi sqrt
  .ok (data.filterMap (fun e => waist_description e.gap.L e.gap.n e.z e.q e.right))

/-- `constraints`, l.135-140, with `q_constraints`, l.384-391: no element has constraints for the beam, but `_z_q_descmap` looks for
its beam all the same (l.357-366). -/
def constraints (s : Meas V) : Except Err (List (V × V)) := do
  let _ ← s.source none
  .ok s.layout.constraints

end Meas

/-! ## one space -/

section Space
variable [IsStrictOrderedRing V]

/-- **C145, spaces.**  A beam has its waist where its value has no real part.  From either side a space describes the waist at that
place, and no waist when that place is outside. -/
theorem C145_space {L n z zw r : V} {q : Beam V} (hn : n ≠ 0) :
    (waist_description L n z q false = some (zw, r) ↔ q.value.re + (zw - z) / n = 0 ∧ r = q.value.im ∧ z - 1 / 10 ^ 16 < zw ∧ zw < z + L) ∧
    (waist_description L n z q true = some (zw, r) ↔ q.value.re + (zw - z) / n = 0 ∧ r = q.value.im ∧ z - L < zw ∧ zw < z + 1 / 10 ^ 16) := by
  have key : q.value.re + (zw - z) / n = 0 ↔ zw = z - q.value.re * n := by
    constructor
    · intro h
      field_simp at h
      linear_combination h
    · rintro rfl
      field_simp
      ring
  rw [key]
  constructor
  · change _ ↔ zw = z - q.Z * n ∧ r = q.ZR ∧ z - 1 / 10 ^ 16 < zw ∧ zw < z + L
    unfold waist_description
    dsimp only
    rw [if_pos rfl]
    by_cases h : -(q.Z * n) > -(1 / 10 ^ 16) ∧ -(q.Z * n) < L
    · rw [if_pos h]
      simp only [Option.some.injEq, Prod.mk.injEq]
      constructor
      · rintro ⟨rfl, rfl⟩
        exact ⟨rfl, rfl, by linarith [h.1], by linarith [h.2]⟩
      · rintro ⟨rfl, rfl, _⟩
        exact ⟨rfl, rfl⟩
    · rw [if_neg h]
      constructor
      · rintro ⟨⟩
      · rintro ⟨rfl, rfl, h1, h2⟩
        exact absurd ⟨by linarith, by linarith⟩ h
  · change _ ↔ zw = z - q.Z * n ∧ r = q.ZR ∧ z - L < zw ∧ zw < z + 1 / 10 ^ 16
    unfold waist_description
    dsimp only
    rw [if_neg (by decide)]
    by_cases h : q.Z * n > -(1 / 10 ^ 16) ∧ q.Z * n < L
    · rw [if_pos h]
      simp only [Option.some.injEq, Prod.mk.injEq]
      constructor
      · rintro ⟨rfl, rfl⟩
        exact ⟨rfl, rfl, by linarith [h.2], by linarith [h.1]⟩
      · rintro ⟨rfl, rfl, _⟩
        exact ⟨rfl, rfl⟩
    · rw [if_neg h]
      constructor
      · rintro ⟨⟩
      · rintro ⟨rfl, rfl, h1, h2⟩
        exact absurd ⟨by linarith, by linarith⟩ h

example : waist_description (3 : ℚ) 2 10 ⟨⟨-1, 5⟩, 1, ⟨1, 0⟩⟩ false = some (12, 5) := by
  rw [(C145_space (by norm_num)).1]
  norm_num

/-- **C145, sides.**  Seen from its left end and, with the beam that has passed it, from its right end, a space describes the same waist
when it is inside. -/
theorem C145_sides {L n z zw r : V} {q q' : Beam V} (hn : n ≠ 0) (hre : q'.value.re = q.value.re + L / n) (him : q'.value.im = q.value.im)
    (h0 : z < zw) (h1 : zw < z + L) :
    waist_description L n z q false = some (zw, r) ↔ waist_description L n (z + L) q' true = some (zw, r) := by
  rw [(C145_space hn).1, (C145_space hn).2, hre, him]
  have : q.value.re + L / n + (zw - (z + L)) / n = q.value.re + (zw - z) / n := by
    field_simp
    ring
  rw [this]
  have e : (0 : V) < 1 / 10 ^ 16 := by positivity
  constructor
  · rintro ⟨a, b, _, _⟩
    exact ⟨a, b, by linarith, by linarith⟩
  · rintro ⟨a, b, _, _⟩
    exact ⟨a, b, by linarith, by linarith⟩

example : waist_description (3 : ℚ) 2 (10 + 3) ⟨⟨1 / 2, 5⟩, 1, ⟨1, 0⟩⟩ true = some (12, 5) :=
  (C145_sides (L := 3) (n := 2) (z := 10) (zw := 12) (r := 5) (q := (⟨⟨-1, 5⟩, 1, ⟨1, 0⟩⟩ : Beam ℚ)) (q' := ⟨⟨1 / 2, 5⟩, 1, ⟨1, 0⟩⟩)
    (by norm_num) (by norm_num) rfl (by norm_num) (by norm_num)).mp ((C145_space (by norm_num)).1.mpr (by norm_num))

/-- **C145, ends (disagreement).**  A waist where two spaces meet at the source of the beam is described by both. -/
theorem C145_ends_refuted : waist_description (1 : ℚ) 1 5 ⟨⟨0, 2⟩, 1, ⟨1, 0⟩⟩ true = some (5, 2) ∧
    waist_description (1 : ℚ) 1 5 ⟨⟨0, 2⟩, 1, ⟨1, 0⟩⟩ false = some (5, 2) :=
  ⟨(C145_space (by norm_num)).2.mpr (by norm_num), (C145_space (by norm_num)).1.mpr (by norm_num)⟩

end Space

/-! ## the side of a space -/

namespace Comp

theorem mem_waists_from {k : Nat} {l : List (Comp V)} {g : Gap V} :
    g ∈ waists_from k l ↔ ∃ (i : Nat) (c : Comp V) (g' : Gap V), l[i]? = some c ∧ g = ⟨.idx (k + i) :: g'.tidx, g'.L, g'.n⟩ ∧ g' ∈ waists c := by
  induction l generalizing k with
  | nil => simp [waists_from]
  | cons c l ih =>
    rw [waists_from, List.mem_append, ih]
    constructor
    · rintro (h | ⟨i, d, g', h1, h2, h3⟩)
      · obtain ⟨g', hg, rfl⟩ := List.mem_map.mp h
        exact ⟨0, c, g', rfl, rfl, hg⟩
      · exact ⟨i + 1, d, g', h1, by rw [h2, Nat.add_right_comm, Nat.add_assoc], h3⟩
    · rintro ⟨i, d, g', h1, h2, h3⟩
      cases i with
      | zero =>
        cases Option.some.inj h1
        exact Or.inl (List.mem_map.mpr ⟨g', h3, h2.symm⟩)
      | succ i =>
        refine Or.inr ⟨i, d, g', by simpa using h1, ?_, h3⟩
        rw [h2, Nat.add_right_comm, Nat.add_assoc]

theorem leavesL_take_succ {l : List (Comp V)} {i : Nat} {c : Comp V} (h : l[i]? = some c) :
    leavesL (l.take (i + 1)) = leavesL (l.take i) ++ leaves c := by
  rw [List.take_add_one, h, leavesL_append]
  simp [leavesL]

theorem leavesL_take_prefix (l : List (Comp V)) {i j : Nat} (h : i ≤ j) : leavesL (l.take i) <+: leavesL (l.take j) := by
  obtain ⟨m, hm⟩ := List.take_prefix_take_left (l := l) h
  rw [← hm, leavesL_append]
  exact List.prefix_append _ _

theorem before_isPrefix {c : Comp V} {t : Tgt} {L : List (Leaf V)} (h : before c t = some L) : L <+: leaves c := by
  obtain ⟨R, hR⟩ := before_prefix c t L h
  exact ⟨R, hR.symm⟩

/-- A target within a component of a system. -/
theorem before_sys_in {pos : List V} {l : List (Comp V)} {i : Nat} {c : Comp V} (hc : l[i]? = some c) {t : Tgt} {L : List (Leaf V)}
    (h : before c t = some L) : before (.sys pos l) (.idx i :: t) = some (leavesL (l.take i) ++ L) := by
  rw [before.eq_def]
  simp only [List.cons.injEq, reduceCtorEq, false_and, if_false]
  rw [beforeL_eq, hc, Option.bind_some, h]
  rfl

theorem before_mount_in {s : Comp V} {t : Tgt} {L : List (Leaf V)} (h : before s t = some L) :
    before (.mount s) (.idx 1 :: t) = some L := by
  rw [before.eq_def]
  simp only [List.cons.injEq, reduceCtorEq, false_and, if_false]
  exact h

/-- Every space that is listed is where it is said to be. -/
theorem waists_before (c : Comp V) : ∀ g ∈ waists c, ∃ L, before c (g.tidx ++ [.left]) = some L ∧
    before c (g.tidx ++ [.right]) = some (L ++ [.space g.L g.n]) := by
  induction c using Comp.ind with
  | thin th rev => simp [waists]
  | space l n =>
    intro g hg
    rw [waists, List.mem_singleton] at hg
    subst hg
    exact ⟨[], by simp [before], by simp [before]⟩
  | sys pos l ih =>
    intro g hg
    rw [waists, mem_waists_from] at hg
    obtain ⟨i, c, g', h1, rfl, h3⟩ := hg
    obtain ⟨L, e1, e2⟩ := ih c (List.mem_of_getElem? h1) g' h3
    rw [Nat.zero_add]
    exact ⟨_, before_sys_in h1 e1, by rw [List.append_assoc]; exact before_sys_in h1 e2⟩
  | mount s ih =>
    intro g hg
    rw [waists] at hg
    obtain ⟨g', hg', rfl⟩ := List.mem_map.mp hg
    obtain ⟨L, e1, e2⟩ := ih g' hg'
    exact ⟨L, before_mount_in e1, before_mount_in e2⟩

mutual
theorem waists_all (c : Comp V) : (waists c).map (fun g => Leaf.space g.L g.n) =
    (leaves c).filter (fun x => match x with | .space _ _ => true | .thin _ _ => false) := by
  match c with
  | .thin t rev => rfl
  | .space L n => rfl
  | .sys pos l => rw [waists, leaves, waists_all_from]
  | .mount s => rw [waists, leaves, List.map_map, ← waists_all s]; rfl

theorem waists_all_from (k : Nat) (l : List (Comp V)) : (waists_from k l).map (fun g => Leaf.space g.L g.n) =
    (leavesL l).filter (fun x => match x with | .space _ _ => true | .thin _ _ => false) := by
  match l with
  | [] => rfl
  | c :: l =>
    rw [waists_from, leavesL, List.map_append, List.filter_append, waists_all_from (k + 1) l, ← waists_all c, List.map_map]
    rfl
end

theorem tgt_le_idx (i j : Nat) (s t : Tgt) : tgt_le (.idx i :: s) (.idx j :: t) = if i = j then tgt_le s t else .ok (decide (i < j)) := by
  rw [tgt_le]
  simp only [Tok.idx.injEq]

/-- **C145, side.**  The spaces listed are all the spaces of the layout.  Whether a target comes before a space is found from their
tuples: if so the target is to the left of the left end of the space, and if not the right end of the space is to the left of the
target. -/
theorem C145_side (c : Comp V) : (waists c).map (fun g => Leaf.space g.L g.n) =
      (leaves c).filter (fun x => match x with | .space _ _ => true | .thin _ _ => false) ∧
    ∀ (info : Tgt → Given V) (t : Tgt) (name : String), (t, name) ∈ q_targets info c → ∀ g ∈ waists c, ∃ b Lt L,
      tgt_le t g.tidx = .ok b ∧ before c t = some Lt ∧ before c (g.tidx ++ [.left]) = some L ∧
      before c (g.tidx ++ [.right]) = some (L ++ [.space g.L g.n]) ∧ (b = true → Lt <+: L) ∧
      (b = false → L ++ [.space g.L g.n] <+: Lt) := by
  refine ⟨waists_all c, ?_⟩
  induction c using Comp.ind with
  | thin th rev => simp [waists]
  | space l n => simp [q_targets]
  | sys pos l ih =>
    intro info t name ht g hg
    rw [q_targets, mem_q_targets_from] at ht
    obtain ⟨i, c, t', h1, rfl, h3⟩ := ht
    rw [waists, mem_waists_from] at hg
    obtain ⟨j, d, g', k1, rfl, k3⟩ := hg
    simp only [Nat.zero_add] at h3 ⊢
    rw [tgt_le_idx]
    by_cases hij : i = j
    · subst hij
      cases Option.some.inj (h1.symm.trans k1)
      obtain ⟨b, Lt, L, e1, e2, e3, e4, e5, e6⟩ := ih c (List.mem_of_getElem? h1) _ _ _ h3 g' k3
      refine ⟨b, _, _, by rw [if_pos rfl]; exact e1, before_sys_in h1 e2, before_sys_in h1 e3, by rw [List.append_assoc]; exact before_sys_in h1 e4,
        fun hb => (List.prefix_append_right_inj _).mpr (e5 hb), fun hb => ?_⟩
      rw [List.append_assoc]
      exact (List.prefix_append_right_inj _).mpr (e6 hb)
    · obtain ⟨p, rev, a1, a2, a3, a4, a5⟩ := q_targets_spec c _ _ _ h3
      obtain ⟨Lt, hLt⟩ := Option.ne_none_iff_exists'.mp a5
      obtain ⟨L, b1, b2⟩ := waists_before d g' k3
      refine ⟨decide (i < j), _, _, by rw [if_neg hij], before_sys_in h1 hLt, before_sys_in k1 b1,
        by rw [List.append_assoc]; exact before_sys_in k1 b2, fun hb => ?_, fun hb => ?_⟩
      · have hlt : i < j := by simpa using hb
        have h2 : leavesL (l.take i) ++ Lt <+: leavesL (l.take (i + 1)) := by
          rw [leavesL_take_succ h1]
          exact (List.prefix_append_right_inj _).mpr (before_isPrefix hLt)
        exact (h2.trans (leavesL_take_prefix l hlt)).trans (List.prefix_append _ _)
      · have hlt : j < i := by
          have : ¬ i < j := by simpa using hb
          omega
        have h2 : leavesL (l.take j) ++ (L ++ [.space g'.L g'.n]) <+: leavesL (l.take (j + 1)) := by
          rw [leavesL_take_succ k1]
          exact (List.prefix_append_right_inj _).mpr (before_isPrefix b2)
        rw [List.append_assoc]
        exact (h2.trans (leavesL_take_prefix l hlt)).trans (List.prefix_append _ _)
  | mount s ih =>
    intro info t name ht g hg
    rw [q_targets] at ht
    obtain ⟨x, hx, h⟩ := List.mem_map.mp ht
    obtain ⟨rfl, rfl⟩ := Prod.mk.inj h
    rw [waists] at hg
    obtain ⟨g', hg', rfl⟩ := List.mem_map.mp hg
    obtain ⟨b, Lt, L, e1, e2, e3, e4, e5, e6⟩ := ih _ _ _ hx g' hg'
    exact ⟨b, Lt, L, by rw [tgt_le_idx, if_pos rfl]; exact e1, before_mount_in e2, before_mount_in e3, before_mount_in e4, e5, e6⟩

theorem waists_from_nodup (l : List (Comp V)) (h : ∀ c ∈ l, ((waists c).map Gap.tidx).Nodup) (k : Nat) :
    ((waists_from k l).map Gap.tidx).Nodup := by
  induction l generalizing k with
  | nil => simp [waists_from]
  | cons c l ih =>
    rw [waists_from, List.map_append, List.map_map]
    refine List.Nodup.append ?_ (ih (fun d hd => h d (List.mem_cons_of_mem _ hd)) (k + 1)) ?_
    · have := h c List.mem_cons_self
      have e : (Gap.tidx ∘ fun g : Gap V => (⟨.idx k :: g.tidx, g.L, g.n⟩ : Gap V)) = (fun t => Tok.idx k :: t) ∘ Gap.tidx := rfl
      rw [e, ← List.map_map]
      exact this.map (fun a b h => (List.cons.inj h).2)
    · intro t h1 h2
      obtain ⟨g, _, rfl⟩ := List.mem_map.mp h1
      obtain ⟨g', hg, e⟩ := List.mem_map.mp h2
      obtain ⟨i, d, g'', _, rfl, _⟩ := mem_waists_from.mp hg
      have := (List.cons.inj e).1
      simp only [Tok.idx.injEq] at this
      omega

/-- Every space is listed once. -/
theorem waists_nodup (c : Comp V) : ((waists c).map Gap.tidx).Nodup := by
  induction c using Comp.ind with
  | thin th rev => simp [waists]
  | space l n => simp [waists]
  | sys pos l ih =>
    rw [waists]
    exact waists_from_nodup l ih 0
  | mount s ih =>
    rw [waists, List.map_map]
    have e : (Gap.tidx ∘ fun g : Gap V => (⟨.idx 1 :: g.tidx, g.L, g.n⟩ : Gap V)) = (fun t => Tok.idx 1 :: t) ∘ Gap.tidx := rfl
    rw [e, ← List.map_map]
    exact ih.map (fun a b h => (List.cons.inj h).2)

end Comp

/-! ## every space once -/

theorem mapM_inv {α β : Type} {f : α → Except Err β} : ∀ {l : List α} {ys : List β}, l.mapM f = .ok ys →
    List.Forall₂ (fun x y => f x = .ok y) l ys
  | [], ys, h => by
    rw [List.mapM_nil] at h
    cases h
    exact .nil
  | x :: l, ys, h => by
    rw [List.mapM_cons] at h
    cases hx : f x with
    | error e => rw [hx] at h; cases h
    | ok y =>
      rw [hx] at h
      cases hl : l.mapM f with
      | error e => rw [hl] at h; cases h
      | ok zs =>
        rw [hl] at h
        cases h
        exact .cons hx (mapM_inv hl)

theorem flatten_single {α : Type} {rows : List (List α)} {k : Nat} {e : α} (hk : rows[k]? = some [e])
    (h : ∀ j r, j ≠ k → rows[j]? = some r → r = []) : rows.flatten = [e] := by
  induction rows generalizing k with
  | nil => simp at hk
  | cons r rows ih =>
    cases k with
    | zero =>
      cases Option.some.inj hk
      have : rows.flatten = [] := by
        rw [List.flatten_eq_nil_iff]
        intro r hr
        obtain ⟨j, hj⟩ := List.mem_iff_getElem?.mp hr
        exact h (j + 1) r (by omega) (by simpa using hj)
      simp [this]
    | succ k =>
      have h0 : r = [] := h 0 r (by omega) rfl
      rw [List.flatten_cons, h0, List.nil_append]
      exact ih (by simpa using hk) (fun j r hj hr => h (j + 1) r (by omega) (by simpa using hr))

section Window
variable [IsStrictOrderedRing V]
open Meas

/-- The windows of the targets: each space, taken at the end that faces the target, is in one window only. -/
theorem window_unique {zs : List V} (hs : zs.Pairwise (· ≤ ·)) (hne : zs ≠ []) {zl zr : V} (hz : zl ≤ zr) {b : Nat → Bool}
    (hb : ∀ i z, zs[i]? = some z → (b i = true → z ≤ zl) ∧ (b i = false → zr ≤ z)) :
    ∃ k, k < zs.length ∧ in_window zs k (if b k then zl else zr) = true ∧
      (∀ j, j < zs.length → j ≠ k → in_window zs j (if b j then zl else zr) = false) ∧
      (k = 0 ∨ ∃ z, zs[k]? = some z ∧ z < zl) ∧ ∀ j z, k < j → zs[j]? = some z → zl ≤ z := by
  classical
  have mono : ∀ (i j : Nat) (x y : V), i ≤ j → zs[i]? = some x → zs[j]? = some y → x ≤ y := by
    intro i j x y hij hx hy
    rcases hij.lt_or_eq with h | h
    · obtain ⟨hi, rfl⟩ := List.getElem?_eq_some_iff.mp hx
      obtain ⟨hj, rfl⟩ := List.getElem?_eq_some_iff.mp hy
      exact List.pairwise_iff_getElem.mp hs i j hi hj h
    · subst h
      rw [Option.some.inj (hx.symm.trans hy)]
  have hlen : 0 < zs.length := List.length_pos_iff.mpr hne
  let P : Nat → Prop := fun k => k = 0 ∨ ∃ z, zs[k]? = some z ∧ z < zl
  let k := Nat.findGreatest P (zs.length - 1)
  have hPk : P k := Nat.findGreatest_spec (P := P) (Nat.zero_le _) (Or.inl rfl)
  have hkl : k < zs.length := by
    have := Nat.findGreatest_le (P := P) (zs.length - 1)
    change k ≤ _ at this
    omega
  have hmax : ∀ (j : Nat) (z : V), k < j → zs[j]? = some z → zl ≤ z := by
    intro j z hkj hj
    by_contra hlt
    have hjl : j < zs.length := (List.getElem?_eq_some_iff.mp hj).1
    exact Nat.findGreatest_is_greatest (P := P) hkj (by omega) (Or.inr ⟨z, hj, not_le.mp hlt⟩)
  have key : ∀ j, j < zs.length → in_window zs j (if b j then zl else zr) = true → j = k := by
    intro j hj hw
    obtain ⟨zj, hzj⟩ : ∃ z, zs[j]? = some z := ⟨_, List.getElem?_eq_getElem hj⟩
    simp only [in_window, Bool.and_eq_true] at hw
    obtain ⟨w1, w2⟩ := hw
    rcases lt_trichotomy j k with h | h | h
    · -- an earlier window ends before the space
      have hk0 : k ≠ 0 := by omega
      obtain ⟨zk, hzk, hlt⟩ := hPk.resolve_left hk0
      obtain ⟨zn, hzn⟩ : ∃ z, zs[j + 1]? = some z := ⟨_, List.getElem?_eq_getElem (by omega)⟩
      rw [hzn] at w2
      have w2' := of_decide_eq_true w2
      have h1 := mono (j + 1) k _ _ h hzn hzk
      exfalso
      cases hbj : b j with
      | true =>
        rw [hbj] at w2'
        simp only [if_true] at w2'
        linarith
      | false =>
        rw [hbj] at w2'
        simp only [Bool.false_eq_true, if_false] at w2'
        linarith
    · exact h
    · have hj0 : j ≠ 0 := by omega
      rw [if_pos hj0, hzj] at w1
      have w1' := of_decide_eq_true w1
      have h1 := hmax j zj h hzj
      exfalso
      cases hbj : b j with
      | true =>
        rw [hbj] at w1'
        simp only [if_true] at w1'
        linarith
      | false =>
        have := (hb j zj hzj).2 hbj
        rw [hbj] at w1'
        simp only [Bool.false_eq_true, if_false] at w1'
        linarith
  refine ⟨k, hkl, ?_, fun j hj hjk => ?_, hPk, hmax⟩
  · obtain ⟨zk, hzk⟩ : ∃ z, zs[k]? = some z := ⟨_, List.getElem?_eq_getElem hkl⟩
    simp only [in_window, Bool.and_eq_true]
    cases hbk : b k with
    | true =>
      simp only [if_true]
      constructor
      · by_cases h0 : k = 0
        · simp [h0]
        · obtain ⟨z, hz1, hz2⟩ := hPk.resolve_left h0
          rw [if_pos h0, hz1]
          exact decide_eq_true hz2
      · cases hn : zs[k + 1]? with
        | none => rfl
        | some z => exact decide_eq_true (hmax (k + 1) z (by omega) hn)
    | false =>
      have h0 : k = 0 := by
        by_contra h0
        obtain ⟨z, hz1, hz2⟩ := hPk.resolve_left h0
        have := (hb k z hz1).2 hbk
        linarith
      have h1 := (hb k zk hzk).2 hbk
      simp only [Bool.false_eq_true, if_false]
      constructor
      · simp [h0]
      · cases hn : zs[k + 1]? with
        | none => rfl
        | some z => exact decide_eq_true (h1.trans (mono k (k + 1) _ _ (by omega) hzk hn))
  · by_contra hw
    exact hjk (key j hj (by simpa using hw))

theorem total_length_prefix {L M : List (Leaf V)} (h : L <+: M) (hM : ∀ x ∈ M, 0 ≤ x.length) : total_length L ≤ total_length M := by
  obtain ⟨R, rfl⟩ := h
  rw [total_length_append]
  have := total_length_nonneg (l := R) (fun x hx => hM x (List.mem_append_right _ hx))
  linarith

theorem gaps_filter {f : Gap V → Except Err (Entry V)} (hf : ∀ g e, f g = .ok e → e.gap = g) {gs : List (Gap V)} {es : List (Entry V)}
    (h : List.Forall₂ (fun g e => f g = .ok e) gs es) (hn : (gs.map Gap.tidx).Nodup) {g : Gap V} (hg : g ∈ gs) :
    ∃ e, f g = .ok e ∧ es.filter (fun e => decide (e.gap.tidx = g.tidx)) = [e] := by
  induction h with
  | nil => simp at hg
  | cons hx hl ih =>
    rename_i x e gs es
    rw [List.map_cons, List.nodup_cons] at hn
    have hex := hf _ _ hx
    rcases List.mem_cons.mp hg with rfl | hg'
    · refine ⟨e, hx, ?_⟩
      rw [List.filter_cons_of_pos (by simp [hex])]
      congr 1
      rw [List.filter_eq_nil_iff]
      intro e' he' h
      have : e'.gap ∈ gs := by
        clear ih hn hg
        induction hl with
        | nil => simp at he'
        | cons hy _ ih2 =>
          rcases List.mem_cons.mp he' with rfl | h'
          · rw [hf _ _ hy]
            exact List.mem_cons_self
          · exact List.mem_cons_of_mem _ (ih2 h')
      exact hn.1 (List.mem_map.mpr ⟨_, this, of_decide_eq_true h⟩)
    · obtain ⟨e', h1, h2⟩ := ih hn.2 hg'
      refine ⟨e', h1, ?_⟩
      rw [List.filter_cons_of_neg]
      · exact h2
      · intro h
        rw [hex] at h
        exact hn.1 (List.mem_map.mpr ⟨g, hg', (of_decide_eq_true h).symm⟩)

/-- **C145, once.**  When the lengths are not negative and some target is named, every space is gathered exactly once, at the end that
faces the target whose beam is taken and with the beam there.  That is the last of the targets that are strictly to the left of the
space, or the first target when there is none. -/
theorem C145_once {pi : V} {sqrt : V → Except Err V} {s : Meas V} {n : V} {parent : Bool} {el : El V} (hr : resolve n parent el = .ok s.layout)
    (hnn : Comp.Nonneg s.layout) {tgts : List (V × String)} (ht : s.beam_targets = .ok tgts) (hne : tgts ≠ [])
    (hnames : ∀ x ∈ tgts, x.2 ≠ "left" ∧ x.2 ≠ "right") {data : List (Entry V)} (hd : s.waist_data pi sqrt = .ok data)
    {g : Gap V} (hg : g ∈ s.layout.waists) :
    ∃ e t zl k zk, data.filter (fun e => decide (e.gap.tidx = g.tidx)) = [e] ∧ e.gap = g ∧ s.target_idx (.str e.source) = .ok t ∧
      s.layout.target_pos (g.tidx ++ [.left]) = .ok zl ∧
      s.layout.target_pos (g.tidx ++ [if e.right then .right else .left]) = .ok e.z ∧
      s.target_q pi sqrt (.idx (g.tidx ++ [if e.right then .right else .left])) (some (.idx t)) = .ok e.q ∧
      tgts[k]? = some (zk, e.source) ∧ (k = 0 ∨ zk < zl) ∧ ∀ j z name, k < j → tgts[j]? = some (z, name) → zl ≤ z := by
  have htile := C39_tiles n el parent s.layout hr
  obtain ⟨l, hl, _, hsort, hmem, _⟩ := C117_targets s hr
  cases Except.ok.inj (ht.symm.trans hl)
  -- the targets
  have htgt : ∀ z name, (z, name) ∈ tgts → ∃ t Lt, (t, name) ∈ Comp.q_targets s.info s.layout ∧ s.target_idx (.str name) = .ok t ∧
      Comp.before s.layout t = some Lt ∧ total_length Lt = z := by
    intro z name h
    obtain ⟨p, L, h1, h2, h3, h4, h5⟩ := hmem z name h
    have h6 := h5 (hnames _ h).1 (hnames _ h).2
    refine ⟨_, L, ?_, h6, h1, h4⟩
    unfold target_idx at h6
    dsimp only at h6
    rw [if_neg (hnames _ h).1, if_neg (hnames _ h).2] at h6
    cases hget : Dict.get? s.name_map name with
    | none => rw [hget] at h6; cases h6
    | some t =>
      rw [hget] at h6
      cases h6
      rcases (name_map_fold (Comp.q_targets s.info s.layout) [] Dict.WF_nil).2.1 name _ hget with h | h
      · exact h
      · simp [Dict.get?] at h
  -- the ends of the space
  obtain ⟨L, hL, hR⟩ := Comp.waists_before s.layout g hg
  have posL : s.layout.target_pos (g.tidx ++ [.left]) = .ok (total_length L) := target_pos_spec s.layout htile _ _ hL
  have posR : s.layout.target_pos (g.tidx ++ [.right]) = .ok (total_length (L ++ [.space g.L g.n])) := target_pos_spec s.layout htile _ _ hR
  have nnR : ∀ x ∈ L ++ [Leaf.space g.L g.n], 0 ≤ x.length := fun x hx => hnn x ((Comp.before_isPrefix hR).subset hx)
  -- the rows
  unfold waist_data at hd
  rw [ht] at hd
  cases hrows : (List.range tgts.length).mapM (s.waist_row pi sqrt tgts) with
  | error e => simp only [bind, Except.bind, hrows] at hd; cases hd
  | ok rows =>
    simp only [bind, Except.bind, hrows] at hd
    cases hd
    have hF := mapM_inv hrows
    have hlen : rows.length = tgts.length := by rw [← hF.length_eq, List.length_range]
    have hrow : ∀ i, i < tgts.length → ∃ r, rows[i]? = some r ∧ s.waist_row pi sqrt tgts i = .ok r := by
      intro i hi
      have hi2 : i < rows.length := by omega
      refine ⟨rows[i], List.getElem?_eq_getElem hi2, ?_⟩
      have := (List.forall₂_iff_get.mp hF).2 i (by simpa using hi) hi2
      simpa using this
    -- what a row has for the space
    have hent : ∀ i z name, tgts[i]? = some (z, name) → ∃ b t e, s.target_idx (.str name) = .ok t ∧
        s.gap_entry pi sqrt name t g = .ok e ∧ e.gap = g ∧ e.source = name ∧ e.right = !b ∧
        (e.z = if b then total_length L else total_length (L ++ [.space g.L g.n])) ∧
        (b = true → z ≤ total_length L) ∧ (b = false → total_length (L ++ [.space g.L g.n]) ≤ z) ∧
        ∃ r, rows[i]? = some r ∧ r.filter (fun e => decide (e.gap.tidx = g.tidx)) =
          [e].filter (fun e => in_window (tgts.map Prod.fst) i e.z) := by
      intro i z name hi
      obtain ⟨t, Lt, k1, k2, k3, k4⟩ := htgt z name (List.mem_of_getElem? hi)
      obtain ⟨b, Lt', L', a1, a2, a3, a4, a5, a6⟩ := (Comp.C145_side s.layout).2 s.info t name k1 g hg
      cases Option.some.inj (k3.symm.trans a2)
      cases Option.some.inj (hL.symm.trans a3)
      obtain ⟨r, hr1, hr2⟩ := hrow i (List.getElem?_eq_some_iff.mp hi).1
      unfold waist_row at hr2
      rw [hi] at hr2
      cases hz : s.z_q_descmap pi sqrt name with
      | error e => simp only [bind, Except.bind, hz] at hr2; cases hr2
      | ok es =>
        simp only [bind, Except.bind, hz] at hr2
        cases hr2
        unfold z_q_descmap at hz
        simp only [k2, bind, Except.bind] at hz
        have hgap : ∀ g' e', s.gap_entry pi sqrt name t g' = .ok e' → e'.gap = g' := by
          intro g' e' h
          unfold gap_entry at h
          simp only [bind, Except.bind] at h
          split at h
          · cases h
          split at h
          · cases h
          split at h
          · cases h
          cases h
          rfl
        obtain ⟨e, e1, e2⟩ := gaps_filter hgap (mapM_inv hz) (Comp.waists_nodup _) hg
        refine ⟨b, t, e, k2, e1, hgap _ _ e1, ?_⟩
        have e1' := e1
        unfold gap_entry at e1'
        rw [a1] at e1'
        have hpos : s.layout.target_pos (g.tidx ++ [if b = true then Tok.left else Tok.right]) =
            .ok (if b then total_length L else total_length (L ++ [.space g.L g.n])) := by
          cases b
          · exact posR
          · exact posL
        simp only [bind, Except.bind, hpos] at e1'
        split at e1'
        · cases e1'
        cases e1'
        refine ⟨rfl, rfl, rfl, fun hb => ?_, fun hb => ?_, _, hr1, ?_⟩
        · rw [← k4]
          exact total_length_prefix (a5 hb) (fun x hx => nnR x (List.mem_append_left _ hx))
        · rw [← k4]
          exact total_length_prefix (a6 hb) (fun x hx => hnn x ((Comp.before_isPrefix k3).subset hx))
        · rw [← e2, List.filter_filter, List.filter_filter]
          congr 1
          funext e
          exact Bool.and_comm _ _
    -- the one window
    have hent' : ∀ i : Nat, ∃ b : Bool, ∀ z name, tgts[i]? = some (z, name) → ∃ t e, s.target_idx (.str name) = .ok t ∧
        s.gap_entry pi sqrt name t g = .ok e ∧ e.gap = g ∧ e.source = name ∧ e.right = !b ∧
        (e.z = if b then total_length L else total_length (L ++ [.space g.L g.n])) ∧
        (b = true → z ≤ total_length L) ∧ (b = false → total_length (L ++ [.space g.L g.n]) ≤ z) ∧
        ∃ r, rows[i]? = some r ∧ r.filter (fun e => decide (e.gap.tidx = g.tidx)) =
          [e].filter (fun e => in_window (tgts.map Prod.fst) i e.z) := by
      intro i
      cases hi : tgts[i]? with
      | none => exact ⟨true, fun z name h => by cases h⟩
      | some x =>
        obtain ⟨b, h⟩ := hent i x.1 x.2 hi
        exact ⟨b, fun z name h' => by cases h'; exact h⟩
    choose b hb using hent'
    have hget : ∀ (i : Nat) (z : V), (tgts.map Prod.fst)[i]? = some z → ∃ name, tgts[i]? = some (z, name) := by
      intro i z h
      rw [List.getElem?_map] at h
      obtain ⟨x, hx, rfl⟩ := Option.map_eq_some_iff.mp h
      exact ⟨x.2, hx⟩
    have hget2 : ∀ i : Nat, i < tgts.length → ∃ z name, tgts[i]? = some (z, name) := fun i hi => ⟨_, _, List.getElem?_eq_getElem hi⟩
    obtain ⟨k, hk, hwin, hother, hk0, hafter⟩ := window_unique (zs := tgts.map Prod.fst) (b := b)
      (zl := total_length L) (zr := total_length (L ++ [.space g.L g.n]))
      (by
        rw [List.pairwise_map]
        refine hsort.imp ?_
        rintro x y (h | h)
        · exact h.le
        · exact h.1.le)
      (by simpa using hne) (total_length_prefix (List.prefix_append _ _) nnR)
      (by
        intro i z hi
        obtain ⟨name, hi'⟩ := hget i z hi
        obtain ⟨t, e, _, _, _, _, _, _, h1, h2, _⟩ := hb i z name hi'
        exact ⟨h1, h2⟩)
    rw [List.length_map] at hk
    obtain ⟨zk, name, hkn⟩ := hget2 k hk
    obtain ⟨t, e, f1, f2, f3, f4, f5, f6, _, _, r, f7, f8⟩ := hb k zk name hkn
    refine ⟨e, t, total_length L, k, zk, ?_, f3, by rw [f4]; exact f1, posL, ?_, ?_, by rw [f4]; exact hkn, ?_, ?_⟩
    · rw [List.filter_flatten]
      refine flatten_single (k := k) ?_ ?_
      · rw [List.getElem?_map, f7, Option.map_some, f8, List.filter_cons_of_pos, List.filter_nil]
        rw [f6]
        exact hwin
      · intro j r' hj hr'
        rw [List.getElem?_map] at hr'
        obtain ⟨r2, h2, rfl⟩ := Option.map_eq_some_iff.mp hr'
        have hjl : j < tgts.length := by rw [← hlen]; exact (List.getElem?_eq_some_iff.mp h2).1
        obtain ⟨zj, namej, hjn⟩ := hget2 j hjl
        obtain ⟨t', e', _, _, _, _, _, g6, _, _, r3, g7, g8⟩ := hb j zj namej hjn
        cases Option.some.inj (h2.symm.trans g7)
        rw [g8, List.filter_cons_of_neg, List.filter_nil]
        rw [g6, hother j (by simpa using hjl) hj]
        exact Bool.false_ne_true
    · rw [f5, f6]
      cases b k
      · exact posR
      · exact posL
    · rw [f5]
      have f2' := f2
      unfold gap_entry at f2'
      cases hle : tgt_le t g.tidx with
      | error x => rw [hle] at f2'; cases f2'
      | ok c =>
        rw [hle] at f2'
        simp only [bind, Except.bind] at f2'
        split at f2'
        · cases f2'
        split at f2'
        · cases f2'
        rename_i q hq
        cases f2'
        simp only at f5
        have hcb : c = b k := by simpa using f5
        rw [← hcb]
        cases c <;> exact hq
    · rcases hk0 with h | ⟨z, h1, h2⟩
      · exact Or.inl h
      · right
        rw [List.getElem?_map, hkn] at h1
        cases h1
        exact h2
    · intro j z nm hj hz
      exact hafter j z hj (by rw [List.getElem?_map, hz]; rfl)

end Window

/-! ## constraints -/

namespace Comp

mutual
theorem mem_constraints (c : Comp V) (x : V × V) : x ∈ constraints c ↔ ∃ g ∈ waists c, x = (g.L, 0) := by
  match c with
  | .thin t rev => simp [constraints, waists]
  | .space L n => simp [constraints, waists]
  | .sys pos l => rw [constraints, waists, mem_constraints_of 0 l x]
  | .mount s =>
    rw [constraints, waists, mem_constraints s x]
    simp only [List.mem_map, exists_exists_and_eq_and]

theorem mem_constraints_of (k : Nat) (l : List (Comp V)) (x : V × V) : x ∈ constraints_of l ↔ ∃ g ∈ waists_from k l, x = (g.L, 0) := by
  match l with
  | [] => simp [constraints_of, waists_from]
  | c :: l =>
    rw [constraints_of, waists_from, List.mem_append, mem_constraints c x, mem_constraints_of (k + 1) l x]
    simp only [List.mem_append, List.mem_map, or_and_right, exists_or, exists_exists_and_eq_and]
end

end Comp

/-- **C146, lengths.**  The constraints of a layout are met if and only if no length in it is negative. -/
theorem C146_lengths (c : Comp V) : (∀ x ∈ c.constraints, x.2 ≤ x.1) ↔ Comp.Nonneg c := by
  constructor
  · intro h x hx
    cases x with
    | thin t rev => exact le_refl _
    | space L n =>
      have : Leaf.space L n ∈ (c.leaves).filter (fun x => match x with | .space _ _ => true | .thin _ _ => false) :=
        List.mem_filter.mpr ⟨hx, rfl⟩
      rw [← Comp.waists_all, List.mem_map] at this
      obtain ⟨g, hg, e⟩ := this
      cases e
      exact h (g.L, 0) ((Comp.mem_constraints c _).mpr ⟨g, hg, rfl⟩)
  · intro h x hx
    obtain ⟨g, hg, rfl⟩ := (Comp.mem_constraints c _).mp hx
    have : Leaf.space g.L g.n ∈ (c.leaves).filter (fun x => match x with | .space _ _ => true | .thin _ _ => false) := by
      rw [← Comp.waists_all]
      exact List.mem_map_of_mem hg
    exact h _ (List.mem_filter.mp this).1

/-- **C146, order.**  In a layout whose constraints are met, what comes later in the light is not further to the left. -/
theorem C146_order [IsStrictOrderedRing V] {n : V} {parent : Bool} {el : El V} {c : Comp V} (hr : resolve n parent el = .ok c)
    (hc : ∀ x ∈ c.constraints, x.2 ≤ x.1) {t1 t2 : Tgt} {L1 L2 : List (Leaf V)} (h1 : c.before t1 = some L1) (h2 : c.before t2 = some L2)
    (h : L1 <+: L2) : ∃ z1 z2, c.target_pos t1 = .ok z1 ∧ c.target_pos t2 = .ok z2 ∧ z1 ≤ z2 :=
  ⟨_, _, C39_target_pos hr h1, C39_target_pos hr h2,
    total_length_prefix h (fun x hx => (C146_lengths c).mp hc x ((Comp.before_isPrefix h2).subset hx))⟩

/-- **C146, system.**  The constraints of a system are those of its layout, if there is a beam. -/
theorem C146_system (s : Meas V) : (∀ l, s.constraints = .ok l ↔ (∃ t, s.source none = .ok t) ∧ l = s.layout.constraints) ∧
    (s.principle = none → s.beam_targets = .ok [] → s.constraints = .error .indexError) := by
  constructor
  · intro l
    unfold Meas.constraints
    cases s.source none with
    | error e => simp [bind, Except.bind]
    | ok t => simp [bind, Except.bind, eq_comm]
  · intro h1 h2
    simp only [Meas.constraints, Meas.source, h1, Meas.first_target, h2, bind, Except.bind]

/-! ## examples -/

/-- Two targets with a space of length 1 between them and spaces of lengths 2 and 3 beyond them; the beam of the first has its waist
3/2 to the right of it, that of the second 1 to the right of it. -/
def row2 : El ℚ := .sys true none none [.space 2 1 none false, .thin .target none false, .space 1 1 none false, .thin .target none false,
  .space 3 1 none false] none false

def row2C : Comp ℚ := .sys [0, 2, 2, 3, 3, 6] [.space 2 1, .thin .target false, .space 1 1, .thin .target false, .space 3 1]

def row2M : Meas ℚ where
  layout := row2C
  info t := if t = [.idx 1] then ⟨"a", false, some ⟨-3 / 2, 1⟩, none, ⟨1, 0⟩⟩ else ⟨"b", false, some ⟨-1, 1⟩, none, ⟨1, 0⟩⟩
  wavelen := 1
  principle := none

theorem row2_resolve : resolve 1 false row2 = .ok row2C := by with_unfolding_all rfl

theorem row2_targets : row2M.beam_targets = .ok [(2, "a"), (3, "b")] := by decide +kernel

theorem row2_data : row2M.waist_data 3 (fun x => .ok x) = .ok [⟨⟨[.idx 0], 2, 1⟩, "a", 2, ⟨⟨-3 / 2, 1⟩, 1, ⟨169 / 48, 0⟩⟩, true⟩,
    ⟨⟨[.idx 2], 1, 1⟩, "a", 2, ⟨⟨-3 / 2, 1⟩, 1, ⟨169 / 48, 0⟩⟩, false⟩,
    ⟨⟨[.idx 4], 3, 1⟩, "a", 3, ⟨⟨-1 / 2, 1⟩, 1, ⟨91 / 48, 1⟩⟩, false⟩] := by decide +kernel

theorem row2_nonneg : Comp.Nonneg row2M.layout := by
  rw [← C146_lengths]
  intro x hx
  simp only [row2M, row2C, Comp.constraints, Comp.constraints_of, List.nil_append, List.cons_append, List.mem_cons, List.not_mem_nil,
    or_false] at hx
  rcases hx with rfl | rfl | rfl <;> norm_num

/-- The hypotheses of `C145_once` are met together. -/
example : ∃ data, row2M.waist_data 3 (fun x => .ok x) = .ok data ∧ ∀ g ∈ row2M.layout.waists, ∃ e,
    data.filter (fun e => decide (e.gap.tidx = g.tidx)) = [e] :=
  ⟨_, row2_data, fun _ hg =>
    let ⟨e, _, _, _, _, h, _⟩ := C145_once row2_resolve row2_nonneg row2_targets (by simp) (by simp) row2_data hg
    ⟨e, h⟩⟩

/-- **C145, source (disagreement).**  The space that begins at the second target is described with the beam of the first: its waist is
said to be at 7/2, where the beam of the second has it at 4. -/
theorem C145_source_refuted : resolve 1 false row2 = .ok row2M.layout ∧ row2M.beam_targets = .ok [(2, "a"), (3, "b")] ∧
    row2M.waist_descriptions 3 (fun x => .ok x) = .ok [(7 / 2, 1)] ∧
    row2M.target_q 3 (fun x => .ok x) (.idx [.idx 4, .left]) (some (.str "b")) = .ok ⟨⟨-1, 1⟩, 1, ⟨4 / 3, 0⟩⟩ := by
  refine ⟨row2_resolve, row2_targets, ?_, by decide +kernel⟩
  unfold Meas.waist_descriptions
  rw [row2_data]
  norm_num [bind, Except.bind, waist_description, Beam.Z, Beam.ZR, List.filterMap_cons]

example : ∃ z1 z2, row2C.target_pos [.idx 1, .qTarget] = .ok z1 ∧ row2C.target_pos [.idx 4, .right] = .ok z2 ∧ z1 ≤ z2 :=
  C146_order row2_resolve ((C146_lengths _).mpr row2_nonneg) (L1 := [.space 2 1])
    (L2 := [.space 2 1, .thin .target false, .space 1 1, .thin .target false, .space 3 1]) rfl rfl ⟨_, rfl⟩

/-- **C146, beam (disagreement).**  A layout that has constraints but no target has no list of them. -/
theorem C146_beam_refuted : ∃ s : Meas ℚ, s.layout.constraints = [(2, 0)] ∧ s.constraints = .error .indexError :=
  ⟨⟨.sys [0, 2] [.space 2 1], fun _ => ⟨"", true, none, none, ⟨1, 0⟩⟩, 1, none⟩, by decide +kernel, by decide +kernel⟩

end Alm
