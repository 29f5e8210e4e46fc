import Verif.Layout.Reverse

/-!
# C50: composite lenses
-/

set_option linter.unusedSectionVars false

namespace Alm
open Py

variable {V : Type} [Field V] [LinearOrder V]

/-- `PLCX`, composites.py l.22-61: `n_out` and `n_in` are the indices of `substrate_outer` and `substrate_inner`. -/
def PLCX (n_out n_in L : V) (R : Option V) (loc : Option V) (rev : Bool) : El V :=
  .sys true none none [.thin (.interface n_out n_in R) none false, .space L n_in none false,
    .thin (.interface n_in n_out none) none false] loc rev

/-- `CXCX`, composites.py l.94-131; the second radius is negated, l.120, so it is not none. -/
def CXCX (n_out n_in L : V) (R1 : Option V) (R2 : V) (loc : Option V) (rev : Bool) : El V :=
  .sys true none none [.thin (.interface n_out n_in R1) none false, .space L n_in none false,
    .thin (.interface n_in n_out (some (-R2))) none false] loc rev

/-- `PLCXMirror`, composites.py l.168-217; the one space is passed twice. -/
def PLCXMirror (n_out n_in L : V) (R : Option V) (loc : Option V) (rev : Bool) : El V :=
  .sys true none none [.thin (.interface n_out n_in none) none false, .space L n_in none false, .thin (.mirror R) none false,
    .space L n_in none false, .thin (.interface n_in n_out none) none false] loc rev

/-- `lens_description`, composites.py l.63-64 and l.133-134, `f_m`. -/
def focal (a : Arr V) : Except Err V := pydiv (-1) a.m.c

theorem stack_matrix {n_env : V} {e : El V} {l : List (Comp V)}
    (hr : resolve n_env false e = .ok (.sys (stack_pairings false l).1 l)) (hne : Comp.leavesL l ≠ []) (hw : Comp.WFL l) :
    ∃ (c : Comp V) (a : Arr V), resolve n_env false e = .ok c ∧ c.matrix = .ok a ∧ a.m = prod (Comp.leavesL l) := by
  obtain ⟨a, ha, _, ham, _⟩ := Comp.matrix_spec (.sys (stack_pairings false l).1 l) ⟨hne, hw⟩
  exact ⟨_, a, hr, ha, ham⟩

/-- The focal length of a thick lens in vacuum, by the lensmaker's equation. -/
def lensmaker (n L R1 R2 : V) : V := 1 / ((n - 1) * (1 / R1 + 1 / R2 - (n - 1) * L / (n * R1 * R2)))

/-- C50: the matrix of a lens of two curved surfaces in vacuum is that of a thick lens of thickness `L / n`.  (Partial: it should be
that of thickness `L`: see `C50_lensmaker_refuted`.) -/
theorem C50_CXCX_partial {n_env n L R1 R2 : V} {loc : Option V} (hn : n ≠ 0) (h1 : R1 ≠ 0) (h2 : R2 ≠ 0) :
    ∃ (c : Comp V) (a : Arr V), resolve n_env false (CXCX 1 n L (some R1) R2 loc false) = .ok c ∧ c.matrix = .ok a ∧
      (a.m.c ≠ 0 → focal a = .ok (lensmaker n (L / n) R1 R2)) ∧
      a.m.c = -((n - 1) * (1 / R1 + 1 / R2 - (n - 1) * (L / n) / (n * R1 * R2))) ∧ a.m.b = (L / n) / n ∧
      a.m.a = 1 - (n - 1) * (L / n) / (n * R1) ∧ a.m.d = 1 - (n - 1) * (L / n) / (n * R2) := by
  obtain ⟨c, a, hr, ha, ham⟩ := stack_matrix (n_env := n_env) (e := CXCX 1 n L (some R1) R2 loc false)
    (l := [.thin (.interface 1 n (some R1)) false, .space L n, .thin (.interface n 1 (some (-R2))) false]) rfl
    (by simp [Comp.leavesL, Comp.leaves]) (by simp [Comp.WFL, Comp.WF, Leaf.WF, hn, h1, h2])
  have hc : a.m.c = -((n - 1) * (1 / R1 + 1 / R2 - (n - 1) * (L / n) / (n * R1 * R2))) := by
    rw [ham]
    simp only [Comp.leaves, Comp.leavesL, List.append_nil, List.cons_append, List.nil_append, prod, one_mul, Leaf.abcd, Leaf.curv]
    simp only [← mat_mul_def, Mat.mul]
    field_simp
    ring
  refine ⟨c, a, hr, ha, ?_, hc, ?_⟩
  · intro h
    unfold focal
    rw [pydiv_ok' h, lensmaker, hc, neg_div_neg_eq]
  rw [ham]
  simp only [Comp.leaves, Comp.leavesL, List.append_nil, List.cons_append, List.nil_append, prod, one_mul, Leaf.abcd, Leaf.curv]
  simp only [← mat_mul_def, Mat.mul]
  refine ⟨?_, ?_, ?_⟩ <;> field_simp <;> ring

/-- C50: the focal length of a plano convex lens in vacuum is `R / (n - 1)`, whatever its thickness.  (Partial: the plate behind the
curved surface is of thickness `L / n` instead of `L`.) -/
theorem C50_PLCX_partial {n_env n L R : V} {loc : Option V} (hn : n ≠ 0) (hR : R ≠ 0) :
    ∃ (c : Comp V) (a : Arr V), resolve n_env false (PLCX 1 n L (some R) loc false) = .ok c ∧ c.matrix = .ok a ∧
      (n ≠ 1 → focal a = .ok (R / (n - 1))) ∧ a.m.c = -((n - 1) / R) ∧ a.m.b = (L / n) / n ∧
      a.m.a = 1 - (n - 1) * (L / n) / (n * R) ∧ a.m.d = 1 := by
  obtain ⟨c, a, hr, ha, ham⟩ := stack_matrix (n_env := n_env) (e := PLCX 1 n L (some R) loc false)
    (l := [.thin (.interface 1 n (some R)) false, .space L n, .thin (.interface n 1 none) false]) rfl
    (by simp [Comp.leavesL, Comp.leaves]) (by simp [Comp.WFL, Comp.WF, Leaf.WF, hn, hR])
  have hc : a.m.c = -((n - 1) / R) := by
    rw [ham]
    simp only [Comp.leaves, Comp.leavesL, List.append_nil, List.cons_append, List.nil_append, prod, one_mul, Leaf.abcd, Leaf.curv]
    simp only [← mat_mul_def, Mat.mul]
    field_simp
    ring
  refine ⟨c, a, hr, ha, ?_, hc, ?_⟩
  · intro h
    have h1 : n - 1 ≠ 0 := sub_ne_zero.mpr h
    unfold focal
    rw [pydiv_ok' (by rw [hc]; exact neg_ne_zero.mpr (div_ne_zero h1 hR)), hc, neg_div_neg_eq, one_div_div]
  rw [ham]
  simp only [Comp.leaves, Comp.leavesL, List.append_nil, List.cons_append, List.nil_append, prod, one_mul, Leaf.abcd, Leaf.curv]
  simp only [← mat_mul_def, Mat.mul]
  refine ⟨?_, ?_, ?_⟩ <;> field_simp <;> ring

/-- The matrix of a mirror behind a flat surface, in vacuum: the focal length is `R / (2 * n)`. -/
theorem C50_PLCXMirror {n_env n L R : V} {loc : Option V} (hn : n ≠ 0) (hR : R ≠ 0) :
    ∃ (c : Comp V) (a : Arr V), resolve n_env false (PLCXMirror 1 n L (some R) loc false) = .ok c ∧ c.matrix = .ok a ∧
      a.m.c = -(2 * n / R) ∧ a.m.a = a.m.d ∧ a.m.det = 1 := by
  obtain ⟨c, a, hr, ha, ham⟩ := stack_matrix (n_env := n_env) (e := PLCXMirror 1 n L (some R) loc false)
    (l := [.thin (.interface 1 n none) false, .space L n, .thin (.mirror (some R)) false, .space L n,
      .thin (.interface n 1 none) false]) rfl
    (by simp [Comp.leavesL, Comp.leaves]) (by simp [Comp.WFL, Comp.WF, Leaf.WF, hn, hR])
  refine ⟨c, a, hr, ha, ?_⟩
  rw [ham]
  simp only [Comp.leaves, Comp.leavesL, List.append_nil, List.cons_append, List.nil_append, prod, one_mul, Leaf.abcd, Leaf.curv]
  simp only [← mat_mul_def, Mat.mul, Mat.det]
  refine ⟨?_, ?_, ?_⟩ <;> field_simp <;> ring

/-- C50 refuted: no plate of index other than 1 shifts a ray as it should, by `L / n` per angle. -/
theorem C50_plate_refuted {n_env n L : V} {loc : Option V} (hn : n ≠ 0) (hn1 : n ≠ 1) (hL : L ≠ 0) :
    ∃ (c : Comp V) (a : Arr V), resolve n_env false (PLCX 1 n L none loc false) = .ok c ∧ c.matrix = .ok a ∧
      a.m.a = 1 ∧ a.m.c = 0 ∧ a.m.d = 1 ∧ a.m.b = L / n ^ 2 ∧ a.m.b ≠ L / n := by
  obtain ⟨c, a, hr, ha, ham⟩ := stack_matrix (n_env := n_env) (e := PLCX 1 n L none loc false)
    (l := [.thin (.interface 1 n none) false, .space L n, .thin (.interface n 1 none) false]) rfl
    (by simp [Comp.leavesL, Comp.leaves]) (by simp [Comp.WFL, Comp.WF, Leaf.WF, hn])
  have hb : a.m.b = L / n ^ 2 := by
    rw [ham]
    simp only [Comp.leaves, Comp.leavesL, List.append_nil, List.cons_append, List.nil_append, prod, one_mul, Leaf.abcd, Leaf.curv]
    simp only [← mat_mul_def, Mat.mul]
    field_simp
    ring
  refine ⟨c, a, hr, ha, ?_, ?_, ?_, hb, ?_⟩
  · rw [ham]
    simp only [Comp.leaves, Comp.leavesL, List.append_nil, List.cons_append, List.nil_append, prod, one_mul, Leaf.abcd, Leaf.curv]
    simp only [← mat_mul_def, Mat.mul]
    field_simp
    ring
  · rw [ham]
    simp only [Comp.leaves, Comp.leavesL, List.append_nil, List.cons_append, List.nil_append, prod, one_mul, Leaf.abcd, Leaf.curv]
    simp only [← mat_mul_def, Mat.mul]
    field_simp
    ring
  · rw [ham]
    simp only [Comp.leaves, Comp.leavesL, List.append_nil, List.cons_append, List.nil_append, prod, one_mul, Leaf.abcd, Leaf.curv]
    simp only [← mat_mul_def, Mat.mul]
    field_simp
    ring
  · rw [hb]
    intro h
    rw [div_eq_div_iff (pow_ne_zero 2 hn) hn] at h
    have : L * n * (n - 1) = 0 := by linear_combination -h
    rcases mul_eq_zero.mp this with h | h
    · exact (mul_ne_zero hL hn) h
    · exact hn1 (sub_eq_zero.mp h)

/-- C50 refuted: a ball of glass of radius 1 has the focal length 3 / 2 by the lensmaker's equation, the code gives 9 / 7. -/
theorem C50_lensmaker_refuted : ∃ (c : Comp ℚ) (a : Arr ℚ), resolve 1 false (CXCX 1 (3 / 2) 2 (some 1) 1 none false) = .ok c ∧
    c.matrix = .ok a ∧ focal a = .ok (9 / 7) ∧ lensmaker (3 / 2) 2 1 1 = (3 / 2 : ℚ) := by
  refine ⟨.sys [0, 0, 2, 2] [.thin (.interface 1 (3 / 2) (some 1)) false, .space 2 (3 / 2), .thin (.interface (3 / 2) 1 (some (-1))) false],
    .mx ⟨5 / 9, 8 / 9, -7 / 9, 5 / 9⟩, ?_, ?_, ?_, ?_⟩
  · with_unfolding_all rfl
  · decide +kernel
  · decide +kernel
  · norm_num [lensmaker]

example : ((3 / 2 : ℚ) ≠ 0) ∧ ((3 / 2 : ℚ) ≠ 1) ∧ ((2 : ℚ) ≠ 0) := by norm_num

end Alm
