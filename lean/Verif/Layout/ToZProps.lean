import Verif.Layout.ToZSpec
import Mathlib.Tactic.NormNum

/-!
# C116: the matrices to places along the layout
-/

set_option linter.unusedSectionVars false

namespace Alm
open Py

variable {V : Type} [Field V] [LinearOrder V] [IsStrictOrderedRing V]

/-- No thin element at the place `z` of the elements `ls` acts on the light. -/
def Smooth (ls : List (Leaf V)) (z : V) : Prop :=
  ∀ pre t rev post, ls = pre ++ .thin t rev :: post → total_length pre = z → (Leaf.thin t rev).abcd = 1

theorem Cut.nonneg {ls P : List (Leaf V)} {z : V} (hn : ∀ x ∈ ls, 0 ≤ x.length) (h : Cut ls z P) : 0 ≤ z := by
  rcases h with ⟨post, h1, h2⟩ | ⟨pre, L, n, post, s, h1, h2, h3, h4, h5⟩
  · rw [← h2]
    exact total_length_nonneg fun x hx => hn x (by rw [h1]; exact List.mem_append_left _ hx)
  · rw [← h5]
    exact add_nonneg (total_length_nonneg fun x hx => hn x (by rw [h1]; exact List.mem_append_left _ hx)) h2

theorem Cut.cases {x : Leaf V} {l P : List (Leaf V)} {z : V} (h : Cut (x :: l) z P) :
    (P = [] ∧ z = 0) ∨ (∃ P', P = x :: P' ∧ Cut l (z - x.length) P') ∨ (∃ L n, x = .space L n ∧ P = [.space z n] ∧ 0 ≤ z ∧ z ≤ L) := by
  rcases h with ⟨post, h1, h2⟩ | ⟨pre, L, n, post, s, h1, h2, h3, h4, h5⟩
  · cases P with
    | nil => exact Or.inl ⟨rfl, by rw [← h2]; simp [total_length]⟩
    | cons y P =>
      rw [List.cons_append] at h1
      obtain ⟨rfl, h1'⟩ := List.cons.inj h1
      refine Or.inr (Or.inl ⟨P, rfl, Or.inl ⟨post, h1', ?_⟩⟩)
      rw [← h2]
      simp [total_length]
  · cases pre with
    | nil =>
      obtain ⟨rfl, h1⟩ := List.cons.inj h1
      have hs : s = z := by simpa [total_length] using h5
      subst hs
      exact Or.inr (Or.inr ⟨L, n, rfl, h4, h2, h3⟩)
    | cons y pre =>
      rw [List.cons_append] at h1 h4
      obtain ⟨rfl, h1'⟩ := List.cons.inj h1
      refine Or.inr (Or.inl ⟨pre ++ [.space s n], h4, Or.inr ⟨pre, L, n, post, s, h1', h2, h3, rfl, ?_⟩⟩)
      rw [← h5]
      simp only [total_length, List.map_cons, List.sum_cons]
      ring

theorem Smooth.tail {x : Leaf V} {l : List (Leaf V)} {z : V} (h : Smooth (x :: l) z) : Smooth l (z - x.length) := by
  intro pre t rev post h1 h2
  refine h (x :: pre) t rev post (by rw [h1]; rfl) ?_
  simp only [total_length, List.map_cons, List.sum_cons] at h2 ⊢
  rw [h2]
  ring

theorem space_zero_abcd (n : V) : (Leaf.space (0 : V) n).abcd = 1 := by
  show (⟨1, 0 / n, 0, 1⟩ : Mat V) = Mat.eye
  rw [zero_div]
  rfl

/-- At the left end nothing has acted. -/
theorem Cut.prod_zero {ls P : List (Leaf V)} (hn : ∀ x ∈ ls, 0 ≤ x.length) (hs : Smooth ls 0) (h : Cut ls 0 P) : prod P = 1 := by
  induction ls generalizing P with
  | nil =>
    rcases h with ⟨post, h1, h2⟩ | ⟨pre, L, n, post, s, h1, -⟩
    · rw [(List.append_eq_nil_iff.mp h1.symm).1, prod]
    · simp at h1
  | cons x l ih =>
    have hn' : ∀ y ∈ l, 0 ≤ y.length := fun y hy => hn y (List.mem_cons_of_mem _ hy)
    rcases h.cases with ⟨rfl, -⟩ | ⟨P', rfl, hc⟩ | ⟨L, n, rfl, rfl, -, -⟩
    · rw [prod]
    · have h0 := hc.nonneg hn'
      have hx : x.length = 0 := le_antisymm (by linarith) (hn x List.mem_cons_self)
      have ht := hs.tail
      rw [hx, sub_zero] at hc ht
      rw [prod, ih hn' ht hc, one_mul]
      cases x with
      | thin t rev => exact hs [] t rev l rfl (by simp [total_length])
      | space L n =>
        obtain rfl : L = 0 := hx
        exact space_zero_abcd n
    · rw [prod, prod, one_mul, space_zero_abcd]

/-- What the light has passed at a place, unless a thin element acts there, has one matrix only. -/
theorem Cut.prod_unique {ls P Q : List (Leaf V)} {z : V} (hn : ∀ x ∈ ls, 0 ≤ x.length) (hs : Smooth ls z) (hP : Cut ls z P)
    (hQ : Cut ls z Q) : prod P = prod Q := by
  induction ls generalizing z P Q with
  | nil =>
    have : ∀ {R}, Cut ([] : List (Leaf V)) z R → R = [] := by
      intro R h
      rcases h with ⟨post, h1, h2⟩ | ⟨pre, L, n, post, s, h1, -⟩
      · exact (List.append_eq_nil_iff.mp h1.symm).1
      · simp at h1
    rw [this hP, this hQ]
  | cons x l ih =>
    have hn' : ∀ y ∈ l, 0 ≤ y.length := fun y hy => hn y (List.mem_cons_of_mem _ hy)
    by_cases hz : z = 0
    · subst hz
      rw [hP.prod_zero hn hs, hQ.prod_zero hn hs]
    -- a part of a space, and the whole of it
    have mixed : ∀ {R' : List (Leaf V)} {L n : V}, x = .space L n → 0 ≤ z → z ≤ L → Cut l (z - x.length) R' →
        prod (x :: R') = prod [.space z n] := by
      rintro R' L n rfl h0 h1 hc
      have h2 := hc.nonneg hn'
      have hzL : z = L := le_antisymm h1 (by
        have : 0 ≤ z - L := h2
        linarith)
      subst hzL
      have ht := hs.tail
      rw [show (Leaf.space z n).length = z from rfl, sub_self] at hc ht
      rw [prod, hc.prod_zero hn' ht, prod, prod]
    rcases hP.cases with ⟨-, h⟩ | ⟨P', rfl, hc⟩ | ⟨L, n, rfl, rfl, h0, h1⟩
    · exact absurd h hz
    · rcases hQ.cases with ⟨-, h⟩ | ⟨Q', rfl, hc'⟩ | ⟨L, n, hx, rfl, h0, h1⟩
      · exact absurd h hz
      · rw [prod, prod, ih hn' hs.tail hc hc']
      · exact mixed hx h0 h1 hc
    · rcases hQ.cases with ⟨-, h⟩ | ⟨Q', rfl, hc'⟩ | ⟨L', n', hx, rfl, -, -⟩
      · exact absurd h hz
      · exact (mixed rfl h0 h1 hc').symm
      · cases hx
        rfl

namespace Comp

/-- C116: `matrix_target_to_z_single(t, z)`, for every target and every place within the layout, is the matrix that takes the rays
arriving at the target to the rays at the place: `M * (everything left of t) = (everything left of z)`. -/
theorem C116_path {n : V} {parent : Bool} {e : El V} {c : Comp V} (hr : resolve n parent e = .ok c) (hw : WF c) (hn : Nonneg c)
    {t : Tgt} {L : List (Leaf V)} (ht : before c t = some L) {z : V} (h0 : 0 ≤ z) (h1 : z ≤ c.width) :
    ∃ (a : Arr V) (P : List (Leaf V)), to_z c t z = .ok a ∧ Cut (leaves c) z P ∧ Mat.mul a.m (prod L) = prod P := by
  obtain ⟨a, P, h2, -, h3, h4⟩ := to_z_spec c hw (C39_tiles n e parent c hr) hn t z L ht h0 h1
  exact ⟨a, P, h2, h3, h4⟩

/-- C116: `matrix_target_to_z_single(b, z) * matrix_between(a, b) = matrix_target_to_z_single(a, z)`: which target the place is reached
from makes no difference.  (Partial: no thin element acts at the place; see `C116_lens_refuted`.) -/
theorem C116_compose_partial {n : V} {parent : Bool} {e : El V} {s : Comp V} (hr : resolve n parent e = .ok s) (hw : WF s)
    (hn : Nonneg s) {a b : Tgt} (ha : before s a ≠ none) (hb : before s b ≠ none) {z : V} (h0 : 0 ≤ z) (h1 : z ≤ s.width)
    (hs : Smooth (leaves s) z) :
    ∃ az bz ab : Arr V, to_z s a z = .ok az ∧ to_z s b z = .ok bz ∧ (matrix_between s a b []).1 = .ok ab ∧
      Mat.mul bz.m ab.m = az.m := by
  obtain ⟨La, hLa⟩ := Option.ne_none_iff_exists'.mp ha
  obtain ⟨Lb, hLb⟩ := Option.ne_none_iff_exists'.mp hb
  obtain ⟨az, P, h2, h3, h4⟩ := C116_path hr hw hn hLa h0 h1
  obtain ⟨bz, Q, h5, h6, h7⟩ := C116_path hr hw hn hLb h0 h1
  obtain ⟨ab, h8, h9⟩ := C38_path hw [] hLa hLb
  refine ⟨az, bz, ab, h2, h5, h8, ?_⟩
  rw [mat_mul_def] at h4 h7 h9 ⊢
  refine cancel (det_prod (before_WF hw hLa)) ?_
  rw [mul_assoc, h9, h7, h4, h3.prod_unique hn hs h6]

/-- C116: at the position of a target the matrix is that of `matrix_between`, when no thin element acts there. -/
theorem C116_target_partial {n : V} {parent : Bool} {e : El V} {s : Comp V} (hr : resolve n parent e = .ok s) (hw : WF s)
    (hn : Nonneg s) {a b : Tgt} (ha : before s a ≠ none) (hb : before s b ≠ none) {z : V} (hz : s.target_pos b = .ok z)
    (hs : Smooth (leaves s) z) :
    ∃ az ab : Arr V, to_z s a z = .ok az ∧ (matrix_between s a b []).1 = .ok ab ∧ az.m = ab.m := by
  have htile := C39_tiles n e parent s hr
  obtain ⟨La, hLa⟩ := Option.ne_none_iff_exists'.mp ha
  obtain ⟨Lb, hLb⟩ := Option.ne_none_iff_exists'.mp hb
  have hzL : z = total_length Lb := by
    rw [target_pos_spec s htile b Lb hLb] at hz
    exact (Except.ok.inj hz).symm
  obtain ⟨R, hR⟩ := before_prefix s b Lb hLb
  have hw' : s.width = total_length (leaves s) := width_leaves s htile
  have hLn : ∀ x ∈ Lb, 0 ≤ x.length := fun x hx => hn x (by rw [hR]; exact List.mem_append_left _ hx)
  have hRn : ∀ x ∈ R, 0 ≤ x.length := fun x hx => hn x (by rw [hR]; exact List.mem_append_right _ hx)
  have h0 : 0 ≤ z := by rw [hzL]; exact total_length_nonneg hLn
  have h1 : z ≤ s.width := by
    rw [hw', hR, total_length_append, hzL]
    linarith [total_length_nonneg hRn]
  obtain ⟨az, P, h2, h3, h4⟩ := C116_path hr hw hn hLa h0 h1
  obtain ⟨ab, h8, h9⟩ := C38_path hw [] hLa hLb
  refine ⟨az, ab, h2, h8, ?_⟩
  rw [mat_mul_def] at h4 h9
  refine cancel (det_prod (before_WF hw hLa)) ?_
  rw [h4, h9]
  exact h3.prod_unique hn hs (Or.inl ⟨R, hR, hzL.symm⟩)

/-! The hypotheses can be met. -/

/-- A lens between two targets. -/
def lensed : El ℚ :=
  .sys true none none [.thin .target none false, .space 1 1 none false, .thin (.lens (some 1)) none false, .space 2 1 none false,
    .thin .target none false] none false

/-- The same with the component list computed. -/
def lensedC : Comp ℚ :=
  .sys [0, 0, 1, 1, 3, 3] [.thin .target false, .space 1 1, .thin (.lens (some 1)) false, .space 2 1, .thin .target false]

theorem lensed_resolve : resolve (1 : ℚ) false lensed = .ok lensedC := by
  with_unfolding_all rfl

theorem lensed_WF : WF lensedC := by
  simp [lensedC, WF, WFL, leavesL, leaves, Leaf.WF]

theorem lensed_nonneg : Nonneg lensedC := by
  intro x hx
  simp only [lensedC, leaves, leavesL, List.cons_append, List.nil_append, List.mem_cons, List.not_mem_nil, or_false] at hx
  rcases hx with rfl | rfl | rfl | rfl | rfl <;> norm_num [Leaf.length]

/-- Half way from the lens to the second target nothing acts. -/
theorem lensed_smooth : Smooth (leaves lensedC) 2 := by
  intro pre t rev post h hp
  exfalso
  simp only [lensedC, leaves, leavesL, List.cons_append, List.nil_append] at h
  match pre, h with
  | [], h => simp [total_length] at hp
  | [x1], h =>
    simp only [List.cons_append, List.cons.injEq] at h
    obtain ⟨rfl, h⟩ := h
    simp at h
  | [x1, x2], h =>
    simp only [List.cons_append, List.cons.injEq] at h
    obtain ⟨rfl, rfl, h⟩ := h
    norm_num [total_length, Leaf.length] at hp
  | [x1, x2, x3], h =>
    simp only [List.cons_append, List.cons.injEq] at h
    obtain ⟨rfl, rfl, rfl, h⟩ := h
    simp at h
  | [x1, x2, x3, x4], h =>
    simp only [List.cons_append, List.cons.injEq] at h
    obtain ⟨rfl, rfl, rfl, rfl, h⟩ := h
    norm_num [total_length, Leaf.length] at hp
  | x1 :: x2 :: x3 :: x4 :: x5 :: pre, h =>
    simp at h

example : before lensedC [.idx 0, .qTarget] ≠ none ∧ before lensedC [.idx 4, .qTarget] ≠ none := by
  simp [lensedC, before, beforeL]

example : to_z lensedC [.idx 0, .qTarget] 2 = .ok (.mx ⟨0, 1, -1, 0⟩) ∧ to_z lensedC [.idx 4, .qTarget] 2 = .ok (.mx ⟨1, -1, 0, 1⟩) := by
  constructor <;> decide +kernel

/-- C116 refuted at the place of a thin lens: seen from the target on the left the place is behind the lens, seen from the target on the
right it is in front of it, so that the two matrices are not related by the matrix between the targets. -/
theorem C116_lens_refuted :
    to_z lensedC [.idx 0, .qTarget] 1 = .ok (.mx ⟨1, 1, -1, 0⟩) ∧ to_z lensedC [.idx 4, .qTarget] 1 = .ok (.mx ⟨1, -2, 1, -1⟩) ∧
    (matrix_between lensedC [.idx 0, .qTarget] [.idx 4, .qTarget] []).1 = .ok (.mx ⟨-1, 1, -1, 0⟩) ∧
    Mat.mul (⟨1, -2, 1, -1⟩ : Mat ℚ) ⟨-1, 1, -1, 0⟩ ≠ ⟨1, 1, -1, 0⟩ := by
  refine ⟨?_, ?_, ?_, ?_⟩ <;> decide +kernel

end Comp
end Alm
