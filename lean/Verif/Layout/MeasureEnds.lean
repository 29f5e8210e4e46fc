import Verif.Layout.MeasureCases

/-!
# The ends of a layout and the default source of its beam: C118
-/

namespace Alm
open Py Cplx

namespace Meas

/-- C118.  The names "left" and "right" are the two ends of the layout: through all elements in front of its target the beam at "left"
becomes the given one, and the given one, back to the left end and through the whole layout, is that at "right". -/
theorem C118_ends {s : Meas ℝ} (hg : Good s.layout) {src : TName} {tb : Tgt} {Lb : List (Leaf ℝ)} {qb : Beam ℝ}
    (hidx : s.target_idx src = .ok tb) (hLb : Comp.before s.layout tb = some Lb) (hbeam : s.beam_at rsqrt tb = .ok qb)
    (hq : 0 < qb.wavelen * qb.value.im) :
    ∃ ql qr N M, s.target_q Real.pi rsqrt (.str "left") (some src) = .ok ql ∧ s.target_q Real.pi rsqrt (.str "right") (some src) = .ok qr ∧
      toC ql.value = (N.a * toC qb.value + N.b) / (N.c * toC qb.value + N.d) ∧ Mat.mul N (prod Lb) = Mat.eye ∧
      toC qr.value = (M.a * toC qb.value + M.b) / (M.c * toC qb.value + M.d) ∧ Mat.mul M (prod Lb) = prod (Comp.leaves s.layout) := by
  obtain ⟨ql, N, e1, e2, e3, e4, -⟩ := target_q_ok (n := .str "left") hg hidx hLb hbeam hq rfl (Comp.before_left s.layout)
  obtain ⟨qr, M, f1, f2, f3, f4, -⟩ := target_q_ok (n := .str "right") hg hidx hLb hbeam hq rfl (Comp.before_right s.layout)
  exact ⟨ql, qr, N, M, e1, f1, e4, e2, f4, f2⟩

/-- C118.  Without a given source the beam is that of `principle`, and without that too the beam of the leftmost target. -/
theorem C118_default (pi : ℝ) (sqrt : ℝ → Except Err ℝ) (s : Meas ℝ) (n : TName) (z : ℝ) :
    (∀ b, s.principle = some b → s.target_q pi sqrt n none = s.target_q pi sqrt n (some b) ∧
      s.target_q_z pi sqrt z none = s.target_q_z pi sqrt z (some b)) ∧
    (s.principle = none → ∀ x l, s.beam_targets = .ok (x :: l) → s.target_q pi sqrt n none = s.target_q pi sqrt n (some (.str x.2)) ∧
      s.target_q_z pi sqrt z none = s.target_q_z pi sqrt z (some (.str x.2))) := by
  constructor
  · intro b hb
    constructor
    · unfold target_q source; rw [hb]
    · unfold target_q_z source; rw [hb]
  · intro hp x l hl
    constructor
    · unfold target_q source first_target; rw [hp, hl]; rfl
    · unfold target_q_z source first_target; rw [hp, hl]; rfl

end Meas
end Alm
