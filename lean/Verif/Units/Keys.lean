import Mathlib.Data.Real.Basic
import Mathlib.Data.List.Infix
import Mathlib.Tactic.Linarith
import Mathlib.Tactic.NormNum
import Verif.Units.Fit

/-!
# C130: which parameters a fit accepts, and the bounds it puts on roots

Model of `FitterRoot.parameter_add` (`phasor/fitting/casadi/fitter.py` l.73-84) and of the bounds in `add_fit`
(`phasor/signals/ZPSOS.py` l.120-130).  A datum is a number, its identity (`is`).
-/

namespace Unt
open Py

/-- The part of `FitterRoot` used here: which systems are registered (`object_roots_inv`) and the parameters
(`_registry_parameters`, l.63-65). -/
structure Root where
  systems : List String
  params : List (List String × ℕ)

/-- The check of one parameter, l.77-81. -/
def clash (pkey : List String) (datum : ℕ) (o : List String × ℕ) : Bool :=
  decide (o.1.take pkey.length = pkey.take o.1.length) && decide (o.2 ≠ datum)

/-- `parameter_add` (l.73-84).  Nothing is added to the registry, here or anywhere else in the package. -/
def parameter_add (r : Root) (system : String) (pkey : List String) (datum : ℕ) : Except Err Root :=
  if system ∈ r.systems then
    if r.params.any (clash pkey datum) then .error .runtime else .ok r
  else .error .runtime

/-- Two keys clash exactly if one leads to or into the place of the other. -/
theorem clash_iff (p q : List String) (d e : ℕ) :
    clash p d (q, e) = true ↔ (p <+: q ∨ q <+: p) ∧ e ≠ d := by
  have : q.take p.length = p.take q.length ↔ (p <+: q ∨ q <+: p) := by
    constructor
    · intro h
      rcases le_total p.length q.length with hl | hl
      · left
        rw [List.take_of_length_le hl] at h
        exact List.prefix_iff_eq_take.2 h.symm
      · right
        rw [List.take_of_length_le hl] at h
        exact List.prefix_iff_eq_take.2 h
    · rintro (h | h)
      · have := List.prefix_iff_eq_take.1 h
        rw [List.take_of_length_le h.length_le]; exact this.symm
      · have := List.prefix_iff_eq_take.1 h
        rw [List.take_of_length_le h.length_le]; exact this
  simp [clash, this]

/-- **C130, the check.**  Given a registry, a parameter of a registered system is refused exactly if its place is that of
another parameter, above or below it; of an unregistered system always. -/
theorem C130_check_partial (r : Root) (s : String) (p : List String) (d : ℕ) :
    (s ∉ r.systems → parameter_add r s p d = .error .runtime)
    ∧ (s ∈ r.systems →
        (parameter_add r s p d = .error .runtime ↔ ∃ o ∈ r.params, (p <+: o.1 ∨ o.1 <+: p) ∧ o.2 ≠ d)) := by
  refine ⟨fun h => by simp [parameter_add, h], fun h => ?_⟩
  have key : r.params.any (clash p d) = true ↔ ∃ o ∈ r.params, (p <+: o.1 ∨ o.1 <+: p) ∧ o.2 ≠ d := by
    rw [List.any_eq_true]
    exact exists_congr fun o => and_congr_right fun _ => clash_iff p o.1 d o.2
  rw [← key]
  unfold parameter_add
  rw [if_pos h]
  by_cases hc : r.params.any (clash p d) = true <;> simp [hc]

/-- Adding parameters one after the other. -/
def add_all (r : Root) (l : List (String × List String × ℕ)) : Except Err Root :=
  l.foldlM (fun r x => parameter_add r x.1 x.2.1 x.2.2) r

/-- **C130, refuted: "Parameter Keys Must be Unique".**  From the empty registry every list of parameters of registered
systems is accepted, the same place twice included. -/
theorem C130_unique_refuted (systems : List String) (l : List (String × List String × ℕ))
    (h : ∀ x ∈ l, x.1 ∈ systems) : add_all ⟨systems, []⟩ l = .ok ⟨systems, []⟩ := by
  induction l with
  | nil => rfl
  | cons x l ih =>
    have hx : parameter_add ⟨systems, []⟩ x.1 x.2.1 x.2.2 = .ok ⟨systems, []⟩ := by
      simp [parameter_add, h x (List.mem_cons_self ..)]
    simp only [add_all, List.foldlM_cons, hx, bind, Except.bind]
    exact ih fun y hy => h y (List.mem_cons_of_mem _ hy)

example : ∃ l : List (String × List String × ℕ), (∀ x ∈ l, x.1 ∈ ["sys"])
    ∧ (∃ a ∈ l, ∃ b ∈ l, a.2.1 = b.2.1 ∧ a.2.2 ≠ b.2.2) :=
  ⟨[("sys", ["mirror", "L"], 0), ("sys", ["mirror", "L"], 1)], by simp, _, List.mem_cons_self .., _,
    List.mem_cons_of_mem _ (List.mem_cons_self ..), rfl, by decide⟩

section
variable {K D : Type} [Field K] [DecidableEq K] [AddCommGroup D] [DecidableEq D]

/-- **C130, what goes wrong.**  Of two parameters at the same place — one length through two of its attributes,
in metres and in centimetres — the one injected last decides: the first symbol is lost. -/
theorem C130_lost {t : Tree K D} {key : List String} {u w : Qty K D} (ho : t.Open key) (hk : t key = none)
    (hu : u.Good) (hw : w.Good) (hd : w.unit.dim = u.unit.dim) (x y x' y' : K) :
    ∃ t₁ t₂, inject t key u x y = .ok t₁ ∧ inject t₁ key w x' y' = .ok t₂
      ∧ ∃ v, read_val (t₂.node key) u = .ok (some v) ∧ amount v u = amount x' w := by
  obtain ⟨t₁, h1, hv, hr, hs, hup, hout⟩ := attr3 hk (.num x) (.num y) (.units (.ofQty u))
  have ho' : t₁.Open key := open_of ho hup
  obtain ⟨t₂, h2, _, h3, _⟩ := C129_inject (t := t₁) ho' (by rw [hup _ List.prefix_rfl, hk]) hw x' y'
  refine ⟨t₁, t₂, ?_, h2, (h3 u hu hd).1⟩
  rw [← h1]; simp [inject, walk_ok ho, bind, Except.bind]

end

/-! ## Bounds on roots -/

/-- The bounds on the real part of a root, `none` for infinity (`ZPSOS.py` l.120-130); `.0001` is `1/10000`. -/
noncomputable def bounds (preserve_plane : Bool) (re : ℝ) : Option ℝ × Option ℝ :=
  if preserve_plane then
    if re ≤ 0 then (none, some (1 / 10000)) else (some 0, none)
  else (none, none)

/-- What a fit may choose. -/
def Within (b : Option ℝ × Option ℝ) (x : ℝ) : Prop := (∀ l, b.1 = some l → l ≤ x) ∧ ∀ h, b.2 = some h → x ≤ h

/-- **C130, planes.**  The bounds always allow the start of the fit, without `preserve_plane` everything; with it an
unstable root (of positive real part) never becomes stable, and a stable root moves at most `.0001` Hz into the unstable half. -/
theorem C130_plane_partial (x y : ℝ) :
    (∀ pp, Within (bounds pp x) x) ∧ Within (bounds false x) y
    ∧ (0 < x → Within (bounds true x) y → 0 ≤ y)
    ∧ (x ≤ 0 → (Within (bounds true x) y ↔ y ≤ 1 / 10000)) := by
  refine ⟨fun pp => ?_, ?_, fun hx h => ?_, fun hx => ?_⟩
  · cases pp
    · simp [Within, bounds]
    · by_cases hx : x ≤ 0
      · simp [Within, bounds, hx]; linarith
      · simp [Within, bounds, hx]; exact le_of_lt (not_le.1 hx)
  · simp [Within, bounds]
  · have : ¬ x ≤ 0 := not_le.2 hx
    simpa [Within, bounds, this] using h
  · simp [Within, bounds, hx]

/-- **C130, refuted: `preserve_plane`.**  Every stable root may be fitted to an unstable one. -/
theorem C130_plane_refuted (x : ℝ) (hx : x ≤ 0) : ∃ y, Within (bounds true x) y ∧ 0 < y :=
  ⟨1 / 10000, ((C130_plane_partial x _).2.2.2 hx).2 le_rfl, by norm_num⟩

end Unt
