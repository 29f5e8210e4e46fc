import Mathlib.Algebra.Field.Rat
import Mathlib.Tactic.FieldSimp
import Mathlib.Tactic.Ring
import Mathlib.Tactic.NormNum
import Verif.Units.Model

/-!
# C126, C127 and C128: arithmetic with units, reading a parameter in any unit, setting one up
-/

namespace Unt
open Py

set_option linter.unusedSectionVars false

variable {K D : Type} [Field K] [DecidableEq K] [AddCommGroup D] [DecidableEq D]

/-- The physical amount of a number `x` of units `u`, in root units. -/
def amount (x : K) (u : Qty K D) : K := x * (u.mag * u.unit.scale)

/-- Units which are usable: not zero. -/
def Qty.Good (u : Qty K D) : Prop := u.mag ≠ 0 ∧ u.unit.scale ≠ 0

theorem rescale_ok {t f : Qty K D} (ht : t.Good) (h : f.unit.dim = t.unit.dim) :
    ∃ r, rescale (some t) (some f) = .ok r ∧ ∀ x : K, amount (x * r) t = amount x f := by
  obtain ⟨h1, h2⟩ := ht
  refine ⟨f.mag / t.mag * (f.unit.scale / t.unit.scale), ?_, ?_⟩
  · simp [rescale, Qty.div, h1, h, bind, Except.bind, pure, Except.pure]
  · intro x
    simp only [amount]
    field_simp

theorem rescale_dim {t f : Qty K D} (ht : t.mag ≠ 0) (h : f.unit.dim ≠ t.unit.dim) :
    rescale (some t) (some f) = .error .assertion := by
  simp [rescale, Qty.div, ht, sub_eq_zero, h, bind, Except.bind, throw, throwThe, MonadExceptOf.throw]

theorem amount_inj {u : Qty K D} (hu : u.Good) {x y : K} (h : amount x u = amount y u) : x = y := by
  exact mul_right_cancel₀ (mul_ne_zero hu.1 hu.2) h

theorem amount_add (x y : K) (u : Qty K D) : amount (x + y) u = amount x u + amount y u := by
  simp only [amount]; ring

theorem amount_sub (x y : K) (u : Qty K D) : amount (x - y) u = amount x u - amount y u := by
  simp only [amount]; ring

/-- **C126, addition.**  For any two values with units of the same kind, the sum is in the units of the first, and its
value and its reference are the sums of the amounts. -/
theorem C126_add_partial {qa qb : Qty K D} (ha : qa.Good) (hd : qb.unit.dim = qa.unit.dim) (va ra vb rb : K) :
    ∃ v r, (Grp.mk (some va) (some ra) (some qa)).add ⟨some vb, some rb, some qb⟩
        = .ok ⟨some v, some r, some qa⟩
      ∧ amount v qa = amount va qa + amount vb qb ∧ amount r qa = amount ra qa + amount rb qb := by
  obtain ⟨r, h, e⟩ := rescale_ok ha hd
  refine ⟨va + vb * r, ra + rb * r, ?_, ?_, ?_⟩
  · simp [Grp.add, h, lift2, bind, Except.bind, pure, Except.pure]
  · rw [amount_add, e]
  · rw [amount_add, e]

/-- **C126, subtraction.** -/
theorem C126_sub {qa qb : Qty K D} (ha : qa.Good) (hd : qb.unit.dim = qa.unit.dim) (va ra vb rb : K) :
    ∃ v r, (Grp.mk (some va) (some ra) (some qa)).sub ⟨some vb, some rb, some qb⟩
        = .ok ⟨some v, some r, some qa⟩
      ∧ amount v qa = amount va qa - amount vb qb ∧ amount r qa = amount ra qa - amount rb qb := by
  obtain ⟨r, h, e⟩ := rescale_ok ha hd
  refine ⟨va - vb * r, ra - rb * r, ?_, ?_, ?_⟩
  · simp [Grp.sub, h, lift2, bind, Except.bind, pure, Except.pure]
  · rw [amount_sub, e]
  · rw [amount_sub, e]

/-- **C126, kinds.**  Values of different kinds are never added or subtracted. -/
theorem C126_kinds {a b : Grp K D} {qa qb : Qty K D} (ha : a.units = some qa) (hb : b.units = some qb)
    (h0 : qa.mag ≠ 0) (hd : qb.unit.dim ≠ qa.unit.dim) :
    a.add b = .error .assertion ∧ a.sub b = .error .assertion := by
  constructor
  · simp [Grp.add, ha, hb, rescale_dim h0 hd, bind, Except.bind]
  · simp [Grp.sub, ha, hb, rescale_dim h0 hd, bind, Except.bind]

/-- **C126, choice of units.**  The units the second value is written in do not matter: values of the same amounts have
the same sum and difference with anything. -/
theorem C126_units (a : Grp K D) {qb qc : Qty K D} (hd : qc.unit.dim = qb.unit.dim) {vb rb vc rc : K}
    (ha : ∀ q, a.units = some q → q.Good)
    (hv : amount vc qc = amount vb qb) (hr : amount rc qc = amount rb qb) :
    a.add ⟨some vb, some rb, some qb⟩ = a.add ⟨some vc, some rc, some qc⟩
      ∧ a.sub ⟨some vb, some rb, some qb⟩ = a.sub ⟨some vc, some rc, some qc⟩ := by
  obtain ⟨va, ra, ua⟩ := a
  cases ua with
  | none => exact ⟨rfl, rfl⟩
  | some qa =>
    have ga := ha qa rfl
    by_cases hq : qb.unit.dim = qa.unit.dim
    · obtain ⟨r, h, e⟩ := rescale_ok ga hq
      obtain ⟨s, h', e'⟩ := rescale_ok (f := qc) ga (hd.trans hq)
      have e1 : vc * s = vb * r := amount_inj ga (by rw [e, e', hv])
      have e2 : rc * s = rb * r := amount_inj ga (by rw [e, e', hr])
      constructor
      · simp only [Grp.add, h, h', bind, Except.bind]
        cases va <;> cases ra <;> simp [lift2, e1, e2]
      · simp only [Grp.sub, h, h', bind, Except.bind]
        cases va <;> cases ra <;> simp [lift2, e1, e2]
    · have h1 := C126_kinds (a := ⟨va, ra, some qa⟩) (b := ⟨some vb, some rb, some qb⟩) rfl rfl ga.1 hq
      have h2 := C126_kinds (a := ⟨va, ra, some qa⟩) (b := ⟨some vc, some rc, some qc⟩) rfl rfl ga.1
        (fun h => hq (hd ▸ h))
      exact ⟨h1.1.trans h2.1.symm, h1.2.trans h2.2.symm⟩

/-- **C126, multiples.**  A multiple of a value multiplies both amounts and keeps the units, the negative is the multiple
by -1, and the quantity of the value (`valQ`) has the amount of the value. -/
theorem C126_scale {qa : Qty K D} (va ra k : K) :
    (∃ v r, (Grp.mk (some va) (some ra) (some qa)).mul k = .ok ⟨some v, some r, some qa⟩
      ∧ amount v qa = k * amount va qa ∧ amount r qa = k * amount ra qa)
    ∧ (Grp.mk (some va) (some ra) (some qa)).neg = (Grp.mk (some va) (some ra) (some qa)).mul (-1)
    ∧ (∃ q, (Grp.mk (some va) (some ra) (some qa)).valQ = .ok q ∧ q.unit = qa.unit ∧ amount 1 q = amount va qa)
    ∧ (∃ q, (Grp.mk (some va) (some ra) (some qa)).refQ = .ok q ∧ q.unit = qa.unit ∧ amount 1 q = amount ra qa) := by
  refine ⟨⟨va * k, ra * k, rfl, ?_, ?_⟩, ?_, ⟨_, rfl, rfl, ?_⟩, ⟨_, rfl, rfl, ?_⟩⟩
  · simp only [amount]; ring
  · simp only [amount]; ring
  · simp [Grp.neg, Grp.mul, lift2, bind, Except.bind, pure, Except.pure]
  · simp only [amount]; ring
  · simp only [amount]; ring

/-- One metre. -/
def exM : Qty ℚ ℤ := ⟨1, ⟨1, 1⟩⟩
/-- One centimetre. -/
def exCm : Qty ℚ ℤ := ⟨1, ⟨1/100, 1⟩⟩
/-- One second, another kind. -/
def exS : Qty ℚ ℤ := ⟨1, ⟨1, 2⟩⟩

example : exM.Good ∧ exCm.Good ∧ exCm.unit.dim = exM.unit.dim ∧ exS.unit.dim ≠ exM.unit.dim := by
  refine ⟨⟨?_, ?_⟩, ⟨?_, ?_⟩, rfl, ?_⟩ <;> simp [exM, exCm, exS]
example : (Grp.mk (some 3) (some 2) (some exM)).add ⟨some 50, some 10, some exCm⟩
    = .ok ⟨some (7/2), some (21/10), some exM⟩ := by
  simp [Grp.add, rescale, Qty.div, exM, exCm, lift2, bind, Except.bind, pure, Except.pure]; norm_num
example : amount (50 : ℚ) exCm = amount (1/2) exM := by simp [amount, exM, exCm]; norm_num

/-- **C126, refuted: halves.**  No value with units can be divided by a number, though its multiples exist: the
class only has Python 2's `__div__`. -/
theorem C126_refuted : (∀ (a : Grp K D) (k : K), a.truediv k = .error .typeError)
    ∧ ∃ b : Grp ℚ ℤ, (Grp.mk (some 3) (some 2) (some exM)).mul (1/2) = .ok b := by
  exact ⟨fun _ _ => rfl, _, rfl⟩

/-- **C126, refuted: values without units.**  Two values without units (`UnitlessElementRefValue`) can be neither added
nor subtracted. -/
theorem C126_unitless_refuted (va ra vb rb : Option K) :
    (Grp.mk va ra none : Grp K D).add ⟨vb, rb, none⟩ = .error .typeError
    ∧ (Grp.mk va ra none : Grp K D).sub ⟨vb, rb, none⟩ = .error .typeError := ⟨rfl, rfl⟩

/-! ## C127 -/

/-- The string written for a quantity or a unit is read back as that quantity. -/
theorem mag1_parse (q : Qty K D) : (mag1_units (.qty q)).parse = .ok q := by
  obtain ⟨m, u⟩ := q
  by_cases h : m = 1 <;> simp [mag1_units, UStr.parse, h]

theorem scale_ok {n : Node K D} {s : UStr K D} {f u : Qty K D} (hn : n "units" = some (.units s))
    (hs : s.parse = .ok f) (hu : u.Good) (hd : f.unit.dim = u.unit.dim) :
    ∃ r, units_scale n u = .ok r ∧ ∀ x : K, amount (x * r) u = amount x f := by
  obtain ⟨r, h, e⟩ := rescale_ok hu hd
  exact ⟨r, by simp [units_scale, hn, hs, h, bind, Except.bind], e⟩

/-- The entry at `k` of a parameter holds the number `x` and the parameter has the units `f`. -/
def Holds (n : Node K D) (k : String) (x : K) (f : Qty K D) : Prop :=
  n k = some (.num x) ∧ ∃ s, n "units" = some (.units s) ∧ s.parse = .ok f

theorem read_val_ok {n : Node K D} {x : K} {f u : Qty K D} (h : Holds n "val" x f) (hu : u.Good)
    (hd : f.unit.dim = u.unit.dim) : ∃ v, read_val n u = .ok (some v) ∧ amount v u = amount x f := by
  obtain ⟨h1, s, h2, h3⟩ := h
  obtain ⟨r, h4, e⟩ := scale_ok h2 h3 hu hd
  exact ⟨x * r, by simp [read_val, h1, h4, bind, Except.bind, pure, Except.pure], e x⟩

theorem read_ref_ok {n : Node K D} {x : K} {f u : Qty K D} (h : Holds n "ref" x f) (hu : u.Good)
    (hd : f.unit.dim = u.unit.dim) : ∃ v, read_ref n u = .ok (some v) ∧ amount v u = amount x f := by
  obtain ⟨h1, s, h2, h3⟩ := h
  obtain ⟨r, h4, e⟩ := scale_ok h2 h3 hu hd
  exact ⟨x * r, by simp [read_ref, h1, h4, bind, Except.bind, pure, Except.pure], e x⟩

/-- **C127.**  A parameter read through any of its attributes, in any units of its kind, is the same amount: that of the
number and the units in the tree.  So is its reference, which is the value when none is given. -/
theorem C127_read {n : Node K D} {x : K} {f u : Qty K D} (h : Holds n "val" x f) (hu : u.Good)
    (hd : f.unit.dim = u.unit.dim) :
    (∃ v, read_val n u = .ok (some v) ∧ amount v u = amount x f)
    ∧ (∀ y, n "ref" = some (.num y) → ∃ v, read_ref n u = .ok (some v) ∧ amount v u = amount y f)
    ∧ (n "ref" = none → read_ref n u = read_val n u) := by
  refine ⟨read_val_ok h hu hd, fun y hy => read_ref_ok ⟨hy, h.2⟩ hu hd, fun hn => ?_⟩
  simp [read_ref, hn]

/-- **C127, two units.**  What is read in two units of the kind differs by the ratio of the units. -/
theorem C127_ratio {n : Node K D} {x : K} {f u w : Qty K D} (h : Holds n "val" x f) (hu : u.Good) (hw : w.Good)
    (hdu : f.unit.dim = u.unit.dim) (hdw : f.unit.dim = w.unit.dim) {a b : K}
    (ha : read_val n u = .ok (some a)) (hb : read_val n w = .ok (some b)) : amount a u = amount b w := by
  obtain ⟨v, h1, h2⟩ := read_val_ok h hu hdu
  obtain ⟨v', h3, h4⟩ := read_val_ok h hw hdw
  rw [ha] at h1; rw [hb] at h3
  cases h1; cases h3
  rw [h2, h4]

/-- **C127, kinds.**  A number read in units of another kind is an `AssertionError`; no value at all is `None` in any
units. -/
theorem C127_kinds {n : Node K D} {x : K} {f u : Qty K D} (h : Holds n "val" x f) (hu : u.mag ≠ 0)
    (hd : f.unit.dim ≠ u.unit.dim) :
    read_val n u = .error .assertion
    ∧ ∀ m : Node K D, m "val" = some .none → m "ref" = none →
        read_val m u = .ok none ∧ read_ref m u = .ok none := by
  obtain ⟨h1, s, h2, h3⟩ := h
  constructor
  · simp [read_val, h1, units_scale, h2, h3, rescale_dim hu hd, bind, Except.bind]
  · intro m h1 h2
    simp [read_ref, read_val, h1, h2]

/-- A parameter in the tree: 12 cm. -/
def exNode : Node ℚ ℤ := fun k =>
  if k = "val" then some (.num 12) else if k = "units" then some (.units (.ofQty exCm)) else none

example : Holds exNode "val" 12 exCm := ⟨rfl, _, rfl, rfl⟩
example : exNode "ref" = none := rfl
example : read_val exNode exM = .ok (some (12 / 100)) := by
  simp [read_val, exNode, units_scale, UStr.parse, rescale, Qty.div, exM, exCm, bind, Except.bind, pure, Except.pure]
  norm_num

/-! ## C128 -/

/-- Nothing in the tree for a parameter. -/
def fresh : Node K D := fun _ => none

/-- The amount a source stands for (value and reference) and the kind of its units. -/
def Src.Means (kd : Kind K D) : Src K D → K → K → Qty K D → Prop
  | .named k (some x), v, r, q => kd.umap k = some q ∧ v = x ∧ r = x
  | .pref (.grp g), v, r, q => g.val = some v ∧ g.ref = some r ∧ g.units = some q
  | .pref (.unit u), v, r, q => q = ⟨1, u⟩ ∧ v = 1 ∧ r = 1
  | _, _, _, _ => False

theorem setup_single (kd : Kind K D) (same : K → K → Bool) (s : Src K D) (dflt : Option (Src K D)) (n : Node K D) :
    setup kd same none [s] dflt n = store kd same n s := rfl

theorem store_fresh {kd : Kind K D} {same : K → K → Bool} (hsame : ∀ x y, same x y = true → x = y) {s : Src K D}
    {v r : K} {q : Qty K D} (hs : s.Means kd v r q) :
    ∃ n, store kd same fresh s = .ok n ∧ Holds n "val" v q
      ∧ ((n "ref" = none ∧ r = v) ∨ n "ref" = some (.num r)) := by
  rcases s with ⟨_ | ⟨⟨val, ref, units⟩⟩ | _ | u | _⟩ | ⟨k, _ | x⟩
  · exact hs.elim
  · obtain ⟨h1, h2, h3⟩ := hs
    cases h1; cases h2; cases h3
    by_cases hvr : same v r = true
    · refine ⟨_, rfl, ⟨?_, _, ?_, mag1_parse q⟩, Or.inl ⟨?_, (hsame _ _ hvr).symm⟩⟩ <;>
        simp [hvr, setdefault, fresh, Function.update, V.ofOpt]
    · refine ⟨_, rfl, ⟨?_, _, ?_, mag1_parse q⟩, Or.inr ?_⟩ <;>
        simp [hvr, setdefault, fresh, Function.update, V.ofOpt]
  · exact hs.elim
  · obtain ⟨h1, h2, h3⟩ := hs
    subst h1; subst h2; subst h3
    refine ⟨_, rfl, ⟨?_, .ofUnit u, ?_, rfl⟩, Or.inl ⟨?_, rfl⟩⟩ <;>
      simp [setdefault, fresh, Function.update, mag1_units]
  · exact hs.elim
  · exact hs.elim
  · obtain ⟨h1, h2, h3⟩ := hs
    subst h2; subst h3
    refine ⟨setdefault (setdefault fresh "units" (.units (mag1_units (.qty q)))) "val" (.ofOpt (some r)),
      by simp only [store, h1], ⟨?_, mag1_units (.qty q), ?_, mag1_parse q⟩, Or.inl ⟨?_, rfl⟩⟩ <;>
      simp [setdefault, fresh, Function.update, V.ofOpt]

/-- **C128, given in any units.**  A parameter given once — as a number in named units, as a value with units or as a
unit — and with nothing in the tree is afterwards read, in any units of the kind, as the amount given; so is its
reference.  What the default of the class is does not matter. -/
theorem C128_given_partial {kd : Kind K D} {same : K → K → Bool} (hsame : ∀ x y, same x y = true → x = y) {s : Src K D}
    {v r : K} {q : Qty K D} (hs : s.Means kd v r q) (dflt : Option (Src K D)) :
    ∃ n, setup kd same none [s] dflt fresh = .ok n ∧ ∀ u : Qty K D, u.Good → q.unit.dim = u.unit.dim →
      (∃ a, read_val n u = .ok (some a) ∧ amount a u = amount v q)
      ∧ (∃ b, read_ref n u = .ok (some b) ∧ amount b u = amount r q) := by
  obtain ⟨n, h1, h2, h3⟩ := store_fresh hsame hs
  refine ⟨n, h1, fun u hu hd => ?_⟩
  obtain ⟨ha, hb, hc⟩ := C127_read h2 hu hd
  refine ⟨ha, ?_⟩
  rcases h3 with ⟨h3, h4⟩ | h3
  · rw [hc h3, h4]; exact ha
  · exact hb r h3

/-- **C128, missing values.**  Of a value with units that lacks its value or its reference, the other one is read as the amount
given and the missing one as `None`. -/
theorem C128_missing {kd : Kind K D} {same : K → K → Bool} {q : Qty K D} {x : K} (dflt : Option (Src K D)) :
    (∃ n, setup kd same none [.pref (.grp ⟨some x, none, some q⟩)] dflt fresh = .ok n ∧
      ∀ u : Qty K D, u.Good → q.unit.dim = u.unit.dim →
        (∃ a, read_val n u = .ok (some a) ∧ amount a u = amount x q) ∧ read_ref n u = .ok none)
    ∧ (∃ n, setup kd same none [.pref (.grp ⟨none, some x, some q⟩)] dflt fresh = .ok n ∧
      ∀ u : Qty K D, u.Good → q.unit.dim = u.unit.dim →
        read_val n u = .ok none ∧ ∃ b, read_ref n u = .ok (some b) ∧ amount b u = amount x q) := by
  constructor
  · refine ⟨_, rfl, fun u hu hd => ⟨read_val_ok ⟨?_, _, ?_, mag1_parse q⟩ hu hd, ?_⟩⟩ <;>
      simp [setdefault, fresh, Function.update, V.ofOpt, read_ref]
  · refine ⟨_, rfl, fun u hu hd => ⟨?_, read_ref_ok ⟨?_, _, ?_, mag1_parse q⟩ hu hd⟩⟩ <;>
      simp [setdefault, fresh, Function.update, V.ofOpt, read_val]

/-- **C128, once.**  A parameter given twice is an error, one not given takes the default of the class, and without one
it is an error. -/
theorem C128_once (kd : Kind K D) (same : K → K → Bool) (n : Node K D) :
    (∀ s s' l d, setup kd same none (s :: s' :: l) d n = .error .runtime)
    ∧ (∀ d, setup kd same none [] (some d) n = setup kd same none [d] none n)
    ∧ setup kd same none [] none n = .error .runtime := ⟨fun _ _ _ _ => rfl, fun _ => rfl, rfl⟩

/-- The sources which can be stored. -/
def Src.Fine (kd : Kind K D) : Src K D → Prop
  | .pref (.qty _) => False
  | .pref .other => False
  | .named k _ => (kd.umap k).isSome
  | _ => True

theorem setdefault_keep {n : Node K D} {k j : String} {v w : V K D} (h : n j = some w) :
    setdefault n k v j = some w := by
  unfold setdefault
  split
  · exact h
  · rename_i h0
    by_cases hj : j = k
    · subst hj; simp [h] at h0
    · simp [Function.update, hj, h]

/-- **C128, the tree decides.**  Whatever is in the tree for a parameter — its value, reference or units — stays, whatever is given;
so a value and its units in the tree are what is read. -/
theorem C128_override {kd : Kind K D} {same : K → K → Bool} {n : Node K D} {s : Src K D} (hs : s.Fine kd)
    (dflt : Option (Src K D)) :
    ∃ m, setup kd same none [s] dflt n = .ok m ∧ (∀ k w, n k = some w → m k = some w)
      ∧ ∀ x f, Holds n "val" x f → Holds m "val" x f := by
  have key : ∃ m, store kd same n s = .ok m ∧ ∀ k w, n k = some w → m k = some w := by
    rcases s with ⟨_ | g | _ | u | _⟩ | ⟨k, x⟩
    · exact ⟨_, rfl, fun k w h => setdefault_keep (setdefault_keep h)⟩
    · refine ⟨_, rfl, fun k w h => setdefault_keep ?_⟩
      dsimp only
      split
      · split
        · exact setdefault_keep h
        · exact setdefault_keep (setdefault_keep h)
      · split
        · exact setdefault_keep h
        · exact setdefault_keep (setdefault_keep h)
      · split
        · exact setdefault_keep h
        · exact setdefault_keep (setdefault_keep h)
    · exact hs.elim
    · exact ⟨_, rfl, fun k w h => setdefault_keep (setdefault_keep h)⟩
    · exact hs.elim
    · obtain ⟨q, hq⟩ := Option.isSome_iff_exists.1 hs
      exact ⟨setdefault (setdefault n "units" (.units (mag1_units (.qty q)))) "val" (.ofOpt x),
        by simp only [store, hq], fun k w h => setdefault_keep (setdefault_keep h)⟩
  obtain ⟨m, h1, h2⟩ := key
  exact ⟨m, h1, h2, fun x f ⟨h3, s', h4, h5⟩ => ⟨h2 _ _ h3, s', h2 _ _ h4, h5⟩⟩

/-- **C128, prototypes.**  A parameter of an element made from a prototype is read as that of the prototype, whatever
is in the tree; its reference as well, unless the reference in the tree is the very object of the value. -/
theorem C128_prototype (kd : Kind K D) {same : K → K → Bool} (l : List (Src K D)) (d : Option (Src K D))
    (n : Node K D) {v r : K} {q : Qty K D} :
    ∃ m, setup kd same (some ⟨some v, some r, some q⟩) l d n = .ok m ∧ Holds m "val" v q
      ∧ ((∀ x, n "ref" = some (.num x) → same x v = false) → Holds m "ref" r q) := by
  refine ⟨_, rfl, ⟨?_, .ofQty q, ?_, rfl⟩, fun h => ⟨?_, .ofQty q, ?_, rfl⟩⟩
  · dsimp only; split <;> simp [Function.update, V.ofOpt]
  · simp [Function.update]
  · have hr : (Function.update n "val" (some (V.ofOpt (some v)))) "ref" = n "ref" := by simp [Function.update]
    dsimp only
    rw [hr]
    rcases hn : n "ref" with _ | (_ | x | s)
    · simp [Function.update, V.ofOpt]
    · simp [Function.update, V.ofOpt]
    · simp [Function.update, V.ofOpt, h x hn]
    · simp [Function.update, V.ofOpt]
  · simp [Function.update]

/-- Lengths in metres and centimetres. -/
def exKind : Kind ℚ ℤ := ⟨exM, fun k => if k = "m" then some exM else if k = "cm" then some exCm else none⟩

example : (Src.named "cm" (some 12) : Src ℚ ℤ).Means exKind 12 12 exCm := ⟨rfl, rfl, rfl⟩
example : (Src.pref (.grp ⟨some 3, some 2, some exM⟩) : Src ℚ ℤ).Means exKind 3 2 exM := ⟨rfl, rfl, rfl⟩
example : (Src.named "cm" (some 12) : Src ℚ ℤ).Fine exKind := rfl
example : ∀ x y : ℚ, (fun x y => decide (x = y)) x y = true → x = y := fun _ _ h => of_decide_eq_true h

/-- **C128, refuted: quantities.**  The message of the code asks for "a unitfulgroup, or a pint.Quantity", but a
quantity is an `AttributeError` (`v.val` and `v.ref` of l.80-81 are no attributes of a quantity). -/
theorem C128_quantity_refuted (kd : Kind K D) (same : K → K → Bool) (q : Qty K D) (d : Option (Src K D))
    (n : Node K D) : setup kd same none [.pref (.qty q)] d n = .error .attributeError := rfl

/-- **C128, refuted: a value alone in the tree.**  A value in the tree without units is read in whatever units the code
happens to use for its own value: with 2 in the tree, the same length given as 1 m or as 100 cm is 2 m or 2 cm. -/
theorem C128_units_refuted :
    ∃ (n a b : Node ℚ ℤ), amount (1 : ℚ) exM = amount 100 exCm ∧ n "val" = some (.num 2)
      ∧ setup exKind (fun _ _ => false) none [.named "m" (some 1)] none n = .ok a
      ∧ setup exKind (fun _ _ => false) none [.named "cm" (some 100)] none n = .ok b
      ∧ Holds a "val" 2 exM ∧ Holds b "val" 2 exCm ∧ amount (2 : ℚ) exM ≠ amount 2 exCm := by
  refine ⟨fun k => if k = "val" then some (.num 2) else none, _, _, ?_, rfl, rfl, rfl,
    ⟨?_, .ofUnit exM.unit, ?_, rfl⟩, ⟨?_, .ofUnit exCm.unit, ?_, rfl⟩, ?_⟩
  · simp [amount, exM, exCm]
  · simp [setdefault, Function.update]
  · simp [setdefault, Function.update, mag1_units, exM]
  · simp [setdefault, Function.update]
  · simp [setdefault, Function.update, mag1_units, exCm]
  · simp [amount, exM, exCm]

/-- **C128, refuted: references.**  With a value and units in the tree and a value with another reference given, the
number of the given reference is read in the units of the tree: 5 cm in the tree and a reference of 2 m given make a
reference of 2 cm. -/
theorem C128_reference_refuted :
    ∃ (n m : Node ℚ ℤ), Holds n "val" 5 exCm
      ∧ setup exKind (fun _ _ => false) none [.pref (.grp ⟨some 1, some 2, some exM⟩)] none n = .ok m
      ∧ Holds m "ref" 2 exCm := by
  refine ⟨fun k => if k = "val" then some (.num 5) else if k = "units" then some (.units (.ofQty exCm)) else none, _,
    ⟨rfl, _, rfl, rfl⟩, rfl, ⟨?_, .ofQty exCm, ?_, rfl⟩⟩
  · simp [setdefault, Function.update, V.ofOpt]
  · simp [setdefault, Function.update]

end Unt
