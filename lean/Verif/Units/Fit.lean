import Verif.Units.Props

/-!
# C129: the parameters of a fit in the configuration tree
-/

namespace Unt
open Py

set_option linter.unusedSectionVars false

variable {K D : Type} [Field K] [DecidableEq K] [AddCommGroup D] [DecidableEq D]

/-- **C129, keys.**  The key of a parameter leads from the tree of the root to the place the parameter is read from, and
different places have different keys. -/
theorem C129_key (e : Elem) (a : String) :
    fitter_parameter e a = e.ctree ++ [a]
    ∧ ∀ e' a', fitter_parameter e a = fitter_parameter e' a' → e = e' ∧ a = a' := by
  have names : ∀ e : Elem, e.names.reverse = e.ctree := by
    intro e
    induction e with
    | root => rfl
    | child p n ih => simp [Elem.names, Elem.ctree, ih]
  have key : ∀ e a, fitter_parameter e a = e.ctree ++ [a] := by
    intro e a
    simp [fitter_parameter, names]
  have inj : ∀ e e' : Elem, e.ctree = e'.ctree → e = e' := by
    intro e
    induction e with
    | root =>
      intro e' h
      cases e' with
      | root => rfl
      | child p n => simp [Elem.ctree] at h
    | child p n ih =>
      intro e' h
      cases e' with
      | root => simp [Elem.ctree] at h
      | child p' n' =>
        obtain ⟨h1, h2⟩ := List.append_inj' h rfl
        rw [ih p' h1]
        simpa using h2
  refine ⟨key e a, fun e' a' h => ?_⟩
  rw [key, key] at h
  obtain ⟨h1, h2⟩ := List.append_inj' h rfl
  exact ⟨inj _ _ h1, by simpa using h2⟩

/-- No number stands on the way to a place. -/
def Tree.Open (t : Tree K D) (key : List String) : Prop := ∀ p, p <+: key → p ≠ key → t p = none

theorem walk_aux (t : Tree K D) : ∀ key c : List String, (∀ p, p <+: key → p ≠ key → t (c ++ p) = none) →
    t.walk c key = .ok (c ++ key) := by
  intro key
  induction key with
  | nil => intro c _; simp [Tree.walk]
  | cons k ks ih =>
    intro c h
    have h0 : t c = none := by simpa using h [] (List.nil_prefix) (by simp)
    rw [Tree.walk, h0]
    simp only [Option.isSome_none, Bool.false_eq_true, if_false]
    rw [ih (c ++ [k])]
    · simp
    · intro p hp hne
      have := h (k :: p) (List.cons_prefix_cons.2 ⟨rfl, hp⟩) (by simpa using hne)
      simpa using this

theorem walk_ok {t : Tree K D} {key : List String} (h : t.Open key) : t.walk [] key = .ok key := by
  simpa using walk_aux t key [] (fun p hp hne => by simpa using h p hp hne)

theorem put_self (t : Tree K D) (p : List String) (v : V K D) : t.put p v p = some v := by simp [Tree.put]

theorem put_other (t : Tree K D) {p q : List String} (v : V K D) (h : ¬ p <+: q) : t.put p v q = t q := by
  have : q ≠ p := fun e => h (e ▸ List.prefix_rfl)
  simp [Tree.put, this, h]

theorem not_prefix_sibling (p : List String) {a b : String} (h : a ≠ b) : ¬ (p ++ [a]) <+: (p ++ [b]) := by
  intro hp
  have := hp.eq_of_length (by simp)
  simp [h] at this

theorem not_prefix_up {p q : List String} (a : String) (h : q <+: p) : ¬ (p ++ [a]) <+: q := by
  intro hp
  have h1 := hp.length_le
  have h2 := h.length_le
  simp at h1
  omega

/-- What three entries written at a place leave: the entries, and everything elsewhere as it was. -/
theorem attr3 {t : Tree K D} {p : List String} (hp : t p = none) (a b c : V K D) :
    ∃ t', (do let t ← t.attr p "val" a
              let t ← t.attr p "ref" b
              t.attr p "units" c) = .ok t'
      ∧ t' (p ++ ["val"]) = some a ∧ t' (p ++ ["ref"]) = some b ∧ t' (p ++ ["units"]) = some c
      ∧ (∀ q, q <+: p → t' q = t q) ∧ ∀ q, ¬ p <+: q → t' q = t q := by
  have up : ∀ (t : Tree K D) (k : String) (v : V K D) q, q <+: p → t.put (p ++ [k]) v q = t q :=
    fun t k v q hq => put_other t v (not_prefix_up k hq)
  have out : ∀ (t : Tree K D) (k : String) (v : V K D) q, ¬ p <+: q → t.put (p ++ [k]) v q = t q :=
    fun t k v q hq => put_other t v (fun h => hq ((List.prefix_append p [k]).trans h))
  have sib : ∀ (t : Tree K D) (j k : String) (v : V K D), j ≠ k → t.put (p ++ [j]) v (p ++ [k]) = t (p ++ [k]) :=
    fun t j k v h => put_other t v (not_prefix_sibling p h)
  refine ⟨((t.put (p ++ ["val"]) a).put (p ++ ["ref"]) b).put (p ++ ["units"]) c, ?_, ?_, ?_, ?_, ?_, ?_⟩
  · have h1 : t.put (p ++ ["val"]) a p = none := by rw [up _ _ _ _ List.prefix_rfl, hp]
    have h2 : (t.put (p ++ ["val"]) a).put (p ++ ["ref"]) b p = none := by rw [up _ _ _ _ List.prefix_rfl, h1]
    simp [Tree.attr, hp, h1, h2, bind, Except.bind]
  · rw [sib _ _ _ _ (by decide), sib _ _ _ _ (by decide), put_self]
  · rw [sib _ _ _ _ (by decide), put_self]
  · rw [put_self]
  · intro q hq
    rw [up _ _ _ _ hq, up _ _ _ _ hq, up _ _ _ _ hq]
  · intro q hq
    rw [out _ _ _ _ hq, out _ _ _ _ hq, out _ _ _ _ hq]

theorem rescale_self {u : Qty K D} (hu : u.Good) : rescale (some u) (some u) = .ok 1 := by
  obtain ⟨r, h, e⟩ := rescale_ok (t := u) (f := u) hu rfl
  have := amount_inj hu (e 1)
  rw [h]; simpa using this

theorem open_of {t t' : Tree K D} {key : List String} (h : t.Open key) (h' : ∀ q, q <+: key → t' q = t q) :
    t'.Open key := fun p hp hne => by rw [h' p hp, h p hp hne]

theorem initial_ref {t : Tree K D} {key : List String} {u f : Qty K D} {x : K} (ho : t.Open key) (hk : t key = none)
    (hu : u.Good) (hd : f.unit.dim = u.unit.dim) (h : Holds (t.node key) "ref" x f) :
    ∃ y, initial t key u = .ok y ∧ amount y u = amount x f := by
  obtain ⟨h1, s, h2, h3⟩ := h
  obtain ⟨r, h4, e⟩ := scale_ok h2 h3 hu hd
  refine ⟨x * r, ?_, e x⟩
  simp [initial, walk_ok ho, hk, h1, h4, bind, Except.bind, pure, Except.pure]

theorem initial_val {t : Tree K D} {key : List String} {u f : Qty K D} {x : K} (ho : t.Open key) (hk : t key = none)
    (hu : u.Good) (hd : f.unit.dim = u.unit.dim) (hr : t.node key "ref" = none) (h : Holds (t.node key) "val" x f) :
    ∃ y, initial t key u = .ok y ∧ amount y u = amount x f := by
  obtain ⟨h1, s, h2, h3⟩ := h
  obtain ⟨r, h4, e⟩ := scale_ok h2 h3 hu hd
  refine ⟨x * r, ?_, e x⟩
  simp [initial, walk_ok ho, hk, hr, h1, h4, bind, Except.bind, pure, Except.pure]

/-- **C129, the start of a fit.**  The initial value of a parameter, in any units of its kind, is the reference that is read
from the same place. -/
theorem C129_initial {t : Tree K D} {key : List String} {u f : Qty K D} {x : K} (ho : t.Open key) (hk : t key = none)
    (hu : u.Good) (hd : f.unit.dim = u.unit.dim) (h : Holds (t.node key) "val" x f)
    (hr : t.node key "ref" = none ∨ ∃ y, t.node key "ref" = some (.num y)) :
    ∃ y, initial t key u = .ok y ∧ read_ref (t.node key) u = .ok (some y) := by
  rcases hr with hr | ⟨z, hz⟩
  · obtain ⟨y, h1, h2⟩ := initial_val ho hk hu hd hr h
    obtain ⟨v, h3, h4⟩ := read_val_ok h hu hd
    refine ⟨y, h1, ?_⟩
    rw [(C127_read h hu hd).2.2 hr, h3, amount_inj hu (h2.trans h4.symm)]
  · have h' : Holds (t.node key) "ref" z f := ⟨hz, h.2⟩
    obtain ⟨y, h1, h2⟩ := initial_ref ho hk hu hd h'
    obtain ⟨v, h3, h4⟩ := read_ref_ok h' hu hd
    exact ⟨y, h1, by rw [h3, amount_inj hu (h2.trans h4.symm)]⟩

/-- **C129, injecting.**  Injecting a value `x` and an initial value `y` in units `u` succeeds; the parameter is then
read, in any units of the kind, as `x` with the reference `y`; the initial value is `y`; and nothing outside
the place of the parameter changes. -/
theorem C129_inject {t : Tree K D} {key : List String} {u : Qty K D} (ho : t.Open key) (hk : t key = none)
    (hu : u.Good) (x y : K) :
    ∃ t', inject t key u x y = .ok t' ∧ initial t' key u = .ok y
      ∧ (∀ w : Qty K D, w.Good → u.unit.dim = w.unit.dim →
          (∃ a, read_val (t'.node key) w = .ok (some a) ∧ amount a w = amount x u)
          ∧ ∃ b, read_ref (t'.node key) w = .ok (some b) ∧ amount b w = amount y u)
      ∧ ∀ q, ¬ key <+: q → t' q = t q := by
  obtain ⟨t', h1, hv, hr, hs, hup, hout⟩ := attr3 hk (.num x) (.num y) (.units (.ofQty u))
  have hval : Holds (t'.node key) "val" x u := ⟨hv, _, hs, rfl⟩
  have href : Holds (t'.node key) "ref" y u := ⟨hr, _, hs, rfl⟩
  refine ⟨t', ?_, ?_, fun w hw hd => ⟨read_val_ok hval hw hd, read_ref_ok href hw hd⟩, hout⟩
  · rw [← h1]; simp [inject, walk_ok ho, bind, Except.bind]
  · obtain ⟨z, h2, h3⟩ := initial_ref (open_of ho hup) (by rw [hup _ List.prefix_rfl, hk]) hu rfl href
    rw [h2, amount_inj hu h3]

/-- **C129, putting back.**  Putting a fitted value back makes it both the value and the reference, in the same way. -/
theorem C129_reinject {t : Tree K D} {key : List String} {u : Qty K D} (ho : t.Open key) (hk : t key = none)
    (hu : u.Good) (x : K) :
    ∃ t', reinject t key u x = .ok t' ∧ initial t' key u = .ok x
      ∧ (∀ w : Qty K D, w.Good → u.unit.dim = w.unit.dim →
          (∃ a, read_val (t'.node key) w = .ok (some a) ∧ amount a w = amount x u)
          ∧ ∃ b, read_ref (t'.node key) w = .ok (some b) ∧ amount b w = amount x u)
      ∧ ∀ q, ¬ key <+: q → t' q = t q := by
  have : reinject t key u x = inject t key u x x := rfl
  rw [this]
  exact C129_inject ho hk hu x x

/-- **C129, no change.**  Putting the initial value back, in whatever units, leaves the amount of the reference as it was. -/
theorem C129_unchanged {t : Tree K D} {key : List String} {u f : Qty K D} {x y : K} (ho : t.Open key)
    (hk : t key = none) (hu : u.Good) (hd : f.unit.dim = u.unit.dim) (h : Holds (t.node key) "val" x f)
    (hr : Holds (t.node key) "ref" y f) :
    ∃ z t', initial t key u = .ok z ∧ reinject t key u z = .ok t'
      ∧ ∀ w : Qty K D, w.Good → u.unit.dim = w.unit.dim → read_ref (t'.node key) w = read_ref (t.node key) w := by
  obtain ⟨z, h1, h2⟩ := initial_ref ho hk hu hd hr
  obtain ⟨t', h3, _, h4, _⟩ := C129_reinject ho hk hu z
  refine ⟨z, t', h1, h3, fun w hw hdw => ?_⟩
  obtain ⟨_, b, h5, h6⟩ := h4 w hw hdw
  obtain ⟨c, h7, h8⟩ := read_ref_ok hr hw (hd.trans hdw)
  rw [h5, h7, amount_inj hw (h6.trans (h2.trans h8.symm))]

/-- **C129, two parameters.**  Fits of two parameters at different places, none above the other, do not disturb each
other: after both are put back each is read as its own value. -/
theorem C129_two {t : Tree K D} {k k' : List String} {u u' : Qty K D} (ho : t.Open k) (hk : t k = none)
    (ho' : t.Open k') (hk' : t k' = none) (h : ¬ k <+: k') (h' : ¬ k' <+: k) (hu : u.Good) (hu' : u'.Good) (x x' : K) :
    ∃ t₁ t₂, reinject t k u x = .ok t₁ ∧ reinject t₁ k' u' x' = .ok t₂
      ∧ initial t₂ k u = .ok x ∧ initial t₂ k' u' = .ok x' := by
  obtain ⟨t₁, h1, i1, _, f1⟩ := C129_reinject ho hk hu x
  have hup : ∀ q, q <+: k' → t₁ q = t q := by
    intro q hq
    by_cases hkq : k <+: q
    · exact absurd (hkq.trans hq) h
    · exact f1 q hkq
  obtain ⟨t₂, h2, i2, _, f2⟩ := C129_reinject (t := t₁) (open_of ho' hup) (by rw [hup _ List.prefix_rfl, hk']) hu' x'
  refine ⟨t₁, t₂, h1, h2, ?_, i2⟩
  have e1 : ∀ q, q <+: k → t₂ q = t₁ q := by
    intro q hq
    by_cases hkq : k' <+: q
    · exact absurd (hkq.trans hq) h'
    · exact f2 q hkq
  have e2 : ∀ s, t₂ (k ++ [s]) = t₁ (k ++ [s]) := by
    intro s
    by_cases hkq : k' <+: k ++ [s]
    · rcases List.prefix_concat_iff.1 hkq with e | e
      · exact absurd (e ▸ List.prefix_append k [s]) h
      · exact absurd e h'
    · exact f2 _ hkq
  have w1 : ∀ ks c, c ++ ks = k → t₂.walk c ks = t₁.walk c ks := by
    intro ks
    induction ks with
    | nil => intro c _; rfl
    | cons a ks ih =>
      intro c hc
      rw [Tree.walk, Tree.walk, e1 c ⟨_, hc⟩, ih (c ++ [a]) (by simpa using hc)]
  have hw : t₂.walk [] k = t₁.walk [] k := w1 k [] rfl
  have e3 : t₂.node k = t₁.node k := funext e2
  rw [← i1]
  unfold initial
  rw [hw]
  cases hwk : t₁.walk [] k with
  | error e => rfl
  | ok p =>
    have hp : p = k := by
      have := walk_ok (t := t₁) (key := k) (fun p hp hne => by
        have : ¬ k <+: p := fun h => hne (hp.eq_of_length (le_antisymm hp.length_le h.length_le))
        rw [f1 p this]; exact ho p hp hne)
      rw [this] at hwk
      exact (Except.ok.inj hwk).symm
    subst hp
    simp only [bind, Except.bind]
    rw [e3, e1 _ List.prefix_rfl]

/-- A tree with one length, 12 cm at `mirror.L`. -/
def exTree : Tree ℚ ℤ := fun p =>
  if p = ["mirror", "L", "val"] then some (.num 12)
  else if p = ["mirror", "L", "units"] then some (.units (.ofQty exCm)) else none

example : fitter_parameter (.child .root "mirror") "L" = ["mirror", "L"] := rfl
example : exTree.Open ["mirror", "L"] ∧ exTree ["mirror", "L"] = none := by
  refine ⟨fun p hp _ => ?_, by simp [exTree]⟩
  have h1 : p ≠ ["mirror", "L", "val"] := by rintro rfl; simpa using hp.length_le
  have h2 : p ≠ ["mirror", "L", "units"] := by rintro rfl; simpa using hp.length_le
  simp [exTree, h1, h2]
example : Holds (exTree.node ["mirror", "L"]) "val" 12 exCm := ⟨rfl, _, rfl, rfl⟩
example : exTree.node ["mirror", "L"] "ref" = none := rfl

/-! ## Parameters without units -/

/-- **C129, parameters without units.**  A fitted value put back is read as the value and is the next initial value,
and nothing outside its place changes. -/
theorem C129_plain_partial {t : Tree K D} {p : List String} {a : String} (ho : t.Open (p ++ [a])) (x : K) :
    ∃ t', plain_reinject t (p ++ [a]) x = .ok t' ∧ plain_initial t' (p ++ [a]) = .ok (.num x)
      ∧ plain_val t' (p ++ [a]) = some (.num x) ∧ ∀ q, ¬ (p ++ [a]) <+: q → t' q = t q := by
  have hop : t.Open p := fun q hq hne => ho q (hq.trans (List.prefix_append p [a])) (fun e => by
    have := hq.length_le; simp [e] at this)
  have hp : t p = none := ho p (List.prefix_append p [a]) (by simp)
  have ho' : (t.put (p ++ [a]) (.num x)).Open (p ++ [a]) := fun q hq hne => by
    rw [put_other t _ (fun h => hne (hq.eq_of_length (le_antisymm hq.length_le h.length_le)))]
    exact ho q hq hne
  refine ⟨t.put (p ++ [a]) (.num x), ?_, ?_, ?_, fun q hq => put_other t _ hq⟩
  · simp [plain_reinject, walk_ok hop, hp, bind, Except.bind, pure, Except.pure]
  · simp [plain_initial, walk_ok ho', put_self, bind, Except.bind, pure, Except.pure]
  · simp [plain_val, put_self]

/-- **C129, refuted: a second fit.**  After a fitted value without units was put back, injecting a new symbol at its
place is an `AttributeError`: the place then holds a number, on which `ooa.val = value` (l.235) cannot set anything.
With units it works (`C129_reinject`, `C129_inject`). -/
theorem C129_again_refuted {t : Tree K D} {p : List String} {a : String} (ho : t.Open (p ++ [a])) (x y z : K) :
    ∃ t', plain_reinject t (p ++ [a]) x = .ok t' ∧ plain_inject t' (p ++ [a]) y z = .error .attributeError := by
  have hop : t.Open p := fun q hq hne => ho q (hq.trans (List.prefix_append p [a])) (fun e => by
    have := hq.length_le; simp [e] at this)
  have hp : t p = none := ho p (List.prefix_append p [a]) (by simp)
  have ho' : (t.put (p ++ [a]) (.num x)).Open (p ++ [a]) := fun q hq hne => by
    rw [put_other t _ (fun h => hne (hq.eq_of_length (le_antisymm hq.length_le h.length_le)))]
    exact ho q hq hne
  refine ⟨t.put (p ++ [a]) (.num x), ?_, ?_⟩
  · simp [plain_reinject, walk_ok hop, hp, bind, Except.bind, pure, Except.pure]
  · simp [plain_inject, walk_ok ho', Tree.attr, put_self, bind, Except.bind]

/-- **C129, injecting without units.**  Where the tree holds no number yet, a symbol and its initial value can be injected,
and are read back. -/
theorem C129_plain_inject {t : Tree K D} {key : List String} (ho : t.Open key) (hk : t key = none) (x y : K) :
    ∃ t', plain_inject t key x y = .ok t' ∧ plain_initial t' key = .ok (.num y)
      ∧ plain_val t' key = some (.num x) := by
  have up : ∀ (t : Tree K D) (k : String) (v : V K D) q, q <+: key → t.put (key ++ [k]) v q = t q :=
    fun t k v q hq => put_other t v (not_prefix_up k hq)
  set t₁ := t.put (key ++ ["val"]) (.num x) with ht₁
  have h1 : t₁ key = none := by rw [ht₁, up _ _ _ _ List.prefix_rfl, hk]
  have h2 : t₁.put (key ++ ["ref"]) (.num y) key = none := by rw [up _ _ _ _ List.prefix_rfl, h1]
  have ho' : (t₁.put (key ++ ["ref"]) (.num y)).Open key :=
    open_of ho (fun q hq => by rw [up _ _ _ _ hq, ht₁, up _ _ _ _ hq])
  have hv : t₁.put (key ++ ["ref"]) (.num y) (key ++ ["val"]) = some (.num x) := by
    rw [put_other _ _ (not_prefix_sibling key (by decide)), ht₁, put_self]
  refine ⟨t₁.put (key ++ ["ref"]) (.num y), ?_, ?_, ?_⟩
  · simp [plain_inject, walk_ok ho, Tree.attr, hk, ← ht₁, h1, bind, Except.bind]
  · simp [plain_initial, walk_ok ho', h2, put_self, bind, Except.bind, pure, Except.pure]
  · simp only [plain_val, h2, hv]

example : Tree.Open (K := ℚ) (D := ℤ) (fun _ => none) ["filter", "gain"] := fun _ _ _ => rfl

end Unt
