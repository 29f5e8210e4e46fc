import Verif.Py.Dict
import Mathlib.Algebra.Order.Field.Rat
import Mathlib.Data.List.Infix

/-! # functions dispatched on the type of their argument (C147)

`phasor/math/dispatched.py`, `phasor/math/dispatch_defaults.py`, and `zero_check_heuristic` and `check_symbolic_type` of
`phasor/math/complex.py`. -/

namespace Disp

open Py

/-! ## model -/

inductive Err where
  | runtimeError
  | typeError
  | notImplemented
  deriving DecidableEq, Repr

/-- The keys of `module_by_type`: types, and the tuples that l.50 writes. -/
inductive RegKey (T : Type) where
  | ty (t : T)
  | path (p : List String)
  deriving DecidableEq, Repr

/-- The values of `module_by_type`: lists of modules, and the types that l.50 writes. -/
inductive RegVal (T M : Type) where
  | mods (l : List M)
  | ty (t : T)
  deriving DecidableEq, Repr

/-- `module_by_type` and `module_by_typemodule`, dispatched.py l.14-38. -/
structure Reg (T M : Type) where
  by_type : Dict (RegKey T) (RegVal T M)
  by_module : Dict (List String) (List M)

variable {T M : Type} [DecidableEq T]

/-- The loop over the tuple of the module's name, l.47-52: the first tuple found and what it holds. -/
def walk (d : Dict (List String) (List M)) (amods : List String) : Option (List String × List M) :=
  if h : amods = [] then none
  else
    match Dict.get? d amods with
    | some l => some (amods, l)
    | none => walk d amods.dropLast
termination_by amods.length
decreasing_by
  rw [List.length_dropLast]
  have := List.length_pos_of_ne_nil h
  omega

/-- The loop over the modules, l.55-62: the first that has the function. -/
def search (has : M → String → Bool) (func_name : String) : List M → Except Err M
  | [] => .error .runtimeError
  | m :: l => if has m func_name then .ok m else search has func_name l

/-- `func(arg)` of `generate_dispatched(func_name)`, l.41-65, up to the call of the function: the module whose function is called, and
the tables afterwards.  `has` tells what names the modules have, `module_of` is `__module__.split('.')` of a type, `dflt` is
`dispatch_defaults`. -/
def dispatch (has : M → String → Bool) (dflt : M) (module_of : T → List String) (r : Reg T M) (func_name : String) (atype : T) :
    Except Err M × Reg T M :=
  match Dict.get? r.by_type (.ty atype) with
  | some (.mods l) => (search has func_name (l ++ [dflt]), r)
  | some (.ty _) => (.error .typeError, r)
  | none =>
    match walk r.by_module (module_of atype) with
    | some (amods, l) => (search has func_name (l ++ [dflt]), { r with by_type := Dict.set r.by_type (.path amods) (.ty atype) })
    | none => (search has func_name ([] ++ [dflt]), r)

/-- Calls of dispatched functions one after the other. -/
def calls (has : M → String → Bool) (dflt : M) (module_of : T → List String) : Reg T M → List (String × T) → Reg T M
  | r, [] => r
  | r, c :: l => calls has dflt module_of (dispatch has dflt module_of r c.1 c.2).2 l

/-! ## first module -/

section First
variable {has : M → String → Bool} {dflt : M} {module_of : T → List String} {r : Reg T M} {f : String} {t : T}

/-- The modules registered for a type: those of the type itself, or else those of the longest registered beginning of the name of its
module, or else none. -/
def Registered (module_of : T → List String) (r : Reg T M) (t : T) (l : List M) : Prop :=
  Dict.get? r.by_type (.ty t) = some (.mods l) ∨
  (Dict.get? r.by_type (.ty t) = none ∧
    ((∃ p, p ≠ [] ∧ p <+: module_of t ∧ Dict.get? r.by_module p = some l ∧
        ∀ p', p' <+: module_of t → p.length < p'.length → Dict.get? r.by_module p' = none) ∨
      (l = [] ∧ ∀ p, p ≠ [] → p <+: module_of t → Dict.get? r.by_module p = none)))

theorem prefix_dropLast {p s : List String} (h : p <+: s) (hn : p ≠ s) : p <+: s.dropLast := by
  obtain ⟨u, rfl⟩ := h
  rcases List.eq_nil_or_concat u with rfl | ⟨u', x, rfl⟩
  · exact absurd (List.append_nil p).symm hn
  · rw [List.concat_eq_append, ← List.append_assoc, List.dropLast_concat]
    exact ⟨u', rfl⟩

theorem walk_spec (d : Dict (List String) (List M)) (s : List String) :
    (∀ p l, walk d s = some (p, l) → p ≠ [] ∧ p <+: s ∧ Dict.get? d p = some l ∧
      ∀ p', p' <+: s → p.length < p'.length → Dict.get? d p' = none) ∧
    (walk d s = none → ∀ p, p ≠ [] → p <+: s → Dict.get? d p = none) := by
  induction hn : s.length using Nat.strong_induction_on generalizing s with
  | _ n ih =>
    rw [walk]
    split
    · rename_i h
      subst h
      exact ⟨by simp, fun _ p h1 h2 => absurd (List.prefix_nil.mp h2) h1⟩
    · rename_i h
      cases hg : Dict.get? d s with
      | some l =>
        refine ⟨?_, fun h => nomatch h⟩
        intro p l' e
        cases e
        exact ⟨h, List.prefix_rfl, hg, fun p' h1 h2 => absurd h1.length_le (by omega)⟩
      | none =>
        have hlt : s.dropLast.length < n := by
          rw [List.length_dropLast]
          have := List.length_pos_of_ne_nil h
          omega
        obtain ⟨i1, i2⟩ := ih _ hlt s.dropLast rfl
        constructor
        · intro p l e
          obtain ⟨a, b, c, e'⟩ := i1 p l e
          refine ⟨a, b.trans (List.dropLast_prefix s), c, ?_⟩
          intro p' h1 h2
          by_cases hp : p' = s
          · rw [hp]; exact hg
          · exact e' p' (prefix_dropLast h1 hp) h2
        · intro e p h1 h2
          by_cases hp : p = s
          · rw [hp]; exact hg
          · exact i2 e p h1 (prefix_dropLast h2 hp)

theorem search_spec (l : List M) : (∀ m, search has f l = .ok m ↔ ∃ pre post, l = pre ++ m :: post ∧ has m f = true ∧ ∀ x ∈ pre, has x f = false) ∧
    (∀ e, search has f l = .error e ↔ e = .runtimeError ∧ ∀ x ∈ l, has x f = false) := by
  induction l with
  | nil =>
    constructor
    · intro m
      constructor
      · intro h; cases h
      · rintro ⟨pre, post, h, -⟩
        cases pre <;> cases h
    · intro e
      constructor
      · intro h
        cases h
        exact ⟨rfl, fun _ h => nomatch h⟩
      · rintro ⟨rfl, -⟩
        rfl
  | cons a l ih =>
    rw [search]
    by_cases ha : has a f = true
    · rw [if_pos ha]
      constructor
      · intro m
        constructor
        · intro h
          cases h
          exact ⟨[], l, rfl, ha, fun _ h => nomatch h⟩
        · rintro ⟨pre, post, h1, h2, h3⟩
          cases pre with
          | nil =>
            rw [List.nil_append, List.cons.injEq] at h1
            rw [h1.1]
          | cons b pre =>
            rw [List.cons_append, List.cons.injEq] at h1
            have := h3 b List.mem_cons_self
            rw [← h1.1, ha] at this
            cases this
      · intro e
        constructor
        · intro h; cases h
        · rintro ⟨-, h⟩
          have := h a List.mem_cons_self
          rw [ha] at this
          cases this
    · rw [if_neg ha]
      have ha' : has a f = false := by simpa using ha
      constructor
      · intro m
        rw [ih.1]
        constructor
        · rintro ⟨pre, post, rfl, h2, h3⟩
          refine ⟨a :: pre, post, rfl, h2, ?_⟩
          intro x hx
          rcases List.mem_cons.mp hx with rfl | hx
          · exact ha'
          · exact h3 x hx
        · rintro ⟨pre, post, h1, h2, h3⟩
          cases pre with
          | nil =>
            rw [List.nil_append, List.cons.injEq] at h1
            rw [h1.1] at ha
            exact absurd h2 ha
          | cons b pre =>
            rw [List.cons_append, List.cons.injEq] at h1
            exact ⟨pre, post, h1.2, h2, fun x hx => h3 x (List.mem_cons_of_mem _ hx)⟩
      · intro e
        rw [ih.2]
        simp [ha']

theorem dispatch_registered {l : List M} (hl : Registered module_of r t l) :
    (dispatch has dflt module_of r f t).1 = search has f (l ++ [dflt]) := by
  obtain ⟨w1, w2⟩ := walk_spec r.by_module (module_of t)
  rcases hl with h | ⟨h, h' | ⟨rfl, h'⟩⟩
  · simp only [dispatch, h]
  · obtain ⟨p, h1, h2, h3, h4⟩ := h'
    simp only [dispatch, h]
    cases hw : walk r.by_module (module_of t) with
    | none => rw [w2 hw p h1 h2] at h3; cases h3
    | some x =>
      obtain ⟨q, l'⟩ := x
      obtain ⟨a, b, c, e⟩ := w1 q l' hw
      have : q = p := by
        rcases Nat.lt_trichotomy q.length p.length with hh | hh | hh
        · rw [e p h2 hh] at h3; cases h3
        · exact (List.prefix_of_prefix_length_le b h2 hh.le).eq_of_length hh
        · rw [h4 q b hh] at c; cases c
      subst this
      rw [h3] at c
      cases c
      rfl
  · simp only [dispatch, h]
    cases hw : walk r.by_module (module_of t) with
    | none => rfl
    | some x =>
      obtain ⟨q, l'⟩ := x
      obtain ⟨a, b, c, -⟩ := w1 q l' hw
      rw [h' q a b] at c
      cases c

/-- **C147, first.**  The function called is that of the first module that has it, of the modules registered for the type and then the
defaults; there is an error if and only if none has it. -/
theorem C147_first {l : List M} (hl : Registered module_of r t l) :
    (∀ m, (dispatch has dflt module_of r f t).1 = .ok m ↔
      ∃ pre post, l ++ [dflt] = pre ++ m :: post ∧ has m f = true ∧ ∀ x ∈ pre, has x f = false) ∧
    (∀ e, (dispatch has dflt module_of r f t).1 = .error e ↔ e = .runtimeError ∧ ∀ x ∈ l ++ [dflt], has x f = false) := by
  rw [dispatch_registered hl]
  exact search_spec _

/-- **C147, registered.**  When types are registered with modules, every type has just one list of modules. -/
theorem C147_registered (hr : ∀ t t', Dict.get? r.by_type (.ty t) ≠ some (.ty t')) (t : T) : ∃! l, Registered module_of r t l := by
  have uniq : ∀ l l', Registered module_of r t l → Registered module_of r t l' → l = l' := by
    rintro l l' (h | ⟨h, h'⟩) (g | ⟨g, g'⟩)
    · rw [h] at g; cases g; rfl
    · rw [h] at g; cases g
    · rw [h] at g; cases g
    · rcases h' with ⟨p, h1, h2, h3, h4⟩ | ⟨rfl, h4⟩ <;> rcases g' with ⟨q, g1, g2, g3, g4⟩ | ⟨rfl, g4⟩
      · have : q = p := by
          rcases Nat.lt_trichotomy q.length p.length with hh | hh | hh
          · rw [g4 p h2 hh] at h3; cases h3
          · exact (List.prefix_of_prefix_length_le g2 h2 hh.le).eq_of_length hh
          · rw [h4 q g2 hh] at g3; cases g3
        subst this
        rw [h3] at g3
        cases g3
        rfl
      · rw [g4 p h1 h2] at h3; cases h3
      · rw [h4 q g1 g2] at g3; cases g3
      · rfl
  have ex : ∃ l, Registered module_of r t l := by
    cases h : Dict.get? r.by_type (.ty t) with
    | some v =>
      cases v with
      | mods l => exact ⟨l, Or.inl h⟩
      | ty t' => exact absurd h (hr t t')
    | none =>
      obtain ⟨w1, w2⟩ := walk_spec r.by_module (module_of t)
      cases hw : walk r.by_module (module_of t) with
      | none => exact ⟨[], Or.inr ⟨h, Or.inr ⟨rfl, w2 hw⟩⟩⟩
      | some x => exact ⟨x.2, Or.inr ⟨h, Or.inl ⟨x.1, w1 x.1 x.2 hw⟩⟩⟩
  obtain ⟨l, hl⟩ := ex
  exact ⟨l, hl, fun l' hl' => uniq l' l hl' hl⟩

theorem dispatch_by_module (r : Reg T M) (f : String) (t : T) : (dispatch has dflt module_of r f t).2.by_module = r.by_module ∧
    ∀ t', Dict.get? (dispatch has dflt module_of r f t).2.by_type (.ty t') = Dict.get? r.by_type (.ty t') := by
  unfold dispatch
  cases Dict.get? r.by_type (.ty t) with
  | some v => cases v <;> exact ⟨rfl, fun _ => rfl⟩
  | none =>
    cases walk r.by_module (module_of t) with
    | none => exact ⟨rfl, fun _ => rfl⟩
    | some x => exact ⟨rfl, fun t' => Dict.get?_set_ne _ _ (by simp)⟩

/-- **C147, history.**  What was called before does not matter: types keep their modules, though the tables change. -/
theorem C147_history (r : Reg T M) (cs : List (String × T)) (f : String) (t : T) :
    (∀ l, Registered module_of (calls has dflt module_of r cs) t l ↔ Registered module_of r t l) ∧
    (dispatch has dflt module_of (calls has dflt module_of r cs) f t).1 = (dispatch has dflt module_of r f t).1 := by
  have key : (calls has dflt module_of r cs).by_module = r.by_module ∧
      ∀ t', Dict.get? (calls has dflt module_of r cs).by_type (.ty t') = Dict.get? r.by_type (.ty t') := by
    induction cs generalizing r with
    | nil => exact ⟨rfl, fun _ => rfl⟩
    | cons c cs ih =>
      obtain ⟨i1, i2⟩ := ih (dispatch has dflt module_of r c.1 c.2).2
      obtain ⟨d1, d2⟩ := dispatch_by_module (has := has) (dflt := dflt) (module_of := module_of) r c.1 c.2
      exact ⟨i1.trans d1, fun t' => (i2 t').trans (d2 t')⟩
  obtain ⟨k1, k2⟩ := key
  constructor
  · intro l
    unfold Registered
    rw [k1, k2]
  · unfold dispatch
    rw [k1, k2]
    cases Dict.get? r.by_type (.ty t) with
    | some v => cases v <;> rfl
    | none => cases walk r.by_module (module_of t) <;> rfl

end First

/-! ## the tables of the code -/

/-- The types of the tables.  `np.float`, `np.int` and `np.complex` are `float`, `int` and `complex` in the versions of numpy that have
these names. -/
inductive PyT where
  | int | float | complex | bool
  | np (name : String)
  | Complex
  | casadi (name : String)
  | sympy (name : String)
  deriving DecidableEq, Repr

inductive Mod where
  | math | cmath | special | numpy | defaults | complex | casadi | MX | SX | sympy | functions | dispatch_sympy
  deriving DecidableEq, Repr

def npmath : List Mod := [.numpy, .special]

/-- The dictionary l.14-35, entry by entry. -/
def literal : List (PyT × List Mod) :=
  [(.int, [.math, .cmath, .special]), (.float, [.math, .cmath, .special]), (.float, [.math, .cmath, .special]), (.float, npmath), (.int, npmath),
    (.np "float32", npmath), (.np "float64", npmath), (.np "int8", npmath), (.np "int16", npmath), (.np "int32", npmath),
    (.np "int64", npmath), (.np "uint8", npmath), (.np "uint16", npmath), (.np "uint32", npmath), (.np "uint64", npmath), (.complex, npmath),
    (.np "complex64", npmath), (.np "complex128", npmath), (.complex, [.cmath, .special, .numpy]), (.np "ndarray", [.numpy, .special])]

/-- `dispatch_sympy.py` l.7-14: seven classes of sympy. -/
def sympy_types : List String := ["Symbol", "Zero", "One", "ComplexInfinity", "Mul", "Add", "Pow"]

/-- The registrations after all modules are imported: l.14-38 with complex.py l.332, dispatch_casadi.py l.13-15 and
dispatch_sympy.py l.7-14. -/
def tables : Reg PyT Mod where
  by_type := Dict.ofList ((literal.map (fun x => (RegKey.ty x.1, RegVal.mods x.2))) ++ [(.ty .Complex, .mods [.complex])] ++
    [(.ty (.casadi "MX"), .mods [.MX]), (.ty (.casadi "SX"), .mods [.SX])] ++
    sympy_types.map (fun s => (.ty (.sympy s), .mods [.sympy, .functions, .dispatch_sympy])))
  by_module := [(["casadi"], [.casadi])]

/-- `__module__.split('.')`; `rest` is what follows the name of the package. -/
def py_module (rest : PyT → List String) : PyT → List String
  | .np n => "numpy" :: rest (.np n)
  | .Complex => ["phasor", "math", "complex"]
  | .casadi n => "casadi" :: rest (.casadi n)
  | .sympy n => "sympy" :: rest (.sympy n)
  | _ => ["builtins"]

theorem tables_registered (rest : PyT → List String) : Registered (py_module rest) tables .float npmath ∧ Registered (py_module rest) tables .int npmath ∧
    Registered (py_module rest) tables .complex [.cmath, .special, .numpy] ∧ Registered (py_module rest) tables .Complex [.complex] :=
  ⟨Or.inl (by decide +kernel), Or.inl (by decide +kernel), Or.inl (by decide +kernel), Or.inl (by decide +kernel)⟩

example : ∃! l, Registered (py_module (fun _ => [])) tables .float l :=
  C147_registered (by
    intro t t' h
    have h1 := Dict.mem_of_get? h
    have h2 : ∀ x ∈ tables.by_type, ∃ l, x.2 = .mods l := by
      have : tables.by_type.all (fun x => match x.2 with | .mods _ => true | .ty _ => false) = true := by decide +kernel
      intro x hx
      have := List.all_eq_true.mp this x hx
      cases hx2 : x.2 with
      | mods l => exact ⟨l, rfl⟩
      | ty t => rw [hx2] at this; cases this
    obtain ⟨l, hl⟩ := h2 _ h1
    cases hl) _

/-- **C147, numbers (disagreement).**  Numbers of python are not given to `math`, though the table says so: later entries of the same
dictionary take its place.  A function that is in `math` but not in numpy, scipy or the defaults, as `atan`, is not found. -/
theorem C147_numbers_refuted (rest : PyT → List String) {has : Mod → String → Bool} {f : String} {t : PyT} (ht : t = .int ∨ t = .float) :
    (.float, [Mod.math, .cmath, .special]) ∈ literal ∧ (.int, [Mod.math, .cmath, .special]) ∈ literal ∧
    (dispatch has .defaults (py_module rest) tables f t).1 ≠ .ok .math ∧
    (has .numpy f = false → has .special f = false → has .defaults f = false →
      (dispatch has .defaults (py_module rest) tables f t).1 = .error .runtimeError) := by
  have h : Registered (py_module rest) tables t npmath := by
    rcases ht with rfl | rfl
    · exact (tables_registered rest).2.1
    · exact (tables_registered rest).1
  refine ⟨by decide, by decide, ?_, ?_⟩
  · intro e
    obtain ⟨pre, post, h1, -, -⟩ := ((C147_first h).1 _).mp e
    have : Mod.math ∈ npmath ++ [Mod.defaults] := by rw [h1]; simp
    revert this
    decide
  · intro h1 h2 h3
    refine ((C147_first h).2 _).mpr ⟨rfl, ?_⟩
    intro x hx
    simp only [npmath, List.cons_append, List.nil_append, List.mem_cons, List.not_mem_nil, or_false] at hx
    rcases hx with rfl | rfl | rfl <;> assumption

theorem tables_sympy (rest : PyT → List String) {s : String} (hs : s ∉ sympy_types) : Registered (py_module rest) tables (.sympy s) [] := by
  refine Or.inr ⟨?_, Or.inr ⟨rfl, ?_⟩⟩
  · rw [Dict.get?_eq_none_iff]
    have : Dict.keys tables.by_type = (([.int, .float, .np "float32", .np "float64", .np "int8", .np "int16", .np "int32", .np "int64", .np "uint8",
      .np "uint16", .np "uint32", .np "uint64", .complex, .np "complex64", .np "complex128", .np "ndarray", .Complex, .casadi "MX",
      .casadi "SX"] : List PyT) ++ sympy_types.map PyT.sympy).map RegKey.ty := by decide +kernel
    rw [this, List.mem_map]
    rintro ⟨x, hx, e⟩
    cases e
    rw [List.mem_append] at hx
    rcases hx with hx | hx
    · simp at hx
    · obtain ⟨y, hy, e⟩ := List.mem_map.mp hx
      cases e
      exact hs hy
  · intro p h1 h2
    rw [Dict.get?_eq_none_iff]
    intro h3
    simp only [tables, Dict.keys, List.map_cons, List.map_nil, List.mem_cons, List.not_mem_nil, or_false] at h3
    subst h3
    simp [py_module] at h2

/-- **C147, classes (disagreement).**  Expressions of sympy are found by their class: for a class that is not one of the seven registered,
as the numbers other than zero and one, only the defaults are looked at. -/
theorem C147_classes_refuted (rest : PyT → List String) {has : Mod → String → Bool} {f : String} {s : String} (hs : s ∉ sympy_types)
    (hf : has .defaults f = false) : (dispatch has .defaults (py_module rest) tables f (.sympy s)).1 = .error .runtimeError :=
  ((C147_first (tables_sympy rest hs)).2 _).mpr ⟨rfl, by simpa using hf⟩

example : "Integer" ∉ sympy_types := by decide

/-- Types of casadi without an entry have the modules of the package. -/
example (rest : PyT → List String) : Registered (py_module rest) tables (.casadi "DM") [.casadi] := by
  refine Or.inr ⟨by decide +kernel, Or.inl ⟨["casadi"], by simp, by simp [py_module], rfl, ?_⟩⟩
  intro p' _ h2
  rw [Dict.get?_eq_none_iff]
  intro h3
  simp only [tables, Dict.keys, List.map_cons, List.map_nil, List.mem_cons, List.not_mem_nil, or_false] at h3
  subst h3
  simp at h2

/-! ## conjugates, zeros and symbols -/

section Values
variable {V : Type}

/-- What `conjugate` of dispatch_defaults.py sees of an object: its method, its parts and its class. -/
structure Obj (V : Type) where
  conj : Option V
  real : Option V
  imag : Option V
  cls : V → V → V
  self : V

/-- `conjugate`, dispatch_defaults.py l.13-26. -/
def conjugate (o : Obj V) : V :=
  match o.conj with
  | some c => c
  | none =>
    match o.real, o.imag with
    | some r, some i => o.cls r i
    | _, _ => o.self

/-- **C147, conjugate.**  An object with a method is conjugated by it, and one without an imaginary part stays. -/
theorem C147_conjugate (o : Obj V) : (∀ c, o.conj = some c → conjugate o = c) ∧
    (o.conj = none → o.real = none ∨ o.imag = none → conjugate o = o.self) := by
  constructor
  · intro c h
    rw [conjugate, h]
  · intro h h'
    rw [conjugate, h]
    rcases h' with h' | h' <;> rw [h']
    cases o.real <;> rfl

/-- **C147, parts (disagreement).**  An object of two parts without a method is not conjugated: its imaginary part keeps its sign. -/
theorem C147_parts_refuted : ∃ o : Obj (ℚ × ℚ), o.conj = none ∧ o.real = some (1, 0) ∧ o.imag = some (2, 0) ∧
    (∀ a b, o.cls a b = (a.1, b.1)) ∧ o.self = (1, 2) ∧ conjugate o = (1, 2) :=
  ⟨⟨none, some (1, 0), some (2, 0), fun a b => (a.1, b.1), (1, 2)⟩, rfl, rfl, rfl, fun _ _ => rfl, rfl, rfl⟩

/-- Arguments of `zero_check_heuristic` and `check_symbolic_type`: numbers, arrays (with whether their dtype is a number), `Complex`, and
objects of other types, for which the functions are dispatched to what is given here. -/
inductive Val (V S : Type) where
  | num (v : V)
  | arr (number : Bool) (l : List V)
  | cx (re im : Val V S)
  | other (zero : Except Err Bool) (symbol : Except Err (Option S))

variable [DecidableEq V] [Zero V] {S : Type}

/-- `zero_check_heuristic`, dispatched.py l.132-141 and complex.py l.328-329. -/
def zero_check : Val V S → Except Err Bool
  | .num v => .ok (decide (v = 0))
  | .arr true l => .ok (l.all (fun v => decide (v = 0)))
  | .arr false _ => .error .notImplemented
  | .cx re im => do if ← zero_check re then zero_check im else .ok false
  | .other z _ => z

/-- `check_symbolic_type`, dispatched.py l.146-155 and complex.py l.335-340; `none` is `False`. -/
def symbolic : Val V S → Except Err (Option S)
  | .num _ => .ok none
  | .arr true _ => .ok none
  | .arr false _ => .error .notImplemented
  | .cx re im => do
    let sym ← symbolic re
    match sym with
    | none => symbolic im
    | some s => .ok (some s)
  | .other _ s => s

/-- The numbers in a value: the parts of `Complex` down to numbers and arrays. -/
def Val.leaves : Val V S → List (Val V S)
  | .cx re im => re.leaves ++ im.leaves
  | v => [v]

/-- **C147, zero.**  A value is taken for zero if and only if all its parts are. -/
theorem C147_zero (v : Val V S) : zero_check v = .ok true ↔ ∀ x ∈ v.leaves, match x with
    | .num a => a = 0
    | .arr number l => number = true ∧ ∀ a ∈ l, a = 0
    | .cx _ _ => False
    | .other z _ => z = .ok true := by
  induction v with
  | num a => simp [zero_check, Val.leaves]
  | arr n l => cases n <;> simp [zero_check, Val.leaves]
  | other z s => simp [zero_check, Val.leaves]
  | cx re im ih1 ih2 =>
    rw [Val.leaves, List.forall_mem_append, ← ih1, ← ih2, zero_check]
    cases h : zero_check re with
    | error e => simp [bind, Except.bind]
    | ok b => cases b <;> simp [bind, Except.bind]

/-- What the symbolic type of a value with the parts `l` is to be. -/
def symSpec (l : List (Val V S)) : Option S → Prop
  | none => ∀ x ∈ l, symbolic x = .ok none
  | some s => ∃ pre x post, l = pre ++ x :: post ∧ (∀ y ∈ pre, symbolic y = .ok none) ∧ symbolic x = .ok (some s)

theorem symbolic_spec (v : Val V S) (o : Option S) : symbolic v = .ok o ↔ symSpec v.leaves o := by
  have one : ∀ w : Val V S, w.leaves = [w] → ∀ o, symbolic w = .ok o ↔ symSpec w.leaves o := by
    intro w hw o
    rw [hw]
    cases o with
    | none => simp [symSpec]
    | some s =>
      constructor
      · intro h
        exact ⟨[], w, [], rfl, by simp, h⟩
      · rintro ⟨pre, x, post, h1, h2, h3⟩
        cases pre with
        | nil => cases h1; exact h3
        | cons a pre => simp at h1
  induction v generalizing o with
  | num a => exact one _ rfl o
  | arr n l => exact one _ rfl o
  | other z s => exact one _ rfl o
  | cx re im ih1 ih2 =>
    rw [Val.leaves, symbolic]
    cases h : symbolic re with
    | error e =>
      have hno : ¬ ∀ x ∈ re.leaves, symbolic x = .ok none := fun hh => by
        have := (ih1 none).mpr hh
        rw [h] at this
        cases this
      cases o with
      | none =>
        simp only [bind, Except.bind, reduceCtorEq, false_iff]
        exact fun hh => hno (fun x hx => hh x (List.mem_append_left _ hx))
      | some s =>
        simp only [bind, Except.bind, reduceCtorEq, false_iff]
        rintro ⟨pre, x, post, h1, h2, h3⟩
        rcases List.append_eq_append_iff.mp h1 with ⟨a, rfl, ha⟩ | ⟨a, ha, hb⟩
        · exact hno (fun y hy => h2 y (List.mem_append_left _ hy))
        · cases a with
          | nil =>
            rw [List.append_nil] at ha
            exact hno (fun y hy => h2 y (ha ▸ hy))
          | cons b a =>
            rw [List.cons_append, List.cons.injEq] at hb
            obtain ⟨rfl, -⟩ := hb
            have := (ih1 (some s)).mpr ⟨pre, x, a, ha, h2, h3⟩
            rw [h] at this
            cases this
    | ok o' =>
      cases o' with
      | some s' =>
        obtain ⟨pre', x', post', e1, e2, e3⟩ := (ih1 (some s')).mp h
        cases o with
        | none =>
          simp only [bind, Except.bind, Except.ok.injEq, reduceCtorEq, false_iff]
          intro hh
          have := hh x' (List.mem_append_left _ (e1 ▸ by simp))
          rw [e3] at this
          cases this
        | some s =>
          simp only [bind, Except.bind, Except.ok.injEq, Option.some.injEq]
          constructor
          · rintro rfl
            exact ⟨pre', x', post' ++ im.leaves, by rw [e1]; simp, e2, e3⟩
          · rintro ⟨pre, x, post, h1, h2, h3⟩
            rw [e1, List.append_assoc, List.cons_append] at h1
            rcases List.append_eq_append_iff.mp h1 with ⟨a, rfl, ha⟩ | ⟨a, ha, hb⟩
            · cases a with
              | nil =>
                rw [List.nil_append, List.cons.injEq] at ha
                rw [ha.1, h3] at e3
                cases e3
                rfl
              | cons b a =>
                rw [List.cons_append, List.cons.injEq] at ha
                have := h2 x' (List.mem_append_right _ (by rw [ha.1]; exact List.mem_cons_self))
                rw [e3] at this
                cases this
            · cases a with
              | nil =>
                rw [List.nil_append, List.cons.injEq] at hb
                rw [← hb.1, h3] at e3
                cases e3
                rfl
              | cons b a =>
                rw [List.cons_append, List.cons.injEq] at hb
                have := e2 x (by rw [ha, hb.1]; simp)
                rw [h3] at this
                cases this
      | none =>
        have e1 := (ih1 none).mp h
        simp only [bind, Except.bind]
        refine (ih2 o).trans ?_
        cases o with
        | none =>
          constructor
          · intro hh x hx
            rcases List.mem_append.mp hx with hx | hx
            · exact e1 x hx
            · exact hh x hx
          · exact fun hh x hx => hh x (List.mem_append_right _ hx)
        | some s =>
          constructor
          · rintro ⟨pre, x, post, h1, h2, h3⟩
            refine ⟨re.leaves ++ pre, x, post, by rw [h1, List.append_assoc], ?_, h3⟩
            intro y hy
            rcases List.mem_append.mp hy with hy | hy
            · exact e1 y hy
            · exact h2 y hy
          · rintro ⟨pre, x, post, h1, h2, h3⟩
            rcases List.append_eq_append_iff.mp h1 with ⟨a, rfl, ha⟩ | ⟨a, ha, hb⟩
            · exact ⟨a, x, post, ha, fun y hy => h2 y (List.mem_append_right _ hy), h3⟩
            · cases a with
              | nil =>
                exact ⟨[], x, post, hb.symm, by simp, h3⟩
              | cons b a =>
                rw [List.cons_append, List.cons.injEq] at hb
                have := e1 x (by rw [ha, hb.1]; simp)
                rw [h3] at this
                cases this

/-- A part that is a number or is found not to be symbolic. -/
def Val.Plain : Val V S → Prop
  | .num _ => True
  | .arr number _ => number = true
  | .cx _ _ => False
  | .other _ s => s = .ok none

theorem leaf_plain {v x : Val V S} (h : x ∈ v.leaves) : (symbolic x = .ok none ↔ x.Plain) ∧
    ∀ s, symbolic x = .ok (some s) ↔ ∃ z, x = .other z (.ok (some s)) := by
  induction v with
  | num a =>
    cases List.mem_singleton.mp h
    simp [symbolic, Val.Plain]
  | arr n l =>
    cases List.mem_singleton.mp h
    cases n <;> simp [symbolic, Val.Plain]
  | other z s =>
    cases List.mem_singleton.mp h
    simp [symbolic, Val.Plain]
  | cx re im ih1 ih2 =>
    rcases List.mem_append.mp h with h | h
    · exact ih1 h
    · exact ih2 h

/-- **C147, symbolic.**  The symbolic type of a value is that of the first of its parts that has one, if the parts before it are plain, and
there is none if all parts are plain. -/
theorem C147_symbolic (v : Val V S) : (symbolic v = .ok none ↔ ∀ x ∈ v.leaves, x.Plain) ∧
    ∀ s, symbolic v = .ok (some s) ↔ ∃ pre z post, v.leaves = pre ++ .other z (.ok (some s)) :: post ∧ ∀ y ∈ pre, y.Plain := by
  constructor
  · rw [symbolic_spec]
    exact forall₂_congr (fun x hx => (leaf_plain hx).1)
  · intro s
    rw [symbolic_spec]
    constructor
    · rintro ⟨pre, x, post, h1, h2, h3⟩
      obtain ⟨z, rfl⟩ := ((leaf_plain (v := v) (x := x) (by rw [h1]; simp)).2 s).mp h3
      exact ⟨pre, z, post, h1, fun y hy => (leaf_plain (v := v) (by rw [h1]; simp [hy])).1.mp (h2 y hy)⟩
    · rintro ⟨pre, z, post, h1, h2⟩
      exact ⟨pre, _, post, h1, fun y hy => (leaf_plain (v := v) (by rw [h1]; simp [hy])).1.mpr (h2 y hy), rfl⟩

/-- A complex number with a symbol for its imaginary part. -/
example : symbolic (.cx (.num (0 : ℚ)) (.other (.ok false) (.ok (some "SX")))) = .ok (some "SX") ∧
    zero_check (.cx (.num (0 : ℚ)) (.arr true [0, 0]) : Val ℚ String) = .ok true ∧
    zero_check (.cx (.num (0 : ℚ)) (.arr true [0, 1]) : Val ℚ String) = .ok false :=
  ⟨rfl, by decide, by decide⟩

end Values

end Disp
