import Verif.Py.Dict
import Mathlib.Data.List.Nodup
import Mathlib.Data.List.Induction

/-!
# The symbols of fits (C155)

Source: `/repo/phasor/fitting/casadi/symbolics.py` l.88-109, `/repo/phasor/fitting/casadi/fitter.py` l.244-301,
`/repo/phasor/fitting/casadi/expressions.py` l.219-251.
-/

namespace Fit
open Py

variable {D R : Type}

/-! ## model -/

/-- Numbers of python: `float` and `complex` or `Complex`. -/
inductive Val (R : Type)
  | re (x : R)
  | cx (x y : R)
  deriving DecidableEq

/-- `.real` and `.imag` -/
def Val.real : Val R → R
  | .re x => x
  | .cx x _ => x

def Val.imag [Zero R] : Val R → R
  | .re _ => 0
  | .cx _ y => y

/-- Bounds: numbers and, because of the commas at the ends of l.106-107 of symbolics.py, tuples of one entry. -/
inductive Bound (R : Type)
  | num (x : R)
  | pinf
  | ninf
  | tuple (b : Bound R)
  deriving DecidableEq

/-- A parameter of a `FitterSym`: an item of `_parameter_symbols` with what `datum` has; `usecomplex` says that the symbol is a `Complex`. -/
structure Par (D R : Type) where
  datum : D
  usecomplex : Bool
  initial : Val R
  upper_bound : Option R := none
  lower_bound : Option R := none
  upper_boundI : Option R := none
  lower_boundI : Option R := none

/-- The bunches of `fitter_symbol_map`; units, transforms and `sysname` are not modelled. -/
structure Bunch (D R : Type) where
  datum : D
  cplx : Bool
  initial_value : Val R
  upper_bound : Bound R
  lower_bound : Bound R
  upper_boundI : Option (Bound R)
  lower_boundI : Option (Bound R)

def bound (d : Bound R) : Option R → Bound R
  | some x => .num x
  | none => d

/-- symbolics.py l.95-107 -/
def Par.bunch (p : Par D R) : Bunch D R where
  datum := p.datum
  cplx := p.usecomplex
  initial_value := p.initial
  upper_bound := bound .pinf p.upper_bound
  lower_bound := bound .ninf p.lower_bound
  upper_boundI := if p.usecomplex then some (.tuple (bound .pinf p.upper_boundI)) else none
  lower_boundI := if p.usecomplex then some (.tuple (bound .ninf p.lower_boundI)) else none

/-- `FitterSym.fitter_symbol_map`, symbolics.py l.88-109. -/
def fitter_symbol_map (ps : List (Par D R)) : List (Bunch D R) := ps.map Par.bunch

inductive Desc
  | real | cplx_real | cplx_imag
  deriving DecidableEq

/-- `symbol_map`: the symbols by datum and part. -/
structure SymbolMap (D R : Type) where
  sym_list : List (D × Desc) := []
  ival_list : List (Val R) := []
  datum_list : List D := []
  type_list : List Desc := []
  lb_list : List (Bound R) := []
  ub_list : List (Bound R) := []
  sbunch_list : List (Bunch D R) := []

/-- A turn of the loop, fitter.py l.258-291.  Bounds are real, so `.real` (l.264-265) leaves them as they are. -/
def SymbolMap.turn [Zero R] (s : SymbolMap D R) (b : Bunch D R) : SymbolMap D R :=
  if b.cplx then {
    ival_list := s.ival_list ++ [.re b.initial_value.real, .re b.initial_value.imag]
    datum_list := s.datum_list ++ [b.datum, b.datum]
    type_list := s.type_list ++ [.cplx_real, .cplx_imag]
    sym_list := s.sym_list ++ [(b.datum, .cplx_real), (b.datum, .cplx_imag)]
    ub_list := s.ub_list ++ [b.upper_bound, b.upper_boundI.getD .pinf]
    lb_list := s.lb_list ++ [b.lower_bound, b.lower_boundI.getD .ninf]
    sbunch_list := s.sbunch_list ++ [b, b] }
  else {
    ival_list := s.ival_list ++ [b.initial_value]
    datum_list := s.datum_list ++ [b.datum]
    type_list := s.type_list ++ [.real]
    sym_list := s.sym_list ++ [(b.datum, .real)]
    ub_list := s.ub_list ++ [b.upper_bound]
    lb_list := s.lb_list ++ [b.lower_bound]
    sbunch_list := s.sbunch_list ++ [b] }

/-- `FitterRoot.symbol_map`, fitter.py l.246-301; the parameters of all `FitterSym`. -/
def symbol_map [Zero R] (ps : List (Par D R)) : SymbolMap D R := (fitter_symbol_map ps).foldl SymbolMap.turn {}

section
variable [DecidableEq D]

/-- The three dictionaries of expressions.py l.220-222. -/
structure Maps (D R : Type) where
  sol_map : Dict D (Val R) := []
  reals : Dict D R := []
  imags : Dict D R := []

/-- A turn of the loop l.223-245, for scalar symbols. -/
def Maps.turn (m : Maps D R) (x : D × Desc × R) : Maps D R :=
  match x.2.1 with
  | .real => { m with sol_map := Dict.set m.sol_map x.1 (.re x.2.2) }
  | .cplx_real => { m with reals := Dict.set m.reals x.1 x.2.2 }
  | .cplx_imag => { m with imags := Dict.set m.imags x.1 x.2.2 }

/-- The loop l.246-249; `popitem` takes the last item, so `items` are those of `cplx_reals_map` in reversed order. -/
def join : List (D × R) → Dict D R → Dict D (Val R) → Except Err (Dict D (Val R) × Dict D R)
  | [], imags, sol => .ok (sol, imags)
  | (k, r) :: items, imags, sol =>
    match Dict.get? imags k with
    | none => .error .keyError
    | some i => join items (Dict.erase imags k) (Dict.set sol k (.cx r i))

/-- expressions.py l.220-251: the values of the parameters from the vector of the solver. -/
def solution (datum_list : List D) (type_list : List Desc) (sol_vec : List R) : Except Err (Dict D (Val R)) :=
  let m : Maps D R := (datum_list.zip (type_list.zip sol_vec)).foldl Maps.turn {}
  match join m.reals.reverse m.imags m.sol_map with
  | .error e => .error e
  | .ok (sol, imags) => if imags = [] then .ok sol else .error .assertion
end

/-! ## the lists -/

/-- What a parameter adds to each list. -/
def Par.descs (p : Par D R) : List Desc := if p.usecomplex then [.cplx_real, .cplx_imag] else [.real]

theorem symbol_map_eq [Zero R] (ps : List (Par D R)) :
    (symbol_map ps).datum_list = ps.flatMap (fun p => p.descs.map (fun _ => p.datum)) ∧
    (symbol_map ps).type_list = ps.flatMap Par.descs ∧
    (symbol_map ps).sym_list = ps.flatMap (fun p => p.descs.map (fun t => (p.datum, t))) ∧
    (symbol_map ps).ival_list = ps.flatMap (fun p => if p.usecomplex then [.re p.initial.real, .re p.initial.imag] else [p.initial]) ∧
    (symbol_map ps).ub_list = ps.flatMap (fun p => if p.usecomplex then
      [bound .pinf p.upper_bound, .tuple (bound .pinf p.upper_boundI)] else [bound .pinf p.upper_bound]) ∧
    (symbol_map ps).lb_list = ps.flatMap (fun p => if p.usecomplex then
      [bound .ninf p.lower_bound, .tuple (bound .ninf p.lower_boundI)] else [bound .ninf p.lower_bound]) ∧
    (symbol_map ps).sbunch_list = (fitter_symbol_map ps).flatMap (fun b => if b.cplx then [b, b] else [b]) := by
  unfold symbol_map
  have main : ∀ (ps : List (Par D R)) (s : SymbolMap D R),
      let r := (fitter_symbol_map ps).foldl SymbolMap.turn s
      r.datum_list = s.datum_list ++ ps.flatMap (fun p => p.descs.map (fun _ => p.datum)) ∧
      r.type_list = s.type_list ++ ps.flatMap Par.descs ∧
      r.sym_list = s.sym_list ++ ps.flatMap (fun p => p.descs.map (fun t => (p.datum, t))) ∧
      r.ival_list = s.ival_list ++ ps.flatMap (fun p => if p.usecomplex then [.re p.initial.real, .re p.initial.imag] else [p.initial]) ∧
      r.ub_list = s.ub_list ++ ps.flatMap (fun p => if p.usecomplex then
        [bound .pinf p.upper_bound, .tuple (bound .pinf p.upper_boundI)] else [bound .pinf p.upper_bound]) ∧
      r.lb_list = s.lb_list ++ ps.flatMap (fun p => if p.usecomplex then
        [bound .ninf p.lower_bound, .tuple (bound .ninf p.lower_boundI)] else [bound .ninf p.lower_bound]) ∧
      r.sbunch_list = s.sbunch_list ++ (fitter_symbol_map ps).flatMap (fun b => if b.cplx then [b, b] else [b]) := by
    intro ps
    induction ps with
    | nil => intro s; simp [fitter_symbol_map]
    | cons p ps ih =>
      intro s
      have h := ih (SymbolMap.turn s p.bunch)
      simp only [fitter_symbol_map, List.map_cons, List.foldl_cons] at h ⊢
      obtain ⟨h1, h2, h3, h4, h5, h6, h7⟩ := h
      rw [h1, h2, h3, h4, h5, h6, h7]
      cases hc : p.usecomplex <;> simp [SymbolMap.turn, Par.bunch, Par.descs, hc]
  simpa using main ps {}

/-! ## the solution -/

variable [DecidableEq D]

/-- The entries of the vector of the solver. -/
def Par.vals (a b : D → R) (p : Par D R) : List R := if p.usecomplex then [a p.datum, b p.datum] else [a p.datum]

theorem zip_eq [Zero R] (a b : D → R) (ps : List (Par D R)) :
    (symbol_map ps).datum_list.zip ((symbol_map ps).type_list.zip (ps.flatMap (Par.vals a b))) =
      ps.flatMap (fun p => if p.usecomplex then [(p.datum, Desc.cplx_real, a p.datum), (p.datum, .cplx_imag, b p.datum)]
        else [(p.datum, .real, a p.datum)]) := by
  rw [(symbol_map_eq ps).1, (symbol_map_eq ps).2.1]
  induction ps with
  | nil => rfl
  | cons p ps ih =>
    simp only [List.flatMap_cons]
    rw [← ih]
    cases hc : p.usecomplex <;> simp [Par.descs, Par.vals, hc]

theorem maps_spec (a b : D → R) (ps : List (Par D R)) :
    let m : Maps D R := (ps.flatMap (fun p => if p.usecomplex then [(p.datum, Desc.cplx_real, a p.datum), (p.datum, .cplx_imag, b p.datum)]
        else [(p.datum, .real, a p.datum)])).foldl Maps.turn {}
    Dict.WF m.reals ∧
    (∀ d v, Dict.get? m.sol_map d = some v ↔ ∃ p ∈ ps, p.datum = d ∧ p.usecomplex = false ∧ v = .re (a d)) ∧
    (∀ d v, Dict.get? m.reals d = some v ↔ ∃ p ∈ ps, p.datum = d ∧ p.usecomplex = true ∧ v = a d) ∧
    (∀ d v, Dict.get? m.imags d = some v ↔ ∃ p ∈ ps, p.datum = d ∧ p.usecomplex = true ∧ v = b d) := by
  have step : ∀ {W : Type} (g : D → W) (t : Dict D W) (Q : Par D R → Prop) (ps : List (Par D R)) (p : Par D R), Q p →
      (∀ d v, Dict.get? t d = some v ↔ ∃ p ∈ ps, p.datum = d ∧ Q p ∧ v = g d) →
      ∀ d v, Dict.get? (Dict.set t p.datum (g p.datum)) d = some v ↔ ∃ q ∈ ps ++ [p], q.datum = d ∧ Q q ∧ v = g d := by
    intro W g t Q ps p hp h d v
    rw [Dict.get?_set]
    split_ifs with hd
    · subst hd
      constructor
      · intro hv
        exact ⟨p, by simp, rfl, hp, (Option.some.inj hv).symm⟩
      · rintro ⟨q, _, _, _, rfl⟩
        rfl
    · rw [h]
      constructor
      · rintro ⟨q, hq, r⟩
        exact ⟨q, List.mem_append_left _ hq, r⟩
      · rintro ⟨q, hq, r⟩
        rcases List.mem_append.1 hq with hq | hq
        · exact ⟨q, hq, r⟩
        · rw [List.mem_singleton.1 hq] at r
          exact absurd r.1 hd
  have keep : ∀ {W : Type} (g : D → W) (t : Dict D W) (Q : Par D R → Prop) (ps : List (Par D R)) (p : Par D R), ¬Q p →
      (∀ d v, Dict.get? t d = some v ↔ ∃ p ∈ ps, p.datum = d ∧ Q p ∧ v = g d) →
      ∀ d v, Dict.get? t d = some v ↔ ∃ q ∈ ps ++ [p], q.datum = d ∧ Q q ∧ v = g d := by
    intro W g t Q ps p hp h d v
    rw [h]
    constructor
    · rintro ⟨q, hq, r⟩
      exact ⟨q, List.mem_append_left _ hq, r⟩
    · rintro ⟨q, hq, r⟩
      rcases List.mem_append.1 hq with hq | hq
      · exact ⟨q, hq, r⟩
      · rw [List.mem_singleton.1 hq] at r
        exact absurd r.2.1 hp
  induction ps using List.reverseRecOn with
  | nil => simp
  | append_singleton ps p ih =>
    obtain ⟨h0, h1, h2, h3⟩ := ih
    rw [List.flatMap_append, List.foldl_append]
    generalize List.foldl (Maps.turn (D := D) (R := R)) _ _ = m at h0 h1 h2 h3 ⊢
    cases hc : p.usecomplex
    · simp only [List.flatMap_cons, List.flatMap_nil, hc, Bool.false_eq_true, if_false, List.append_nil, List.foldl_cons, List.foldl_nil, Maps.turn]
      exact ⟨h0, step (fun d => Val.re (a d)) _ (fun p => p.usecomplex = false) ps p hc h1,
        keep a _ (fun p => p.usecomplex = true) ps p (by simp [hc]) h2, keep b _ (fun p => p.usecomplex = true) ps p (by simp [hc]) h3⟩
    · simp only [List.flatMap_cons, List.flatMap_nil, hc, if_true, List.append_nil, List.foldl_cons, List.foldl_nil, Maps.turn]
      exact ⟨Dict.WF_set h0 _ _, keep (fun d => Val.re (a d)) _ (fun p => p.usecomplex = false) ps p (by simp [hc]) h1,
        step a _ (fun p => p.usecomplex = true) ps p hc h2, step b _ (fun p => p.usecomplex = true) ps p hc h3⟩

theorem join_spec (a b : D → R) : ∀ (items : List (D × R)) (imags : Dict D R) (sol : Dict D (Val R)), (items.map Prod.fst).Nodup →
    (∀ x ∈ items, x.2 = a x.1 ∧ Dict.get? imags x.1 = some (b x.1)) →
    ∃ sol' imags', join items imags sol = .ok (sol', imags') ∧
      (∀ d, Dict.get? sol' d = if d ∈ items.map Prod.fst then some (.cx (a d) (b d)) else Dict.get? sol d) ∧
      ∀ d, Dict.get? imags' d = if d ∈ items.map Prod.fst then none else Dict.get? imags d
  | [], imags, sol, _, _ => ⟨sol, imags, rfl, by simp, by simp⟩
  | (k, r) :: items, imags, sol, hn, h => by
    obtain ⟨hr, hi⟩ := h _ List.mem_cons_self
    rw [List.map_cons, List.nodup_cons] at hn
    dsimp only at hr hi hn
    subst hr
    obtain ⟨sol', imags', h1, h2, h3⟩ := join_spec a b items (Dict.erase imags k) (Dict.set sol k (.cx (a k) (b k))) hn.2 (by
      intro x hx
      obtain ⟨e1, e2⟩ := h x (List.mem_cons_of_mem _ hx)
      refine ⟨e1, ?_⟩
      rw [Dict.get?_erase, if_neg, e2]
      rintro rfl
      exact hn.1 (List.mem_map.2 ⟨x, hx, rfl⟩))
    refine ⟨sol', imags', ?_, ?_, ?_⟩
    · rw [join, hi]
      exact h1
    · intro d
      rw [h2, Dict.get?_set]
      by_cases hd : k = d
      · subst hd
        simp
      · rw [if_neg hd]
        refine if_congr ?_ rfl rfl
        rw [List.map_cons, List.mem_cons]
        exact ⟨Or.inr, fun h => h.resolve_left (Ne.symm hd)⟩
    · intro d
      rw [h3, Dict.get?_erase]
      by_cases hd : k = d
      · subst hd
        simp
      · rw [if_neg hd]
        refine if_congr ?_ rfl rfl
        rw [List.map_cons, List.mem_cons]
        exact ⟨Or.inr, fun h => h.resolve_left (Ne.symm hd)⟩

/-! ## C155 -/

/-- **C155, lists.**  The lists that go to the solver belong together: as many symbols as starting values, types, and upper and lower bounds. -/
theorem C155_lengths [Zero R] (ps : List (Par D R)) :
    (symbol_map ps).ival_list.length = (symbol_map ps).sym_list.length ∧ (symbol_map ps).datum_list.length = (symbol_map ps).sym_list.length ∧
    (symbol_map ps).type_list.length = (symbol_map ps).sym_list.length ∧ (symbol_map ps).ub_list.length = (symbol_map ps).sym_list.length ∧
    (symbol_map ps).lb_list.length = (symbol_map ps).sym_list.length ∧ (symbol_map ps).sbunch_list.length = (symbol_map ps).sym_list.length := by
  obtain ⟨h1, h2, h3, h4, h5, h6, h7⟩ := symbol_map_eq ps
  rw [h1, h2, h3, h4, h5, h6, h7]
  clear h1 h2 h3 h4 h5 h6 h7
  induction ps with
  | nil => simp [fitter_symbol_map]
  | cons p ps ih =>
    simp only [fitter_symbol_map, List.map_cons, List.flatMap_cons, List.length_append] at ih ⊢
    obtain ⟨h1, h2, h3, h4, h5, h6⟩ := ih
    rw [h1, h2, h3, h4, h5, h6]
    cases hc : p.usecomplex <;> simp [Par.bunch, Par.descs, hc]

/-- **C155, symbols.**  No symbol is there twice if no parameter is. -/
theorem C155_nodup [Zero R] (ps : List (Par D R)) (hn : (ps.map Par.datum).Nodup) : (symbol_map ps).sym_list.Nodup := by
  rw [(symbol_map_eq ps).2.2.1]
  induction ps with
  | nil => simp
  | cons p ps ih =>
    rw [List.map_cons, List.nodup_cons] at hn
    rw [List.flatMap_cons, List.nodup_append]
    refine ⟨?_, ih hn.2, ?_⟩
    · cases hc : p.usecomplex <;> simp [Par.descs, hc]
    · rintro x hx y hy rfl
      obtain ⟨t, _, rfl⟩ := List.mem_map.1 hx
      obtain ⟨q, hq, hy⟩ := List.mem_flatMap.1 hy
      obtain ⟨t', _, e⟩ := List.mem_map.1 hy
      exact hn.1 (List.mem_map.2 ⟨q, hq, congrArg Prod.fst e⟩)

/-- **C155, solution.**  Whatever the solver finds, each parameter gets its value: the real ones their entry of the vector, the complex ones their two entries,
others none; nothing is raised. -/
theorem C155_solution [Zero R] (ps : List (Par D R)) (hn : (ps.map Par.datum).Nodup) (a b : D → R) :
    ∃ sol, solution (symbol_map ps).datum_list (symbol_map ps).type_list
        (ps.flatMap fun p => if p.usecomplex then [a p.datum, b p.datum] else [a p.datum]) = .ok sol ∧
      ∀ d v, Dict.get? sol d = some v ↔ ∃ p ∈ ps, p.datum = d ∧ v = if p.usecomplex then .cx (a d) (b d) else .re (a d) := by
  obtain ⟨h0, h1, h2, h3⟩ := maps_spec a b ps
  have hz := zip_eq a b ps
  unfold Par.vals at hz
  unfold solution
  rw [hz]
  generalize List.foldl (Maps.turn (D := D) (R := R)) _ _ = m at h0 h1 h2 h3 ⊢
  have hk : ∀ d, d ∈ m.reals.reverse.map Prod.fst ↔ ∃ p ∈ ps, p.datum = d ∧ p.usecomplex = true := by
    intro d
    rw [List.map_reverse, List.mem_reverse]
    have e := Dict.mem_keys_iff m.reals d
    unfold Dict.keys at e
    rw [e, Option.isSome_iff_exists]
    constructor
    · rintro ⟨v, hv⟩
      obtain ⟨p, hp, e1, e2, _⟩ := (h2 d v).1 hv
      exact ⟨p, hp, e1, e2⟩
    · rintro ⟨p, hp, e1, e2⟩
      exact ⟨a d, (h2 d _).2 ⟨p, hp, e1, e2, rfl⟩⟩
  obtain ⟨sol, imags, e, g1, g2⟩ := join_spec a b m.reals.reverse m.imags m.sol_map (by
    rw [List.map_reverse, List.nodup_reverse]
    exact h0) (by
    rintro ⟨k, r⟩ hx
    obtain ⟨p, hp, e1, e2, e3⟩ := (h2 k r).1 (Dict.get?_of_mem h0 (List.mem_reverse.1 hx))
    exact ⟨e3, (h3 k _).2 ⟨p, hp, e1, e2, rfl⟩⟩)
  have hi : imags = [] := by
    have hnone : ∀ d, Dict.get? imags d = none := by
      intro d
      rw [g2]
      split_ifs with hd
      · rfl
      · rw [Option.eq_none_iff_forall_ne_some]
        intro v hv
        obtain ⟨p, hp, e1, e2, _⟩ := (h3 d v).1 hv
        exact hd ((hk d).2 ⟨p, hp, e1, e2⟩)
    cases imags with
    | nil => rfl
    | cons x l =>
      have := hnone x.1
      rw [Dict.get?_cons, if_pos rfl] at this
      cases this
  refine ⟨sol, ?_, ?_⟩
  · dsimp only
    rw [e]
    dsimp only
    rw [if_pos hi]
  · intro d v
    rw [g1]
    have uniq : ∀ p ∈ ps, ∀ q ∈ ps, p.datum = q.datum → p = q := fun p hp q hq h => List.inj_on_of_nodup_map hn hp hq h
    split_ifs with hd
    · obtain ⟨p, hp, e1, e2⟩ := (hk d).1 hd
      constructor
      · intro hv
        exact ⟨p, hp, e1, by rw [e2]; exact (Option.some.inj hv).symm⟩
      · rintro ⟨q, hq, e3, rfl⟩
        obtain rfl := uniq p hp q hq (e1.trans e3.symm)
        rw [e2]
        rfl
    · rw [h1]
      constructor
      · rintro ⟨p, hp, e1, e2, rfl⟩
        exact ⟨p, hp, e1, by rw [e2]; rfl⟩
      · rintro ⟨p, hp, e1, rfl⟩
        cases hc : p.usecomplex
        · exact ⟨p, hp, e1, hc, rfl⟩
        · exact absurd ((hk d).2 ⟨p, hp, e1, hc⟩) hd

/-- **C155, starting values.**  The solver that goes nowhere gives the starting values, those of complex parameters as complex numbers; real ones have to
start with real values. -/
theorem C155_start [Zero R] (ps : List (Par D R)) (hn : (ps.map Par.datum).Nodup)
    (hv : ∀ p ∈ ps, p.usecomplex = false → ∃ x, p.initial = .re x) :
    ∃ sol, solution (symbol_map ps).datum_list (symbol_map ps).type_list ((symbol_map ps).ival_list.map Val.real) = .ok sol ∧
      ∀ p ∈ ps, (∀ x, p.initial = .re x → Dict.get? sol p.datum = some (if p.usecomplex then .cx x 0 else .re x)) ∧
        ∀ x y, p.initial = .cx x y → Dict.get? sol p.datum = some (.cx x y) := by
  have uniq : ∀ p ∈ ps, ∀ q ∈ ps, p.datum = q.datum → p = q := fun p hp q hq h => List.inj_on_of_nodup_map hn hp hq h
  let look : D → Val R := fun d => ((ps.find? (fun p => p.datum = d)).map Par.initial).getD (.re 0)
  have hl : ∀ p ∈ ps, look p.datum = p.initial := by
    intro p hp
    have hs : (ps.find? (fun q => q.datum = p.datum)).isSome := by
      rw [List.find?_isSome]
      exact ⟨p, hp, by simp⟩
    obtain ⟨q, hq⟩ := Option.isSome_iff_exists.1 hs
    have e := List.find?_some hq
    have := uniq q (List.mem_of_find?_eq_some hq) p hp (by simpa using e)
    show ((ps.find? (fun q => q.datum = p.datum)).map Par.initial).getD (.re 0) = _
    rw [hq, this]
    rfl
  obtain ⟨sol, h1, h2⟩ := C155_solution ps hn (fun d => (look d).real) (fun d => (look d).imag)
  have e : (symbol_map ps).ival_list.map Val.real =
      ps.flatMap fun p => if p.usecomplex then [(look p.datum).real, (look p.datum).imag] else [(look p.datum).real] := by
    rw [(symbol_map_eq ps).2.2.2.1, List.map_flatMap]
    refine List.flatMap_congr fun p hp => ?_
    rw [hl p hp]
    cases p.usecomplex <;> rfl
  refine ⟨sol, by rw [e]; exact h1, fun p hp => ⟨fun x hx => (h2 _ _).2 ⟨p, hp, rfl, ?_⟩, fun x y hx => (h2 _ _).2 ⟨p, hp, rfl, ?_⟩⟩⟩
  · rw [hl p hp, hx]
    rfl
  · rw [hl p hp, hx]
    cases hc : p.usecomplex
    · obtain ⟨z, hz⟩ := hv p hp hc
      rw [hx] at hz
      cases hz
    · rfl

/-- **C155, refuted** for bounds: the bounds of the imaginary part of a complex parameter are never numbers or infinities. -/
theorem C155_bounds_refuted [Zero R] (p : Par D R) (hp : p.usecomplex = true) :
    ∃ u l u' l', (symbol_map [p]).ub_list = [u, .tuple u'] ∧ (symbol_map [p]).lb_list = [l, .tuple l'] ∧
      (∀ x, p.upper_boundI = some x → u' = .num x) ∧ ∀ x, p.lower_boundI = some x → l' = .num x := by
  refine ⟨bound .pinf p.upper_bound, bound .ninf p.lower_bound, bound .pinf p.upper_boundI, bound .ninf p.lower_boundI, ?_, ?_, ?_, ?_⟩
  · rw [(symbol_map_eq [p]).2.2.2.2.1]
    simp [hp]
  · rw [(symbol_map_eq [p]).2.2.2.2.2.1]
    simp [hp]
  · intro x h
    rw [h]
    rfl
  · intro x h
    rw [h]
    rfl

/-- **C155, bounds of the others.**  Without complex parameters each symbol has the bounds of its parameter, and infinities where there are none. -/
theorem C155_bounds_partial [Zero R] (ps : List (Par D R)) (hr : ∀ p ∈ ps, p.usecomplex = false) :
    (symbol_map ps).ub_list = ps.map (fun p => match p.upper_bound with | some x => .num x | none => .pinf) ∧
    (symbol_map ps).lb_list = ps.map (fun p => match p.lower_bound with | some x => .num x | none => .ninf) := by
  rw [(symbol_map_eq ps).2.2.2.2.1, (symbol_map_eq ps).2.2.2.2.2.1]
  induction ps with
  | nil => simp
  | cons p ps ih =>
    obtain ⟨h1, h2⟩ := ih fun q hq => hr q (List.mem_cons_of_mem _ hq)
    rw [List.flatMap_cons, List.flatMap_cons, h1, h2, hr p List.mem_cons_self]
    refine ⟨?_, ?_⟩
    · cases hp : p.upper_bound <;> simp [bound, hp]
    · cases hp : p.lower_bound <;> simp [bound, hp]

/-- **C155, refuted** for bunches: a complex parameter is twice in the list over which the jitter of C154 goes. -/
theorem C155_twice_refuted [Zero R] (p : Par D R) (hp : p.usecomplex = true) : (symbol_map [p]).sbunch_list = [p.bunch, p.bunch] := by
  rw [(symbol_map_eq [p]).2.2.2.2.2.2]
  simp [fitter_symbol_map, Par.bunch, hp]

/-- The hypotheses are met together, and the results are not trivial. -/
example : let ps : List (Par Bool Int) := [⟨false, true, .cx 1 2, none, some 0, some 5, none⟩, ⟨true, false, .re 7, some 9, none, none, none⟩]
    (ps.map Par.datum).Nodup ∧ (symbol_map ps).ub_list = [.pinf, .tuple (.num 5), .num 9] ∧
    (∀ p ∈ ps, p.usecomplex = false → ∃ x, p.initial = .re x) ∧
    solution (symbol_map ps).datum_list (symbol_map ps).type_list [3, 4, 8] = .ok [(true, .re 8), (false, .cx 3 4)] := by
  refine ⟨by decide, by decide, by simp, by rfl⟩

end Fit
