import Verif.Optics.Selective
import Verif.Optics.Photodiode

/-!
# The linear response of couplings around a solution
-/

set_option linter.unusedSectionVars false

namespace Shot
open Py Inject Circuit Optics
open Signal (Balanced)

section generic
variable {P K F : Type} [DecidableEq P] [DecidableEq K] [Field F] [DecidableEq F]

/-- The coupling from `d` to `t` in the linear system which the solver builds on the solution `sol`: the edges of the
injections, evaluated at `sol` (solver_algorithm.py l.231-248). -/
def linearGain (sol : SolVec P K F) (cs : List (Coupling P K F)) (d t : P × K) : F :=
  (cs.map (fun c => (c.inj.edges.map (fun e => if e.1 = (d, t) then evalD sol e.2 else 0)).sum)).sum

/-- The amplitude at `t` when `d` alone has the amplitude one. -/
def amp (cs : List (Coupling P K F)) (d t : P × K) : F :=
  (cs.map (fun c => c.into (fun n => if n = d then 1 else 0) t)).sum

variable (sol : SolVec P K F)

theorem linearGain_nil (d t : P × K) : linearGain sol [] d t = 0 := rfl

theorem linearGain_append (cs ds : List (Coupling P K F)) (d t : P × K) :
    linearGain sol (cs ++ ds) d t = linearGain sol cs d t + linearGain sol ds d t := by
  unfold linearGain
  rw [List.map_append, List.sum_append]

theorem linearGain_cons (c : Coupling P K F) (ds : List (Coupling P K F)) (d t : P × K) :
    linearGain sol (c :: ds) d t = linearGain sol [c] d t + linearGain sol ds d t :=
  linearGain_append sol [c] ds d t

theorem linearGain_flatMap {α : Type} (l : List α) (f : α → List (Coupling P K F)) (d t : P × K) :
    linearGain sol (l.flatMap f) d t = (l.map (fun a => linearGain sol (f a) d t)).sum := by
  induction l with
  | nil => rfl
  | cons a l ih => rw [List.flatMap_cons, linearGain_append, ih, List.map_cons, List.sum_cons]

theorem linearGain_edge (a b : P × K) (v : F) (d t : P × K) :
    linearGain sol [.edge a b v] d t = if a = d ∧ b = t then v else 0 := by
  unfold linearGain
  rw [List.map_cons, List.map_nil, List.sum_cons, List.sum_nil, add_zero]
  change ([((a, b), fun _ => Except.ok v)].map (fun e : ((P × K) × (P × K)) × Func P K F =>
    if e.1 = (d, t) then evalD sol e.2 else 0)).sum = _
  rw [List.map_cons, List.map_nil, List.sum_cons, List.sum_nil, add_zero]
  simp only [Prod.mk.injEq]
  rfl

theorem linearGain_multEdge (a b r : P × K) (v : F) (d t : P × K) :
    linearGain sol [.multEdge a b v [r]] d t = if a = d ∧ b = t then v * getd sol r 0 else 0 := by
  unfold linearGain
  rw [List.map_cons, List.map_nil, List.sum_cons, List.sum_nil, add_zero]
  change ([((a, b), mult_func v [r])].map (fun e : ((P × K) × (P × K)) × Func P K F =>
    if e.1 = (d, t) then evalD sol e.2 else 0)).sum = _
  rw [List.map_cons, List.map_nil, List.sum_cons, List.sum_nil, add_zero]
  simp only [Prod.mk.injEq]
  rfl

theorem amp_append (cs ds : List (Coupling P K F)) (d t : P × K) : amp (cs ++ ds) d t = amp cs d t + amp ds d t := by
  unfold amp
  rw [List.map_append, List.sum_append]

theorem amp_edge (a b : P × K) (v : F) (d t : P × K) : amp [.edge a b v] d t = if a = d ∧ b = t then v else 0 := by
  unfold amp
  rw [List.map_cons, List.map_nil, List.sum_cons, List.sum_nil, add_zero]
  change (if b = t then v * (if a = d then 1 else 0) else 0) = _
  by_cases h1 : a = d <;> by_cases h2 : b = t <;> simp [h1, h2]

/-- for plain edges the two agree, whatever the solution -/
theorem linearGain_edges {cs : List (Coupling P K F)} (h : ∀ c ∈ cs, ∃ a b v, c = .edge a b v) (d t : P × K) :
    linearGain sol cs d t = amp cs d t := by
  induction cs with
  | nil => rfl
  | cons c cs ih =>
    obtain ⟨a, b, v, rfl⟩ := h c List.mem_cons_self
    rw [linearGain_cons, linearGain_edge, ih (fun c hc => h c (List.mem_cons_of_mem _ hc))]
    have := amp_append [Coupling.edge a b v] cs d t
    rw [amp_edge] at this
    exact this.symm

theorem amp_zero {cs : List (Coupling P K F)} {d t : P × K} (h : ∀ c ∈ cs, ∃ a b v, c = .edge a b v ∧ ¬(a = d ∧ b = t)) :
    amp cs d t = 0 := by
  unfold amp
  apply List.sum_eq_zero
  intro y hy
  obtain ⟨c, hc, rfl⟩ := List.mem_map.1 hy
  obtain ⟨a, b, v, rfl, hne⟩ := h c hc
  have := amp_edge a b v d t
  rw [if_neg hne] at this
  unfold amp at this
  rwa [List.map_cons, List.map_nil, List.sum_cons, List.sum_nil, add_zero] at this

theorem linearGain_zero {cs : List (Coupling P K F)} {d t : P × K} (h : ∀ c ∈ cs, ∀ e ∈ c.inj.edges, e.1 ≠ (d, t)) :
    linearGain sol cs d t = 0 := by
  unfold linearGain
  apply List.sum_eq_zero
  intro y hy
  obtain ⟨c, hc, rfl⟩ := List.mem_map.1 hy
  apply List.sum_eq_zero
  intro z hz
  obtain ⟨e, he, rfl⟩ := List.mem_map.1 hz
  exact if_neg (h c hc e he)

/-- the couplings of blocks come from one of them -/
theorem blocks_mem {bs : List (Except Err (List (Coupling P K F)))} {cs : List (Coupling P K F)} (h : blocks bs = .ok cs)
    {c : Coupling P K F} (hc : c ∈ cs) : ∃ b ∈ bs, ∃ ds, b = .ok ds ∧ c ∈ ds := by
  induction bs generalizing cs with
  | nil =>
    obtain rfl := blocks_nil h
    cases hc
  | cons b bs ih =>
    obtain ⟨c1, d1, h1, h2, rfl⟩ := blocks_cons h
    rcases List.mem_append.1 hc with hc | hc
    · exact ⟨b, List.mem_cons_self, c1, h1, hc⟩
    · obtain ⟨b', hb', r⟩ := ih h2 hc
      exact ⟨b', List.mem_cons_of_mem _ hb', r⟩

theorem linearGain_blocks {α : Type} {l : List α} {f : α → Except Err (List (Coupling P K F))} {cs : List (Coupling P K F)}
    (h : blocks (l.map f) = .ok cs) {g : α → F} {d t : P × K}
    (hg : ∀ a ∈ l, ∀ ds, f a = .ok ds → linearGain sol ds d t = g a) : linearGain sol cs d t = (l.map g).sum := by
  induction l generalizing cs with
  | nil =>
    obtain rfl := blocks_nil h
    rfl
  | cons a l ih =>
    obtain ⟨c, ds, hc, hd, rfl⟩ := blocks_cons h
    rw [linearGain_append, hg a List.mem_cons_self c hc, ih hd (fun b hb => hg b (List.mem_cons_of_mem _ hb)), List.map_cons,
      List.sum_cons]

end generic

end Shot
