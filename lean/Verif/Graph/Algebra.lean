import Verif.Graph.Basic
import Mathlib.Algebra.BigOperators.Ring.Finset
import Mathlib.Tactic.FieldSimp
import Mathlib.Tactic.LinearCombination
import Mathlib.Tactic.Ring

set_option linter.unusedSectionVars false

namespace Graph
variable {N : Type} {V : Type} [DecidableEq N] [Field V] [DecidableEq V]

section
variable [Fintype N]

/-- Sum split at `n`. -/
theorem sum_split (f : N → V) (n : N) : ∑ r, f r = f n + ∑ r, (if r = n then 0 else f r) := by
  have : ∀ r, f r = (if r = n then f r else 0) + (if r = n then 0 else f r) := by
    intro r; split <;> simp
  rw [Finset.sum_congr rfl (fun r _ => this r), Finset.sum_add_distrib]
  simp

theorem elimW_sum (w : N → N → V) (n t : N) (ht : t ≠ n) (x : N → V) :
    ∑ r, elimW w n r t * x r = (∑ r, if r = n then 0 else w r t * x r) +
      w n t * (1 / (1 - w n n)) * ∑ r, (if r = n then 0 else w r n * x r) := by
  rw [Finset.mul_sum, ← Finset.sum_add_distrib]
  apply Finset.sum_congr rfl
  intro r _
  unfold elimW
  by_cases h : r = n
  · simp [h]
  · simp only [h, ht, or_self, if_false]
    ring

theorem elim_forward {w : N → N → V} {n : N} (h : 1 - w n n ≠ 0) {T : Set N} (hn : n ∈ T) {x : N → V}
    (hx : Sol w T x) : Sol (elimW w n) (T \ {n}) x := by
  rintro t ⟨htT, htn⟩
  have htn : t ≠ n := htn
  rw [elimW_sum w n t htn]
  have h1 := hx t htT
  have h2 := hx n hn
  rw [sum_split _ n] at h1 h2
  have h3 : (1 / (1 - w n n)) * ∑ r, (if r = n then 0 else w r n * x r) = x n := by
    field_simp
    linear_combination -h2
  rw [mul_assoc, h3, h1]
  ring

/-- The value an eliminated node takes. -/
def backValue (w : N → N → V) (n : N) (x : N → V) : V :=
  (1 / (1 - w n n)) * ∑ r, (if r = n then 0 else w r n * x r)

theorem elim_unique {w : N → N → V} {n : N} (h : 1 - w n n ≠ 0) {T : Set N} (hn : n ∈ T) {x : N → V}
    (hx : Sol w T x) : x n = backValue w n x := by
  have h2 := hx n hn
  rw [sum_split _ n] at h2
  unfold backValue
  field_simp
  linear_combination h2

theorem elim_back {w : N → N → V} {n : N} (h : 1 - w n n ≠ 0) {T : Set N} {x : N → V}
    (hx : Sol (elimW w n) (T \ {n}) x) : Sol w T (Function.update x n (backValue w n x)) := by
  intro t htT
  have hsum : ∀ t', (∑ r, if r = n then 0 else w r t' * Function.update x n (backValue w n x) r) =
      ∑ r, if r = n then 0 else w r t' * x r := by
    intro t'
    apply Finset.sum_congr rfl
    intro r _
    by_cases hr : r = n
    · simp [hr]
    · simp [hr]
  rw [sum_split _ n, hsum]
  by_cases htn : t = n
  · subst htn
    simp only [Function.update_self]
    unfold backValue
    field_simp
    ring
  · rw [Function.update_of_ne htn, Function.update_self]
    rw [hx t ⟨htT, htn⟩, elimW_sum w n t htn]
    unfold backValue
    ring

/-- Eliminating a list of nodes in order. -/
def elimAll (w : N → N → V) : List N → N → N → V
  | [] => w
  | n :: L => elimAll (elimW w n) L

/-- No reduction divides by zero. -/
def Pivots (w : N → N → V) : List N → Prop
  | [] => True
  | n :: L => 1 - w n n ≠ 0 ∧ Pivots (elimW w n) L

theorem elimAll_forward : ∀ (L : List N) {w : N → N → V} {T : Set N} {x : N → V}, Pivots w L → L.Nodup →
    (∀ n ∈ L, n ∈ T) → Sol w T x → Sol (elimAll w L) (T \ {n | n ∈ L}) x := by
  intro L
  induction L with
  | nil => intro w T x _ _ _ hx; simpa [elimAll] using hx
  | cons n L ih =>
    intro w T x hp hnd hT hx
    obtain ⟨h1, h2⟩ := hp
    obtain ⟨hnL, hnd'⟩ := List.nodup_cons.1 hnd
    have := ih h2 hnd' (T := T \ {n}) (fun m hm => ⟨hT m (List.mem_cons_of_mem _ hm), fun h => hnL (h ▸ hm)⟩)
      (elim_forward h1 (hT n (by simp)) hx)
    have e : (T \ {m | m ∈ n :: L}) = (T \ {n}) \ {m | m ∈ L} := by
      ext m; simp only [List.mem_cons, Set.mem_diff, Set.mem_setOf_eq, Set.mem_singleton_iff]; tauto
    rw [e]
    exact this

theorem elimAll_back : ∀ (L : List N) {w : N → N → V} {T : Set N} {x : N → V}, Pivots w L →
    Sol (elimAll w L) (T \ {n | n ∈ L}) x → ∃ y, (∀ t, t ∉ L → y t = x t) ∧ Sol w T y := by
  intro L
  induction L with
  | nil => intro w T x _ hx; exact ⟨x, fun _ _ => rfl, by simpa [elimAll] using hx⟩
  | cons n L ih =>
    intro w T x hp hx
    obtain ⟨h1, h2⟩ := hp
    have e : (T \ {m | m ∈ n :: L}) = (T \ {n}) \ {m | m ∈ L} := by
      ext m; simp only [List.mem_cons, Set.mem_diff, Set.mem_setOf_eq, Set.mem_singleton_iff]; tauto
    rw [e] at hx
    obtain ⟨y, hy1, hy2⟩ := ih h2 (T := T \ {n}) hx
    refine ⟨Function.update y n (backValue w n y), ?_, elim_back h1 hy2⟩
    intro t ht
    simp only [List.mem_cons, not_or] at ht
    rw [Function.update_of_ne ht.1, hy1 t ht.2]

end

/-- A path of at least one edge whose interior nodes satisfy `Q`. -/
inductive Via (E : N → N → Prop) (Q : N → Prop) : N → N → Prop
  | edge {a b} : E a b → Via E Q a b
  | step {a c b} : E a c → Q c → Via E Q c b → Via E Q a b

theorem Via.mono {E : N → N → Prop} {Q Q' : N → Prop} (h : ∀ n, Q n → Q' n) {a b : N} (hv : Via E Q a b) :
    Via E Q' a b := by
  induction hv with
  | edge h1 => exact .edge h1
  | step h1 h2 _ ih => exact .step h1 (h _ h2) ih

theorem Via.trans {E : N → N → Prop} {Q : N → Prop} {a c b : N} (h1 : Via E Q a c) (hc : Q c)
    (h2 : Via E Q c b) : Via E Q a b := by
  induction h1 with
  | edge h => exact .step h hc h2
  | step h hq _ ih => exact .step h hq (ih hc h2)

/-- Adjacency after one elimination. -/
def elimE (E : N → N → Prop) (n a b : N) : Prop := a ≠ n ∧ b ≠ n ∧ (E a b ∨ (E a n ∧ E n b))

theorem via_elim {E : N → N → Prop} {Q : N → Prop} {n : N} {a b : N} (ha : a ≠ n) (hb : b ≠ n) :
    Via (elimE E n) Q a b ↔ Via E (fun m => m = n ∨ (m ≠ n ∧ Q m)) a b := by
  constructor
  · intro h
    have one : ∀ {a b}, elimE E n a b → Via E (fun m => m = n ∨ (m ≠ n ∧ Q m)) a b := by
      rintro a b ⟨_, _, h | ⟨h1, h2⟩⟩
      · exact .edge h
      · exact .step h1 (Or.inl rfl) (.edge h2)
    clear ha
    induction h with
    | edge h => exact one h
    | step h hq _ ih => exact (one h).trans (Or.inr ⟨h.2.1, hq⟩) (ih hb)
  · intro h
    suffices key : ∀ {a}, Via E (fun m => m = n ∨ (m ≠ n ∧ Q m)) a b →
        (a ≠ n → Via (elimE E n) Q a b) ∧ (a = n → ∀ r, r ≠ n → E r n → Via (elimE E n) Q r b) from
      (key h).1 ha
    clear h ha
    · intro a h
      induction h with
      | @edge a b h =>
        refine ⟨fun ha => .edge ⟨ha, hb, Or.inl h⟩, ?_⟩
        rintro rfl r hr hE
        exact .edge ⟨hr, hb, Or.inr ⟨hE, h⟩⟩
      | @step a c b h hq _ ih =>
        obtain ⟨i1, i2⟩ := ih hb
        constructor
        · intro ha
          rcases hq with rfl | ⟨hc, hQ⟩
          · exact i2 rfl a ha h
          · exact .step ⟨ha, hc, Or.inl h⟩ hQ (i1 hc)
        · rintro rfl r hr hE
          rcases hq with hc | ⟨hc, hQ⟩
          · exact i2 hc r hr hE
          · exact .step ⟨hr, hc, Or.inr ⟨hE, h⟩⟩ hQ (i1 hc)

theorem via_reach {E : N → N → Prop} {Q : N → Prop} {a b : N} (h : Via E Q a b) :
    (∃ c, E a c) ∧ (∃ c, E c b) := by
  induction h with
  | edge h => exact ⟨⟨_, h⟩, ⟨_, h⟩⟩
  | step h _ _ ih => exact ⟨⟨_, h⟩, ih.2⟩

end Graph
