import Verif.Queue.Lemmas

/-!
# Properties of the priority queue: C08 – C10
-/

universe u

namespace Queue
open Py
variable {α : Type u} {lt : α → α → Bool}

theorem step_allowed (O : StrictWeak lt) (h : List α) (hh : Heap lt 0 h) (op : Op α) :
    Heap lt 0 (step lt h op).1 ∧ Allowed lt (h : Multiset α) op (step lt h op).2 ((step lt h op).1 : Multiset α) := by
  cases op with
  | peek =>
    refine ⟨hh, ?_⟩
    cases h with
    | nil => exact Allowed.peekEmpty
    | cons x rest => exact Allowed.peek ⟨by simp, fun y hy => heap_least O hh y (by simpa using hy)⟩
  | isEmpty =>
    refine ⟨hh, Allowed.isEmpty ?_⟩
    rw [List.isEmpty_iff, Multiset.coe_eq_zero]
  | len =>
    refine ⟨hh, ?_⟩
    have := Allowed.len (lt := lt) (m := (h : Multiset α))
    rwa [Multiset.coe_card] at this
  | pop =>
    unfold step
    cases e : heappop lt h with
    | none =>
      have := (heappop_none lt).1 e
      subst this
      exact ⟨hh, Allowed.popEmpty⟩
    | some r =>
      obtain ⟨x, h'⟩ := r
      dsimp only
      obtain ⟨hh', rest, hrest⟩ := heappop_heap O hh e
      have hp := heappop_perm lt e
      have hm : (h : Multiset α) = x ::ₘ (h' : Multiset α) := by
        rw [Multiset.cons_coe]; exact (Multiset.coe_eq_coe.2 hp).symm
      refine ⟨hh', ?_⟩
      rw [hm]
      refine Allowed.pop ⟨by simp, fun y hy => ?_⟩
      rw [← hm] at hy
      exact heap_least O (hrest ▸ hh) y (by rw [← hrest]; simpa using hy)
  | push x =>
    refine ⟨heappush_heap O hh x, ?_⟩
    have : ((step lt h (.push x)).1 : Multiset α) = x ::ₘ (h : Multiset α) := by
      rw [Multiset.cons_coe]; exact Multiset.coe_eq_coe.2 (heappush_perm lt h x)
    rw [this]
    exact Allowed.push
  | replace x =>
    cases h with
    | nil => exact ⟨hh, Allowed.replaceEmpty⟩
    | cons y rest =>
      refine ⟨siftup_heap O _ 0 (heap_replaceHead hh), ?_⟩
      have : ((step lt (y :: rest) (.replace x)).1 : Multiset α) = x ::ₘ (rest : Multiset α) := by
        rw [Multiset.cons_coe]; exact Multiset.coe_eq_coe.2 (siftup_perm lt (x :: rest) 0)
      rw [this]
      have hr : (step lt (y :: rest) (.replace x)).2 = .val y := rfl
      rw [hr, ← Multiset.cons_coe]
      exact Allowed.replace ⟨by simp, fun z hz => heap_least O hh z (by simpa using hz)⟩
  | pushpop x =>
    have hp := heappushpop_perm lt h x
    have hm : x ::ₘ (h : Multiset α) = (heappushpop lt h x).1 ::ₘ ((heappushpop lt h x).2 : Multiset α) := by
      rw [Multiset.cons_coe, Multiset.cons_coe]; exact (Multiset.coe_eq_coe.2 hp).symm
    unfold step
    dsimp only
    have irr : ∀ a, lt a a = false := by
      intro a
      by_contra hc
      have hc : lt a a = true := by simpa using hc
      have := O.asymm _ _ hc
      rw [hc] at this; simp at this
    refine ⟨?_, Allowed.pushpop hm ⟨by simp, fun z hz => ?_⟩⟩
    · unfold heappushpop
      cases h with
      | nil => exact hh
      | cons t rest =>
        dsimp only
        split
        · exact siftup_heap O _ 0 (heap_replaceHead hh)
        · exact hh
    · rw [← hm] at hz
      have hz : z = x ∨ z ∈ h := by simpa using hz
      unfold heappushpop
      cases h with
      | nil =>
        rcases hz with rfl | hz
        · exact irr _
        · simp at hz
      | cons t rest =>
        dsimp only
        by_cases ht : lt t x = true
        · rw [if_pos ht]
          rcases hz with rfl | hz
          · exact O.asymm _ _ ht
          · exact heap_least O hh z hz
        · rw [if_neg ht]
          have ht : lt t x = false := by simpa using ht
          rcases hz with rfl | hz
          · exact irr _
          · exact O.ntrans x t z ht (heap_least O hh z hz)

theorem run_allowed (O : StrictWeak lt) (ops : List (Op α)) : ∀ (h : List α), Heap lt 0 h →
    AllowedRun lt (h : Multiset α) ops (run lt h ops).2 ((run lt h ops).1 : Multiset α) := by
  induction ops with
  | nil => intro h _; exact AllowedRun.nil
  | cons op ops ih =>
    intro h hh
    obtain ⟨h1, h2⟩ := step_allowed O h hh op
    exact AllowedRun.cons h2 (ih _ h1)

/-- **C08**: for every initial list and every history of operations, the results are those of a multiset
from which least elements are taken: the multiset starts as the given items, `pop` removes and returns a
least element and raises `Empty` exactly on the empty multiset, and so on (see `Allowed`). -/
theorem C08_queue (O : StrictWeak lt) (items : List α) (ops : List (Op α)) :
    AllowedRun lt (items : Multiset α) ops (run lt (init lt items) ops).2
      ((run lt (init lt items) ops).1 : Multiset α) := by
  have := run_allowed O ops (init lt items) (heapify_heap O items)
  rwa [show ((init lt items : List α) : Multiset α) = (items : Multiset α) from
    Multiset.coe_eq_coe.2 (heapify_perm lt items)] at this

/-- **C08**, without any assumption on the comparison (it may be inconsistent, as the keys' `<` is):
nothing is ever lost or duplicated, and `pop` raises `Empty` only on an empty queue. -/
theorem C08_contents (lt : α → α → Bool) (h : List α) :
    (init lt h).Perm h ∧
    (∀ x, (step lt h (.push x)).1.Perm (x :: h)) ∧
    (∀ x, ∃ y, (step lt h (.pushpop x)).2 = .val y ∧ (y :: (step lt h (.pushpop x)).1).Perm (x :: h)) ∧
    (h = [] → step lt h .pop = ([], .err .empty)) ∧
    (h ≠ [] → ∃ y, (step lt h .pop).2 = .val y ∧ (y :: (step lt h .pop).1).Perm h) := by
  refine ⟨heapify_perm lt h, heappush_perm lt h, fun x => ⟨_, rfl, heappushpop_perm lt h x⟩, ?_, ?_⟩
  · rintro rfl; rfl
  · intro hne
    unfold step
    cases e : heappop lt h with
    | none => exact absurd ((heappop_none lt).1 e) hne
    | some r => exact ⟨r.1, rfl, heappop_perm lt e⟩

def natLt (a b : Nat) : Bool := decide (a < b)

theorem natLt_strictWeak : StrictWeak natLt :=
  ⟨fun a b h => by simp [natLt] at *; omega, fun a b c h1 h2 => by simp [natLt] at *; omega⟩

/-- A history with ties, an error and every operation. -/
example : StrictWeak natLt ∧
    (run natLt (init natLt [5, 3, 8, 3]) [.pop, .push 4, .pushpop 1, .pushpop 9, .replace 2, .peek, .len,
      .pop, .pop, .pop, .pop, .pop]).2 =
    [.val 3, .unit, .val 1, .val 3, .val 4, .val 2, .nat 4, .val 2, .val 5, .val 8, .val 9, .err .empty] :=
  ⟨natLt_strictWeak, by decide +kernel⟩

/-- Pop until `Empty`, collecting the results. -/
def drain (lt : α → α → Bool) (h : List α) : List α :=
  match e : heappop lt h with
  | none => []
  | some (x, h') => x :: drain lt h'
termination_by h.length
decreasing_by
  have := (heappop_perm lt e).length_eq
  simp only [List.length_cons] at this
  omega

/-- **C09**: popping a freshly built queue until it is empty gives a sorted permutation of the items. -/
theorem C09_drain_sorted (O : StrictWeak lt) (items : List α) :
    (drain lt (init lt items)).Perm items ∧
    (drain lt (init lt items)).Pairwise (fun a b => lt b a = false) := by
  have key : ∀ (n : Nat) (h : List α), h.length = n → Heap lt 0 h →
      (drain lt h).Perm h ∧ (drain lt h).Pairwise (fun a b => lt b a = false) := by
    intro n
    induction n using Nat.strong_induction_on with
    | _ n ih =>
      intro h hn hh
      unfold drain
      split
      · rename_i e
        have := (heappop_none lt).1 e
        subst this
        simp
      · rename_i x h' e
        obtain ⟨hh', rest, hrest⟩ := heappop_heap O hh e
        have hp := heappop_perm lt e
        have hl := hp.length_eq
        simp only [List.length_cons] at hl
        obtain ⟨p1, p2⟩ := ih h'.length (by omega) h' rfl hh'
        refine ⟨(p1.cons x).trans hp, List.pairwise_cons.2 ⟨fun y hy => ?_, p2⟩⟩
        have : y ∈ h := hp.mem_iff.1 (List.mem_cons_of_mem _ (p1.mem_iff.1 hy))
        rw [hrest] at hh this
        exact heap_least O hh y this
  obtain ⟨h1, h2⟩ := key _ (init lt items) rfl (heapify_heap O items)
  exact ⟨h1.trans (heapify_perm lt items), h2⟩

/-- **C10** is false of the code: the thread safe `pushpop` raises `AttributeError` on every input, while
the plain queue never does. -/
theorem C10_refuted (h : List α) (x : α) :
    (stepThreadsafe lt h (.pushpop x)).2 = .err .attributeError ∧
    ∀ op, (step lt h op).2 ≠ .err .attributeError := by
  refine ⟨rfl, ?_⟩
  intro op
  cases op with
  | peek => cases h <;> simp [step]
  | isEmpty => simp [step]
  | len => simp [step]
  | pop => unfold step; cases heappop lt h <;> simp
  | push x => simp [step]
  | replace x => cases h <;> simp [step, heapreplace]
  | pushpop x => simp [step]

/-- What remains of **C10**: histories without `pushpop` (run by one thread) give the same results.
Missing: `pushpop`, and interleavings of several threads. -/
theorem C10_partial (op : Op α) (h : List α) (hop : ∀ x, op ≠ .pushpop x) :
    stepThreadsafe lt h op = step lt h op := by
  cases op with
  | pushpop x => exact absurd rfl (hop x)
  | _ => rfl

example : ∀ x : Nat, (Op.pop : Op Nat) ≠ .pushpop x := by intro x; simp

end Queue
