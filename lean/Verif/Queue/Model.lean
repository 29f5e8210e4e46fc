import Verif.Py.Dict

/-!
# `phasor/utilities/priority_queue/heap_priority_queue.py`

`HeapPriorityQueue` (l.15-97) delegates to the standard library module `heapq`; the four library
functions are modelled after CPython's `Lib/heapq.py` (`heappush`, `heappop`, `heapreplace`,
`heappushpop`, `heapify`, `_siftdown`, `_siftup`).  The heap is the python list; `lt a b` is `a < b`.
Reads that the library code does at positions known to exist are written with `[i]?`; the `none`
branches (an `IndexError` in python) are never reached from the public operations.
-/

universe u

namespace Queue
open Py
variable {α : Type u} (lt : α → α → Bool)

/-- Loop of `heapq._siftdown(heap, startpos, pos)`: bubbles `newitem` from `pos` towards `startpos`,
leaving a hole at `pos`. -/
def siftdownLoop (newitem : α) (startpos : Nat) (h : List α) (pos : Nat) : List α :=
  if hp : pos > startpos then
    let parentpos := (pos - 1) / 2
    match h[parentpos]? with
    | none => h.set pos newitem
    | some parent =>
      if lt newitem parent then siftdownLoop newitem startpos (h.set pos parent) parentpos
      else h.set pos newitem
  else h.set pos newitem
termination_by pos
decreasing_by omega

/-- `heapq._siftdown(heap, startpos, pos)`. -/
def siftdown (h : List α) (startpos pos : Nat) : List α :=
  match h[pos]? with
  | none => h
  | some newitem => siftdownLoop lt newitem startpos h pos

/-- The child that `_siftup` moves up: the right one when it exists and the left one is not smaller. -/
def pickChild (h : List α) (childpos : Nat) : Nat :=
  match h[childpos]?, h[childpos + 1]? with
  | some l, some r => if lt l r then childpos else childpos + 1
  | _, _ => childpos

theorem pickChild_ge (h : List α) (c : Nat) : c ≤ pickChild lt h c := by
  unfold pickChild
  split
  · split <;> omega
  · omega

/-- Loop of `heapq._siftup(heap, pos)`: moves the smaller child up until a leaf is reached.  Returns the
list with the hole and the position of the hole. -/
def siftupLoop (h : List α) (pos : Nat) : List α × Nat :=
  let childpos := 2 * pos + 1
  if hp : childpos < h.length then
    let c := pickChild lt h childpos
    match h[c]? with
    | none => (h, pos)
    | some v => siftupLoop (h.set pos v) c
  else (h, pos)
termination_by h.length - pos
decreasing_by
  have := pickChild_ge lt h (2 * pos + 1)
  simp only [List.length_set]
  omega

/-- `heapq._siftup(heap, pos)`. -/
def siftup (h : List α) (pos : Nat) : List α :=
  match h[pos]? with
  | none => h
  | some newitem =>
    let r := siftupLoop lt h pos
    siftdown lt (r.1.set r.2 newitem) pos r.2

/-- `heapq.heapify`: `for i in reversed(range(n//2)): _siftup(x, i)`. -/
def heapifyLoop : Nat → List α → List α
  | 0, h => h
  | i + 1, h => heapifyLoop i (siftup lt h i)

def heapify (h : List α) : List α := heapifyLoop lt (h.length / 2) h

/-- `heapq.heappush`. -/
def heappush (h : List α) (item : α) : List α :=
  siftdown lt (h ++ [item]) 0 h.length

/-- `heapq.heappop`; `none` is the `IndexError` of popping from an empty list. -/
def heappop (h : List α) : Option (α × List α) :=
  match h.getLast? with
  | none => none
  | some lastelt =>
    match h.dropLast with
    | [] => some (lastelt, [])
    | returnitem :: rest => some (returnitem, siftup lt (lastelt :: rest) 0)

/-- `heapq.heapreplace`; `none` is `IndexError`. -/
def heapreplace (h : List α) (item : α) : Option (α × List α) :=
  match h with
  | [] => none
  | returnitem :: rest => some (returnitem, siftup lt (item :: rest) 0)

/-- `heapq.heappushpop`. -/
def heappushpop (h : List α) (item : α) : α × List α :=
  match h with
  | [] => (item, h)
  | top :: rest => if lt top item then (top, siftup lt (item :: rest) 0) else (item, h)

/-- The operations of the queue class. -/
inductive Op (α : Type u)
  | peek | isEmpty | len | pop | push (x : α) | replace (x : α) | pushpop (x : α)

/-- What an operation gives back: a value, an exception, a truth value, a length, nothing. -/
inductive Out (α : Type u)
  | val (x : α) | err (e : Err) | bool (b : Bool) | nat (n : Nat) | unit
  deriving DecidableEq

/-- `HeapPriorityQueue.__init__`, l.37-43. -/
def init (iterable : List α) : List α := heapify lt iterable

/-- `HeapPriorityQueue`: `peek` l.45-54, `is_empty` l.56-60, `__len__` l.65-66, `pop` l.68-77 (IndexError becomes
`Empty`), `push` l.79-83, `replace` l.85-91 (IndexError when empty), `pushpop` l.93-97. -/
def step (h : List α) : Op α → List α × Out α
  | .peek => (h, match h with | [] => .err .empty | x :: _ => .val x)
  | .isEmpty => (h, .bool h.isEmpty)
  | .len => (h, .nat h.length)
  | .pop => match heappop lt h with
    | none => (h, .err .empty)
    | some (x, h') => (h', .val x)
  | .push x => (heappush lt h x, .unit)
  | .replace x => match heapreplace lt h x with
    | none => (h, .err .indexError)
    | some (y, h') => (h', .val y)
  | .pushpop x => let r := heappushpop lt h x; (r.2, .val r.1)

/-- A history of operations. -/
def run (h : List α) : List (Op α) → List α × List (Out α)
  | [] => (h, [])
  | op :: ops =>
    let r := step lt h op
    let rs := run r.1 ops
    (rs.1, r.2 :: rs.2)

/-- `HeapPriorityQueueThreadsafe`, l.100-182, run by a single thread: the same operations, except that
`pushpop` (l.176-181) looks up `heapq.pushpop`, which does not exist. -/
def stepThreadsafe (h : List α) : Op α → List α × Out α
  | .pushpop _ => (h, .err .attributeError)
  | op => step lt h op

end Queue
