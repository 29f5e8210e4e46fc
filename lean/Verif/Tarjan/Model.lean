import Verif.Py.Dict

/-!
# `phasor/math/key_matrix/keymatrix_reduce_tarjan.py`

`topological_sort` is a generator; the model computes the list of what it yields, together with how it ends.

Simplifications
* the successors of a node are a fixed list (`successor_func` yields the same nodes in the same order whenever asked);
* an iterator is the list of what it has left; both stacks have their top first.
-/

namespace Tarjan
open Py

variable {N : Type} [DecidableEq N]

/-- How the generator can fail: `SCCError` with its component, `IndexError` on an empty stack, a failed assertion, a missing
dictionary key.  `fuel` is not python: the model ran out of turns. -/
inductive Exc (N : Type)
  | scc (component : List N)
  | index
  | assertion
  | key
  | fuel
  deriving DecidableEq, Repr

/-- What is yielded: a node (`single`), or a tuple of nodes. -/
inductive Item (N : Type)
  | node (n : N)
  | comp (ns : List N)
  deriving DecidableEq, Repr

/-- l.45-49, and what was yielded so far. -/
structure St (N : Type) where
  counter : Int
  low : Dict N Int
  idx : Dict N Int
  stack : List N
  iters : List (List N)
  out : List (Item N)
  deriving DecidableEq, Repr

/-- The state before the first node. -/
def St.start : St N := ⟨1, [], [], [], [], []⟩

/-- `d[k]`. -/
def look (d : Dict N Int) (n : N) : Except (Exc N) Int :=
  match Dict.get? d n with
  | some x => .ok x
  | none => .error .key

/-- `insert_node`, l.55-62. -/
def insertNode (succ : N → List N) (node : N) (st : St N) : St N where
  stack := node :: st.stack
  iters := succ node :: st.iters
  idx := Dict.set st.idx node st.counter
  low := Dict.set st.low node st.counter
  counter := st.counter + 1
  out := st.out

/-- The loop l.69-77: the lowlinks, and the successor to insert with the rest of the iterator (`none` when the iterator ran
out). -/
def scan (node : N) : List N → Dict N Int → Except (Exc N) (Dict N Int × Option (N × List N))
  | [], low => .ok (low, none)
  | s :: rest, low =>
    match Dict.get? low s with
    | none => .ok (low, some (s, rest))
    | some ll =>
      if ll < 0 then scan node rest low
      else
        match look low node with
        | .error e => .error e
        | .ok l => scan node rest (Dict.set low node (min l ll))

/-- The loop l.102-108: stack, lowlinks, component, and whether the loop was left by `break`. -/
def popComp (idx : Dict N Int) : List N → Dict N Int → List N → Except (Exc N) (List N × Dict N Int × List N × Bool)
  | [], low, component => .ok ([], low, component, false)
  | nd :: stack, low, component =>
    match look low nd with
    | .error e => .error e
    | .ok l =>
      if ¬ 0 < l then .error .assertion
      else
        match look idx nd with
        | .error e => .error e
        | .ok i =>
          if - -l = i then .ok (stack, Dict.set low nd (-l), component ++ [nd], true)
          else popComp idx stack (Dict.set low nd (-l)) (component ++ [nd])

/-- `node` or `(node,)`, l.91-94 and l.123-126. -/
def item (single : Bool) (n : N) : Item N := if single then .node n else .comp [n]

/-- l.81-126, after the iterator of the top node ran out; `node`, `stack`, `iters` are what the pops l.82-83 give.  The second
component tells whether the loop l.67 is left. -/
def exhausted (single : Bool) (node : N) (stack : List N) (iters : List (List N)) (st : St N) :
    Except (Exc N) (St N × Bool) :=
  match look st.low node with
  | .error e => .error e
  | .ok l =>
    let low := Dict.set st.low node (min l l)                  -- l.85, `child_node` is `node`
    let l := min l l
    match stack with
    | [] =>
      if ¬ 0 < l then .error .assertion
      else .ok ({ st with low := Dict.set low node (-l), stack := [], iters := iters, out := st.out ++ [item single node] }, true)
    | _ :: _ =>
      match look st.idx node with
      | .error e => .error e
      | .ok i =>
        if l < i then
          if ¬ 0 < l then .error .assertion
          else
            match popComp st.idx stack (Dict.set low node (-l)) [node] with
            | .error e => .error e
            | .ok (stack', low', component, hit) =>
              if hit then
                if single then .error (.scc component)
                else .ok ({ st with low := low', stack := stack', iters := iters, out := st.out ++ [.comp component] }, false)
              else .ok ({ st with low := low', stack := stack', iters := iters, out := st.out ++ [.comp component] }, true)
        else if l = i then
          if ¬ 0 < l then .error .assertion
          else .ok ({ st with low := Dict.set low node (-l), stack := stack, iters := iters, out := st.out ++ [item single node] }, false)
        else .ok ({ st with low := low, stack := stack, iters := iters }, false)

/-- One turn of the loop l.67-126.  Nothing is yielded in a turn that raises. -/
def body (succ : N → List N) (single : Bool) (st : St N) : Except (Exc N) (St N × Bool) :=
  match st.stack, st.iters with
  | [], _ => .error .index
  | _ :: _, [] => .error .index
  | node :: stack, it :: iters =>
    match scan node it st.low with
    | .error e => .error e
    | .ok (low, some (s, rest)) => .ok (insertNode succ s { st with low := low, iters := rest :: iters }, false)
    | .ok (low, none) => exhausted single node stack iters { st with low := low }

/-- The loop l.67. -/
def loop (succ : N → List N) (single : Bool) : Nat → St N → St N × Except (Exc N) Unit
  | 0, st => (st, .error .fuel)
  | fuel + 1, st =>
    match body succ single st with
    | .error e => (st, .error e)
    | .ok (st, true) => (st, .ok ())
    | .ok (st, false) => loop succ single fuel st

/-- `strongconnect`, l.51-126. -/
def strongconnect (succ : N → List N) (single : Bool) (fuel : Nat) (node : N) (st : St N) : St N × Except (Exc N) Unit :=
  if Dict.has st.low node then (st, .ok ()) else loop succ single fuel (insertNode succ node st)

/-- The loop l.128-130. -/
def sortLoop (succ : N → List N) (single : Bool) (fuel : Nat) : List N → St N → St N × Except (Exc N) Unit
  | [], st => (st, .ok ())
  | node :: nodes, st =>
    match strongconnect succ single fuel node st with
    | (st, .error e) => (st, .error e)
    | (st, .ok ()) => sortLoop succ single fuel nodes st

/-- `topological_sort`, l.32-131: what is yielded, and how it ends.  `fuel` bounds the turns of each loop l.67. -/
def topological_sort (fuel : Nat) (nodes : List N) (succ : N → List N) (single : Bool) : List (Item N) × Except (Exc N) Unit :=
  let r := sortLoop succ single fuel nodes St.start
  (r.1.out, r.2)

/-- `topological_sort_dict`, l.133-139. -/
def topological_sort_dict (fuel : Nat) (graph : Dict N (List N)) : List (Item N) × Except (Exc N) Unit :=
  topological_sort fuel (Dict.keys graph) (fun k => (Dict.get? graph k).getD []) true

end Tarjan
