import Verif.Util.HashSetModel
import Mathlib.Data.Prod.Lex
import Mathlib.Data.List.Sort
/-
Model of jlm/util/Worklist.hpp: the four worklists and the workset.

`std::stack`/`std::queue`/`std::vector` are lists; a `std::priority_queue` is a list kept sorted;
`std::sort` is insertion sort (the keys are pairwise different, so the order is determined).
`std::unordered_map<T, size_t>` with `operator[]` is a total function with default 0.
`PopWorkItem` on an empty worklist (a failed `JLM_ASSERT`) is `none`.
-/
namespace Jlm.Util.Worklist

open Jlm.Util

variable {α : Type}

/-- The `Worklist<T>` interface, Worklist.hpp:26-65. -/
structure WL (α : Type) where
  σ : Type
  init : σ
  hasMore : σ → Bool
  pop : σ → Option (α × σ)
  push : σ → α → σ

/-- members of `LifoWorklist`, Worklist.hpp:104-110, and `FifoWorklist`, 149-155;
the top of the stack / front of the queue is the head -/
structure SeqState (α : Type) where
  onList : List α
  items : List α

/-- `LifoWorklist`, Worklist.hpp:73-110 -/
def lifo [DecidableEq α] : WL α where
  σ := SeqState α
  init := ⟨[], []⟩
  hasMore s := !s.items.isEmpty
  pop s := match s.items with
    | [] => none
    | x :: xs => some (x, ⟨(HashSet.remove s.onList x).1, xs⟩)
  push s x :=
    let r := HashSet.insert s.onList x
    if r.2 then ⟨r.1, x :: s.items⟩ else ⟨r.1, s.items⟩

/-- `FifoWorklist`, Worklist.hpp:118-155 -/
def fifo [DecidableEq α] : WL α where
  σ := SeqState α
  init := ⟨[], []⟩
  hasMore s := !s.items.isEmpty
  pop s := match s.items with
    | [] => none
    | x :: xs => some (x, ⟨(HashSet.remove s.onList x).1, xs⟩)
  push s x :=
    let r := HashSet.insert s.onList x
    if r.2 then ⟨r.1, s.items ++ [x]⟩ else ⟨r.1, s.items⟩

/-- `InQueueSentinelValue`, Worklist.hpp:207, 280: the largest `size_t` -/
def sentinel : Nat := 2 ^ 64 - 1

/-- members of `LrfWorklist`, Worklist.hpp:205-222. `FireCounter_` is a natural number; the
theorems are about histories with fewer than 2^64 - 1 pops. -/
structure LrfState (α : Type) where
  items : List (Nat ×ₗ α)
  fireCounter : Nat
  lastFire : α → Nat

/-- `LrfWorklist::PushWorkItem`, Worklist.hpp:193-203 -/
def lrfPush [LinearOrder α] (s : LrfState α) (x : α) : LrfState α :=
  if s.lastFire x = sentinel then s
  else ⟨s.items.orderedInsert (· ≤ ·) (toLex (s.lastFire x, x)), s.fireCounter,
        Function.update s.lastFire x sentinel⟩

/-- `LrfWorklist`, Worklist.hpp:168-222 -/
def lrf [LinearOrder α] : WL α where
  σ := LrfState α
  init := ⟨[], 0, fun _ => 0⟩
  hasMore s := !s.items.isEmpty
  pop s := match s.items with
    | [] => none
    | p :: ps =>
      let item := (ofLex p).2
      some (item, ⟨ps, s.fireCounter + 1, Function.update s.lastFire item (s.fireCounter + 1)⟩)
  push := lrfPush

/-- members of `TwoPhaseLrfWorklist`, Worklist.hpp:278-295; `current` lists `Current_` from the
back, `next` lists `Next_` from the back as well -/
structure TwoState (α : Type) where
  current : List (Nat ×ₗ α)
  next : List (Nat ×ₗ α)
  fireCounter : Nat
  lastFire : α → Nat

/-- the phase switch in `PopWorkItem`, Worklist.hpp:252-257 -/
def TwoState.switch [LinearOrder α] (s : TwoState α) : TwoState α :=
  if s.current.isEmpty then ⟨s.next.insertionSort (· ≤ ·), [], s.fireCounter, s.lastFire⟩ else s

/-- `TwoPhaseLrfWorklist::PushWorkItem`, Worklist.hpp:266-276 -/
def twoPush [LinearOrder α] (s : TwoState α) (x : α) : TwoState α :=
  if s.lastFire x = sentinel then s
  else ⟨s.current, toLex (s.lastFire x, x) :: s.next, s.fireCounter,
        Function.update s.lastFire x sentinel⟩

/-- `TwoPhaseLrfWorklist`, Worklist.hpp:235-295 -/
def twoPhaseLrf [LinearOrder α] : WL α where
  σ := TwoState α
  init := ⟨[], [], 0, fun _ => 0⟩
  hasMore s := !s.current.isEmpty || !s.next.isEmpty
  pop s :=
    let s := s.switch
    match s.current with
    | [] => none
    | p :: ps =>
      let item := (ofLex p).2
      some (item, ⟨ps, s.next, s.fireCounter + 1,
        Function.update s.lastFire item (s.fireCounter + 1)⟩)
  push := twoPush

/-- Operations on a `Workset`, Worklist.hpp:305-345 -/
inductive SetOp (α : Type) where
  | push (x : α)
  | remove (x : α)

/-- `PushWorkItem`, `RemoveWorkItem` of `Workset`, Worklist.hpp:325-341 -/
def worksetStep [DecidableEq α] (s : List α) : SetOp α → List α
  | .push x => (HashSet.insert s x).1
  | .remove x => (HashSet.remove s x).1

/-- `HasWorkItem`, Worklist.hpp:331-335 -/
def worksetHas [DecidableEq α] (s : List α) (x : α) : Bool := HashSet.contains s x
/-- `HasMoreWorkItems` of `Workset`, Worklist.hpp:313-317 -/
def worksetHasMore (s : List α) : Bool := !HashSet.isEmpty s

end Jlm.Util.Worklist
