/-!
# Model of intrusive lists

`jlm/util/intrusive-list.hpp`: doubly linked lists whose links are fields of the elements. The users of an output, the nodes of a
region, its top and bottom nodes, and the arguments and results of structural inputs and outputs are such lists.

Elements are pointers; `Option α` is a pointer that may be null. All lists that use the same anchor share one heap, so an operation
on one list could damage another one.

*Simplifications.* Iterators are the element they point to (`Iterator::element_`); the pointer to the list that they also have is
an argument of the functions.
-/

namespace Jlm.Util.IL

variable {α : Type} [DecidableEq α]

/-- The anchors (`IntrusiveListAnchor`, hpp:578-584) of all elements. -/
structure Heap (α : Type) where
  prev : α → Option α
  next : α → Option α

/-- `set_prev` (hpp:596-600) -/
def Heap.setPrev (h : Heap α) (x : α) (v : Option α) : Heap α := { h with prev := fun y => if y = x then v else h.prev y }

/-- `set_next` (hpp:608-612) -/
def Heap.setNext (h : Heap α) (x : α) (v : Option α) : Heap α := { h with next := fun y => if y = x then v else h.next y }

/-- The members of `IntrusiveList` (hpp:571-573). -/
structure Lst (α : Type) where
  first : Option α
  last : Option α

/-- Default constructor (hpp:293-296) and `clear` (hpp:309-314). -/
def Lst.nil : Lst α := ⟨none, none⟩

/-- A list with the heap. -/
abbrev Pair (α : Type) := Heap α × Lst α

/-- `push_back` (hpp:323-337) -/
def pushBack (p : Pair α) (x : α) : Pair α :=
  let h := (p.1.setPrev x p.2.last).setNext x none
  match p.2.last with
  | some y => (h.setNext y (some x), { p.2 with last := some x })
  | none => (h, { first := some x, last := some x })

/-- `push_front` (hpp:339-353) -/
def pushFront (p : Pair α) (x : α) : Pair α :=
  let h := (p.1.setPrev x none).setNext x p.2.first
  match p.2.first with
  | some y => (h.setPrev y (some x), { p.2 with first := some x })
  | none => (h, { first := some x, last := some x })

/-- `prev` of an iterator position: `next ? get_prev(next) : last_` (hpp:359, 472). -/
def before (p : Pair α) : Option α → Option α
  | some y => p.1.prev y
  | none => p.2.last

/-- `if (prev) set_next(prev, v) else first_ = v` -/
def setNextOrFirst (p : Pair α) (u v : Option α) : Pair α :=
  match u with
  | some y => (p.1.setNext y v, p.2)
  | none => (p.1, { p.2 with first := v })

/-- `if (next) set_prev(next, v) else last_ = v` -/
def setPrevOrLast (p : Pair α) (u v : Option α) : Pair α :=
  match u with
  | some y => (p.1.setPrev y v, p.2)
  | none => (p.1, { p.2 with last := v })

/-- `insert` (hpp:355-379) before the position `i` -/
def insert (p : Pair α) (i : Option α) (x : α) : Pair α :=
  let pv := before p i
  let p := ((p.1.setPrev x pv).setNext x i, p.2)
  setPrevOrLast (setNextOrFirst p pv (some x)) i (some x)

/-- `erase` (hpp:381-402) -/
def erase (p : Pair α) (x : α) : Pair α :=
  let pv := p.1.prev x
  let nx := p.1.next x
  setPrevOrLast (setNextOrFirst p pv nx) nx pv

/-- The loop of `erase(begin, end)` (hpp:413-422), at most `n` times. -/
def eraseRange : Nat → Pair α → Option α → Option α → Pair α
  | 0, p, _, _ => p
  | n + 1, p, b, e =>
    if b = e then p
    else
      match b with
      | none => p
      | some x => eraseRange n (erase p x) (p.1.next x) e

/-- The first half of `splice` (hpp:450-467): the elements from `first` up to (not including) `after` leave the list. -/
def unlink (p : Pair α) (first : α) (after : Option α) : Pair α :=
  let bf := p.1.prev first
  setPrevOrLast (setNextOrFirst p bf after) after bf

/-- The second half of `splice` (hpp:469-489): the elements from `first` to `last` are inserted before `pos`. -/
def link (p : Pair α) (pos : Option α) (first last : α) : Pair α :=
  let dp := before p pos
  let p := ((p.1.setPrev first dp).setNext last pos, p.2)
  setPrevOrLast (setNextOrFirst p dp (some first)) pos (some last)

/-- `operator++` (hpp:118-123) -/
def succ (p : Pair α) : Option α → Option α
  | some x => p.1.next x
  | none => none

/-- `operator--` (hpp:133-145) -/
def pred (p : Pair α) : Option α → Option α
  | some x => p.1.prev x
  | none => p.2.last

/-- What a loop `for (i = b; i != end(); ++i)` sees, at most `n` elements. -/
def walk (p : Pair α) : Nat → Option α → List α
  | 0, _ => []
  | _ + 1, none => []
  | n + 1, some x => x :: walk p n (succ p (some x))

/-- What a loop that starts at `end()` and goes backwards to the first element sees, at most `n` elements. -/
def walkBack (p : Pair α) : Nat → Option α → List α
  | 0, _ => []
  | n + 1, i =>
    match pred p i with
    | none => []
    | some x => x :: walkBack p n (some x)

/-- `size` (hpp:492-501), at most `n` iterations -/
def size (p : Pair α) (n : Nat) : Nat := (walk p n p.2.first).length

/-! ## Several lists -/

/-- All lists with the same anchor. -/
structure State (α : Type) where
  heap : Heap α
  lists : Nat → Lst α

def State.get (s : State α) (k : Nat) : Pair α := (s.heap, s.lists k)

def State.set (s : State α) (k : Nat) (p : Pair α) : State α := ⟨p.1, fun j => if j = k then p.2 else s.lists j⟩

/-- The operations. -/
inductive Op (α : Type)
  | pushBack (k : Nat) (x : α)
  | pushFront (k : Nat) (x : α)
  | insert (k : Nat) (i : Option α) (x : α)
  | erase (k : Nat) (x : α)
  /-- `splice(position, other, begin, end)` (hpp:438-490) into the list `k` from the list `j` -/
  | splice (k : Nat) (pos : Option α) (j : Nat) (b e : Option α)
  | clear (k : Nat)
  /-- `swap` (hpp:316-321), also the move constructor (hpp:303-307) -/
  | swap (k j : Nat)

/-- Execution of one operation. -/
def State.exec (s : State α) : Op α → State α
  | .pushBack k x => s.set k (IL.pushBack (s.get k) x)
  | .pushFront k x => s.set k (IL.pushFront (s.get k) x)
  | .insert k i x => s.set k (IL.insert (s.get k) i x)
  | .erase k x => s.set k (IL.erase (s.get k) x)
  | .splice k pos j b e =>
    if b = e then s
    else
      match b with
      | none => s
      | some first =>
        match before (s.get j) e with
        | none => s
        | some last =>
          let s := s.set j (unlink (s.get j) first e)
          s.set k (link (s.get k) pos first last)
  | .clear k => s.set k (s.heap, Lst.nil)
  | .swap k j => ⟨s.heap, fun i => if i = k then s.lists j else if i = j then s.lists k else s.lists i⟩

/-- A history. -/
def State.run (s : State α) (ops : List (Op α)) : State α := ops.foldl State.exec s

end Jlm.Util.IL
