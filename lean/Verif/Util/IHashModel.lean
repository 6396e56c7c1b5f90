import Verif.Util.IListModel

/-!
# Model of intrusive hash tables

`jlm/util/intrusive-hash.hpp`: hash tables whose links are fields of the elements. Every bucket is a doubly linked list; all the tables that
use the same anchor share one heap.

*Simplifications.* `size_t` does not overflow. Iterators are the element they point to, the table is an argument of the functions. Loops
have a bound; `none` is the result of a loop that exceeds it, and of an access out of the bounds of the vector of buckets. The constant
iterators do not compile (finding 75), and `OwnerIntrusiveHash` does not either.
-/

namespace Jlm.Util.IH

open IL (Heap Lst)

variable {α κ : Type} [DecidableEq α]

/-- The template parameters: `Accessor::get_key`, `KeyHash`, `KeyEqual`. Keys do not change while elements are linked (hpp:67). -/
structure Keys (α κ : Type) where
  key : α → κ
  hash : κ → Nat
  eq : κ → κ → Bool

/-- The members of `IntrusiveHash` (hpp:504-506). -/
structure Table (α : Type) where
  size : Nat
  mask : Nat
  buckets : List (Lst α)

/-- The constructor (hpp:331-334). -/
def Table.nil : Table α := ⟨0, 0, []⟩

/-- The heap and some buckets. -/
abbrev Bs (α : Type) := Heap α × List (Lst α)

/-- The bucket of an element, `hash_(accessor_.get_key(element)) & mask`. -/
def Keys.idx (K : Keys α κ) (mask : Nat) (x : α) : Nat := K.hash (K.key x) &&& mask

/-- `private_insert_into` (hpp:508-526); after the computation of the index it has the statements of `IntrusiveList::push_back`. -/
def insertInto (K : Keys α κ) (p : Bs α) (mask : Nat) (x : α) : Option (Bs α) :=
  match p.2[K.idx mask x]? with
  | none => none
  | some b =>
    let q := IL.pushBack (p.1, b) x
    some (q.1, p.2.set (K.idx mask x) q.2)

/-- The inner loop of `rehash` (hpp:538-543). -/
def moveBucket (K : Keys α κ) (mask : Nat) : Nat → Bs α → Option α → Option (Bs α)
  | _, p, none => some p
  | 0, _, some _ => none
  | n + 1, p, some x =>
    match insertInto K p mask x with
    | none => none
    | some q => moveBucket K mask n q (p.1.next x)

/-- The outer loop of `rehash` (hpp:535-544). -/
def moveAll (K : Keys α κ) (mask n : Nat) : List (Lst α) → Bs α → Option (Bs α)
  | [], p => some p
  | b :: bs, p =>
    match moveBucket K mask n p b.first with
    | none => none
    | some q => moveAll K mask n bs q

/-- `rehash` (hpp:528-548) -/
def rehash (K : Keys α κ) (h : Heap α) (t : Table α) : Option (Heap α × Table α) :=
  let len := max 1 (t.buckets.length * 2)
  match moveAll K (len - 1) t.size t.buckets (h, List.replicate len Lst.nil) with
  | none => none
  | some q => some (q.1, ⟨t.size, len - 1, q.2⟩)

/-- `insert` (hpp:368-379) -/
def insert (K : Keys α κ) (h : Heap α) (t : Table α) (x : α) : Option (Heap α × Table α) :=
  let t := { t with size := t.size + 1 }
  match (if t.size > t.buckets.length then rehash K h t else some (h, t)) with
  | none => none
  | some (h, t) =>
    match insertInto K (h, t.buckets) t.mask x with
    | none => none
    | some q => some (q.1, { t with buckets := q.2 })

/-- `erase(ElementType *)` (hpp:381-405); after the computation of the index it has the statements of `IntrusiveList::erase`. -/
def erase (K : Keys α κ) (h : Heap α) (t : Table α) (x : α) : Option (Heap α × Table α) :=
  match t.buckets[K.idx t.mask x]? with
  | none => none
  | some b =>
    let q := IL.erase (h, b) x
    some (q.1, ⟨t.size - 1, t.mask, t.buckets.set (K.idx t.mask x) q.2⟩)

/-- The loop of `lookup` (hpp:559-563) -/
def chain (K : Keys α κ) (h : Heap α) (k : κ) : Nat → Option α → Option (Option α)
  | _, none => some none
  | 0, some _ => none
  | n + 1, some x => if K.eq k (K.key x) then some (some x) else chain K h k n (h.next x)

/-- `lookup` (hpp:550-566), `find` (hpp:477-487); `some none` is `end()`. -/
def lookup (K : Keys α κ) (h : Heap α) (t : Table α) (k : κ) : Option (Option α) :=
  if t.size = 0 then some none
  else
    match t.buckets[K.hash k &&& t.mask]? with
    | none => none
    | some b => chain K h k t.size b.first

/-- `erase(const KeyType &)` (hpp:413-421) -/
def eraseKey (K : Keys α κ) (h : Heap α) (t : Table α) (k : κ) : Option (Heap α × Table α) :=
  match lookup K h t k with
  | none => none
  | some none => some (h, t)
  | some (some x) => erase K h t x

/-- `clear` (hpp:357-366): the size is set in the loop. -/
def Table.clear (t : Table α) : Table α := ⟨if t.buckets.isEmpty then t.size else 0, t.mask, t.buckets.map fun _ => Lst.nil⟩

/-- `first_object` (hpp:490-502), `begin` (hpp:446-450) -/
def Table.begin (t : Table α) : Option α := t.buckets.findSome? (·.first)

/-- `operator++` (hpp:171-187) -/
def next (K : Keys α κ) (h : Heap α) (t : Table α) (x : α) : Option α :=
  match h.next x with
  | some y => some y
  | none => (t.buckets.drop (K.idx t.mask x + 1)).findSome? (·.first)

/-- What a loop `for (i = b; i != end(); ++i)` sees, at most `n` elements. -/
def walk (K : Keys α κ) (h : Heap α) (t : Table α) : Nat → Option α → List α
  | 0, _ => []
  | _ + 1, none => []
  | n + 1, some x => x :: walk K h t n (next K h t x)

/-- `erase(Iterator, Iterator)` (hpp:423-432), at most `n` iterations -/
def eraseRange (K : Keys α κ) : Nat → Heap α → Table α → Option α → Option α → Option (Heap α × Table α)
  | 0, _, _, _, _ => none
  | n + 1, h, t, b, e =>
    if b = e then some (h, t)
    else
      match b with
      | none => none
      | some x =>
        match erase K h t x with
        | none => none
        | some (h', t') => eraseRange K n h' t' (next K h t x) e

/-! ## Several tables -/

/-- All the tables with the same anchor. -/
structure State (α : Type) where
  heap : Heap α
  tabs : Nat → Table α

def State.set (s : State α) (k : Nat) (p : Heap α × Table α) : State α := ⟨p.1, fun j => if j = k then p.2 else s.tabs j⟩

/-- The operations. -/
inductive Op (α κ : Type)
  | insert (k : Nat) (x : α)
  | erase (k : Nat) (x : α)
  | eraseKey (k : Nat) (key : κ)
  | clear (k : Nat)
  /-- `swap` (hpp:349-355), also the move constructor (hpp:341-345) -/
  | swap (k j : Nat)

/-- Execution of one operation. -/
def State.exec (K : Keys α κ) (s : State α) : Op α κ → Option (State α)
  | .insert k x => (IH.insert K s.heap (s.tabs k) x).map (s.set k)
  | .erase k x => (IH.erase K s.heap (s.tabs k) x).map (s.set k)
  | .eraseKey k key => (IH.eraseKey K s.heap (s.tabs k) key).map (s.set k)
  | .clear k => some (s.set k (s.heap, (s.tabs k).clear))
  | .swap k j => some ⟨s.heap, fun i => if i = k then s.tabs j else if i = j then s.tabs k else s.tabs i⟩

/-- A history. -/
def State.run (K : Keys α κ) : State α → List (Op α κ) → Option (State α)
  | s, [] => some s
  | s, op :: ops => (s.exec K op).bind fun s => s.run K ops

/-- All the tables have just been constructed. -/
def State.empty (h : Heap α) : State α := ⟨h, fun _ => Table.nil⟩

end Jlm.Util.IH
