/-
Model of jlm/util/HashSet.hpp.

`std::unordered_set` is a duplicate-free list in some order (an arbitrary one: the theorems only
speak about membership, size and results). Copying of items and hashing are not modelled.
-/
namespace Jlm.Util.HashSet

variable {α : Type} [DecidableEq α]

/-- `Contains`, HashSet.hpp:149-153 -/
def contains (s : List α) (x : α) : Bool := s.contains x

/-- `Size`, HashSet.hpp:186-190 -/
def size (s : List α) : Nat := s.length

/-- `IsEmpty`, HashSet.hpp:197-201 -/
def isEmpty (s : List α) : Bool := size s == 0

/-- `insert`, HashSet.hpp:209-215: emplace, then compare sizes -/
def insert (s : List α) (x : α) : List α × Bool :=
  let s' := if s.contains x then s else x :: s
  (s', size s != size s')

/-- `Remove`, HashSet.hpp:331-335 -/
def remove (s : List α) (x : α) : List α × Bool :=
  let s' := s.filter (fun y => y ≠ x)
  (s', size s - size s' != 0)

/-- `RemoveWhere`, HashSet.hpp:345-365: one pass over the set -/
def removeWhere (s : List α) (p : α → Bool) : List α × Nat :=
  match s with
  | [] => ([], 0)
  | x :: xs =>
    let (r, n) := removeWhere xs p
    if p x then (r, n + 1) else (x :: r, n)

/-- `UnionWith`, HashSet.hpp:235-242 -/
def unionWith (s t : List α) : List α × Bool :=
  let s' := t.foldl (fun acc x => (insert acc x).1) s
  (s', size s != size s')

/-- `UnionWithAndClear`, HashSet.hpp:251-261, for two different objects: (this, other, result) -/
def unionWithAndClear (s t : List α) : List α × List α × Bool :=
  let (a, b) := if size s < size t then (t, s) else (s, t)
  let (a', r) := unionWith a b
  (a', [], r)

/-- `IntersectWith`, HashSet.hpp:268-277 -/
def intersectWith (s t : List α) : List α := (removeWhere s (fun x => !contains t x)).1

/-- `IntersectWithAndClear`, HashSet.hpp:285-294, for two different objects: (this, other) -/
def intersectWithAndClear (s t : List α) : List α × List α :=
  let (a, b) := if size s > size t then (t, s) else (s, t)
  (intersectWith a b, [])

/-- `DifferenceWith`, HashSet.hpp:301-323 -/
def differenceWith (s t : List α) : List α :=
  if size s ≤ size t then (removeWhere s (fun x => contains t x)).1
  else t.foldl (fun acc x => (remove acc x).1) s

/-- `operator==`, HashSet.hpp:384-395 -/
def equals (s t : List α) : Bool :=
  if size s != size t then false else s.all (fun x => contains t x)

/-- `IsSubsetOf`, HashSet.hpp:162-179: note that the loop runs over `other` and asks `other` -/
def isSubsetOf (s t : List α) : Bool :=
  if size s > size t then false else t.all (fun x => contains t x)

/-- The operations of a program working on numbered HashSet objects. -/
inductive Op (α : Type) where
  | insert (s : Nat) (x : α)
  | remove (s : Nat) (x : α)
  | removeWhere (s : Nat) (p : α → Bool)
  | clear (s : Nat)                       -- HashSet.hpp:136-140
  | unionWith (s t : Nat)
  | unionWithAndClear (s t : Nat)
  | intersectWith (s t : Nat)
  | intersectWithAndClear (s t : Nat)
  | differenceWith (s t : Nat)
  | contains (s : Nat) (x : α)
  | size (s : Nat)
  | isEmpty (s : Nat)
  | equals (s t : Nat)

/-- What an operation returns. -/
inductive Out where
  | unit | bool (b : Bool) | num (n : Nat)
deriving DecidableEq, Repr

/-- The store of HashSet objects. -/
abbrev Store (α : Type) := Nat → List α

def Store.set (σ : Store α) (i : Nat) (v : List α) : Store α := fun j => if j = i then v else σ j

/-- One operation. When both objects are the same one (`s = t`) no swap happens (sizes are equal)
and clearing `other` clears `this`; that is what writing `other` last does here. -/
def step (σ : Store α) : Op α → Store α × Out
  | .insert s x => let r := HashSet.insert (σ s) x; (σ.set s r.1, .bool r.2)
  | .remove s x => let r := HashSet.remove (σ s) x; (σ.set s r.1, .bool r.2)
  | .removeWhere s p => let r := HashSet.removeWhere (σ s) p; (σ.set s r.1, .num r.2)
  | .clear s => (σ.set s [], .unit)
  | .unionWith s t => let r := HashSet.unionWith (σ s) (σ t); (σ.set s r.1, .bool r.2)
  | .unionWithAndClear s t =>
    let r := HashSet.unionWithAndClear (σ s) (σ t); ((σ.set s r.1).set t r.2.1, .bool r.2.2)
  | .intersectWith s t => (σ.set s (HashSet.intersectWith (σ s) (σ t)), .unit)
  | .intersectWithAndClear s t =>
    let r := HashSet.intersectWithAndClear (σ s) (σ t); ((σ.set s r.1).set t r.2, .unit)
  | .differenceWith s t => (σ.set s (HashSet.differenceWith (σ s) (σ t)), .unit)
  | .contains s x => (σ, .bool (HashSet.contains (σ s) x))
  | .size s => (σ, .num (HashSet.size (σ s)))
  | .isEmpty s => (σ, .bool (HashSet.isEmpty (σ s)))
  | .equals s t => (σ, .bool (HashSet.equals (σ s) (σ t)))

/-- A history, starting from default-constructed (empty) objects. -/
def run (σ : Store α) : List (Op α) → Store α × List Out
  | [] => (σ, [])
  | op :: ops =>
    let (σ', o) := step σ op
    let (σ'', os) := run σ' ops
    (σ'', o :: os)

def init : Store α := fun _ => []

end Jlm.Util.HashSet
