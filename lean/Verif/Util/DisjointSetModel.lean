import Mathlib.Logic.Function.Basic
/-
Model of jlm/util/disjointset.hpp.

A `Set` object is identified with the element it was created for (`values_` owns exactly one per
element and never moves it). The mutable members `size_`, `next_`, `parent_` are functions.
A failed `JLM_ASSERT` is `none`. Loops get as many iterations as there are elements; `none` if
that is not enough (theorem C13 shows it always is).
-/
namespace Jlm.Util.DisjointSet

variable {α : Type} [DecidableEq α]

/-- `roots_`, `values_` and the members of the `Set` objects, disjointset.hpp:178-183, 405-406 -/
structure DS (α : Type) where
  values : List α
  roots : List α
  size : α → Nat
  next : α → α
  parent : α → α

/-- the default constructed object, disjointset.hpp:247 -/
def empty : DS α := ⟨[], [], fun _ => 0, id, id⟩

/-- `contains`, disjointset.hpp:399-403 -/
def contains (s : DS α) (x : α) : Bool := s.values.contains x

/-- the loop of `Set::root`, disjointset.hpp:124-130 (only the `parent_` of the object `x` that
`root()` is called on is written) -/
def rootLoop (x : α) : Nat → α → α → DS α → Option (α × DS α)
  | 0, child, parent, s => if parent = child then some (child, s) else none
  | n + 1, child, parent, s =>
    if parent = child then some (child, s)
    else
      let s' := { s with parent := Function.update s.parent x (s.parent parent) }
      rootLoop x n parent (s'.parent x) s'

/-- `Set::root`, disjointset.hpp:118-133 -/
def root (s : DS α) (x : α) : Option (α × DS α) := rootLoop x s.values.length x (s.parent x) s

/-- `insert`, disjointset.hpp:295-305, with `Set(const T&)` 95-100 -/
def insert (s : DS α) (x : α) : α × DS α :=
  if contains s x then (x, s)
  else (x, { values := x :: s.values, roots := x :: s.roots,
             size := Function.update s.size x 1, next := Function.update s.next x x,
             parent := Function.update s.parent x x })

/-- `find`, disjointset.hpp:347-353 -/
def find (s : DS α) (x : α) : Option (α × DS α) :=
  if contains s x then root s x else none

/-- `find_or_insert`, disjointset.hpp:360-367 -/
def findOrInsert (s : DS α) (x : α) : Option (α × DS α) :=
  if contains s x then find s x else some (insert s x)

/-- the part of `merge` after the roots are known to differ, disjointset.hpp:382-395 -/
def link (s : DS α) (r1 r2 : α) : α × DS α :=
  let size1 := s.size r1
  let size2 := s.size r2
  let (root1, root2) := if size1 < size2 then (r2, r1) else (r1, r2)
  let n1 := s.next root1
  let n2 := s.next root2
  (root1, { s with
      next := Function.update (Function.update s.next root1 n2) root2 n1
      roots := s.roots.filter (fun y => y ≠ root2)
      parent := Function.update s.parent root2 root1
      size := Function.update s.size root1 (size1 + size2) })

/-- `merge`, disjointset.hpp:372-396 -/
def merge (s : DS α) (e1 e2 : α) : Option (α × DS α) :=
  match find s e1 with
  | none => none
  | some (root1, s) =>
    match find s e2 with
    | none => none
    | some (root2, s) => if root1 = root2 then some (root1, s) else some (link s root1 root2)

/-- `clear`, disjointset.hpp:337-342 (the `Set` objects are destroyed) -/
def clear (_ : DS α) : DS α := empty

/-- `nvalues`, disjointset.hpp:325-329 -/
def nvalues (s : DS α) : Nat := s.values.length
/-- `nsets`, disjointset.hpp:331-335 -/
def nsets (s : DS α) : Nat := s.roots.length
/-- `nmembers`, disjointset.hpp:160-164 -/
def nmembers (s : DS α) (x : α) : Option (Nat × DS α) :=
  (root s x).map (fun r => (r.2.size r.1, r.2))

/-- increments of the member iterator until it reaches the null pointer,
disjointset.hpp:56-63: collects the visited values -/
def membersLoop (s : DS α) : Nat → α → Option (List α)
  | 0, _ => none
  | n + 1, node =>
    if s.parent node = node then some [node]
    else (membersLoop s n (s.next node)).map (node :: ·)

/-- iterating over a set from `begin()` to `end()`, disjointset.hpp:148-158 -/
def members (s : DS α) (x : α) : Option (List α × DS α) :=
  match root s x with
  | none => none
  | some (r, s) => (membersLoop s s.values.length (s.next r)).map (·, s)

/-- The operations of a client. `nmembers` and iteration change the object only through `root()`,
like `find` does; they are included so that histories contain everything. -/
inductive Op (α : Type) where
  | insert (x : α)
  | find (x : α)
  | findOrInsert (x : α)
  | merge (a b : α)
  | nmembers (x : α)
  | members (x : α)
  | clear

/-- One operation; `none` if it violates an assertion or does not terminate. -/
def step (s : DS α) : Op α → Option (DS α)
  | .insert x => some (insert s x).2
  | .find x => (find s x).map (·.2)
  | .findOrInsert x => (findOrInsert s x).map (·.2)
  | .merge a b => (merge s a b).map (·.2)
  | .nmembers x => if contains s x then (nmembers s x).map (·.2) else none
  | .members x => if contains s x then (members s x).map (·.2) else none
  | .clear => some (clear s)

/-- A history from the empty object. -/
def run (s : DS α) : List (Op α) → Option (DS α)
  | [] => some s
  | op :: ops => (step s op).bind (fun s => run s ops)

end Jlm.Util.DisjointSet
