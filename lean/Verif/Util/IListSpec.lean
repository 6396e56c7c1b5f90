import Verif.Util.IListModel

/-! # What intrusive lists do: operations on sequences -/

namespace Jlm.Util.IL

variable {α : Type} [DecidableEq α]

/-- The contents of all lists. -/
abbrev Abs (α : Type) := Nat → List α

def Abs.set (A : Abs α) (k : Nat) (xs : List α) : Abs α := fun j => if j = k then xs else A j

/-- What an operation does to the contents. An element that is inserted must not be in a list of the same anchor; an element that
is erased must be in the list; a position is an element of the list or the end. -/
inductive Step (A : Abs α) : Op α → Abs α → Prop
  | pushBack (k : Nat) (x : α) : (∀ j, x ∉ A j) → Step A (.pushBack k x) (A.set k (A k ++ [x]))
  | pushFront (k : Nat) (x : α) : (∀ j, x ∉ A j) → Step A (.pushFront k x) (A.set k (x :: A k))
  /-- before the element `b.head?`, at the end if there is none -/
  | insert (k : Nat) (x : α) (a b : List α) : (∀ j, x ∉ A j) → A k = a ++ b → Step A (.insert k b.head? x) (A.set k (a ++ x :: b))
  | erase (k : Nat) (x : α) (a b : List α) : A k = a ++ x :: b → Step A (.erase k x) (A.set k (a ++ b))
  /-- the segment `m` of the list `j` is moved; the position is looked up in what remains -/
  | splice (k j : Nat) (c m d a b : List α) : A j = c ++ m ++ d → A.set j (c ++ d) k = a ++ b →
      Step A (.splice k b.head? j (m ++ d).head? d.head?) ((A.set j (c ++ d)).set k (a ++ m ++ b))
  | clear (k : Nat) : Step A (.clear k) (A.set k [])
  | swap (k j : Nat) : Step A (.swap k j) (fun i => if i = k then A j else if i = j then A k else A i)

/-- Histories. -/
inductive Steps : Abs α → List (Op α) → Abs α → Prop
  | nil (A : Abs α) : Steps A [] A
  | cons {A B C : Abs α} {op : Op α} {ops : List (Op α)} : Step A op B → Steps B ops C → Steps A (op :: ops) C

/-- What a user sees of the list `p` that contains `xs`: `first()`, `last()`, `empty()`, iteration in both directions, `size()`. -/
structure Shows (p : Pair α) (xs : List α) : Prop where
  first : p.2.first = xs.head?
  last : p.2.last = xs.getLast?
  forward : ∀ n : Nat, walk p n p.2.first = xs.take n
  backward : ∀ n : Nat, walkBack p n none = xs.reverse.take n
  size : ∀ n : Nat, xs.length ≤ n → size p n = xs.length

end Jlm.Util.IL
