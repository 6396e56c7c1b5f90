import Verif.Util.IHashModel

/-! # What intrusive hash tables do: operations on sequences -/

namespace Jlm.Util.IH

variable {α κ : Type} [DecidableEq α]

/-- The contents of all the tables, in the order in which the elements have been inserted. -/
abbrev Abs (α : Type) := Nat → List α

def Abs.set (A : Abs α) (k : Nat) (xs : List α) : Abs α := fun j => if j = k then xs else A j

/-- What an operation does to the contents. An element that is inserted must not be in a table of the same anchor; an element that is
erased must be in the table. -/
inductive Step (K : Keys α κ) (A : Abs α) : Op α κ → Abs α → Prop
  | insert (k : Nat) (x : α) : (∀ j, x ∉ A j) → Step K A (.insert k x) (A.set k (A k ++ [x]))
  | erase (k : Nat) (x : α) (a b : List α) : A k = a ++ x :: b → Step K A (.erase k x) (A.set k (a ++ b))
  /-- the oldest element with the key, if there is one -/
  | eraseKey (k : Nat) (key : κ) : Step K A (.eraseKey k key) (A.set k ((A k).eraseP fun x => K.eq key (K.key x)))
  | clear (k : Nat) : Step K A (.clear k) (A.set k [])
  | swap (k j : Nat) : Step K A (.swap k j) (fun i => if i = k then A j else if i = j then A k else A i)

/-- Histories. -/
inductive Steps (K : Keys α κ) : Abs α → List (Op α κ) → Abs α → Prop
  | nil (A : Abs α) : Steps K A [] A
  | cons {A B C : Abs α} {op : Op α κ} {ops : List (Op α κ)} : Step K A op B → Steps K B ops C → Steps K A (op :: ops) C

/-- What a user sees of a table that contains `xs`: `size()`, `empty()`, `find()` and iteration, which sees every element once, in some
order. -/
structure Shows (K : Keys α κ) (h : IL.Heap α) (t : Table α) (xs : List α) : Prop where
  size : t.size = xs.length
  /-- the oldest element with the key -/
  find : ∀ k, lookup K h t k = some (xs.find? fun x => K.eq k (K.key x))
  iterate : ∃ ys : List α, ys.Perm xs ∧ ∀ n, walk K h t n t.begin = ys.take n

end Jlm.Util.IH
