import Verif.Aa.PointerSetSpec
/-
Specification of Andersen's analysis as jlm formulates it: constraints, assignments and what it
means that an assignment satisfies the constraints. Nothing here mentions solvers, union-find
forests, explicit or implicit representations of pointees.
-/
namespace Jlm.Llvm.Aa

/-- A call node: for each argument and each output the register pointer object, if the value has
one (`TryGetRegisterPointerObject`). -/
structure Call where
  ins : List (Option Nat)
  outs : List (Option Nat)
deriving DecidableEq, Repr

/-- A function: the register pointer objects of its arguments and of the origins of its results. -/
structure Fn where
  args : List (Option Nat)
  results : List (Option Nat)
deriving DecidableEq, Repr

/-- `ConstraintVariant`, PointerObjectSet.hpp:549-840 -/
inductive Constraint where
  | superset (sup sub : Nat)
  | store (ptr val : Nat)
  | load (val ptr : Nat)
  | call (ptr : Nat) (c : Call)
deriving DecidableEq, Repr

/-- What an analysis claims: `pt i x`: `i` may point to memory object `x`; `esc x`: `x` is
accessible from outside the module; `ext i`: `i` may point to something outside the module (or
escaped). -/
structure Sol where
  pt : Nat → Nat → Prop
  esc : Nat → Prop
  ext : Nat → Prop

namespace Sol

/-- everything `i` may point to has escaped -/
def PointeesEscape (L : Sol) (i : Nat) : Prop := ∀ x, L.pt i x → L.esc x

/-- `a` may hold every value that `b` may hold -/
def Sub (L : Sol) (a b : Nat) : Prop := (∀ x, L.pt b x → L.pt a x) ∧ (L.ext b → L.ext a)

/-- a call node may call unknown code -/
def CallsExternal (L : Sol) (c : Call) : Prop :=
  (∀ i, some i ∈ c.ins → L.PointeesEscape i) ∧ (∀ o, some o ∈ c.outs → L.ext o)

/-- a call node may call a function of the module: as many arguments and results as possible are
paired -/
def CallsFn (L : Sol) (c : Call) (f : Fn) : Prop :=
  (∀ (k i a : Nat), c.ins[k]? = some (some i) → f.args[k]? = some (some a) → L.Sub a i) ∧
  (∀ (k o r : Nat), c.outs[k]? = some (some o) → f.results[k]? = some (some r) → L.Sub o r)

def Holds (L : Sol) (kind : Nat → Kind) (fn : Nat → Fn) : Constraint → Prop
  | .superset a b => L.Sub a b
  | .store p v => (∀ x, L.pt p x → L.Sub x v) ∧ (L.ext p → L.PointeesEscape v)
  | .load v p => (∀ x, L.pt p x → L.Sub v x) ∧ (L.ext p → L.ext v)
  | .call p c =>
    (∀ x, L.pt p x → (kind x = .imported → L.CallsExternal c) ∧
                      (kind x = .function → L.CallsFn c (fn x))) ∧
    (L.ext p → L.CallsExternal c)

end Sol

/-- A constraint problem: what has been put in the pointer object set (`base`), the constraints,
and the functions of the module. -/
structure Problem where
  base : Abs
  cs : List Constraint
  fn : Nat → Fn

/-- The assignment `L` satisfies all constraints. -/
structure Sat (P : Problem) (L : Sol) : Prop where
  /-- base facts -/
  pts : ∀ i x, P.base.pts i x → L.pt i x
  esc : ∀ x, P.base.esc x → L.esc x
  ext : ∀ i, P.base.pte i → L.ext i
  pe : ∀ i, i < P.base.n → P.base.pe i → L.PointeesEscape i
  /-- unified objects are one object -/
  unified : ∀ i j, P.base.conn i j → (∀ x, L.pt i x → L.pt j x) ∧ (L.ext i → L.ext j)
  /-- what points outside the module may point to everything that is accessible there -/
  implicit : ∀ i x, L.ext i → L.esc x → L.pt i x
  /-- external code can write unknown pointers to what has escaped, and can read what is there -/
  escaped : ∀ x, L.esc x → L.ext x ∧ L.PointeesEscape x
  /-- scalars are written through `i`: they may be pointers obtained outside -/
  ss : ∀ i x, i < P.base.n → P.base.ss i → L.pt i x → L.ext x
  /-- what is read through `i` as a scalar may end up outside -/
  ls : ∀ i x, i < P.base.n → P.base.ls i → L.pt i x → L.PointeesEscape x
  cs : ∀ c ∈ P.cs, L.Holds P.base.kind P.fn c
  /-- functions that have escaped can be called from outside -/
  fns : ∀ f, L.esc f → f < P.base.n → P.base.kind f = .function →
    (∀ a, some a ∈ (P.fn f).args → L.ext a) ∧ (∀ r, some r ∈ (P.fn f).results → L.PointeesEscape r)

/-- all indices are objects of the set -/
def Call.InRange (n : Nat) (c : Call) : Prop := (∀ i, some i ∈ c.ins → i < n) ∧ (∀ i, some i ∈ c.outs → i < n)
def Fn.InRange (n : Nat) (f : Fn) : Prop := (∀ i, some i ∈ f.args → i < n) ∧ (∀ i, some i ∈ f.results → i < n)
def Constraint.InRange (n : Nat) : Constraint → Prop
  | .superset a b | .store a b | .load a b => a < n ∧ b < n
  | .call p c => p < n ∧ c.InRange n

structure Problem.InRange (P : Problem) : Prop where
  cs : ∀ c ∈ P.cs, c.InRange P.base.n
  fn : ∀ f, f < P.base.n → P.base.kind f = .function → (P.fn f).InRange P.base.n

/-- what a pointer object set says when queried with `IsPointingTo`, `HasEscaped` and
`IsPointingToExternal` -/
def Abs.sol (A : Abs) : Sol :=
  { pt := fun i x => A.pts i x ∨ (A.pte i ∧ A.esc x), esc := A.esc, ext := A.pte }

/-- the assignment `L` claims at least what `K` claims -/
def Sol.Le (K L : Sol) : Prop :=
  (∀ i x, K.pt i x → L.pt i x) ∧ (∀ x, K.esc x → L.esc x) ∧ (∀ i, K.ext i → L.ext i)

/-- `K` is the least assignment that satisfies the constraints -/
def IsLeast (P : Problem) (K : Sol) : Prop := Sat P K ∧ ∀ L, Sat P L → K.Le L

end Jlm.Llvm.Aa
