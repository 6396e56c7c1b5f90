import Verif.Aa.AndersenSpec
/-
Model of `PointerObjectConstraintSet::SolveNaively` and the `ApplyDirectly` functions,
jlm/llvm/opt/alias-analyses/PointerObjectSet.cpp:558-933,2318-2345, on the pointer object set with
root functions (`RSet`; see C20 for its relation to the forest).

`ord s i` is the order in which `for (x : GetPointsToSet(i).Items())` visits the pointees; it is an
arbitrary function. Simplification: the loops visit the elements the set had when the loop started
(see finding 11: the C++ loops insert into the set they iterate over when a pointee is unified with
the pointer).
-/
namespace Jlm.Llvm.Aa

/-- the order in which `Items()` enumerates the points-to set of an object -/
abbrev Order := RSet → Nat → List Nat

/-- `modified |= f(a)` for the elements of a list -/
def forEach {α : Type} (f : α → RSet → Bool × RSet) : List α → RSet → Bool × RSet
  | [], s => (false, s)
  | a :: l, s =>
    let p := f a s
    let q := forEach f l p.2
    (p.1 || q.1, q.2)

/-- `modified |= f(); modified |= g()` -/
def andThen (p : Bool × RSet) (g : RSet → Bool × RSet) : Bool × RSet :=
  let q := g p.2
  (p.1 || q.1, q.2)

/-- `if (b) modified |= f()` -/
def whenB (b : Bool) (f : RSet → Bool × RSet) (s : RSet) : Bool × RSet := if b then f s else (false, s)

/-- the registers that have a pointer object -/
def registers (l : List (Option Nat)) : List Nat := l.filterMap id

/-- corresponding registers that both have a pointer object -/
def paired : List (Option Nat) → List (Option Nat) → List (Nat × Nat)
  | some a :: l, some b :: m => (a, b) :: paired l m
  | _ :: l, _ :: m => paired l m
  | _, _ => []

/-- `StoreConstraint::ApplyDirectly`, PointerObjectSet.cpp:566-580 -/
def applyStore (ord : Order) (p v : Nat) (s : RSet) : Bool × RSet :=
  andThen (forEach (fun x s => s.makeSuperset x v) (ord s p) s)
    fun s => whenB (s.pte p) (fun s => s.markPE v) s

/-- `LoadConstraint::ApplyDirectly`, PointerObjectSet.cpp:582-596 -/
def applyLoad (ord : Order) (v p : Nat) (s : RSet) : Bool × RSet :=
  andThen (forEach (fun x s => s.makeSuperset v x) (ord s p) s)
    fun s => whenB (s.pte p) (fun s => s.markPTE v) s

/-- `HandleCallingExternalFunction`, PointerObjectSet.cpp:604-631, and
`HandleCallingImportedFunction`, 644-662 -/
def callExternal (c : Call) (s : RSet) : Bool × RSet :=
  andThen (forEach (fun i s => s.markPE i) (registers c.ins) s)
    (forEach (fun o s => s.markPTE o) (registers c.outs))

/-- `HandleCallingLambdaFunction`, PointerObjectSet.cpp:662-750 -/
def callLambda (fn : Nat → Fn) (c : Call) (f : Nat) (s : RSet) : Bool × RSet :=
  andThen (forEach (fun ab s => s.makeSuperset ab.2 ab.1) (paired c.ins (fn f).args) s)
    (forEach (fun ab s => s.makeSuperset ab.1 ab.2) (paired c.outs (fn f).results))

/-- one target of a call, PointerObjectSet.cpp:773-786 -/
def callTarget (fn : Nat → Fn) (c : Call) (x : Nat) (s : RSet) : Bool × RSet :=
  match (s.obj x).kind with
  | .imported => callExternal c s
  | .function => callLambda fn c x s
  | _ => (false, s)

/-- `FunctionCallConstraint::ApplyDirectly`, PointerObjectSet.cpp:752-793 -/
def applyCall (ord : Order) (fn : Nat → Fn) (p : Nat) (c : Call) (s : RSet) : Bool × RSet :=
  andThen (forEach (callTarget fn c) (ord s p) s)
    fun s => whenB (s.pte p) (callExternal c) s

/-- `constraint.ApplyDirectly(Set_)` -/
def applyC (ord : Order) (fn : Nat → Fn) : Constraint → RSet → Bool × RSet
  | .superset a b, s => s.makeSuperset a b
  | .store p v, s => applyStore ord p v s
  | .load v p, s => applyLoad ord v p s
  | .call p c, s => applyCall ord fn p c s

/-- the loop body for the scalar flags, PointerObjectSet.cpp:801-822 -/
def scalarAt (ord : Order) (i : Nat) (s : RSet) : Bool × RSet :=
  if s.root i ≠ i then (false, s)
  else
    andThen (whenB (s.ss i) (fun s => forEach (fun x s => s.markPTE x) (ord s i) s) s)
      fun s => whenB (s.ls i) (fun s => forEach (fun x s => s.markPE x) (ord s i) s) s

/-- the inner loop over the pointees of an escaper, PointerObjectSet.cpp:838-853; the last
component is what is added to the queue -/
def escPointees : List Nat → RSet → Option (Bool × RSet × List Nat)
  | [], s => some (false, s, [])
  | x :: l, s =>
    let root := s.root x
    let prev := s.pe root
    let p := s.markEscaped x
    if prev = false ∧ p.2.pe root = false then none
    else (escPointees l p.2).map fun (b, s, q) => (p.1 || b, s, if prev then q else root :: q)

/-- the queue loop, PointerObjectSet.cpp:833-855 -/
def escLoop (ord : Order) : Nat → List Nat → RSet → Option (Bool × RSet)
  | _, [], s => some (false, s)
  | 0, _ :: _, _ => none
  | fuel + 1, i :: q, s =>
    (escPointees (ord s i) s).bind fun (b, s, new) =>
      (escLoop ord fuel (q ++ new) s).map fun (b', s) => (b || b', s)

/-- `PropagateEscapedFlagsDirectly`, PointerObjectSet.cpp:795-858 -/
def escapeFlags (ord : Order) (s : RSet) : Option (Bool × RSet) :=
  let p := forEach (scalarAt ord) (List.range s.n) s
  let q := (List.range p.2.n).filter fun i => p.2.root i == i && p.2.pe i
  (escLoop ord p.2.n q p.2).map fun r => (p.1 || r.1, r.2)

/-- `HandleEscapedFunction`, PointerObjectSet.cpp:871-913 -/
def escapedFn (f : Fn) (s : RSet) : Bool × RSet :=
  andThen (forEach (fun a s => whenB (!s.pte a) (fun s => s.markPTE a) s) (registers f.args) s)
    (forEach (fun r s => whenB (!s.pe r) (fun s => s.markPE r) s) (registers f.results))

/-- `PropagateEscapedFunctionsDirectly`, PointerObjectSet.cpp:915-933; `fns` are the objects of the
function map in the order in which the map enumerates them -/
def escapedFns (fn : Nat → Fn) (fns : List Nat) (s : RSet) : Bool × RSet :=
  forEach (fun f s => whenB (s.escaped f) (escapedFn (fn f)) s) fns s

/-- one iteration of the loop of `SolveNaively`, PointerObjectSet.cpp:2326-2342 -/
def naivePass (ord : Order) (fn : Nat → Fn) (fns : List Nat) (cs : List Constraint) (s : RSet) :
    Option (Bool × RSet) :=
  let p := forEach (applyC ord fn) cs s
  (escapeFlags ord p.2).map fun r =>
    let q := escapedFns fn fns r.2
    (p.1 || r.1 || q.1, q.2)

/-- `SolveNaively`, PointerObjectSet.cpp:2318-2345; `fuel` bounds the number of iterations -/
def solveNaively (ord : Order) (fn : Nat → Fn) (fns : List Nat) (cs : List Constraint) :
    Nat → RSet → Option RSet
  | 0, _ => none
  | fuel + 1, s =>
    (naivePass ord fn fns cs s).bind fun (b, s) =>
      if b then solveNaively ord fn fns cs fuel s else some s

end Jlm.Llvm.Aa
