/-
Model of jlm/llvm/opt/alias-analyses/PointerObjectSet.{hpp,cpp}: class `PointerObjectSet`.

Two layers:
* `PSet` follows the C++ closely: a union-find forest with path halving (which also happens in
  `const` methods) and union by rank with `uint8_t` ranks;
* `RSet` replaces the forest by the function from each object to its root. Theorem `C20_refines`
  shows that the two behave the same; the solvers are modelled on `RSet`.

Simplifications: the vectors (which always have equal length) are functions together with their
length; `util::HashSet` is a duplicate free list; the maps from RVSDG nodes to objects are not
modelled (objects are identified by their index); statistics are dropped.
A failed `JLM_ASSERT` or a loop that does not end is `none`.
-/
namespace Jlm.Llvm.Aa

/-- `PointerObjectKind`, PointerObjectSet.hpp:28-42 -/
inductive Kind where
  | register | alloca | malloc | global | function | imported
deriving DecidableEq, Repr

/-- `PointerObjectSet::PointerObject`, PointerObjectSet.hpp:58-89 -/
structure Obj where
  kind : Kind
  canPoint : Bool
  escaped : Bool := false
  pe : Bool := false
  pte : Bool := false
  ss : Bool := false
  ls : Bool := false
deriving DecidableEq, Repr

/-- the constructor, PointerObjectSet.hpp:90-112 -/
def Obj.new (kind : Kind) (canPoint : Bool) : Obj :=
  { kind := kind, canPoint := canPoint, pe := !canPoint, pte := !canPoint }

/-- the assertions of the constructor, PointerObjectSet.hpp:97-108 -/
def Obj.newOk (kind : Kind) (canPoint : Bool) : Bool :=
  match kind with
  | .function => !canPoint
  | .register => canPoint
  | _ => true

/-- update of a function at a point (assignment to an element of a vector) -/
def upd {α : Type} (f : Nat → α) (i : Nat) (a : α) : Nat → α := fun j => if j = i then a else f j

/-- `util::HashSet::insert` -/
def ins (l : List Nat) (x : Nat) : List Nat := if x ∈ l then l else l ++ [x]

/-- `util::HashSet::UnionWith` / `UnionWithAndClear` (which of the two sets is moved where is
modelled in Util/HashSetModel.lean) -/
def uni (l m : List Nat) : List Nat := m.foldl ins l

/-- the `PointerObjectSet` with its union-find forest -/
structure PSet where
  n : Nat
  obj : Nat → Obj
  parent : Nat → Nat
  rank : Nat → Nat
  pts : Nat → List Nat

def PSet.empty : PSet :=
  { n := 0, obj := fun _ => { kind := .register, canPoint := true }, parent := id,
    rank := fun _ => 0, pts := fun _ => [] }

namespace PSet

/-- the loop of `GetUnificationRoot`, PointerObjectSet.cpp:341-346 -/
def rootLoop : Nat → Nat → PSet → Option (Nat × PSet)
  | 0, _, _ => none
  | fuel + 1, i, s =>
    if s.parent i = i then some (i, s)
    else
      let grand := s.parent (s.parent i)
      rootLoop fuel grand { s with parent := upd s.parent i grand }

/-- `GetUnificationRoot`, PointerObjectSet.cpp:333-350 -/
def root (s : PSet) (i : Nat) : Option (Nat × PSet) :=
  if i < s.n then rootLoop (s.n + 1) i s else none

/-- `AddPointerObject`, PointerObjectSet.cpp:27-41 -/
def add (s : PSet) (kind : Kind) (canPoint : Bool) : Option (Nat × PSet) :=
  if s.n < 2 ^ 32 - 1 ∧ Obj.newOk kind canPoint = true then
    some (s.n, { n := s.n + 1, obj := upd s.obj s.n (Obj.new kind canPoint),
                 parent := upd s.parent s.n s.n, rank := upd s.rank s.n 0,
                 pts := upd s.pts s.n [] })
  else none

/-- `MarkAsPointeesEscaping`, PointerObjectSet.cpp:268-276 -/
def markPE (s : PSet) (i : Nat) : Option (Bool × PSet) :=
  (s.root i).map fun (r, s) =>
    if (s.obj r).pe then (false, s)
    else (true, { s with obj := upd s.obj r { s.obj r with pe := true } })

/-- `MarkAsPointingToExternal`, PointerObjectSet.cpp:284-292 -/
def markPTE (s : PSet) (i : Nat) : Option (Bool × PSet) :=
  (s.root i).map fun (r, s) =>
    if (s.obj r).pte then (false, s)
    else (true, { s with obj := upd s.obj r { s.obj r with pte := true } })

/-- `MarkAsStoringAsScalar`, PointerObjectSet.cpp:301-309 -/
def markSS (s : PSet) (i : Nat) : Option (Bool × PSet) :=
  (s.root i).map fun (r, s) =>
    if (s.obj r).ss then (false, s)
    else (true, { s with obj := upd s.obj r { s.obj r with ss := true } })

/-- `MarkAsLoadingAsScalar`, PointerObjectSet.cpp:317-325 -/
def markLS (s : PSet) (i : Nat) : Option (Bool × PSet) :=
  (s.root i).map fun (r, s) =>
    if (s.obj r).ls then (false, s)
    else (true, { s with obj := upd s.obj r { s.obj r with ls := true } })

/-- `HasEscaped`, PointerObjectSet.cpp:238-243 -/
def hasEscaped (s : PSet) (i : Nat) : Option Bool := if i < s.n then some (s.obj i).escaped else none
/-- `HasPointeesEscaping`, PointerObjectSet.cpp:262-266 -/
def hasPE (s : PSet) (i : Nat) : Option (Bool × PSet) := (s.root i).map fun (r, s) => ((s.obj r).pe, s)
/-- `IsPointingToExternal`, PointerObjectSet.cpp:278-282 -/
def isPTE (s : PSet) (i : Nat) : Option (Bool × PSet) := (s.root i).map fun (r, s) => ((s.obj r).pte, s)
/-- `IsStoredAsScalar`, PointerObjectSet.cpp:311-315 -/
def isSS (s : PSet) (i : Nat) : Option (Bool × PSet) := (s.root i).map fun (r, s) => ((s.obj r).ss, s)
/-- `IsLoadedAsScalar`, PointerObjectSet.cpp:327-331 -/
def isLS (s : PSet) (i : Nat) : Option (Bool × PSet) := (s.root i).map fun (r, s) => ((s.obj r).ls, s)

/-- `MarkAsEscaped`, PointerObjectSet.cpp:245-260 -/
def markEscaped (s : PSet) (i : Nat) : Option (Bool × PSet) :=
  if i < s.n ∧ (s.obj i).kind ≠ .register then
    if (s.obj i).escaped then some (false, s)
    else
      let s := { s with obj := upd s.obj i { s.obj i with escaped := true } }
      (s.markPE i).bind fun (_, s) => (s.markPTE i).map fun (_, s) => (true, s)
  else none

/-- PointerObjectSet.cpp:379-380 -/
def movePTE (new old : Nat) (s : PSet) : Option PSet :=
  (s.isPTE old).bind fun (b, s) => if b then (s.markPTE new).map (·.2) else some s
/-- PointerObjectSet.cpp:381-382 -/
def movePE (new old : Nat) (s : PSet) : Option PSet :=
  (s.hasPE old).bind fun (b, s) => if b then (s.markPE new).map (·.2) else some s
/-- PointerObjectSet.cpp:383-384 -/
def moveSS (new old : Nat) (s : PSet) : Option PSet :=
  (s.isSS old).bind fun (b, s) => if b then (s.markSS new).map (·.2) else some s
/-- PointerObjectSet.cpp:385-386 -/
def moveLS (new old : Nat) (s : PSet) : Option PSet :=
  (s.isLS old).bind fun (b, s) => if b then (s.markLS new).map (·.2) else some s

/-- the four flag updates of `UnifyPointerObjects`, PointerObjectSet.cpp:379-386 -/
def moveFlags (s : PSet) (new old : Nat) : Option PSet :=
  (movePTE new old s).bind fun s => (movePE new old s).bind fun s =>
    (moveSS new old s).bind fun s => moveLS new old s

/-- `UnifyPointerObjects`, PointerObjectSet.cpp:358-400 -/
def unify (s : PSet) (a b : Nat) : Option (Nat × PSet) := do
  let (r1, s) ← s.root a
  let (r2, s) ← s.root b
  if r1 = r2 then some (r1, s)
  else
    let (new, old) := if s.rank r1 < s.rank r2 then (r2, r1) else (r1, r2)
    let s := if s.rank r1 = s.rank r2
      then { s with rank := upd s.rank new ((s.rank new + 1) % 256) } else s
    let s ← s.moveFlags new old
    let s := { s with parent := upd s.parent old new }
    some (new, { s with pts := upd (upd s.pts new (uni (s.pts new) (s.pts old))) old [] })

/-- `GetPointsToSet`, PointerObjectSet.cpp:402-406 -/
def pointees (s : PSet) (i : Nat) : Option (List Nat × PSet) :=
  (s.root i).map fun (r, s) => (s.pts r, s)

/-- `AddToPointsToSet`, PointerObjectSet.cpp:409-421 -/
def addPointee (s : PSet) (p x : Nat) : Option (Bool × PSet) :=
  if p < s.n ∧ x < s.n ∧ (s.obj x).kind ≠ .register then
    (s.root p).map fun (r, s) =>
      (!(s.pts r).contains x, { s with pts := upd s.pts r (ins (s.pts r) x) })
  else none

/-- `MakePointsToSetSuperset` via `PropagateNewPointees`, PointerObjectSet.cpp:424-467 -/
def makeSuperset (s : PSet) (sup sub : Nat) : Option (Bool × PSet) := do
  let (rsup, s) ← s.root sup
  let (rsub, s) ← s.root sub
  if rsup = rsub then some (false, s)
  else
    let modified := (s.pts rsub).any fun x => !(s.pts rsup).contains x
    let s := { s with pts := upd s.pts rsup (uni (s.pts rsup) (s.pts rsub)) }
    let (b, s) ← s.isPTE rsub
    if b then (s.markPTE rsup).map fun (m, s) => (modified || m, s)
    else some (modified, s)

/-- `RemoveAllPointees`, PointerObjectSet.cpp:482-488 -/
def removeAll (s : PSet) (i : Nat) : Option PSet :=
  (s.root i).map fun (r, s) => { s with pts := upd s.pts r [] }

/-- `IsPointingTo`, PointerObjectSet.cpp:490-506 -/
def isPointingTo (s : PSet) (p x : Nat) : Option (Bool × PSet) := do
  let (b, s) ← s.isPTE p
  let e ← if b then s.hasEscaped x else some false
  if e then some (true, s)
  else
    let (l, s) ← s.pointees p
    some (l.contains x, s)

end PSet

/-! ## The set with root functions -/

/-- a `PointerObjectSet` whose forest is replaced by the function to the root -/
structure RSet where
  n : Nat
  obj : Nat → Obj
  root : Nat → Nat
  rank : Nat → Nat
  pts : Nat → List Nat

def RSet.empty : RSet :=
  { n := 0, obj := fun _ => { kind := .register, canPoint := true }, root := id,
    rank := fun _ => 0, pts := fun _ => [] }

namespace RSet

/-- `AddPointerObject`, PointerObjectSet.cpp:27-41 -/
def add (s : RSet) (kind : Kind) (canPoint : Bool) : RSet :=
  { n := s.n + 1, obj := upd s.obj s.n (Obj.new kind canPoint), root := upd s.root s.n s.n,
    rank := upd s.rank s.n 0, pts := upd s.pts s.n [] }

def pe (s : RSet) (i : Nat) : Bool := (s.obj (s.root i)).pe
def pte (s : RSet) (i : Nat) : Bool := (s.obj (s.root i)).pte
def ss (s : RSet) (i : Nat) : Bool := (s.obj (s.root i)).ss
def ls (s : RSet) (i : Nat) : Bool := (s.obj (s.root i)).ls
def escaped (s : RSet) (i : Nat) : Bool := (s.obj i).escaped
def pointees (s : RSet) (i : Nat) : List Nat := s.pts (s.root i)

/-- `IsPointingTo` -/
def isPointingTo (s : RSet) (p x : Nat) : Bool :=
  (s.pte p && s.escaped x) || (s.pointees p).contains x

def setPE (s : RSet) (i : Nat) : RSet :=
  { s with obj := upd s.obj (s.root i) { s.obj (s.root i) with pe := true } }
def setPTE (s : RSet) (i : Nat) : RSet :=
  { s with obj := upd s.obj (s.root i) { s.obj (s.root i) with pte := true } }
def setSS (s : RSet) (i : Nat) : RSet :=
  { s with obj := upd s.obj (s.root i) { s.obj (s.root i) with ss := true } }
def setLS (s : RSet) (i : Nat) : RSet :=
  { s with obj := upd s.obj (s.root i) { s.obj (s.root i) with ls := true } }

/-- `MarkAsPointeesEscaping` etc.: whether the flag is new, and the new set -/
def markPE (s : RSet) (i : Nat) : Bool × RSet := if s.pe i then (false, s) else (true, s.setPE i)
def markPTE (s : RSet) (i : Nat) : Bool × RSet := if s.pte i then (false, s) else (true, s.setPTE i)
def markSS (s : RSet) (i : Nat) : Bool × RSet := if s.ss i then (false, s) else (true, s.setSS i)
def markLS (s : RSet) (i : Nat) : Bool × RSet := if s.ls i then (false, s) else (true, s.setLS i)

/-- `MarkAsEscaped` -/
def markEscaped (s : RSet) (i : Nat) : Bool × RSet :=
  if s.escaped i then (false, s)
  else
    let s := { s with obj := upd s.obj i { s.obj i with escaped := true } }
    (true, ((s.markPE i).2.markPTE i).2)

/-- `UnifyPointerObjects` -/
def unify (s : RSet) (a b : Nat) : Nat × RSet :=
  let r1 := s.root a
  let r2 := s.root b
  if r1 = r2 then (r1, s)
  else
    let (new, old) := if s.rank r1 < s.rank r2 then (r2, r1) else (r1, r2)
    let o1 := s.obj new
    let o2 := s.obj old
    (new,
      { n := s.n
        obj := upd s.obj new { o1 with pte := o1.pte || o2.pte, pe := o1.pe || o2.pe,
                                       ss := o1.ss || o2.ss, ls := o1.ls || o2.ls }
        root := fun i => if s.root i = old then new else s.root i
        rank := if s.rank r1 = s.rank r2 then upd s.rank new (s.rank new + 1) else s.rank
        pts := upd (upd s.pts new (uni (s.pts new) (s.pts old))) old [] })

/-- `AddToPointsToSet` -/
def addPointee (s : RSet) (p x : Nat) : Bool × RSet :=
  (!(s.pointees p).contains x,
   { s with pts := upd s.pts (s.root p) (ins (s.pointees p) x) })

/-- `MakePointsToSetSuperset` -/
def makeSuperset (s : RSet) (sup sub : Nat) : Bool × RSet :=
  if s.root sup = s.root sub then (false, s)
  else
    let modified := (s.pointees sub).any fun x => !(s.pointees sup).contains x
    let s := { s with pts := upd s.pts (s.root sup) (uni (s.pointees sup) (s.pointees sub)) }
    if s.pte sub then
      let (m, s) := s.markPTE sup
      (modified || m, s)
    else (modified, s)

/-- `RemoveAllPointees` -/
def removeAll (s : RSet) (i : Nat) : RSet := { s with pts := upd s.pts (s.root i) [] }

/-- the comparison of one object in `HasIdenticalSolAs`, PointerObjectSet.cpp:521-542 -/
def sameSolAt (s t : RSet) (i : Nat) : Bool :=
  (s.escaped i == t.escaped i) && (s.pte i == t.pte i) &&
  (s.pointees i).all (fun x => t.isPointingTo i x) && (t.pointees i).all (fun x => s.isPointingTo i x)

/-- `HasIdenticalSolAs`, PointerObjectSet.cpp:514-544 -/
def hasIdenticalSolAs (s t : RSet) : Bool :=
  s.n == t.n && (List.range s.n).all (fun i => s.sameSolAt t i)

end RSet

/-! ## Histories -/

/-- The operations of a client of `PointerObjectSet`; the lookups are included because they
compress paths. -/
inductive POp where
  | add (kind : Kind) (canPoint : Bool)
  | lookup (i : Nat)
  | unify (a b : Nat)
  | addPointee (p x : Nat)
  | makeSuperset (sup sub : Nat)
  | removeAll (i : Nat)
  | markPE (i : Nat)
  | markPTE (i : Nat)
  | markSS (i : Nat)
  | markLS (i : Nat)
  | markEscaped (i : Nat)

/-- one operation on the forest: its result (root index, or whether anything changed as 0/1) -/
def PSet.step (s : PSet) : POp → Option (Nat × PSet)
  | .add k c => s.add k c
  | .lookup i => s.root i
  | .unify a b => s.unify a b
  | .addPointee p x => (s.addPointee p x).map fun (b, s) => (b.toNat, s)
  | .makeSuperset a b => (s.makeSuperset a b).map fun (b, s) => (b.toNat, s)
  | .removeAll i => (s.removeAll i).map fun s => (0, s)
  | .markPE i => (s.markPE i).map fun (b, s) => (b.toNat, s)
  | .markPTE i => (s.markPTE i).map fun (b, s) => (b.toNat, s)
  | .markSS i => (s.markSS i).map fun (b, s) => (b.toNat, s)
  | .markLS i => (s.markLS i).map fun (b, s) => (b.toNat, s)
  | .markEscaped i => (s.markEscaped i).map fun (b, s) => (b.toNat, s)

/-- the same on the set with root functions -/
def RSet.step (s : RSet) : POp → Nat × RSet
  | .add k c => (s.n, s.add k c)
  | .lookup i => (s.root i, s)
  | .unify a b => s.unify a b
  | .addPointee p x => ((s.addPointee p x).1.toNat, (s.addPointee p x).2)
  | .makeSuperset a b => ((s.makeSuperset a b).1.toNat, (s.makeSuperset a b).2)
  | .removeAll i => (0, s.removeAll i)
  | .markPE i => ((s.markPE i).1.toNat, (s.markPE i).2)
  | .markPTE i => ((s.markPTE i).1.toNat, (s.markPTE i).2)
  | .markSS i => ((s.markSS i).1.toNat, (s.markSS i).2)
  | .markLS i => ((s.markLS i).1.toNat, (s.markLS i).2)
  | .markEscaped i => ((s.markEscaped i).1.toNat, (s.markEscaped i).2)

def PSet.run (s : PSet) : List POp → Option PSet
  | [] => some s
  | op :: ops => (s.step op).bind fun (_, s) => s.run ops

def RSet.run (s : RSet) : List POp → RSet
  | [] => s
  | op :: ops => (s.step op).2.run ops

end Jlm.Llvm.Aa
