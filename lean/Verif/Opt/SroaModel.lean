import Verif.Llvm.LayoutModel

/-!
# Model of aggregate alloca splitting

`jlm/llvm/opt/AggregateAllocaSplitting.cpp`: an alloca of a struct whose address is only used by constant GetElementPtr operations, whose
results are only used as addresses of loads and stores, is replaced by one alloca for each element.

*Simplifications.*
* Nodes are listed in an order in which they may be executed, and memory states are left out: the states of the new allocas are merged into
  the state of the old one (cpp:541-550), so that loads and stores keep their order.
* Regions may use outputs of outer regions directly: entry variables, invariant loop variables, and `RouteToRegion` (node.cpp:380-421) are
  left out, except for the exception if the alloca is not in the region or in one of its ancestors. An alloca that comes later in the list
  is treated in the same way.
* The removal of the nodes that have become dead (cpp:590) is left out (see C19, C27).
* Allocas whose count is not a constant, and the other operations, are `Node.op`.
-/

namespace Jlm.Opt.Sroa

open Jlm.Llvm.Layout

/-- Loop variables. -/
structure LV where
  inp : Nat
  pre : Nat
  post : Nat
  out : Nat

/-- Nodes; numbers are outputs. -/
inductive Node
  /-- everything else, for example calls -/
  | op (f : Nat) (args outs : List Nat)
  /-- `AllocaOperation` with a constant count; `els` are the types of the new allocas (empty in original programs), whose outputs are only
  used by `elem` -/
  | alloca (n : Nat) (ty : Ty) (cnt : Nat) (els : List Ty)
  /-- `GetElementPtrOperation` with constant indices -/
  | gep (base : Nat) (ty : Ty) (idxs : List Int) (out : Nat)
  /-- a `GetElementPtrOperation` that has been replaced by the address of the new alloca number `i` of the alloca `n` -/
  | elem (n i : Nat) (out : Nat)
  /-- `LoadOperation` -/
  | load (addr : Nat) (ty : Ty) (out : Nat)
  /-- `StoreOperation` -/
  | store (addr val : Nat) (ty : Ty)
  /-- `IOBarrierOperation` -/
  | barrier (inp out : Nat)
  /-- gamma nodes: predicate, regions, and exit variables (output, results) -/
  | gamma (pred : Nat) (brs : List (List Node)) (exits : List (Nat × List Nat))
  /-- theta nodes: loop variables, region, predicate -/
  | theta (vars : List LV) (body : List Node) (pred : Nat)

/-- The body of a function. -/
structure Fun where
  body : List Node
  results : List Nat

/-! ## Types -/

/-- `IsAggregateType` (types.hpp:531-534). -/
def isAggregate : Ty → Bool
  | .arr _ _ => true
  | .struct _ _ => true
  | _ => false

mutual

/-- `isSplitableType` (cpp:99-118). -/
def isSplitableType : Ty → Bool
  | .struct _ fs => firstAggregate fs
  | _ => false

/-- The loop over the elements: it returns at the first aggregate. -/
def firstAggregate : List Ty → Bool
  | [] => true
  | f :: fs => if isAggregate f then isSplitableType f else firstAggregate fs

end

mutual

/-- `createElementAllocaNodes` (cpp:491-530): the indices and types of the new allocas, in the order in which they are created. -/
def leaves : Ty → List Int → List (List Int × Ty)
  | .struct _ fs, path => leavesF fs path 0
  | t, path => [(path, t)]

def leavesF : List Ty → List Int → Nat → List (List Int × Ty)
  | [], _, _ => []
  | f :: fs, path, i => leaves f (path ++ [(i : Int)]) ++ leavesF fs path (i + 1)

end

/-- The elements of a type; the first index is 0. -/
def elements (t : Ty) : List (List Int × Ty) := leaves t [0]

/-! ## Users -/

/-- The kinds of users of an output. -/
inductive Use
  /-- a result of a region, or an input of a theta node: these outputs get the value -/
  | flow (outs : List Nat)
  | gep (out : Nat) (idxs : List Int)
  | load
  | storeAddr
  | storeVal
  | barrier (out : Nat)
  /-- the result of the lambda node -/
  | result
  | other

mutual

def Node.uses : Node → List (Nat × Use)
  | .op _ args _ => args.map (·, .other)
  | .alloca _ _ _ _ => []
  | .gep base _ idxs out => [(base, .gep out idxs)]
  | .elem _ _ _ => []
  | .load a _ _ => [(a, .load)]
  | .store a v _ => [(a, .storeAddr), (v, .storeVal)]
  | .barrier i o => [(i, .barrier o)]
  | .gamma p brs exits => (p, .other) :: (usesB brs ++ exits.flatMap fun x => x.2.map (·, .flow [x.1]))
  | .theta vars body p => (p, .other) :: (usesL body ++ vars.flatMap fun v => [(v.inp, .flow [v.pre]), (v.post, .flow [v.pre, v.out])])

def usesL : List Node → List (Nat × Use)
  | [] => []
  | n :: ns => n.uses ++ usesL ns

def usesB : List (List Node) → List (Nat × Use)
  | [] => []
  | b :: bs => usesL b ++ usesB bs

end

def Fun.uses (f : Fun) : List (Nat × Use) := usesL f.body ++ f.results.map (·, .result)

/-- `Output::Users`. -/
def users (us : List (Nat × Use)) (x : Nat) : List Use := us.filterMap fun u => if u.1 = x then some u.2 else none

/-! ## Tracing -/

/-- `addToVisitSet` (cpp:143-150, 287-294). -/
def push : List Nat → List Nat → List Nat → List Nat × List Nat
  | q, seen, [] => (q, seen)
  | q, seen, o :: os => if seen.contains o then push q seen os else push (q ++ [o]) (seen ++ [o]) os

abbrev Gep := Nat × List Int

/-- The users of an output: what they reach; `none`: not splitable. -/
def visit (cls : Use → Option (List Nat × List Gep)) : List Use → List Nat → List Nat → List Gep → Option (List Nat × List Nat × List Gep)
  | [], q, seen, gs => some (q, seen, gs)
  | u :: us, q, seen, gs =>
    match cls u with
    | none => none
    | some (outs, g) => visit cls us (push q seen outs).1 (push q seen outs).2 (gs ++ g)

/-- The loop of `isSplitable` (cpp:158-247) and `checkGetElementPtrUsers` (cpp:302-391): the outputs that have been seen, and the
consumers. `none`: not splitable, or the bound is too small. -/
def trace (us : List (Nat × Use)) (cls : Use → Option (List Nat × List Gep)) :
    Nat → List Nat → List Nat → List Gep → Option (List Nat × List Gep)
  | 0, _, _, _ => none
  | _ + 1, [], seen, gs => some (seen, gs)
  | k + 1, x :: q, seen, gs =>
    match visit cls (users us x) q seen gs with
    | none => none
    | some (q, seen, gs) => trace us cls k q seen gs

/-- Users of the address of the alloca (cpp:171-245). -/
def clsAlloca : Use → Option (List Nat × List Gep)
  | .flow outs => some (outs, [])
  | .gep out idxs => some ([], [(out, idxs)])
  | _ => none

/-- Users of the address of an element (cpp:314-389). -/
def clsGep : Use → Option (List Nat × List Gep)
  | .flow outs => some (outs, [])
  | .load => some ([], [])
  | .storeAddr => some ([], [])
  | .barrier out => some ([out], [])
  | _ => none

/-- `AllocaTraceInfo` (cpp:77-86), with the outputs that have been seen. -/
structure Info where
  n : Nat
  ty : Ty
  cons : List Gep
  seenA : List Nat
  seenP : List Nat

/-- All the consumers (cpp:252-258). -/
def checkAll (us : List (Nat × Use)) (k : Nat) : List Gep → Option (List Nat)
  | [] => some []
  | g :: gs =>
    match trace us clsGep k [g.1] [] [] with
    | none => none
    | some (seen, _) =>
      match checkAll us k gs with
      | none => none
      | some rest => some (g.1 :: seen ++ rest)

/-- `isSplitable` (cpp:120-261). -/
def isSplitable (us : List (Nat × Use)) (k n : Nat) (ty : Ty) (cnt : Nat) : Option Info :=
  if isSplitableType ty && cnt == 1 then
    match trace us clsAlloca k [n] [] [] with
    | none => none
    | some (seen, gs) =>
      match checkAll us k gs with
      | none => none
      | some p => some ⟨n, ty, gs, n :: seen, p⟩
  else none

mutual

/-- `findSplitableAllocaNodes` (cpp:395-474). -/
def Node.find (us : List (Nat × Use)) (k : Nat) : Node → List Info
  | .alloca n ty cnt _ => (isSplitable us k n ty cnt).toList
  | .gamma _ brs _ => findB us k brs
  | .theta _ body _ => findL us k body
  | _ => []

def findL (us : List (Nat × Use)) (k : Nat) : List Node → List Info
  | [] => []
  | n :: ns => n.find us k ++ findL us k ns

def findB (us : List (Nat × Use)) (k : Nat) : List (List Node) → List Info
  | [] => []
  | b :: bs => findL us k b ++ findB us k bs

end

/-! ## Splitting -/

/-- The first alloca of which the node is a consumer: later ones find no users (cpp:570). -/
def consumer (pl : List Info) (out : Nat) : Option Info := pl.find? fun i => i.cons.any (·.1 == out)

/-- `elementAllocaMap.at` (cpp:564): the number of the element with these indices. -/
def elementIdx (els : List (List Int × Ty)) (idxs : List Int) : Option Nat := els.findIdx? (·.1 == idxs)

/-- The allocas of the list that are visible after the node. -/
def Node.vis (pl : List Info) : Node → List Nat
  | .alloca n _ _ _ => if pl.any (·.n == n) then [n] else []
  | _ => []

mutual

/-- `splitAllocaNode` (cpp:532-579) for all the allocas of the list; `vis` are those that are visible. `none`: an exception. -/
def Node.split (pl : List Info) (vis : List Nat) : Node → Option Node
  | .alloca n ty cnt els =>
    some (match pl.find? (·.n == n) with
      | some i => .alloca n ty cnt ((elements i.ty).map (·.2))
      | none => .alloca n ty cnt els)
  | .gep base ty idxs out =>
    match consumer pl out with
    | none => some (.gep base ty idxs out)
    | some i =>
      match elementIdx (elements i.ty) idxs with
      | none => none
      | some j => if vis.contains i.n then some (.elem i.n j out) else none
  | .gamma p brs exits => (splitB pl vis brs).map fun brs => .gamma p brs exits
  | .theta vars body p => (splitL pl vis body).map fun body => .theta vars body p
  | nd => some nd

def splitL (pl : List Info) (vis : List Nat) : List Node → Option (List Node)
  | [] => some []
  | n :: ns =>
    match n.split pl vis, splitL pl (n.vis pl ++ vis) ns with
    | some n, some ns => some (n :: ns)
    | _, _ => none

def splitB (pl : List Info) (vis : List Nat) : List (List Node) → Option (List (List Node))
  | [] => some []
  | b :: bs =>
    match splitL pl vis b, splitB pl vis bs with
    | some b, some bs => some (b :: bs)
    | _, _ => none

end

/-- The allocas that are split. -/
def Fun.plan (f : Fun) (k : Nat) : List Info := findL f.uses k f.body

/-- `splitAllocaNodes` (cpp:581-591). -/
def Fun.split (f : Fun) (k : Nat) : Option Fun := (splitL (f.plan k) [] f.body).map fun body => ⟨body, f.results⟩

end Jlm.Opt.Sroa
