import Verif.Aa.PointerSetModel
/-
Model of jlm/llvm/opt/alias-analyses/PointsToGraph.{hpp,cpp} (class `PointsToGraph`),
PointsToGraphAliasAnalysis.cpp (class `PointsToGraphAliasAnalysis`) and
`Andersen::ConstructPointsToGraphFromPointerObjectSet` (Andersen.cpp:1684-1778).

Simplifications: the vectors `nodeData_`, `nodeExplicitTargets_` and `nodeObjects_` (which always
have equal length) are functions together with their length; `util::HashSet` is a duplicate free
list; a `std::unordered_map` is an association list in the order of insertion; RVSDG objects are
numbers, and the facts the graph asks an RVSDG object for are arguments. The five maps from RVSDG
objects to nodes are one function from the kind to a map. Node indices are not limited to 32 bits.
An exception and a failed `JLM_ASSERT` are `none`. Debug strings and dumping are not modelled.
-/
namespace Jlm.Llvm.Aa.Ptg
open Jlm.Llvm.Aa

/-- `PointsToGraph::NodeKind`, PointsToGraph.hpp:54-66 -/
inductive NodeKind where
  | register | alloca | delta | imported | lambda | malloc | external
deriving DecidableEq, Repr

/-- `PointsToGraph::NodeData`, PointsToGraph.hpp:70-87. `size` is the bit field of 10 bits. -/
structure NodeData where
  kind : NodeKind
  ext : Bool
  all : Bool
  const : Bool
  size : Nat
deriving DecidableEq, Repr

/-- `UnknownMemorySize`, PointsToGraph.hpp:87 -/
def unknownSize : Nat := 1023

/-- the constructor of `NodeData`, PointsToGraph.hpp:89-102 -/
def NodeData.new (kind : NodeKind) (ext all const : Bool) (size : Option Nat) : NodeData :=
  { kind := kind, ext := ext, all := all, const := const
    size := match size with
      | some z => if z < unknownSize then z else unknownSize
      | none => unknownSize }

/-- the data members of `PointsToGraph`, PointsToGraph.hpp:816-839 -/
structure Graph where
  n : Nat
  data : Nat → NodeData
  targets : Nat → List Nat
  obj : Nat → Nat
  map : NodeKind → List (Nat × Nat)
  regMap : List (Nat × Nat)
  regNodes : List Nat
  extNodes : List Nat
  numAll : Nat

namespace Graph

/-- `addNode`, PointsToGraph.cpp:473-493 -/
def addNode (g : Graph) (kind : NodeKind) (ext const : Bool) (size : Option Nat) (obj : Nat) : Nat × Graph :=
  (g.n, { g with
    n := g.n + 1
    data := upd g.data g.n (NodeData.new kind ext false const size)
    targets := upd g.targets g.n []
    obj := upd g.obj g.n obj
    extNodes := if ext then g.extNodes ++ [g.n] else g.extNodes })

/-- `markAsTargetsAllExternallyAvailable`, PointsToGraph.cpp:215-224 -/
def mark (g : Graph) (i : Nat) : Option Graph :=
  if i < g.n then
    some (if (g.data i).all then g
      else { g with numAll := g.numAll + 1, data := upd g.data i { g.data i with all := true } })
  else none

/-- the vectors before the constructor runs -/
def blank : Graph :=
  { n := 0, data := fun _ => NodeData.new .register false false false none, targets := fun _ => [], obj := fun _ => 0
    map := fun _ => [], regMap := [], regNodes := [], extNodes := [], numAll := 0 }

/-- `externalMemoryNode`, PointsToGraph.hpp:52 -/
def externalNode : Nat := 0

/-- the constructor, PointsToGraph.cpp:17-25 -/
def empty : Graph :=
  let (i, g) := blank.addNode .external true false none 0
  (g.mark i).getD g

/-- `try_emplace` of an object followed by `it->second = addNode(...)`, as in all of
`addNodeForAlloca` ... `addNodeForMalloc`; an object that is already there is an exception -/
def addObject (g : Graph) (kind : NodeKind) (ext const : Bool) (size : Option Nat) (obj : Nat) : Option (Nat × Graph) :=
  if ((g.map kind).lookup obj).isSome then none
  else
    let (i, g) := g.addNode kind ext const size obj
    some (i, { g with map := fun k => if k = kind then g.map k ++ [(obj, i)] else g.map k })

/-- the product of an `int64_t` that is not negative and a `size_t` -/
def mulSize (a b : Nat) : Nat := a * b % 2 ^ 64

/-- `getMemorySize` in `addNodeForAlloca`, PointsToGraph.cpp:79-90: `count` is the signed value of
the number of elements, if it is a constant, `elem` the allocation size of the element type -/
def allocaSize (count : Option Int) (elem : Nat) : Option Nat :=
  match count with
  | some c => if c ≥ 0 then some (mulSize c.toNat elem) else none
  | none => none

/-- `addNodeForAlloca`, PointsToGraph.cpp:69-98 -/
def addAlloca (g : Graph) (obj : Nat) (ext : Bool) (count : Option Int) (elem : Nat) : Option (Nat × Graph) :=
  g.addObject .alloca ext false (allocaSize count elem) obj

/-- `addNodeForDelta`, PointsToGraph.cpp:100-112 -/
def addDelta (g : Graph) (obj : Nat) (ext const : Bool) (size : Nat) : Option (Nat × Graph) :=
  g.addObject .delta ext const (some size) obj

/-- `getMemorySize` in `addNodeForImport`, PointsToGraph.cpp:128-142 -/
def importSize (llvm : Option (Bool × Nat)) : Option Nat :=
  match llvm with
  | some (_, z) => if z ≠ 0 then some z else none
  | none => none

/-- `isConstant` in `addNodeForImport`, PointsToGraph.cpp:121-126 -/
def importConst (llvm : Option (Bool × Nat)) : Bool :=
  match llvm with
  | some (c, _) => c
  | none => false

/-- `addNodeForImport`, PointsToGraph.cpp:114-150: `llvm` is the constness and the allocation size
of the value type if the import is an `LlvmGraphImport` -/
def addImport (g : Graph) (obj : Nat) (ext : Bool) (llvm : Option (Bool × Nat)) : Option (Nat × Graph) :=
  g.addObject .imported ext (importConst llvm) (importSize llvm) obj

/-- `addNodeForLambda`, PointsToGraph.cpp:152-162 -/
def addLambda (g : Graph) (obj : Nat) (ext : Bool) : Option (Nat × Graph) :=
  g.addObject .lambda ext true (some 0) obj

/-- `tryGetMemorySize` in `addNodeForMalloc`, PointsToGraph.cpp:174-184 -/
def mallocSize (size : Option Int) : Option Nat :=
  match size with
  | some c => if c ≥ 0 then some c.toNat else none
  | none => none

/-- `addNodeForMalloc`, PointsToGraph.cpp:164-192 -/
def addMalloc (g : Graph) (obj : Nat) (ext : Bool) (size : Option Int) : Option (Nat × Graph) :=
  g.addObject .malloc ext false (mallocSize size) obj

/-- `addNodeForRegisters`, PointsToGraph.cpp:194-202 -/
def addRegisters (g : Graph) : Nat × Graph :=
  let (i, g) := g.addNode .register false true none 0
  (i, { g with regNodes := g.regNodes ++ [i] })

/-- `mapRegisterToNode`, PointsToGraph.cpp:204-213 -/
def mapRegister (g : Graph) (out i : Nat) : Option Graph :=
  if i < g.n ∧ (g.data i).kind = .register then
    if (g.regMap.lookup out).isSome then none
    else some { g with regMap := g.regMap ++ [(out, i)] }
  else none

/-- `tryGetNodeSize`, PointsToGraph.hpp:515-523 -/
def nodeSize (g : Graph) (i : Nat) : Option Nat :=
  if (g.data i).size = unknownSize then none else some (g.data i).size

/-- `isTargeting`, PointsToGraph.hpp:550-556 -/
def isTargeting (g : Graph) (s t : Nat) : Bool :=
  if (g.data s).all && (g.data t).ext then true else (g.targets s).contains t

/-- `addTarget`, PointsToGraph.cpp:226-243 -/
def addTarget (g : Graph) (s t : Nat) : Option (Bool × Graph) :=
  if s < g.n ∧ t < g.n ∧ t ≠ externalNode ∧ s ≠ externalNode ∧ (g.data t).kind ≠ .register then
    if (g.data s).all && (g.data t).ext then some (false, g)
    else some (!(g.targets s).contains t, { g with targets := upd g.targets s (ins (g.targets s) t) })
  else none

/-- `numEdges`, PointsToGraph.cpp:245-267: the three counters over the nodes in `l` -/
def countEdges (g : Graph) : List Nat → Nat × Nat × Nat
  | [] => (0, 0, 0)
  | i :: l =>
    let (e, im, d) := countEdges g l
    ((g.targets i).length + e,
     (if (g.data i).all then g.extNodes.length else 0) + im,
     ((g.targets i).filter fun t => (g.data i).all && (g.data t).ext).length + d)

/-- `numEdges` -/
def numEdges (g : Graph) : Nat × Nat :=
  let (e, im, d) := g.countEdges (List.range g.n)
  (e, e + im - d)

/-- `getCorrespondingMemoryNode` in `isSupergraphOf`, PointsToGraph.cpp:329-375. A register node
is an exception there and is never asked for (`Inv.targetKind`); here there is no such node. -/
def corresponding (original other : Graph) (i : Nat) : Option Nat :=
  match (original.data i).kind with
  | .external => some externalNode
  | .register => none
  | k => (other.map k).lookup (original.obj i)

/-- the test for one explicit target in `isNodeSuperset`, PointsToGraph.cpp:394-413 -/
def targetCovered (super : Graph) (b : Nat) (sub : Graph) (t : Nat) : Bool :=
  match corresponding sub super t with
  | none => false
  | some t' =>
    if (super.targets b).contains t' then true
    else if (super.data b).all && (super.data t').ext then true
    else false

/-- `isNodeSuperset` in `isSupergraphOf`, PointsToGraph.cpp:379-416 -/
def nodeSuperset (super : Graph) (b : Nat) (sub : Graph) (a : Nat) : Bool :=
  if (sub.data a).ext && !(super.data b).ext then false
  else if (sub.data a).all && !(super.data b).all then false
  else (sub.targets a).all fun t => targetCovered super b sub t

/-- `hasSuperOfMemoryNode` in `isSupergraphOf`, PointsToGraph.cpp:421-428 -/
def hasSuper (super sub : Graph) (a : Nat) : Bool :=
  match corresponding sub super a with
  | none => false
  | some b => nodeSuperset super b sub a

/-- the loop over the mapped registers in `isSupergraphOf`, PointsToGraph.cpp:460-468 -/
def registerCovered (super sub : Graph) (e : Nat × Nat) : Bool :=
  match super.regMap.lookup e.1 with
  | none => false
  | some b => nodeSuperset super b sub e.2

/-- `isSupergraphOf`, PointsToGraph.cpp:323-471 -/
def isSupergraphOf (super sub : Graph) : Bool :=
  (sub.map .alloca).all (fun e => hasSuper super sub e.2) &&
  (sub.map .delta).all (fun e => hasSuper super sub e.2) &&
  (sub.map .imported).all (fun e => hasSuper super sub e.2) &&
  (sub.map .lambda).all (fun e => hasSuper super sub e.2) &&
  (sub.map .malloc).all (fun e => hasSuper super sub e.2) &&
  sub.regMap.all (fun e => registerCovered super sub e)

/-! ## Alias queries -/

/-- `AliasAnalysis::AliasQueryResponse` -/
inductive Response where
  | noAlias | mayAlias | mustAlias
deriving DecidableEq, Repr

/-- the test `targetSize.has_value() && *targetSize < size` of both loops below -/
def tooSmall (g : Graph) (t s : Nat) : Bool :=
  match g.nodeSize t with
  | some z => decide (z < s)
  | none => false

/-- the loop of `TryGetSingleTarget`, PointsToGraphAliasAnalysis.cpp:105-119: `none` is the early
`return std::nullopt` -/
def singleLoop (g : Graph) (s : Nat) : Option Nat → List Nat → Option Nat
  | acc, [] => acc
  | acc, t :: l =>
    if g.tooSmall t s then singleLoop g s acc l
    else if acc.isSome then none
    else singleLoop g s (some t) l

/-- `TryGetSingleTarget`, PointsToGraphAliasAnalysis.cpp:96-120 -/
def singleTarget (g : Graph) (i s : Nat) : Option Nat :=
  if (g.data i).all then none else singleLoop g s none (g.targets i)

/-- `IsRepresentingSingleMemoryLocation`, PointsToGraphAliasAnalysis.cpp:122-138. The exception for
other kinds (the external node, which is never an explicit target) is `false`. -/
def isSingleLocation (g : Graph) (i : Nat) : Bool :=
  match (g.data i).kind with
  | .delta | .lambda | .imported => true
  | _ => false

/-- the condition of the answer `MustAlias`, PointsToGraphAliasAnalysis.cpp:53-66 -/
def mustAlias (g : Graph) (a b s1 s2 : Nat) : Bool :=
  s1 == s2 &&
  match g.singleTarget a s1, g.singleTarget b s2 with
  | some t, some t' => t == t' && g.isSingleLocation t && g.nodeSize t == some s1
  | _, _ => false

/-- the last loop of `Query`, PointsToGraphAliasAnalysis.cpp:81-91 -/
def shareLoop (g : Graph) (other needed : Nat) : List Nat → Response
  | [] => .noAlias
  | t :: l =>
    if g.tooSmall t needed then shareLoop g other needed l
    else if g.isTargeting other t then .mayAlias
    else shareLoop g other needed l

/-- `Query` after the nodes of the registers are found, PointsToGraphAliasAnalysis.cpp:47-93 -/
def queryNodes (g : Graph) (a s1 b s2 : Nat) : Response :=
  if (g.data a).all && (g.data b).all then .mayAlias
  else if g.mustAlias a b s1 s2 then .mustAlias
  else
    let needed := max s1 s2
    let (only, other) := if (g.data a).all then (b, a) else (a, b)
    g.shareLoop other needed (g.targets only)

/-- `Query`, PointsToGraphAliasAnalysis.cpp:23-94 -/
def query (g : Graph) (p1 s1 p2 s2 : Nat) : Response :=
  if p1 = p2 then .mustAlias
  else
    match g.regMap.lookup p1 with
    | none => .mayAlias
    | some a =>
      match g.regMap.lookup p2 with
      | none => .mayAlias
      | some b => g.queryNodes a s1 b s2

end Graph

/-! ## Histories -/

/-- a call of a public function of the graph -/
inductive Op where
  | alloca (obj : Nat) (ext : Bool) (count : Option Int) (elem : Nat)
  | delta (obj : Nat) (ext const : Bool) (size : Nat)
  | imported (obj : Nat) (ext : Bool) (llvm : Option (Bool × Nat))
  | lambda (obj : Nat) (ext : Bool)
  | malloc (obj : Nat) (ext : Bool) (size : Option Int)
  | registers
  | mapRegister (out i : Nat)
  | mark (i : Nat)
  | target (s t : Nat)
deriving DecidableEq, Repr

/-- a call: the returned number (0 if there is none; 1 is `true`) and the new graph -/
def Graph.step (g : Graph) : Op → Option (Nat × Graph)
  | .alloca o e c z => g.addAlloca o e c z
  | .delta o e c z => g.addDelta o e c z
  | .imported o e l => g.addImport o e l
  | .lambda o e => g.addLambda o e
  | .malloc o e z => g.addMalloc o e z
  | .registers => some g.addRegisters
  | .mapRegister o i => (g.mapRegister o i).map fun g => (0, g)
  | .mark i => (g.mark i).map fun g => (0, g)
  | .target s t => (g.addTarget s t).map fun (b, g) => (if b then 1 else 0, g)

def Graph.run (g : Graph) : List Op → Option Graph
  | [] => some g
  | o :: l => (g.step o).bind fun (_, g) => g.run l

end Jlm.Llvm.Aa.Ptg
