/-
Model of jlm/llvm/opt/IOBarrierElimination.cpp, and of the decision of
`LoadNonVolatileOperation::normalizeIOBarrierAddress` (jlm/llvm/ir/operators/Load.cpp:366-398).

Simplifications: nodes and regions are numbers; an operation is a non-volatile load with the store
size of its type, an I/O barrier, a lambda or a phi with its subregion, or something else (the pass does
not look into gamma and theta nodes). A node has the list of the origins of its inputs. The hash map
`dereferenceableOutputs_` is a partial function. The traversal of markRegion visits every node of a
region once (C17), in an order that is an argument here. `region.prune(false)` at the end of
`sweepRegion` (C19) is not modelled. The recursion is bounded by an argument that is at least the depth of the
nesting. Statistics are dropped.
-/
namespace Jlm.Opt.Iobe

/-- where an input takes its value from: output `i` of node `n`, or argument `i` of region `r` -/
inductive Org where
  | out (n i : Nat)
  | arg (r i : Nat)
deriving DecidableEq, Repr

inductive Kind where
  | load (size : Nat)
  | barrier
  | lambda (sub : Nat)
  | phi (sub : Nat)
  | other
deriving DecidableEq, Repr

/-- `lam r`: region `r` is the body of a lambda node -/
structure Graph where
  op : Nat → Kind
  inp : Nat → List Org
  nodes : Nat → List Nat
  lam : Nat → Bool

variable (G : Graph)

def Graph.origin (n i : Nat) : Org := (G.inp n).getD i (.arg 0 0)

/-- `LoadOperation::AddressInput`, `IOBarrierOperation::BarredInput` (IOBarrier.hpp:69-75) -/
def Graph.addr (n : Nat) : Org := G.origin n 0

/-- `IOBarrierOperation::getIOStateInput`, IOBarrier.hpp:77-84 -/
def Graph.io (n : Nat) : Org := G.origin n 1

/-- `TryGetSimpleNodeAndOptionalOp<IOBarrierOperation>` -/
def Graph.barrier? (o : Org) : Option Nat :=
  match o with
  | .out n _ => if G.op n = .barrier then some n else none
  | .arg _ _ => none

/-- `TryGetRegionParentNode<LambdaNode>`: the origin is an argument of the body of a lambda -/
def Graph.isLambdaArg (o : Org) : Bool :=
  match o with
  | .arg r _ => G.lam r
  | .out _ _ => false

abbrev Ctx := Org → Option Nat

/-- `Context::markDereferenceable`, cpp:66-79 -/
def mark (c : Ctx) (o : Org) (size : Nat) : Ctx := fun o' =>
  if o' = o then
    match c o with
    | none => some size
    | some z => if z < size then some size else some z
  else c o'

/-- the case of a load in `markNode`, cpp:159-182 -/
def markLoad (n size : Nat) (c : Ctx) : Ctx :=
  match G.barrier? (G.addr n) with
  | some b => if G.isLambdaArg (G.io b) then mark c (G.addr b) size else c
  | none => mark c (G.addr n) size

/-- `markRegion` and `markNode`, cpp:136-184 -/
def markRegion (order : Nat → List Nat) : Nat → Nat → Ctx → Ctx
  | 0, _, c => c
  | f + 1, r, c => (order r).foldl (fun c n =>
      match G.op n with
      | .phi s => markRegion order f s c
      | .lambda s => markRegion order f s c
      | .load size => markLoad G n size c
      | _ => c) c

/-- `divert_to` on the address of a load -/
def Graph.setAddr (n : Nat) (o : Org) : Graph :=
  { G with inp := fun m => if m = n then (G.inp n).set 0 o else G.inp m }

/-- the case of a load in `sweepRegion`, cpp:203-219 -/
def sweepLoad (c : Ctx) (n size : Nat) : Graph :=
  match G.barrier? (G.addr n) with
  | none => G
  | some b =>
    match c (G.addr b) with
    | none => G
    | some z => if z < size then G else G.setAddr n (G.addr b)

/-- `sweepRegion`, cpp:186-223 -/
def sweepRegion (c : Ctx) : Nat → Nat → Graph → Graph
  | 0, _, G => G
  | f + 1, r, G => (G.nodes r).foldl (fun G n =>
      match G.op n with
      | .phi s => sweepRegion c f s G
      | .lambda s => sweepRegion c f s G
      | .load size => sweepLoad G c n size
      | _ => G) G

/-- `IOBarrierElimination::Run`, cpp:112-134: region 0 is the root region -/
def eliminate (order : Nat → List Nat) (fuel : Nat) : Graph :=
  sweepRegion (markRegion G order fuel 0 fun _ => none) fuel 0 G

/-- the test of `normalizeIOBarrierAddress`, Load.cpp:382-396: the barrier of a load of `size` bytes at
a constant `offset` in an allocation of `alloc` bytes is removed; the offset is added as a `size_t` -/
def removable (alloc : Option Nat) (offset : Option Int) (size : Nat) : Bool :=
  match alloc with
  | none => false
  | some a =>
    let off := match offset with
      | some o => (o % 2 ^ 64).toNat
      | none => 0
    !((off + size) % 2 ^ 64 > a)

end Jlm.Opt.Iobe
