import Verif.Front.CfgModel

/-!
# RVSDG to control flow graph: the bodies of functions (model)

Model of `CreateControlFlowGraph` and of the functions it calls in
`jlm/llvm/backend/RvsdgToIpGraphConverter.cpp` (RC below).

* An RVSDG output is a name (`Verif/Opt/Tree.lean`), and the variable that /repo creates for an output (the result
  of a three address code, or an `Argument`) has the name of that output. Variables of other functions and of
  global data, which context variables refer to, are further names.
* `none`: an assertion fails.
* A region is a list of nodes in the order in which `TopDownTraverser` visits them (C17 is about that order).
* Types, attributes, names and the type assertion of RC:57 are not modelled.
-/

namespace Jlm.Back

open Jlm.Opt Jlm.Front

/-- `BasicBlock` (jlm/llvm/ir/basic-block.hpp): phi operations, which come first, the other three address codes,
and the sinks of the out-edges. -/
structure Block where
  phis : List Phi
  code : List Tac
  succs : List Nat

/-- The control flow graph under construction. -/
structure G where
  /-- number of nodes that have been created -/
  next : Nat
  blk : Nat → Block
  /-- `LastProcessedBasicBlock` -/
  last : Nat

/-- `BasicBlock::create`: the new block is `g.next`. -/
def G.new (g : G) : G :=
  { g with next := g.next + 1, blk := fun b => if b = g.next then ⟨[], [], []⟩ else g.blk b }

/-- `SetLastProcessedBasicBlock` (RC:77-81). -/
def G.setLast (g : G) (b : Nat) : G := { g with last := b }

/-- `add_outedge` (jlm/llvm/ir/cfg-node.hpp). -/
def G.edge (g : G) (b c : Nat) : G :=
  { g with blk := fun z => if z = b then { g.blk b with succs := (g.blk b).succs ++ [c] } else g.blk z }

/-- `append_last` of an operation that is no phi operation. -/
def G.append (g : G) (b : Nat) (t : Tac) : G :=
  { g with blk := fun z => if z = b then { g.blk b with code := (g.blk b).code ++ [t] } else g.blk z }

/-- `append_last` of a phi operation. -/
def G.addPhi (g : G) (b : Nat) (p : Phi) : G :=
  { g with blk := fun z => if z = b then { g.blk b with phis := (g.blk b).phis ++ [p] } else g.blk z }

/-- A new block, an edge to it, and it is the last processed block (RC:198-200, RC:205-207, RC:356-359). -/
def G.openBlock (g : G) : G := (g.new.edge g.last g.next).setLast g.next

/-- `RvsdgToIpGraphConverter::Context` (RC:29-103). -/
structure BS where
  g : G
  /-- `VariableMap_` -/
  vm : Out → Option Var

/-- `InsertVariable` (RC:53-59). -/
def BS.insert (S : BS) (o : Out) (v : Var) : Option BS :=
  if (S.vm o).isSome then none else some { S with vm := fun x => if x = o then some v else S.vm x }

/-- Several calls of `InsertVariable`. -/
def BS.insertAll (S : BS) : List (Out × Var) → Option BS
  | [] => some S
  | (o, v) :: l => (S.insert o v).bind fun S => S.insertAll l

/-- Several calls of `GetVariable` (RC:61-67). -/
def BS.getAll (S : BS) : List Out → Option (List Var)
  | [] => some []
  | o :: os => (S.vm o).bind fun v => (S.getAll os).map fun vs => v :: vs

/-- The origins of the results of each branch of a gamma node. -/
def Regions.results : Regions → List (List Out)
  | .nil => []
  | .cons _ results _ rest => results :: Regions.results rest

/-- The loop over the outputs of a gamma node (RC:308-333): `ends` are the last blocks of the branches, `x` is
the exit block, `rss` are the origins of the results that have not been handled. -/
def gammaOuts (ends : List Nat) (x : Nat) : List Out → List (List Out) → BS → Option BS
  | [], _, S => some S
  | o :: outs, rss, S =>
      (S.getAll (rss.map fun rs => rs.headD 0)).bind fun vs =>
        if vs.all (fun v => v == vs.headD 0) then
          (S.insert o (vs.headD 0)).bind (gammaOuts ends x outs (rss.map List.tail))
        else
          (BS.insert { S with g := S.g.addPhi x ⟨o, ends.zip vs⟩ } o o).bind (gammaOuts ends x outs (rss.map List.tail))

/-- `RequiresSsaPhiOperation` (RC:338-348) for the loop variable `(arg, post)`: `nusers` counts the inputs of the
nodes and the results of the region. -/
def needsPhi (sub : Nodes) (results : List Out) (arg post : Out) : Bool :=
  post != arg && (sub.ins.contains arg || results.contains arg)

/-- A loop variable: input origin, argument, origin of the post result, output. -/
abbrev LoopVar := Out × Out × Out × Out

def loopVars (ins args posts outs : List Out) : List LoopVar := ins.zip (args.zip (posts.zip outs))

/-- The first loop over the loop variables (RC:362-372). The phi operations are created by the second loop, when
their operands are known. -/
def thetaArgs (need : Out → Out → Bool) : List LoopVar → BS → Option BS
  | [], S => some S
  | (i, a, p, _) :: l, S =>
      (S.vm i).bind fun v => (S.insert a (if need a p then a else v)).bind (thetaArgs need l)

/-- The second loop over the loop variables (RC:378-393): `pre` and `l` are the predecessors of the entry block
`e` of the loop. -/
def thetaOuts (need : Out → Out → Bool) (pre e l : Nat) : List LoopVar → BS → Option BS
  | [], S => some S
  | (i, a, p, o) :: lv, S =>
      (S.vm p).bind fun rv => (S.insert o rv).bind fun S =>
        if need a p then
          (S.vm i).bind fun ev => thetaOuts need pre e l lv { S with g := S.g.addPhi e ⟨a, [(pre, ev), (l, rv)]⟩ }
        else thetaOuts need pre e l lv S

/-- RC:282-287: entry and exit block of a gamma node. -/
def G.openGamma (g : G) (p : Var) : G := (g.new.new.edge g.last g.next).append g.next (.branch p)

/-- RC:396-404: the end of a theta node with entry block `e`. -/
def G.closeTheta (g : G) (e : Nat) (p : Var) : G :=
  ((((g.append g.last (.branch p)).new).edge g.last g.next).edge g.last e).setLast g.next

/-- RC:300-303 and RC:198-200: the blocks at the beginning of a branch of a gamma node with entry block `e`. -/
def G.openBranch (g : G) (e : Nat) : G := ((g.new.edge e g.next).setLast g.next).openBlock

mutual

/-- `ConvertNode` (RC:571-602) for the nodes of function bodies. -/
def convNode : Node → BS → Option BS
  /- `ConvertSimpleNode` (RC:256-273) -/
  | .simple op ins outs, S =>
      (S.getAll ins).bind fun vs =>
        BS.insertAll { S with g := S.g.append S.g.last (.op op vs outs) } (outs.map fun o => (o, o))
  /- `ConvertGammaNode` (RC:275-336) -/
  | .gamma pred ins outs subs, S =>
      (S.vm pred).bind fun p =>
      (convRegions S.g.next (S.g.next + 1) ins subs { S with g := S.g.openGamma p }).bind fun r =>
      (gammaOuts r.2 (S.g.next + 1) outs (Regions.results subs) r.1).map fun S' =>
        { S' with g := S'.g.setLast (S.g.next + 1) }
  /- `ConvertThetaNode` (RC:350-405) -/
  | .theta ins outs args pred posts sub, S =>
      (thetaArgs (needsPhi sub (pred :: posts)) (loopVars ins args posts outs)
        { S with g := S.g.openBlock }).bind fun S1 =>
      (convNodes sub { S1 with g := S1.g.openBlock }).bind fun S2 =>
      (thetaOuts (needsPhi sub (pred :: posts)) S.g.last S.g.next S2.g.next (loopVars ins args posts outs)
        { S2 with g := S2.g.openBlock }).bind fun S3 =>
      (S3.vm pred).map fun p => { S3 with g := S3.g.closeTheta S.g.next p }
  | .lambda .., _ => none
  | .phi .., _ => none
  | .delta .., _ => none

/-- The loop over the nodes of a region in `ConvertRegion` (RC:202-203). -/
def convNodes : Nodes → BS → Option BS
  | .nil, S => some S
  | .cons n ns, S => (convNode n S).bind (convNodes ns)

/-- The loop over the branches of a gamma node (RC:289-306): `e` and `x` are entry and exit block of the gamma
node; the result contains `phi_nodes`. A branch is converted by `ConvertRegion` (RC:195-208). -/
def convRegions (e x : Nat) (ins : List Out) : Regions → BS → Option (BS × List Nat)
  | .nil, S => some (S, [])
  | .cons args _ sub rest, S =>
      (S.getAll ins).bind fun vs =>
      (S.insertAll (args.tail.zip vs)).bind fun S0 =>
      (convNodes sub { S0 with g := S0.g.openBranch e }).bind fun S1 =>
      (convRegions e x ins rest { S1 with g := S1.g.openBlock.edge S1.g.next x }).map fun r => (r.1, S1.g.next :: r.2)

end

/-- `LambdaNode` (jlm/rvsdg/lambda.hpp): the function arguments, the arguments of the context variables with the
variables of their origins, the body and the function results. -/
structure Fn where
  params : List Out
  ctx : List (Out × Var)
  body : Nodes
  results : List Out

/-- The nodes of a control flow graph, in the order in which they have been created. -/
def G.toCfg (g : G) : PCfg where
  nodes := List.range g.next
  code b := (g.blk b).code
  succs b := (g.blk b).succs
  entry := 0
  exit := 1
  phis b := (g.blk b).phis

/-- `ControlFlowGraph::create` (jlm/llvm/ir/cfg.cpp:27-33) and RC:216-218: entry node 0, exit node 1, and the first
block 2. -/
def G.init : G where
  next := 3
  blk b := ⟨[], [], if b = 0 then [2] else []⟩
  last := 2

/-- RC:221-245: the control flow graph before `straighten`, and the variables of the results of the exit node. -/
def buildCfg (f : Fn) : Option (PCfg × List Var) :=
  (BS.insertAll ⟨G.init, fun _ => none⟩ (f.params.map fun o => (o, o))).bind fun S0 =>
  (S0.insertAll f.ctx).bind fun S1 =>
  (convNodes f.body { S1 with g := S1.g.openBlock }).bind fun S2 =>
  (S2.getAll f.results).map fun vs => ((S2.g.openBlock.edge S2.g.next 1).toCfg, vs)

/-- `CreateControlFlowGraph` (RC:210-254). -/
def createCfg (f : Fn) : Option (PCfg × List Var) := (buildCfg f).map fun r => (straighten r.1, r.2)

end Jlm.Back
