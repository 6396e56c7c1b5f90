import Verif.Opt.Tree

/-!
# Model of dead node elimination (`jlm/llvm/opt/DeadNodeElimination.cpp`)

`Dne.run` models `DeadNodeElimination::Run`: a mark phase that follows the origins of everything
that is needed by the exports of the module, and a sweep phase that removes nodes, loop variables,
entry, exit, context and fix variables, and graph imports.

Simplifications.
* The bottom-up traverser of `sweepRegion` (cpp:374) is replaced by going through the topological
  order of the region backwards.
* Recursion of `markOutput` is bounded by fuel; `Verif/Opt/DneMark.lean` proves that it never
  runs out.
* Statistics and debug assertions are left out. That the assertions of the index based removal
  functions hold is a theorem (the swept graph is well-formed).
-/

namespace Jlm.Opt

/-- `Input::divert_to` for every input of a node (jlm/rvsdg/node.cpp:64 ff.): replace origins. -/
def Node.divert (τ : Out → Out) : Node → Node
  | .simple op ins outs => .simple op (ins.map τ) outs
  | .gamma pred ins outs subs => .gamma (τ pred) (ins.map τ) outs subs
  | .theta ins outs args pred posts sub => .theta (ins.map τ) outs args pred posts sub
  | .lambda ins args params results out sub => .lambda (ins.map τ) args params results out sub
  | .phi ins args recs results outs sub => .phi (ins.map τ) args recs results outs sub
  | .delta ins args result out sub => .delta (ins.map τ) args result out sub

/-- `Output::divert_users` (jlm/rvsdg/node.hpp:301 ff.) seen from the users that are nodes of the
region: replace the origins of all inputs. -/
def Nodes.divert (τ : Out → Out) : Nodes → Nodes
  | .nil => .nil
  | .cons n ns => .cons (n.divert τ) (ns.divert τ)

/-- Keep the elements whose bit is set: `Region::RemoveArguments`, `Region::RemoveResults`,
`Node::RemoveInputs`, `Node::RemoveOutputs` (jlm/rvsdg/region.cpp:213-310, jlm/rvsdg/node.cpp:306-375)
remove the elements at a set of indices and keep the order of the others. -/
def mask {α : Type} : List Bool → List α → List α
  | true :: bs, x :: xs => x :: mask bs xs
  | false :: bs, _ :: xs => mask bs xs
  | _, _ => []

namespace Dne

/-- How an output is defined, as far as `markOutput` is concerned. -/
inductive Def
  /-- output of a simple node (named by its first output) with inputs `ins` -/
  | node (key : Out) (ins : List Out)
  /-- memory state output of a `LoadNonVolatileOperation`: origin of the corresponding input -/
  | loadState (key origin : Out)
  /-- anything else: the outputs that are marked next -/
  | other (deps : List Out)
  deriving DecidableEq, Repr

/-- Definitions of the outputs of a load: the loaded value (output 0), and for each memory state
output the origin of the input with the same index
(`LoadOperation::MapMemoryStateOutputToInput`, jlm/llvm/ir/operators/Load.hpp:157-166). -/
def loadDefs (ins outs : List Out) : List (Out × Def) :=
  match outs, ins with
  | [], _ => []
  | o :: _, [] => [(o, .node o ins)]
  | o :: os, _ :: is => (o, .node o ins) :: (os.zip is).map fun p => (p.1, .loadState o p.2)

/-- `simpleNode->Inputs()` for the outputs of any other simple node. -/
def simpleDefs (ins outs : List Out) : List (Out × Def) :=
  outs.map fun o => (o, .node (outs.headD 0) ins)

/-- Origins of result `k` of all branches (`GammaNode::MapOutputExitVar(..).branchResult`). -/
def Regions.resultsAt (k : Nat) : Regions → List Out
  | .nil => []
  | .cons _ results _ rest => (results[k]?).toList ++ Regions.resultsAt k rest

mutual

/-- What `markOutput` does next for the outputs of a node and for the arguments of its
subregions (jlm/llvm/opt/DeadNodeElimination.cpp:193-333). -/
def defsNode : Node → List (Out × Def)
  | .simple op ins outs => if op.kind = .load then loadDefs ins outs else simpleDefs ins outs
  | .gamma pred ins outs subs =>
      outs.zipIdx.map (fun p => (p.1, .other (pred :: Regions.resultsAt p.2 subs)))
        ++ defsRegions (pred :: ins) subs
  | .theta ins outs args pred posts sub =>
      ((outs.zip (posts.zip ins)).map fun p => (p.1, .other [pred, p.2.1, p.2.2]))
        ++ ((args.zip (outs.zip ins)).map fun p => (p.1, .other [p.2.1, p.2.2]))
        ++ defsNodes sub
  | .lambda ins args params results out sub =>
      (out, .other results) :: (params.map fun p => (p, .other []))
        ++ ((args.zip ins).map fun p => (p.1, .other [p.2])) ++ defsNodes sub
  | .phi ins args recs results outs sub =>
      ((outs.zip results).map fun p => (p.1, .other [p.2]))
        ++ ((recs.zip results).map fun p => (p.1, .other [p.2]))
        ++ ((args.zip ins).map fun p => (p.1, .other [p.2])) ++ defsNodes sub
  | .delta ins args result out sub =>
      (out, .other [result]) :: ((args.zip ins).map fun p => (p.1, .other [p.2])) ++ defsNodes sub

/-- The same for all nodes of a region. -/
def defsNodes : Nodes → List (Out × Def)
  | .nil => []
  | .cons n ns => defsNode n ++ defsNodes ns

/-- The same for the branches of a gamma node: argument `k` leads to input `k` of the gamma
(`GammaNode::mapBranchArgumentToInput`, jlm/rvsdg/gamma.cpp:344-351). -/
def defsRegions (ins : List Out) : Regions → List (Out × Def)
  | .nil => []
  | .cons args _ sub rest =>
      ((args.zip ins).map fun p => (p.1, .other [p.2])) ++ defsNodes sub ++ defsRegions ins rest

end

/-- The same for the whole graph; nothing follows from a graph import being alive (cpp:229-232). -/
def defsGraph (g : Graph) : List (Out × Def) :=
  (g.imports.map fun i => (i, .other [])) ++ defsNodes g.body

/-- `DeadNodeElimination::Context` (cpp:39-82): `SimpleNodes_` and `Outputs_`. -/
structure Marks where
  nodes : List Out
  outs : List Out

/-- `DeadNodeElimination::markOutput` (cpp:193-333). -/
def markOutput (defs : List (Out × Def)) : Nat → Marks → Out → Marks
  | 0, S, _ => S
  | fuel + 1, S, o =>
    match defs.lookup o with
    | none => S
    | some (.node key ins) =>
        if key ∈ S.nodes then S
        else ins.foldl (markOutput defs fuel) { S with nodes := key :: S.nodes }
    | some (.loadState key origin) =>
        if key ∈ S.nodes then S
        else if o ∈ S.outs then S
        else markOutput defs fuel { S with outs := o :: S.outs } origin
    | some (.other deps) =>
        if o ∈ S.outs then S
        else deps.foldl (markOutput defs fuel) { S with outs := o :: S.outs }

/-- `DeadNodeElimination::markRegion` (cpp:184-191) on the root region. -/
def markGraph (g : Graph) : Marks :=
  let defs := defsGraph g
  g.exports.foldl (markOutput defs (2 * defs.length + 1)) ⟨[], []⟩

/-- `isAlive(output)` (cpp:60-64). -/
def Marks.alive (S : Marks) (o : Out) : Bool := S.outs.contains o

/-- The `isAlive` lambda of `sweepRegion` (cpp:356-372). -/
def Marks.aliveNode (S : Marks) : Node → Bool
  | .simple _ _ outs => (outs.head?).any S.nodes.contains
  | n => n.outs.any S.alive

/-- The diversion `removeNode` (cpp:530-544) performs for a dead load: users of memory state output
`k` become users of the origin of memory state input `k`. -/
def loadDivert (ins outs : List Out) (x : Out) : Out :=
  ((outs.tail.zip ins.tail).lookup x).getD x

/-- `removeNode` (cpp:530-544), seen from the rest of the region: the nodes that follow, and what
becomes of the origins of the region results. -/
def removeNode (n : Node) (rest : Nodes × (Out → Out)) : Nodes × (Out → Out) :=
  match n with
  | .simple op ins outs =>
      if op.kind = .load then
        (rest.1.divert (loadDivert ins outs), fun r => loadDivert ins outs (rest.2 r))
      else rest
  | _ => rest

/-- Is some entry variable argument alive in some branch (cpp:438-447)? Bit `k` is for argument
`k` of the branches. -/
def argMask (S : Marks) (n : Nat) : Regions → List Bool
  | .nil => List.replicate n false
  | .cons args _ _ rest => List.zipWith (· || ·) (args.map S.alive) (argMask S n rest)

/-- `subregion.RemoveArguments(indices)` for all branches (jlm/rvsdg/gamma.cpp:466-472). -/
def maskArgs (bs : List Bool) : Regions → Regions
  | .nil => .nil
  | .cons args results sub rest => .cons (mask bs args) results sub (maskArgs bs rest)

/-- `!IsDead()` for an argument of a region with the given nodes and results
(jlm/rvsdg/node.hpp:295). -/
def used (ns : Nodes) (results : List Out) (o : Out) : Bool := (ns.ins ++ results).contains o

/-- `Region::prune(false)` (jlm/rvsdg/region.cpp:326-331): remove nodes none of whose outputs has
users, last nodes first. -/
def prune : Nodes → List Out → Nodes
  | .nil, _ => .nil
  | .cons n ns, results =>
      let ns' := prune ns results
      if n.outs.any (used ns' results) then .cons n ns' else ns'

/-- Replace the elements whose bit is clear by the corresponding element of the second list:
`post->divert_to(pre)` for the dead loop variables (cpp:462-465), `result->divert_to(recref)` for
the dead fix variables (cpp:497-504). -/
def divertMasked : List Bool → List Out → List Out → List Out
  | b :: bs, x :: xs, y :: ys => (if b then x else y) :: divertMasked bs xs ys
  | _, _, _ => []

mutual

/-- `sweepStructuralNode` (cpp:389-418); simple nodes stay as they are. -/
def sweepNode (S : Marks) : Node → Node
  | .simple op ins outs => .simple op ins outs
  -- sweepGamma, cpp:420-454
  | .gamma pred ins outs subs =>
      let keepOut := outs.map S.alive
      let subs' := sweepRegions S keepOut subs
      let keepIn := (argMask S (ins.length + 1) subs).tail
      .gamma pred (mask keepIn ins) (mask keepOut outs) (maskArgs (true :: keepIn) subs')
  -- sweepTheta, cpp:456-481; RemoveLoopVars, jlm/rvsdg/theta.cpp:63-97
  | .theta ins outs args pred posts sub =>
      let keep := List.zipWith (fun a o => S.alive a || S.alive o) args outs
      let diverted := divertMasked keep posts args
      let body := sweepNodes S sub
      .theta (mask keep ins) (mask keep outs) (mask keep args)
        (body.2 pred) (mask keep (diverted.map body.2)) body.1
  -- sweepLambda, cpp:483-488; RemoveLambdaInputsWhere, jlm/rvsdg/lambda.hpp:296-320
  | .lambda ins args params results out sub =>
      let body := sweepNodes S sub
      let keep := args.map (used body.1 (results.map body.2))
      .lambda (mask keep ins) (mask keep args) params (results.map body.2) out body.1
  -- sweepPhi, cpp:490-519; RemoveContextVars, RemoveFixVars, jlm/rvsdg/Phi.cpp:150-188
  | .phi ins args recs results outs sub =>
      let keepFix := List.zipWith (fun o r => S.alive o || S.alive r) outs recs
      let diverted := divertMasked keepFix results recs
      let body := sweepNodes S sub
      let keepCtx := args.map (used body.1 (diverted.map body.2))
      .phi (mask keepCtx ins) (mask keepCtx args) (mask keepFix recs)
        (mask keepFix (diverted.map body.2)) (mask keepFix outs) body.1
  -- sweepDelta, cpp:521-528; RemoveDeltaInputsWhere, jlm/rvsdg/delta.hpp:334-358
  | .delta ins args result out sub =>
      let sub' := prune sub [result]
      let keep := args.map (used sub' [result])
      .delta (mask keep ins) (mask keep args) result out sub'

/-- `sweepRegion` (cpp:353-387): the nodes of the region after the sweep, and what became of the
origins of the region results. -/
def sweepNodes (S : Marks) : Nodes → Nodes × (Out → Out)
  | .nil => (.nil, id)
  | .cons n ns =>
      let rest := sweepNodes S ns
      if S.aliveNode n then (.cons (sweepNode S n) rest.1, rest.2) else removeNode n rest

/-- `RemoveExitVars` followed by `sweepRegion` for every branch (cpp:422-434;
jlm/rvsdg/gamma.cpp:439-456). -/
def sweepRegions (S : Marks) (keepOut : List Bool) : Regions → Regions
  | .nil => .nil
  | .cons args results sub rest =>
      let body := sweepNodes S sub
      .cons args ((mask keepOut results).map body.2) body.1 (sweepRegions S keepOut rest)

end

/-- `sweepRvsdg` (cpp:335-351): sweep the root region, then remove the dead imports. -/
def sweepGraph (S : Marks) (g : Graph) : Graph :=
  let body := sweepNodes S g.body
  ⟨g.imports.filter S.alive, body.1, g.exports.map body.2⟩

/-- `DeadNodeElimination::Run` (cpp:150-174). -/
def run (g : Graph) : Graph := sweepGraph (markGraph g) g

end Dne

end Jlm.Opt
