import Verif.Opt.UnswitchModel
import Verif.Opt.IvrModel

/-!
# Model of node hoisting

`jlm/llvm/opt/push.cpp`, class `NodeHoisting`: simple nodes inside gamma and theta nodes whose operands do not depend
on the region they are in are copied to a surrounding region of the same function, and their results are routed back.

The pass first computes, for every node of a function, the region it is hoisted to (`markNodes`, cpp:208-235: here
`markNodes`), and then copies the nodes top-down (`hoistNodes`, cpp:302-330).

*Simplifications.*
* A node that is hoisted over several regions is hoisted one region at a time (`outOfTheta`, `outOfGamma`). The result
  is the same: `RouteToRegion` (jlm/rvsdg/node.cpp:380-421) adds exactly the variables that hoisting region by region
  adds, and the copies in the regions in between have no users left and are removed at once.
* The order in which nodes are hoisted is left open (`Handle`), so the theorems hold for every order.
* Every hoisted node is removed where it was at once; the pass removes it with `region.prune(false)` at the end.
-/

namespace Jlm.Opt.Hoist

open Jlm.Opt.Pull Jlm.Opt.Unswitch

/-! ## Which nodes are hoisted, and where to -/

/-- What the pass asks about the type of an output (`Output::Type()`): `TypeKind::State` covers memory and I/O states
(cpp:129), `is<MemoryStateType>` (cpp:96), `is<ControlType>` (cpp:186). -/
inductive Ty
  | value
  | control
  | memory
  | io
  deriving DecidableEq, Repr

/-- `Type::Kind() == TypeKind::State` (cpp:129). -/
def Ty.isState : Ty → Bool
  | .memory => true
  | .io => true
  | _ => false

/-- `TryGetOwnerNode<SimpleNode>(output)` (cpp:103), a node is identified by its outputs. `none` stands for `nullptr`:
the output belongs to a structural node or is an argument. -/
def originNode (sub : Nodes) (o : Out) : Option (List Out) :=
  match sub.owner o with
  | some (.simple _ _ outs) => some outs
  | _ => none

/-- `TryGetOwnerNode<SimpleNode>(*output.Users().begin())` (cpp:102) for an output with a single user. `none` stands for
`nullptr`: the user is an input of a structural node or a result of the region. -/
def userNode : Nodes → Out → Option (List Out)
  | .nil, _ => none
  | .cons (.simple _ ins outs) ns, o => if o ∈ ins then some outs else userNode ns o
  | .cons _ ns, o => userNode ns o

/-- `NodeHoisting::isInvariantMemoryStateLoopVar` (cpp:93-110) for the loop variable with argument `a`, post value `p`.
The comparison in line 106 also holds if both nodes are `nullptr`. -/
def isInvariantMemoryStateLoopVar (ty : Out → Ty) (sub : Nodes) (results : List Out) (a p : Out) : Bool :=
  ty a == .memory && (sub.ins ++ results).count a == 1 && userNode sub a == originNode sub p

/-- Depth of the target region of an output, for the outputs of the current region. -/
abbrev Targets := Out → Nat

def Targets.set (T : Targets) (os : List Out) (t : Nat) : Targets := fun z => if z ∈ os then t else T z

/-- Targets of the arguments of a theta region at depth `d + 1` (cpp:142-157). -/
def thetaTargets (ty : Out → Ty) (d : Nat) (T : Targets) (sub : Nodes) (results : List Out) :
    List Out → List Out → List Out → Targets
  | a :: as, i :: is, p :: ps => fun z =>
      if z = a then
        (if p = a then T i else if isInvariantMemoryStateLoopVar ty sub results a p then T i else d + 1)
      else thetaTargets ty d T sub results as is ps z
  | _, _, _ => fun _ => d + 1

/-- Targets of the arguments of a gamma branch at depth `d + 1` (cpp:121-139); the first argument is the match
variable. -/
def gammaTargets (ty : Out → Ty) (d : Nat) (T : Targets) : List Out → List Out → Targets
  | a :: as, i :: is => fun z =>
      if z = a then (if (ty a).isState then d + 1 else T i) else gammaTargets ty d T as is z
  | _, _ => fun _ => d + 1

/-- `computeTargetRegion(const Node &)` (cpp:177-225), for a simple node at depth `d`; the subregion of the lambda node
has depth 0. -/
def nodeTarget (ty : Out → Ty) (d : Nat) (T : Targets) (ins outs : List Out) : Nat :=
  if ins = [] then (if ty (outs.headD 0) = .control then d else 0)
  else (ins.map T).foldl max 0

mutual

/-- `markNodes` (cpp:208-235): the simple nodes of a region at depth `d` and of the regions inside it, identified by their
outputs, with the depth of the region they are hoisted to. Structural nodes stay where they are (cpp:219). -/
def markNodes (ty : Out → Ty) (d : Nat) : Targets → Nodes → List (List Out × Nat)
  | _, .nil => []
  | T, .cons (.simple _ ins outs) ns =>
      let t := nodeTarget ty d T ins outs
      (outs, t) :: markNodes ty d (T.set outs t) ns
  | T, .cons (.theta ins outs args pred posts sub) ns =>
      markNodes ty (d + 1) (thetaTargets ty d T sub (pred :: posts) args ins posts) sub ++
        markNodes ty d (T.set outs d) ns
  | T, .cons (.gamma _ ins outs subs) ns => markSubs ty d T ins subs ++ markNodes ty d (T.set outs d) ns
  | T, .cons n ns => markNodes ty d (T.set n.outs d) ns

def markSubs (ty : Out → Ty) (d : Nat) : Targets → List Out → Regions → List (List Out × Nat)
  | _, _, .nil => []
  | T, ins, .cons args _ sub rest =>
      markNodes ty (d + 1) (gammaTargets ty d T args.tail ins) sub ++ markSubs ty d T ins rest

end

/-! ## Hoisting a node out of one region -/

/-- `getOperandsFromTargetRegion` (cpp:268-279): the origins, in the surrounding region, of the operands of a node whose
operands are the arguments `args` that belong to the inputs `ins`. -/
def operands (args ins : List Out) : List Out → Option (List Out)
  | [] => some []
  | a :: as => ((args.zip ins).lookup a).bind fun i => (operands args ins as).map (i :: ·)

/-- `copyNodeToTargetRegion` (cpp:281-300) for a node `simple op xi xo` of the subregion `bp ++ [it] ++ bs` of a theta node:
the copy, the theta node with a new loop variable for every output of the copy (`ThetaNode::AddLoopVar`,
jlm/rvsdg/theta.cpp: the new variable is invariant), and the users of the node diverted to the new arguments. -/
def outOfTheta (ins outs args posts : List Out) (pred : Out) (bp bs : List Node) (op : Op) (ops xo : List Out)
    (n : Nat) : List Node :=
  let k := xo.length
  let copy := List.range' n k
  let na := List.range' (n + k) k
  let no := List.range' (n + k + k) k
  let σ := divertTo xo na
  [.simple op ops copy,
   .theta (ins ++ copy) (outs ++ no) (args ++ na) (σ pred) (posts.map σ ++ na)
     (nodesOf (bp ++ bs.map (Node.divert σ)))]

/-- `GammaNode::AddEntryVar` (jlm/rvsdg/gamma.cpp:344-351) for `k` new entry variables: an argument in every branch. -/
def addEntryVars (k : Nat) : Regions → Nat → Regions
  | .nil, _ => .nil
  | .cons args results sub rest, n => .cons (args ++ List.range' n k) results sub (addEntryVars k rest (n + k))

/-- `addEntryVars`, and in branch `b` the node with outputs `xo` between `bp` and `bs` is removed and its users are diverted to
the new arguments. -/
def hoistBranch (bp bs : List Node) (xo : List Out) : Regions → Nat → Nat → Regions
  | .nil, _, _ => .nil
  | .cons args results _ rest, 0, n =>
      let na := List.range' n xo.length
      let σ := divertTo xo na
      .cons (args ++ na) (results.map σ) (nodesOf (bp ++ bs.map (Node.divert σ)))
        (addEntryVars xo.length rest (n + xo.length))
  | .cons args results sub rest, b + 1, n =>
      .cons (args ++ List.range' n xo.length) results sub (hoistBranch bp bs xo rest b (n + xo.length))

/-- `copyNodeToTargetRegion` (cpp:281-300) for a node of branch `b` of a gamma node. -/
def outOfGamma (pred : Out) (ins outs : List Out) (subs : Regions) (b : Nat) (bp bs : List Node) (op : Op)
    (ops xo : List Out) (n : Nat) : List Node :=
  let k := xo.length
  [.simple op ops (List.range' n k),
   .gamma pred (ins ++ List.range' n k) outs (hoistBranch bp bs xo subs b (n + k))]

/-- Branch `b` of a gamma node: arguments and nodes. -/
def branchOf : Regions → Nat → Option (List Out × Nodes)
  | .nil, _ => none
  | .cons args _ sub _, 0 => some (args, sub)
  | .cons _ _ _ rest, b + 1 => branchOf rest b

/-! ## When a node may be hoisted out of a theta node -/

/-- `p` is `o`, or an output of a loop that leaves the value `o` has before the loop in the loop variable (because a node has been
hoisted out of that loop, or because the loop variable is invariant). -/
inductive Traces : Nodes → Out → Out → Prop
  | same (sub : Nodes) (o : Out) : Traces sub o o
  | loop {sub sub' : Nodes} {ins outs args posts : List Out} {pred p q a i o : Out} {c : Nat} :
      sub.owner p = some (.theta ins outs args pred posts sub') → posts[outs.idxOf p]? = some q → Traces sub' q a →
      args[c]? = some a → posts[c]? = some a → ins[c]? = some i → Traces sub i o → Traces sub p o

/-- Input `k` and output `k'` of an operation are the same memory state before and after the operation. For loads the
states are known (jlm/llvm/ir/operators/Load.hpp:25 ff.); for other operations this is `states`. -/
def stateOf (states : Op → Nat → Nat → Prop) (op : Op) (k k' : Nat) : Prop :=
  if op.kind = .load then k = k' ∧ k ≠ 0 else states op k k'

/-- What `computeTargetRegion` requires of operand `k`, `a`, of a node with outputs `xo` that is hoisted out of a theta node
(cpp:142-157): `a` belongs to an invariant loop variable, or to a memory state loop variable in which the node leaves
the memory state. The pass does not check that it is the node itself that does (cpp:106, see finding 50). -/
def InvariantOperand (states : Op → Nat → Nat → Prop) (op : Op) (xo args posts : List Out) (sub : Nodes) (k : Nat)
    (a : Out) : Prop :=
  (∃ j : Nat, args[j]? = some a ∧ posts[j]? = some a) ∨
  ∃ (j k' : Nat) (p o : Out), args[j]? = some a ∧ posts[j]? = some p ∧ xo[k']? = some o ∧ stateOf states op k k' ∧
    Traces sub p o

/-- Specification: an operation that is executed a second time, in the memory it has left, leaves the memory it has left and has
the same results. This holds of stores of the same value to the same address. -/
def Repeats (states : Op → Nat → Nat → Prop) {V : Type} (sem : Sem V) : Prop :=
  ∀ (op : Op) (ws ws' : List (W V)), ws'.length = ws.length →
    (∀ k : Nat, ws'.getD k none = ws.getD k none ∨
      ∃ k' : Nat, states op k k' ∧ ws'.getD k none = (lift (sem.apply op ws)).getD k' none) →
    sem.apply op ws' = sem.apply op ws

/-! ## The pass -/

mutual

/-- `hoistNodes` (cpp:302-330), `hoistNodesInLambda` and `hoistNodesInRootRegion` (cpp:332-374), in any order: with names
from `n` on, the nodes `l` with the region results `R` become `l'` with the results `R'`. -/
inductive Handle (states : Op → Nat → Nat → Prop) : Nat → List Node → List Out → Nat → List Node → List Out → Prop
  | done (n : Nat) (l : List Node) (R : List Out) : Handle states n l R n l R
  | step {n n' n'' : Nat} {l l' l'' : List Node} {R R' R'' : List Out} : Handle states n l R n' l' R' →
      Handle states n' l' R' n'' l'' R'' → Handle states n l R n'' l'' R''
  /-- a node is hoisted out of a theta node -/
  | outOfTheta {n : Nat} {p s bp bs : List Node} {R ins outs args posts xi xo ops : List Out} {pred : Out} {sub : Nodes}
      {op : Op} : sub.list = bp ++ .simple op xi xo :: bs →
      (∀ (k : Nat) (a : Out), xi[k]? = some a → InvariantOperand states op xo args posts sub k a) →
      operands args ins xi = some ops →
      Handle states n (p ++ .theta ins outs args pred posts sub :: s) R (n + 3 * xo.length)
        (p ++ outOfTheta ins outs args posts pred bp bs op ops xo n ++ s) R
  /-- a node is hoisted out of a branch of a gamma node -/
  | outOfGamma {n b : Nat} {p s bp bs : List Node} {R ins outs args xi xo ops : List Out} {pred : Out} {subs : Regions}
      {sub : Nodes} {op : Op} : branchOf subs b = some (args, sub) → sub.list = bp ++ .simple op xi xo :: bs →
      operands args.tail ins xi = some ops →
      Handle states n (p ++ .gamma pred ins outs subs :: s) R (n + (branches subs + 1) * xo.length)
        (p ++ outOfGamma pred ins outs subs b bp bs op ops xo n ++ s) R
  /-- `region.prune(false)` (cpp:329) -/
  | prune (n : Nat) (l : List Node) (R : List Out) : Handle states n l R n (Dne.prune (nodesOf l) R).list R
  | theta {n n' : Nat} {p s : List Node} {R ins outs args posts posts' : List Out} {pred pred' : Out} {sub : Nodes}
      {l : List Node} : Handle states n sub.list (pred :: posts) n' l (pred' :: posts') →
      Handle states n (p ++ .theta ins outs args pred posts sub :: s) R n'
        (p ++ .theta ins outs args pred' posts' (nodesOf l) :: s) R
  | gamma {n n' : Nat} {p s : List Node} {R ins outs : List Out} {pred : Out} {subs subs' : Regions} :
      HandleSubs states n subs n' subs' →
      Handle states n (p ++ .gamma pred ins outs subs :: s) R n' (p ++ .gamma pred ins outs subs' :: s) R
  | lambda {n n' : Nat} {p s : List Node} {R ins args params rs rs' : List Out} {out : Out} {sub : Nodes} {l : List Node} :
      Handle states n sub.list rs n' l rs' →
      Handle states n (p ++ .lambda ins args params rs out sub :: s) R n'
        (p ++ .lambda ins args params rs' out (nodesOf l) :: s) R
  | phi {n n' : Nat} {p s : List Node} {R ins args recs rs rs' outs : List Out} {sub : Nodes} {l : List Node} :
      Handle states n sub.list rs n' l rs' →
      Handle states n (p ++ .phi ins args recs rs outs sub :: s) R n' (p ++ .phi ins args recs rs' outs (nodesOf l) :: s) R

/-- The branches of a gamma node. -/
inductive HandleSubs (states : Op → Nat → Nat → Prop) : Nat → Regions → Nat → Regions → Prop
  | nil (n : Nat) : HandleSubs states n .nil n .nil
  | cons {n n' n'' : Nat} {args results results' : List Out} {sub : Nodes} {l : List Node} {rest rest' : Regions} :
      Handle states n sub.list results n' l results' → HandleSubs states n' rest n'' rest' →
      HandleSubs states n (.cons args results sub rest) n'' (.cons args results' (nodesOf l) rest')

end

/-- `NodeHoisting::Run` (cpp:376-386): possible results. -/
def Runs (states : Op → Nat → Nat → Prop) (g g' : Graph) : Prop :=
  g'.imports = g.imports ∧
    ∃ n' : Nat, Handle states (freshName g.names) g.body.list g.exports n' g'.body.list g'.exports

end Jlm.Opt.Hoist
