import Verif.Opt.HoistModel
import Verif.Opt.CopyModel

/-!
# Model of function inlining

`jlm/llvm/opt/inlining.cpp`, class `FunctionInlining`: a call of a known function is replaced by a copy of the body of the
function.

*Simplifications.*
* Which calls are inlined (`shouldInline`, `canBeInlined`, the order of the traversal) is left open: `Inlines` allows any sequence
  of calls, so the theorems hold for every heuristic.
* The function a call calls is found (`CallOperation::ClassifyCall`) through context variables, entry variables of gamma nodes
  and invariant loop variables only.
* Every argument of the call gets an I/O barrier, in /repo only those whose type contains pointers do. For arguments of other types
  the barrier would be the identity.
* All variables that route the context variables of one function to the call are added at once, in the order of the context variables.
* `hoistInlinedAllocas` (cpp:241-279) is not modelled (moving nodes out of loops and branches is the subject of C44), nor is
  `tryRerouteMemoryStateMergeAndSplit` (cpp:158-229).
-/

namespace Jlm.Opt.Inline

open Jlm.Opt.Copy Jlm.Opt.Pull Jlm.Opt.Unswitch Jlm.Opt.Hoist

/-! ## Types

All outputs of an RVSDG have a type (jlm/rvsdg/node.cpp:24-33: the type of an input is the type of its origin). `fty o`: the type of the
output `o` is a function type. `tyNodes fty ns`: `fty` is a type assignment for the nodes of a function body. Results of operations are
not functions, the first input of a call is one (jlm/llvm/ir/operators/call.hpp:245 ff.), memory states of loads are not. -/

mutual

def tyNode (fty : Out → Bool) : Node → Bool
  | .simple op ins outs => outs.all (!fty ·) && (op.kind != .load || ins.tail.all (!fty ·)) && (op.kind != .call || fty (ins.headD 0))
  | .gamma _ ins outs subs => tyRegions fty (ins.map fty) (outs.map fty) subs
  | .theta ins outs args _ posts sub =>
      args.map fty == ins.map fty && posts.map fty == ins.map fty && outs.map fty == ins.map fty && tyNodes fty sub
  | _ => false

def tyNodes (fty : Out → Bool) : Nodes → Bool
  | .nil => true
  | .cons x ns => tyNode fty x && tyNodes fty ns

def tyRegions (fty : Out → Bool) (ins outs : List Bool) : Regions → Bool
  | .nil => true
  | .cons args results sub rest =>
      args.tail.map fty == ins && results.map fty == outs && tyNodes fty sub && tyRegions fty ins outs rest

end

/-- A lambda node that is inlined: inner arguments of its context variables, function arguments, results, body. -/
structure Callee where
  args : List Out
  params : List Out
  results : List Out
  sub : Nodes

/-- `fty` is a type assignment; arguments and results of functions are not functions (LLVM has pointers to functions only). -/
def Callee.typed (c : Callee) (fty : Out → Bool) : Bool :=
  tyNodes fty c.sub && c.params.all (!fty ·) && c.results.all (!fty ·)

/-- `IOBarrierOperation::createNode` (cpp:304) for several operands; the outputs are `n`, `n + 1`, …. -/
def barriers (bop : Op) (io : Out) : List Out → Nat → List Node
  | [], _ => []
  | x :: xs, n => .simple bop [x, io] [n] :: barriers bop io xs (n + 1)

/-- Operands for the context variables with inner arguments `args` that have been routed to `deps` (cpp:310-321): functions
(`fty`) are used as they are, pointers get a barrier. Result: nodes, operands, next name. -/
def ctxOperands (bop : Op) (io : Out) (fty : Out → Bool) : List Out → List Out → Nat → List Node × List Out × Nat
  | a :: as, d :: ds, n =>
      if fty a then
        let r := ctxOperands bop io fty as ds n
        (r.1, d :: r.2.1, r.2.2)
      else
        let r := ctxOperands bop io fty as ds (n + 1)
        (.simple bop [d, io] [n] :: r.1, n :: r.2.1, r.2.2)
  | _, _, n => ([], [], n)

/-- `inlineCall` (cpp:281-360): the nodes that replace a call with the arguments `xs`, the new origins of the users of its outputs.
The I/O state is the last but one argument (jlm/llvm/ir/operators/call.hpp:333-339). `none`: an exception is thrown. -/
def inlineCall (c : Callee) (bop : Op) (fty : Out → Bool) (deps xs : List Out) (n : Nat) :
    Option (List Node × List Out × Nat) :=
  let io := xs.getD (xs.length - 2) 0
  let bs := barriers bop io xs n
  let ctx := ctxOperands bop io fty c.args deps (n + xs.length)
  let smap := (SMap.empty.insertAll c.params (List.range' n xs.length)).insertAll c.args ctx.2.1
  (copyNodes c.sub smap ctx.2.2).bind fun r =>
  (r.2.1.lookup c.results).map fun rs => (bs ++ ctx.1 ++ r.1.list, rs, r.2.2)

mutual

/-- A call of the function `fn` among the nodes `l` of a region, or nested inside them, is inlined. The outputs `deps` of the
region are the origins of the context variables of the function. `routeContextVariablesToRegion` (cpp:93-112) and
`RouteToRegion` (jlm/rvsdg/node.cpp:380-421) add variables to all nodes around the call. -/
inductive Into (c : Callee) (bop : Op) (fty : Out → Bool) : Out → List Out → Nat → List Node → List Out → Nat → List Node → List Out → Prop
  | call {fn : Out} {deps xs outs rs R : List Out} {n n' : Nat} {op : Op} {p s mid : List Node} : op.kind = .call →
      2 ≤ xs.length → xs.length = c.params.length → outs.length = c.results.length → inlineCall c bop fty deps xs n = some (mid, rs, n') →
      Into c bop fty fn deps n (p ++ .simple op (fn :: xs) outs :: s) R n'
        (p ++ mid ++ s.map (Node.divert (divertTo outs rs))) (R.map (divertTo outs rs))
  /-- `ThetaNode::AddLoopVar` (jlm/rvsdg/theta.cpp) for every context variable; `fn` is an invariant loop variable -/
  | theta {fn fn' pred pred' : Out} {deps ins outs args posts posts' R : List Out} {n n' k : Nat} {sub : Nodes} {p s l : List Node} :
      ins[k]? = some fn → args[k]? = some fn' → posts[k]? = some fn' →
      Into c bop fty fn' (List.range' n deps.length) (n + deps.length + deps.length) sub.list (pred :: posts) n' l (pred' :: posts') →
      Into c bop fty fn deps n (p ++ .theta ins outs args pred posts sub :: s) R n'
        (p ++ .theta (ins ++ deps) (outs ++ List.range' (n + deps.length) deps.length) (args ++ List.range' n deps.length) pred'
          (posts' ++ List.range' n deps.length) (nodesOf l) :: s) R
  /-- `GammaNode::AddEntryVar` (jlm/rvsdg/gamma.cpp:344-351) -/
  | gamma {fn pred : Out} {deps ins outs R : List Out} {n n' k : Nat} {subs subs' : Regions} {p s : List Node} :
      ins[k]? = some fn → IntoBranch c bop fty k deps.length n subs n' subs' →
      Into c bop fty fn deps n (p ++ .gamma pred ins outs subs :: s) R n' (p ++ .gamma pred (ins ++ deps) outs subs' :: s) R
  /-- `LambdaNode::AddContextVar` (jlm/rvsdg/lambda.cpp) -/
  | lambda {fn fn' out : Out} {deps ins args params rs rs' R : List Out} {n n' k : Nat} {sub : Nodes} {p s l : List Node} :
      ins[k]? = some fn → args[k]? = some fn' →
      Into c bop fty fn' (List.range' n deps.length) (n + deps.length) sub.list rs n' l rs' →
      Into c bop fty fn deps n (p ++ .lambda ins args params rs out sub :: s) R n'
        (p ++ .lambda (ins ++ deps) (args ++ List.range' n deps.length) params rs' out (nodesOf l) :: s) R
  /-- `PhiNode::AddContextVar` (jlm/rvsdg/Phi.cpp) -/
  | phi {fn fn' : Out} {deps ins args recs rs rs' outs R : List Out} {n n' k : Nat} {sub : Nodes} {p s l : List Node} :
      ins[k]? = some fn → args[k]? = some fn' →
      Into c bop fty fn' (List.range' n deps.length) (n + deps.length) sub.list rs n' l rs' →
      Into c bop fty fn deps n (p ++ .phi ins args recs rs outs sub :: s) R n'
        (p ++ .phi (ins ++ deps) (args ++ List.range' n deps.length) recs rs' outs (nodesOf l) :: s) R

/-- The call is in one of the branches of a gamma node; `fn` is entry variable `k`, `d` new entry variables are added. -/
inductive IntoBranch (c : Callee) (bop : Op) (fty : Out → Bool) : Nat → Nat → Nat → Regions → Nat → Regions → Prop
  | here {fn' : Out} {args results results' : List Out} {k d n n' : Nat} {sub : Nodes} {rest : Regions} {l : List Node} :
      args[k + 1]? = some fn' → Into c bop fty fn' (List.range' n d) (n + d) sub.list results n' l results' →
      IntoBranch c bop fty k d n (.cons args results sub rest) (n' + branches rest * d)
        (.cons (args ++ List.range' n d) results' (nodesOf l) (addEntryVars d rest n'))
  | there {args results : List Out} {k d n n' : Nat} {sub : Nodes} {rest rest' : Regions} :
      IntoBranch c bop fty k d (n + d) rest n' rest' →
      IntoBranch c bop fty k d n (.cons args results sub rest) n' (.cons (args ++ List.range' n d) results sub rest')

end

/-- `FunctionInlining::Run` (cpp:517-538), in any order: with names from `n` on, the nodes `l` of the root region or of a phi node with
the region results `R` become `l'` with the results `R'`. -/
inductive Inlines (bop : Op) : Nat → List Node → List Out → Nat → List Node → List Out → Prop
  | done (n : Nat) (l : List Node) (R : List Out) : Inlines bop n l R n l R
  | step {n n' n'' : Nat} {l l' l'' : List Node} {R R' R'' : List Out} : Inlines bop n l R n' l' R' →
      Inlines bop n' l' R' n'' l'' R'' → Inlines bop n l R n'' l'' R''
  /-- a call of a lambda node is inlined into one of the nodes after it -/
  | inline {n n' : Nat} {p s s' : List Node} {ins args params results R R' : List Out} {out : Out} {sub : Nodes} (fty : Out → Bool) :
      Callee.typed ⟨args, params, results, sub⟩ fty = true →
      Into ⟨args, params, results, sub⟩ bop fty out ins n s R n' s' R' →
      Inlines bop n (p ++ .lambda ins args params results out sub :: s) R n'
        (p ++ .lambda ins args params results out sub :: s') R'
  /-- `visitInterProceduralRegion` (cpp:501-515) enters phi nodes -/
  | phi {n n' : Nat} {p s : List Node} {R ins args recs rs rs' outs : List Out} {sub : Nodes} {l : List Node} :
      Inlines bop n sub.list rs n' l rs' →
      Inlines bop n (p ++ .phi ins args recs rs outs sub :: s) R n' (p ++ .phi ins args recs rs' outs (nodesOf l) :: s) R

/-- Possible results of the pass. -/
def Runs (bop : Op) (g g' : Graph) : Prop :=
  g'.imports = g.imports ∧ ∃ n' : Nat, Inlines bop (freshName g.names) g.body.list g.exports n' g'.body.list g'.exports

end Jlm.Opt.Inline
