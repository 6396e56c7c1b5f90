import Verif.Back.DestructModel
import Verif.Front.CfgSpec

/-!
# When the execution of a function body ends

The values that a function body computes are those of `Verif/Opt/Tree.lean` (`evalNodes`). Evaluation there is
lazy: a loop that is never left gives no values, but does not prevent other nodes from being evaluated. A control
flow graph executes everything, and a branch to a successor that does not exist ends it, so that the executions
that end are those for which the following holds.
-/

namespace Jlm.Back

open Jlm.Opt Jlm.Front

variable {V : Type}

mutual

/-- The execution of the node ends: the predicate of a gamma node selects one of the branches and the branch
ends; a theta node is left after finitely many iterations that all end, its predicate being 1 (repeat) before it
is 0 (leave). -/
def RunsNode (sem : Sem V) : Node → Env V → Prop
  | .simple .., _ => True
  | .gamma pred ins _ subs, env =>
      ∃ p, env pred = some p ∧ RunsRegion sem subs (sem.ctl p.1) (some (sem.content p.1, none) :: ins.map env)
  | .theta ins _ args pred posts sub, env =>
      ∃ n,
        loopPred sem (fun ws => (pred :: posts).map (evalNodes sem sub (upd emptyEnv args ws))) (ins.map env) n = some 0 ∧
        (∀ j, j < n →
          loopPred sem (fun ws => (pred :: posts).map (evalNodes sem sub (upd emptyEnv args ws))) (ins.map env) j = some 1) ∧
        ∀ j, j ≤ n → RunsNodes sem sub (upd emptyEnv args
          (loopState (fun ws => (pred :: posts).map (evalNodes sem sub (upd emptyEnv args ws))) (ins.map env) j))
  | .lambda .., _ => False
  | .phi .., _ => False
  | .delta .., _ => False

/-- The executions of all nodes of a region end. -/
def RunsNodes (sem : Sem V) : Nodes → Env V → Prop
  | .nil, _ => True
  | .cons n ns, env => RunsNode sem n env ∧ RunsNodes sem ns (upd env n.outs (nodeVals sem n env))

/-- Branch `k` exists and its execution ends. -/
def RunsRegion (sem : Sem V) : Regions → Nat → List (W V) → Prop
  | .nil, _, _ => False
  | .cons args _ sub _, 0, ws => RunsNodes sem sub (upd emptyEnv args ws)
  | .cons _ _ _ rest, k + 1, ws => RunsRegion sem rest k ws

end

def Regions.length : Regions → Nat
  | .nil => 0
  | .cons _ _ _ rest => Regions.length rest + 1

mutual

/-- What the backend supports in a function body: simple nodes, theta nodes, and gamma nodes with at least two
branches none of which uses its match variable (argument 0). -/
def Node.supported : Node → Bool
  | .simple .. => true
  | .gamma _ _ _ subs => decide (2 ≤ Regions.length subs) && Regions.supported subs
  | .theta _ _ _ _ _ sub => Nodes.supported sub
  | .lambda .. => false
  | .phi .. => false
  | .delta .. => false

def Nodes.supported : Nodes → Bool
  | .nil => true
  | .cons n ns => Node.supported n && Nodes.supported ns

def Regions.supported : Regions → Bool
  | .nil => true
  | .cons args results sub rest =>
      !(sub.ins.contains (args.headD 0)) && !(results.contains (args.headD 0)) && Nodes.supported sub
        && Regions.supported rest

end

/-- A function body that is well-formed: distinct names, connected as in `Verif/Opt/Tree.lean`; the variables that
context variables refer to belong to other functions or global data. -/
def Fn.wf (f : Fn) : Bool :=
  decide (f.params ++ f.ctx.map Prod.fst ++ namesNodes f.body).Nodup
    && wfNodes (f.params ++ f.ctx.map Prod.fst) f.body
    && subset f.results (f.params ++ f.ctx.map Prod.fst ++ f.body.outs)
    && f.ctx.all fun c => !((namesNodes f.body).contains c.2)

/-- The environment in which the body is evaluated: the parameters have the values of their variables in `s`, and
so have the arguments of the context variables. -/
def Fn.env (f : Fn) (s : St V) : Env V :=
  upd (upd emptyEnv (f.ctx.map Prod.fst) (f.ctx.map fun c => s.env c.2)) f.params (f.params.map s.env)

end Jlm.Back
