/-!
# RVSDG graphs as trees of regions, and what they compute

This file is the common ground of the models of the optimisations that work on whole RVSDG graphs
(`jlm/llvm/opt/DeadNodeElimination.cpp`, `CommonNodeElimination.cpp`,
`InvariantValueRedirection.cpp`).

* An *output* of /repo (`rvsdg::Output`: a node output, a region argument or a graph import;
  `jlm/rvsdg/node.hpp:245` ff.) is represented by its name, a natural number: what is compared by
  address in /repo is compared by name here.
* An *input* or *region result* (`rvsdg::Input`) is represented by the name of its origin at its
  position in the list of inputs / results (`jlm/rvsdg/node.hpp:28` ff., `origin()`).
* A region (`jlm/rvsdg/region.hpp:212` ff.) is a list of arguments, a list of nodes in some
  topological order, and a list of results.

The second half of the file is the *meaning* of a graph: it has no counterpart in /repo, it is
part of the specification.
-/

namespace Jlm.Opt

/-- Name of an `rvsdg::Output` (jlm/rvsdg/node.hpp:245): node output, region argument or graph
import. -/
abbrev Out := Nat

/-- What the optimisations ask about the operation of a simple node besides its identity:
`is<LoadNonVolatileOperation>` (jlm/llvm/opt/DeadNodeElimination.cpp:176-182),
`is<CallOperation>` (jlm/llvm/opt/InvariantValueRedirection.cpp:121-174), the three kinds of
constants of `extractConstantAlternatives` (jlm/llvm/opt/PredicateCorrelation.cpp:32-74) with their
value, and `rvsdg::MatchOperation` (jlm/rvsdg/control.hpp:157-193) with its mapping and its default
alternative. -/
inductive OpKind
  | load
  | call
  | const (value : Nat)
  | matchOp (mapping : List (Nat × Nat)) (default : Nat)
  | other
  deriving DecidableEq, Repr

/-- `rvsdg::SimpleOperation` (jlm/rvsdg/operation.hpp:56): two operations are equal for
`operator==` iff they are equal here; the concrete operation is an opaque code. -/
structure Op where
  kind : OpKind
  code : Nat
  deriving DecidableEq, Repr

mutual

/-- `rvsdg::Node` and its subclasses.

* `simple`: `rvsdg::SimpleNode` (jlm/rvsdg/simple-node.hpp:18).
* `gamma pred ins outs subs`: `rvsdg::GammaNode` (jlm/rvsdg/gamma.hpp:98): predicate origin,
  origins of the entry variables, outputs of the exit variables, branch regions.
* `theta ins outs args pred posts sub`: `rvsdg::ThetaNode` (jlm/rvsdg/theta.hpp:32): loop
  variable `k` is `(ins k, args k, posts k, outs k)`; region results are `pred :: posts`.
* `lambda ins args params results out sub`: `rvsdg::LambdaNode` (jlm/rvsdg/lambda.hpp:82): context
  variable `k` is `(ins k, args k)`; `params` are the function arguments.
* `phi ins args recs results outs sub`: `rvsdg::PhiNode` (jlm/rvsdg/Phi.hpp:45): context variable
  `k` is `(ins k, args k)`; fix variable `k` is `(recs k, results k, outs k)`.
* `delta ins args result out sub`: `rvsdg::DeltaNode` (jlm/rvsdg/delta.hpp:128). -/
inductive Node
  | simple (op : Op) (ins outs : List Out)
  | gamma (pred : Out) (ins outs : List Out) (subs : Regions)
  | theta (ins outs args : List Out) (pred : Out) (posts : List Out) (sub : Nodes)
  | lambda (ins args params results : List Out) (out : Out) (sub : Nodes)
  | phi (ins args recs results outs : List Out) (sub : Nodes)
  | delta (ins args : List Out) (result out : Out) (sub : Nodes)

/-- The nodes of a region (`Region::Nodes()`, jlm/rvsdg/region.hpp:212 ff.) in some topological
order; /repo keeps them unordered and obtains the order with traversers. -/
inductive Nodes
  | nil
  | cons (n : Node) (ns : Nodes)

/-- The branch regions of a gamma node (`StructuralNode::Subregions()`): for each branch its
arguments (argument 0 is the match variable, argument `k + 1` belongs to entry variable `k`,
jlm/rvsdg/gamma.cpp:344-351), its results and its nodes. -/
inductive Regions
  | nil
  | cons (args results : List Out) (sub : Nodes) (rest : Regions)

end

/-- `rvsdg::Graph` (jlm/rvsdg/graph.hpp:74): the root region, its arguments are the graph imports
and its results the graph exports. -/
structure Graph where
  imports : List Out
  body : Nodes
  exports : List Out

/-- Outputs of a node (`Node::Outputs()`). -/
def Node.outs : Node → List Out
  | .simple _ _ outs => outs
  | .gamma _ _ outs _ => outs
  | .theta _ outs _ _ _ _ => outs
  | .lambda _ _ _ _ out _ => [out]
  | .phi _ _ _ _ outs _ => outs
  | .delta _ _ _ out _ => [out]

/-- Origins of the inputs of a node (`Node::Inputs()`). -/
def Node.ins : Node → List Out
  | .simple _ ins _ => ins
  | .gamma pred ins _ _ => pred :: ins
  | .theta ins _ _ _ _ _ => ins
  | .lambda ins _ _ _ _ _ => ins
  | .phi ins _ _ _ _ _ => ins
  | .delta ins _ _ _ _ => ins

/-- All outputs of the nodes of a region (not of nested regions). -/
def Nodes.outs : Nodes → List Out
  | .nil => []
  | .cons n ns => n.outs ++ ns.outs

/-- All origins of the inputs of the nodes of a region (not of nested regions). -/
def Nodes.ins : Nodes → List Out
  | .nil => []
  | .cons n ns => n.ins ++ ns.ins

/-! ## Well-formedness

The invariants of every RVSDG (jlm/rvsdg/node.cpp:24-33 `Input::CheckTypes`: the origin is in the
same region; RVSDG regions are acyclic; jlm/rvsdg/gamma.cpp, theta.cpp, lambda.cpp, Phi.cpp and
delta.cpp create inputs, arguments, results and outputs together): unique outputs, inputs are connected to outputs of the same region that come
earlier in the topological order, and numbers of inputs, arguments, results and outputs match. -/

mutual

/-- Names of the outputs of a node and of everything in its subregions. -/
def namesNode : Node → List Out
  | .simple _ _ outs => outs
  | .gamma _ _ outs subs => outs ++ namesRegions subs
  | .theta _ outs args _ _ sub => outs ++ args ++ namesNodes sub
  | .lambda _ args params _ out sub => out :: params ++ args ++ namesNodes sub
  | .phi _ args recs _ outs sub => outs ++ recs ++ args ++ namesNodes sub
  | .delta _ args _ out sub => out :: args ++ namesNodes sub

def namesNodes : Nodes → List Out
  | .nil => []
  | .cons n ns => namesNode n ++ namesNodes ns

def namesRegions : Regions → List Out
  | .nil => []
  | .cons args _ sub rest => args ++ namesNodes sub ++ namesRegions rest

end

/-- `xs ⊆ ys`, as a boolean. -/
def subset (xs ys : List Out) : Bool := xs.all ys.contains

/-- A delta subregion contains nothing but simple nodes
(jlm/llvm/opt/DeadNodeElimination.cpp:524), and none of them accesses memory. -/
def Nodes.allPlain : Nodes → Bool
  | .nil => true
  | .cons (.simple op _ _) ns => op.kind != .load && ns.allPlain
  | .cons _ _ => false

mutual

/-- `avail`: the outputs of the region that are defined before the node. -/
def wfNode (avail : List Out) : Node → Bool
  | .simple op ins outs =>
      subset ins avail && (op.kind != .load || (ins.length == outs.length && ins.length != 0))
  | .gamma pred ins outs subs =>
      subset (pred :: ins) avail && wfRegions (ins.length + 1) outs.length subs
  | .theta ins outs args pred posts sub =>
      subset ins avail && ins.length == outs.length && args.length == outs.length
        && posts.length == outs.length && wfNodes args sub && subset (pred :: posts) (args ++ sub.outs)
  | .lambda ins args params results _ sub =>
      subset ins avail && ins.length == args.length && wfNodes (params ++ args) sub
        && subset results (params ++ args ++ sub.outs)
  | .phi ins args recs results outs sub =>
      subset ins avail && ins.length == args.length && recs.length == outs.length
        && results.length == outs.length && wfNodes (recs ++ args) sub
        && subset results (recs ++ args ++ sub.outs)
  | .delta ins args result _ sub =>
      subset ins avail && ins.length == args.length && wfNodes args sub
        && subset [result] (args ++ sub.outs) && sub.allPlain

def wfNodes (avail : List Out) : Nodes → Bool
  | .nil => true
  | .cons n ns => wfNode avail n && wfNodes (n.outs ++ avail) ns

def wfRegions (nargs nresults : Nat) : Regions → Bool
  | .nil => true
  | .cons args results sub rest =>
      args.length == nargs && results.length == nresults && wfNodes args sub
        && subset results (args ++ sub.outs) && wfRegions nargs nresults rest

end

/-- All names of a graph. -/
def Graph.names (g : Graph) : List Out := g.imports ++ namesNodes g.body

/-- A well-formed graph. -/
def Graph.wf (g : Graph) : Bool :=
  decide g.names.Nodup && wfNodes g.imports g.body && subset g.exports (g.imports ++ g.body.outs)

/-! ## Meaning -/

/-- Meaning of a function or of a global variable, attached to the symbol that names it. -/
inductive Fun (V : Type)
  | lam (f : List (Option V) → List (Option V))
  | dat (d : Option V)

/-- A value: what operations can see of it, and, for the result of a lambda, delta or phi node,
the function or the initial contents it stands for. -/
abbrev Val (V : Type) := V × Option (Fun V)

/-- Value of an output: `none` means that it is never produced (divergence). -/
abbrev W (V : Type) := Option (Val V)

abbrev Env (V : Type) := Out → W V

/-- Meaning of everything the optimisations treat as opaque. The meaning of an operation is *any*
function from the values of its inputs to the values of its outputs: in particular nothing is
assumed about calls, loads of values, stores, or strictness. An operation sees the function or the
initial contents an input stands for, so a call can run the function it calls. -/
structure Sem (V : Type) where
  /-- meaning of the operation of a simple node -/
  apply : Op → List (W V) → List (Option V)
  /-- alternative selected by a control value; a theta is left at the first alternative 0 -/
  ctl : V → Nat
  /-- value of the match variable of a gamma, given the predicate -/
  content : V → V
  /-- address / symbol of an import, lambda, phi or delta output -/
  sym : Out → V
  /-- how many times recursive definitions are unfolded before nothing but the symbol of a
  recursive function is known -/
  depth : Nat

/-- Values without the functions and contents they stand for. -/
def plain {V : Type} (ws : List (W V)) : List (Option V) := ws.map fun w => w.map (·.1)

/-- Values of the outputs of an operation. -/
def lift {V : Type} (vs : List (Option V)) : List (W V) := vs.map fun v => v.map fun v => (v, none)

/-- `upd env os ws`: the environment in which the names `os` have the values `ws`. -/
def upd {V : Type} (env : Env V) : List Out → List (W V) → Env V
  | [], _ => env
  | o :: os, ws => fun x => if x = o then ws.headD none else upd env os ws.tail x

/-- The environment of a region in which nothing has been defined. -/
def emptyEnv {V : Type} : Env V := fun _ => none

/-- Loop with body `f`, which maps the values of the loop variables to the predicate followed by
the values for the next iteration: values before iteration `m` (counted from 0). -/
def loopState {V : Type} (f : List (W V) → List (W V)) (init : List (W V)) : Nat → List (W V)
  | 0 => init
  | m + 1 => (f (loopState f init m)).tail

/-- Alternative selected by the predicate in iteration `m`. -/
def loopPred {V : Type} (sem : Sem V) (f : List (W V) → List (W V)) (init : List (W V)) (m : Nat) :
    Option Nat :=
  ((f (loopState f init m)).headD none).map fun v => sem.ctl v.1

/-- The loop is left after iteration `n`. -/
def loopExits {V : Type} (sem : Sem V) (f : List (W V) → List (W V)) (init : List (W V)) (n : Nat) :
    Prop :=
  loopPred sem f init n = some 0 ∧ ∀ m, m < n → ∃ c, loopPred sem f init m = some (c + 1)

open Classical in
/-- Final values of the loop variables; no values if the loop is never left. -/
noncomputable def loopVals {V : Type} (sem : Sem V) (f : List (W V) → List (W V))
    (init : List (W V)) : List (W V) :=
  if h : ∃ n, loopExits sem f init n then loopState f init (h.choose + 1) else []

/-- Values of recursive definitions after unfolding them `d` times: `f` maps the values of the
recursion variables to the values of the results. -/
def phiVals {V : Type} (sem : Sem V) (outs : List Out) (f : List (W V) → List (W V)) :
    Nat → List (W V)
  | 0 => outs.map fun o => some (sem.sym o, none)
  | d + 1 => (outs.zip (f (phiVals sem outs f d))).map fun ow => ow.2.map fun v => (sem.sym ow.1, v.2)

mutual

/-- Values of the outputs of a node in a given environment.

Nested regions are evaluated in an environment that contains nothing but their arguments. A
non-volatile load does not change memory: it passes on its memory states
(jlm/llvm/ir/operators/Load.hpp:25 ff.: inputs are address :: states, outputs value :: states). -/
noncomputable def nodeVals {V : Type} (sem : Sem V) : Node → Env V → List (W V)
  | .simple op ins _, env =>
      if op.kind = .load then
        (lift (sem.apply op (ins.map env))).headD none :: (ins.map env).tail
      else lift (sem.apply op (ins.map env))
  | .gamma pred ins _ subs, env =>
      match env pred with
      | none => []
      | some p => regionVals sem subs (sem.ctl p.1) (some (sem.content p.1, none) :: ins.map env)
  | .theta ins _ args pred posts sub, env =>
      loopVals sem (fun ws => (pred :: posts).map (evalNodes sem sub (upd emptyEnv args ws)))
        (ins.map env)
  | .lambda ins args params results out sub, env =>
      [some (sem.sym out, some (.lam fun ps =>
        plain (results.map (evalNodes sem sub
          (upd (upd emptyEnv args (ins.map env)) params (lift ps))))))]
  | .phi ins args recs results outs sub, env =>
      phiVals sem outs (fun ws => results.map (evalNodes sem sub
        (upd (upd emptyEnv args (ins.map env)) recs ws))) (sem.depth + 1)
  | .delta ins args result out sub, env =>
      [some (sem.sym out, some (.dat
        ((evalNodes sem sub (upd emptyEnv args (ins.map env)) result).map (·.1))))]

/-- Environment after the nodes of a region. -/
noncomputable def evalNodes {V : Type} (sem : Sem V) : Nodes → Env V → Env V
  | .nil, env => env
  | .cons n ns, env => evalNodes sem ns (upd env n.outs (nodeVals sem n env))

/-- Values of the results of branch `k` of a gamma node, given the values of its arguments. -/
noncomputable def regionVals {V : Type} (sem : Sem V) : Regions → Nat → List (W V) → List (W V)
  | .nil, _, _ => []
  | .cons args results sub _, 0, ws => results.map (evalNodes sem sub (upd emptyEnv args ws))
  | .cons _ _ _ rest, k + 1, ws => regionVals sem rest k ws

end

/-- Value of an output (or import) of the root region. -/
noncomputable def Graph.valueOf {V : Type} (sem : Sem V) (g : Graph) (o : Out) : W V :=
  evalNodes sem g.body (upd emptyEnv g.imports (g.imports.map fun i => some (sem.sym i, none))) o

/-- What a module means: the values of its exports. -/
noncomputable def Graph.meaning {V : Type} (sem : Sem V) (g : Graph) : List (W V) :=
  g.exports.map (g.valueOf sem)

end Jlm.Opt
