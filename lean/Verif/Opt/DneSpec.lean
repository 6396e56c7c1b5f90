import Verif.Opt.Tree

/-!
# What the exports of a graph depend on

Independent of the optimisation: which outputs the value of an output depends on directly, and the
parts of a graph (`units`) that should only be there if something needs them.
-/

namespace Jlm.Opt

mutual

/-- All nodes of a region and of the regions nested in it. -/
def nodesIn : Nodes → List Node
  | .nil => []
  | .cons n ns => n :: (nestedNodes n ++ nodesIn ns)

def nestedNodes : Node → List Node
  | .simple _ _ _ => []
  | .gamma _ _ _ subs => branchNodes subs
  | .theta _ _ _ _ _ sub => nodesIn sub
  | .lambda _ _ _ _ _ sub => nodesIn sub
  | .phi _ _ _ _ _ sub => nodesIn sub
  | .delta _ _ _ _ sub => nodesIn sub

def branchNodes : Regions → List Node
  | .nil => []
  | .cons _ _ sub rest => nodesIn sub ++ branchNodes rest

end

/-- Arguments and results of the branches of a gamma node. -/
def Regions.ports : Regions → List (List Out × List Out)
  | .nil => []
  | .cons args results _ rest => (args, results) :: rest.ports

/-- `DependsOn n o x`: because of node `n`, computing `o` (an output of `n` or an argument of one of
its subregions) involves `x`. -/
inductive DependsOn : Node → Out → Out → Prop
  | simple {op : Op} {ins outs : List Out} {o x : Out} : op.kind ≠ .load → o ∈ outs → x ∈ ins →
      DependsOn (.simple op ins outs) o x
  /-- the loaded value depends on everything -/
  | loadValue {op : Op} {ins outs : List Out} {o x : Out} :
      op.kind = .load → outs.head? = some o → x ∈ ins →
      DependsOn (.simple op ins outs) o x
  /-- a memory state behind a load is the memory state before it -/
  | loadState {op : Op} {ins outs : List Out} {o x : Out} {k : Nat} :
      op.kind = .load → outs[k + 1]? = some o →
      ins[k + 1]? = some x → DependsOn (.simple op ins outs) o x
  | gammaPred {pred o : Out} {ins outs : List Out} {subs : Regions} :
      o ∈ outs → DependsOn (.gamma pred ins outs subs) o pred
  | gammaResult {pred o x : Out} {ins outs : List Out} {subs : Regions}
      {r : List Out × List Out} {k : Nat} : outs[k]? = some o → r ∈ subs.ports →
      r.2[k]? = some x → DependsOn (.gamma pred ins outs subs) o x
  | gammaArg {pred o x : Out} {ins outs : List Out} {subs : Regions} {r : List Out × List Out}
      {k : Nat} : r ∈ subs.ports → r.1[k]? = some o →
      (pred :: ins)[k]? = some x → DependsOn (.gamma pred ins outs subs) o x
  | thetaPred {ins outs args posts : List Out} {pred o : Out} {sub : Nodes} : o ∈ outs →
      DependsOn (.theta ins outs args pred posts sub) o pred
  | thetaPost {ins outs args posts : List Out} {pred o x : Out} {sub : Nodes} {k : Nat} :
      outs[k]? = some o → posts[k]? = some x →
      DependsOn (.theta ins outs args pred posts sub) o x
  | thetaInput {ins outs args posts : List Out} {pred o x : Out} {sub : Nodes} {k : Nat} :
      outs[k]? = some o → ins[k]? = some x →
      DependsOn (.theta ins outs args pred posts sub) o x
  /-- the value of a loop variable in an iteration comes from the one before -/
  | thetaPre {ins outs args posts : List Out} {pred o x : Out} {sub : Nodes} {k : Nat} :
      args[k]? = some o → outs[k]? = some x →
      DependsOn (.theta ins outs args pred posts sub) o x
  | thetaArg {ins outs args posts : List Out} {pred o x : Out} {sub : Nodes} {k : Nat} :
      args[k]? = some o → ins[k]? = some x →
      DependsOn (.theta ins outs args pred posts sub) o x
  | lambdaResult {ins args params results : List Out} {out x : Out} {sub : Nodes} : x ∈ results →
      DependsOn (.lambda ins args params results out sub) out x
  | lambdaCtx {ins args params results : List Out} {out o x : Out} {sub : Nodes} {k : Nat} :
      args[k]? = some o → ins[k]? = some x →
      DependsOn (.lambda ins args params results out sub) o x
  | phiOut {ins args recs results outs : List Out} {sub : Nodes} {o x : Out} {k : Nat} :
      outs[k]? = some o → results[k]? = some x →
      DependsOn (.phi ins args recs results outs sub) o x
  | phiRec {ins args recs results outs : List Out} {sub : Nodes} {o x : Out} {k : Nat} :
      recs[k]? = some o → results[k]? = some x →
      DependsOn (.phi ins args recs results outs sub) o x
  | phiCtx {ins args recs results outs : List Out} {sub : Nodes} {o x : Out} {k : Nat} :
      args[k]? = some o → ins[k]? = some x →
      DependsOn (.phi ins args recs results outs sub) o x
  | deltaResult {ins args : List Out} {result out : Out} {sub : Nodes} :
      DependsOn (.delta ins args result out sub) out result
  | deltaCtx {ins args : List Out} {result out o x : Out} {sub : Nodes} {k : Nat} :
      args[k]? = some o → ins[k]? = some x →
      DependsOn (.delta ins args result out sub) o x

/-- The outputs that are involved in computing the exports. -/
inductive Graph.Needs (g : Graph) : Out → Prop
  | export {o : Out} : o ∈ g.exports → g.Needs o
  | dep {o x : Out} {n : Node} : g.Needs o → n ∈ nodesIn g.body → DependsOn n o x → g.Needs x

/-- The parts of a node that can be removed separately, each given by the outputs it defines: a
simple node as a whole (a load by the loaded value), an output of a structural node, an entry
variable of a gamma node (its arguments in all branches), a context variable (its argument), a
recursive definition with its recursion variable. -/
def Node.units : Node → List (List Out)
  | .simple op _ outs => if op.kind = .load then [outs.take 1] else [outs]
  | .gamma _ ins outs subs =>
      (outs.map fun o => [o]) ++
        (List.range ins.length).map fun k => subs.ports.filterMap fun r => r.1[k + 1]?
  | .theta _ outs _ _ _ _ => outs.map fun o => [o]
  | .lambda _ args _ _ out _ => [out] :: args.map fun a => [a]
  | .phi _ args recs _ outs _ =>
      ((outs.zip recs).map fun p => [p.1, p.2]) ++ args.map fun a => [a]
  | .delta _ args _ out _ => [out] :: args.map fun a => [a]

end Jlm.Opt
