import Verif.Opt.CopyModel
import Verif.Opt.DneModel
import Verif.Opt.CneEqual
import Verif.Opt.DneExamples

/-!
# Node sinking (model)

Model of `NodeSinking` (jlm/llvm/opt/pull.cpp): nodes whose only user is a gamma node are moved into the branches
of that gamma node.

The nodes of a region are a list in a topological order. While a gamma node is handled, the nodes before it are kept
apart from the nodes after it; `users` are the origins used by the nodes after it and by the results of the region.
New outputs get the names `n`, `n + 1`, …; `none`: an exception is thrown (by `GammaNode::copy`).
-/

namespace Jlm.Opt.Pull

open Jlm.Opt.Copy

/-- The node that owns output `o`, with the nodes before and after it (`TryGetOwnerNode`, jlm/rvsdg/node.hpp). -/
def split (o : Out) : List Node → Option (List Node × Node × List Node)
  | [] => none
  | x :: xs => if x.outs.contains o then some ([], x, xs) else (split o xs).map fun p => (x :: p.1, p.2)

/-- `isSingleSuccessor` (pull.cpp:68-82): all users of the outputs of `x` are inputs of the gamma node. -/
def single (before : List Node) (users : List Out) (x : Node) : Bool :=
  x.outs.all fun o => !(before.flatMap Node.ins ++ users).contains o

/-- Is an entry variable whose origin is an output of `x` used in the branch? -/
def usedIn (x : Node) (ins args results : List Out) (sub : Nodes) : Bool :=
  (ins.zip args.tail).any fun p => x.outs.contains p.1 && (sub.ins ++ results).contains p.2

/-- `is_used_in_nsubregions` (pull.cpp:276-326). -/
def usedCount (x : Node) (ins : List Out) : Regions → Nat
  | .nil => 0
  | .cons args results sub rest => (if usedIn x ins args results sub then 1 else 0) + usedCount x ins rest

/-- `empty` (pull.cpp:48-57). -/
def emptyGamma : Regions → Bool
  | .nil => true
  | .cons _ _ .nil rest => emptyGamma rest
  | .cons _ _ (.cons _ _) _ => false

/-- Number of branches. -/
def branches : Regions → Nat
  | .nil => 0
  | .cons _ _ _ rest => branches rest + 1

/-- The first entry variable whose origin is an output of a node that is to be moved: pull.cpp:345-366
(`all = false`) and, without the condition on the branches, `pullin_top` (pull.cpp:131-157, `all = true`). -/
def candidate (all : Bool) (before : List Node) (users : List Out) (pred : Out) (ins : List Out) (subs : Regions) :
    List Out → Option (List Node × Node × List Node)
  | [] => none
  | o :: os =>
      match split o before with
      | some (a, x, b) =>
          if !x.outs.contains pred && single before users x && (all || usedCount x ins subs == 1) then some (a, x, b)
          else candidate all before users pred ins subs os
      | none => candidate all before users pred ins subs os

/-- `Node::copy(region, operands)` (jlm/rvsdg/node.hpp, node.cpp; simple-node.cpp:53-57; for the other nodes the
operands are inserted in a substitution map, jlm/rvsdg/node.cpp). -/
def copyInto : Node → List Out → Nat → Option (Node × Nat)
  | .simple op _ outs, operands, n => some (.simple op operands (List.range' n outs.length), n + outs.length)
  | x, operands, n => (copyNode x (SMap.empty.insertAll x.ins operands) n).map fun r => (r.1, r.2.2)

/-- `entryvar.branchArgument[r]->divert_users(copy->output(o))` (pull.cpp:103-110). -/
def divertArgs (x : Node) (copies ins args : List Out) (z : Out) : Out :=
  ((args.tail.zip ins).lookup z).elim z fun o => ((x.outs.zip copies).lookup o).getD z

/-- `pullin_node` and `cleanup` (pull.cpp:84-129) for the branches: new arguments for the inputs of `x`, a copy of
`x`, and no arguments for the outputs of `x`. -/
def pullRegions (x : Node) (ins : List Out) : Regions → Nat → Option (Regions × Nat)
  | .nil, n => some (.nil, n)
  | .cons args results sub rest, n =>
      (copyInto x (List.range' n x.ins.length) (n + x.ins.length)).bind fun c =>
      (pullRegions x ins rest c.2).map fun q =>
        (.cons (mask (true :: ins.map fun o => !x.outs.contains o) args ++ List.range' n x.ins.length)
          (results.map (divertArgs x c.1.outs ins args))
          (.cons c.1 (sub.divert (divertArgs x c.1.outs ins args))) q.1, q.2)

/-- The inputs of the gamma node after `pullin_node` and `cleanup`. -/
def pullIns (x : Node) (ins : List Out) : List Out := mask (ins.map fun o => !x.outs.contains o) ins ++ x.ins

/-- A gamma node under transformation: the nodes before it, its entry variables, its branches, the free names. -/
structure Work where
  before : List Node
  ins : List Out
  subs : Regions
  n : Nat

/-- The loops of `pull(gamma)` (pull.cpp:343-372) and `pullin_top` (pull.cpp:131-157): every round removes a node from
the nodes before the gamma node. -/
def pullLoop (all : Bool) (users : List Out) (pred : Out) : Nat → Work → Option Work
  | 0, w => some w
  | f + 1, w =>
      match candidate all w.before users pred w.ins w.subs w.ins with
      | none => some w
      | some (a, x, b) =>
          (pullRegions x w.ins w.subs w.n).bind fun q =>
            pullLoop all users pred f ⟨a ++ b, pullIns x w.ins, q.1, q.2⟩

/-- `pull(gamma)` (pull.cpp:328-372). -/
def pullGamma (users : List Out) (pred : Out) (w : Work) : Option Work :=
  if branches w.subs == 2 && emptyGamma w.subs then some w else pullLoop false users pred w.before.length w

/-- `pullin_top(gamma)` (pull.cpp:131-157). -/
def pullTop (users : List Out) (pred : Out) (w : Work) : Option Work :=
  pullLoop true users pred w.before.length w

/-- `pull` of the subregions of a gamma node. -/
def pullSubs (pull : Nodes → List Out → Nat → Option (Nodes × Nat)) : Regions → Nat → Option (Regions × Nat)
  | .nil, n => some (.nil, n)
  | .cons args results sub rest, n =>
      (pull sub results n).bind fun r => (pullSubs pull rest r.2).map fun q => (.cons args results r.1 q.1, q.2)

/-- The loop of `pull(region)` (pull.cpp:374-388). The subregion of a delta node contains simple nodes only, so
nothing happens there. -/
def pullNodes (pull : Nodes → List Out → Nat → Option (Nodes × Nat)) (results : List Out) :
    List Node → List Node → Nat → Option (List Node × Nat)
  | before, [], n => some (before, n)
  | before, .gamma pred ins outs subs :: after, n =>
      (pullGamma (after.flatMap Node.ins ++ results) pred ⟨before, ins, subs, n⟩).bind fun w =>
      (pullSubs pull w.subs w.n).bind fun q =>
        pullNodes pull results (w.before ++ [.gamma pred w.ins outs q.1]) after q.2
  | before, .theta ins outs args pred posts sub :: after, n =>
      (pull sub (pred :: posts) n).bind fun r =>
        pullNodes pull results (before ++ [.theta ins outs args pred posts r.1]) after r.2
  | before, .lambda ins args params rs out sub :: after, n =>
      (pull sub rs n).bind fun r =>
        pullNodes pull results (before ++ [.lambda ins args params rs out r.1]) after r.2
  | before, .phi ins args recs rs outs sub :: after, n =>
      (pull sub rs n).bind fun r =>
        pullNodes pull results (before ++ [.phi ins args recs rs outs r.1]) after r.2
  | before, x :: after, n => pullNodes pull results (before ++ [x]) after n

/-- `pull(region)`, for at most `f` levels of nested regions. -/
def pullRegion : Nat → Nodes → List Out → Nat → Option (Nodes × Nat)
  | 0, ns, _, n => some (ns, n)
  | f + 1, ns, results, n => (pullNodes (pullRegion f) results [] ns.list n).map fun r => (nodesOf r.1, r.2)

mutual

/-- The number of nodes, where only the largest branch of a gamma node counts: a bound on the depth to which nodes
can be nested. -/
def weightNode : Node → Nat
  | .simple .. => 1
  | .gamma _ _ _ subs => weightRegions subs + 1
  | .theta _ _ _ _ _ sub => weightNodes sub + 1
  | .lambda _ _ _ _ _ sub => weightNodes sub + 1
  | .phi _ _ _ _ _ sub => weightNodes sub + 1
  | .delta _ _ _ _ sub => weightNodes sub + 1

def weightNodes : Nodes → Nat
  | .nil => 0
  | .cons x ns => weightNode x + weightNodes ns

def weightRegions : Regions → Nat
  | .nil => 0
  | .cons _ _ sub rest => max (weightNodes sub) (weightRegions rest)

end

/-- A name that is larger than all names of the list. -/
def freshName (l : List Out) : Nat := l.foldr (fun o m => max (o + 1) m) 0

/-- `NodeSinking::Run` (pull.cpp:390-408). -/
def run (g : Graph) : Option Graph :=
  (pullRegion (weightNodes g.body) g.body g.exports (freshName g.names)).map fun r => ⟨g.imports, r.1, g.exports⟩

end Jlm.Opt.Pull
