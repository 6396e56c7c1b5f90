import Verif.Front.ConvertModel

/-!
# Aggregation: from control flow graphs to aggregation trees (model)

Model of `jlm/llvm/ir/aggregation.cpp` (AG below), which turns a structured control flow graph into the
aggregation tree that `Front/ConvertModel.lean` starts with.

Simplifications:

* The control flow graph and the `AggregationMap` are one object: a node of `Flow` has an aggregation subtree
  (`lab`) and successors (`outs`, by the index of the edge). Nodes that have been removed from the map are
  removed from the graph (/repo leaves them there, with edges only between them).
* Entry and exit node are empty blocks; their arguments and results are kept in `Fn`.
* `none` stands for a failed assertion or unreachable point, for a lookup that fails, and for lack of fuel (the
  recursion of /repo has no bound).
* The strongly connected components come from a parameter: the theorems hold whatever sets it gives.
-/

namespace Jlm.Front

open Jlm.Opt

/-- A control flow graph: basic blocks with their successors (jlm/llvm/ir/cfg.hpp, cfg-node.hpp). -/
structure Cfg where
  nodes : List Nat
  code : Nat → List Tac
  succs : Nat → List Nat
  entry : Nat
  exit : Nat

/-- Control flow graph and aggregation map. -/
structure Flow where
  live : List Nat
  lab : Nat → Agg
  outs : Nat → List Nat
  next : Nat

/-- `AggregationMap::create` (AG:151-167). -/
def Cfg.flow (C : Cfg) : Flow :=
  ⟨C.nodes, fun x => .block (C.code x), C.succs, C.nodes.foldl (fun m x => max m (x + 1)) 0⟩

/-- `NumInEdges`. -/
def Flow.indeg (G : Flow) (y : Nat) : Nat := (G.live.map fun x => (G.outs x).count y).sum

/-- `is_linear` (AG:214-225): the successor. -/
def Flow.isLinear (G : Flow) (x : Nat) : Option Nat :=
  match G.outs x with
  | [y] => if G.indeg y = 1 then some y else none
  | _ => none

/-- `is_branch` (AG:191-212): the join. -/
def Flow.isBranch (G : Flow) (x : Nat) : Option Nat :=
  match G.outs x with
  | y :: _ :: _ =>
      match G.outs y with
      | [j] => if (G.outs x).all fun z => G.indeg z == 1 && G.outs z == [j] then some j else none
      | _ => none
  | _ => none

/-- `divert_inedges`: edges to `old` now go to `new`. -/
def divert (old new : Nat) (ys : List Nat) : List Nat := ys.map fun y => if y = old then new else y

def aggsOf : List Agg → Aggs
  | [] => .nil
  | a :: as => .cons a (aggsOf as)

/-- `reduce_linear` (AG:339-369); a node that is its own only successor would get a null child. -/
def Flow.reduceLinear (G : Flow) (src sink : Nat) : Flow where
  live := (G.live.filter fun x => x ≠ src ∧ x ≠ sink) ++ [G.next]
  lab x := if x = G.next then .linear (aggsOf [G.lab src, G.lab sink]) else G.lab x
  outs x := divert src G.next (if x = G.next then G.outs sink else G.outs x)
  next := G.next + 1

/-- `reduce_branch` (AG:279-320). -/
def Flow.reduceBranch (G : Flow) (split join : Nat) : Flow where
  live := (G.live.filter fun x => x ≠ split ∧ x ∉ G.outs split) ++ [G.next]
  lab x := if x = G.next then
      .linear (aggsOf [G.lab split, .branch (aggsOf ((G.outs split).map G.lab))])
    else G.lab x
  outs x := if x = G.next then [join] else divert split G.next (G.outs x)
  next := G.next + 1

/-- The graph, and entry and exit of the region that is aggregated. -/
structure AggState where
  G : Flow
  entry : Nat
  exit : Nat

/-- `aggregate_acyclic_sese` (AG:392-464). -/
def walk : Nat → Nat → AggState → Option AggState
  | 0, _, _ => none
  | fuel + 1, node, st =>
      if st.entry = st.exit then if node = st.entry then some st else none
      else if node = st.exit then some st
      else match st.G.isLinear node with
      | some sink =>
          if node ∈ st.G.live ∧ sink ∈ st.G.live ∧ node ≠ sink then
            walk fuel st.G.next ⟨st.G.reduceLinear node sink, if node = st.entry then st.G.next else st.entry,
              if sink = st.exit then st.G.next else st.exit⟩
          else none
      | none =>
          if 1 < (st.G.outs node).length then
            ((List.range (st.G.outs node).length).foldlM
              (fun st i => (st.G.outs node)[i]?.bind fun y => walk fuel y st) st).bind fun st =>
              match st.G.isBranch node with
              | some join =>
                  if node ∈ st.G.live ∧ ∀ y ∈ st.G.outs node, y ∈ st.G.live then
                    walk fuel st.G.next ⟨st.G.reduceBranch node join,
                      if node = st.entry then st.G.next else st.entry, st.exit⟩
                  else none
              | none => none
          else match st.G.outs node with
          | [y] => if st.G.indeg node = 1 then walk fuel y st else if 1 < st.G.indeg node then some st else none
          | _ => if 1 < st.G.indeg node then some st else none

/-- Indexed edges. -/
def Flow.edges (G : Flow) (x : Nat) : List (Nat × Nat × Nat) :=
  (List.range (G.outs x).length).filterMap fun i => (G.outs x)[i]?.map fun y => (x, i, y)

/-- `StronglyConnectedComponentStructure::Create` (jlm/llvm/ir/cfg-structure.cpp:35-71) and
`IsTailControlledLoop` (cfg-structure.cpp:28-33): entry node and source of the repetition edge, which has index 1
(AG:244). A tail with a third successor, which cannot be in a properly structured graph, is refused, as are
sets with nodes that are not in the graph. -/
def Flow.tailLoop (G : Flow) (scc : List Nat) : Option (Nat × Nat) :=
  if ∀ x ∈ scc, x ∈ G.live then
  let entries := scc.filter fun x => G.live.any fun u => decide (u ∉ scc) && (G.outs u).contains x
  let exits := scc.flatMap fun x => (G.edges x).filter fun e => decide (e.2.2 ∉ scc)
  let reps := scc.flatMap fun x => (G.edges x).filter fun e => decide (e.2.2 ∈ entries)
  match entries, exits, reps with
  | [e], [x], [r] =>
      if x.1 = r.1 ∧ r.2.1 = 1 ∧ (G.outs r.1).length = 2 then some (e, r.1) else none
  | _, _, _ => none
  else none

/-- The nodes that are reachable over at least one edge, without leaving `exit`; `n` rounds. -/
def Flow.reach (G : Flow) (exit : Nat) : Nat → List Nat → List Nat
  | 0, xs => xs
  | n + 1, xs =>
      G.reach exit n (G.live.filter fun y => xs.contains y || xs.any fun x => x != exit && (G.outs x).contains y)

def Flow.after (G : Flow) (exit x : Nat) : List Nat :=
  if x = exit then [] else G.reach exit G.live.length (G.outs x)

/-- The strongly connected components that `find_sccs` (cfg-structure.cpp:75-145) returns, found by reachability
instead of Tarjan's algorithm; used in examples only. -/
def Flow.sccs (G : Flow) (entry exit : Nat) : List (List Nat) :=
  ((entry :: G.after exit entry).filter fun x => (G.after exit x).contains x).foldl (fun acc x =>
    if acc.any fun c => c.contains x then acc
    else acc ++ [G.live.filter fun y => (G.after exit x).contains y && (G.after exit y).contains x]) []

/-- `remove_outedge` of the repetition edge (AG:245). -/
def Flow.removeRep (G : Flow) (t : Nat) : Flow :=
  { G with outs := fun x => if x = t then (G.outs x).eraseIdx 1 else G.outs x }

def Flow.setLab (G : Flow) (n : Nat) (a : Agg) : Flow :=
  { G with lab := fun x => if x = n then a else G.lab x }

/-- `aggregate` (AG:480-488) with `aggregate_loops` (AG:374-390) and `reduceLoop` (AG:234-250). -/
def aggregate (sccs : Flow → Nat → Nat → List (List Nat)) : Nat → Nat → Nat → Flow → Option (Flow × Nat)
  | 0, _, _, _ => none
  | fuel + 1, entry, exit, G =>
      ((sccs G entry exit).foldlM (fun (G : Flow) (scc : List Nat) =>
        (G.tailLoop scc).bind fun et => (aggregate sccs fuel et.1 et.2 (G.removeRep et.2)).bind fun r =>
          if r.2 ∈ r.1.live then some (r.1.setLab r.2 (.loop (r.1.lab r.2))) else none) G).bind fun G =>
      (walk fuel entry ⟨G, entry, exit⟩).bind fun st =>
        if st.entry = st.exit then some (st.G, st.entry) else none

/-- `aggregate` of a graph (AG:490-499). -/
def Cfg.aggregate (sccs : Flow → Nat → Nat → List (List Nat)) (fuel : Nat) (C : Cfg) : Option Agg :=
  (Front.aggregate sccs fuel C.entry C.exit C.flow).bind fun r =>
    if r.2 ∈ r.1.live then some (r.1.lab r.2) else none

def Aggs.append : Aggs → Aggs → Aggs
  | .nil, ds => ds
  | .cons c cs, ds => .cons c (cs.append ds)

mutual

/-- `AggregationNode::normalize` (AG:18-56): children of linear nodes that are linear nodes themselves are
replaced by their children. /repo first flattens a node and then visits the children. -/
def normalize : Agg → Agg
  | .block ts => .block ts
  | .linear cs => .linear (flatten cs)
  | .branch cs => .branch (normalizeAll cs)
  | .loop b => .loop (normalize b)

def flatten : Aggs → Aggs
  | .nil => .nil
  | .cons (.linear ds) cs => (flatten ds).append (flatten cs)
  | .cons (.block ts) cs => .cons (.block ts) (flatten cs)
  | .cons (.branch ds) cs => .cons (.branch (normalizeAll ds)) (flatten cs)
  | .cons (.loop b) cs => .cons (.loop (normalize b)) (flatten cs)

def normalizeAll : Aggs → Aggs
  | .nil => .nil
  | .cons c cs => .cons (normalize c) (normalizeAll cs)

end

/-- The tree of a function as the conversion gets it (jlm/llvm/frontend/InterProceduralGraphConversion.cpp:
877-897, AggregateControlFlowGraph): the children of the root. -/
def fnOf (args results : List Var) : Agg → Fn
  | .linear cs => ⟨args, cs, results⟩
  | a => ⟨args, .cons a .nil, results⟩

end Jlm.Front
