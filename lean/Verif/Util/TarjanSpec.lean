import Verif.Util.TarjanModel
import Mathlib.Logic.Relation
/-
Specification of strongly connected components (C14), from the documentation
TarjanScc.hpp:20-49.
-/
namespace Jlm.Util.Tarjan

/-- `v` is the representative of its unification -/
def Root (g : Graph) (v : Nat) : Prop := v < g.numNodes ∧ g.unificationRoot v = v

/-- The contract of the arguments: successors of root nodes are nodes, and `unificationRoot`
maps nodes to root nodes. -/
structure WF (g : Graph) : Prop where
  root_lt : ∀ v, v < g.numNodes → g.unificationRoot v < g.numNodes
  root_root : ∀ v, v < g.numNodes → g.unificationRoot (g.unificationRoot v) = g.unificationRoot v
  succ_lt : ∀ v, Root g v → ∀ w ∈ g.successors v, w < g.numNodes

/-- an edge between root nodes -/
def Edge (g : Graph) (u v : Nat) : Prop := ∃ w ∈ g.successors u, g.unificationRoot w = v

/-- there is a path (possibly of length 0) -/
def Reach (g : Graph) : Nat → Nat → Prop := Relation.ReflTransGen (Edge g)

/-- What the documentation promises about the results; `before` is the content of the output
vector `sccIndex` before the call. -/
structure IsScc (g : Graph) (before : Nat → Nat) (r : Result) : Prop where
  /-- two root nodes have the same index iff each reaches the other -/
  same_iff : ∀ u v, Root g u → Root g v →
    (r.sccIndex u = r.sccIndex v ↔ Reach g u v ∧ Reach g v u)
  /-- every edge goes to an equal or smaller index -/
  edge_le : ∀ u v, Root g u → Edge g u v → r.sccIndex v ≤ r.sccIndex u
  /-- the indices are 0, ..., numSccs - 1 -/
  index_lt : ∀ v, Root g v → r.sccIndex v < r.numSccs
  index_used : ∀ i, i < r.numSccs → ∃ v, Root g v ∧ r.sccIndex v = i
  /-- the order lists exactly the root nodes, each once ... -/
  order_mem : ∀ v, v ∈ r.reverseTopologicalOrder ↔ Root g v
  order_nodup : r.reverseTopologicalOrder.Nodup
  /-- ... with non-descending index -/
  order_sorted : r.reverseTopologicalOrder.Pairwise (fun u v => r.sccIndex u ≤ r.sccIndex v)
  /-- nodes that are not roots are not given an index -/
  untouched : ∀ v, ¬ Root g v → r.sccIndex v = before v

end Jlm.Util.Tarjan
