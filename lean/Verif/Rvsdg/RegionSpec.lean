import Verif.Rvsdg.RegionModel
import Verif.Rvsdg.TraverserSpec
import Mathlib.Logic.Relation
/-
Specification for the region bookkeeping and pruning (C19).
-/
namespace Jlm.Rvsdg.Reg
open Trav

/-- node `u` of the region uses an output of node `n` -/
def UsedBy (g : Graph) (n u : NodeId) : Prop := u ∈ g.nodes ∧ g.Pred n u

/-- some result of the region depends on `n` -/
def Alive (g : Graph) (n : NodeId) : Prop :=
  ∃ u, Relation.ReflTransGen (UsedBy g) n u ∧ ∃ o ∈ g.results, o.owner = some u

/-- The bookkeeping of the region agrees with its nodes and edges. -/
structure Consistent (r : Region) : Prop where
  wf : r.g.WF
  /-- `numSuccessors()` is the number of users -/
  succ : ∀ n ∈ r.g.nodes, r.succ n = r.g.numSuccessors n
  /-- `TopNodes()` enumerates exactly the nodes without inputs, each once -/
  top : r.topNodes.Perm r.g.topNodes
  /-- `BottomNodes()` enumerates exactly the nodes without users, each once -/
  bottom : r.bottomNodes.Perm r.g.bottomNodes
  numTop : r.numTopNodes = r.topNodes.length
  numBottom : r.numBottomNodes = r.bottomNodes.length
  numNodes : r.numNodes = r.g.nodes.length

/-- The preconditions of the mutations, plus: `RemoveInputs` with a non-empty set of indices is
not called on a node without inputs (node.cpp:333 would add it to the top nodes again). -/
def Valid (g : Graph) (m : Mut) : Prop :=
  m.Valid g ∧ ∀ n idx, m = .removeInputs n idx → g.inputs n ≠ [] ∨ idx = []

/-- the elements of a vector with their positions as indices -/
def indexed {α : Type} (l : List α) : List (Elem α) := l.zipIdx.map (fun p => ⟨p.1, p.2⟩)

end Jlm.Rvsdg.Reg
