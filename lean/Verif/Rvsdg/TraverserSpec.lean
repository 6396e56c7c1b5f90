import Verif.Rvsdg.TraverserModel
/-
Specification for the graph traversers (C17, C18), from the documentation in traverser.hpp:
"The top down traverser visits all nodes in a region, starting at the nodes that have no inputs
besides graph arguments, i.e. from the topmost nodes to the nodes at the bottom. Nodes created
during traversal are not visited."
-/
namespace Jlm.Rvsdg.Trav

/-- `o` may be used in the region -/
def Graph.HasOrigin (g : Graph) (o : Origin) : Prop := ∀ p, o.owner = some p → p ∈ g.nodes

/-- `p` is a direct predecessor of `n`: an input of `n` has an output of `p` as origin -/
def Graph.Pred (g : Graph) (p n : NodeId) : Prop := ∃ o ∈ g.inputs n, o.owner = some p

/-- the output of a node is used by a node or a result -/
def Graph.Used (g : Graph) (p : NodeId) : Prop :=
  (∃ n ∈ g.nodes, g.Pred p n) ∨ ∃ o ∈ g.results, o.owner = some p

/-- A well-formed region: the ids of the nodes are distinct and below the next id; only outputs
of nodes of the region are used. -/
structure Graph.WF (g : Graph) : Prop where
  nodup : g.nodes.Nodup
  lt_nextId : ∀ n ∈ g.nodes, n < g.nextId
  inputs_ok : ∀ n ∈ g.nodes, ∀ o ∈ g.inputs n, g.HasOrigin o
  results_ok : ∀ o ∈ g.results, g.HasOrigin o

/-- no node depends on itself -/
def Graph.Acyclic (g : Graph) : Prop :=
  ∃ rank : NodeId → Nat, ∀ n ∈ g.nodes, ∀ p, g.Pred p n → rank p < rank n

/-- The preconditions of the mutations: nodes belong to the region, origins belong to the region,
indices are in range, and only dead nodes are destroyed (node.cpp:265-268). -/
def Mut.Valid (g : Graph) : Mut → Prop
  | .createNode os => ∀ o ∈ os, g.HasOrigin o
  | .destroyNode n => n ∈ g.nodes ∧ ¬ g.Used n
  | .addInput n o => n ∈ g.nodes ∧ g.HasOrigin o
  | .removeInputs n _ => n ∈ g.nodes
  | .divertInput n i o => n ∈ g.nodes ∧ i < g.ninputs n ∧ g.HasOrigin o
  | .addResult o => g.HasOrigin o
  | .removeResults _ => True
  | .divertResult i o => i < g.results.length ∧ g.HasOrigin o

/-- no node has 2^32 or more inputs -/
def Graph.SmallIn (g : Graph) : Prop := ∀ n ∈ g.nodes, g.ninputs n < u32

/-- no node has 2^32 or more users -/
def Graph.SmallOut (g : Graph) : Prop := ∀ n ∈ g.nodes, g.numSuccessors n < u32

/-- What can happen between the construction of a traverser and its destruction -/
inductive Ev where
  /-- `next()` returned this node -/
  | ret (n : NodeId)
  /-- `next()` returned `nullptr` -/
  | null
  /-- the region was mutated -/
  | mut (m : Mut)

def Ev.ofRet : Option NodeId → Ev
  | some n => .ret n
  | none => .null

/-- The histories of a top-down traverser of `g₀`: it is constructed, then `next` is called and
the region is mutated in any order. -/
inductive TD.Run (g₀ : Graph) : List Ev → TD.State → Prop
  | init (tops us : List NodeId) (ht : tops.Perm g₀.topNodes) (hu : us.Perm g₀.argUserNodes) :
      TD.Run g₀ [] { g := g₀, t := TD.init g₀ tops us, cutoff := g₀.nextId }
  | next {tr s r s'} (h : TD.Run g₀ tr s) (hn : TD.Next s r s') :
      TD.Run g₀ (tr ++ [Ev.ofRet r]) s'
  | mutate {tr s} (m : Mut) (h : TD.Run g₀ tr s) (hv : m.Valid s.g) (hs : (s.g.apply m).SmallIn) :
      TD.Run g₀ (tr ++ [.mut m]) { s with g := s.g.apply m, t := TD.notify s.g s.t m }

/-- The histories of a bottom-up traverser. -/
inductive BU.Run (g₀ : Graph) : List Ev → BU.State → Prop
  | init (bs : List NodeId) (hb : bs.Perm g₀.bottomNodes) :
      BU.Run g₀ [] { g := g₀, t := BU.init g₀ bs }
  | next {tr s} (h : BU.Run g₀ tr s) :
      BU.Run g₀ (tr ++ [Ev.ofRet (BU.next s).1]) (BU.next s).2
  | mutate {tr s} (m : Mut) (h : BU.Run g₀ tr s) (hv : m.Valid s.g) (hs : (s.g.apply m).SmallOut) :
      BU.Run g₀ (tr ++ [.mut m]) { s with g := s.g.apply m, t := BU.notify s.g s.t m }

/-- the nodes returned in a history, in order -/
def returned (tr : List Ev) : List NodeId :=
  tr.filterMap (fun | .ret n => some n | _ => none)

end Jlm.Rvsdg.Trav
