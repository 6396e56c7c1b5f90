import Verif.Hls.ForkModel
/-
Specification for the insertion of sinks and forks, in terms of nodes, and of the origins of inputs and results
only: neither the lists of users nor the order of the passes occur.
-/
namespace Jlm.Hls
namespace Graph
variable (G : Graph)

/-- region `s` is region `r` or nested in it -/
inductive Below (r : Nat) : Nat → Prop where
  | refl : Below r r
  | step {s t n : Nat} : Below r s → n ∈ G.nodes s → t ∈ G.subs n → Below r t

/-- `o` is an argument of region `r` or an output of one of its nodes -/
def IsOutput (r : Nat) (o : Org) : Prop :=
  (∃ i < G.nargs r, o = .arg r i) ∨ ∃ n ∈ G.nodes r, ∃ i < G.nout n, o = .out n i

/-- the inputs of nodes and the results of regions -/
def IsUse (u : Use) : Prop := (∃ n i, u = .inp n i ∧ n < G.next ∧ i < G.nin n) ∨ ∃ r i, u = .res r i ∧ i < G.nres r

/-- some input or result reads from `o` -/
def Used (o : Org) : Prop := ∃ u, G.IsUse u ∧ G.org u = o

/-- at most one input or result reads from `o` -/
def UsedOnce (o : Org) : Prop := ∀ u v, G.IsUse u → G.IsUse v → G.org u = o → G.org v = o → u = v

def IsFork (n : Nat) : Prop := ∃ c, G.op n = .fork c

/-- the graph is consistent: an output knows its users, operands exist, and numbers of new nodes are new -/
structure Ok : Prop where
  nodup : ∀ o, (G.users o).Nodup
  users : ∀ o u, u ∈ G.users o ↔ G.IsUse u ∧ G.org u = o
  operand : ∀ u n i, G.IsUse u → G.org u = .out n i → n < G.next
  nodes : ∀ r, ∀ n ∈ G.nodes r, n < G.next

/-- regions are nested -/
def Nested (rank : Nat → Nat) : Prop := ∀ r n s, n ∈ G.nodes r → s ∈ G.subs n → rank s < rank r

/-- `G'` is `G` with more nodes, each a fork or a sink of one operand at the end of the list of a region; an input or
result of `G` reads the same output as before, or an output of a new fork of that output -/
structure Extends (G G' : Graph) : Prop where
  next : G.next ≤ G'.next
  op : ∀ n < G.next, G'.op n = G.op n ∧ G'.nin n = G.nin n ∧ G'.nout n = G.nout n ∧ G'.subs n = G.subs n
  sig : G'.nargs = G.nargs ∧ G'.nres = G.nres
  added : ∀ r, ∃ l, G'.nodes r = G.nodes r ++ l ∧ ∀ m ∈ l, G.next ≤ m ∧ m < G'.next
  new : ∀ m, G.next ≤ m → m < G'.next → G'.nin m = 1 ∧ G'.subs m = [] ∧ (G'.IsFork m ∨ G'.op m = .sink ∧ G'.nout m = 0)
  read : ∀ u, G.IsUse u → G'.org u = G.org u ∨
    ∃ m j, G.next ≤ m ∧ m < G'.next ∧ G'.IsFork m ∧ j < G'.nout m ∧ G'.org u = .out m j ∧ G'.org (.inp m 0) = G.org u

end Graph
end Jlm.Hls
