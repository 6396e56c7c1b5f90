/-
Model of jlm/hls/backend/rvsdg2rhls/add-sinks.cpp, add-forks.cpp and check-rhls.cpp.

Simplifications: nodes, regions, outputs and users are numbers. `nodes r` is the node list of region `r`,
`subs n` are the subregions of node `n`, `users o` is the list of users that an output keeps (node.hpp:525), `org` the
origin that an input or result keeps. The passes iterate over a node list while they append to it; here the outputs
of a graph are listed before the pass starts. The pass also comes to the nodes that it has
appended, and leaves them alone: a sink has no outputs, an output of a fork has one user (`C62_idle`). Types, the insertion of
buffers, and the checks of address queues in check-rhls.cpp:19-36 are not modelled. The recursion is bounded by an
argument that is at least the depth of the nesting.
-/
namespace Jlm.Hls

inductive Org where
  | out (n i : Nat)
  | arg (r i : Nat)
deriving DecidableEq, Repr

/-- input `i` of node `n`, or result `i` of region `r` -/
inductive Use where
  | inp (n i : Nat)
  | res (r i : Nat)
deriving DecidableEq, Repr

inductive Kind where
  | simple
  | loop
  | lambda
  | otherStructural
  | fork (isConstant : Bool)
  | sink
deriving DecidableEq, Repr

structure Graph where
  op : Nat → Kind
  nin : Nat → Nat
  nout : Nat → Nat
  nodes : Nat → List Nat
  subs : Nat → List Nat
  nargs : Nat → Nat
  nres : Nat → Nat
  org : Use → Org
  users : Org → List Use
  /-- the number of the next node -/
  next : Nat

namespace Graph
variable (G : Graph)

/-- the outputs of a node -/
def outputs (n : Nat) : List Org := (List.range (G.nout n)).map (.out n)

/-- the arguments of a region, the outputs of its nodes, and those of the regions below, with their regions: the
order of `AddForksToRegion` (add-forks.cpp:31-61) and `AddSinksToRegion` (add-sinks.cpp:47-78) -/
def outs : Nat → Nat → List (Nat × Org)
  | 0, _ => []
  | f + 1, r => (List.range (G.nargs r)).map (fun i => (r, Org.arg r i)) ++
      (G.nodes r).flatMap fun n => (G.subs n).flatMap (outs f) ++ (G.outputs n).map fun o => (r, o)

/-- a new node of region `r` with one operand: `CreateOpNode` -/
def create (r : Nat) (k : Kind) (nout : Nat) (o : Org) : Graph where
  op := fun n => if n = G.next then k else G.op n
  nin := fun n => if n = G.next then 1 else G.nin n
  nout := fun n => if n = G.next then nout else G.nout n
  nodes := fun s => if s = r then G.nodes s ++ [G.next] else G.nodes s
  subs := fun n => if n = G.next then [] else G.subs n
  nargs := G.nargs
  nres := G.nres
  org := fun u => if u = .inp G.next 0 then o else G.org u
  users := fun o' => if o' = o then G.users o' ++ [.inp G.next 0] else G.users o'
  next := G.next + 1

/-- `Input::divert_to`, node.cpp:63-80 -/
def divert (u : Use) (o : Org) : Graph :=
  if G.org u = o then G
  else { G with
    org := fun u' => if u' = u then o else G.org u'
    users := fun o' => if o' = o then G.users o' ++ [u] else if o' = G.org u then (G.users o').erase u else G.users o' }

/-! ## add-sinks.cpp -/

/-- add-sinks.cpp:50-56,70-76 -/
def sinkOutput (p : Nat × Org) : Graph := if G.users p.2 = [] then G.create p.1 .sink 0 p.2 else G

/-- `HandleRootRegion`, add-sinks.cpp:31-44: the root region is region 0 -/
def addSinks (fuel : Nat) : Graph :=
  ((G.nodes 0).flatMap fun n => (G.subs n).flatMap (G.outs fuel)).foldl sinkOutput G

/-! ## add-forks.cpp -/

/-- `IsConstantFork`, add-forks.cpp:88-93 -/
def isConstantFork (o : Org) : Bool :=
  match o with
  | .out n _ => G.nin n = 0
  | .arg _ _ => false

/-- the user that the loop diverts: the first, or the second if the first is the fork, add-forks.cpp:73-78 -/
def pick (m : Nat) : List Use → Option Use
  | [] => none
  | u :: us => if u = .inp m 0 then us.head? else some u

/-- the loop of `AddForkToOutput`, add-forks.cpp:71-83; `m` is the fork -/
def forkLoop (m : Nat) (o : Org) : Nat → Nat → Graph → Graph
  | 0, _, G => G
  | f + 1, cur, G =>
    if (G.users o).length = 1 then G
    else match pick m (G.users o) with
      | none => G
      | some u => forkLoop m o f (cur + 1) (G.divert u (.out m cur))

/-- `AddForkToOutput`, add-forks.cpp:63-86, for outputs with more than one user -/
def forkOutput (p : Nat × Org) : Graph :=
  let k := (G.users p.2).length
  if 1 < k then
    forkLoop G.next p.2 (k + 1) 0 (G.create p.1 (.fork (G.isConstantFork p.2)) k p.2)
  else G

/-- `ForkInsertion::Run`, add-forks.cpp:14-18 -/
def addForks (fuel : Nat) : Graph := (G.outs fuel 0).foldl forkOutput G

/-! ## check-rhls.cpp -/

/-- `check_rhls(Region*)`, check-rhls.cpp:38-71: `true` if nothing is thrown -/
def checkRegion : Nat → Nat → Bool
  | 0, _ => true
  | f + 1, r => (G.nodes r).all fun n =>
      (match G.op n with
        | .loop => (G.subs n).all (checkRegion f)
        | .lambda | .otherStructural => false
        | _ => true) &&
      (G.outputs n).all fun o => (G.users o).length == 1

/-- `check_rhls(RvsdgModule&)`, check-rhls.cpp:73-88 -/
def check (fuel : Nat) : Bool :=
  match G.nodes 0 with
  | [n] => if G.op n = .lambda then (G.subs n).all (G.checkRegion fuel) else false
  | _ => false

end Graph
end Jlm.Hls
