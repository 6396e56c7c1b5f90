import Verif.Aa.WorklistModel
/-
Model of the online cycle detector, jlm/llvm/opt/alias-analyses/OnlineCycleDetection.hpp.
The unifications are recorded as pairs; the detector itself needs only the final root.
-/
namespace Jlm.Llvm.Aa

/-- `ObjectToTopoOrder_` and `TopoOrderToObject_`, OnlineCycleDetection.hpp:377-384; `none` is
`EmptyTopologicalSlot`. -/
structure Topo where
  pos : Nat → Option Nat
  at_ : Nat → Option Nat

/-- the state of the depth first search, OnlineCycleDetection.hpp:386-397 -/
structure Ocd where
  /-- `DfsStack_`, top first; the flag is set for the second visit -/
  stack : List (Nat × Bool)
  /-- `DfsNodesVisited_` -/
  visited : List Nat
  /-- `DfsCycleNodes_` -/
  cyc : List Nat

namespace Ocd

/-- what the depth first search reads: `ord` is the order in which hash sets are enumerated -/
structure Ctx where
  ord : Ocd → List Nat → List Nat
  set : RSet
  edges : Nat → List Nat
  topo : Topo
  sub : Nat
  lower : Nat
  upper : Nat

/-- whether a position is inside the range that is rearranged, OnlineCycleDetection.hpp:161-163 -/
def Ctx.inside (c : Ctx) (r : Nat) : Bool :=
  match c.topo.pos r with
  | some p => c.lower ≤ p && p ≤ c.upper
  | none => false

/-- the body of the loop, OnlineCycleDetection.hpp:131-189 -/
def step (c : Ctx) (o : Ocd) : Ocd :=
  match o.stack with
  | [] => o
  | (node, false) :: rest =>
    if o.visited.contains node then { o with stack := rest }
    else
      let visited := node :: o.visited
      let next := ((c.ord o (c.edges node)).map c.set.root).filter (fun r => !visited.contains r && c.inside r)
      { o with visited := visited, stack := (next.map fun r => (r, false)).reverse ++ (node, true) :: rest }
  | (node, true) :: rest =>
    if node = c.sub then { o with stack := rest, cyc := ins o.cyc node }
    else if (c.ord o (c.edges node)).any (fun t => o.cyc.contains (c.set.root t))
      then { o with stack := rest, cyc := ins o.cyc node }
      else { o with stack := rest }

/-- the loop, OnlineCycleDetection.hpp:129-190 -/
def loop (c : Ctx) : Nat → Ocd → Option Ocd
  | 0, o => if o.stack = [] then some o else none
  | k + 1, o => if o.stack = [] then some o else loop c k (o.step c)

/-- OnlineCycleDetection.hpp:124-127 -/
def start (sup : Nat) : Ocd := { stack := [(sup, false)], visited := [], cyc := [] }

/-- enough iterations, see `terminates` -/
def fuel (n : Nat) (edges : Nat → List Nat) : Nat := ((List.range n).map fun m => (edges m).length + 2).sum + 1

/-- the unifications, OnlineCycleDetection.hpp:205-211. `UnifyPointerObjects` starts by looking up
the roots, so that the first node stands for `*optUnificationRoot`. -/
def pairs : List Nat → List (Nat × Nat)
  | [] => []
  | a :: l => l.map fun b => (a, b)

/-- the variables of the loops that write the new order -/
structure Place where
  topo : Topo
  next : Nat
  beyond : List Nat

/-- `ObjectToTopoOrder_[node] = next; TopoOrderToObject_[next] = node; next++` -/
def Place.put (p : Place) (node : Nat) : Place :=
  { p with topo := { pos := upd p.topo.pos node (some p.next), at_ := upd p.topo.at_ p.next (some node) }
           next := p.next + 1 }

/-- the body of the first loop, OnlineCycleDetection.hpp:221-243 -/
def Place.scan (o : Ocd) (p : Place) (i : Nat) : Place :=
  match p.topo.at_ i with
  | none => p
  | some node =>
    if o.cyc.contains node then p
    else if o.visited.contains node then { p with beyond := p.beyond ++ [node] }
    else p.put node

/-- the rearrangement, OnlineCycleDetection.hpp:204-260; `cyc` is the enumeration of the nodes of the
cycle, `root` the result of their unification -/
def rearrange (o : Ocd) (topo : Topo) (lower upper : Nat) (cyc : List Nat) (root : Nat) : Topo :=
  let topo := { topo with pos := cyc.foldl (fun p c => upd p c none) topo.pos }
  let p : Place := { topo := topo, next := lower, beyond := if cyc = [] then [] else [root] }
  let p := (List.range' lower (upper + 1 - lower)).foldl (Place.scan o) p
  let p := p.beyond.foldl Place.put p
  { p.topo with at_ := (List.range' p.next (upper + 1 - p.next)).foldl (fun a i => upd a i none) p.topo.at_ }

/-- `MaintainTopologicalOrder`, OnlineCycleDetection.hpp:106-266. `ordC` is the enumeration of the
nodes of the cycle. -/
def det (ord : Ocd → List Nat → List Nat) (ordC : List Nat → List Nat) (topo : Topo) (s : RSet)
    (edges : Nat → List Nat) (sub sup : Nat) : Topo × List (Nat × Nat) :=
  match topo.pos sub, topo.pos sup with
  | some upper, some lower =>
    if upper ≤ lower then (topo, [])
    else
      match loop ⟨ord, s, edges, topo, sub, lower, upper⟩ (fuel s.n edges) (start sup) with
      | some o =>
        let cyc := ordC o.cyc
        let prs := pairs cyc
        (rearrange o topo lower upper cyc ((WS.unifyPairs s prs).root sub), prs)
      | none => (topo, [])
  | _, _ => (topo, [])

end Ocd
end Jlm.Llvm.Aa
