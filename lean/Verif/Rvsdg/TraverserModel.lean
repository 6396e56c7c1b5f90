/-
Model of the graph traversers: jlm/rvsdg/traverser.{hpp,cpp} (whole files), together with the
mutations of a region that notify region observers:
jlm/rvsdg/node.cpp:63-80 (divert_to), 287-339 (addInput, RemoveInputs),
jlm/rvsdg/simple-node.cpp:14-45, jlm/rvsdg/structural-node.cpp:40-57 (creation, destruction),
jlm/rvsdg/region.cpp:264-314 (addResult, RemoveResults, removeNode), 410-453 (notifications).

Simplifications:
* a node is identified by its id (`Node::GetNodeId`, unique in the region, node.cpp:256-263);
  the C++ keys the tracker by address, so reuse of the address of a deleted node by a new node
  is not modelled;
* types, operations, and the contents of subregions are dropped; only one region is modelled;
* the order in which the users of an output (and the nodes of `TopNodes`/`BottomNodes`) are
  enumerated depends on the history of the region. It is a parameter here, and the statements
  quantify over every order;
* `activationCount` is a `uint32_t`: additions and subtractions are modulo 2^32.
-/
namespace Jlm.Rvsdg.Trav

abbrev NodeId := Nat

/-- `Output`: a region argument or the `k`-th output of a node (node.hpp) -/
inductive Origin where
  | arg (i : Nat)
  | out (n : NodeId) (k : Nat)
deriving DecidableEq, Repr

/-- `TryGetOwnerNode<Node>(output)` -/
def Origin.owner : Origin → Option NodeId
  | .arg _ => none
  | .out n _ => some n

/-- A region: its nodes, the origins of the inputs of each node, and the origins of the region
results. `nextId` is `Region::nextNodeId_`. -/
structure Graph where
  nodes : List NodeId
  inputs : NodeId → List Origin
  results : List Origin
  nextId : Nat

/-- `Node::ninputs` -/
def Graph.ninputs (g : Graph) (n : NodeId) : Nat := (g.inputs n).length

/-- The edges of the region: (owner of the origin, owner of the input); `none` stands for the
region itself, i.e. the origin is an argument / the input is a result. -/
def Graph.edges (g : Graph) : List (Option NodeId × Option NodeId) :=
  g.nodes.flatMap (fun m => (g.inputs m).map (fun o => (o.owner, some m))) ++
    g.results.map (fun o => (o.owner, none))

/-- `Node::numSuccessors_` (node.cpp:173-209): the number of users (inputs and results) of all
outputs of the node -/
def Graph.numSuccessors (g : Graph) (n : NodeId) : Nat :=
  g.edges.countP (fun e => e.1 == some n)

/-- the nodes owning the users of the outputs of a node (once per user) -/
def Graph.userNodes (g : Graph) (n : NodeId) : List NodeId :=
  g.edges.filterMap (fun e => if e.1 = some n then e.2 else none)

/-- the nodes owning the users of the region arguments (once per user) -/
def Graph.argUserNodes (g : Graph) : List NodeId :=
  g.edges.filterMap (fun e => if e.1 = none then e.2 else none)

/-- `Region::TopNodes`: the nodes without inputs -/
def Graph.topNodes (g : Graph) : List NodeId := g.nodes.filter (fun n => g.ninputs n == 0)

/-- `Region::BottomNodes`: the nodes without users -/
def Graph.bottomNodes (g : Graph) : List NodeId :=
  g.nodes.filter (fun n => g.numSuccessors n == 0)

/-- The mutations of a region -/
inductive Mut where
  /-- create a node with these operands; a structural node is created without inputs, and
  gets them by `addInput` -/
  | createNode (origins : List Origin)
  | destroyNode (n : NodeId)
  | addInput (n : NodeId) (o : Origin)
  | removeInputs (n : NodeId) (idx : List Nat)
  | divertInput (n : NodeId) (i : Nat) (o : Origin)
  | addResult (o : Origin)
  | removeResults (idx : List Nat)
  | divertResult (i : Nat) (o : Origin)
deriving Repr

def upd (f : NodeId → List Origin) (n : NodeId) (l : List Origin) : NodeId → List Origin :=
  fun m => if m = n then l else f m

/-- the elements whose index (starting from `k`) is in `idx` (`removed = true`), or is not:
the loop of node.cpp:315-329 and region.cpp:287-302 -/
def selectIdx (idx : List Nat) (removed : Bool) : Nat → List Origin → List Origin
  | _, [] => []
  | k, o :: os =>
      if idx.contains k == removed then o :: selectIdx idx removed (k + 1) os
      else selectIdx idx removed (k + 1) os

/-- node.cpp:305-339, simple-node.cpp, structural-node.cpp, region.cpp:264-314:
the effect of a mutation on the region -/
def Graph.apply (g : Graph) : Mut → Graph
  | .createNode os =>
      { g with nodes := g.nodes ++ [g.nextId], inputs := upd g.inputs g.nextId os,
               nextId := g.nextId + 1 }
  | .destroyNode n => { g with nodes := g.nodes.erase n, inputs := upd g.inputs n [] }
  | .addInput n o => { g with inputs := upd g.inputs n (g.inputs n ++ [o]) }
  | .removeInputs n idx => { g with inputs := upd g.inputs n (selectIdx idx false 0 (g.inputs n)) }
  | .divertInput n i o => { g with inputs := upd g.inputs n ((g.inputs n).set i o) }
  | .addResult o => { g with results := g.results ++ [o] }
  | .removeResults idx => { g with results := selectIdx idx false 0 g.results }
  | .divertResult i o => { g with results := g.results.set i o }

/-! ## TraversalTracker -/

/-- `TraversalNodeState` (traverser.hpp) -/
inductive NState where
  | ahead | frontier | behind
deriving DecidableEq, Repr

/-- `TraversalTracker::State`; the iterator `pos` is the position of the node in the frontier -/
structure Entry where
  state : NState := .ahead
  count : Nat := 0
deriving DecidableEq, Repr

/-- `TraversalTracker` -/
structure Tracker where
  states : NodeId → Option Entry := fun _ => none
  frontier : List NodeId := []

def u32 : Nat := 4294967296

def Tracker.set (t : Tracker) (n : NodeId) (e : Entry) : Tracker :=
  { t with states := fun m => if m = n then some e else t.states m }

/-- the entry of `states_.emplace(node, State{ahead}).first` -/
def Tracker.entry (t : Tracker) (n : NodeId) : Entry := (t.states n).getD {}

/-- traverser.cpp:415-421 -/
def Tracker.isNodeVisited (t : Tracker) (n : NodeId) : Bool :=
  match t.states n with
  | none => false
  | some e => e.state == .behind

/-- traverser.cpp:423-434 -/
def Tracker.checkNodeActivation (t : Tracker) (n : NodeId) (threshold : Nat) : Tracker :=
  let e := t.entry n
  if e.count ≥ threshold ∧ e.state = .ahead then
    { (t.set n { e with state := .frontier }) with frontier := t.frontier ++ [n] }
  else t.set n e

/-- traverser.cpp:436-447 -/
def Tracker.checkNodeDeactivation (t : Tracker) (n : NodeId) (threshold : Nat) : Tracker :=
  let e := t.entry n
  if e.count < threshold ∧ e.state = .frontier then
    { (t.set n { e with state := .ahead }) with frontier := t.frontier.erase n }
  else t.set n e

/-- traverser.cpp:449-460 -/
def Tracker.checkMarkNodeVisitedIfFrontier (t : Tracker) (n : NodeId) : Tracker :=
  let e := t.entry n
  if e.state = .frontier then
    { (t.set n { e with state := .behind }) with frontier := t.frontier.erase n }
  else t.set n e

/-- traverser.cpp:462-469 -/
def Tracker.incActivationCount (t : Tracker) (n : NodeId) (threshold : Nat) : Tracker :=
  let e := t.entry n
  (t.set n { e with count := (e.count + 1) % u32 }).checkNodeActivation n threshold

/-- traverser.cpp:471-478 -/
def Tracker.decActivationCount (t : Tracker) (n : NodeId) (threshold : Nat) : Tracker :=
  let e := t.entry n
  (t.set n { e with count := (e.count + (u32 - 1)) % u32 }).checkNodeDeactivation n threshold

/-- traverser.cpp:480-490 -/
def Tracker.removeNode (t : Tracker) (n : NodeId) : Tracker :=
  match t.states n with
  | none => t
  | some e =>
    { states := fun m => if m = n then none else t.states m
      frontier := if e.state = .frontier then t.frontier.erase n else t.frontier }

/-- traverser.cpp:492-497 -/
def Tracker.peek (t : Tracker) : Option NodeId := t.frontier.head?

/-! ## TopDownTraverser -/
namespace TD

/-- traverser.cpp:77-97; `tops`, `argUsers`: the enumerated top nodes and users of arguments -/
def init (g : Graph) (tops argUsers : List NodeId) : Tracker :=
  argUsers.foldl (fun t n => t.incActivationCount n (g.ninputs n))
    (tops.foldl (fun t n => t.checkNodeActivation n (g.ninputs n)) {})

/-- traverser.cpp:99-110 -/
def isOutputActivated (t : Tracker) (o : Origin) : Bool :=
  match o.owner with
  | some p => t.isNodeVisited p
  | none => true

/-- traverser.cpp:112-127; `users`: the nodes owning the users of the outputs -/
def markAsVisited (g : Graph) (t : Tracker) (n : NodeId) (users : List NodeId) : Tracker :=
  users.foldl (fun t m => t.incActivationCount m (g.ninputs m)) (t.checkMarkNodeVisitedIfFrontier n)

/-- traverser.cpp:149-172; `g` is the region with the new node -/
def onNodeCreate (g : Graph) (t : Tracker) (n : NodeId) : Tracker :=
  let t :=
    if g.ninputs n = 0 then t.checkNodeActivation n (g.ninputs n)
    else
      (g.inputs n).foldl
        (fun t o => if isOutputActivated t o then t.incActivationCount n (g.ninputs n) else t) t
  t.checkMarkNodeVisitedIfFrontier n

/-- traverser.cpp:182-198; `g` is the region with the new input -/
def onInputCreate (g : Graph) (t : Tracker) (owner : Option NodeId) (origin : Origin) : Tracker :=
  match owner with
  | none => t
  | some n =>
    if isOutputActivated t origin then t.incActivationCount n (g.ninputs n)
    else t.checkNodeDeactivation n (g.ninputs n)

/-- traverser.cpp:200-229; `g` is the region with the diverted input -/
def onInputChange (g : Graph) (t : Tracker) (owner : Option NodeId) (old new : Origin) : Tracker :=
  match owner with
  | none => t
  | some n =>
    let change : Int := (if isOutputActivated t new then 1 else 0) - (if isOutputActivated t old then 1 else 0)
    if change = 1 then t.incActivationCount n (g.ninputs n)
    else if change = -1 then t.decActivationCount n (g.ninputs n)
    else t

/-- traverser.cpp:231-250; `ninputs` is `node->ninputs()` at the time of the callback -/
def onInputDestroy (t : Tracker) (owner : Option NodeId) (ninputs : Nat) (origin : Origin) : Tracker :=
  match owner with
  | none => t
  | some n =>
    if isOutputActivated t origin then t.decActivationCount n 0
    else t.checkNodeActivation n (ninputs - 1)

/-- The notifications a mutation of the region `g` sends to a top-down traverser.
`removeInputs` (node.cpp:315-330) notifies before each input is reset, and the vector of inputs is
resized after the loop, so that every callback sees the old `ninputs()`. -/
def notify (g : Graph) (t : Tracker) (m : Mut) : Tracker :=
  let g' := g.apply m
  match m with
  | .createNode _ => onNodeCreate g' t g.nextId
  | .destroyNode n => t.removeNode n            -- traverser.cpp:174-180
  | .addInput n o => onInputCreate g' t (some n) o
  | .removeInputs n idx =>
      (selectIdx idx true 0 (g.inputs n)).foldl
        (fun t o => onInputDestroy t (some n) (g.ninputs n) o) t
  | .divertInput n i o =>
      match (g.inputs n)[i]? with
      | some old => if old = o then t else onInputChange g' t (some n) old o
      | none => t
  | .addResult _ => t
  | .removeResults _ => t
  | .divertResult _ _ => t

/-- the region, the tracker, and `nodeIdCutoff_` -/
structure State where
  g : Graph
  t : Tracker
  cutoff : Nat

/-- `TopDownTraverser::next` (traverser.cpp:129-147), for any order of the users -/
inductive Next : State → Option NodeId → State → Prop
  | null (s : State) (h : s.t.peek = none) : Next s none s
  | ret (s : State) (n : NodeId) (us : List NodeId) (h : s.t.peek = some n)
      (hus : us.Perm (s.g.userNodes n)) (hc : ¬ n ≥ s.cutoff) :
      Next s (some n) { s with t := markAsVisited s.g s.t n us }
  | skip (s : State) (n : NodeId) (us : List NodeId) (h : s.t.peek = some n)
      (hus : us.Perm (s.g.userNodes n)) (hc : n ≥ s.cutoff) (r : Option NodeId) (s' : State)
      (hn : Next { s with t := markAsVisited s.g s.t n us } r s') : Next s r s'

end TD

/-! ## BottomUpTraverser -/
namespace BU

/-- traverser.cpp:255-271 -/
def init (g : Graph) (bottoms : List NodeId) : Tracker :=
  g.results.foldl
    (fun t o => match o.owner with
      | some n => t.incActivationCount n (g.numSuccessors n)
      | none => t)
    (bottoms.foldl (fun t n => t.checkNodeActivation n (g.numSuccessors n)) {})

/-- traverser.cpp:273-284 -/
def isInputActivated (t : Tracker) (owner : Option NodeId) : Bool :=
  match owner with
  | some n => t.isNodeVisited n
  | none => true

/-- traverser.cpp:286-298 -/
def markAsVisited (g : Graph) (t : Tracker) (n : NodeId) : Tracker :=
  (g.inputs n).foldl
    (fun t o => match o.owner with
      | some p => t.incActivationCount p (g.numSuccessors p)
      | none => t)
    (t.checkMarkNodeVisitedIfFrontier n)

/-- traverser.cpp:320-340 -/
def onNodeDestroy (g : Graph) (t : Tracker) (n : NodeId) : Tracker :=
  let t := if !t.isNodeVisited n then markAsVisited g t n else t
  (g.inputs n).foldl
    (fun t o => match o.owner with
      | some p => t.decActivationCount p 0
      | none => t) t

/-- traverser.cpp:342-358; `g` is the region with the new input -/
def onInputCreate (g : Graph) (t : Tracker) (owner : Option NodeId) (origin : Origin) : Tracker :=
  match origin.owner with
  | none => t
  | some p =>
    if isInputActivated t owner then t.incActivationCount p (g.numSuccessors p)
    else t.checkNodeDeactivation p (g.numSuccessors p)

/-- traverser.cpp:360-393; `g` is the region with the diverted input -/
def onInputChange (g : Graph) (t : Tracker) (owner : Option NodeId) (old new : Origin) : Tracker :=
  let active := isInputActivated t owner
  let t := match old.owner with
    | some p =>
      if active then t.decActivationCount p (g.numSuccessors p)
      else t.checkNodeActivation p (g.numSuccessors p)
    | none => t
  match new.owner with
  | some p =>
    if active then t.incActivationCount p (g.numSuccessors p)
    else t.checkNodeDeactivation p (g.numSuccessors p)
  | none => t

/-- traverser.cpp:395-413; `numSuccessors` is that of the predecessor at the time of the
callback, i.e. including the input -/
def onInputDestroy (t : Tracker) (owner : Option NodeId) (numSuccessors : NodeId → Nat)
    (origin : Origin) : Tracker :=
  match origin.owner with
  | none => t
  | some p =>
    if isInputActivated t owner then t.decActivationCount p 0
    else t.checkNodeActivation p (numSuccessors p - 1)

/-- The callbacks of `RemoveInputs`/`RemoveResults`: each removed input is reset after its
callback, which decrements `numSuccessors_` of its predecessor (node.cpp:19-22, 173-190). -/
def removeLoop (owner : Option NodeId) : List Origin → (NodeId → Nat) → Tracker → Tracker
  | [], _, t => t
  | o :: os, ns, t =>
      removeLoop owner os (fun p => if o.owner = some p then ns p - 1 else ns p)
        (onInputDestroy t owner ns o)

/-- The notifications a mutation of the region `g` sends to a bottom-up traverser. -/
def notify (g : Graph) (t : Tracker) (m : Mut) : Tracker :=
  let g' := g.apply m
  match m with
  | .createNode _ => markAsVisited g' t g.nextId            -- traverser.cpp:312-318
  | .destroyNode n => onNodeDestroy g t n
  | .addInput n o => onInputCreate g' t (some n) o
  | .removeInputs n idx =>
      removeLoop (some n) (selectIdx idx true 0 (g.inputs n)) g.numSuccessors t
  | .divertInput n i o =>
      match (g.inputs n)[i]? with
      | some old => if old = o then t else onInputChange g' t (some n) old o
      | none => t
  | .addResult o => onInputCreate g' t none o
  | .removeResults idx =>
      removeLoop none (selectIdx idx true 0 g.results) g.numSuccessors t
  | .divertResult i o =>
      match g.results[i]? with
      | some old => if old = o then t else onInputChange g' t none old o
      | none => t

/-- the region and the tracker -/
structure State where
  g : Graph
  t : Tracker

/-- `BottomUpTraverser::next` (traverser.cpp:300-310) -/
def next (s : State) : Option NodeId × State :=
  match s.t.peek with
  | none => (none, s)
  | some n => (some n, { s with t := markAsVisited s.g s.t n })

end BU
end Jlm.Rvsdg.Trav
