import Verif.Rvsdg.TraverserModel
/-
Model of the bookkeeping of a region: jlm/rvsdg/region.cpp:264-342 (results, removeNode, prune),
360-408 (top/bottom/node lists), jlm/rvsdg/node.cpp:19-80 (inputs, divert_to), 173-209
(remove_user/add_user), 256-339 (Node constructor and destructor, addInput, RemoveInputs),
simple-node.cpp:19-45, and of the index maintaining vector code: node.cpp:305-366, region.cpp:178-306.

Simplifications: outputs are not listed (an output exists as long as its node does); observers are
not called here (TraverserModel.lean models what they are told); `prune` is modelled for one
region, the recursion into subregions applies the same function to every subregion.
-/
namespace Jlm.Rvsdg.Reg
open Trav

/-- `Region` with its bookkeeping; `succ` holds `numSuccessors_` of each node -/
structure Region where
  g : Graph
  succ : NodeId → Nat
  topNodes : List NodeId
  bottomNodes : List NodeId
  numTopNodes : Nat
  numBottomNodes : Nat
  numNodes : Nat

def Region.empty : Region :=
  { g := { nodes := [], inputs := fun _ => [], results := [], nextId := 0 }, succ := fun _ => 0,
    topNodes := [], bottomNodes := [], numTopNodes := 0, numBottomNodes := 0, numNodes := 0 }

/-- region.cpp:377-384 -/
def Region.onBottomNodeAdded (r : Region) (n : NodeId) : Region :=
  { r with bottomNodes := r.bottomNodes ++ [n], numBottomNodes := r.numBottomNodes + 1 }
/-- region.cpp:386-392 -/
def Region.onBottomNodeRemoved (r : Region) (n : NodeId) : Region :=
  { r with bottomNodes := r.bottomNodes.erase n, numBottomNodes := r.numBottomNodes - 1 }
/-- region.cpp:360-367 -/
def Region.onTopNodeAdded (r : Region) (n : NodeId) : Region :=
  { r with topNodes := r.topNodes ++ [n], numTopNodes := r.numTopNodes + 1 }
/-- region.cpp:369-375 -/
def Region.onTopNodeRemoved (r : Region) (n : NodeId) : Region :=
  { r with topNodes := r.topNodes.erase n, numTopNodes := r.numTopNodes - 1 }

/-- `Output::add_user` (node.cpp:192-209) -/
def Region.addUser (r : Region) (o : Origin) : Region :=
  match o.owner with
  | none => r
  | some p =>
    let r := if r.succ p = 0 then r.onBottomNodeRemoved p else r
    { r with succ := fun m => if m = p then r.succ p + 1 else r.succ m }

/-- `Output::remove_user` (node.cpp:173-190) -/
def Region.removeUser (r : Region) (o : Origin) : Region :=
  match o.owner with
  | none => r
  | some p =>
    let r := { r with succ := fun m => if m = p then r.succ p - 1 else r.succ m }
    if r.succ p = 0 then r.onBottomNodeAdded p else r

def Region.setInputs (r : Region) (n : NodeId) (l : List Origin) : Region :=
  { r with g := { r.g with inputs := upd r.g.inputs n l } }

/-- the constructor of the input (node.cpp:37-45), then `Node::addInput` (node.cpp:287-303) -/
def Region.addInput (r : Region) (n : NodeId) (o : Origin) : Region :=
  let r := r.addUser o
  let r := if r.g.ninputs n = 0 then r.onTopNodeRemoved n else r
  r.setInputs n (r.g.inputs n ++ [o])

/-- `Node::Node` (node.cpp:256-263), then the inputs (simple-node.cpp:34-39) -/
def Region.createNode (r : Region) (os : List Origin) : Region :=
  let n := r.g.nextId
  let r := { r with g := { r.g with nextId := n + 1, inputs := upd r.g.inputs n [] },
                    succ := fun m => if m = n then 0 else r.succ m }
  let r := (r.onBottomNodeAdded n).onTopNodeAdded n
  let r := { r with g := { r.g with nodes := r.g.nodes ++ [n] }, numNodes := r.numNodes + 1 }
  os.foldl (fun r o => r.addInput n o) r

/-- `Node::~Node` (node.cpp:265-279) -/
def Region.destroyNode (r : Region) (n : NodeId) : Region :=
  let r := r.onBottomNodeRemoved n
  let r := if r.g.ninputs n = 0 then r.onTopNodeRemoved n else r
  let r := (r.g.inputs n).foldl (fun r o => r.removeUser o) r
  let r := r.setInputs n []
  { r with g := { r.g with nodes := r.g.nodes.erase n }, numNodes := r.numNodes - 1 }

/-- `Node::RemoveInputs` (node.cpp:305-339) -/
def Region.removeInputs (r : Region) (n : NodeId) (idx : List Nat) : Region :=
  if idx = [] then r
  else
    let live := selectIdx idx false 0 (r.g.inputs n)
    let r := (selectIdx idx true 0 (r.g.inputs n)).foldl (fun r o => r.removeUser o) r
    let r := r.setInputs n live
    if live.length = 0 then r.onTopNodeAdded n else r

/-- `Input::divert_to` (node.cpp:63-80) for an input of a node -/
def Region.divertInput (r : Region) (n : NodeId) (i : Nat) (o : Origin) : Region :=
  match (r.g.inputs n)[i]? with
  | none => r
  | some old =>
    if old = o then r
    else ((r.removeUser old).addUser o).setInputs n ((r.g.inputs n).set i o)

def Region.setResults (r : Region) (l : List Origin) : Region :=
  { r with g := { r.g with results := l } }

/-- `Region::addResult` (region.cpp:264-278) -/
def Region.addResult (r : Region) (o : Origin) : Region :=
  (r.addUser o).setResults (r.g.results ++ [o])

/-- `Region::RemoveResults` (region.cpp:280-306) -/
def Region.removeResults (r : Region) (idx : List Nat) : Region :=
  if idx = [] then r
  else
    ((selectIdx idx true 0 r.g.results).foldl (fun r o => r.removeUser o) r).setResults
      (selectIdx idx false 0 r.g.results)

/-- `Input::divert_to` for a result -/
def Region.divertResult (r : Region) (i : Nat) (o : Origin) : Region :=
  match r.g.results[i]? with
  | none => r
  | some old =>
    if old = o then r
    else ((r.removeUser old).addUser o).setResults (r.g.results.set i o)

/-- all mutations -/
def Region.mutate (r : Region) : Mut → Region
  | .createNode os => r.createNode os
  | .destroyNode n => r.destroyNode n
  | .addInput n o => r.addInput n o
  | .removeInputs n idx => r.removeInputs n idx
  | .divertInput n i o => r.divertInput n i o
  | .addResult o => r.addResult o
  | .removeResults idx => r.removeResults idx
  | .divertResult i o => r.divertResult i o

/-- The loop of `Region::prune` (region.cpp:328-329), at most `fuel` iterations -/
def Region.pruneLoop (r : Region) : Nat → Region
  | 0 => r
  | fuel + 1 =>
    match r.bottomNodes with
    | [] => r
    | n :: _ => (r.destroyNode n).pruneLoop fuel

/-- `Region::prune(false)`; every iteration removes a node -/
def Region.prune (r : Region) : Region := r.pruneLoop r.g.nodes.length

/-! ## Vectors of elements that know their index -/

/-- an element with its `index_` field -/
structure Elem (α : Type) where
  val : α
  index : Nat
deriving DecidableEq, Repr

/-- The loop of `Node::RemoveInputs` (node.cpp:313-330), `Node::RemoveOutputs` (node.cpp:347-363),
`Region::RemoveArguments` (region.cpp:219-235) and `Region::RemoveResults` (region.cpp:285-302):
in-place compaction of the vector. `drop e` tells whether the element is removed (for inputs and
results: its index is in the set; for outputs and arguments: it is also dead). `none` is a moved-from
or reset pointer. -/
def compactLoop {α : Type} (drop : Elem α → Bool) : Nat → Nat → Nat → List (Option (Elem α)) →
    List (Option (Elem α)) × Nat
  | 0, _, numLive, v => (v, numLive)
  | fuel + 1, n, numLive, v =>
    match v[n]? with
    | some (some e) =>
      if drop e then compactLoop drop fuel (n + 1) numLive (v.set n none)
      else
        -- `input->index_ = numLive; inputs_[numLive++] = std::move(input)`
        let v := if n = numLive then v else v.set n none
        compactLoop drop fuel (n + 1) (numLive + 1) (v.set numLive (some { e with index := numLive }))
    | _ => (v, numLive)

/-- the loop, then `resize(numLive)`; returns the vector and the number of removed elements -/
def compact {α : Type} (drop : Elem α → Bool) (v : List (Elem α)) : List (Option (Elem α)) × Nat :=
  let (w, numLive) := compactLoop drop v.length 0 0 (v.map some)
  (w.take numLive, v.length - numLive)

/-- The loop of `Region::insertArgument` (region.cpp:200-205) from `n` down to `index + 1` -/
def shiftUp {α : Type} (index : Nat) : Nat → List (Option (Elem α)) → List (Option (Elem α))
  | 0, v => v
  | n + 1, v =>
    if n + 1 > index then
      shiftUp index n (v.set (n + 1) ((v[n]?.getD none).map (fun e => { e with index := n + 1 })))
    else v

/-- `Region::insertArgument` (region.cpp:189-210) -/
def insertArgument {α : Type} (v : List (Elem α)) (index : Nat) (x : α) :
    Option (List (Option (Elem α))) :=
  if index > v.length then none
  else
    let w := v.map some ++ [none]
    some ((shiftUp index (w.length - 1) w).set index (some { val := x, index := index }))

end Jlm.Rvsdg.Reg
