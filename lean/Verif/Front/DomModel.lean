/-!
# Model of `domtree` (`jlm/llvm/ir/domtree.cpp`), `postorder` and `reverse_postorder` (`jlm/llvm/ir/cfg.cpp`)

Nodes are the numbers below `num`. Loops have fuel; `none` stands for a failed assertion, a null pointer, or a loop that runs out of fuel.
-/

namespace Jlm.Front.Dom

structure Cfg where
  /-- `nnodes() + 2` -/
  num : Nat
  entry : Nat
  exit : Nat
  /-- sinks of the out-edges -/
  succs : Nat → List Nat
  /-- sources of the in-edges, in any order -/
  preds : Nat → List Nat

/-! ## Orders -/

/-- `traverse` (cfg.cpp:287-304): visited nodes, finished nodes. -/
def traverse (succs : Nat → List Nat) : Nat → Nat → List Nat × List Nat → List Nat × List Nat
  | 0, _, st => st
  | f + 1, u, st =>
      let st := (succs u).foldl (fun st v => if st.1.contains v then st else traverse succs f v st) (u :: st.1, st.2)
      (st.1, st.2 ++ [u])

/-- cfg.cpp:282-311 -/
def Cfg.postorder (G : Cfg) : List Nat := (traverse G.succs (G.num + 1) G.entry ([], [])).2

/-- cfg.cpp:313-319 -/
def Cfg.rpo (G : Cfg) : List Nat := G.postorder.reverse

/-! ## Dominators -/

abbrev Doms := Nat → Option Nat

/-- `indices` (domtree.cpp:99-103): from `num` down to 1. -/
def Cfg.index (G : Cfg) (b : Nat) : Nat := G.num - G.rpo.idxOf b

/-- domtree.cpp:69-85; the three loops are one here, that moves one of the nodes up in each iteration. -/
def intersect (idx : Nat → Nat) (doms : Doms) : Nat → Nat → Nat → Option Nat
  | 0, _, _ => none
  | f + 1, b1, b2 =>
      if idx b1 = idx b2 then some b1
      else if idx b1 < idx b2 then
        match doms b1 with
        | some d => intersect idx doms f d b2
        | none => none
      else
        match doms b2 with
        | some d => intersect idx doms f b1 d
        | none => none

/-- The second loop over the in-edges (domtree.cpp:130-138). -/
def mergePreds (idx : Nat → Nat) (doms : Doms) (fuel : Nat) (pred : Nat) : List Nat → Nat → Option Nat
  | [], cur => some cur
  | p :: ps, cur =>
      if p = pred then mergePreds idx doms fuel pred ps cur
      else if (doms p).isSome then
        match intersect idx doms fuel p cur with
        | some cur => mergePreds idx doms fuel pred ps cur
        | none => none
      else mergePreds idx doms fuel pred ps cur

/-- domtree.cpp:115-138 -/
def Cfg.newIdom (G : Cfg) (doms : Doms) (b : Nat) : Option Nat :=
  match (G.preds b).find? fun p => (doms p).isSome with
  | some pred => mergePreds G.index doms (2 * G.num + 1) pred (G.preds b) pred
  | none => none

/-- The loop over the nodes (domtree.cpp:110-146): `doms` and `changed`. -/
def Cfg.pass (G : Cfg) : List Nat → Doms → Bool → Option (Doms × Bool)
  | [], doms, changed => some (doms, changed)
  | b :: bs, doms, changed =>
      if b = G.entry then G.pass bs doms changed
      else
        match G.newIdom doms b with
        | none => none
        | some d =>
            if doms b = some d then G.pass bs doms changed
            else G.pass bs (fun k => if k = b then some d else doms k) true

/-- domtree.cpp:106-147 -/
def Cfg.iterate (G : Cfg) : Nat → Doms → Option Doms
  | 0, _ => none
  | f + 1, doms =>
      match G.pass G.rpo doms false with
      | some (doms, true) => G.iterate f doms
      | some (doms, false) => some doms
      | none => none

/-! ## The tree -/

/-- Tree nodes: the node, its parent and its depth, in the order of creation. -/
abbrev Tree := List (Nat × Option Nat × Nat)

def Tree.depth (t : Tree) (b : Nat) : Option Nat := (t.lookup b).map (·.2)

/-- `build` (domtree.cpp:33-48) with `add_child` (cpp:16-25) -/
def build (doms : Doms) : Nat → Nat → Tree → Option Tree
  | 0, _, _ => none
  | f + 1, b, t =>
      if t.any (·.1 == b) then some t
      else
        match doms b with
        | none => none
        | some d =>
            match build doms f d t with
            | none => none
            | some t => (t.depth d).map fun k => t ++ [(b, some d, k + 1)]

/-- domtree.cpp:52-58; `cfg` iterates over the nodes without entry and exit. -/
def Cfg.leaves (G : Cfg) (doms : Doms) : List Nat :=
  (List.range G.num).filter fun b => !((List.range G.num).any fun x => x != G.entry && x != G.exit && doms x == some b)

def buildAll (doms : Doms) (fuel : Nat) : List Nat → Tree → Option Tree
  | [], t => some t
  | b :: bs, t =>
      match build doms fuel b t with
      | some t => buildAll doms fuel bs t
      | none => none

/-- domtree.cpp:90-150. `shuffle`: the iteration order of the hash set of leaves. -/
def Cfg.domtree (G : Cfg) (shuffle : List Nat → List Nat) : Option Tree :=
  if G.rpo.length = G.num then
    match G.iterate (G.num * G.num + 1) (fun b => if b = G.entry then some G.entry else none) with
    | none => none
    | some doms =>
        let doms : Doms := fun b => if b = G.entry then none else doms b
        buildAll doms (G.num + 1) (shuffle (G.leaves doms)) [(G.entry, none, 0)]
  else none

end Jlm.Front.Dom
