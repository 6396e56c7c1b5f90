/-!
# Model of `MemoryStateEncoder` (`jlm/llvm/opt/alias-analyses/MemoryStateEncoder.cpp`)

A region is the list of its nodes in the order of the traversal. The mod/ref set of a node (`ModRefSummary`) is stored with it; effects are
left out since the encoder does not look at them. Hash maps are functions, and the states of a node come in the order of its set.
-/

namespace Jlm.ModRef.Enc

/-! ## Input -/

structure Simple where
  op : Nat
  /-- values that are no memory states -/
  ins : List Nat
  outs : List Nat
  /-- the memory nodes in the mod/ref set -/
  set : List Nat
  /-- alloca or malloc -/
  alloc : Bool

structure Head where
  /-- theta node? Otherwise a gamma node; its predicate is its first input. -/
  theta : Bool
  ins : List Nat
  outs : List Nat
  set : List Nat

mutual
inductive Node
  | simple (n : Simple)
  | struct (h : Head) (regions : List Region)

inductive Region
  /-- arguments, nodes, results. The first result of a theta node's region is the predicate. -/
  | mk (args : List Nat) (nodes : List Node) (results : List Nat)
end

/-! ## Output -/

/-- A memory state: the argument for a memory node, or the output for it of a node of the region. -/
inductive Out
  | arg (m : Nat)
  | node (i m : Nat)
  deriving DecidableEq

mutual
inductive GNode
  /-- A simple node with its memory state operands. For calls, this is the call together with the entry merge and the exit split. -/
  | simple (n : Simple) (states : List (Nat × Out))
  | struct (h : Head) (states : List (Nat × Out)) (regions : List GRegion)
  | join (m : Nat) (a b : Out)

inductive GRegion
  /-- `states`: the states that leave the region; `none` if the encoder throws. -/
  | mk (args : List Nat) (nodes : List GNode) (results : List Nat) (states : List (Nat × Option Out))
end

/-! ## Encoding -/

/-- `StateMap` (cpp:300-468) -/
abbrev StateMap := Nat → Option Out

/-- `GetExistingStates` (cpp:430-442) -/
def existing (st : StateMap) (set : List Nat) : List (Nat × Out) := set.filterMap fun m => (st m).map fun o => (m, o)

/-- `InsertState` and `ReplaceState` -/
def StateMap.put (st : StateMap) (m : Nat) (o : Out) : StateMap := fun k => if k = m then some o else st k

/-- `ReplaceStates` (cpp:339-359): the outputs of the node `i`. -/
def StateMap.replace (st : StateMap) (ps : List (Nat × Out)) (i : Nat) : StateMap :=
  ps.foldl (fun st p => st.put p.1 (.node i p.1)) st

/-- The state map of a new region, with an argument for each state (cpp:1127-1133 for gamma nodes, cpp:1184-1190 for theta nodes). -/
def arguments (ps : List (Nat × Out)) : StateMap := fun m => if ps.any (·.1 == m) then some (.arg m) else none

mutual
/-- `EncodeSimpleNode`, `EncodeStructuralNode` (cpp:713-788); `i`: the number of nodes so far. -/
def encNode (st : StateMap) (i : Nat) : Node → List GNode × StateMap
  | .simple n =>
      if n.alloc then
        -- EncodeAlloca, EncodeMalloc (cpp:790-851)
        match n.set with
        | [] => ([.simple n []], st)
        | m :: _ =>
            match st m with
            | some o => ([.simple n [], .join m (.node i m) o], st.put m (.node (i + 1) m))
            | none => ([.simple n []], st.put m (.node i m))
      else
        -- EncodeLoad, EncodeStore, EncodeFree, EncodeCall, EncodeMemcpy, EncodeMemset, EncodeMemmove (cpp:853-988)
        ([.simple n (existing st n.set)], st.replace (existing st n.set) i)
  | .struct h rs =>
      -- EncodeGamma, EncodeTheta (cpp:1078-1226)
      ([.struct h (existing st h.set) (encRegions (existing st h.set) rs)], st.replace (existing st h.set) i)

/-- `EncodeRegion` (cpp:692-711) -/
def encNodes (st : StateMap) (i : Nat) : List Node → List GNode × StateMap
  | [] => ([], st)
  | n :: ns => ((encNode st i n).1 ++ (encNodes (encNode st i n).2 (i + (encNode st i n).1.length) ns).1,
      (encNodes (encNode st i n).2 (i + (encNode st i n).1.length) ns).2)

/-- A region of a structural node with the states that enter it: entry, nodes, exit (`GetState`). -/
def encRegion (ps : List (Nat × Out)) : Region → GRegion
  | .mk args nodes results =>
      .mk args (encNodes (arguments ps) 0 nodes).1 results (ps.map fun p => (p.1, (encNodes (arguments ps) 0 nodes).2 p.1))

def encRegions (ps : List (Nat × Out)) : List Region → List GRegion
  | [] => []
  | r :: rs => encRegion ps r :: encRegions ps rs
end

/-- `EncodeLambda` (cpp:990-1065): one state for each memory node in the set of the function. -/
def encLambda (set : List Nat) (body : Region) : GRegion := encRegion (set.map fun m => (m, .arg m)) body

end Jlm.ModRef.Enc
