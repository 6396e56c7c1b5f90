/-
Model of the normalizations of memory operations:
jlm/llvm/ir/operators/Load.cpp, jlm/llvm/ir/operators/Store.cpp,
jlm/llvm/ir/operators/MemoryStateOperations.cpp, and of `rvsdg::ReduceNode`
(jlm/rvsdg/NodeNormalization.hpp:45-60) with which NodeReduction applies them.

Not modelled: `normalizeIOBarrierAddress` of loads and stores, `NormalizeNestedSplits`, volatile operations (they are among
the `other` operations), alignments, and normalizations that look through regions: a graph is one
region, a structural node in it is an `other` operation.
-/
namespace Jlm.Mem

/-- An output that carries a value: an argument of the region or the `k`-th value output of node
`n`. -/
inductive VOut where
  | arg (i : Nat)
  | res (n k : Nat)
deriving DecidableEq, Repr

/-- An output that carries a memory state. Simplification: value outputs and state outputs of a node
are numbered separately (in /repo the states of a load follow the value in one vector). -/
inductive SOut where
  | arg (i : Nat)
  | res (n k : Nat)
deriving DecidableEq, Repr

/-- The operations. `t` is the loaded or stored type, `a` identifies an alloca. `other` is any other
operation, for example arithmetic or a call. -/
inductive Op where
  | load (t : Nat)
  | store (t : Nat)
  | alloca (a : Nat)
  | merge
  | join
  | split (results : Nat)
  | exitMerge
  | undef
  | other (code : Nat)
deriving DecidableEq, Repr

/-- A node with its operands; a load has the value operand address, a store address and value
(Load.hpp `AddressInput`, Store.hpp `AddressInput`, `StoredValueInput`). -/
structure Node where
  id : Nat
  op : Op
  vals : List VOut
  states : List SOut
deriving DecidableEq, Repr

/-- A region: its nodes in a topological order and the origins of its results. -/
structure Graph where
  nodes : List Node
  vres : List VOut
  sres : List SOut
deriving DecidableEq, Repr

/-- the node of an output, `TryGetOwnerNode` -/
def Graph.node? (G : Graph) (i : Nat) : Option Node := G.nodes.find? fun x => x.id = i

/-- `TryGetOwnerNode` of a memory state -/
def Graph.owner (G : Graph) : SOut → Option Node
  | .arg _ => none
  | .res n _ => G.node? n

/-- `TryGetOwnerNode` of a value -/
def Graph.vowner (G : Graph) : VOut → Option Node
  | .arg _ => none
  | .res n _ => G.node? n

/-- `is<AllocaOperation>` -/
def Op.isAlloca : Op → Bool
  | .alloca _ => true
  | _ => false

/-- the alloca that computes an address, if it is one -/
def Graph.allocaOf (G : Graph) (v : VOut) : Option Node :=
  (G.vowner v).filter fun x => x.op.isAlloca

/-- `Output::nusers` of a memory state -/
def Graph.nusers (G : Graph) (o : SOut) : Nat :=
  (G.nodes.map fun x => x.states.count o).sum + G.sres.count o

/-- `Output::nusers` of a value -/
def Graph.nvusers (G : Graph) (o : VOut) : Nat :=
  (G.nodes.map fun x => x.vals.count o).sum + G.vres.count o

/-- What a normalization does: return `std::nullopt`; create the nodes `new` and return outputs that
take the place of the value and state outputs of the node; or run into a failed assertion. The node
that `new` creates in place of the normalized node takes over its number, because the old node is
removed. -/
inductive Res where
  | nothing
  | becomes (new : List Node) (vouts : List VOut) (souts : List SOut)
  | crash
deriving DecidableEq, Repr

/-! ### Loads -/

/-- `LoadNonVolatileOperation::NormalizeLoadStore`, Load.cpp:241-299 -/
def loadStore (G : Graph) (n : Node) (t : Nat) : Res :=
  match n.states with
  | [] => .nothing
  | s :: _ =>
    match G.owner s with
    | some st =>
      match st.op, st.vals with
      | .store t', [address, value] =>
        if n.vals = [address] ∧ st.states.length = n.states.length ∧
            (∀ o ∈ n.states, G.owner o = some st) ∧ t' = t then
          .becomes [] [value] n.states
        else .nothing
      | _, _ => .nothing
    | none => .nothing

/-- the memory states that are not states of an alloca other than `A`,
`perform_load_alloca_reduction`, Load.cpp:146-155 -/
def Graph.ownOr (G : Graph) (A : Node) (o : SOut) : Bool :=
  match G.owner o with
  | some x => !x.op.isAlloca || decide (x = A)
  | none => true

/-- the first `k` state outputs of node `i` -/
def stateOuts (i k : Nat) : List SOut := (List.range k).map (SOut.res i)

/-- `LoadNonVolatileOperation::NormalizeLoadAlloca`, Load.cpp:55-73, 138-168, 301-310 -/
def loadAlloca (G : Graph) (n : Node) (t : Nat) : Res :=
  match n.vals with
  | [address] =>
    match G.allocaOf address with
    | some A =>
      let loadstates := n.states.filter (G.ownOr A)
      let otherstates := n.states.filter fun o => !G.ownOr A o
      if otherstates = [] then .nothing
      else .becomes [⟨n.id, .load t, n.vals, loadstates⟩] [.res n.id 0]
        (stateOuts n.id loadstates.length ++ otherstates)
    | none => .nothing
  | _ => .nothing

/-- the state outputs, in the order of the operands `states`: those that satisfy `keep` are passed
through node `i`, the others past it; `k` is the next output of `i`. -/
def around (keep : SOut → Bool) (i : Nat) : Nat → List SOut → List SOut
  | _, [] => []
  | k, o :: os => if keep o then .res i k :: around keep i (k + 1) os else o :: around keep i k os

/-- Not in /repo: NormalizeLoadAlloca with the results in the order of the operands. -/
def loadAllocaFixed (G : Graph) (n : Node) (t : Nat) : Res :=
  match n.vals with
  | [address] =>
    match G.allocaOf address with
    | some A =>
      let loadstates := n.states.filter (G.ownOr A)
      let otherstates := n.states.filter fun o => !G.ownOr A o
      if otherstates = [] then .nothing
      else .becomes [⟨n.id, .load t, n.vals, loadstates⟩] [.res n.id 0]
        (around (G.ownOr A) n.id 0 n.states)
    | none => .nothing
  | _ => .nothing

/-- the operands without repetitions, in the order of the first occurrences:
`perform_multiple_origin_reduction`, Load.cpp:210-222, Store.cpp:128-140 -/
def firsts : List SOut → List SOut → List SOut
  | seen, [] => seen
  | seen, o :: os => if o ∈ seen then firsts seen os else firsts (seen ++ [o]) os

/-- `results[n] = loadResults[stateIndexMap[state]]`, Load.cpp:230-236, Store.cpp:145-150 -/
def dupOuts (i : Nat) (states : List SOut) : List SOut :=
  states.map fun o => .res i ((firsts [] states).idxOf o)

/-- `LoadNonVolatileOperation::NormalizeDuplicateStates`, Load.cpp:131-136, 202-238, 323-332 -/
def loadDuplicate (n : Node) (t : Nat) : Res :=
  if (firsts [] n.states).length = n.states.length then .nothing
  else .becomes [⟨n.id, .load t, n.vals, firsts [] n.states⟩] [.res n.id 0] (dupOuts n.id n.states)

/-- `is_reducible_state`, Load.cpp:75-90: the state comes from a store to an alloca other than `A` -/
def Graph.otherStore (G : Graph) (A : Node) (o : SOut) : Bool :=
  match G.owner o with
  | some st =>
    match st.op, st.vals with
    | .store _, [address, _] =>
      match G.allocaOf address with
      | some A' => decide (A' ≠ A)
      | none => false
    | _, _ => false
  | none => false

/-- `LoadNonVolatileOperation::NormalizeLoadStoreState`, Load.cpp:101-125, 170-200, 312-321 -/
def loadStoreState (G : Graph) (n : Node) (t : Nat) : Res :=
  match n.vals with
  | [address] =>
    if n.states.length = 1 then .nothing
    else
      match G.allocaOf address with
      | some A =>
        let redstates := n.states.filter (G.otherStore A)
        if redstates.length = n.states.length ∨ redstates.length = 0 then .nothing
        else .becomes [⟨n.id, .load t, n.vals, n.states.filter fun o => !G.otherStore A o⟩]
          [.res n.id 0] (around (fun o => !G.otherStore A o) n.id 0 n.states)
      | none => .nothing
  | _ => .nothing

/-! ### Stores -/

/-- `StoreNonVolatileOperation::NormalizeStoreMux`, Store.cpp:43-60, 86-103, 154-163. The assertion
`operands.size() > 2` of `is_store_mux_reducible` fails for a store without memory states. `fresh` is
the number of the new merge node. -/
def storeMux (G : Graph) (fresh : Nat) (n : Node) (t : Nat) : Res :=
  match n.states with
  | [] => .crash
  | s :: _ =>
    match G.owner s with
    | some m =>
      if m.op = .merge ∧ ∀ o ∈ n.states, G.owner o = some m then
        .becomes [⟨n.id, .store t, n.vals, m.states⟩,
          ⟨fresh, .merge, [], stateOuts n.id m.states.length⟩] [] [.res fresh 0]
      else .nothing
    | none => .nothing

/-- the operand of `st` that corresponds to its state output `o`,
`MapMemoryStateOutputToInput`, Store.hpp:152-161 -/
def inputOf (st : Node) : SOut → Option SOut
  | .arg _ => none
  | .res i k => if i = st.id then st.states[k]? else none

/-- `StoreNonVolatileOperation::normalizeStoreStore`, Store.cpp:165-219. `trace` is
`llvm::traceOutput`, `size` is `GetTypeStoreSize`. -/
def storeStore (G : Graph) (trace : VOut → VOut) (size : Nat → Nat) (n : Node) (t : Nat) : Res :=
  match n.states with
  | [] => .nothing
  | s :: _ =>
    match G.owner s with
    | some st =>
      match st.op, st.vals, n.vals with
      | .store t1, [address1, _], [address2, _] =>
        if trace address1 = trace address2 ∧
            (∀ o ∈ n.states, G.owner o = some st ∧ G.nusers o = 1) ∧ size t1 ≤ size t then
          .becomes [⟨n.id, .store t, n.vals, n.states.filterMap (inputOf st)⟩] []
            (stateOuts n.id n.states.length)
        else .nothing
      | _, _, _ => .nothing
    | none => .nothing

/-- the conditions of `is_store_alloca_reducible`, Store.cpp:62-80: the state of the alloca -/
def Graph.storeAllocaState (G : Graph) (n : Node) : Option SOut :=
  match n.vals with
  | [address, _] =>
    match G.allocaOf address with
    | some A =>
      if n.states.length ≠ 1 ∧ SOut.res A.id 0 ∈ n.states ∧ G.nusers (.res A.id 0) = 1 then
        some (.res A.id 0)
      else none
    | none => none
  | _ => none

/-- `StoreNonVolatileOperation::NormalizeStoreAlloca`, Store.cpp:62-80, 105-124, 221-230. The result
is the content of an `unordered_set` in the order of iteration: `ord` lists a set. -/
def storeAlloca (G : Graph) (ord : List SOut → List SOut) (n : Node) (t : Nat) : Res :=
  match G.storeAllocaState n with
  | some s =>
    .becomes [⟨n.id, .store t, n.vals, [s]⟩] []
      (ord (.res n.id 0 :: n.states.filter fun o => o ≠ s))
  | none => .nothing

/-- Not in /repo: NormalizeStoreAlloca with the results in the order of the operands. -/
def storeAllocaFixed (G : Graph) (n : Node) (t : Nat) : Res :=
  match G.storeAllocaState n with
  | some s =>
    .becomes [⟨n.id, .store t, n.vals, [s]⟩] [] (around (fun o => o = s) n.id 0 n.states)
  | none => .nothing

/-- `StoreNonVolatileOperation::NormalizeDuplicateStates`, Store.cpp:82-87, 126-152, 232-241 -/
def storeDuplicate (n : Node) (t : Nat) : Res :=
  if (firsts [] n.states).length = n.states.length then .nothing
  else .becomes [⟨n.id, .store t, n.vals, firsts [] n.states⟩] [] (dupOuts n.id n.states)

/-- `StoreNonVolatileOperation::normalizeStoreAllocaSingleUser`, Store.cpp:314-336 -/
def storeSingleUser (G : Graph) (n : Node) : Res :=
  match n.vals with
  | [address, _] =>
    if (G.allocaOf address).isSome ∧ G.nvusers address = 1 then .becomes [] [] n.states
    else .nothing
  | _ => .nothing

/-! ### Merges, joins and splits -/

/-- `MemoryStateMergeOperation::NormalizeSingleOperand`, `MemoryStateJoinOperation::
NormalizeSingleOperand`, MemoryStateOperations.cpp:39-48, 158-167 -/
def singleOperand (n : Node) : Res :=
  if n.states.length = 1 then .becomes [] [] n.states else .nothing

/-- `MemoryStateMergeOperation::NormalizeDuplicateOperands`, MemoryStateOperations.cpp:50-63. The
operands of the new merge are in the order of iteration of a hash set. -/
def mergeDuplicate (ord : List SOut → List SOut) (n : Node) : Res :=
  if (firsts [] n.states).length = n.states.length then .nothing
  else .becomes [⟨n.id, .merge, [], ord n.states⟩] [] [.res n.id 0]

/-- `CollectNestedMemoryStateMergeOrJoinOperands`, MemoryStateOperations.cpp:65-95. The recursion
follows the merges towards the operands; `nodes` are the nodes before the current one, in reverse
topological order, which makes the recursion structural. -/
def collect (op : Op) : List Node → SOut → List SOut
  | [], o => [o]
  | x :: nodes, o =>
    match o with
    | .res i k =>
      if x.id = i then
        if x.op = op then x.states.flatMap (collect op nodes) else [.res i k]
      else collect op nodes (.res i k)
    | .arg i => [.arg i]

/-- `MemoryStateMergeOperation::NormalizeNestedMerges`, MemoryStateOperations.cpp:97-110 -/
def nestedMerges (G : Graph) (n : Node) : Res :=
  let ops := n.states.flatMap (collect .merge G.nodes.reverse)
  if ops = n.states then .nothing
  else .becomes [⟨n.id, .merge, [], ops⟩] [] [.res n.id 0]

/-- the operand of a split, or the state itself, MemoryStateOperations.cpp:118-131 -/
def Graph.unsplit (G : Graph) (o : SOut) : SOut :=
  match G.owner o with
  | some x =>
    match x.op, x.states with
    | .split _, [s] => s
    | _, _ => o
  | none => o

/-- `MemoryStateMergeOperation::NormalizeMergeSplit`, MemoryStateOperations.cpp:112-138 -/
def mergeSplit (G : Graph) (n : Node) : Res :=
  let ops := n.states.map G.unsplit
  if ops = n.states then .nothing
  else .becomes [⟨n.id, .merge, [], ops⟩] [] [.res n.id 0]

/-- `MemoryStateJoinOperation::NormalizeDuplicateOperands`, MemoryStateOperations.cpp:169-196 -/
def joinDuplicate (n : Node) : Res :=
  let ops := firsts [] n.states
  if ops.length = n.states.length then .nothing
  else if ops.length = 1 then .becomes [] [] ops
  else .becomes [⟨n.id, .join, [], ops⟩] [] [.res n.id 0]

/-- `MemoryStateSplitOperation::NormalizeSingleResult`, MemoryStateOperations.cpp:237-247 -/
def splitSingle (n : Node) (results : Nat) : Res :=
  if results = 1 then .becomes [] [] n.states else .nothing

/-- `MemoryStateSplitOperation::NormalizeSplitMerge`, MemoryStateOperations.cpp:276-293 -/
def splitMerge (G : Graph) (n : Node) (results : Nat) : Res :=
  match n.states with
  | [s] =>
    match G.owner s with
    | some m =>
      if m.op = .merge ∧ m.states.length = results then .becomes [] [] m.states else .nothing
    | none => .nothing
  | _ => .nothing

/-! ### The exit of a lambda -/

/-- the operand that corresponds to a state output of a load from, or store to, an alloca -/
def Graph.bypass (G : Graph) (which : Op → Bool) (o : SOut) : SOut :=
  match G.owner o with
  | some x =>
    match x.vals with
    | address :: _ =>
      if which x.op ∧ (G.allocaOf address).isSome then (inputOf x o).getD o else o
    | [] => o
  | none => o

/-- `is<LoadOperation>` -/
def Op.isLoad : Op → Bool
  | .load _ => true
  | _ => false

/-- `is<StoreOperation>` -/
def Op.isStore : Op → Bool
  | .store _ => true
  | _ => false

/-- a new exit merge if an operand was replaced -/
def exitWith (n : Node) (ops : List SOut) : Res :=
  if ops = n.states then .nothing
  else .becomes [⟨n.id, .exitMerge, [], ops⟩] [] [.res n.id 0]

/-- `LambdaExitMemoryStateMergeOperation::NormalizeLoadFromAlloca`,
MemoryStateOperations.cpp:440-478 -/
def exitLoad (G : Graph) (n : Node) : Res := exitWith n (n.states.map (G.bypass Op.isLoad))

/-- `LambdaExitMemoryStateMergeOperation::NormalizeStoreToAlloca`,
MemoryStateOperations.cpp:480-519 -/
def exitStore (G : Graph) (n : Node) : Res := exitWith n (n.states.map (G.bypass Op.isStore))

/-- `LambdaExitMemoryStateMergeOperation::NormalizeAlloca`, MemoryStateOperations.cpp:521-555: the
states of allocas are replaced by undefined states. Simplification: one undef node, numbered `fresh`,
for all of them. -/
def exitAlloca (G : Graph) (fresh : Nat) (n : Node) : Res :=
  let isA : SOut → Bool := fun o => (G.owner o).any fun x => x.op.isAlloca
  if n.states.all (fun o => !isA o) then .nothing
  else .becomes [⟨fresh, .undef, [], []⟩,
      ⟨n.id, .exitMerge, [], n.states.map fun o => if isA o then .res fresh 0 else o⟩]
    [] [.res n.id 0]

/-! ### Replacing a node -/

/-- the value that takes the place of `v` after diverting the outputs of node `i` -/
def vsub (i : Nat) (vouts : List VOut) : VOut → VOut
  | .res n k => if n = i then vouts.getD k (.res n k) else .res n k
  | .arg j => .arg j

/-- the state that takes the place of `o` after diverting the outputs of node `i` -/
def ssub (i : Nat) (souts : List SOut) : SOut → SOut
  | .res n k => if n = i then souts.getD k (.res n k) else .res n k
  | .arg j => .arg j

/-- diverting the users, `divert_users`, jlm/rvsdg/node.hpp:1089-1096 -/
def Node.map (x : Node) (τ : VOut → VOut) (σ : SOut → SOut) : Node :=
  { x with vals := x.vals.map τ, states := x.states.map σ }

/-- `ReduceNode`, NodeNormalization.hpp:45-60: create the new nodes, divert the users of node `i`,
remove it. -/
def Graph.replace (G : Graph) (i : Nat) (new : List Node) (vouts : List VOut)
    (souts : List SOut) : Graph where
  nodes := G.nodes.flatMap fun x => if x.id = i then new else [x.map (vsub i vouts) (ssub i souts)]
  vres := G.vres.map (vsub i vouts)
  sres := G.sres.map (ssub i souts)

end Jlm.Mem
