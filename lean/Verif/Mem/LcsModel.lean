/-!
# Model of load chain separation

`jlm/llvm/opt/LoadChainSeparation.cpp`: loads (and loops that only load) that follow each other on a memory state are made independent
of each other; a `MemoryStateJoinOperation` brings their states together again.

*Simplifications.*
* Memory states are used linearly, as the memory state encoder produces them: what precedes a memory state output is a tree. Where an
  output has more than one user (several outputs of a gamma node, and after the transformation) the tree has the same subtree, with the same
  node numbers, more than once. The bookkeeping of outputs that have been visited before (cpp:54-96, 341-345) has no influence then.
* A link that is the front of a chain and whose output is dead gets no join (cpp:262). The trees here get one; it orders nothing.
* Volatile loads are loads here, as they are in the code. `free`, `memcpy` and `memset` are treated like `store` (cpp:394-423).
-/

namespace Jlm.Mem.Lcs

/-- What precedes a memory state in a region. The numbers are those of the nodes. -/
inductive T
  /-- a region argument, or a state that comes out of a `LambdaEntryMemoryStateSplitOperation` -/
  | arg
  /-- `AllocaOperation`, `MallocOperation`, `UndefValueOperation` -/
  | alloc (n : Nat)
  /-- `LoadOperation` -/
  | load (n : Nat) (t : T)
  /-- `StoreOperation`, `FreeOperation`, `MemCpyOperation`, `MemSetOperation` -/
  | store (n : Nat) (t : T)
  /-- a theta node: what precedes the post value of the loop variable, in the body, and what precedes the input -/
  | theta (n : Nat) (body t : T)
  /-- a gamma node, with the origins of all its memory state entry variables (and the origins of the branch results) -/
  | gamma (n : Nat) (branches : List T) (ts : List T)
  /-- `CallOperation` between `CallEntryMemoryStateMergeOperation` and `CallExitMemoryStateSplitOperation` -/
  | call (n : Nat) (ts : List T)
  /-- `MemoryStateJoinOperation`, `MemoryStateMergeOperation`, `LambdaExitMemoryStateMergeOperation` -/
  | merge (ts : List T)

mutual

/-- The result of `traceModRefChains` (cpp:336-510): is there a modification above? For calls the result of the recursive call is
dropped, and the call is no modification itself (cpp:424-430). -/
def hasMod : T → Bool
  | .arg => false
  | .alloc _ => false
  | .load _ t => hasMod t
  | .store _ _ => true
  | .theta _ b t => hasMod b || hasMod t
  | .gamma _ _ _ => true
  | .call _ _ => false
  | .merge ts => hasMods ts

def hasMods : List T → Bool
  | [] => false
  | t :: ts => hasMod t || hasMods ts

end

/-- A reference link of a chain: a load, or a theta node that is recorded as a reference (cpp:229-233, 375-381). -/
inductive Ref
  | load (n : Nat)
  | theta (n : Nat) (body : T)

/-- The link with a state operand. -/
def Ref.over (t : T) : Ref → T
  | .load n => .load n t
  | .theta n b => .theta n b t

/-- `separateReferenceChains` (cpp:246-276) for one subchain of references (`extractReferenceSubchains`, cpp:300-334: only subchains with
at least two links count). The links get the operand of the last one, and a join takes the place of the first one. -/
def flush (base : T) : List Ref → T
  | [] => base
  | [r] => r.over base
  | rs => .merge (rs.map (·.over base))

mutual

/-- The transformation of what precedes a state: `links` are the references between the state and `t` (the nearest to the state
first). The bodies of theta and gamma nodes are transformed as well (cpp:123-241). -/
def sepFrom (links : List Ref) : T → T
  | .load n t => sepFrom (links ++ [.load n]) t
  | .theta n b t =>
    if hasMod b then flush (.theta n (sepFrom [] b) (sepFrom [] t)) links
    else sepFrom (links ++ [.theta n (sepFrom [] b)]) t
  | .store n t => flush (.store n (sepFrom [] t)) links
  | .arg => flush .arg links
  | .alloc n => flush (.alloc n) links
  | .gamma n bs ts => flush (.gamma n (seps bs) (seps ts)) links
  | .call n ts => flush (.call n (seps ts)) links
  | .merge ts => flush (.merge (seps ts)) links

def seps : List T → List T
  | [] => []
  | t :: ts => sepFrom [] t :: seps ts

end

/-- `LoadChainSeparation` for what precedes a state. -/
def sep (t : T) : T := sepFrom [] t

end Jlm.Mem.Lcs
