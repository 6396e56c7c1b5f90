import Verif.Front.CfgModel

/-!
# Destruction of SSA form: `destruct_ssa` (model)

Model of `jlm/llvm/ir/ssa.cpp` (SSA below). New blocks and new variables are numbers that are not in use, given
by two counters.

Simplification: the undef operations that define the results of the phi operations are put in front of the first
block before the loop, in the order that /repo ends up with, instead of one by one; `none` if the first block has
phi operations itself (the loop SSA:83-111 then ends at the undef operation that it has just added) or is no basic
block.
-/

namespace Jlm.Front

open Jlm.Opt

/-- The sources of the edges to `b`: the keys of `intermediateBlocks` (SSA:50-76). -/
def PCfg.sources (C : PCfg) (b : Nat) : List Nat := C.nodes.filter fun z => b ∈ C.succs z

/-- The assignments to the new variables in the intermediate block of `z` (SSA:97-105): `variable` of the `k`-th
phi operation is `v + k`. -/
def phiStores (v : Nat) (z : Nat) : List Phi → List Tac
  | [] => []
  | p :: ps => ((p.ins.filter fun i => i.1 = z).map fun i => .assign v i.2) ++ phiStores (v + 1) z ps

/-- The assignments in `ass_block` (SSA:108). -/
def phiLoads (v : Nat) : List Phi → List Tac
  | [] => []
  | p :: ps => .assign p.res v :: phiLoads (v + 1) ps

/-- The body of the loop over the phi blocks (SSA:42-112): `ass_block` is block `n`, the intermediate block of the
`i`-th source is block `n + 1 + i`, and the new variables start at `v`. -/
def PCfg.splitPhis (C : PCfg) (n v b : Nat) : PCfg where
  nodes := C.nodes ++ List.range' n (1 + (C.sources b).length)
  code x :=
    if x < n then C.code x
    else if x = n then phiLoads v (C.phis b)
    else match (C.sources b)[x - (n + 1)]? with
    | some z => phiStores v z (C.phis b)
    | none => []
  succs x :=
    if x < n then divert b (n + 1 + (C.sources b).idxOf x) (C.succs x)
    else if x = n then [b]
    else [n]
  entry := C.entry
  exit := C.exit
  phis x := if x < n ∧ x ≠ b then C.phis x else []

/-- The loop over the phi blocks (SSA:40-113), with the counters. -/
def splitAll (C : PCfg) (n v : Nat) : List Nat → PCfg
  | [] => C
  | b :: bs => splitAll (C.splitPhis n v b) (n + 1 + (C.sources b).length) (v + (C.phis b).length) bs

/-- `collect_phi_blocks` (SSA:22-32). -/
def PCfg.phiBlocks (C : PCfg) : List Nat := C.blocks.filter fun b => C.phis b ≠ []

/-- The results of all phi operations. -/
def PCfg.phiResults (C : PCfg) : List Var := C.phiBlocks.flatMap fun b => (C.phis b).map Phi.res

/-- SSA:91-92: the results of the phi operations, undefined, in front of the first block. -/
def PCfg.withUndefs (C : PCfg) (f : Nat) (vs : List Var) : PCfg :=
  { C with code := fun x => if x = f then (vs.map fun v => .op undefOp [] [v]) ++ C.code x else C.code x }

/-- `destruct_ssa` (SSA:17-118). -/
def destructSsa (n v : Nat) (C : PCfg) : Option PCfg :=
  if C.phiBlocks = [] then some C
  else match C.succs C.entry with
  | [f] =>
      if f ∈ C.phiBlocks ∨ f = C.exit then none
      else some (splitAll (C.withUndefs f C.phiResults.reverse) n v C.phiBlocks)
  | _ => none

end Jlm.Front
