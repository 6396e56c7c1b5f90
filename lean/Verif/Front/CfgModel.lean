import Verif.Front.AggModel

/-!
# Control flow graphs with phi operations: `straighten`, `purge` and `prune` (model)

Model of the transformations of `jlm/llvm/ir/cfg-structure.cpp` (CS below) that make control flow graphs smaller.
Entry and exit node, which are no basic blocks in /repo, are blocks that all functions here leave alone.
-/

namespace Jlm.Front

open Jlm.Opt

/-- `SsaPhiOperation` with its operands and result: the incoming node of each operand. -/
structure Phi where
  res : Nat
  ins : List (Nat × Nat)
  deriving DecidableEq

/-- A control flow graph; the phi operations of a block, which come first, are kept apart. -/
structure PCfg extends Cfg where
  phis : Nat → List Phi

/-- `NumInEdges`. -/
def Cfg.indeg (C : Cfg) (y : Nat) : Nat := (C.nodes.map fun x => (C.succs x).count y).sum

/-- The basic blocks: `cfg.begin()` to `cfg.end()`. -/
def Cfg.blocks (C : Cfg) : List Nat := C.nodes.filter fun x => x ≠ C.entry ∧ x ≠ C.exit

/-- The block that `straighten` merges `x` into, if any: `is_linear_reduction` (CS:181-191) and the conditions
CS:649-654. -/
def PCfg.merges (C : PCfg) (x : Nat) : Option Nat :=
  match C.succs x with
  | [y] => if C.indeg y = 1 ∧ y ≠ C.entry ∧ y ≠ C.exit ∧ C.phis y = [] then some y else none
  | _ => none

/-- CS:656-659: the three address codes, phi operations and in-edges of `x` go to `y`, and `x` is removed. -/
def PCfg.merge (C : PCfg) (x y : Nat) : PCfg where
  nodes := C.nodes.filter fun z => z ≠ x
  code z := if z = y then C.code x ++ C.code y else C.code z
  succs z := divert x y (C.succs z)
  entry := C.entry
  exit := C.exit
  phis z := if z = y then C.phis x else C.phis z

/-- The loop of `straighten` (CS:637-660) over the given blocks. -/
def straightenOver (C : PCfg) : List Nat → PCfg
  | [] => C
  | x :: xs => straightenOver (match C.merges x with | some y => C.merge x y | none => C) xs

/-- `straighten` (CS:634-661). -/
def straighten (C : PCfg) : PCfg := straightenOver C C.blocks

/-- CS:694-695: the in-edges of `x` go to `y`, and `x` is removed. -/
def PCfg.skip (C : PCfg) (x y : Nat) : PCfg where
  nodes := C.nodes.filter fun z => z ≠ x
  code := C.code
  succs z := divert x y (C.succs z)
  entry := C.entry
  exit := C.exit
  phis := C.phis

/-- The loop of `purge` (CS:668-696) over the given blocks; `none`: the assertion of CS:683 fails. -/
def purgeOver (C : PCfg) : List Nat → Option PCfg
  | [] => some C
  | x :: xs =>
      if C.code x = [] ∧ C.phis x = [] then
        match C.succs x with
        | [y] => if y = x then purgeOver C xs else purgeOver (C.skip x y) xs
        | _ => none
      else purgeOver C xs

/-- `purge` (CS:663-699). -/
def purge (C : PCfg) : Option PCfg := purgeOver C C.blocks

/-- `compute_livenodes` (CS:703-723): the loop, with the set `to_visit` as a list. -/
def liveLoop (C : Cfg) : Nat → List Nat → List Nat → List Nat
  | 0, visited, _ => visited
  | _ + 1, visited, [] => visited
  | fuel + 1, visited, x :: rest =>
      let visited := x :: visited
      liveLoop C fuel visited
        ((C.succs x).foldl (fun todo y => if y ∈ visited ∨ y ∈ todo then todo else todo ++ [y]) rest)

/-- Every node is visited at most once. -/
def Cfg.live (C : Cfg) : List Nat := liveLoop C (C.nodes.length + 1) [] [C.entry]

/-- `compute_deadnodes` (CS:728-743). -/
def Cfg.dead (C : Cfg) : List Nat := C.blocks.filter fun x => x ∉ C.live

/-- `prune` (CS:815-826) with `compute_live_sinks` (CS:749-764), `update_phi_operands` (CS:766-802) and
`remove_deadnodes` (CS:804-813). -/
def prune (C : PCfg) : PCfg where
  nodes := C.nodes.filter fun x => x ∉ C.dead
  code := C.code
  succs := C.succs
  entry := C.entry
  exit := C.exit
  phis x := if C.dead.any (fun d => x ∈ C.succs d) ∧ x ∉ C.dead ∧ x ≠ C.exit then
      (C.phis x).map fun p => { p with ins := p.ins.filter fun i => i.1 ∉ C.dead }
    else C.phis x

end Jlm.Front
