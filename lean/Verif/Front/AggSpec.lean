import Verif.Front.AggModel
import Verif.Front.ConvertSpec

/-!
# What a control flow graph computes

The specification of aggregation: execution of a control flow graph, block by block. Only terminating
executions are described.
-/

namespace Jlm.Front

open Jlm.Opt

variable {V : Type}

/-- The successor that is taken: the only one, or the one that the last branch operation selected. -/
def goes : List Nat → Option Nat → Option Nat
  | [], _ => none
  | [y], _ => some y
  | ys, some k => ys[k]?
  | _, none => none

/-- `Exec C x s s'`: from block `x` and state `s`, the exit block is reached and its execution ends in `s'`. -/
inductive Cfg.Exec (sem : Sem V) (truth : V → Bool) (C : Cfg) : Nat → St V → St V → Prop
  | stop {s : St V} : Exec sem truth C C.exit s (steps sem truth (C.code C.exit) s)
  | step {x y : Nat} {s s' : St V} : x ≠ C.exit →
      goes (C.succs x) (steps sem truth (C.code x) s).ctl = some y →
      Exec sem truth C y (steps sem truth (C.code x) s) s' → Exec sem truth C x s s'

/-- A well-formed graph: edges are between blocks of the graph, the exit has no successor, and a block with
several successors ends in a branch operation. -/
structure Cfg.Wf (C : Cfg) : Prop where
  entry : C.entry ∈ C.nodes
  exit : C.exit ∈ C.nodes
  closed : ∀ x ∈ C.nodes, ∀ y ∈ C.succs x, y ∈ C.nodes
  last : C.succs C.exit = []
  branch : ∀ x ∈ C.nodes, 2 ≤ (C.succs x).length → (branchVar (C.code x)).isSome

end Jlm.Front
