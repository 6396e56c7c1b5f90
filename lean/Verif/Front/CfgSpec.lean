import Verif.Front.CfgModel
import Verif.Front.AggSpec

/-!
# What a control flow graph with phi operations computes
-/

namespace Jlm.Front

open Jlm.Opt

variable {V : Type}

/-- The phi operations of a block that is entered from `p`: all operands are read before a result is written. -/
def enter (ps : List Phi) (p : Nat) (s : St V) : St V :=
  ⟨setAll s.env (ps.map Phi.res) (ps.map fun q => match q.ins.lookup p with | some v => s.env v | none => none), s.ctl⟩

/-- `Exec C x s s'`: when the phi operations of block `x` have been executed and the state is `s`, the exit
block is reached and its execution ends in `s'`. -/
inductive PCfg.Exec (sem : Sem V) (truth : V → Bool) (C : PCfg) : Nat → St V → St V → Prop
  | stop {s : St V} : Exec sem truth C C.exit s (steps sem truth (C.code C.exit) s)
  | step {x y : Nat} {s s' : St V} : x ≠ C.exit →
      goes (C.succs x) (steps sem truth (C.code x) s).ctl = some y →
      Exec sem truth C y (enter (C.phis y) x (steps sem truth (C.code x) s)) s' → Exec sem truth C x s s'

/-- A valid graph: `is_valid` (cfg-structure.cpp:480-563), and the branch operations. -/
structure PCfg.Valid (C : PCfg) : Prop extends C.toCfg.Wf where
  nodup : C.nodes.Nodup
  differ : C.entry ≠ C.exit
  noPred : ∀ x ∈ C.nodes, C.entry ∉ C.succs x
  first : (C.succs C.entry).length = 1
  succ : ∀ x ∈ C.nodes, x ≠ C.exit → C.succs x ≠ []
  noPhi : C.phis C.entry = [] ∧ C.phis C.exit = []
  /-- one operand for each predecessor -/
  phis : ∀ x ∈ C.nodes, ∀ p ∈ C.phis x, (p.ins.map Prod.fst).Nodup ∧
    ∀ z, z ∈ p.ins.map Prod.fst ↔ z ∈ C.nodes ∧ x ∈ C.succs z

/-- No block can be merged into its successor: no block with one successor, a block without phi operations, is
the only predecessor of that successor. -/
def PCfg.Straight (C : PCfg) : Prop :=
  ∀ x ∈ C.blocks, ∀ y ∈ C.blocks, C.succs x = [y] → C.phis y = [] →
    (C.nodes.map fun z => (C.succs z).count y).sum ≠ 1

/-- There is a path from the entry to `x`. -/
inductive Cfg.Reach (C : Cfg) : Nat → Prop
  | entry : Reach C C.entry
  | step {x y : Nat} : Reach C x → y ∈ C.succs x → Reach C y

/-- States that agree on the variables below `v`. -/
def AgreeBelow (v : Nat) (s t : St V) : Prop := (∀ u : Nat, u < v → s.env u = t.env u) ∧ s.ctl = t.ctl

/-- The variables of a three address code. -/
def Tac.below (v : Nat) (t : Tac) : Prop := (∀ u : Nat, u ∈ t.reads → u < v) ∧ ∀ u : Nat, u ∈ t.writes → u < v

/-- The variables of a phi operation. -/
def Phi.below (v : Nat) (p : Phi) : Prop := p.res < v ∧ ∀ i ∈ p.ins, i.2 < v

/-- Blocks and variables that are in use are below the counters. -/
structure PCfg.Small (C : PCfg) (n v : Nat) : Prop where
  nodes : ∀ x ∈ C.nodes, x < n
  code : ∀ x ∈ C.nodes, ∀ t ∈ C.code x, t.below v
  phis : ∀ x ∈ C.nodes, ∀ p ∈ C.phis x, p.below v

/-- The state in which the variables `vs` are undefined. -/
def undefs (sem : Sem V) (vs : List Var) (s : St V) : St V :=
  ⟨fun u => if u ∈ vs then undefVal sem else s.env u, s.ctl⟩

/-- The first block: the only successor of the (empty) entry, not entered from elsewhere. -/
def PCfg.First (C : PCfg) (f : Nat) : Prop :=
  C.code C.entry = [] ∧ C.succs C.entry = [f] ∧ f ≠ C.exit ∧ C.phis f = [] ∧
    ∀ z ∈ C.nodes, f ∈ C.succs z → z = C.entry

end Jlm.Front
