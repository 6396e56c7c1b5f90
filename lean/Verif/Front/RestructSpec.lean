import Verif.Front.RestructModel
import Verif.Front.CfgSpec

/-!
# Control flow restructuring: specification
-/

namespace Jlm.Front

open Jlm.Opt

variable {V : Type}

/-- States that agree on the variables outside `F`. -/
def AgreeOff (F : Nat → Prop) (s t : St V) : Prop := ∀ u : Nat, ¬ F u → s.env u = t.env u

/-- Executions of `C` and `D` correspond, when the variables in `F` are ignored: an execution of one of them, from
entry to exit, comes with an execution of the other one. -/
def SameOff (sem : Sem V) (truth : V → Bool) (F : Nat → Prop) (C D : Cfg) : Prop :=
  ∀ s t, AgreeOff F s t →
    (∀ s', C.Exec sem truth C.entry s s' → ∃ t', D.Exec sem truth D.entry t t' ∧ AgreeOff F s' t') ∧
    (∀ t', D.Exec sem truth D.entry t t' → ∃ s', C.Exec sem truth C.entry s s' ∧ AgreeOff F s' t')

/-- The graph as a graph without phi operations. -/
def Cfg.noPhis (C : Cfg) : PCfg := { C with phis := fun _ => [] }

/-- The meaning of control constants and match operations. -/
structure CtlSem (sem : Sem V) : Prop where
  const : ∀ c, ((sem.apply (ctlConst c) []).headD none).map sem.ctl = some c
  matchOp : ∀ m d code (w : W V), ((sem.apply ⟨.matchOp m d, code⟩ [w]).headD none).map sem.ctl =
    w.map fun y => (m.lookup (sem.ctl y.1)).getD d

/-- Block `x` ends in a branch on the variable `u`, which is the result of a match operation in `x`, and has two
successors. -/
def Cfg.Decides (C : Cfg) (x u : Nat) (m : List (Nat × Nat)) (d : Nat) : Prop :=
  x ∈ C.nodes ∧ branchVar (C.code x) = some u ∧ (C.succs x).length = 2 ∧
    ∃ c w, Tac.op ⟨.matchOp m d, c⟩ [w] [u] ∈ C.code x

/-- A match operation with two alternatives. `fix = false`: the only ones that `invertMatchOperation` of /repo
handles, those with a single mapping. -/
def TwoWay (fix : Bool) (m : List (Nat × Nat)) (d : Nat) : Prop :=
  d ≤ 1 ∧ (∀ p ∈ m, p.2 ≤ 1) ∧ (fix = false → ∃ val a, m = [(val, a)] ∧ a ≠ d)

/-- The match operations that decide between two successors have two alternatives, and nothing but the branch at the
end of their block uses their result. -/
def Cfg.Matches (fix : Bool) (C : Cfg) : Prop :=
  ∀ x u m d, C.Decides x u m d →
    TwoWay fix m d ∧ ∀ y ∈ C.nodes, ∀ t ∈ C.code y, u ∈ t.reads → y = x ∧ t = .branch u

/-- The variables that restructuring may change: new ones, and results of match operations that decide between two
successors. -/
def Cfg.Touched (C : Cfg) (v : Nat) (u : Nat) : Prop := v ≤ u ∨ ∃ x m d, C.Decides x u m d

/-- Sets and edges are traversed in some order: every element comes from the set. -/
def Choice.Legal (ch : Choice) : Prop :=
  (∀ l x, x ∈ ch.nodes l → x ∈ l) ∧ ∀ l e, e ∈ ch.edges l → e ∈ l

end Jlm.Front
