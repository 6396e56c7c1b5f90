import Verif.Util.WorklistModel
/-
What a user knows about a worklist: the history of pushed and popped items (newest event first).
-/
namespace Jlm.Util.Worklist

variable {α : Type}

inductive Ev (α : Type) where
  | push (x : α)
  | pop (x : α)

/-- The executions of a client of worklist `w`: the state reached and the history observed. -/
inductive Reach (w : WL α) : w.σ → List (Ev α) → Prop
  | init : Reach w w.init []
  | push {s h} (x : α) : Reach w s h → Reach w (w.push s x) (.push x :: h)
  | pop {s h x s'} : Reach w s h → w.pop s = some (x, s') → Reach w s' (.pop x :: h)

/-- `x` was pushed and has not been popped after that push. -/
def Pending (h : List (Ev α)) (x : α) : Prop :=
  ∃ h₂ h₁, h = h₂ ++ .push x :: h₁ ∧ Ev.pop x ∉ h₂

/-- Number of pops in the history. -/
def pops : List (Ev α) → Nat
  | [] => 0
  | .push _ :: h => pops h
  | .pop _ :: h => pops h + 1

/-- The (1-based) number of the last pop that returned `x`; 0 if there was none. -/
def lastPop [DecidableEq α] : List (Ev α) → α → Nat
  | [], _ => 0
  | .push _ :: h, x => lastPop h x
  | .pop y :: h, x => if x = y then pops h + 1 else lastPop h x

/-- `x` entered the worklist (was pushed while not waiting in it) later than `y`, both waiting:
at some earlier time `y` was already waiting and has not been popped since, while `x` was not
waiting. -/
def LaterThan (h : List (Ev α)) (x y : α) : Prop :=
  ∃ h₂ h₁, h = h₂ ++ h₁ ∧ Pending h₁ y ∧ Ev.pop y ∉ h₂ ∧ ¬ Pending h₁ x

/-- Items of the current phase of two-phase LRF that have not been popped yet: a phase starts at a
pop that finds the previous phase exhausted and consists of everything waiting at that time. -/
def InPhase : List (Ev α) → α → Prop
  | [], _ => False
  | .push _ :: h, x => InPhase h x
  | .pop y :: h, x => x ≠ y ∧ (((∃ z, InPhase h z) ∧ InPhase h x) ∨ ((¬ ∃ z, InPhase h z) ∧ Pending h x))

/-- The items from which the next pop of two-phase LRF has to choose. -/
def Eligible (h : List (Ev α)) (x : α) : Prop :=
  ((∃ z, InPhase h z) ∧ InPhase h x) ∨ ((¬ ∃ z, InPhase h z) ∧ Pending h x)

/-- Being least recently popped among the items satisfying `P` (ties: the smaller item). -/
def LeastRecent [LinearOrder α] (h : List (Ev α)) (P : α → Prop) (x : α) : Prop :=
  P x ∧ ∀ y, P y → lastPop h x < lastPop h y ∨ (lastPop h x = lastPop h y ∧ x ≤ y)

end Jlm.Util.Worklist
