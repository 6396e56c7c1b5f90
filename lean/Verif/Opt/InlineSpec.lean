import Verif.Opt.Refine

/-! # What inlining relies on: calls run functions -/

namespace Jlm.Opt.Inline

variable {V : Type}

/-- A call of a known function runs the function. -/
def Calls (sem : Sem V) : Prop :=
  ∀ (op : Op) (v : V) (f : List (Option V) → List (Option V)) (ws : List (W V)), op.kind = .call →
    sem.apply op (some (v, some (.lam f)) :: ws) = f (plain ws)

/-- Only calls look at the function a value stands for, and only at the one of their first input. -/
def NoPeek (sem : Sem V) : Prop :=
  ∀ (op : Op) (ws ws' : List (W V)), plain ws = plain ws' → (op.kind = .call → ws.head? = ws'.head?) →
    sem.apply op ws = sem.apply op ws'

/-- An I/O barrier (jlm/llvm/ir/operators/IOBarrier.hpp) gives its first operand. -/
def Barrier (bop : Op) (sem : Sem V) : Prop :=
  bop.kind = .other ∧ ∀ x io : W V, sem.apply bop [x, io] = [x.map (·.1)]

end Jlm.Opt.Inline
