import Verif.Rvsdg.BinaryModel
/-
What binary expressions mean: `f o` is the function computed by the binary operation `o`; a flattened
node over `o` is the left fold of `f o` over its operands.
-/
namespace Jlm.Rvsdg.Binary
open Jlm.Rvsdg

variable {β V : Type}

/-- Left fold of a nonempty list: ((v1 f v2) f v3) ... -/
def fold1 [Inhabited V] (f : V → V → V) : List V → V
  | [] => default
  | v :: vs => vs.foldl f v

mutual
/-- Value of an expression for the valuation `env` of the free outputs. -/
def eval [Inhabited V] (f : β → V → V → V) (env : Nat → V) : E β → V
  | .arg i => env i
  | .node (.bin o) ops => fold1 (f o) (evals f env ops)
  | .node (.flat o _) ops => fold1 (f o) (evals f env ops)
/-- Values of a list of expressions. -/
def evals [Inhabited V] (f : β → V → V → V) (env : Nat → V) : List (E β) → List V
  | [] => []
  | e :: es => eval f env e :: evals f env es
end

mutual
/-- Every node has as many operands as its operation requires, and flattened operations have at
least two. -/
def WF : E β → Prop
  | .arg _ => True
  | .node (.bin _) ops => ops.length = 2 ∧ WFs ops
  | .node (.flat _ n) ops => ops.length = n ∧ 2 ≤ n ∧ WFs ops
/-- All expressions of the list are well formed. -/
def WFs : List (E β) → Prop
  | [] => True
  | e :: es => WF e ∧ WFs es
end

mutual
/-- The expression contains no flattened operation. -/
def NoFlat : E β → Prop
  | .arg _ => True
  | .node (.bin _) ops => NoFlats ops
  | .node (.flat _ _) _ => False
/-- No expression of the list contains a flattened operation. -/
def NoFlats : List (E β) → Prop
  | [] => True
  | e :: es => NoFlat e ∧ NoFlats es
end

/-- A pair reduction is sound for `o`: the output it returns computes `f o` of the two operands. -/
def SoundRed [Inhabited V] (f : β → V → V → V) (env : Nat → V) (o : β)
    (red : E β → E β → Option (E β)) : Prop :=
  ∀ a b e, red a b = some e → eval f env e = f o (eval f env a) (eval f env b)

def Assoc (g : V → V → V) : Prop := ∀ a b c, g (g a b) c = g a (g b c)
def Comm (g : V → V → V) : Prop := ∀ a b, g a b = g b a

end Jlm.Rvsdg.Binary
