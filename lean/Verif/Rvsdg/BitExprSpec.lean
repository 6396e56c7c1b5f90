import Verif.Rvsdg.BitExprModel
/-
What slice/concat expressions mean: a value is its list of bits, lsb first.
-/
namespace Jlm.Rvsdg.BitExpr
open Jlm.Rvsdg Jlm.Bits

mutual
/-- Value of an expression: the bits low..high-1 of the operand for a slice, the operands one after
the other for a concat. -/
def eval (env : Nat → BVR) : E → BVR
  | .arg i => env i
  | .node (.const v) _ => v
  | .node (.slice _ low high) ops => ((evalCat env ops).drop low).take (high - low)
  | .node (.concat _) ops => evalCat env ops
/-- The values of a list of expressions, one after the other. -/
def evalCat (env : Nat → BVR) : List E → BVR
  | [] => []
  | e :: es => eval env e ++ evalCat env es
end

mutual
/-- Well-typed expressions: slices take one operand of the declared width, are nonempty and in
bounds; concats have at least one operand and the operands have the declared widths; constants and
other outputs have at least one bit. -/
def WF (ws : Nat → Nat) : E → Prop
  | .arg i => 0 < ws i
  | .node (.const v) ops => 0 < v.length ∧ ops = []
  | .node (.slice w low high) ops => low < high ∧ high ≤ w ∧ ops.map (width ws) = [w] ∧ WFs ws ops
  | .node (.concat tys) ops => ops ≠ [] ∧ ops.map (width ws) = tys ∧ WFs ws ops
/-- All expressions of the list are well-typed. -/
def WFs (ws : Nat → Nat) : List E → Prop
  | [] => True
  | e :: es => WF ws e ∧ WFs ws es
end

/-- A valuation gives every free output a value of its width. -/
def Fits (ws : Nat → Nat) (env : Nat → BVR) : Prop := ∀ i, (env i).length = ws i

/-- `e'` may replace `e`: it is well-typed, has the same type, and the same value in every
valuation. -/
def Equiv (ws : Nat → Nat) (e e' : E) : Prop :=
  WF ws e' ∧ width ws e' = width ws e ∧ ∀ env, Fits ws env → eval env e' = eval env e

end Jlm.Rvsdg.BitExpr
