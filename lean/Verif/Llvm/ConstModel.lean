import Verif.Bits.Model
import Verif.Util.MathModel
/-
Model of `tryGetConstantSignedInteger`, jlm/llvm/ir/Trace.cpp:69-137.
-/
namespace Jlm.Llvm.Const
open Jlm.Bits Jlm.Util.Math

/-- The operations the function looks at. An output is represented by the tree of operations
that compute it, *after* `traceOutput` has been applied to it; `other` is the output of any other
operation. Widths are those of the operation's operand and result types. -/
inductive CExpr where
  /-- IntegerConstantOperation or BitConstantOperation -/
  | const (rep : BVR)
  | sext (nsrcbits ndstbits : Nat) (operand : CExpr)
  | zext (nsrcbits ndstbits : Nat) (operand : CExpr)
  | trunc (nsrcbits ndstbits : Nat) (operand : CExpr)
  | other (nbits : Nat)
deriving Repr

/-- Outcome: a returned optional, or a failed assertion, an exception or undefined behaviour. -/
inductive Out where
  | ret (v : Option (BitVec 64))
  | fail
deriving DecidableEq, Repr

/-- a returned `int64_t` of one of the helpers of Math.hpp -/
def ofMath : Option (Res (BitVec 64)) → Out
  | some (.val v) => .ret (some v)
  | some .ub => .fail
  | none => .fail

/-- `tryGetConstantSignedInteger`, Trace.cpp:69-137 -/
def tryGetConstantSignedInteger : CExpr → Out
  | .const rep =>
    if BVR.isKnown rep && decide (BVR.nbits rep ≤ 64) then
      match BVR.toInt rep with
      | some v => .ret (some (BitVec.ofInt 64 v))
      | none => .fail
    else .ret none
  | .sext nsrcbits _ operand =>
    match tryGetConstantSignedInteger operand with
    | .ret (some v) => ofMath (truncateAndSignExtend v nsrcbits)
    | r => r
  | .zext nsrcbits _ operand =>
    match tryGetConstantSignedInteger operand with
    | .ret (some v) => ofMath (truncateAndZeroExtend v nsrcbits)
    | r => r
  | .trunc _ ndstbits operand =>
    match tryGetConstantSignedInteger operand with
    | .ret (some v) => ofMath (truncateAndSignExtend v ndstbits)
    | r => r
  | .other _ => .ret none

end Jlm.Llvm.Const
