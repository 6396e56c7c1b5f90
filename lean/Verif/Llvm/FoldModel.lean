import Verif.Bits.Model
/-
Model of the constant folding of LLVM integer operations:
jlm/llvm/ir/operators/IntegerOperations.cpp:11-106 (`foldBinaryOperation`,
`foldBinaryOperationConstants`), :229-245 (`IntegerSubOperation::normalizeAdditiveInverse`),
jlm/llvm/ir/operators/ConversionOperations.cpp:62-167 (`SExtOperation::foldConstant`,
`ZExtOperation::foldConstant`, `TruncOperation::foldConstant`) and of the way NodeReduction
(jlm/llvm/opt/NodeReduction.cpp:145-220) strings them together.
-/
namespace Jlm.Llvm.Fold
open Jlm.Bits

/-- The classes derived from `IntegerBinaryOperation` that are comparisons, with a result of one
bit: the second argument they pass to the constructor of `IntegerBinaryOperation`
(IntegerOperations.hpp) is 1. -/
inductive Cmp where
  | eq | ne | sge | sgt | sle | slt | uge | ugt | ule | ult
deriving DecidableEq, Repr

/-- The other classes derived from `IntegerBinaryOperation`, with a result of the width of the
operands (IntegerOperations.hpp). -/
inductive Arith where
  | add | sub | mul | sdiv | udiv | srem | urem
  | ashr | shl | lshr | or | and | xor
deriving DecidableEq, Repr

/-- `BitValueRepresentation(const char c)`: a representation of one bit,
value-representation.hpp:63-69. -/
def ofBit (c : Bit) : BVR := [c]

/-- `foldBinaryOperation` for the comparisons, IntegerOperations.cpp:17-36. `none` is an exception
of one of the operations of `BitValueRepresentation`. -/
def foldCmp (op : Cmp) (r1 r2 : BVR) : Option BVR :=
  match op with
  | .eq => (BVR.eq r1 r2).map ofBit
  | .ne => (BVR.ne r1 r2).map ofBit
  | .sge => (BVR.sge r1 r2).map ofBit
  | .sgt => (BVR.sgt r1 r2).map ofBit
  | .sle => (BVR.sle r1 r2).map ofBit
  | .slt => (BVR.slt r1 r2).map ofBit
  | .uge => (BVR.uge r1 r2).map ofBit
  | .ugt => (BVR.ugt r1 r2).map ofBit
  | .ule => (BVR.ule r1 r2).map ofBit
  | .ult => (BVR.ult r1 r2).map ofBit

/-- `foldBinaryOperation` for the other operations, IntegerOperations.cpp:37-62. `none` is an
exception of one of the operations of `BitValueRepresentation`. -/
def foldArith (op : Arith) (r1 r2 : BVR) : Option BVR :=
  match op with
  | .add => BVR.add r1 r2
  | .sub => BVR.sub r1 r2
  | .mul => BVR.mul r1 r2
  | .sdiv => BVR.sdiv r1 r2
  | .udiv => BVR.udiv r1 r2
  | .srem => BVR.smod r1 r2
  | .urem => BVR.umod r1 r2
  | .ashr => (BVR.toUint r2).bind (BVR.ashr r1)
  | .shl => (BVR.toUint r2).bind (BVR.shl r1)
  | .lshr => (BVR.toUint r2).bind (BVR.shr r1)
  | .or => BVR.lor r1 r2
  | .and => BVR.land r1 r2
  | .xor => BVR.lxor r1 r2

/-- The output a normalization looks at, after `llvm::traceOutput`: the tree of the integer
operations that compute it. `var` is the output of anything else, for example a function argument or
a load, identified by a number. The index is the number of bits of the output's type, so a tree is
well typed by construction, as the constructors of the nodes check. Simplification: `traceOutput` is
the identity of the trees, so that two traced outputs are the same output if and only if their trees
are equal (in /repo sharing of the nodes is the finer relation: fewer operands are identified). -/
inductive IExpr : Nat → Type where
  | var (n : Nat) (i : Nat) : IExpr n
  | const (n : Nat) (rep : BVR) : IExpr n
  | cmp (op : Cmp) {n : Nat} (a b : IExpr n) : IExpr 1
  | arith (op : Arith) {n : Nat} (a b : IExpr n) : IExpr n
  | sext {nsrcbits : Nat} (ndstbits : Nat) (a : IExpr nsrcbits) : IExpr ndstbits
  | zext {nsrcbits : Nat} (ndstbits : Nat) (a : IExpr nsrcbits) : IExpr ndstbits
  | trunc {nsrcbits : Nat} (ndstbits : Nat) (a : IExpr nsrcbits) : IExpr ndstbits
deriving DecidableEq

/-- What a normalization does: return `std::nullopt`, return the output that takes the place of the
node's, or not return. -/
inductive Res (n : Nat) where
  | nothing
  | becomes (e : IExpr n)
  | throws
deriving DecidableEq

/-- `IntegerConstantOperation::Create` with a computed representation, IntegerOperations.hpp:49-53:
the type of the constant is the width of the representation; diverting the users of an output to one
of another type throws. -/
def created (n : Nat) : Option BVR → Res n
  | some rep => if rep.length = n then .becomes (.const n rep) else .throws
  | none => .throws

/-- `foldBinaryOperationConstants` of a comparison, IntegerOperations.cpp:75-106 -/
def foldCmpConstants (op : Cmp) {n : Nat} : IExpr n → IExpr n → Res 1
  | .const _ r1, .const _ r2 => created _ (foldCmp op r1 r2)
  | _, _ => .nothing

/-- `foldBinaryOperationConstants` of another operation, IntegerOperations.cpp:75-106 -/
def foldArithConstants (op : Arith) {n : Nat} : IExpr n → IExpr n → Res n
  | .const _ r1, .const _ r2 => created _ (foldArith op r1 r2)
  | _, _ => .nothing

/-- `IntegerSubOperation::normalizeAdditiveInverse`, IntegerOperations.cpp:229-245 -/
def additiveInverse {n : Nat} (a b : IExpr n) : Res n :=
  if a = b then created _ (BVR.ofInt n 0) else .nothing

/-- `SExtOperation::foldConstant`, ConversionOperations.cpp:62-82 -/
def foldSExt {nsrcbits : Nat} (ndstbits : Nat) : IExpr nsrcbits → Res ndstbits
  | .const _ rep => created _ (BVR.sext rep (ndstbits - nsrcbits))
  | _ => .nothing

/-- `ZExtOperation::foldConstant`, ConversionOperations.cpp:105-125 -/
def foldZExt {nsrcbits : Nat} (ndstbits : Nat) : IExpr nsrcbits → Res ndstbits
  | .const _ rep => created _ (BVR.zext rep (ndstbits - nsrcbits))
  | _ => .nothing

/-- `TruncOperation::foldConstant`, ConversionOperations.cpp:147-167 -/
def foldTrunc {nsrcbits : Nat} (ndstbits : Nat) : IExpr nsrcbits → Res ndstbits
  | .const _ rep => created _ (BVR.trunc rep ndstbits)
  | _ => .nothing

/-- One round of the normalizations of a subtraction, NodeReduction.cpp:186-187: the additive
inverse comes first (`NormalizeSequence`, jlm/rvsdg/NodeNormalization.hpp). -/
def reduceSub {n : Nat} (a b : IExpr n) : Res n :=
  match additiveInverse a b with
  | .nothing => foldArithConstants .sub a b
  | r => r

/-- One round of the normalizations of a node, NodeReduction.cpp:145-220. -/
def reduceRoot : {n : Nat} → IExpr n → Res n
  | _, .var _ _ => .nothing
  | _, .const _ _ => .nothing
  | _, .cmp op a b => foldCmpConstants op a b
  | _, .arith op a b => if op = .sub then reduceSub a b else foldArithConstants op a b
  | _, .sext d a => foldSExt d a
  | _, .zext d a => foldZExt d a
  | _, .trunc d a => foldTrunc d a

end Jlm.Llvm.Fold
