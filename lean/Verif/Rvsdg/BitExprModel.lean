import Verif.Rvsdg.ExprModel
import Verif.Bits.Model
/-
Slice and concat nodes: jlm/rvsdg/bitstring/slice.cpp, concat.cpp.
-/
namespace Jlm.Rvsdg.BitExpr
open Jlm.Rvsdg Jlm.Bits

/-- The operations of the model. `const v`: BitConstantOperation (constant.hpp:20-55);
`slice argw low high`: BitSliceOperation on an argument of `argw` bits, with result type
`high - low` bits and `high() = low + nbits(result)` (slice.hpp:22-53);
`concat tys`: BitConcatOperation with argument types of the given widths (concat.hpp:19-58). -/
inductive Op where
  | const (v : BVR)
  | slice (argw low high : Nat)
  | concat (tys : List Nat)
deriving DecidableEq

abbrev E := Expr Op

/-- `Output::Type()` as a number of bits: `ws i` for other outputs; constant.cpp:14-18 (type of a
constant), slice.hpp:26 and concat.cpp:25-35 (aggregate_arguments). Simplification: widths are
natural numbers, size_t does not wrap. -/
def width (ws : Nat → Nat) : E → Nat
  | .arg i => ws i
  | .node (.const v) _ => v.length
  | .node (.slice _ low high) _ => high - low
  | .node (.concat tys) _ => tys.sum

/-- BitConstantOperation::create, constant.hpp:43-47. -/
def mkConst (v : BVR) : Option E := if v.length = 0 then none else some (.node (.const v) [])

/-- bitslice, slice.cpp:129-138. `BitType::Create(high - low)` throws on zero bits (type.cpp:60-66);
for high < low the unsigned difference wraps to a width no value has; both are `none`. The upper
bound is not checked against the argument. -/
def bitslice (ws : Nat → Nat) (e : E) (low high : Nat) : Option E :=
  if high ≤ low then none else some (.node (.slice (width ws e) low high) [e])

/-- bitconcat, concat.cpp:15-23. `CreateOpNode` asserts that the operands are not empty
(simple-node.hpp:130). -/
def bitconcat (ws : Nat → Nat) (ops : List E) : Option E :=
  if ops = [] then none else some (.node (.concat (ops.map (width ws))) ops)

/-- Turns a possibly failing construction into the result of a normalisation. -/
def toRes : Option E → Res E
  | none => .abort
  | some e => .replaced e

/-- BitSliceOperation::normalizeIdempotent, slice.cpp:30-45. -/
def normalizeIdempotent (ws : Nat → Nat) (low high : Nat) (operand : E) : Res E :=
  if low = 0 ∧ high = width ws operand then .replaced operand else .unchanged

/-- BitSliceOperation::foldConstant, slice.cpp:47-64. -/
def foldConstant (low high : Nat) (operand : E) : Res E :=
  match operand with
  | .node (.const v) _ => toRes ((BVR.slice v low high).bind mkConst)
  | _ => .unchanged

/-- BitSliceOperation::narrowSlice, slice.cpp:66-84. -/
def narrowSlice (ws : Nat → Nat) (low high : Nat) (operand : E) : Res E :=
  match operand with
  | .node (.slice _ low' _) [origin] => toRes (bitslice ws origin (low + low') (high + low'))
  | _ => .unchanged

/-- The loop of distributeSlice, slice.cpp:98-115; `pos` is the bit position of the first remaining
concat operand. -/
def distributeLoop (ws : Nat → Nat) (low high : Nat) : Nat → List E → Option (List E)
  | _, [] => some []
  | base, a :: rest =>
    let pos := base + width ws a
    if base < high ∧ pos > low then
      let sliceLow := if low > base then low - base else 0
      let sliceHigh := if high < pos then high - base else pos - base
      (bitslice ws a sliceLow sliceHigh).bind fun s =>
        (distributeLoop ws low high pos rest).map (s :: ·)
    else distributeLoop ws low high pos rest

/-- BitSliceOperation::distributeSlice, slice.cpp:86-121. -/
def distributeSlice (ws : Nat → Nat) (low high : Nat) (operand : E) : Res E :=
  match operand with
  | .node (.concat _) ops => toRes ((distributeLoop ws low high 0 ops).bind (bitconcat ws))
  | _ => .unchanged

/-- BitConcatOperation::can_reduce_operand_pair (concat.cpp:55-91) followed by reduce_operand_pair
(93-122), as combined in binary.cpp:36-40. `same` is the pointer comparison of outputs. -/
def reducePair (ws : Nat → Nat) (same : E → E → Bool) : E → E → Option E
  | .node (.const v1) _, .node (.const v2) _ => mkConst (BVR.concat v1 v2)
  | .node (.slice _ low1 high1) [o1], .node (.slice _ low2 high2) [o2] =>
    if same o1 o2 = true ∧ high1 = low2 then bitslice ws o1 low1 high2 else none
  | _, _ => none

/-- NormalizeBinaryOperation (binary.cpp:111-135) on a BitConcatOperation: the operation is only
associative (concat.cpp:124-128), so adjacent pairs are reduced; the new node, if any, gets a copy
of the old operation, whose number of arguments and argument types must fit the new operands
(simple-node.cpp:25-37, node.cpp Input::Input). -/
def normalizeConcat (ws : Nat → Nat) (same : E → E → Bool) (tys : List Nat) (ops : List E) : Res E :=
  if ops = [] then .abort
  else
    match pairwiseReduce (reducePair ws same) ops with
    | [e] => .replaced e
    | newOps =>
      if newOps = ops then .unchanged
      else if newOps.length = 2 then
        if newOps.map (width ws) = tys then .replaced (.node (.concat tys) newOps) else .abort
      else .abort

/-- The tester of FlattenBitConcatOperation, concat.cpp:160-167. -/
def isConcat : E → Bool
  | .node (.concat _) _ => true
  | _ => false

/-- FlattenBitConcatOperation, concat.cpp:153-176. -/
def flattenConcat (ws : Nat → Nat) (ops : List E) : Res E :=
  if ops = [] then .abort
  else
    match Expr.associativeFlatten isConcat ops with
    | none => .abort
    | some newOps =>
      if ops = newOps then (if newOps.length = 2 then .unchanged else .abort)
      else if newOps.length > 2 then toRes (bitconcat ws newOps)
      else .abort

end Jlm.Rvsdg.BitExpr
