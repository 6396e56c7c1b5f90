import Verif.Rvsdg.ExprModel
/-
Binary and flattened binary operations: jlm/rvsdg/binary.cpp.
-/
namespace Jlm.Rvsdg.Binary
open Jlm.Rvsdg

/-- The operations of the model: a `BinaryOperation` `o` (two arguments, binary.hpp:36-40) or a
`FlattenedBinaryOperation` over `o` with `n` arguments (binary.hpp:111-123). `β` stands for the
concrete binary operations, compared with operator==. -/
inductive Op (β : Type) where
  | bin (o : β)
  | flat (o : β) (n : Nat)
deriving DecidableEq

variable {β : Type} [DecidableEq β]

abbrev E (β : Type) := Expr (Op β)

/-- `narguments()` of an operation: binary.hpp:36-40, 111-123. -/
def narguments : Op β → Nat
  | .bin _ => 2
  | .flat _ n => n

/-- `SimpleNode::Create`, jlm/rvsdg/simple-node.cpp:20-40: throws if the number of operands differs
from the number of arguments of the operation. -/
def createNode (op : Op β) (operands : List (E β)) : Res (E β) :=
  if operands.length = narguments op then .replaced (.node op operands) else .abort

/-- jlm/rvsdg/binary.cpp:76-93: the tester of FlattenAssociativeBinaryOperation. -/
def flattenTester (o : β) : E β → Bool
  | .arg _ => false
  | .node (.bin o') _ => decide (o' = o)
  | .node (.flat o' _) _ => decide (o' = o)

/-- jlm/rvsdg/binary.cpp:63-109 FlattenAssociativeBinaryOperation. -/
def flattenAssociative (assoc : β → Bool) (o : β) (operands : List (E β)) : Res (E β) :=
  if operands = [] then .abort
  else if assoc o = false then .unchanged
  else
    match Expr.associativeFlatten (flattenTester o) operands with
    | none => .abort
    | some newOperands =>
      if operands = newOperands then
        if newOperands.length = 2 then .unchanged else .abort
      else if newOperands.length > 2 then createNode (.flat o newOperands.length) newOperands
      else .abort

/-- jlm/rvsdg/binary.cpp:24-51 reduce_operands; `red o a b` is
`can_reduce_operand_pair(a,b) != none ? reduce_operand_pair(path,a,b) : nullptr`. -/
def reduceOperands (comm : β → Bool) (red : β → E β → E β → Option (E β)) (o : β)
    (args : List (E β)) : List (E β) :=
  if comm o then commPairwiseReduce (red o) args else pairwiseReduce (red o) args

/-- jlm/rvsdg/binary.cpp:111-135 NormalizeBinaryOperation. -/
def normalizeBinary (comm : β → Bool) (red : β → E β → E β → Option (E β)) (o : β)
    (operands : List (E β)) : Res (E β) :=
  if operands = [] then .abort
  else
    match reduceOperands comm red o operands with
    | [e] => .replaced e
    | newOperands =>
      if newOperands = operands then .unchanged
      else if newOperands.length = 2 then createNode (.bin o) newOperands
      else .abort

/-- jlm/rvsdg/binary.cpp:252-258 NormalizeFlattenedBinaryOperation. -/
def normalizeFlattened (comm : β → Bool) (red : β → E β → E β → Option (E β)) (o : β) (_n : Nat)
    (operands : List (E β)) : Res (E β) :=
  normalizeBinary comm red o operands

/-- jlm/rvsdg/binary.cpp:186-206 reduce_linear: take the two front elements, push the new output to
the front. Simplification: node creation cannot fail (two operands). -/
def reduceLinear (o : β) : List (E β) → Option (E β)
  | [] => none
  | [e] => some e
  | op1 :: op2 :: rest => reduceLinear o (.node (.bin o) [op1, op2] :: rest)
termination_by l => l.length

/-- jlm/rvsdg/binary.cpp:164-184 reduce_parallel: take the two front elements, push the new output to
the back. -/
def reduceParallel (o : β) : List (E β) → Option (E β)
  | [] => none
  | [e] => some e
  | op1 :: op2 :: rest => reduceParallel o (rest ++ [.node (.bin o) [op1, op2]])
termination_by l => l.length

/-- jlm/rvsdg/binary.hpp:101-105. -/
inductive Reduction where
  | linear
  | parallel
deriving DecidableEq

/-- jlm/rvsdg/binary.cpp:208-223 FlattenedBinaryOperation::reduce (one node); `none`: the assertion
`operands.size() > 1` fails. -/
def reduceFlattened (k : Reduction) (o : β) (operands : List (E β)) : Option (E β) :=
  if operands.length > 1 then
    match k with
    | .linear => reduceLinear o operands
    | .parallel => reduceParallel o operands
  else none

mutual
/-- jlm/rvsdg/binary.cpp:225-250 FlattenedBinaryOperation::reduce over a region, on the network of
one output: nodes are visited top-down, so the operands of a node have been rewritten when it is
visited. Simplification: nodes in subregions of structural nodes are not represented. -/
def reduceRegion (k : Reduction) : E β → Option (E β)
  | .arg i => some (.arg i)
  | .node (.bin o) ops => (reduceRegionList k ops).map (.node (.bin o))
  | .node (.flat o _) ops => (reduceRegionList k ops).bind (reduceFlattened k o)
/-- The operands of a node, in order (same code as above). -/
def reduceRegionList (k : Reduction) : List (E β) → Option (List (E β))
  | [] => some []
  | e :: es => (reduceRegion k e).bind fun e' => (reduceRegionList k es).map (e' :: ·)
end

end Jlm.Rvsdg.Binary
