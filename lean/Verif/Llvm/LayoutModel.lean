/-
Model of the type layout functions of jlm/llvm/ir/types.cpp and of the constant
GetElementPtr functions of jlm/llvm/ir/operators/GetElementPtr.cpp.

Simplifications:
* sizes are natural numbers: the model has no wrap-around of `size_t` in the *layout* functions
  (a type of 2^64 bytes or more cannot be laid out). The *offset* computation of a
  GetElementPtr is modelled with 64-bit wrap-around arithmetic, as in the code.
* FixedVectorType and ScalableVectorType are one constructor: the code only looks at the common
  base class VectorType.
* types that have no layout (IOStateType, MemoryStateType, ...) end in JLM_UNREACHABLE and are
  not in `Ty`.
-/
namespace Jlm.Llvm.Layout

/-- `fpsize`, types.hpp -/
inductive FpSize where
  | half | flt | dbl | fp128 | x86fp80
deriving DecidableEq, Repr

/-- The types with a layout: BitType, PointerType, ArrayType, FloatingPointType, StructType,
VectorType, FunctionType (types.hpp). -/
inductive Ty where
  | bits (n : Nat)
  | ptr
  | arr (n : Nat) (elem : Ty)
  | fp (size : FpSize)
  | struct (packed : Bool) (fields : List Ty)
  | vec (n : Nat) (elem : Ty)
  | fn
deriving Repr

/-- `log2Floor`, Math.hpp:26-35, on natural numbers -/
def log2Floor1 (v : Nat) : Nat := if v = 0 then 0 else 1 + log2Floor1 (v / 2)

/-- `RoundUpToPowerOf2`, Math.hpp:49-58 (`log2Floor1 v` is `log2Floor v + 1`). The wrap-around
of this function is the subject of C16. -/
def roundUpToPowerOf2 (v : Nat) : Nat := if v ≤ 1 then 1 else 2 ^ log2Floor1 (v - 1)

/-- `RoundUpToMultipleOf`, Math.hpp:73-83, for an unsigned type -/
def roundUpToMultipleOf (v m : Nat) : Nat :=
  let miss := v % m
  if miss = 0 then v else v + m - miss

/-- the switch on `fpsize` in `GetTypeStoreSize`, types.cpp:403-420 -/
def fpStoreSize : FpSize → Nat
  | .half => 2
  | .flt => 4
  | .dbl => 8
  | .fp128 => 16
  | .x86fp80 => 10

/-- `GetTypeAllocSize`, types.cpp:472-482, given the store size and the alignment of the type -/
def allocOf (t : Ty) (storeAlign : Nat × Nat) : Nat :=
  match t with
  | .struct _ _ => storeAlign.1
  | .arr _ _ => storeAlign.1
  | _ => roundUpToMultipleOf storeAlign.1 storeAlign.2

mutual
/-- `GetTypeStoreSize` (types.cpp:385-470) and `GetTypeAlignment` (types.cpp:484-524), computed
together: in the code they call each other on the *same* type, which is not a structural
recursion. `storeSize_eq`, `alignment_eq` and `allocSize_eq` (LayoutProps) are the equations of
the three C++ functions. -/
def layout : Ty → Nat × Nat
  | .bits n =>
    let s := (n + 7) / 8
    (s, roundUpToPowerOf2 s)
  | .ptr => (8, roundUpToPowerOf2 8)
  | .arr n e =>
    let l := layout e
    (n * allocOf e l, l.2)
  | .fp k =>
    let s := fpStoreSize k
    (s, roundUpToPowerOf2 s)
  | .struct packed fs =>
    let r := structLoop packed fs 0 1
    (roundUpToMultipleOf r.1 r.2, r.2)
  | .vec n e =>
    let s := n * allocOf e (layout e)
    (s, roundUpToPowerOf2 s)
  | .fn => (0, 1)
/-- the loop over the fields in `GetTypeStoreSize`, types.cpp:429-446; the alignment it
accumulates is the value `GetTypeAlignment` accumulates in types.cpp:503-512 -/
def structLoop (packed : Bool) : List Ty → Nat → Nat → Nat × Nat
  | [], totalSize, alignment => (totalSize, alignment)
  | field :: rest, totalSize, alignment =>
    let l := layout field
    let fieldSize := allocOf field l
    let fieldAlignment := if packed then 1 else l.2
    structLoop packed rest (roundUpToMultipleOf totalSize fieldAlignment + fieldSize)
      (Nat.lcm alignment fieldAlignment)
end

/-- `GetTypeStoreSize`, types.cpp:385-470 -/
def storeSize (t : Ty) : Nat := (layout t).1
/-- `GetTypeAlignment`, types.cpp:484-524 -/
def alignment (t : Ty) : Nat := (layout t).2
/-- `GetTypeAllocSize`, types.cpp:472-482 -/
def allocSize (t : Ty) : Nat := allocOf t (layout t)

/-- the loop of `StructType::GetFieldOffset`, types.cpp:235-257, from field `i` on. `none`:
JLM_UNREACHABLE. -/
def fieldOffsetLoop (packed : Bool) (fieldIndex : Nat) : List Ty → Nat → Nat → Option Nat
  | [], _, _ => none
  | field :: rest, i, offset =>
    let fieldAlignment := if packed then 1 else alignment field
    let offset := roundUpToMultipleOf offset fieldAlignment
    if i = fieldIndex then some offset
    else fieldOffsetLoop packed fieldIndex rest (i + 1) (offset + allocSize field)

/-- `StructType::GetFieldOffset`, types.cpp:235-257 -/
def getFieldOffset (packed : Bool) (fields : List Ty) (fieldIndex : Nat) : Option Nat :=
  fieldOffsetLoop packed fieldIndex fields 0 0

/-- Outcome of `getOffsetInBytes`. -/
inductive Out (α : Type) where
  | val (a : α)
  /-- JLM_ASSERT or JLM_UNREACHABLE -/
  | assertion
  /-- an exception leaves a `noexcept` function: std::terminate -/
  | terminate
deriving DecidableEq, Repr

/-- the lambda `computeIntraTypeOffset` in `Constant::getOffsetInBytes`,
GetElementPtr.cpp:77-101: 64-bit wrap-around arithmetic, the indices are the remaining ones -/
def intraTypeOffset : List (BitVec 64) → Ty → Out (BitVec 64)
  | [], _ => .val 0
  | index :: rest, .arr _ elem =>
    match intraTypeOffset rest elem with
    | .val o => .val (index * BitVec.ofNat 64 (allocSize elem) + o)
    | e => e
  | index :: rest, .struct packed fields =>
    -- StructType::getElementType asserts the index, types.hpp:236-238
    match fields[index.toNat]?, getFieldOffset packed fields index.toNat with
    | some field, some offset =>
      match intraTypeOffset rest field with
      | .val o => .val (BitVec.ofNat 64 offset + o)
      | e => e
    | _, _ => .assertion
  | _ :: _, _ => .terminate

/-- `GetElementPtrOperation::Constant::getOffsetInBytes`, GetElementPtr.cpp:72-107 -/
def getOffsetInBytes (pointee : Ty) (indices : List (BitVec 64)) : Out (BitVec 64) :=
  match indices with
  | [] => .assertion
  | whole :: rest =>
    match intraTypeOffset rest pointee with
    | .val o => .val (whole * BitVec.ofNat 64 (allocSize pointee) + o)
    | e => e

/-- An index operand of a GetElementPtr, as seen by `getIndexedType`: the bit width and, if the
traced origin is an IntegerConstantOperation, the unsigned value of the constant. -/
structure Index where
  nbits : Nat
  const : Option Nat
deriving DecidableEq, Repr

/-- the loop of `GetElementPtrOperation::getIndexedType`, GetElementPtr.cpp:120-155.
`.val none` is a null pointer. Note `idx > numElements` (GetElementPtr.cpp:137). -/
def indexedTypeLoop : List Index → Ty → Out (Option Ty)
  | [], t => .val (some t)
  | index :: rest, .struct _ fields =>
    match index.const with
    | none => .val none
    | some idx =>
      if index.nbits ≠ 32 then .val none
      else if idx > fields.length then .val none
      else match fields[idx]? with
        | none => .assertion
        | some field => indexedTypeLoop rest field
  | _ :: rest, .arr _ elem => indexedTypeLoop rest elem
  | _ :: rest, .vec _ elem => indexedTypeLoop rest elem
  | _ :: _, _ => .val none

/-- `GetElementPtrOperation::getIndexedType`, GetElementPtr.cpp:109-157 -/
def getIndexedType (gepType : Ty) (indices : List Index) : Out (Option Ty) :=
  match indices with
  | [] => .val (some gepType)
  | _ :: rest => indexedTypeLoop rest gepType

/-- `GetElementPtrOperation::normalizeIdempotent`, GetElementPtr.cpp:159-178: `true` iff the
node is replaced by its base address. The argument is the result of
`tryGetConstantSignedInteger` for each of the index operands. -/
def normalizeIdempotent (indices : List (Option (BitVec 64))) : Bool :=
  indices.all fun i => i == some 0

end Jlm.Llvm.Layout
