/-
Model of jlm/util/Math.hpp. The templates are instantiated with a C++ integer type; the usual
arithmetic conversions are modelled explicitly (types narrower than `int` are promoted to `int`).

* signed overflow, division by zero and a shift amount outside of the width are undefined
  behaviour: `Res.ub`;
* unsigned arithmetic and conversions wrap modulo 2^bits;
* a left shift of a signed value wraps (C++20, and what gcc and clang document for C++17, the
  language mode of the project, configure.sh:96); a right shift of a signed value is arithmetic.
-/
namespace Jlm.Util.Math

/-- A C++ integer type. -/
structure IntTy where
  signed : Bool
  bits : Nat
deriving DecidableEq, Repr

/-- Result of evaluating an expression: a value or undefined behaviour. -/
inductive Res (α : Type) where
  | val (a : α)
  | ub
deriving DecidableEq, Repr

instance : Monad Res where
  pure := Res.val
  bind x f := match x with
    | .val a => f a
    | .ub => .ub

namespace IntTy
/-- smallest value of the type -/
def min (t : IntTy) : Int := if t.signed then -2 ^ (t.bits - 1) else 0
/-- largest value of the type -/
def max (t : IntTy) : Int := if t.signed then 2 ^ (t.bits - 1) - 1 else 2 ^ t.bits - 1
/-- integer promotion: types narrower than `int` become `int` -/
def promote (t : IntTy) : IntTy := if t.bits < 32 then ⟨true, 32⟩ else t
/-- conversion of a mathematical value to the type -/
def conv (t : IntTy) (v : Int) : Int :=
  if t.signed then Int.bmod v (2 ^ t.bits) else v % 2 ^ t.bits
/-- the result of an arithmetic operation performed in type `t` -/
def arith (t : IntTy) (v : Int) : Res Int :=
  if t.signed then (if t.min ≤ v ∧ v ≤ t.max then .val v else .ub)
  else .val (v % 2 ^ t.bits)
/-- `1 << k` performed in type `t` -/
def shlOne (t : IntTy) (k : Int) : Res Int :=
  if k < 0 ∨ k ≥ t.bits then .ub else .val (t.conv (2 ^ k.toNat))
end IntTy

/-- `log2Floor`, Math.hpp:26-35. No operation of it can overflow: `value >> 1` of a positive
value. The type parameter has no influence. -/
def log2Floor (value : Int) : Int :=
  if value < 1 then -1 else 1 + log2Floor (value >>> 1)
termination_by value.toNat
decreasing_by
  rw [Int.shiftRight_eq_div_pow]
  omega

/-- `RoundUpToPowerOf2<T>`, Math.hpp:49-58: `value - 1` and `T(1) << k` happen in the promoted
type; the returned value is converted to `T`. -/
def roundUpToPowerOf2 (t : IntTy) (value : Int) : Res Int :=
  if value ≤ 1 then .val 1
  else do
    let m ← t.promote.arith (value - 1)
    let p ← t.promote.shlOne (log2Floor m + 1)
    pure (t.conv p)

/-- `RoundUpToMultipleOf<T>`, Math.hpp:73-83. `%` truncates; `value + multiple` is evaluated
before `- miss`. -/
def roundUpToMultipleOf (t : IntTy) (value multiple : Int) : Res Int :=
  if multiple = 0 then .ub
  else do
    let miss ← t.promote.arith (value.tmod multiple)
    if miss < 0 then do
      let r ← t.promote.arith (value - miss)
      pure (t.conv r)
    else if miss = 0 then pure value
    else do
      let s ← t.promote.arith (value + multiple)
      let r ← t.promote.arith (s - miss)
      pure (t.conv r)

/-- `BitsRequiredToRepresent<T>`, Math.hpp:95-101 -/
def bitsRequiredToRepresent (t : IntTy) (value : Int) : Int :=
  log2Floor (IntTy.conv ⟨false, t.bits⟩ value) + 1

/-- `BitWidthOfEnum`, Math.hpp:108-119, for an enum with underlying type `t` -/
def bitWidthOfEnum (t : IntTy) (endValue : Int) : Int := bitsRequiredToRepresent t endValue

/-- `truncateAndSignExtend`, Math.hpp:133-141. `none`: the assertion fails; a shift by 64
(`keepBits = 0`) is undefined. -/
def truncateAndSignExtend (value : BitVec 64) (keepBits : Nat) : Option (Res (BitVec 64)) :=
  if keepBits ≤ 64 then
    let extendBits := 64 - keepBits
    if extendBits ≥ 64 then some .ub
    else some (.val ((value <<< extendBits).sshiftRight extendBits))
  else none

/-- `truncateAndZeroExtend`, Math.hpp:155-163 -/
def truncateAndZeroExtend (value : BitVec 64) (keepBits : Nat) : Option (Res (BitVec 64)) :=
  if keepBits ≤ 64 then
    let extendBits := 64 - keepBits
    if extendBits ≥ 64 then some .ub
    else some (.val ((value <<< extendBits) >>> extendBits))
  else none

end Jlm.Util.Math
