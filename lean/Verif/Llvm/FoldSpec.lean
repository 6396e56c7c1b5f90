import Verif.Llvm.FoldModel
import Verif.Bits.Spec
/-
What the LLVM Language Reference says about the integer instructions, on machine words. `none` is
poison or undefined behaviour. Nothing here mentions the folding.
-/
namespace Jlm.Llvm.Fold
open Jlm.Bits

/-- The value of `icmp` on two operands of `n` bits. -/
def icmp {n : Nat} (x y : BitVec n) : Cmp → Prop
  | .eq => x.toNat = y.toNat
  | .ne => x.toNat ≠ y.toNat
  | .sge => x.toInt ≥ y.toInt
  | .sgt => x.toInt > y.toInt
  | .sle => x.toInt ≤ y.toInt
  | .slt => x.toInt < y.toInt
  | .uge => x.toNat ≥ y.toNat
  | .ugt => x.toNat > y.toNat
  | .ule => x.toNat ≤ y.toNat
  | .ult => x.toNat < y.toNat

instance {n : Nat} (x y : BitVec n) (op : Cmp) : Decidable (icmp x y op) := by
  cases op <;> unfold icmp <;> infer_instance

/-- The value of the instruction on two operands of `n` bits:
* arithmetic is modulo 2^n (the flags nsw, nuw and exact are not represented in jlm);
* division truncates toward zero, the remainder has the sign of the dividend, and a zero divisor and
  the overflow of `INT_MIN / -1` are undefined;
* a shift by at least the number of bits is poison. -/
def llvm {n : Nat} (x y : BitVec n) : Arith → Option (BitVec n)
  | .add => some (BitVec.ofInt n (x.toInt + y.toInt))
  | .sub => some (BitVec.ofInt n (x.toInt - y.toInt))
  | .mul => some (BitVec.ofInt n (x.toInt * y.toInt))
  | .udiv => if y.toNat = 0 then none else some (BitVec.ofNat n (x.toNat / y.toNat))
  | .urem => if y.toNat = 0 then none else some (BitVec.ofNat n (x.toNat % y.toNat))
  | .sdiv =>
    if y.toInt = 0 ∨ (x.toInt = -2 ^ (n - 1) ∧ y.toInt = -1) then none
    else some (BitVec.ofInt n (x.toInt.tdiv y.toInt))
  | .srem =>
    if y.toInt = 0 ∨ (x.toInt = -2 ^ (n - 1) ∧ y.toInt = -1) then none
    else some (BitVec.ofInt n (x.toInt.tmod y.toInt))
  | .shl => if y.toNat < n then some (BitVec.ofNat n (x.toNat * 2 ^ y.toNat)) else none
  | .lshr => if y.toNat < n then some (BitVec.ofNat n (x.toNat / 2 ^ y.toNat)) else none
  | .ashr => if y.toNat < n then some (BitVec.ofInt n (x.toInt / 2 ^ y.toNat)) else none
  | .and => some (x &&& y)
  | .or => some (x ||| y)
  | .xor => some (x ^^^ y)

/-- The machine word that a representation, least significant bit first, writes down: none if
a bit is unknown or the number of bits is not `n`. -/
def word (n : Nat) (rep : BVR) : Option (BitVec n) :=
  let x := BitVec.ofNat n (rep.foldr (fun c v => 2 * v + if c = .one then 1 else 0) 0)
  if Bits.repr x = rep then some x else none

/-- The value of a tree of integer operations, given the values of the other outputs; poison and
undefined behaviour of an operand make the operation undefined. -/
def value (ρ : (n : Nat) → Nat → Option (BitVec n)) : {n : Nat} → IExpr n → Option (BitVec n)
  | _, .var n i => ρ n i
  | _, .const n rep => word n rep
  | _, .cmp op a b => (value ρ a).bind fun x => (value ρ b).bind fun y =>
    some (if icmp x y op then 1#1 else 0#1)
  | _, .arith op a b => (value ρ a).bind fun x => (value ρ b).bind fun y => llvm x y op
  | _, .sext d a => (value ρ a).map fun x => BitVec.ofInt d x.toInt
  | _, .zext d a => (value ρ a).map fun x => BitVec.ofNat d x.toNat
  | _, .trunc d a => (value ρ a).map fun x => BitVec.ofNat d x.toNat

/-- The trees the front end makes: every type has at least one bit, a constant is a written down
word, an extension is to more bits and a truncation to fewer. -/
def Typed : {n : Nat} → IExpr n → Prop
  | _, .var n _ => 0 < n
  | _, .const n rep => 0 < n ∧ ∃ x : BitVec n, rep = Bits.repr x
  | _, .cmp _ a b => Typed a ∧ Typed b
  | _, .arith _ a b => Typed a ∧ Typed b
  | _, @IExpr.sext s d a => s < d ∧ Typed a
  | _, @IExpr.zext s d a => s < d ∧ Typed a
  | _, @IExpr.trunc s d a => 0 < d ∧ d < s ∧ Typed a

/-- One reduction somewhere in a tree. -/
inductive Step : {n : Nat} → IExpr n → IExpr n → Prop
  | root {n : Nat} {e e' : IExpr n} : reduceRoot e = .becomes e' → Step e e'
  | cmpLeft {op : Cmp} {n : Nat} {a a' b : IExpr n} :
      Step a a' → Step (.cmp op a b) (.cmp op a' b)
  | cmpRight {op : Cmp} {n : Nat} {a b b' : IExpr n} :
      Step b b' → Step (.cmp op a b) (.cmp op a b')
  | left {op : Arith} {n : Nat} {a a' b : IExpr n} :
      Step a a' → Step (.arith op a b) (.arith op a' b)
  | right {op : Arith} {n : Nat} {a b b' : IExpr n} :
      Step b b' → Step (.arith op a b) (.arith op a b')
  | sext {s d : Nat} {a a' : IExpr s} : Step a a' → Step (.sext d a) (.sext d a')
  | zext {s d : Nat} {a a' : IExpr s} : Step a a' → Step (.zext d a) (.zext d a')
  | trunc {s d : Nat} {a a' : IExpr s} : Step a a' → Step (.trunc d a) (.trunc d a')

/-- Any number of reductions, in any order. -/
inductive Steps : {n : Nat} → IExpr n → IExpr n → Prop
  | refl {n : Nat} (e : IExpr n) : Steps e e
  | tail {n : Nat} {a b c : IExpr n} : Steps a b → Step b c → Steps a c

/-- A reduction at some place of the tree throws. -/
def Throws : {n : Nat} → IExpr n → Prop
  | _, .var _ _ => False
  | _, .const _ _ => False
  | _, .cmp op a b => Throws a ∨ Throws b ∨ reduceRoot (.cmp op a b) = .throws
  | _, .arith op a b => Throws a ∨ Throws b ∨ reduceRoot (.arith op a b) = .throws
  | _, .sext d a => Throws a ∨ reduceRoot (.sext d a) = .throws
  | _, .zext d a => Throws a ∨ reduceRoot (.zext d a) = .throws
  | _, .trunc d a => Throws a ∨ reduceRoot (.trunc d a) = .throws

/-- All leaves of the tree are constants. -/
def Closed : {n : Nat} → IExpr n → Prop
  | _, .var _ _ => False
  | _, .const _ _ => True
  | _, .cmp _ a b => Closed a ∧ Closed b
  | _, .arith _ a b => Closed a ∧ Closed b
  | _, .sext _ a => Closed a
  | _, .zext _ a => Closed a
  | _, .trunc _ a => Closed a

/-- The number of operations of a tree. -/
def size : {n : Nat} → IExpr n → Nat
  | _, .var _ _ => 0
  | _, .const _ _ => 0
  | _, .cmp _ a b => size a + size b + 1
  | _, .arith _ a b => size a + size b + 1
  | _, .sext _ a => size a + 1
  | _, .zext _ a => size a + 1
  | _, .trunc _ a => size a + 1

end Jlm.Llvm.Fold
