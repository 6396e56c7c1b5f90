import Verif.Scev.Model

/-!
# Model of the prediction of trip counts

`jlm/llvm/opt/ScalarEvolution.cpp`, lines 322-765: how often the body of a loop is executed, from the chain recurrences of the two
operands of the comparison that decides whether the loop is repeated.

*Simplifications.*
* `int64_t` is the integers: overflow, which is undefined in C++, does not happen here. The bounds in the theorems exclude it.
* `double` arithmetic is a parameter (`Fp`).
* What the conversion of a negative `double` to `size_t` and the division by zero do is `Res.undef`.
-/

namespace Jlm.Scev

/-- The comparisons cpp:419-430 accepts. -/
inductive Cmp
  | slt
  | sle
  | ult
  | ule
  | sgt
  | sge
  | ugt
  | uge
  | ne
  | eq
  deriving DecidableEq, Repr

/-- The two computations with `double`. -/
structure Fp where
  /-- `std::ceil(static_cast<double>(x) / y)` (cpp:638), as an integer -/
  ceilDiv : Int → Int → Int
  /-- `std::floor(std::sqrt(d))` (cpp:718), as an integer -/
  isqrt : Int → Int

/-- `std::optional<size_t>`, or undefined behaviour. -/
inductive Res
  /-- `std::nullopt` -/
  | none
  | val (n : Nat)
  /-- undefined behaviour -/
  | undef
  deriving DecidableEq, Repr

/-- `*r + 1`, and `std::nullopt` where the optional is empty. -/
def Res.succ : Res → Res
  | .val n => .val (n + 1)
  | r => r

/-- Conversion of a (whole) `double` to `size_t` (cpp:638). -/
def Res.ofDouble (q : Int) : Res := if q < 0 then .undef else .val q.toNat

/-- `SCEVChainRecurrence::GetStep` (hpp:409-428) of an affine and of a quadratic recurrence of constants. -/
inductive Step
  | lin (b : Int)
  | quad (b c : Int)
  deriving DecidableEq, Repr

/-- `IsStepNegative` (cpp:322-346). -/
def Step.negative : Step → Bool
  | .lin b => b < 0
  | .quad a b => a ≤ 0 && b ≤ 0 && !(a == 0 && b == 0)

/-- `IsStepPositive` (cpp:348-372). -/
def Step.positive : Step → Bool
  | .lin b => b > 0
  | .quad a b => a ≥ 0 && b ≥ 0 && !(a == 0 && b == 0)

/-- `IsStepZero` (cpp:374-398). -/
def Step.zero : Step → Bool
  | .lin b => b == 0
  | .quad a b => a == 0 && b == 0

/-- The part of `SolveQuadraticEquation` after the discriminant and its root are known (cpp:720-764), for `a > 0`. -/
def solveWith (a b c d sq0 : Int) : Res :=
  let inexact := sq0 * sq0 != d
  let sq := if sq0 * sq0 > d then sq0 - 1 else sq0
  let x := if b < 0 then Int.tdiv (-b - (sq + (if inexact then 1 else 0))) (2 * a) else Int.tdiv (-b + sq) (2 * a)
  let rem := if b < 0 then Int.tmod (-b - sq) (2 * a) else Int.tmod (-b + sq) (2 * a)
  let x := if x < 0 then 0 else x
  if !inexact && rem == 0 then .val x.toNat
  else
    let v0 := (a * x + b) * x + c
    let v1 := (a * (x + 1) + b) * (x + 1) + c
    if (decide (v0 < 0) != decide (v1 < 0)) || ((v0 == 0) != (v1 == 0)) then .val (x + 1).toNat else .none

/-- `SolveQuadraticEquation` (cpp:698-765). For `a = 0` the divisions in cpp:740-746 are undefined. -/
def solve (fp : Fp) (a b c : Int) : Res :=
  let a' := if a < 0 then -a else a
  let b' := if a < 0 then -b else b
  let c' := if a < 0 then -c else c
  let d := b' * b' - 4 * a' * c'
  if d < 0 then .none
  else if a' = 0 then .undef
  else solveWith a' b' c' d (fp.isqrt d)

/-- `isEqualsComparison` (cpp:622-625). -/
def Cmp.orEqual : Cmp → Bool
  | .sle => true
  | .ule => true
  | .sge => true
  | .uge => true
  | _ => false

/-- `ComputeBackedgeTakenCountForChrec` (cpp:608-696). It is not called with a step of 0. -/
def backedge (fp : Fp) (start bound : Int) (cmp : Cmp) : Step → Res
  | .lin step =>
    match Res.ofDouble (fp.ceilDiv (bound - start) step) with
    | .val n => .val (if cmp.orEqual && Int.tmod (bound - start) step == 0 then n + 1 else n)
    | r => r
  | .quad b c =>
    match solve fp c (2 * b - c) (2 * (start - bound)) with
    | .val n => .val (if cmp.orEqual && start + n * b + Int.tdiv (n * (n - 1)) 2 * c == bound then n + 1 else n)
    | r => r

/-- `GetPredictedTripCount` (cpp:400-606) from line 489 on: the recurrence has only constant operands. -/
def predictFor (fp : Fp) (cmp : Cmp) (start : Int) (step : Step) (bound : Int) : Res :=
  match cmp with
  -- cpp:489-505
  | .slt | .ult =>
    if start ≥ bound then .val 1 else if step.positive then (backedge fp start bound cmp step).succ else .none
  -- cpp:506-520
  | .sle | .ule =>
    if start > bound then .val 1 else if step.positive then (backedge fp start bound cmp step).succ else .none
  -- cpp:521-535
  | .sgt | .ugt =>
    if start ≤ bound then .val 1 else if step.negative then (backedge fp start bound cmp step).succ else .none
  -- cpp:536-550
  | .sge | .uge =>
    if start < bound then .val 1 else if step.negative then (backedge fp start bound cmp step).succ else .none
  -- cpp:552-578
  | .ne =>
    match step with
    | .lin b =>
      if b > 0 then
        match backedge fp start bound cmp step with
        | .undef => .undef
        | r => if start ≤ bound ∧ Int.tmod (bound - start) b = 0 then r.succ else if start = bound then .val 1 else .none
      else if b < 0 then
        match backedge fp start bound cmp step with
        | .undef => .undef
        | r => if start ≥ bound ∧ Int.tmod (bound - start) b = 0 then r.succ else if start = bound then .val 1 else .none
      else if start = bound then .val 1 else .none
    | .quad _ _ => if start = bound then .val 1 else .none
  -- cpp:580-589
  | .eq => if start = bound then (if step.zero then .none else .val 2) else .val 1

/-- cpp:468-487: only affine and quadratic recurrences whose operands are constants. -/
def predictOps (fp : Fp) (cmp : Cmp) (bound : Int) : List S → Res
  | [.const a, .const b] => predictFor fp cmp a (.lin b) bound
  | [.const a, .const b, .const c] => predictFor fp cmp a (.quad b c) bound
  | _ => .none

/-- `GetPredictedTripCount` (cpp:400-606), given the recurrences of the two operands of the comparison: if the left one has one
operand it is the bound (cpp:446-454), otherwise the right one must have one operand (cpp:455-463). -/
def predict (fp : Fp) (cmp : Cmp) (lhs rhs : List S) : Res :=
  match lhs with
  | [.const bound] => predictOps fp cmp bound rhs
  | [_] => .none
  | _ =>
    match rhs with
    | [.const bound] => predictOps fp cmp bound lhs
    | _ => .none

end Jlm.Scev
