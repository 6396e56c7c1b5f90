import Verif.Scev.TripModel
import Verif.Scev.Spec

/-!
# What a trip count is

The specification of the theorems on trip counts.
-/

namespace Jlm.Scev

/-- The comparisons of LLVM, on `w`-bit words. -/
def Cmp.holds {w : Nat} : Cmp → BitVec w → BitVec w → Bool
  | .slt, x, y => x.slt y
  | .sle, x, y => x.sle y
  | .ult, x, y => x.ult y
  | .ule, x, y => x.ule y
  | .sgt, x, y => y.slt x
  | .sge, x, y => y.sle x
  | .ugt, x, y => y.ult x
  | .uge, x, y => y.ule x
  | .ne, x, y => x != y
  | .eq, x, y => x == y

/-- The same comparison of mathematical integers. -/
def Cmp.int : Cmp → Int → Int → Bool
  | .slt, x, y => x < y
  | .sle, x, y => x ≤ y
  | .ult, x, y => x < y
  | .ule, x, y => x ≤ y
  | .sgt, x, y => y < x
  | .sge, x, y => y ≤ x
  | .ugt, x, y => y < x
  | .uge, x, y => y ≤ x
  | .ne, x, y => x != y
  | .eq, x, y => x == y

/-- A loop whose body is always executed once, and again as long as the condition at the end of the `i`-th execution (from 0) holds,
executes its body `n` times. -/
def TripCount (cont : Nat → Bool) (n : Nat) : Prop :=
  1 ≤ n ∧ (∀ i, i + 1 < n → cont i = true) ∧ cont (n - 1) = false

/-- The integer is one of the values of a `w`-bit word, as the comparison reads it. -/
def Cmp.fits (w : Nat) (v : Int) : Cmp → Prop
  | .ult | .ule | .ugt | .uge => 0 ≤ v ∧ v < 2 ^ w
  | _ => -2 ^ w ≤ 2 * v ∧ 2 * v < 2 ^ w

/-- IEEE 754 double arithmetic, where the results are exact: numerators below `2^53` and radicands below `2^52`. -/
structure Fp.Exact (fp : Fp) : Prop where
  /-- the quotient rounded up, for a positive divisor -/
  ceil_pos : ∀ x y : Int, -2 ^ 53 < x → x < 2 ^ 53 → 0 < y → (fp.ceilDiv x y - 1) * y < x ∧ x ≤ fp.ceilDiv x y * y
  /-- and for a negative one -/
  ceil_neg : ∀ x y : Int, -2 ^ 53 < x → x < 2 ^ 53 → y < 0 → x < (fp.ceilDiv x y - 1) * y ∧ fp.ceilDiv x y * y ≤ x
  /-- the root rounded down -/
  sqrt : ∀ d : Int, 0 ≤ d → d < 2 ^ 52 →
    0 ≤ fp.isqrt d ∧ fp.isqrt d * fp.isqrt d ≤ d ∧ d < (fp.isqrt d + 1) * (fp.isqrt d + 1)

/-- The numbers the prediction computes with are in the range where `double` is exact. -/
def Small (bound : Int) : List Int → Prop
  | [a, _] => -2 ^ 53 < bound - a ∧ bound - a < 2 ^ 53
  | [a, b, c] => (2 * b - c) * (2 * b - c) + 8 * c * (bound - a) < 2 ^ 52
  | _ => True

/-- A quadratic recurrence `{a,+,b,+,c}` with `c > 0`: the parabola through its values does not fall before iteration 0 (`c ≤ 2b`), or
at least does not meet the bound at an earlier integer; the mirror image for `c < 0`. -/
def Regular (bound : Int) : List Int → Prop
  | [a, b, c] =>
    (0 < c → c ≤ 2 * b ∨ ∀ z : Int, z ≤ 0 → c * (z * z) + (2 * b - c) * z + 2 * (a - bound) ≠ 0) ∧
    (c < 0 → 2 * b ≤ c ∨ ∀ z : Int, z ≤ 0 → c * (z * z) + (2 * b - c) * z + 2 * (a - bound) ≠ 0)
  | _ => True

/-- The recurrence is affine, or quadratic with increments that grow in one direction from the start. -/
def Simple : List Int → Prop
  | [_, _] => True
  | [_, b, c] => (0 < c ∧ c ≤ 2 * b) ∨ (c < 0 ∧ 2 * b ≤ c)
  | _ => False

end Jlm.Scev
