/-
Model of jlm/rvsdg/bitstring/value-representation.{hpp,cpp}: `BitValueRepresentation`.

A representation is a list of four-valued bits, least significant bit first
(`std::vector<char> data_`, "[lsb ... msb]", value-representation.hpp:750-752).
A thrown exception (`util::Error`, `std::range_error`) is `none`.
Index loops over equally long vectors become structural recursions over the lists;
`size_t` counters are natural numbers (no vector here comes near 2^64 elements).
-/
namespace Jlm.Bits

/-- The four characters a bit may be: value-representation.hpp:21-28. -/
inductive Bit where
  | zero | one | D | X
deriving DecidableEq, Repr, Inhabited

/-- `data_`, lsb first. value-representation.hpp:750-752. -/
abbrev BVR := List Bit

namespace Bit

/-- The character of a bit, value-representation.hpp:21-28. -/
def toChar : Bit → Char
  | zero => '0'
  | one => '1'
  | D => 'D'
  | X => 'X'

/-- The validity test of the string constructor, value-representation.hpp:55 and 63. -/
def ofChar? (c : Char) : Option Bit :=
  if c = '0' then some zero
  else if c = '1' then some one
  else if c = 'X' then some X
  else if c = 'D' then some D
  else none

/-- value-representation.hpp:114-136 -/
def lor (a b : Bit) : Bit :=
  match a with
  | zero => b
  | one => one
  | X => if b = one then one else X
  | D => if b = one then one else if b = X then X else D

/-- value-representation.hpp:138-160 -/
def lxor (a b : Bit) : Bit :=
  match a with
  | zero => b
  | one => if b = one then zero else if b = zero then one else b
  | X => X
  | D => if b = X then X else a

/-- value-representation.hpp:162-166 -/
def lnot (a : Bit) : Bit := lxor one a

/-- value-representation.hpp:168-190 -/
def land (a b : Bit) : Bit :=
  match a with
  | zero => zero
  | one => b
  | X => if b = zero then zero else X
  | D => if b = zero then zero else if b = X then X else D

/-- value-representation.hpp:192-196 -/
def carry (a b c : Bit) : Bit := lor (lor (land a b) (land a c)) (land b c)

/-- value-representation.hpp:198-202 (`add(char, char, char)`) -/
def add (a b c : Bit) : Bit := lxor (lxor a b) c

end Bit

namespace BVR

/-- `nbits()`, value-representation.hpp:414-418 -/
def nbits (a : BVR) : Nat := a.length

/-! ### Constructors -/

/-- The loop of the integer constructor, value-representation.hpp:42-46.
`value & 1` is the lowest two's-complement bit, `value >> 1` the arithmetic shift. -/
def ofIntLoop : Nat → Int → BVR
  | 0, _ => []
  | n + 1, v => (if v % 2 = 1 then Bit.one else Bit.zero) :: ofIntLoop n (v >>> 1)

/-- `BitValueRepresentation(size_t nbits, int64_t value)`, value-representation.hpp:35-47.
The argument is an `int64_t`; callers of the model supply values in that range. -/
def ofInt (n : Nat) (v : Int) : Option BVR :=
  if n = 0 then none
  else if n < 64 ∧ v >>> n ≠ 0 ∧ v >>> n ≠ -1 then none
  else some (ofIntLoop n v)

/-- `BitValueRepresentation(const char *)`, value-representation.hpp:49-60.
The argument is the sequence of characters before the terminating NUL. -/
def ofString (s : List Char) : Option BVR :=
  if s.length = 0 then none else s.mapM Bit.ofChar?

/-- `BitValueRepresentation(char)`, value-representation.hpp:62-68 -/
def ofChar (c : Char) : Option BVR := (Bit.ofChar? c).map ([·])

/-- `repeat`, value-representation.hpp:79-83 (the string constructor rejects the empty string) -/
def rep (n : Nat) (b : Bit) : Option BVR := if n = 0 then none else some (List.replicate n b)

/-- `str()`, value-representation.hpp:420-424 -/
def str (a : BVR) : List Char := a.map Bit.toChar

/-- `create`, value-representation.hpp:95-111; the assertion on an empty vector is `none`. -/
def create : List BVR → Option BVR
  | [] => none
  | [a] => some a
  | as => some as.flatten

/-! ### Structure -/

/-- `sign()`, value-representation.hpp:335-339; reading an empty vector (never constructed by the
public constructors) is `none`. -/
def sign (a : BVR) : Option Bit := a.getLast?

/-- `is_defined()`, value-representation.hpp:341-351 -/
def isDefined (a : BVR) : Bool := a.all (fun b => b ≠ .X)

/-- `is_known()`, value-representation.hpp:353-363 -/
def isKnown (a : BVR) : Bool := a.all (fun b => ¬ (b = .X ∨ b = .D))

/-- `is_negative()`, value-representation.hpp:365-369 -/
def isNegative (a : BVR) : Bool := sign a == some .one

/-- `concat`, value-representation.hpp:371-377; `Append` (746-750) has the same effect in place. -/
def concat (a b : BVR) : BVR := a ++ b

/-- `slice`, value-representation.hpp:379-388 -/
def slice (a : BVR) (low high : Nat) : Option BVR :=
  if high ≤ low ∨ high > a.length then none
  else some ((a.drop low).take (high - low))

/-- `zext`, value-representation.hpp:390-397: appends `n` zero bits (`BitValueRepresentation(n, 0)`). -/
def zext (a : BVR) (n : Nat) : Option BVR :=
  if n = 0 then some a else (ofInt n 0).map (concat a)

/-- `sext`, value-representation.hpp:399-406 -/
def sext (a : BVR) (n : Nat) : Option BVR :=
  if n = 0 then some a else do
    let s ← sign a
    let r ← rep n s
    some (concat a r)

/-- `trunc`, value-representation.hpp:408-412 -/
def trunc (a : BVR) (n : Nat) : Option BVR := slice a 0 n

/-! ### Conversions, value-representation.cpp -/

/-- The loop of `to_uint`, value-representation.cpp:25-47. `result |= pos_value` with a fresh
power of two is addition; `pos_value` wraps to 0 only after the last iteration. -/
def toUintLoop : BVR → Nat → Nat → Option Nat
  | [], _, r => some r
  | .zero :: bs, p, r => toUintLoop bs (2 * p) r
  | .one :: bs, p, r => toUintLoop bs (2 * p) (r + p)
  | _ :: _, _, _ => none

/-- `to_uint`, value-representation.cpp:14-48 -/
def toUint (a : BVR) : Option Nat :=
  let limit := min a.length 64
  if (a.drop limit).any (· ≠ .zero) then none
  else toUintLoop (a.take limit) 1 0

/-- The loop of `to_int`, value-representation.cpp:62-84: 64 bits, those beyond `nbits()` being the
sign bit, or-ed into a 64-bit word. -/
def toIntLoop : List Bit → Nat → BitVec 64 → Option (BitVec 64)
  | [], _, r => some r
  | .zero :: bs, k, r => toIntLoop bs (k + 1) r
  | .one :: bs, k, r => toIntLoop bs (k + 1) (r ||| BitVec.twoPow 64 k)
  | _ :: _, _, _ => none

/-- `to_int`, value-representation.cpp:50-85 -/
def toInt (a : BVR) : Option Int := do
  let s ← sign a
  let limit := min a.length 63
  if (a.drop limit).any (· ≠ s) then none
  else
    let r ← toIntLoop ((List.range 64).map (fun n => a.getD n s)) 0 0
    some r.toInt

/-- `operator==(int64_t)`, value-representation.hpp:302-306; `none` if the constructor throws. -/
def eqInt (a : BVR) (v : Int) : Option Bool := (ofInt a.length v).map (fun r => decide (a = r))

/-! ### Comparisons -/

/-- loop body of `ult`, value-representation.hpp:441 -/
def ultLoop : Bit → BVR → BVR → Bit
  | v, a :: as, b :: bs =>
    ultLoop (.land (.lor (.lnot a) b) (.lor (.land (.lnot a) b) v)) as bs
  | v, _, _ => v

/-- `ult`, value-representation.hpp:432-444 -/
def ult (a b : BVR) : Option Bit :=
  if a.length ≠ b.length then none
  else match a, b with
    | a0 :: as, b0 :: bs => some (ultLoop (.land (.lnot a0) b0) as bs)
    | _, _ => none   -- data_[0] of an empty vector

/-- loop body of `ule`, value-representation.hpp:463-464 -/
def uleLoop : Bit → BVR → BVR → Bit
  | v, a :: as, b :: bs =>
    uleLoop (.land (.land (.lor (.lnot a) b) (.lor (.lnot a) v)) (.lor v b)) as bs
  | v, _, _ => v

/-- `ule`, value-representation.hpp:455-467 -/
def ule (a b : BVR) : Option Bit :=
  if a.length ≠ b.length then none else some (uleLoop .one a b)

/-- `t[t.nbits() - 1] = lnot(t.sign())`, value-representation.hpp:450-451, 473-474 -/
def flipSign (a : BVR) : Option BVR := do
  let s ← sign a
  some (a.set (a.length - 1) (.lnot s))

/-- `slt`, value-representation.hpp:446-453 -/
def slt (a b : BVR) : Option Bit := do
  let t1 ← flipSign a
  let t2 ← flipSign b
  ult t1 t2

/-- `sle`, value-representation.hpp:469-476 -/
def sle (a b : BVR) : Option Bit := do
  let t1 ← flipSign a
  let t2 ← flipSign b
  ule t1 t2

/-- loop of `ne`, value-representation.hpp:485-487 -/
def neLoop : Bit → BVR → BVR → Bit
  | v, a :: as, b :: bs => neLoop (.lor v (.lxor a b)) as bs
  | v, _, _ => v

/-- `ne`, value-representation.hpp:478-489 -/
def ne (a b : BVR) : Option Bit :=
  if a.length ≠ b.length then none else some (neLoop .zero a b)

/-- `eq`, value-representation.hpp:491-495 -/
def eq (a b : BVR) : Option Bit := (ne a b).map .lnot
/-- `sge`, value-representation.hpp:497-501 -/
def sge (a b : BVR) : Option Bit := (slt a b).map .lnot
/-- `uge`, value-representation.hpp:503-507 -/
def uge (a b : BVR) : Option Bit := (ult a b).map .lnot
/-- `sgt`, value-representation.hpp:509-513 -/
def sgt (a b : BVR) : Option Bit := (sle a b).map .lnot
/-- `ugt`, value-representation.hpp:515-519 -/
def ugt (a b : BVR) : Option Bit := (ule a b).map .lnot

/-! ### Arithmetic and logic -/

/-- loop of `add`, value-representation.hpp:528-534 -/
def addLoop : Bit → BVR → BVR → BVR
  | c, a :: as, b :: bs => .add a b c :: addLoop (.carry a b c) as bs
  | _, _, _ => []

/-- `add`, value-representation.hpp:521-537. `repeat(0, 'X')` throws for empty operands. -/
def add (a b : BVR) : Option BVR :=
  if a.length ≠ b.length then none
  else do
    let _ ← rep a.length .X
    some (addLoop .zero a b)

/-- common shape of `land`/`lor`/`lxor`, value-representation.hpp:539-579 -/
def bitwise (f : Bit → Bit → Bit) (a b : BVR) : Option BVR :=
  if a.length ≠ b.length then none
  else do
    let _ ← rep a.length .X
    some (List.zipWith f a b)

/-- `land`, value-representation.hpp:539-551 -/
def land (a b : BVR) : Option BVR := bitwise .land a b
/-- `lor`, value-representation.hpp:553-565 -/
def lor (a b : BVR) : Option BVR := bitwise .lor a b
/-- `lxor`, value-representation.hpp:567-579 -/
def lxor (a b : BVR) : Option BVR := bitwise .lxor a b
/-- `lnot`, value-representation.hpp:581-585 -/
def lnot (a : BVR) : Option BVR := do
  let ones ← rep a.length .one
  lxor a ones

/-- loop of `neg`, value-representation.hpp:592-597 -/
def negLoop : Bit → BVR → BVR
  | _, [] => []
  | c, a :: as =>
    let tmp := Bit.lxor a .one
    .add tmp .zero c :: negLoop (.carry tmp .zero c) as

/-- `neg`, value-representation.hpp:587-600 -/
def neg (a : BVR) : Option BVR := do
  let _ ← rep a.length .X
  some (negLoop .one a)

/-- `sub`, value-representation.hpp:602-606 -/
def sub (a b : BVR) : Option BVR := do
  let nb ← neg b
  add a nb

/-- `shr`, value-representation.hpp:608-616 -/
def shr (a : BVR) (shift : Nat) : Option BVR :=
  if shift ≥ a.length then rep a.length .zero
  else zext (a.drop shift) shift

/-- `ashr`, value-representation.hpp:618-626 -/
def ashr (a : BVR) (shift : Nat) : Option BVR :=
  if shift ≥ a.length then do
    let s ← sign a
    rep a.length s
  else sext (a.drop shift) shift

/-- `shl`, value-representation.hpp:628-638 -/
def shl (a : BVR) (shift : Nat) : Option BVR :=
  if shift = 0 then some a
  else if shift ≥ a.length then rep a.length .zero
  else do
    let z ← rep shift .zero
    let s ← slice a 0 (a.length - shift)
    some (concat z s)

/-- inner loop of the private `mul`, value-representation.hpp:244-251, on the part of `product`
starting at index `i`. The carry out of the last column is dropped, as in the code. -/
def mulRow (f : Bit) : Bit → BVR → BVR → BVR
  | c, g :: gs, p :: ps =>
    let s := Bit.land f g
    .add s p c :: mulRow f (.carry s p c) gs ps
  | _, _, ps => ps

/-- outer loop of the private `mul`, value-representation.hpp:242-252: row `i` leaves
`product[i]` untouched afterwards, the following rows work on the tail. -/
def mulLoop : BVR → BVR → BVR → BVR
  | [], _, prod => prod
  | f :: fs, g, prod =>
    match mulRow f .zero g prod with
    | [] => []
    | p :: ps => p :: mulLoop fs g ps

/-- `mul`, value-representation.hpp:704-714 -/
def mul (a b : BVR) : Option BVR :=
  if a.length ≠ b.length then none
  else do
    let product ← ofInt (2 * a.length) 0
    slice (mulLoop a b product) 0 a.length

/-- `umulh`, value-representation.hpp:716-728 -/
def umulh (a b : BVR) : Option BVR :=
  if a.length ≠ b.length then none
  else do
    let product ← ofInt (4 * a.length) 0
    let f1 ← zext a a.length
    let f2 ← zext b a.length
    slice (mulLoop f1 f2 product) a.length (2 * a.length)

/-- `smulh`, value-representation.hpp:730-742 -/
def smulh (a b : BVR) : Option BVR :=
  if a.length ≠ b.length then none
  else do
    let product ← ofInt (4 * a.length) 0
    let f1 ← sext a a.length
    let f2 ← sext b a.length
    slice (mulLoop f1 f2 product) a.length (2 * a.length)

/-- loop of the private `udiv`, value-representation.hpp:223-232. The dividend bits are consumed
from the most significant one; `quotient[nbits()-n-1]`, initially '0', is consed on. -/
def udivLoop (divisor : BVR) : List Bit → BVR → BVR → Option (BVR × BVR)
  | [], q, r => some (q, r)
  | d :: ds, q, r => do
    let r1 ← shl r 1
    let r2 := r1.set 0 d
    let ge ← uge r2 divisor
    if ge = .one then do
      let r3 ← sub r2 divisor
      udivLoop divisor ds (.one :: q) r3
    else udivLoop divisor ds (.zero :: q) r2

/-- private `udiv`, value-representation.hpp:204-233, with the zero-initialised quotient and
remainder of its callers. Note that a zero divisor is not rejected (FIXME at 217-219). -/
def udivrem (a divisor : BVR) : Option (BVR × BVR) := do
  let _quotient ← ofInt a.length 0
  let remainder ← ofInt a.length 0
  if divisor.length ≠ a.length then none
  else if divisor.length = 0 then none
  else udivLoop divisor a.reverse [] remainder

/-- `udiv`, value-representation.hpp:640-647 -/
def udiv (a b : BVR) : Option BVR := (udivrem a b).map (·.1)
/-- `umod`, value-representation.hpp:649-656 -/
def umod (a b : BVR) : Option BVR := (udivrem a b).map (·.2)

/-- common body of `sdiv` and `smod`, value-representation.hpp:658-702 -/
def sdivrem (a b : BVR) : Option (BVR × BVR) := do
  let dividend ← if isNegative a then neg a else some a
  let divisor ← if isNegative b then neg b else some b
  let (q, r) ← udivrem dividend divisor
  let r ← if isNegative a then neg r else some r
  let q ← if (isNegative a).xor (isNegative b) then neg q else some q
  some (q, r)

/-- `sdiv`, value-representation.hpp:658-679 -/
def sdiv (a b : BVR) : Option BVR := (sdivrem a b).map (·.1)
/-- `smod`, value-representation.hpp:681-702 -/
def smod (a b : BVR) : Option BVR := (sdivrem a b).map (·.2)

end BVR
end Jlm.Bits
