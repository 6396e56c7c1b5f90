import Verif.Bits.Props
import Mathlib.Logic.Function.Iterate
/-
Model of `jlm/llvm/opt/unroll.cpp` and `unroll.hpp` (loop unrolling of theta nodes).

Simplifications.  The theta is represented by what `LoopUnrollInfo::create` extracts from it (the
comparison, the operand orders, the match polarity, init/step/end) and by the function its body
computes on the remaining loop variables; the graph surgery (substitution maps, region copies) is
represented by the structured program (`Prog`) it leaves behind.  The static constants found by
`llvm::traceOutput` are assumed equal to the run-time values (C30 treats the tracing).  The
predicates of the emitted nodes are evaluated on machine words; the compile-time computations go
through the modelled `BitValueRepresentation` operations.
-/
namespace Jlm.Llvm.Unroll
open Jlm.Bits
open Jlm.Bits.BVR

/-- The ten `BitCompareOperation`s, `jlm/rvsdg/bitstring/comparison.hpp`. -/
inductive Cmp
  | eq | ne | sge | sgt | sle | slt | uge | ugt | ule | ult
  deriving DecidableEq, Repr

/-- Run-time result of a comparison node, `comparison.hpp` (`reduce_constants`; C02 shows that the
constant folder computes these). -/
def Cmp.holds {n : Nat} : Cmp → BitVec n → BitVec n → Bool
  | .eq, a, b => decide (a = b)
  | .ne, a, b => decide (a ≠ b)
  | .sge, a, b => decide (a.toInt ≥ b.toInt)
  | .sgt, a, b => decide (a.toInt > b.toInt)
  | .sle, a, b => decide (a.toInt ≤ b.toInt)
  | .slt, a, b => decide (a.toInt < b.toInt)
  | .uge, a, b => decide (a.toNat ≥ b.toNat)
  | .ugt, a, b => decide (a.toNat > b.toNat)
  | .ule, a, b => decide (a.toNat ≤ b.toNat)
  | .ult, a, b => decide (a.toNat < b.toNat)

/-- `is_eqcmp`, unroll.cpp:49-56. -/
def isEqCmp : Cmp → Bool
  | .uge => true
  | .sge => true
  | .ule => true
  | .sle => true
  | _ => false

/-- What `LoopUnrollInfo::create` (unroll.cpp:134-174) recognises about a theta:
`do { s := body(idv, s); idv := arm(idv, step) } while (match(cmp(idv, end)))`.
`idvFirst`: the induction variable is the first operand of the comparison (147-149);
`armIdvFirst`: it is the first operand of the addition or subtraction (159-166);
`cont`: the match node, from the comparison's result to "run another iteration" (139-141);
`known`: init, step and end trace to fully defined constants (unroll.hpp:105-109, 211-218). -/
structure Loop (n : Nat) (σ : Type) where
  cmp : Cmp
  idvFirst : Bool
  additive : Bool
  armIdvFirst : Bool
  cont : Bool → Bool
  known : Bool
  init : BitVec n
  step : BitVec n
  fin : BitVec n
  body : BitVec n → σ → σ

variable {n : Nat} {σ : Type}

/-- The structured programs the transformation works with: a copied region (`act`), data flow from
one node into the next (`seq`), a gamma with two alternatives (`ite`), a theta (`doWhile`). -/
inductive Prog (α : Type)
  | skip
  | act (f : α → α)
  | seq (p q : Prog α)
  | ite (c : α → Bool) (p q : Prog α)
  | doWhile (p : Prog α) (c : α → Bool)

/-- Execution of a structured program: `Exec p x y` if `p` started with the loop variables `x`
terminates with `y`.  A theta evaluates its body first and its predicate on the body's results
(`jlm/rvsdg/theta.hpp:24-110`). -/
inductive Exec {α : Type} : Prog α → α → α → Prop
  | skip (x : α) : Exec .skip x x
  | act (f : α → α) (x : α) : Exec (.act f) x (f x)
  | seq {p q : Prog α} {x y z : α} : Exec p x y → Exec q y z → Exec (.seq p q) x z
  | iteT {c : α → Bool} {p q : Prog α} {x y : α} : c x = true → Exec p x y → Exec (.ite c p q) x y
  | iteF {c : α → Bool} {p q : Prog α} {x y : α} : c x = false → Exec q x y → Exec (.ite c p q) x y
  | once {p : Prog α} {c : α → Bool} {x y : α} : Exec p x y → c y = false →
      Exec (.doWhile p c) x y
  | again {p : Prog α} {c : α → Bool} {x y z : α} : Exec p x y → c y = true →
      Exec (.doWhile p c) y z → Exec (.doWhile p c) x z

namespace Loop

/-- The arm node of the original body: `bitadd`/`bitsub` of the induction variable and the step in
the operand order of the source, unroll.cpp:153-166. -/
def arm (L : Loop n σ) (i : BitVec n) : BitVec n :=
  if L.additive then (if L.armIdvFirst then i + L.step else L.step + i)
  else (if L.armIdvFirst then i - L.step else L.step - i)

/-- One evaluation of the original body on (induction variable, other loop variables). -/
def next (L : Loop n σ) (x : BitVec n × σ) : BitVec n × σ := (L.arm x.1, L.body x.1 x.2)

/-- The original predicate with the end operand replaced by `e`. -/
def test (L : Loop n σ) (e : BitVec n) (x : BitVec n × σ) : Bool :=
  L.cont (if L.idvFirst then L.cmp.holds x.1 e else L.cmp.holds e x.1)

/-- The original theta. -/
def orig (L : Loop n σ) : Prog (BitVec n × σ) := .doWhile (.act L.next) (L.test L.fin)

/-- The step used for counting: negated for subtractive loops, unroll.cpp:118, 255. -/
def countStep (L : Loop n σ) : Option BVR :=
  if L.additive then some (Bits.repr L.step) else neg (Bits.repr L.step)

/-- The upper bound used for counting, unroll.cpp:119-122. -/
def countEnd (L : Loop n σ) : Option BVR :=
  let e := if L.additive then Bits.repr L.fin else Bits.repr L.init
  if isEqCmp L.cmp then (ofInt n 1).bind (add e) else some e

/-- `LoopUnrollInfo::niterations`, unroll.cpp:111-132.  Outer `none`: an exception leaves the
noexcept function.  `step_value() == 0` compares a pointer and never holds when `is_known()`. -/
def niterations (L : Loop n σ) : Option (Option BVR) :=
  if L.known = false then some none else do
    let step ← L.countStep
    let fin ← L.countEnd
    let range ← sub fin (if L.additive then Bits.repr L.init else Bits.repr L.fin)
    if isNegative range then some none else do
      let m ← umod range step
      let z ← eqInt m 0
      if z = false then some none else (udiv range step).map some

/-- `unroll_body`, unroll.cpp:178-194: `factor - 1` copies in the loop and one after it.  With
factor 0 the `size_t` bound `factor - 1` wraps and the compiler never finishes (`none`). -/
def copies (L : Loop n σ) : Nat → Option (Prog (BitVec n × σ))
  | 0 => none
  | 1 => some (.act L.next)
  | k + 2 => (copies L (k + 1)).map (Prog.seq (.act L.next))

/-- The end value of the unrolled theta when iterations remain, unroll.cpp:255-259. -/
def adjustedEnd (L : Loop n σ) (rem : BVR) : Option BVR := do
  let sv ← L.countStep
  let e ← mul rem sv
  if L.additive then sub (Bits.repr L.fin) e else add (Bits.repr L.fin) e

/-- `unroll_known_theta` with `unroll_theta` and `add_remainder`, unroll.cpp:217-334.  `none`: an
exception is thrown, or the compiler does not terminate. -/
def unrollKnown (L : Loop n σ) (N : BVR) (factor : Nat) : Option (Prog (BitVec n × σ)) := do
  let fb ← ofInt n factor
  let le ← ule N fb
  if le = .one then
    (toUint N).bind L.copies
  else do
    let rem ← umod N fb
    let z ← eqInt rem 0
    let o ← eqInt rem 1
    let b ← L.copies factor
    if z then
      some (.doWhile b (L.test L.fin))
    else do
      let ev ← L.adjustedEnd rem
      let loop := Prog.doWhile b (L.test (BitVec.ofNat n (val ev)))
      if o then some (.seq loop (.act L.next)) else some (.seq loop L.orig)

/-- A copy of the arm operation applied to (induction variable, amount),
unroll.cpp:347, 378. -/
def armOp (L : Loop n σ) (i d : BitVec n) : BitVec n := if L.additive then i + d else i - d

/-- The predicate nodes built by the unknown case: a copy of the comparison with the induction
variable always first ("FIXME: order of operands") and the match `{ { 1, 1 } }, 0`,
unroll.cpp:349-350, 380-382, 395-396. -/
def freshTest (L : Loop n σ) (i : BitVec n) : Bool := L.cmp.holds i L.fin

/-- `unroll_unknown_theta`, unroll.cpp:336-479. -/
def unrollUnknown (L : Loop n σ) (factor : Nat) : Option (Prog (BitVec n × σ)) := do
  let fb ← ofInt n factor
  let m := L.step * BitVec.ofNat n (val fb)
  let b ← L.copies factor
  some (.seq
    (.ite (fun _ => L.freshTest (L.armOp L.init m))
      (.doWhile b (fun x => L.freshTest (L.armOp x.1 m))) .skip)
    (.ite (fun x => L.freshTest x.1) L.orig .skip))

/-- `unroll(ThetaNode*, size_t)`, unroll.cpp:481-495, for a theta that `create` recognises. -/
def unroll (L : Loop n σ) (factor : Nat) : Option (Prog (BitVec n × σ)) :=
  if factor < 2 then some L.orig
  else do
    match ← L.niterations with
    | some N => L.unrollKnown N factor
    | none => L.unrollUnknown factor

end Loop
end Jlm.Llvm.Unroll
