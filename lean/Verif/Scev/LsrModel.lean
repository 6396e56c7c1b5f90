import Verif.Scev.Model

/-!
# Model of loop strength reduction

`jlm/llvm/opt/LoopStrengthReduction.cpp`: values that are computed in a loop and grow by the same amount in every iteration become
loop variables of their own.

*Simplifications.*
* One loop that contains no other loop whose chain recurrences matter: `HoistChrec` (cpp:291-343) and the cases of `HoistSCEVExpresssion`
  for variables of other loops (cpp:372-387) are not modelled.
* All values have the same width: the sign extensions in cpp:442-453, 490-501 and 636-641 do nothing. A `getelementptr` is an addition
  (with byte offsets).
* The body is a set of expression trees: outputs with more than one user occur more than once, and outputs that compute the same
  expression share their new loop variable. The order in which the candidates are replaced has no influence then.
* What a node that is neither an addition, subtraction, multiplication, left shift nor extension contributes to
  `DependsOnInductionVariable` and `ContainsMul` is left out. The chain recurrence of everything that is computed from such a node is
  unknown, so it is no candidate anyway.
* `prune` (cpp:161) is not modelled: it has no influence on the values.
-/

namespace Jlm.Scev.Lsr

open Jlm.Scev

/-! ## The loop before -/

/-- A loop body: what the variables get for the next iteration, the operands of the nodes that the analysis does not look at (loads,
stores, comparisons, ...; `Expr.other` is the result of such a node), and the value that decides whether there is another iteration. -/
structure Body (V E : Type) where
  post : V → E
  args : Nat → List E
  pred : E

/-- What the transformation knows about the loop. -/
structure Ctx where
  /-- the fuel of the folding functions -/
  n : Nat
  /-- the theta node -/
  k : Lp
  lp : Loop
  args : Nat → List Expr
  pred : Expr
  /-- the order in which the variables have been analysed -/
  order : List Out
  /-- a name for outputs that are no loop variables -/
  out : Out
  /-- which of the additions are `getelementptr` operations -/
  gep : Expr → Bool

/-- The loop as it is. -/
def Ctx.body (c : Ctx) : Body Out Expr := ⟨c.lp.post, c.args, c.pred⟩

/-! ## Candidates -/

/-- `ChrecMap_.at(&output)` for a value that is computed in the body. -/
def Ctx.chrec (c : Ctx) (e : Expr) : List S := c.lp.chrecOfExpr c.n c.k c.order c.out e

/-- `DependsOnInductionVariable` (cpp:680-714). -/
def Ctx.dependsOnIV (c : Ctx) : Expr → Bool
  | .var o =>
    match c.lp.chrecs c.n c.k c.order o with
    | none => false
    | some ws => !isUnknowns ws
  | .add l r => c.dependsOnIV l || c.dependsOnIV r
  | .sub l r => c.dependsOnIV l || c.dependsOnIV r
  | .mul l r => c.dependsOnIV l || c.dependsOnIV r
  | .shl l _ => c.dependsOnIV l
  | .ext l => c.dependsOnIV l
  | .const _ => false
  | .other _ => false

/-- `ContainsMul` (cpp:716-744). -/
def containsMul : Expr → Bool
  | .mul _ _ => true
  | .shl _ _ => true
  | .add l r => containsMul l || containsMul r
  | .sub l r => containsMul l || containsMul r
  | .ext l => containsMul l
  | _ => false

/-- The operations that are looked at (cpp:239-242). -/
def isArith : Expr → Bool
  | .mul _ _ => true
  | .add _ _ => true
  | .sub _ _ => true
  | .shl _ _ => true
  | _ => false

/-- `IsValidCandidateOperation` (cpp:653-678) and cpp:239-242. -/
def Ctx.candidate (c : Ctx) (e : Expr) : Bool :=
  isArith e && c.dependsOnIV e && (c.gep e || containsMul e) &&
    decide ((c.chrec e).length ≤ 2) && !isUnknowns (c.chrec e)

/-! ## New loop variables -/

/-- What is computed in front of the loop. -/
inductive Hexp
  /-- a constant -/
  | const (c : Int)
  /-- the origin of the input of a loop variable -/
  | start (o : Out)
  | add (l r : Hexp)
  | mul (l r : Hexp)
  deriving Repr

mutual

/-- `HoistSCEVExpresssion` (cpp:345-518); `none` if it fails. An n-ary expression is built from left to right: the last operand is
split off, and the rest is an n-ary expression again unless it has one operand (cpp:391-416, 463-487). With fewer than two operands
`GetOperand` would fail. -/
def hoist : S → Option Hexp
  | .const c => some (.const c)
  | .init o => some (.start o)
  | .nadd xs =>
    match hoists xs with
    | some (h :: h' :: hs) => some ((h' :: hs).foldl .add h)
    | _ => none
  | .nmul xs =>
    match hoists xs with
    | some (h :: h' :: hs) => some ((h' :: hs).foldl .mul h)
    | _ => none
  | _ => none

/-- The operands. -/
def hoists : List S → Option (List Hexp)
  | [] => some []
  | x :: xs =>
    match hoist x, hoists xs with
    | some h, some hs => some (h :: hs)
    | _, _ => none

end

/-- What a new loop variable grows by. -/
inductive Step
  /-- nothing: the variable is not changed by the body -/
  | keep
  /-- a constant -/
  | const (c : Int)
  /-- the loop variable `o`, as it is in the iteration -/
  | cur (o : Out)
  /-- another new loop variable, with a start value and without changes -/
  | hoisted (h : Hexp)
  deriving Repr

/-- A new loop variable. -/
structure Plan where
  start : Hexp
  step : Step
  deriving Repr

/-- The step (cpp:549-575, 604-630). -/
def stepPlan : S → Option Step
  | .const c => some (.const c)
  | .init o => some (.cur o)
  | .nadd xs => (hoist (.nadd xs)).map .hoisted
  | .nmul xs => (hoist (.nmul xs)).map .hoisted
  | _ => none

/-- `CreateNewArithmeticInductionVariable` and `CreateNewGEPInductionVariable` (cpp:520-651). -/
def planOf : List S → Option Plan
  | [a] => (hoist a).map fun h => ⟨h, .keep⟩
  | [a, b] =>
    match stepPlan b, hoist a with
    | some s, some h => some ⟨h, s⟩
    | _, _ => none
  | _ => none

/-! ## The loop after -/

/-- The loop variables after the transformation. -/
inductive V
  /-- the variables from before -/
  | old (o : Out)
  /-- the new induction variable for `e` -/
  | iv (e : Expr)
  /-- the new loop variable that holds its step -/
  | step (e : Expr)

/-- What the new body computes. -/
inductive NE
  | var (v : V)
  | const (c : Int)
  | add (l r : NE)
  | sub (l r : NE)
  | mul (l r : NE)
  | shl (l : NE) (k : Nat)
  | ext (l : NE)
  | other (id : Nat)

/-- An expression that is left as it is. -/
def embed : Expr → NE
  | .var o => .var (.old o)
  | .const c => .const c
  | .add l r => .add (embed l) (embed r)
  | .sub l r => .sub (embed l) (embed r)
  | .mul l r => .mul (embed l) (embed r)
  | .shl l k => .shl (embed l) k
  | .ext l => .ext (embed l)
  | .other i => .other i

/-- `output.divert_users(newIV->pre)` (cpp:283) for a candidate; it stays as it is if there is no new variable (cpp:261-262, 272-273). -/
def Ctx.replaced (c : Ctx) (e : Expr) : NE :=
  match planOf (c.chrec e) with
  | some _ => .var (.iv e)
  | none => embed e

/-- `ProcessOutput` (cpp:222-257) and `ReplaceCandidateOperation` (cpp:259-289): the uppermost candidates are replaced. -/
def Ctx.rewrite (c : Ctx) : Expr → NE
  | .var o => .var (.old o)
  | .const k => .const k
  | .add l r => if c.candidate (.add l r) then c.replaced (.add l r) else .add (c.rewrite l) (c.rewrite r)
  | .sub l r => if c.candidate (.sub l r) then c.replaced (.sub l r) else .sub (c.rewrite l) (c.rewrite r)
  | .mul l r => if c.candidate (.mul l r) then c.replaced (.mul l r) else .mul (c.rewrite l) (c.rewrite r)
  | .shl l k => if c.candidate (.shl l k) then c.replaced (.shl l k) else .shl (c.rewrite l) k
  | .ext l => .ext (c.rewrite l)
  | .other i => .other i

/-- The post value of the new induction variable for `e` (cpp:541, 579-585, 617, 643-650). -/
def Ctx.ivPost (c : Ctx) (e : Expr) : NE :=
  match planOf (c.chrec e) with
  | some ⟨_, .keep⟩ => .var (.iv e)
  | some ⟨_, .const k⟩ => .add (.var (.iv e)) (.const k)
  | some ⟨_, .cur o⟩ => .add (.var (.iv e)) (.var (.old o))
  | some ⟨_, .hoisted _⟩ => .add (.var (.iv e)) (.var (.step e))
  | none => .var (.iv e)

/-- The new loop (`ReduceStrength`, cpp:166-220). -/
def Ctx.newBody (c : Ctx) : Body V NE where
  post
    | .old o => c.rewrite (c.lp.post o)
    | .iv e => c.ivPost e
    | .step e => .var (.step e)
  args i := (c.args i).map c.rewrite
  pred := c.rewrite c.pred

end Jlm.Scev.Lsr
