/-!
# Model of scalar evolution

`jlm/llvm/opt/ScalarEvolution.cpp`: for every value that is computed in a loop, a chain of recurrences
`{a,+,b,+,c,...}` that predicts it in every iteration.

*Simplifications.*
* The field `Output_` of chain recurrences is left out (it has no influence on folding), and so is `Clone()`.
* The recursion of the folding functions is bounded by a fuel argument; where it is exhausted the result is
  `unknown`. The theorems hold for every fuel.
* Constants are mathematical integers; the C++ code computes with `int64_t`, whose overflow is undefined.
* `unordered_map` iteration orders are arguments, so the theorems hold for every order.
* One loop is analysed at a time: the loop variables of other loops are `Expr.other`, and
  `CombineChrecsAcrossLoops` (cpp:768-864) is not modelled.
-/

namespace Jlm.Scev

/-- The name of an output. -/
abbrev Out := Nat
/-- The name of a theta node. -/
abbrev Lp := Nat

/-- `class SCEV` and its subclasses (hpp:14-573). -/
inductive S
  /-- `SCEVUnknown` -/
  | unknown
  /-- `SCEVInit`: the value of a loop variable before the first iteration -/
  | init (o : Out)
  /-- `SCEVPlaceholder`: the value of a loop variable at the beginning of an iteration -/
  | ph (o : Out)
  /-- `SCEVConstant` -/
  | const (c : Int)
  /-- `SCEVAddExpr` -/
  | add (l r : S)
  /-- `SCEVMulExpr` -/
  | mul (l r : S)
  /-- `SCEVChainRecurrence` -/
  | chrec (l : Lp) (ops : List S)
  /-- `SCEVNAryAddExpr` -/
  | nadd (ops : List S)
  /-- `SCEVNAryMulExpr` -/
  | nmul (ops : List S)
  deriving Repr

/-! ## Folding -/

/-- The loop in cpp:1387-1397: operands of two chain recurrences, missing operands are null pointers. -/
def padZip (f : Option S → Option S → S) : List S → List S → List S
  | [], ys => ys.map fun y => f none (some y)
  | x :: xs, [] => f (some x) none :: padZip f xs []
  | x :: xs, y :: ys => f (some x) (some y) :: padZip f xs ys

/-- cpp:1537-1556: the first constant operand of an n-ary addition is increased by `c`; `c` is appended if there is none. -/
def addConst (c : Int) : List S → List S
  | [] => [.const c]
  | .const d :: xs => .const (d + c) :: xs
  | x :: xs => x :: addConst c xs

/-- cpp:1838-1855: the same for n-ary multiplications. -/
def mulConst (c : Int) : List S → List S
  | [] => [.const c]
  | .const d :: xs => .const (d * c) :: xs
  | x :: xs => x :: mulConst c xs

/-- cpp:1403-1434: a chain recurrence plus anything else (possibly a null pointer). -/
def addToStart (f : Option S → Option S → S) (l : Lp) (ops : List S) (o : Option S) : S :=
  match o with
  | some (.const 0) => .chrec l ops
  | _ =>
    match ops with
    | [] => .chrec l []
    | x :: xs => .chrec l (f (some x) o :: xs)

/-- `ApplyAddFolding` (cpp:1341-1582); `none` is a null pointer. -/
def addFold : Nat → Option S → Option S → S
  | 0, _, _ => .unknown
  | n + 1, l, r =>
    match l, r with
    -- cpp:1364-1370
    | some .unknown, _ => .unknown
    | _, some .unknown => .unknown
    -- cpp:1374-1434
    | some (.chrec k xs), some (.chrec m ys) =>
        if k = m then .chrec k (padZip (addFold n) xs ys) else .chrec k [.nadd [.chrec k xs, .chrec m ys]]
    | some (.chrec k xs), o => addToStart (addFold n) k xs o
    | o, some (.chrec k xs) => addToStart (addFold n) k xs o
    -- cpp:1436-1484
    | some (.nmul xs), some (.nmul ys) => .nadd [.nmul xs, .nmul ys]
    | some (.nmul xs), some (.nadd ys) => .nadd (ys ++ [.nmul xs])
    | some (.nadd ys), some (.nmul xs) => .nadd (ys ++ [.nmul xs])
    | some (.nmul xs), some (.init o) => .nadd [.nmul xs, .init o]
    | some (.init o), some (.nmul xs) => .nadd [.nmul xs, .init o]
    | some (.nmul xs), some (.const c) => if c ≠ 0 then .nadd [.nmul xs, .const c] else .nmul xs
    | some (.const c), some (.nmul xs) => if c ≠ 0 then .nadd [.nmul xs, .const c] else .nmul xs
    | some (.nmul xs), _ => .nmul xs
    | _, some (.nmul xs) => .nmul xs
    -- cpp:1486-1516
    | some (.init o), some (.init p) => .nadd [.init o, .init p]
    | some (.init o), some (.nadd ys) => .nadd (ys ++ [.init o])
    | some (.nadd ys), some (.init o) => .nadd (ys ++ [.init o])
    | some (.init o), some (.const c) => if c ≠ 0 then .nadd [.init o, .const c] else .init o
    | some (.const c), some (.init o) => if c ≠ 0 then .nadd [.init o, .const c] else .init o
    | some (.init o), _ => .init o
    | _, some (.init o) => .init o
    -- cpp:1518-1565
    | some (.nadd xs), some (.nadd ys) => .nadd (xs ++ ys)
    | some (.nadd xs), some (.const c) => if c ≠ 0 then .nadd (addConst c xs) else .nadd xs
    | some (.const c), some (.nadd xs) => if c ≠ 0 then .nadd (addConst c xs) else .nadd xs
    | some (.nadd xs), _ => .nadd xs
    | _, some (.nadd xs) => .nadd xs
    -- cpp:1566-1581
    | some (.const a), some (.const b) => .const (a + b)
    | some (.const a), _ => .const a
    | _, some (.const b) => .const b
    | _, _ => .unknown

/-- `SCEV::CloneAs<SCEVChainRecurrence>` (hpp:27-35) of a value that is known to be a chain recurrence. -/
def asChrec (k : Lp) : S → Lp × List S
  | .chrec m xs => (m, xs)
  | x => (k, [x])

/-- `GetStep` (hpp:409-428), wrapped in a recurrence if it is not one (cpp:1673-1681). If the chain has two operands and the
second one is a chain recurrence (of another loop), it is taken as it is. -/
def stepRec (k : Lp) : List S → Lp × List S
  | [_, .chrec m ys] => (m, ys)
  | xs => (k, xs.tail)

mutual

/-- `ApplyMulFolding` (cpp:1698-1881). -/
def mulFold : Nat → S → S → S
  | 0, _, _ => .unknown
  | n + 1, l, r =>
    match l, r with
    -- cpp:1708-1713
    | .unknown, _ => .unknown
    | _, .unknown => .unknown
    -- cpp:1717-1728
    | .chrec k xs, .chrec m ys =>
        if k = m then
          let p := prodFold n (k, xs) (m, ys)
          .chrec p.1 p.2
        else .chrec k [.nmul [.chrec k xs, .chrec m ys]]
    -- cpp:1732-1760
    | .chrec k xs, o => mulChrec n k xs o
    | o, .chrec k xs => mulChrec n k xs o
    -- cpp:1762-1778
    | .nadd xs, o => .nadd (mulList n xs o)
    | o, .nadd xs => .nadd (mulList n xs o)
    -- cpp:1780-1816
    | .init o, .init p => .nmul [.init o, .init p]
    | .init o, .nmul ys => .nmul (ys ++ [.init o])
    | .nmul ys, .init o => .nmul (ys ++ [.init o])
    | .init o, .const c => if c ≠ 1 then .nmul [.init o, .const c] else .init o
    | .const c, .init o => if c ≠ 1 then .nmul [.init o, .const c] else .init o
    | .init o, _ => .init o
    | _, .init o => .init o
    -- cpp:1818-1864
    | .nmul xs, .nmul ys => .nmul (xs ++ ys)
    | .nmul xs, .const c => if c ≠ 1 then .nmul (mulConst c xs) else .nmul xs
    | .const c, .nmul xs => if c ≠ 1 then .nmul (mulConst c xs) else .nmul xs
    | .nmul xs, _ => .nmul xs
    | _, .nmul xs => .nmul xs
    -- cpp:1866-1880
    | .const a, .const b => .const (a * b)
    | .const a, _ => .const a
    | _, .const b => .const b
    | _, _ => .unknown
termination_by structural n => n

/-- cpp:1732-1760: a chain recurrence times anything else. -/
def mulChrec : Nat → Lp → List S → S → S
  | 0, _, _, _ => .unknown
  | n + 1, k, xs, o =>
    match o with
    | .const c => if c = 1 then .chrec k xs else if c = 0 then .const 0 else .chrec k (mulList n xs o)
    | _ => .chrec k (mulList n xs o)
termination_by structural n => n

/-- The loops in cpp:1754-1758 and cpp:1772-1776. -/
def mulList : Nat → List S → S → List S
  | 0, _, _ => [.unknown]
  | _ + 1, [], _ => []
  | n + 1, x :: xs, o => mulFold n x o :: mulList n xs o
termination_by structural n => n

/-- The loop in cpp:1605-1608. -/
def mulListL : Nat → S → List S → List S
  | 0, _, _ => [.unknown]
  | _ + 1, _, [] => []
  | n + 1, o, x :: xs => mulFold n o x :: mulListL n o xs
termination_by structural n => n

/-- `ComputeProductOfChrecs` (cpp:1584-1696): loop and operands of the product. -/
def prodFold : Nat → Lp × List S → Lp × List S → Lp × List S
  | 0, l, _ => (l.1, [.unknown])
  | n + 1, l, r =>
    match l.2, r.2 with
    | _, [] => l
    | [], _ => r
    | [x], ys => (l.1, mulListL n x ys)
    | xs, [y] => (l.1, mulList n xs y)
    | xs, ys =>
      -- cpp:1655-1656
      let p := if xs.length < ys.length then (r, l) else (l, r)
      let f := stepRec p.1.1 p.1.2
      let g := stepRec p.2.1 p.2.2
      let g' := asChrec l.1 (addFold n (some (.chrec p.2.1 p.2.2)) (some (.chrec g.1 g.2)))
      let res1 := prodFold n p.1 g
      let res2 := prodFold n g' f
      let res := asChrec l.1 (addFold n (some (.chrec res1.1 res1.2)) (some (.chrec res2.1 res2.2)))
      (res.1, mulFold n (p.1.2.headD .unknown) (p.2.2.headD .unknown) :: res.2)
termination_by structural n => n

end

/-! ## From expressions to trees -/

/-- What the body of a loop computes. -/
inductive Expr
  /-- a loop variable at the beginning of the iteration (an argument of the region) -/
  | var (o : Out)
  /-- `IntegerConstantOperation` -/
  | const (c : Int)
  /-- `IntegerAddOperation` -/
  | add (l r : Expr)
  /-- `IntegerSubOperation` -/
  | sub (l r : Expr)
  /-- `IntegerMulOperation` -/
  | mul (l r : Expr)
  /-- `IntegerShlOperation` by a constant -/
  | shl (l : Expr) (k : Nat)
  /-- `SExtOperation`, `ZExtOperation`, `IOBarrierOperation` -/
  | ext (l : Expr)
  /-- anything else -/
  | other (id : Nat)
  deriving Repr

/-- `GetNegativeSCEV` (cpp:1883-1914). -/
def neg : S → S
  | .const c => .const (-c)
  | .mul l r =>
    match l, r with
    | .const (-1), r => r
    | l, .const (-1) => l
    | l, r => .mul (.const (-1)) (.mul l r)
  | .add l r => .add (neg l) (neg r)
  | x => .mul (.const (-1)) x

/-- `GetOrCreateSCEVForOutput` (cpp:943-1048). A `getelementptr` is an addition of products here (cpp:971-990), and
`1 << k` is the integer `2^k`. -/
def scevOf : Expr → S
  | .var o => .ph o
  | .const c => .const c
  | .add l r => .add (scevOf l) (scevOf r)
  | .sub l r => .add (scevOf l) (neg (scevOf r))
  | .mul l r => .mul (scevOf l) (scevOf r)
  | .shl l k => .mul (scevOf l) (.const (2 ^ k))
  | .ext l => scevOf l
  | .other _ => .unknown

/-! ## Which variables get a chain recurrence -/

/-- `DependencyOp` (hpp:581-586). -/
inductive DepOp
  | add
  | mul
  | none
  deriving DecidableEq, Repr

/-- `FindDependenciesForSCEV` (cpp:1099-1126): the occurrences of loop variables, in order, each with the innermost operation
around it. -/
def deps : DepOp → S → List (Out × DepOp)
  | op, .ph o => [(o, op)]
  | _, .add l r => deps .add l ++ deps .add r
  | _, .mul l r => deps .mul l ++ deps .mul r
  | _, _ => []

/-- The number of occurrences of `o` (`DependencyInfo::count`). -/
def depCount (ds : List (Out × DepOp)) (o : Out) : Nat := (ds.filter (·.1 == o)).length

/-- `DependencyInfo::operation`: the operation of the last occurrence. -/
def depOp (ds : List (Out × DepOp)) (o : Out) : Option DepOp := ((ds.filter (·.1 == o)).map (·.2)).getLast?

/-- `HasCycleThroughOthers` (cpp:1941-1974), on the dependency lists `g` of the variables; returns the visited outputs and whether
the original output has been found. -/
def hasCycle (g : Out → List Out) (orig : Out) : Nat → Out → List Out → List Out × Bool
  | 0, _, visited => (visited, false)
  | n + 1, cur, visited =>
    (g cur).foldl
      (fun st d =>
        if st.2 then st
        else if d = cur then st
        else if d = orig then (st.1, true)
        else if d ∈ st.1 then st
        else hasCycle g orig n d st.1)
      (cur :: visited, false)

/-! ## Chain recurrences -/

/-- One loop: its variables with the constants they start with (`tryGetConstantSignedInteger`, cpp:1226), and what the body
computes for the next iteration. -/
structure Loop where
  vars : List Out
  start : Out → Option Int
  post : Out → Expr

/-- The dependencies of a variable (cpp:1129-1153). -/
def Loop.deps (lp : Loop) (o : Out) : List (Out × DepOp) := Scev.deps .none (scevOf (lp.post o))

/-- `CanCreateChainRecurrence` (cpp:1916-1938). -/
def Loop.canCreate (lp : Loop) (o : Out) : Bool :=
  (depCount (lp.deps o) o == 0 || (depCount (lp.deps o) o == 1 && depOp (lp.deps o) o != some .mul)) &&
    !(hasCycle (fun v => (lp.deps v).map (·.1)) o (lp.vars.length + 1) o []).2

/-- The chain recurrences that are known so far (`ChrecMap_`). -/
abbrev Chrecs := Out → Option (List S)

/-- `GetOrCreateStepForSCEV` (cpp:1242-1286) for the output `v` (of the loop `k`): the operands. -/
def stepOf (n : Nat) (k : Lp) (m : Chrecs) (v : Out) : S → List S
  | .const c => [.const c]
  | .ph o => if o = v then [] else (m o).getD [.unknown]
  | .add l r => (asChrec k (addFold n (some (.chrec k (stepOf n k m v l))) (some (.chrec k (stepOf n k m v r))))).2
  | .mul l r => (asChrec k (mulFold n (.chrec k (stepOf n k m v l)) (.chrec k (stepOf n k m v r)))).2
  | _ => [.unknown]

/-- `GetOrCreateChainRecurrence` (cpp:1209-1239) for a loop variable. -/
def Loop.chrecOf (n : Nat) (k : Lp) (lp : Loop) (m : Chrecs) (v : Out) : List S :=
  (match lp.start v with | some c => S.const c | none => S.init v) :: stepOf n k m v (scevOf (lp.post v))

/-- The loop in cpp:913-932. -/
def Loop.analyze (n : Nat) (k : Lp) (lp : Loop) : List Out → Chrecs → Chrecs
  | [], m => m
  | v :: vs, m => lp.analyze n k vs fun o => if o = v then some (lp.chrecOf n k m v) else m o

/-- `PerformSCEVAnalysis` (cpp:866-942) with the variables in the order `order`; variables that are not in `order` are unknown
(cpp:934-941). -/
def Loop.chrecs (n : Nat) (k : Lp) (lp : Loop) (order : List Out) : Chrecs := fun o =>
  if o ∈ order then lp.analyze n k order (fun _ => none) o else if o ∈ lp.vars then some [.unknown] else none

/-- The chain recurrence of a value that is computed in the body (cpp:928, 1217). -/
def Loop.chrecOfExpr (n : Nat) (k : Lp) (lp : Loop) (order : List Out) (out : Out) (e : Expr) : List S :=
  stepOf n k (lp.chrecs n k order) out (scevOf e)

mutual

/-- `IsUnknown` (cpp:1976-2003), for trees without binary expressions. (For binary expressions the code looks at the left operand
twice, cpp:1990.) -/
def S.isUnknown : S → Bool
  | .unknown => true
  | .init _ => false
  | .const _ => false
  | .ph _ => false
  | .add l _ => l.isUnknown || l.isUnknown
  | .mul l _ => l.isUnknown || l.isUnknown
  | .chrec _ xs => isUnknowns xs
  | .nadd xs => isUnknowns xs
  | .nmul xs => isUnknowns xs

def isUnknowns : List S → Bool
  | [] => false
  | x :: xs => x.isUnknown || isUnknowns xs

end

end Jlm.Scev
