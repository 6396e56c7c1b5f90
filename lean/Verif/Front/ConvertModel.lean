import Verif.Opt.DneExamples

/-!
# From aggregation trees to RVSDG: model of annotation and conversion

`jlm/llvm/ir/Annotation.cpp` (AN below) finds the variables that branches and loops need, and
`jlm/llvm/frontend/InterProceduralGraphConversion.cpp` (CV below) turns the tree of a function into a
lambda node. The RVSDG that is produced is that of `Opt/Tree.lean`.

Simplifications:

* The type of a variable is left out; there is one `UndefValueOperation`.
* Sets of variables are lists without order; `VariableMap` is a function.
* The annotation of a node is stored in the node, not in a map from nodes to annotations.
* Entry and exit node are the first and last child of the root (as they are after
  `AggregationNode::normalize`, jlm/llvm/ir/aggregation.cpp:19-55), here the fields of `Fn`.
* New outputs get the next free number.
* `none` stands for a failed assertion, here mostly `VariableMap::lookup` of a variable that is not in
  the map (CV:39-44; `std::unordered_map::at` throws in release builds).
-/

namespace Jlm.Front

open Jlm.Opt

abbrev Var := Nat

/-- `ThreeAddressCode`, by what the conversion distinguishes (CV:535-566). -/
inductive Tac
  | op (o : Op) (ins outs : List Var)
  /-- `AssignmentOperation`: operand 0 gets the value of operand 1 -/
  | assign (lhs rhs : Var)
  /-- `SelectOperation`: condition, value if true, value if false -/
  | select (c a b res : Var)
  /-- `BranchOperation`: selects the successor of the block -/
  | branch (v : Var)
  deriving DecidableEq

mutual

/-- `AggregationNode` and its subclasses. -/
inductive Agg
  | block (tacs : List Tac)
  | linear (children : Aggs)
  | branch (cases : Aggs)
  | loop (body : Agg)

inductive Aggs
  | nil
  | cons (a : Agg) (as : Aggs)

end

/-- A function: `EntryAggregationNode`, the other children of the root, `ExitAggregationNode`. -/
structure Fn where
  args : List Var
  body : Aggs
  results : List Var

/-! ### Sets of variables -/

/-- `VariableSet::Insert` (Annotation.hpp:131-141). -/
def union (s t : List Var) : List Var := s ++ t.filter fun v => v ∉ s

/-- `VariableSet::Remove` (Annotation.hpp:143-154). -/
def diff (s t : List Var) : List Var := s.filter fun v => v ∉ t

/-- `VariableSet::Intersect` (Annotation.hpp:156-166). -/
def inter (s t : List Var) : List Var := s.filter fun v => v ∈ t

/-- `AnnotationSet`: ReadSet, AllWriteSet, FullWriteSet. -/
structure RW where
  read : List Var
  all : List Var
  full : List Var

def Tac.reads : Tac → List Var
  | .op _ ins _ => ins
  | .assign _ rhs => [rhs]
  | .select c a b _ => [c, a, b]
  | .branch v => [v]

def Tac.writes : Tac → List Var
  | .op _ _ outs => outs
  | .assign lhs _ => [lhs]
  | .select _ _ _ res => [res]
  | .branch _ => []

/-- `AnnotateReadWrite` of a basic block (AN:226-269), from the last to the first three address code. -/
def rwBlock : List Tac → RW
  | [] => ⟨[], [], []⟩
  | t :: ts =>
      let r := rwBlock ts
      ⟨union (diff r.read t.writes) t.reads, union r.all t.writes, union r.full t.writes⟩

mutual

/-- `AnnotateReadWrite` (AN:334-368). -/
def rw : Agg → RW
  | .block ts => rwBlock ts
  | .linear cs => rwLinear cs
  | .branch cs => rwBranch cs
  /- AN:321-332 -/
  | .loop b => rw b

/-- Linear nodes (AN:271-292), from the last to the first child. -/
def rwLinear : Aggs → RW
  | .nil => ⟨[], [], []⟩
  | .cons c cs =>
      let r := rwLinear cs
      let x := rw c
      ⟨union (diff r.read x.full) x.read, union r.all x.all, union r.full x.full⟩

/-- Branch nodes (AN:294-319): the order of the children does not matter. -/
def rwBranch : Aggs → RW
  | .nil => ⟨[], [], []⟩
  | .cons c .nil => rw c
  | .cons c (.cons c' cs) =>
      let r := rwBranch (.cons c' cs)
      let x := rw c
      ⟨union x.read r.read, union x.all r.all, inter x.full r.full⟩

end

mutual

/-- A tree with its annotations: the input and output variables of branches, the loop variables. -/
inductive Ann
  | block (tacs : List Tac)
  | linear (children : Anns)
  | branch (ins outs : List Var) (cases : Anns)
  | loop (vars : List Var) (body : Ann)

inductive Anns
  | nil
  | cons (a : Ann) (as : Anns)

end

mutual

/-- `AnnotateDemandSet` (AN:370-489): the second component is the working set at the end.
`strict = false` is /repo; the repaired program also removes the variables that all cases of a branch
write from the working set (at AN:444). -/
def annotate (strict : Bool) : Agg → List Var → Ann × List Var
  /- AN:396-405 -/
  | .block ts, w => (.block ts, union (diff w (rwBlock ts).full) (rwBlock ts).read)
  /- AN:407-420 -/
  | .linear cs, w =>
      let r := annotateList strict cs w
      (.linear r.1, union (diff r.2 (rwLinear cs).full) (rwLinear cs).read)
  /- AN:422-445 -/
  | .branch cs, w =>
      let x := rwBranch cs
      let outs := inter w x.all
      let ins := union (diff outs x.full) x.read
      (.branch ins outs (annotateCases strict cs outs), union (if strict then diff w x.full else w) ins)
  /- AN:447-458 -/
  | .loop b, w =>
      let vars := union w (rw b).read
      let r := annotate strict b vars
      (.loop vars r.1, r.2)

/-- The children of a linear node, from the last to the first. -/
def annotateList (strict : Bool) : Aggs → List Var → Anns × List Var
  | .nil, w => (.nil, w)
  | .cons c cs, w =>
      let r := annotateList strict cs w
      let x := annotate strict c r.2
      (.cons x.1 r.1, x.2)

/-- The children of a branch node: all start with the same working set. -/
def annotateCases (strict : Bool) : Aggs → List Var → Anns
  | .nil, _ => .nil
  | .cons c cs, w => .cons (annotate strict c w).1 (annotateCases strict cs w)

end

/-! ### Conversion -/

/-- `VariableMap` (CV:31-57). -/
abbrev VMap := Var → Option Out

def VMap.empty : VMap := fun _ => none

/-- `VariableMap::insert` (CV:46-51). -/
def VMap.insert (m : VMap) (v : Var) (o : Out) : VMap := fun u => if u = v then some o else m u

def VMap.inserts (m : VMap) : List Var → List Out → VMap
  | v :: vs, o :: os => (m.insert v o).inserts vs os
  | _, _ => m

/-- `VariableMap::lookup` (CV:39-44) of several variables. -/
def lookupAll (m : VMap) : List Var → Option (List Out)
  | [] => some []
  | v :: vs => (m v).bind fun o => (lookupAll m vs).map fun os => o :: os

/-- `UndefValueOperation`. -/
def undefOp : Op := ⟨.other, 0⟩

/-- The match operation of a select (CV:491): 1 selects alternative 1, everything else alternative 0. -/
def selectMatch : Op := ⟨.matchOp [(1, 1)] 0, 0⟩

/-- The nodes, the next free number, the map. -/
abbrev Res := List Node × Nat × VMap

/-- `ConvertThreeAddressCode` (CV:535-566). -/
def convTac (n : Nat) (m : VMap) : Tac → Option Res
  /- ConvertAssignment (CV:468-479) -/
  | .assign lhs rhs => (m rhs).map fun o => ([], n, m.insert lhs o)
  /- ConvertSelect (CV:481-498) -/
  | .select c a b res =>
      (m c).bind fun p => (m b).bind fun e1 => (m a).map fun e2 =>
        ([.simple selectMatch [p] [n],
          .gamma n [e1, e2] [n + 7]
            (.cons [n + 1, n + 2, n + 3] [n + 2] .nil (.cons [n + 4, n + 5, n + 6] [n + 6] .nil .nil))],
         n + 8, m.insert res (n + 7))
  /- ConvertBranch (CV:500-507) -/
  | .branch _ => some ([], n, m)
  /- CV:553-565 -/
  | .op o ins outs =>
      (lookupAll m ins).map fun is =>
        let os := List.range' n outs.length
        ([.simple o is os], n + outs.length, m.inserts outs os)

/-- `ConvertBasicBlock` (CV:568-576). -/
def convBlock : List Tac → Nat → VMap → Option Res
  | [], n, m => some ([], n, m)
  | t :: ts, n, m => (convTac n m t).bind fun r => (convBlock ts r.2.1 r.2.2).map fun r' => (r.1 ++ r'.1, r'.2)

/-- The operand of the branch at the end of a block. -/
def branchVar (ts : List Tac) : Option Var :=
  match ts.getLast? with
  | some (.branch v) => some v
  | _ => none

mutual

/-- The search for the predicate of a branch or loop (CV:684-691 and CV:800-808): down to the last leaf. -/
def Ann.predicate : Ann → Option Var
  | .block ts => branchVar ts
  | .linear cs => cs.predicate
  | .branch _ _ cs => cs.predicate
  | .loop _ b => b.predicate

def Anns.predicate : Anns → Option Var
  | .nil => none
  | .cons c .nil => c.predicate
  | .cons _ (.cons c' cs) => (Anns.cons c' cs).predicate

end

mutual

/-- `ConvertAggregationNode` (CV:822-857). `prev`: the predicate that is found in the previous child of
the parent. -/
def conv : Ann → Option Var → Nat → VMap → Option Res
  | .block ts, _, n, m => convBlock ts n m
  | .linear cs, _, n, m => convList cs none n m
  /- CV:674-740 -/
  | .branch ins outs cs, prev, n, m =>
      prev.bind fun p => (m p).bind fun pred => (lookupAll m ins).bind fun is =>
        (convCases ins outs cs n).map fun r =>
          let os := List.range' r.2 outs.length
          ([.gamma pred is os r.1], r.2 + outs.length, m.inserts outs os)
  /- CV:742-820 -/
  | .loop vars b, _, n, m =>
      let new := vars.filter fun v => (m v).isNone
      let us := List.range' n new.length
      let m1 := m.inserts new us
      let n1 := n + new.length
      let as := List.range' n1 vars.length
      (lookupAll m1 vars).bind fun is =>
        (conv b none (n1 + vars.length) (VMap.empty.inserts vars as)).bind fun r =>
          (lookupAll r.2.2 vars).bind fun posts => b.predicate.bind fun p => (r.2.2 p).map fun pred =>
            let os := List.range' r.2.1 vars.length
            (us.map (fun u => .simple undefOp [] [u]) ++ [.theta is os as pred posts (nodesOf r.1)],
             r.2.1 + vars.length, m1.inserts vars os)

/-- The children of a linear node (CV:663-672). -/
def convList : Anns → Option Var → Nat → VMap → Option Res
  | .nil, _, n, m => some ([], n, m)
  | .cons c cs, prev, n, m =>
      (conv c prev n m).bind fun r => (convList cs c.predicate r.2.1 r.2.2).map fun r' => (r.1 ++ r'.1, r'.2)

/-- The subregions of a gamma node (CV:704-731). -/
def convCases (ins outs : List Var) : Anns → Nat → Option (Regions × Nat)
  | .nil, n => some (.nil, n)
  | .cons c cs, n =>
      let as := List.range' (n + 1) ins.length
      (conv c none (n + 1 + ins.length) (VMap.empty.inserts ins as)).bind fun r =>
        (lookupAll r.2.2 outs).bind fun results =>
          (convCases ins outs cs r.2.1).map fun r' => (.cons (n :: as) results (nodesOf r.1) r'.1, r'.2)

end

/-- The annotation of a function: the body, and TopSet of the entry node (AN:373-394, AN:491-501). -/
def annotateFn (strict : Bool) (f : Fn) : Anns × List Var :=
  let r := annotateList strict f.body f.results
  (r.1, diff r.2 f.args)

/-- The conversion of a function (CV:585-648, CV:911-942), given the map for the outer region; `n` is
the next free number. -/
def convFn (strict : Bool) (f : Fn) (outer : VMap) (n : Nat) : Option Node :=
  let a := annotateFn strict f
  let ps := List.range' n f.args.length
  let n1 := n + f.args.length
  let ctx := a.2.filter fun v => (outer v).isSome
  let und := a.2.filter fun v => (outer v).isNone
  let as := List.range' n1 ctx.length
  let n2 := n1 + ctx.length
  let us := List.range' n2 und.length
  let n3 := n2 + und.length
  let m := ((VMap.empty.inserts f.args ps).inserts ctx as).inserts und us
  (lookupAll outer ctx).bind fun is =>
    (convList a.1 none n3 m).bind fun r =>
      (lookupAll r.2.2 f.results).map fun results =>
        .lambda is as ps results r.2.1 (nodesOf (us.map (fun u => .simple undefOp [] [u]) ++ r.1))

end Jlm.Front
