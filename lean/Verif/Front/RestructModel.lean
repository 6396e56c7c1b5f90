import Verif.Front.CfgModel

/-!
# Control flow restructuring (model)

Model of `jlm/llvm/frontend/ControlFlowRestructuring.cpp` (CR below).

* An edge is its source and its index among the out-edges of the source; no out-edge is ever removed, so this
  identifies the edge object of /repo.
* The order in which hash sets are traversed, and the strongly connected components, are given by a parameter
  (`Choice`).
* New blocks and new variables are numbers from counters.
* `none`: a failed assertion, a map lookup without result (in /repo `operator[]`, which would insert 0), a loop that
  is not in the form that the assertions in `adjustLoopRepetitionEdge` describe, or lack of fuel.
* Simplification: when a branch is restructured, the edges of all its alternatives are diverted first, and then the
  alternatives are restructured recursively; /repo does both for one alternative after the other. The recursive call
  for an alternative does not change edges of the others.
-/

namespace Jlm.Front

open Jlm.Opt

/-- `ControlFlowGraphEdge`: source and index. -/
abbrev Edge := Nat × Nat

/-- `TailControlledLoop` (CR:16-28). -/
structure TcLoop where
  ne : Nat
  insert : Nat
  replacement : Nat
  deriving DecidableEq

/-- The graph, the counters for blocks and variables, and the loops that have been taken out of the graph. -/
structure RSt where
  C : Cfg
  n : Nat
  v : Nat
  loops : List TcLoop

/-- The strongly connected components of a region (`find_sccs`), and the orders in which sets are traversed. -/
structure Choice where
  sccs : Cfg → Nat → Nat → List (List Nat)
  nodes : List Nat → List Nat
  edges : List Edge → List Edge

def Cfg.edgesOf (C : Cfg) (x : Nat) : List Edge := (List.range (C.succs x).length).map fun i => (x, i)

def Cfg.allEdges (C : Cfg) : List Edge := C.nodes.flatMap C.edgesOf

/-- `edge->sink()`. -/
def Cfg.sink (C : Cfg) (e : Edge) : Option Nat := (C.succs e.1)[e.2]?

/-- `BasicBlock::create`, with code and out-edges. -/
def RSt.addBlock (st : RSt) (code : List Tac) (succs : List Nat) : RSt :=
  { st with
    C := { st.C with
      nodes := st.C.nodes ++ [st.n]
      code := fun x => if x = st.n then code else st.C.code x
      succs := fun x => if x = st.n then succs else st.C.succs x }
    n := st.n + 1 }

/-- `ControlFlowGraphEdge::divert` (jlm/llvm/ir/cfg-node.cpp:23-31). -/
def RSt.divertEdge (st : RSt) (e : Edge) (y : Nat) : RSt :=
  { st with C := { st.C with succs := fun x => if x = e.1 then (st.C.succs x).set e.2 y else st.C.succs x } }

/-- `BasicBlock::insert_before_branch` (jlm/llvm/ir/basic-block.cpp:23-27). -/
def insertBeforeBranch (t : Tac) (ts : List Tac) : List Tac :=
  match ts.getLast? with
  | some (.branch v) => ts.dropLast ++ [t, .branch v]
  | _ => ts ++ [t]

def undefTac (v : Nat) : Tac := .op undefOp [] [v]

/-- `CreateContinuationVariable` (CR:68-74) and `CreateLoopEntryVariable` (CR:87-95): the variable, a new one, is
undefined in the given block. -/
def RSt.insertUndef (st : RSt) (x : Nat) : RSt :=
  { st with
    C := { st.C with code := fun z => if z = x then insertBeforeBranch (undefTac st.v) (st.C.code z) else st.C.code z }
    v := st.v + 1 }

/-- `ControlConstantOperation`; the number of alternatives is left out. -/
def ctlConst (c : Nat) : Op := ⟨.const c, 1⟩

/-- `AppendConstantAssignment` (CR:114-127), once for each of the variables: the constants are new variables, from
`v` on. -/
def constAssigns (v : Nat) : List (Nat × Nat) → List Tac
  | [] => []
  | (u, c) :: as => .op (ctlConst c) [] [v] :: .assign u v :: constAssigns (v + 1) as

/-- New variables: from `v` on. -/
def RSt.bump (st : RSt) (k : Nat) : RSt := { st with v := st.v + k }

/-- The edge is diverted to a new block that assigns constants and continues at `target`: `divert`, `split` and
`AppendConstantAssignment` (CR:148-151, CR:194-199, CR:217-221) or the blocks of CR:553-557. -/
def RSt.route (st : RSt) (e : Edge) (as : List (Nat × Nat)) (target : Nat) : RSt :=
  ((st.bump as.length).addBlock (constAssigns st.v as) [target]).divertEdge e st.n

/-! ### The structure of a strongly connected component (cfg-structure.cpp:35-71) -/

def Cfg.entryEdges (C : Cfg) (S : List Nat) : List Edge :=
  C.allEdges.filter fun e => e.1 ∉ S ∧ (C.sink e).any (fun y => decide (y ∈ S)) = true

def Cfg.entryNodes (C : Cfg) (S : List Nat) : List Nat :=
  (S.filter fun y => (C.entryEdges S).any fun e => C.sink e = some y).eraseDups

def Cfg.exitEdges (C : Cfg) (S : List Nat) : List Edge :=
  C.allEdges.filter fun e => e.1 ∈ S ∧ (C.sink e).any (fun y => decide (y ∉ S)) = true

def Cfg.exitNodes (C : Cfg) (S : List Nat) : List Nat := ((C.exitEdges S).filterMap C.sink).eraseDups

def Cfg.repEdges (C : Cfg) (S : List Nat) : List Edge :=
  C.allEdges.filter fun e => e.1 ∈ S ∧ (C.sink e).any (fun y => decide (y ∈ C.entryNodes S)) = true

/-! ### Loops -/

/-- `GetEntryVariableBlock` (CR:226-236). -/
def Cfg.entryVarBlock (C : Cfg) (x : Nat) : Option Nat :=
  if x ≠ C.entry ∧ x ≠ C.exit then some x else (C.succs x)[0]?

/-- `x` is one of the blocks that `ExtractLoop` has created. -/
def RSt.stub (st : RSt) (x : Nat) : Bool := st.loops.any fun l => x == l.insert || x == l.replacement

/-- CR:353-360: the entry variable, which has the number `v`, is undefined in a block of the region. That this block
is not the replacement for a loop, which `ReinsertLoop` would delete together with the variable, is a consequence of
the order in which /repo finds strongly connected components: that of the first block comes last. -/
def RSt.loopVar (st : RSt) (regionEntry : Nat) (ens : List Nat) : Option RSt :=
  if 1 < ens.length then
    (st.C.entryVarBlock regionEntry).bind fun x =>
      if x ∈ st.C.nodes ∧ x ≠ st.C.exit ∧ st.stub x = false then some (st.insertUndef x) else none
  else some (st.bump 1)

/-- The blocks of a loop that is not tail-controlled (CR:346-350, CR:362-371 and the first parts of
`RestructureLoopEntry` (CR:135-144) and `RestructureLoopExit` (CR:174-190)): the new entry, exit and repetition block
have the numbers `n`, `n + 1` and `n + 2`; the entry, repetition and exit variable have the numbers `v`, `v + 1` and
`v + 2`. `ens` and `xns` are the entry and exit nodes. -/
def RSt.loopBlocks (st : RSt) (regionEntry regionExit : Nat) (ens xns : List Nat) : Option RSt :=
  if ens ≠ [] ∧ regionExit ∈ st.C.nodes ∧ regionExit ≠ st.C.entry then
    (st.loopVar regionEntry ens).map fun st' =>
      (((st'.bump 2).addBlock ([undefTac (st.v + 1)] ++ (if 1 < xns.length then [undefTac (st.v + 2)] else [])
            ++ (if 1 < ens.length then [.branch st.v] else [])) ens).addBlock
          (if 1 < xns.length then [.branch (st.v + 2)] else []) (if xns = [] then [regionExit] else xns)).addBlock
          [.branch (st.v + 1)] [st.n + 1, st.n]
  else none

/-- `RestructureLoopEntry` (CR:146-152); `q` is the entry variable. -/
def RSt.loopEntry (st : RSt) (ens : List Nat) (ne q : Nat) (es : List Edge) : Option RSt :=
  es.foldlM (fun (st : RSt) (e : Edge) => ((st.C.sink e).bind fun w => ens.idxOf? w).map fun i =>
    if 1 < ens.length then st.route e [(q, i)] ne else st.divertEdge e ne) st

/-- `RestructureLoopExit` (CR:192-200); `r` is the repetition variable, `x` the exit variable. -/
def RSt.loopExit (st : RSt) (xns : List Nat) (nr r x : Nat) (es : List Edge) : Option RSt :=
  es.foldlM (fun (st : RSt) (e : Edge) => ((st.C.sink e).bind fun w => xns.idxOf? w).map fun i =>
    st.route e ((if 1 < xns.length then [(x, i)] else []) ++ [(r, 0)]) nr) st

/-- `RestructureLoopRepetition` (CR:203-223). -/
def RSt.loopRep (st : RSt) (ens : List Nat) (nr r q : Nat) (es : List Edge) : Option RSt :=
  es.foldlM (fun (st : RSt) (e : Edge) => ((st.C.sink e).bind fun w => ens.idxOf? w).map fun i =>
    st.route e ((if 1 < ens.length then [(q, i)] else []) ++ [(r, 1)]) nr) st

/-- The restructuring of a loop that is not tail-controlled (CR:346-383). -/
def RSt.loopStage (ch : Choice) (st : RSt) (regionEntry regionExit : Nat) (S : List Nat) : Option RSt :=
  let ens := ch.nodes (st.C.entryNodes S)
  let xns := ch.nodes (st.C.exitNodes S)
  (st.loopBlocks regionEntry regionExit ens xns).bind fun s1 =>
  (s1.loopEntry ens st.n st.v (ch.edges (st.C.entryEdges S))).bind fun s2 =>
  (s2.loopExit xns (st.n + 2) (st.v + 1) (st.v + 2) (ch.edges (st.C.exitEdges S))).bind fun s3 =>
  s3.loopRep ens (st.n + 2) (st.v + 1) st.v (ch.edges (st.C.repEdges S))

/-- `invertMatchOperation` (CR:250-267): only the first mapping is looked at. `fix`: all mappings are inverted. -/
def invertMatch (fix : Bool) (m : List (Nat × Nat)) (d : Nat) : Option (List (Nat × Nat) × Nat) :=
  if fix then some (m.map fun p => (p.1, 1 - p.2), 1 - d)
  else match m with
  | [] => none
  | (val, alt) :: _ => some ([(val, d)], alt)

/-- CR:305-318: the match operation that defines `u` is replaced. In /repo the operation is found by following a
pointer from the variable; here it has to be in the same block, and the only operation from there on that writes
`u`. -/
def invertIn (fix : Bool) (u : Nat) : List Tac → Option (List Tac)
  | [] => none
  | t :: ts =>
      match t with
      | .op ⟨.matchOp m d, c⟩ [w] [u'] =>
          if u' = u then
            if ∀ t' ∈ ts, u ∉ t'.writes then
              (invertMatch fix m d).map fun md => .op ⟨.matchOp md.1 md.2, c⟩ [w] [u] :: ts
            else none
          else (invertIn fix u ts).map (t :: ·)
      | _ => (invertIn fix u ts).map (t :: ·)

/-- `adjustLoopRepetitionEdge` (CR:277-319), for the loop with tail `t` whose repetition edge has index `i`. -/
def RSt.adjust (fix : Bool) (st : RSt) (t i : Nat) : Option RSt :=
  if i = 1 then some st
  else match st.C.succs t, (branchVar (st.C.code t)) with
  | [y0, y1], some u =>
      if i = 0 then
        (invertIn fix u (st.C.code t)).map fun code => { st with C := { st.C with
          code := fun x => if x = t then code else st.C.code x
          succs := fun x => if x = t then [y1, y0] else st.C.succs x } }
      else none
  | _, _ => none

/-- The one of two successors that is not `h` (CR:34-38). -/
def otherOf (h y0 y1 : Nat) : Nat := if y0 = h then y1 else y0

/-- `ExtractLoop` (CR:30-54): `insert` and `replacement` are the blocks `n` and `n + 1`. -/
def RSt.extract (st : RSt) (h t : Nat) : Option RSt :=
  if h ∈ st.C.nodes ∧ t ∈ st.C.nodes then
  match st.C.succs t with
  | [y0, y1] =>
      if (y0 = h ∨ y1 = h) ∧ otherOf h y0 y1 ≠ h then
        some { C := { st.C with
                nodes := st.C.nodes ++ [st.n, st.n + 1]
                code := fun x => if x = st.n ∨ x = st.n + 1 then [] else st.C.code x
                succs := fun x =>
                  if x = st.n then []
                  else if x = st.n + 1 then [otherOf h y0 y1]
                  else if x = t then (if y0 = h then [h, st.n] else [st.n, h])
                  else divert h (st.n + 1) (st.C.succs x) }
               n := st.n + 2
               v := st.v
               loops := st.loops ++ [⟨h, st.n, st.n + 1⟩] }
      else none
  | _ => none
  else none

/-- Where control continues after the loop: the replacement block stands for its entry. -/
def TcLoop.after (l : TcLoop) (r : Nat) : Nat := if r = l.replacement then l.ne else r

/-- `ReinsertLoop` (CR:56-68). The last condition: no loop that is reinserted later has one of the removed blocks
as its entry. -/
def RSt.reinsert (st : RSt) (l : TcLoop) (rest : List TcLoop) : Option RSt :=
  match st.C.succs l.replacement with
  | [r] =>
      if st.C.indeg l.insert = 1 ∧ l.after r ≠ l.insert ∧ l.ne ≠ l.insert ∧ l.ne ≠ l.replacement ∧
          (∀ l' ∈ rest, l'.ne ≠ l.insert ∧ l'.ne ≠ l.replacement) then
        some { st with
          C := { st.C with
            nodes := st.C.nodes.filter fun x => x ≠ l.insert ∧ x ≠ l.replacement
            succs := fun x => divert l.insert (l.after r) (divert l.replacement l.ne (st.C.succs x)) }
          loops := rest }
      else none
  | _ => none

def reinsertAll : List TcLoop → RSt → Option RSt
  | [], st => some st
  | l :: ls, st => (st.reinsert l ls).bind (reinsertAll ls)

/-! ### Branches -/

/-- `ComputeHeadBranch` (CR:391-404). -/
def headBranch (C : Cfg) (exit : Nat) : Nat → Nat → Option Nat
  | 0, _ => none
  | fuel + 1, x =>
      if 1 < (C.succs x).length ∨ x = exit then some x
      else match C.succs x with
      | y :: _ => headBranch C exit fuel y
      | [] => none

/-- `ComputeDominatorGraph` (CR:406-440). -/
def domLoop (C : Cfg) : Nat → List Nat → List Edge → List Nat → List Nat
  | 0, nodes, _, _ => nodes
  | _ + 1, nodes, _, [] => nodes
  | fuel + 1, nodes, edges, x :: todo =>
      if x ∈ nodes then domLoop C fuel nodes edges todo
      else if C.allEdges.all fun e => (C.sink e != some x) || edges.contains e then
        domLoop C fuel (nodes ++ [x]) (edges ++ C.edgesOf x) (todo ++ C.succs x)
      else domLoop C fuel nodes edges todo

def dominated (C : Cfg) (e : Edge) : List Nat :=
  domLoop C (C.allEdges.length + 2) [] [e] (C.sink e).toList

/-- `ComputeContinuation` (CR:448-483): the continuation edges of an out-edge. -/
def contEdges (C : Cfg) (e : Edge) : List Edge :=
  if dominated C e = [] then [e]
  else C.allEdges.filter fun e' => e'.1 ∈ dominated C e ∧ (C.sink e').any (fun y => decide (y ∉ dominated C e)) = true

/-- The continuation points. -/
def contPoints (C : Cfg) (hb : Nat) : List Nat :=
  (((C.edgesOf hb).flatMap (contEdges C)).filterMap C.sink).eraseDups

/-- All edges, which have to go to `cp`, are diverted to `y`. -/
def RSt.divertAll (st : RSt) (cp y : Nat) (es : List Edge) : Option RSt :=
  es.foldlM (fun (st : RSt) (e : Edge) => if st.C.sink e = some cp then some (st.divertEdge e y) else none) st

/-- One continuation point (CR:501-528), for the out-edge `e` with continuation edges `es`: the new graph, and the
region that is to be restructured. -/
def RSt.branchOne (st : RSt) (cp : Nat) (e : Edge) (es : List Edge) : Option (RSt × Option (Edge × Nat)) :=
  if st.C.sink e = some cp then some (((st.addBlock [] [cp]).divertEdge e st.n), none)
  else match es with
  | [e'] => some (st, some (e, e'.1))
  | es => ((st.addBlock [] [cp]).divertAll cp st.n es).map fun st' => (st', some (e, st.n))

/-- Several continuation points (CR:546-560), for one out-edge. -/
def RSt.branchMany (st : RSt) (points : List Nat) (p cont : Nat) (e : Edge) (es : List Edge) :
    Option (RSt × Option (Edge × Nat)) :=
  (es.foldlM (fun (st' : RSt) (e' : Edge) => ((st'.C.sink e').bind fun w => points.idxOf? w).map fun i => st'.route e' [(p, i)] st.n)
    (st.addBlock [] [cont])).map fun st' => (st', some (e, st.n))

/-- Both, for all out-edges: the graph, and the regions. -/
def branchFold (f : RSt → Edge → Option (RSt × Option (Edge × Nat))) : RSt → List Edge → Option (RSt × List (Edge × Nat))
  | st, [] => some (st, [])
  | st, e :: es => (f st e).bind fun r => (branchFold f r.1 es).map fun r' => (r'.1, r.2.toList ++ r'.2)

/-- `RestructureBranches` (CR:485-568). -/
def branches' (ch : Choice) : Nat → Nat → Nat → RSt → Option RSt
  | 0, _, _, _ => none
  | fuel + 1, entry, exit, st =>
      (headBranch st.C exit (fuel + 1) entry).bind fun hb =>
      if hb = exit then some st
      else if hb ∈ st.C.nodes ∧ hb ≠ st.C.exit then
        match ch.nodes (contPoints st.C hb) with
        | [] => none
        | [cp] =>
            if cp ∈ st.C.nodes then
              (branchFold (fun s e => s.branchOne cp e (ch.edges (contEdges st.C e))) st (st.C.edgesOf hb)).bind fun r =>
              (r.2.foldlM (fun (s : RSt) (reg : Edge × Nat) => (s.C.sink reg.1).bind fun y => branches' ch fuel y reg.2 s) r.1).bind
                (branches' ch fuel cp exit)
            else none
        | points =>
            if ∀ y ∈ points, y ∈ st.C.nodes then
              (branchFold (fun s e => s.branchMany points st.v st.n e (ch.edges (contEdges st.C e)))
                ((st.insertUndef hb).addBlock [.branch st.v] points) (st.C.edgesOf hb)).bind fun r =>
              (r.2.foldlM (fun (s : RSt) (reg : Edge × Nat) => (s.C.sink reg.1).bind fun y => branches' ch fuel y reg.2 s) r.1).bind
                (branches' ch fuel st.n exit)
            else none
      else none

/-! ### Both -/

/-- `IsTailControlledLoop` (cfg-structure.cpp:28-33): entry node, tail, and index of the repetition edge. -/
def Cfg.tailLoop (C : Cfg) (S : List Nat) : Option (Nat × Nat × Nat) :=
  match C.entryNodes S, C.repEdges S, C.exitEdges S with
  | [h], [r], [x] => if r.1 = x.1 then some (h, r.1, r.2) else none
  | _, _, _ => none

/-- `RestructureControlFlow` (CR:590-597) with `RestructureLoops` (CR:321-389), which does nothing if entry and exit
of the region are the same. -/
def restructure (ch : Choice) (fix : Bool) : Nat → Nat → Nat → RSt → Option RSt
  | 0, _, _, _ => none
  | fuel + 1, entry, exit, st =>
      ((if entry = exit then [] else ch.sccs st.C entry exit).foldlM (fun (st : RSt) (S : List Nat) =>
        match st.C.tailLoop S with
        | some (h, t, i) =>
            (restructure ch fix fuel h t st).bind fun s => (s.adjust fix t i).bind fun s => s.extract h t
        | none =>
            (st.loopStage ch entry exit S).bind fun s =>
            (restructure ch fix fuel st.n (st.n + 2) s).bind fun s => s.extract st.n (st.n + 2)) st).bind
      (branches' ch (fuel + 1) entry exit)

/-- `RestructureControlFlow` of a graph (CR:599-609); `fix = false` is /repo. -/
def restructureCfg (ch : Choice) (fix : Bool) (fuel n v : Nat) (C : Cfg) : Option Cfg :=
  (restructure ch fix fuel C.entry C.exit ⟨C, n, v, []⟩).bind fun st => (reinsertAll st.loops st).map RSt.C

end Jlm.Front
