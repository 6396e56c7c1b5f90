import Verif.Util.TarjanModel

/-!
# Model of `RegionAwareModRefSummarizer` (`jlm/llvm/opt/alias-analyses/RegionAwareModRefSummarizer.cpp`)

The RVSDG is given as the list of the nodes inside functions, each with the structural node around it. The points-to graph is any graph.
Hash sets are lists or predicates. The environment variables that switch off parts of the analysis are not set.
-/

namespace Jlm.ModRef

/-! ## Input -/

/-- Nodes of the points-to graph; `lambda f`: the function whose lambda node has number `f` in the program. -/
inductive Kind
  | alloca
  | delta
  | malloc
  | import_
  | lambda (f : Nat)
  | external
  | register
  deriving DecidableEq

/-- `PointsToGraph` (PointsToGraph.hpp). Node 0 is the external memory node (hpp:52). -/
structure Ptg where
  num : Nat
  kind : Nat → Kind
  /-- `getExplicitTargets` -/
  targets : Nat → List Nat
  /-- `isTargetingAllExternallyAvailable` -/
  all : Nat → Bool
  /-- `isExternallyAvailable` -/
  ext : Nat → Bool
  /-- `tryGetNodeSize` -/
  size : Nat → Option Nat
  /-- `isNodeConstant` -/
  const : Nat → Bool

/-- Simple nodes. Pointers are given by their nodes in the points-to graph. -/
inductive Op
  | load (r size : Nat)
  | store (r size : Nat)
  | alloca (m : Nat)
  | malloc (m : Nat)
  | free (r : Nat)
  /-- `memcpy`, `memmove`; `count` is known if it is a constant -/
  | memcpy (dst src : Nat) (count : Option Nat)
  | memset (dst : Nat) (count : Option Nat)
  /-- `args`: the operands that are pointers -/
  | call (target : Nat) (args : List Nat) (setjmp : Bool)
  | other

inductive NodeKind
  /-- the function's node in the points-to graph -/
  | lambda (m : Nat)
  /-- gamma and theta nodes -/
  | struct
  | simple (op : Op)

structure PNode where
  kind : NodeKind
  /-- the structural node around it; `none` for lambda nodes -/
  parent : Option Nat
  /-- the lambda node around it, or itself -/
  fn : Nat
  /-- the pointers among the arguments of the region around it -/
  regionArgs : List Nat

structure Prog where
  ptg : Ptg
  nodes : List PNode

/-! ## Mod/ref sets -/

/-- `ModRefEffect` (ModRefSummary.hpp:27-41) -/
structure Eff where
  ref : Bool
  mod : Bool
  deriving DecidableEq

def Eff.none : Eff := ⟨false, false⟩
def Eff.both : Eff := ⟨true, true⟩
def Eff.or (a b : Eff) : Eff := ⟨a.ref || b.ref, a.mod || b.mod⟩
/-- `isEffectSubset` -/
def Eff.sub (a b : Eff) : Bool := (!a.ref || b.ref) && (!a.mod || b.mod)

/-- `NoneSize` (cpp:238) -/
def noneSize : Nat := 4294967295

/-- `RegionAwareModRefSet` (cpp:232-491): `nodes m = .none` if `m` is not in the map. -/
structure MRSet where
  refExt : Nat
  modExt : Nat
  calls : Bool
  nodes : Nat → Eff

def MRSet.empty : MRSet := ⟨noneSize, noneSize, false, fun _ => .none⟩

/-- cpp:282-294 -/
def MRSet.markRef (s : MRSet) (minSize : Nat) : MRSet := { s with refExt := min s.refExt (min minSize (noneSize - 1)) }

/-- cpp:301-313 -/
def MRSet.markMod (s : MRSet) (minSize : Nat) : MRSet := { s with modExt := min s.modExt (min minSize (noneSize - 1)) }

/-- cpp:321-336 -/
def MRSet.implicit (s : MRSet) (size : Option Nat) : Eff :=
  ⟨decide (s.refExt ≠ noneSize ∧ s.refExt ≤ size.getD noneSize), decide (s.modExt ≠ noneSize ∧ s.modExt ≤ size.getD noneSize)⟩

/-- cpp:351-362 -/
def MRSet.markCalls (s : MRSet) : MRSet := if s.calls then s else { s with calls := true, refExt := 0, modExt := 0 }

/-- cpp:372-384 -/
def MRSet.addExplicit (s : MRSet) (m : Nat) (e : Eff) : MRSet := { s with nodes := fun k => if k = m then (s.nodes m).or e else s.nodes k }

/-- `propagateFlags` (cpp:441-471) -/
def MRSet.flags (to from_ : MRSet) : MRSet :=
  if from_.calls then
    if to.calls then to else { to with calls := true, refExt := 0, modExt := 0 }
  else if from_.modExt < to.modExt then { to with modExt := from_.modExt, refExt := min to.refExt from_.refExt }
  else if from_.refExt < to.refExt then { to with refExt := from_.refExt }
  else to

/-- One simple constraint (cpp:1733-1765): flags, then `addMemoryNode` (cpp:396-413) for all memory nodes that are not blocked. -/
def MRSet.propagate (g : Ptg) (blocked : Nat → Bool) (to from_ : MRSet) : MRSet :=
  let to' := to.flags from_
  { to' with nodes := fun m =>
      if blocked m then to.nodes m
      else if g.ext m && (from_.nodes m).sub (to'.implicit (g.size m)) then to.nodes m
      else (to.nodes m).or (from_.nodes m) }

/-- Did the set change? (cpp:1735-1761) -/
def MRSet.differ (num : Nat) (a b : MRSet) : Bool :=
  a.refExt != b.refExt || a.modExt != b.modExt || a.calls != b.calls || (List.range num).any fun m => a.nodes m != b.nodes m

/-! ## Simple allocas -/

/-- cpp:1196-1202 -/
def simpleFold (ts : List Nat) (st : List Nat × List Nat) : List Nat × List Nat :=
  ts.foldl (fun st t => if t ∈ st.1 then (st.1.filter (· != t), st.2 ++ [t]) else st) st

/-- cpp:1189-1203 (`fuel`: a bound on the number of iterations) -/
def simpleLoop (g : Ptg) : Nat → List Nat × List Nat → List Nat
  | 0, st => st.1
  | fuel + 1, (simple, queue) =>
      match queue with
      | [] => simple
      | m :: queue => simpleLoop g fuel (simpleFold (g.targets m) (simple, queue))

def Ptg.memory (g : Ptg) (m : Nat) : Bool := g.kind m != .register

def Ptg.candidate (g : Ptg) (m : Nat) : Bool := g.kind m == .alloca && !g.ext m

/-- `CreateSimpleAllocaSet` (cpp:1166-1206) -/
def Ptg.simpleAllocas (g : Ptg) : List Nat :=
  let mem := (List.range g.num).filter g.memory
  simpleLoop g g.num (mem.filter g.candidate, mem.filter (!g.candidate ·))

/-- cpp:1220-1228 -/
def reachFold (simple ts : List Nat) (st : List Nat × List Nat) : List Nat × List Nat :=
  ts.foldl (fun st t => if t ∈ simple ∧ t ∉ st.1 then (t :: st.1, st.2 ++ [t]) else st) st

/-- `getReachableSimpleAllocas` (cpp:1208-1232) -/
def reachLoop (g : Ptg) (simple : List Nat) : Nat → List Nat × List Nat → List Nat
  | 0, st => st.1
  | fuel + 1, (found, queue) =>
      match queue with
      | [] => found
      | m :: queue => reachLoop g simple fuel (reachFold simple (g.targets m) (found, queue))

def Ptg.reachable (g : Ptg) (roots : List Nat) : List Nat :=
  reachLoop g g.simpleAllocas (roots.length + g.num) ([], roots)

/-! ## The call graph -/

def Prog.op (P : Prog) (i : Nat) : Option Op := P.nodes[i]?.bind fun n => match n.kind with | .simple op => some op | _ => none

def Prog.lambda (P : Prog) (i : Nat) : Option Nat := P.nodes[i]?.bind fun n => match n.kind with | .lambda m => some m | _ => none

/-- Functions a call may call (cpp:1057-1073, 1666-1677). -/
def Ptg.callees (g : Ptg) (target : Nat) : List Nat := (g.targets target).filterMap fun k => match g.kind k with | .lambda f => some f | _ => none

/-- May a call reach other modules? (cpp:1074-1086, 1678-1686) -/
def Ptg.callsOut (g : Ptg) (target : Nat) : Bool := (g.targets target).any (g.kind · == .import_) || g.all target

/-- Successors in the call graph (cpp:1045-1124): 0 stands for the external functions, `i + 1` for the lambda node `i`. -/
def Prog.successors (P : Prog) (u : Nat) : List Nat :=
  match u with
  | 0 => 0 :: (List.range P.nodes.length).flatMap fun i =>
      match P.lambda i with
      | some m => if P.ptg.ext m then [i + 1] else []
      | none => []
  | f + 1 => (List.range P.nodes.length).flatMap fun i =>
      match P.nodes[i]? with
      | some n =>
          match n.kind with
          | .simple (.call t _ false) =>
              if n.fn = f then (P.ptg.callees t).map (· + 1) ++ (if P.ptg.callsOut t then [0] else []) else []
          | _ => []
      | none => []

def Prog.callGraph (P : Prog) : Util.Tarjan.Graph := ⟨P.nodes.length + 1, id, P.successors⟩

/-- Index of the strongly connected component (cpp:1132-1140). -/
def Prog.scc (P : Prog) : Nat → Nat :=
  match Util.Tarjan.findSccs P.callGraph (fun _ => 0) with
  | some r => r.sccIndex
  | none => fun _ => 0

/-- `IsRecursionPossible` (cpp:1270-1275, `SccCallTargets`: cpp:1152-1160): an edge within the component. -/
def Prog.recursionPossible (P : Prog) (f : Nat) : Bool :=
  (List.range (P.nodes.length + 1)).any fun u => P.scc u = P.scc (f + 1) && (P.successors u).any fun v => P.scc v = P.scc (f + 1)

/-! ## Constraints -/

/-- `CreateNonReentrantAllocaSets` (cpp:1277-1337): is `m` blocked at the structural node `i`? -/
def Prog.nonReentrant (P : Prog) (i m : Nat) : Bool :=
  P.ptg.simpleAllocas.contains m &&
    P.nodes.any fun n => match n.kind with
      | .simple (.alloca k) => k == m && n.parent == some i && (!P.recursionPossible n.fn || !(P.ptg.reachable n.regionArgs).contains m)
      | _ => false

/-- Blocklists (cpp:1427-1431, 1688-1696). -/
def Prog.blocked (P : Prog) (i m : Nat) : Bool :=
  match P.nodes[i]? with
  | some n =>
      match n.kind with
      | .simple (.call _ args _) => P.ptg.simpleAllocas.contains m && !(P.ptg.reachable args).contains m
      | .simple _ => false
      | _ => P.nonReentrant i m
  | none => false

/-- `addPointerOriginTargets` (cpp:1484-1527). -/
def MRSet.pointer (g : Ptg) (r : Nat) (minSize : Option Nat) (e : Eff) (s : MRSet) : MRSet :=
  let s := if g.all r && e.ref then s.markRef (minSize.getD 0) else s
  let s := if g.all r && e.mod then s.markMod (minSize.getD 0) else s
  (g.targets r).foldl (fun s m =>
    if g.const m then s
    else match minSize, g.size m with
      | some sz, some k => if k < sz then s else s.addExplicit m e
      | _, _ => s.addExplicit m e) s

def Eff.refOnly : Eff := ⟨true, false⟩
def Eff.modOnly : Eff := ⟨false, true⟩

/-- The set of a simple node before solving (cpp:1529-1686). -/
def initial (g : Ptg) : Op → MRSet
  | .load r size => MRSet.empty.pointer g r (some size) .refOnly
  | .store r size => MRSet.empty.pointer g r (some size) .modOnly
  | .alloca m => MRSet.empty.addExplicit m .refOnly
  | .malloc m => MRSet.empty.addExplicit m .refOnly
  | .free r => MRSet.empty.pointer g r none .modOnly
  | .memcpy dst src count => (MRSet.empty.pointer g dst count .modOnly).pointer g src count .refOnly
  | .memset dst count => MRSet.empty.pointer g dst count .modOnly
  | .call target _ _ => if g.callsOut target then MRSet.empty.markCalls else .empty
  | .other => .empty

/-- Mod/ref sets before solving: 0 is the set of the external functions (cpp:503-508), `i + 1` that of the node `i`. -/
def Prog.start (P : Prog) : Nat → MRSet
  | 0 => MRSet.empty.markCalls
  | i + 1 => match P.op i with | some op => initial P.ptg op | none => .empty

/-- Does the function call `setjmp`? (cpp:1050-1054) -/
def Prog.callsSetjmp (P : Prog) (f : Nat) : Bool :=
  P.nodes.any fun n => match n.kind with | .simple (.call _ _ true) => n.fn == f | _ => false

/-- Simple constraints into parents (cpp:1383-1404), from callees (1666-1672), and into the set of external functions (cpp:1358-1381). -/
def Prog.constraintsOf (P : Prog) (i : Nat) (n : PNode) : List (Nat × Nat) :=
  (match n.kind, n.parent with
    | .simple .other, _ => []
    | _, some p => [(i + 1, p + 1)]
    | _, none => []) ++
  (match n.kind with
    | .simple (.call t _ _) => (P.ptg.callees t).map fun f => (f + 1, i + 1)
    | .lambda m => if P.callsSetjmp i || P.ptg.ext m then [(i + 1, 0)] else []
    | _ => [])

def Prog.constraints (P : Prog) : List (Nat × Nat) :=
  (List.range P.nodes.length).flatMap fun i => match P.nodes[i]? with | some n => P.constraintsOf i n | none => []

/-! ## Solving -/

structure Solver where
  sets : Nat → MRSet
  work : List Nat

/-- Blocklist of a mod/ref set. -/
def Prog.block (P : Prog) : Nat → Nat → Bool
  | 0, _ => false
  | i + 1, m => P.blocked i m

/-- cpp:1730-1767: the constraint from `i` to `t`. -/
def Prog.edge (P : Prog) (i : Nat) (s : Solver) (t : Nat) : Solver :=
  let new := (s.sets t).propagate P.ptg (P.block t) (s.sets i)
  { sets := fun k => if k = t then new else s.sets k
    work := if MRSet.differ P.ptg.num new (s.sets t) && !s.work.contains t then t :: s.work else s.work }

/-- The constraints that start in `i`. -/
def Prog.targetsOf (P : Prog) (i : Nat) : List Nat := (P.constraints.filter (·.1 = i)).map (·.2)

/-- cpp:1724-1768: one work item. -/
def Prog.visit (P : Prog) (i : Nat) (s : Solver) : Solver :=
  (P.targetsOf i).foldl (P.edge i) { s with work := s.work.filter (· != i) }

/-- `SolveModRefSetConstraintGraph` (cpp:1711-1771): the worklist may hand out any of its items. -/
inductive Prog.Run (P : Prog) : Solver → Solver → Prop
  | done (s : Solver) : Run P s s
  | pop {s s' : Solver} (i : Nat) : i ∈ s.work → Run P (P.visit i s) s' → Run P s s'

def Prog.initialState (P : Prog) : Solver := ⟨P.start, List.range (P.nodes.length + 1)⟩

/-! ## Materialization -/

/-- `determineReadOnlyMemory` (cpp:1791-1821) -/
def Prog.readOnly (P : Prog) (sets : Nat → MRSet) (m : Nat) : Bool :=
  (sets 0).nodes m != .none && !((sets 0).nodes m).mod && !P.ptg.ext m && P.ptg.kind m != .alloca

/-- Memory nodes that are kept in a function (cpp:1836-1868); 0 is the external memory node. -/
def Prog.keep (P : Prog) (sets : Nat → MRSet) (f m : Nat) : Bool :=
  !P.readOnly sets m && (m == 0 || (List.range P.nodes.length).any fun i =>
    match P.nodes[i]? with
    | some n => n.fn == f && (sets (i + 1)).implicit none != .both && !((sets (i + 1)).nodes m).sub ((sets (i + 1)).implicit none)
    | none => false)

/-- The final set of a node of the function `f` (cpp:1871-1927). -/
def Prog.final (P : Prog) (sets : Nat → MRSet) (f i m : Nat) : Eff :=
  let s := sets (i + 1)
  let kept := if P.keep sets f m then s.nodes m else .none
  let all := s.implicit (some 1)
  let large := s.implicit none
  if large = .none then kept
  else
    let kept := if P.keep sets f m && P.ptg.ext m then kept.or (if large = all then large else s.implicit (P.ptg.size m)) else kept
    if s.calls && P.keep sets f m && !P.ptg.ext m then kept.or ((sets 0).nodes m) else kept

end Jlm.ModRef
