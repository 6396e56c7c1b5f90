import Verif.Aa.NaiveModel
/-
Model of the worklist solver: `PointerObjectConstraintSet::RunWorklistSolver`,
jlm/llvm/opt/alias-analyses/PointerObjectSet.cpp:1548-2180, and of
jlm/llvm/opt/alias-analyses/DifferencePropagation.hpp, on the pointer object set with root functions.

All 2^5 combinations of the template arguments are covered by `Opts` (illegal ones are not excluded).
* The worklist is the set of its items; which item `PopWorkItem` returns is left open (`Trans.pop`),
  so that the results hold for every policy.
* `en w l` is the order in which a hash set with elements `l` is enumerated in state `w`.
* The cycle detectors are functions that look at the subset graph and return the pairs of objects
  that they pass to `UnifyPointerObjects` (see LcdModel.lean for the lazy detector).
* The data of difference propagation is maintained also when it is disabled; it is then never read.
* `callConstraints[i]` is a list of calls without removal of duplicates.
* Statistics are dropped.
-/
namespace Jlm.Llvm.Aa

/-- the template arguments of `RunWorklistSolver`, PointerObjectSet.cpp:1548-1554 -/
structure Opts where
  ocd : Bool
  hcd : Bool
  lcd : Bool
  dp : Bool
  pip : Bool

/-- the local variables of `RunWorklistSolver` -/
structure WS (σ : Type) where
  set : RSet
  /-- `supersetEdges`, line 1570 -/
  edges : Nat → List Nat
  /-- `storeConstraints`, `loadConstraints`, `callConstraints`, lines 1576-1578 -/
  stores : Nat → List Nat
  loads : Nat → List Nat
  calls : Nat → List Call
  /-- DifferencePropagation.hpp: `NewPointees_`, `NewPointeesTracked_`,
  `PointsToExternalFlagSeen_`, `PointeesEscapeFlagSeen_` -/
  newP : Nat → List Nat
  tracked : Nat → Bool
  xSeen : Nat → Bool
  peSeen : Nat → Bool
  /-- the work items -/
  wl : Nat → Bool
  /-- `newSupersetEdges` (superset, subset), line 1809 -/
  queue : List (Nat × Nat)
  /-- `RefNodeUnificationRoot_` -/
  ref : Nat → Option Nat
  /-- the state of the cycle detector -/
  det : σ
  /-- `sccIndex` of the current sweep, line 2106 -/
  scc : Nat → Nat

/-- what is left open: the order of enumeration of hash sets, and the cycle detector. `det s r e
sub sup` stands for `lazyCycleDetector.OnPropagatedNothing(sub, sup)` or
`onlineCycleDetector.MaintainTopologicalOrder(sub, sup)`; an empty list is `std::nullopt`. -/
structure Env (σ : Type) where
  opts : Opts
  fn : Nat → Fn
  en : {α : Type} → WS σ → List α → List α
  det : σ → RSet → (Nat → List Nat) → Nat → Nat → σ × List (Nat × Nat)

namespace WS
variable {σ : Type}

/-- `worklist.PushWorkItem` -/
def push (w : WS σ) (i : Nat) : WS σ := { w with wl := upd w.wl i true }

/-- `MarkAsPointeesEscaping`, PointerObjectSet.cpp:1736-1741 -/
def markPE (w : WS σ) (i : Nat) : WS σ :=
  let r := w.set.root i
  let p := w.set.markPE r
  if p.1 then { w with set := p.2, wl := upd w.wl r true } else w

/-- `MarkAsPointsToExternal`, PointerObjectSet.cpp:1744-1749 -/
def markPTE (w : WS σ) (i : Nat) : WS σ :=
  let r := w.set.root i
  let p := w.set.markPTE r
  if p.1 then { w with set := p.2, wl := upd w.wl r true } else w

/-- `AddToPointsToSet`, PointerObjectSet.cpp:1621-1628, DifferencePropagation.hpp:63-75 -/
def addPointee (dp : Bool) (r x : Nat) (w : WS σ) : Bool × WS σ :=
  let p := w.set.addPointee r x
  (if dp && p.1 && w.tracked r then !(w.newP r).contains x else p.1,
   { w with set := p.2
            newP := if p.1 && w.tracked r then upd w.newP r (ins (w.newP r) x) else w.newP })

/-- `MakePointsToSetSuperset`, PointerObjectSet.cpp:1633-1640, DifferencePropagation.hpp:84-95,
PointerObjectSet.cpp:424-480 -/
def makeSuperset (sup sub : Nat) (w : WS σ) : Bool × WS σ :=
  let p := w.set.makeSuperset sup sub
  (p.1,
   { w with set := p.2
            newP := if w.tracked sup
              then upd w.newP sup (uni (w.newP sup) ((w.set.pointees sub).filter fun x => !(w.set.pointees sup).contains x))
              else w.newP })

/-- `UnifyPointerObjects`, PointerObjectSet.cpp:1648-1689 and `OnPointerObjectsUnified`,
DifferencePropagation.hpp:200-214 -/
def unify (hcd : Bool) (a b : Nat) (w : WS σ) : Nat × WS σ :=
  let ra := w.set.root a
  let rb := w.set.root b
  if ra = rb then (ra, w)
  else
    let u := w.set.unify ra rb
    let root := u.1
    let non := if root = ra then rb else ra
    (root,
     { w with
       set := u.2
       edges := upd (upd w.edges root (((uni (w.edges root) (w.edges non)).filter (· ≠ root)).filter (· ≠ non))) non []
       stores := upd (upd w.stores root (uni (w.stores root) (w.stores non))) non []
       loads := upd (upd w.loads root (uni (w.loads root) (w.loads non))) non []
       calls := upd (upd w.calls root (w.calls root ++ w.calls non)) non []
       newP := upd (upd w.newP non []) root []
       tracked := upd w.tracked root false
       xSeen := upd w.xSeen root (w.xSeen root && w.xSeen non)
       peSeen := upd w.peSeen root (w.peSeen root && w.peSeen non)
       ref := if hcd && (w.ref root).isNone then upd w.ref root (w.ref non) else w.ref })

/-- the unifications of a cycle detector -/
def unifyAll (hcd : Bool) (l : List (Nat × Nat)) (w : WS σ) : WS σ :=
  l.foldl (fun w p => (w.unify hcd p.1 p.2).2) w

/-- a call of a cycle detector; the first component tells whether something was unified -/
def detect (env : Env σ) (sub sup : Nat) (w : WS σ) : Bool × WS σ :=
  let d := env.det w.det w.set w.edges sub sup
  match d.2 with
  | [] => (false, { w with det := d.1 })
  | p :: l =>
    let w := unifyAll env.opts.hcd (p :: l) { w with det := d.1 }
    (true, w.push (w.set.root sub))

/-- `supersetEdges[subset].insert(superset)` -/
def insEdge (sup sub : Nat) (w : WS σ) : WS σ :=
  { w with edges := upd w.edges sub (ins (w.edges sub) sup) }

/-- `AddSupersetEdge` after the checks, PointerObjectSet.cpp:1778-1806 -/
def linkEdge (env : Env σ) (sup sub : Nat) (w : WS σ) : WS σ :=
  if (w.edges sub).contains sup then w
  else
    let w := w.insEdge sup sub
    let d := if env.opts.ocd then w.detect env sub sup else (false, w)
    if d.1 then d.2
    else
      let p := d.2.makeSuperset sup sub
      let w := if p.1 then p.2.push sup else p.2
      if env.opts.lcd && !(w.set.pointees sub).isEmpty && !p.1 then (w.detect env sub sup).2 else w

/-- `AddSupersetEdge`, PointerObjectSet.cpp:1753-1806 -/
def addEdge (env : Env σ) (sup sub : Nat) (w : WS σ) : WS σ :=
  let sup := w.set.root sup
  let sub := w.set.root sub
  if sup = sub then w
  else if env.opts.pip && w.set.pte sup && w.set.pe sub then w
  else if env.opts.pip && w.set.pte sup && w.set.pe sup then w.markPE sub
  else w.linkEdge env sup sub

/-- `QueueNewSupersetEdge`, PointerObjectSet.cpp:1810-1817 -/
def queueEdge (sup sub : Nat) (w : WS σ) : WS σ :=
  let sup := w.set.root sup
  let sub := w.set.root sub
  if sup = sub || (w.edges sub).contains sup then w
  else if w.queue.contains (sup, sub) then w
  else { w with queue := w.queue ++ [(sup, sub)] }

/-- `FlushNewSupersetEdges`, PointerObjectSet.cpp:1819-1824 -/
def flush (env : Env σ) (w : WS σ) : WS σ :=
  let w := (env.en w w.queue).foldl (fun w p => w.addEdge env p.1 p.2) w
  { w with queue := [] }

/-- `HandleCallingExternalFunction` with the functors of the worklist solver,
PointerObjectSet.cpp:604-631 -/
def callExternal (c : Call) (w : WS σ) : WS σ :=
  (registers c.outs).foldl (fun w o => w.markPTE o) ((registers c.ins).foldl (fun w i => w.markPE i) w)

/-- `HandleCallingLambdaFunction` with `QueueNewSupersetEdge`, PointerObjectSet.cpp:662-750 -/
def callLambda (env : Env σ) (c : Call) (f : Nat) (w : WS σ) : WS σ :=
  (paired c.outs (env.fn f).results).foldl (fun w ab => w.queueEdge ab.1 ab.2)
    ((paired c.ins (env.fn f).args).foldl (fun w ab => w.queueEdge ab.2 ab.1) w)

/-- one target of a call, PointerObjectSet.cpp:2059-2068 -/
def callTarget (env : Env σ) (c : Call) (x : Nat) (w : WS σ) : WS σ :=
  match (w.set.obj x).kind with
  | .imported => w.callExternal c
  | .function => w.callLambda env c x
  | _ => w

/-- `HandleEscapedFunction` with the functors of the worklist solver, PointerObjectSet.cpp:868-910 -/
def escapedFn (f : Fn) (w : WS σ) : WS σ :=
  (registers f.results).foldl (fun w r => if w.set.pe r then w else w.markPE r)
    ((registers f.args).foldl (fun w a => if w.set.pte a then w else w.markPTE a) w)

/-- one pointee of an object whose pointees escape, PointerObjectSet.cpp:1928-1951 -/
def escapePointee (env : Env σ) (x : Nat) (w : WS σ) : WS σ :=
  let root := w.set.root x
  let already := w.set.pe root && w.set.pte root
  let p := w.set.markEscaped x
  if p.1 = false then w
  else
    let w := { w with set := p.2 }
    let w := if (w.set.obj x).kind = .function then w.escapedFn (env.fn x) else w
    if already then w else w.push root

/-- hybrid cycle detection, PointerObjectSet.cpp:1860-1895: the unifications; `acc` is the current
`refUnificationRoot` and whether there was any unification -/
def hybridStep (node : Nat) (acc : (Nat × Bool) × WS σ) (x : Nat) : (Nat × Bool) × WS σ :=
  if acc.2.set.root x = acc.1.1 then acc
  else
    let u := acc.2.unify true acc.1.1 (acc.2.set.root x)
    -- `refUnificationRoot` is a reference to the entry of `node`
    ((u.1, true), { u.2 with ref := upd u.2.ref node (some u.1) })

/-- hybrid cycle detection: whether the handler returns, and the new state -/
def hybrid (env : Env σ) (node : Nat) (np : List Nat) (w : WS σ) : Bool × WS σ :=
  match w.ref node with
  | none => (false, w)
  | some a =>
    let a := w.set.root a
    let w := { w with ref := upd w.ref node (some a) }
    let r := (env.en w np).foldl (hybridStep node) ((a, false), w)
    if r.1.2 then (r.1.1 == r.2.set.root node, r.2.push r.1.1)
    else (false, r.2)

/-- PointerObjectSet.cpp:1897-1910 -/
def pipMark (env : Env σ) (node : Nat) (w : WS σ) : WS σ :=
  if env.opts.pip && !w.set.pe node && (w.edges node).any (fun s => w.set.pe s)
  then { w with set := w.set.setPE node } else w

/-- PointerObjectSet.cpp:1955-1961 and `OnRemoveAllPointees`, DifferencePropagation.hpp:118-123 -/
def removeAll (node : Nat) (w : WS σ) : WS σ :=
  { w with set := w.set.removeAll node, tracked := upd w.tracked node false, newP := upd w.newP node [] }

/-- `supersetEdges[node].Erase(it)` -/
def eraseEdge (node s : Nat) (w : WS σ) : WS σ :=
  { w with edges := upd w.edges node ((w.edges node).filter (· ≠ s)) }

/-- the propagation along one edge, PointerObjectSet.cpp:1987-1995 -/
def propagate (env : Env σ) (sp : Nat) (np : List Nat) (newX : Bool) (w : WS σ) : Bool × WS σ :=
  let p := (env.en w np).foldl (fun (acc : Bool × WS σ) x =>
    let q := acc.2.addPointee env.opts.dp sp x
    (acc.1 || q.1, q.2)) (false, w)
  let q := if newX then
      let m := p.2.set.markPTE sp
      (p.1 || m.1, { p.2 with set := m.2 })
    else p
  (q.1, if q.1 then q.2.push sp else q.2)

/-- the loop over the edges, PointerObjectSet.cpp:1963-2009: whether the handler returns, and the
new state -/
def edgeLoop (env : Env σ) (node : Nat) (np : List Nat) (newX pes : Bool) : List Nat → WS σ → Bool × WS σ
  | [], w => (false, w)
  | s :: l, w =>
    let sp := w.set.root s
    if sp = node then edgeLoop env node np newX pes l (w.eraseEdge node s)
    else if env.opts.pip && pes && w.set.pte sp then edgeLoop env node np newX pes l (w.eraseEdge node s)
    else
      let p := w.propagate env sp np newX
      let d := if env.opts.lcd && !np.isEmpty && !p.1 then p.2.detect env node sp else (false, p.2)
      if d.1 then d else edgeLoop env node np newX pes l d.2

/-- PointerObjectSet.cpp:2011-2021 -/
def storeLoop (env : Env σ) (node : Nat) (np : List Nat) (newX : Bool) (w : WS σ) : WS σ :=
  (env.en w (w.stores node)).foldl (fun w v =>
    let w := (env.en w np).foldl (fun w x => w.queueEdge x v) w
    if newX then w.markPE v else w) w

/-- PointerObjectSet.cpp:2023-2030 -/
def ssLoop (env : Env σ) (node : Nat) (np : List Nat) (w : WS σ) : WS σ :=
  if w.set.ss node && !w.set.pe node then (env.en w np).foldl (fun w x => w.markPTE x) w else w

/-- PointerObjectSet.cpp:2032-2042 -/
def loadLoop (env : Env σ) (node : Nat) (np : List Nat) (newX : Bool) (w : WS σ) : WS σ :=
  (env.en w (w.loads node)).foldl (fun w v =>
    let w := (env.en w np).foldl (fun w x => w.queueEdge v x) w
    if newX then w.markPTE v else w) w

/-- PointerObjectSet.cpp:2044-2051 -/
def lsLoop (env : Env σ) (node : Nat) (np : List Nat) (w : WS σ) : WS σ :=
  if w.set.ls node && !w.set.pe node then (env.en w np).foldl (fun w x => w.markPE x) w else w

/-- PointerObjectSet.cpp:2053-2078 -/
def callLoop (env : Env σ) (node : Nat) (np : List Nat) (newX : Bool) (w : WS σ) : WS σ :=
  (env.en w (w.calls node)).foldl (fun w c =>
    let w := (env.en w np).foldl (fun w x => w.callTarget env c x) w
    if newX then w.callExternal c else w) w

/-- the end of the handler before the flush, PointerObjectSet.cpp:2080-2089 -/
def settle (node : Nat) (newX newPE : Bool) (w : WS σ) : WS σ :=
  { w with newP := upd w.newP node []
           tracked := upd w.tracked node true
           xSeen := if newX then upd w.xSeen node true else w.xSeen
           peSeen := if newPE then upd w.peSeen node true else w.peSeen }

/-- `newPointees`, PointerObjectSet.cpp:1846-1850, DifferencePropagation.hpp:104-112 -/
def newPointees (env : Env σ) (node : Nat) (w : WS σ) : List Nat :=
  if env.opts.dp && w.tracked node then w.newP node else w.set.pointees node

/-- the handler after the hybrid cycle detection, PointerObjectSet.cpp:1897-2094 -/
def handleRest (env : Env σ) (node : Nat) (np : List Nat) (newX : Bool) (w : WS σ) : WS σ :=
  let w := w.pipMark env node
  let pes := w.set.pe node
  let newPE := if env.opts.dp then pes && !w.peSeen node else pes
  let w := if pes
    then (env.en w (if newPE then w.set.pointees node else np)).foldl (fun w x => w.escapePointee env x) w
    else w
  let rem := env.opts.pip && w.set.pte node && w.set.pe node
  let w := if rem then w.removeAll node else w
  let np := if rem then [] else np
  let e := edgeLoop env node np newX pes (env.en w (w.edges node)) w
  if e.1 then e.2
  else
    let w := e.2.storeLoop env node np newX
    let w := w.ssLoop env node np
    let w := w.loadLoop env node np newX
    let w := w.lsLoop env node np
    let w := w.callLoop env node np newX
    let w := w.settle node newX newPE
    w.flush env

/-- `HandleWorkItem`, PointerObjectSet.cpp:1837-2095 -/
def handle (env : Env σ) (node : Nat) (w : WS σ) : WS σ :=
  if w.set.root node ≠ node then w
  else
    let np := w.newPointees env node
    let newX := if env.opts.dp then w.set.pte node && !w.xSeen node else w.set.pte node
    let h := if env.opts.hcd then w.hybrid env node np else (false, w)
    if h.1 then h.2 else h.2.handleRest env node np newX

/-- the subset graph, PointerObjectSet.cpp:1580-1613 -/
def addConstraint (w : WS σ) : Constraint → WS σ
  | .superset a b =>
    let sup := w.set.root a
    let sub := w.set.root b
    if sup = sub then w else w.insEdge sup sub
  | .store p v => { w with stores := upd w.stores (w.set.root p) (ins (w.stores (w.set.root p)) (w.set.root v)) }
  | .load v p => { w with loads := upd w.loads (w.set.root p) (ins (w.loads (w.set.root p)) (w.set.root v)) }
  | .call p c => { w with calls := upd w.calls (w.set.root p) (w.calls (w.set.root p) ++ [c]) }

/-- the initial subset graph, PointerObjectSet.cpp:1567-1613 -/
def graph (cs : List Constraint) (ref : Nat → Option Nat) (d : σ) (s : RSet) : WS σ :=
  cs.foldl addConstraint
    { set := s, edges := fun _ => [], stores := fun _ => [], loads := fun _ => [], calls := fun _ => [],
      newP := fun _ => [], tracked := fun _ => false, xSeen := fun _ => false, peSeen := fun _ => false,
      wl := fun _ => false, queue := [], ref := ref, det := d, scc := id }

/-- the state when the first work item is popped, PointerObjectSet.cpp:1567-1828. `u` are the
unifications by `InitializeTopologicalOrdering`; `ref` is what offline variable substitution has
stored in `RefNodeUnificationRoot_`. -/
def init (env : Env σ) (cs : List Constraint) (fns : List Nat) (ref : Nat → Option Nat) (d : σ)
    (u : List (Nat × Nat)) (s : RSet) : WS σ :=
  let w := graph cs ref d s
  let w := w.unifyAll env.opts.hcd u
  let w := { w with wl := fun i => decide (i < w.set.n) && (w.set.root i == i) }
  { w with set := (escapedFns env.fn fns w.set).2 }

/-- a path in the subset graph, from a subset to a superset -/
inductive Path (s : RSet) (edges : Nat → List Nat) : Nat → Nat → Prop
  | refl (a : Nat) : Path s edges a a
  | same {a b c : Nat} : s.root a = s.root b → Path s edges b c → Path s edges a c
  | edge {a t c : Nat} : t ∈ edges a → Path s edges t c → Path s edges a c

/-- a sequence of unifications on the set alone -/
def unifyPairs (s : RSet) (l : List (Nat × Nat)) : RSet :=
  l.foldl (fun s p => (s.unify (s.root p.1) (s.root p.2)).2) s

/-- the subset graph with the edge `sub -> sup` -/
def withEdge (edges : Nat → List Nat) (sub sup : Nat) : Nat → List Nat := upd edges sub (sup :: edges sub)

/-- What is assumed of a cycle detector (and proved of the detectors of jlm, see LcdModel.lean and
OcdModel.lean): when it is asked about an edge from root `sub` to root `sup`, everything that it
unifies lies on one cycle, and if it unifies anything then `sub` and `sup` end up in the same class,
together with everything else that it has unified. -/
structure DetOk (env : Env σ) : Prop where
  range : ∀ d s edges sub sup, s.Wf → (∀ m, ∀ t ∈ edges m, t < s.n) → sub < s.n → sup < s.n →
    s.root sub = sub → s.root sup = sup → sub ≠ sup →
    ∀ p ∈ (env.det d s edges sub sup).2, p.1 < s.n ∧ p.2 < s.n
  path : ∀ d s edges sub sup, (∀ i, s.root (s.root i) = s.root i) →
    s.root sub = sub → s.root sup = sup → sub ≠ sup → ∀ p ∈ (env.det d s edges sub sup).2,
    Path s (withEdge edges sub sup) p.1 p.2 ∧ Path s (withEdge edges sub sup) p.2 p.1
  cycle : ∀ d s edges sub sup, s.Wf → (∀ m, ∀ t ∈ edges m, t < s.n) → sub < s.n → sup < s.n →
    s.root sub = sub → s.root sup = sup → sub ≠ sup →
    (env.det d s edges sub sup).2 ≠ [] →
    (unifyPairs s (env.det d s edges sub sup).2).root sub = (unifyPairs s (env.det d s edges sub sup).2).root sup ∧
    ∀ p ∈ (env.det d s edges sub sup).2, (unifyPairs s (env.det d s edges sub sup).2).root p.1 = (unifyPairs s (env.det d s edges sub sup).2).root sub

/-- two neighbours in one component are unified, PointerObjectSet.cpp:2130-2147 -/
def sweepUnifyStep (env : Env σ) (a b : Nat) (w : WS σ) : WS σ :=
  let u := w.unify env.opts.hcd a b
  { u.2 with wl := upd (upd u.2.wl (if u.1 = a then b else a) false) u.1 true }

/-- the loops at the end of `RunWorklistSolver`, PointerObjectSet.cpp:2097-2170; the number is 1 for
the steps that handle an item or unify two objects -/
inductive Trans (env : Env σ) : Nat → WS σ → WS σ → Prop
  /-- any worklist policy: pop some item and handle it -/
  | pop {w : WS σ} (i : Nat) : w.wl i = true → Trans env 1 w (handle env i { w with wl := upd w.wl i false })
  /-- the topological policy: strongly connected components are computed (C14) ... -/
  | sweep {w : WS σ} (scc : Nat → Nat) :
      (∀ a b, scc a = scc b → a < w.set.n → b < w.set.n → w.set.root a = a → w.set.root b = b → Path w.set w.edges a b) →
      Trans env 0 w { w with scc := scc }
  /-- ... and neighbours in one component are unified, PointerObjectSet.cpp:2130-2147 -/
  | sweepUnify {w : WS σ} (a b : Nat) : a < w.set.n → b < w.set.n → w.set.root a = a → w.set.root b = b → a ≠ b →
      w.scc a = w.scc b →
      Trans env 1 w (sweepUnifyStep env a b w)

/-- executions from the state `w0`, with the number of items that were handled and objects that were
unified between items -/
inductive Run (env : Env σ) (w0 : WS σ) : Nat → WS σ → Prop
  | start : Run env w0 0 w0
  | step {k c : Nat} {v w : WS σ} : Run env w0 k v → Trans env c v w → Run env w0 (k + c) w

end WS
end Jlm.Llvm.Aa
