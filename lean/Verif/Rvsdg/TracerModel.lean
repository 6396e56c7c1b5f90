/-!
# Model of the output tracer

`jlm/rvsdg/Trace.cpp`, `jlm/rvsdg/Trace.hpp` and `jlm/llvm/ir/Trace.cpp:26-67`: from an output back to the output where its value comes
from, through and out of structural nodes.

*Simplifications.*
* Outputs, nodes and regions are names instead of pointers: an output is an argument of a region or an output of a node, a region is the
  root region or a subregion of a node. What an input or a region result is connected to is a function of the graph.
* Assertions about types (gamma.cpp:348,357) are left out: the model is that of a release build there. The assertions of Trace.cpp itself
  are kept (`Err.assertion`).
* The recursion and the loop have fuel (`Err.fuel`); `C58_terminates` says how much is enough.
-/

namespace Jlm.Rvsdg.Tracer

abbrev Nd := Nat

/-- A region: the root region, or subregion `k` of node `n`. -/
abbrev Rg := Option (Nd × Nat)

/-- `rvsdg::Output`: argument `i` of region `r` or output `i` of node `n` (node.hpp:1034-1046: `TryGetOwnerRegion`, `TryGetOwnerNode`). -/
inductive Out
  | arg (r : Rg) (i : Nat)
  | out (n : Nd) (i : Nat)
  deriving DecidableEq, Repr

/-- Simple operations as far as the tracer tells them apart (llvm/ir/Trace.cpp:36-56). -/
inductive Op
  | barrier
  | load
  | other
  deriving DecidableEq, Repr

inductive Kind
  | simple (op : Op)
  | gamma
  | theta
  /-- with the number of its function arguments (lambda.cpp:92) -/
  | lambda (nargs : Nat)
  | delta
  | phi
  deriving DecidableEq, Repr

structure Graph where
  kind : Nd → Kind
  /-- the region that the node is in -/
  region : Nd → Rg
  /-- `n.input(i)->origin()` -/
  origin : Nd → Nat → Out
  /-- `r.result(i)->origin()` -/
  result : Rg → Nat → Out
  nin : Nd → Nat
  nout : Nd → Nat
  nsub : Nd → Nat
  narg : Rg → Nat
  nres : Rg → Nat
  /-- has the output `MemoryStateType`? -/
  isMem : Out → Bool

/-- `output.region()` (node.hpp). -/
def Graph.regionOf (G : Graph) : Out → Rg
  | .arg r _ => r
  | .out n _ => G.region n

/-- The configuration of the tracer (Trace.hpp:40-108, llvm/ir/Trace.hpp:27-50). -/
structure Cfg where
  deep : Bool := true
  enterPhi : Bool := true
  interprocedural : Bool := true
  caching : Bool := false
  /-- is it a `llvm::OutputTracer`? -/
  llvm : Bool := true
  loadedStates : Bool := false

inductive Err
  | fuel
  | assertion
  deriving DecidableEq, Repr

/-- `traceCache_` (Trace.hpp:213): from outputs of gamma and theta nodes to an input of the same node or `nullptr`. -/
abbrev Cache := List (Out × Option Nat)

abbrev M (α : Type) := Cache → Except Err (α × Cache)

/-- `OutputTracer::lookupInCache` (Trace.cpp:264-277). -/
def lookupInCache (cfg : Cfg) (C : Cache) (o : Out) : Option (Option Nat) :=
  if cfg.caching then C.lookup o else none

/-- `OutputTracer::insertInCache` (Trace.cpp:253-262). Returns the input instead of its origin. -/
def insertInCache (cfg : Cfg) (o : Out) (r : Option Nat) : M (Option Nat) := fun C =>
  if cfg.caching = false then .ok (r, C)
  else if (C.lookup o).isSome then .error .assertion
  else .ok (r, (o, r) :: C)

/-- What follows the tracing of one branch result in `tryTraceThroughGamma` (Trace.cpp:84-98), with `t` as `tracedInner`. `c` is the
previous value of `gammaInput`; its origin is `commonOrigin`, as all origins so far are the same. `mapBranchArgumentToInput` takes the input
with the index of the argument (gamma.cpp:343-359). `next` continues with the next branch. -/
def gammaNext (G : Graph) (cfg : Cfg) (n : Nd) (x : Nat) (next : Nat → M (Option Nat)) (c : Option Nat) : Out → M (Option Nat)
  | .arg (some (m, _)) a =>
      if m = n then
        match c with
        | none => next a
        | some g => if G.origin n g = G.origin n a then next a else insertInCache cfg (.out n x) none
      else insertInCache cfg (.out n x) none
  | _ => insertInCache cfg (.out n x) none

/-- The loop over the branch results in `tryTraceThroughGamma` (Trace.cpp:72-101). -/
def gammaBranches (G : Graph) (cfg : Cfg) (tr : Option Rg → Out → M Out) (n : Nd) (x : Nat) : List Nat → Option Nat → M (Option Nat)
  | [], none => fun _ => .error .assertion
  | [], some g => insertInCache cfg (.out n x) (some g)
  | k :: ks, c => fun C =>
      let o := G.result (some (n, k)) x
      match (if cfg.deep then tr (some (G.regionOf o)) o C else .ok (o, C)) with
      | .error e => .error e
      | .ok (t, C') => gammaNext G cfg n x (fun a => gammaBranches G cfg tr n x ks (some a)) c t C'

/-- `tryTraceThroughTheta` after the look-up in the cache (Trace.cpp:111-140). Argument, input and output of a loop variable have the same
index, the result has one more (theta.cpp:140-173); `ThetaLoopVarIsInvariant` (theta.hpp:227-230). -/
def thetaBody (G : Graph) (cfg : Cfg) (tr : Option Rg → Out → M Out) (n : Nd) (x : Nat) : M (Option Nat) := fun C =>
  let o := G.result (some (n, 0)) (x + 1)
  match (if cfg.deep then tr (some (some (n, 0))) o C else .ok (o, C)) with
  | .error e => .error e
  | .ok (t, C') =>
      if t = .arg (some (n, 0)) x then insertInCache cfg (.out n x) (some x) C'
      else
        match t with
        | .arg (some (m, k)) y =>
            if m = n ∧ G.result (some (n, 0)) (y + 1) = .arg (some (m, k)) y then insertInCache cfg (.out n x) (some y) C'
            else insertInCache cfg (.out n x) none C'
        | _ => insertInCache cfg (.out n x) none C'

/-- The origin of the input that was found. -/
def toOrigin (G : Graph) (n : Nd) : Except Err (Option Nat × Cache) → Except Err (Option Out × Cache)
  | .error e => .error e
  | .ok (r, C) => .ok (r.map (G.origin n), C)

/-- `rvsdg::OutputTracer::traceStep` (Trace.cpp:143-250). `th` is `tryTraceThroughGamma` and `tryTraceThroughTheta`. -/
def stepBase (G : Graph) (cfg : Cfg) (th : Out → M (Option Out)) (W : Option Rg) (o : Out) : M Out := fun C =>
  match o with
  | .out n x =>
      match G.kind n with
      | .gamma | .theta =>
          match th (.out n x) C with
          | .error e => .error e
          | .ok (some t, C') => .ok (t, C')
          | .ok (none, C') => .ok (o, C')
      | .phi => if cfg.interprocedural ∧ cfg.enterPhi then .ok (G.result (some (n, 0)) x, C) else .ok (o, C)
      | _ => .ok (o, C)
  | .arg r a =>
      if W = some r then .ok (o, C)
      else
        match r with
        | none => .ok (o, C)
        | some (n, _) =>
            match G.kind n with
            | .gamma => .ok (G.origin n a, C)
            | .theta =>
                match th (.out n a) C with
                | .error e => .error e
                | .ok (t, C') => if t = some (G.origin n a) then .ok (G.origin n a, C') else .ok (o, C')
            | .lambda nargs => if cfg.interprocedural ∧ nargs ≤ a then .ok (G.origin n (a - nargs), C) else .ok (o, C)
            | .delta => if cfg.interprocedural then .ok (G.origin n a, C) else .ok (o, C)
            | .phi =>
                if cfg.interprocedural ∧ G.nres r ≤ a then .ok (G.origin n (a - G.nres r), C) else .ok (o, C)
            | .simple _ => .ok (o, C)

/-- The LLVM-specific part of `llvm::OutputTracer::traceStep` (llvm/ir/Trace.cpp:36-56): what follows the step of the base class. -/
def stepLlvm (G : Graph) (cfg : Cfg) (t : Out) : Out :=
  match t with
  | .out n x =>
      if cfg.llvm ∧ G.kind n = .simple .barrier then G.origin n 0
      else if cfg.llvm ∧ cfg.loadedStates ∧ G.kind n = .simple .load ∧ G.isMem t then G.origin n x
      else t
  | _ => t

/-- `traceStep` (Trace.cpp:143-250, llvm/ir/Trace.cpp:30-59). -/
def step (G : Graph) (cfg : Cfg) (th : Out → M (Option Out)) (W : Option Rg) (o : Out) : M Out := fun C =>
  match stepBase G cfg th W o C with
  | .error e => .error e
  | .ok (t, C') => .ok (stepLlvm G cfg t, C')

/-- The loop of `trace` (Trace.cpp:27-42). -/
def loop (G : Graph) (cfg : Cfg) (th : Out → M (Option Out)) (W : Option Rg) : Nat → Out → M Out
  | 0, _ => fun _ => .error .fuel
  | N + 1, o => fun C =>
      match step G cfg th W o C with
      | .error e => .error e
      | .ok (t, C') => if t = o then .ok (o, C') else loop G cfg th W N t C'

/-- `tryTraceThroughGamma` (Trace.cpp:58-101) and `tryTraceThroughTheta` (Trace.cpp:103-140), depending on the node; for other outputs they
must not be called. -/
def through (G : Graph) (cfg : Cfg) (N : Nat) : Nat → Out → M (Option Out)
  | 0, _ => fun _ => .error .fuel
  | _ + 1, .arg _ _ => fun _ => .error .assertion
  | d + 1, .out n x => fun C =>
      match lookupInCache cfg C (.out n x) with
      | some r => .ok (r.map (G.origin n), C)
      | none =>
          match G.kind n with
          | .gamma =>
              toOrigin G n
                (gammaBranches G cfg (fun W o => loop G cfg (through G cfg N d) W N o) n x (List.range (G.nsub n)) none C)
          | .theta => toOrigin G n (thetaBody G cfg (fun W o => loop G cfg (through G cfg N d) W N o) n x C)
          | _ => .error .assertion

/-- `OutputTracer::trace` (Trace.cpp:21-42). -/
def trace (G : Graph) (cfg : Cfg) (N d : Nat) (W : Option Rg) (o : Out) : M Out :=
  loop G cfg (through G cfg N d) W N o

end Jlm.Rvsdg.Tracer
