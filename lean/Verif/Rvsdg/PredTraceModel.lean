import Verif.Rvsdg.TracerModel

/-!
# Model of the region predicate trace

`jlm/rvsdg/RegionPredicateTrace.{hpp,cpp}`: which values can a predicate have when a region is left, and can one region be reached after
another one.

*Simplifications.*
* Regions, inputs and outputs are names, as in the model of the output tracer.
* The recursion has fuel (`Err.fuel`); `C59_terminates` says how much is enough.
* Of the events that observers are told (RegionPredicateTrace.cpp:18-70), changes of the origin of an input are modelled; the destruction
  of nodes is not.
-/

namespace Jlm.Rvsdg.PredTrace

open Jlm.Rvsdg.Tracer (Nd Rg Out)

/-- `rvsdg::Input`: input `i` of node `n` or result `i` of region `r`. -/
inductive Inp
  | inp (n : Nd) (i : Nat)
  | res (r : Rg) (i : Nat)
  deriving DecidableEq, Repr

/-- Nodes as far as the trace tells them apart (RegionPredicateTrace.cpp:157-241). -/
inductive Kind
  /-- `ControlConstantOperation`, with the number of alternatives and the one it is -/
  | const (alternatives : Nat) (value : Nat)
  | simple
  | gamma
  | theta
  /-- lambda, phi, delta -/
  | other
  deriving DecidableEq, Repr

structure Graph where
  kind : Nd → Kind
  /-- the region that the node is in -/
  region : Nd → Rg
  /-- `input->origin()` -/
  origin : Inp → Out
  nsub : Nd → Nat
  /-- `input->Type()`: the number of alternatives if it is a `ControlType` -/
  ctl : Inp → Option Nat

/-- `input.region()`. -/
def Graph.regionI (G : Graph) : Inp → Rg
  | .inp n _ => G.region n
  | .res r _ => r

/-- `output.region()`. -/
def Graph.regionO (G : Graph) : Out → Rg
  | .arg r _ => r
  | .out n _ => G.region n

/-- `PredicateValueRange` (RegionPredicateTrace.hpp:24-82). -/
abbrev Range := List Bool

/-- `CreateEmpty` (hpp:30-34). -/
def Range.empty (n : Nat) : Range := List.replicate n false

/-- `CreateUnknown` (hpp:39-43). -/
def Range.unknown (n : Nat) : Range := List.replicate n true

/-- `CreateSingleValue` (hpp:48-54). -/
def Range.single (n v : Nat) : Range := (List.replicate n false).set v true

/-- `UpdateUnion` (hpp:59-67): as far as both go. -/
def Range.union : Range → Range → Range
  | a :: as, b :: bs => (a || b) :: Range.union as bs
  | as, [] => as
  | [], _ => []

/-- `AllowsValue` (hpp:72-76). -/
def Range.allows (r : Range) (v : Nat) : Bool := r.getD v false

inductive Err
  | fuel
  | assertion
  deriving DecidableEq, Repr

/-- `regionPredRange` and `visitedInputs` (cpp:103-108). -/
structure St where
  rr : List (Rg × Range)
  vis : List (Inp × Range)

abbrev M (α : Type) := St → Except Err (α × St)

/-- Overwrites the entry of a key. -/
def update (k : Rg) (v : Range) : List (Rg × Range) → List (Rg × Range)
  | [] => []
  | (k', v') :: l => if k' = k then (k', v) :: l else (k', v') :: update k v l

/-- The recording of a range for the region that the input is a result of (cpp:116-130). Only regions of structural nodes count, not the
root region. -/
def record (i : Inp) (range : Range) (rr : List (Rg × Range)) : List (Rg × Range) :=
  match i with
  | .res (some s) _ =>
      match rr.lookup (some s) with
      | some old => update (some s) (old.union range) rr
      | none => (some s, range) :: rr
  | _ => rr

/-- The loop over the branches of a gamma node (cpp:186-190). -/
def branches (go : Inp → M Range) (m : Nd) (x : Nat) : List Nat → Range → M Range
  | [], range => fun s => .ok (range, s)
  | k :: ks, range => fun s =>
      match go (.res (some (m, k)) x) s with
      | .error e => .error e
      | .ok (r, s') => branches go m x ks (range.union r) s'

/-- `loopVar.post->origin() == loopVar.pre` (cpp:201,231). The result of a loop variable has one more than its index (theta.cpp:140-173). -/
def Graph.invariant (G : Graph) (m : Nd) (k a : Nat) : Bool :=
  decide (G.origin (.res (some (m, k)) (a + 1)) = .arg (some (m, k)) a)

/-- `Compute` for an output of a node (cpp:155-213). -/
def computeOut (G : Graph) (c : Nat) (go : Inp → M Range) (m : Nd) (x : Nat) : Kind → M Range
  | .const n v => fun s => .ok (Range.single n v, s)
  | .gamma => branches go m x (List.range (G.nsub m)) (Range.empty c)
  | .theta => if G.invariant m 0 x then go (.inp m x) else go (.res (some (m, 0)) (x + 1))
  | _ => fun s => .ok (Range.unknown c, s)

/-- `Compute` for an argument of a subregion (cpp:214-245). Argument 0 of a gamma branch is the content of the match, argument `a` belongs
to input `a` (gamma.cpp:318-341). -/
def computeArg (G : Graph) (c : Nat) (go : Inp → M Range) (m : Nd) (k a : Nat) : Kind → M Range
  | .gamma => if a = 0 then fun s => .ok (Range.unknown c, s) else go (.inp m a)
  | .theta => if G.invariant m k a then go (.inp m a) else fun s => .ok (Range.unknown c, s)
  | _ => fun s => .ok (Range.unknown c, s)

/-- `RegionPredicateTrace::Compute` (cpp:141-250). `go` is `ComputeAndRecord`. -/
def compute (G : Graph) (c : Nat) (go : Inp → M Range) : Out → M Range
  | .out m x => computeOut G c go m x (G.kind m)
  | .arg (some (m, k)) a => computeArg G c go m k a (G.kind m)
  | .arg none _ => fun s => .ok (Range.unknown c, s)

/-- What `ComputeAndRecord` does with the range (cpp:116-135). -/
def finish (i : Inp) : Except Err (Range × St) → Except Err (Range × St)
  | .error e => .error e
  | .ok (r, s) =>
      match s.vis.lookup i with
      | some _ => .error .assertion
      | none => .ok (r, ⟨record i r s.rr, (i, r) :: s.vis⟩)

/-- `RegionPredicateTrace::ComputeAndRecord` (cpp:102-136). -/
def computeAndRecord (G : Graph) (c : Nat) : Nat → Inp → M Range
  | 0, _ => fun _ => .error .fuel
  | f + 1, i => fun s =>
      match s.vis.lookup i with
      | some r => .ok (r, s)
      | none => finish i (compute G c (computeAndRecord G c f) (G.origin i) s)

/-- The state of a `RegionPredicateTrace` object (hpp:245-252). -/
structure Trace where
  /-- `predAssignment_` -/
  assign : List (Inp × List (Rg × Range)) := []
  /-- `predSat_` -/
  sat : List (Rg × List (Inp × Nat)) := []
  /-- the regions in `observers_` -/
  obs : List Rg := []

/-- `ObserveRegion` (cpp:94-100). -/
def observe (r : Rg) (l : List Rg) : List Rg := if r ∈ l then l else r :: l

/-- The regions that `ComputeAndRecord` starts to observe: those in the map it makes (cpp:128). -/
def observeAll (rr : List (Rg × Range)) (l : List Rg) : List Rg := rr.foldr (fun e l => observe e.1 l) l

/-- The end of `GetRegionPredicateAssignConstraints` (cpp:275-278). -/
def rangeOf (rr : List (Rg × Range)) (c : Nat) (r : Rg) : Range := (rr.lookup r).getD (Range.unknown c)

/-- `GetRegionPredicateAssignConstraints` (cpp:252-279). -/
def getAssign (G : Graph) (fuel : Nat) (T : Trace) (r : Rg) (use : Inp) : Except Err (Range × Trace) :=
  match G.ctl use with
  | none => .ok (Range.empty 0, T)
  | some c =>
      match T.assign.lookup use with
      | some rr => .ok (rangeOf rr c r, T)
      | none =>
          match computeAndRecord G c fuel use ⟨[], []⟩ with
          | .error e => .error e
          | .ok (_, s) => .ok (rangeOf s.rr c r, { T with assign := (use, s.rr) :: T.assign, obs := observeAll s.rr T.obs })

/-- What is added to the requirements of the region around (cpp:296-304): the predicate is input 0 of the gamma node. -/
def ownReq (G : Graph) (n : Nd) (k : Nat) : List (Inp × Nat) :=
  match G.kind n with
  | .gamma => [(.inp n 0, k)]
  | _ => []

/-- `GetRegionSatRequired` (cpp:281-312). -/
def getSat (G : Graph) : Nat → Trace → Rg → Except Err (List (Inp × Nat) × Trace)
  | 0, _, _ => .error .fuel
  | f + 1, T, r =>
      match T.sat.lookup r with
      | some l => .ok (l, { T with obs := observe r T.obs })
      | none =>
          match r with
          | none => .ok ([], { T with obs := observe r T.obs, sat := (none, []) :: T.sat })
          | some (n, k) =>
              match getSat G f { T with obs := observe r T.obs } (G.region n) with
              | .error e => .error e
              | .ok (l, T') => .ok (l ++ ownReq G n k, { T' with sat := (r, l ++ ownReq G n k) :: T'.sat })

/-- The loop of `CheckPredicatesSatisfiable` (cpp:318-329). -/
def checkAll (G : Graph) (fuel : Nat) (r : Rg) : List (Inp × Nat) → Trace → Except Err (Bool × Trace)
  | [], T => .ok (true, T)
  | (use, v) :: l, T =>
      match getAssign G fuel T r use with
      | .error e => .error e
      | .ok (a, T') => if a.allows v then checkAll G fuel r l T' else .ok (false, T')

/-- `CheckPredicatesSatisfiable` (cpp:314-332). -/
def check (G : Graph) (fuel : Nat) (T : Trace) (originRegion targetRegion : Rg) : Except Err (Bool × Trace) :=
  match getSat G fuel T targetRegion with
  | .error e => .error e
  | .ok (l, T') => checkAll G fuel originRegion l T'

/-- `Input::divert_to`: another origin for an input. -/
def Graph.divert (G : Graph) (i : Inp) (o : Out) : Graph := { G with origin := fun j => if j = i then o else G.origin j }

/-- `Observer::onInputChange` (cpp:52-63), called if the region of the input is observed, and `Clear` (cpp:77-92). -/
def onInputChange (G : Graph) (i : Inp) (T : Trace) : Trace :=
  if G.regionI i ∈ T.obs ∧ (G.ctl i).isSome then { T with assign := [], sat := [] } else T

end Jlm.Rvsdg.PredTrace
