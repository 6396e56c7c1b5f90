/-!
# Model of the local alias analysis

`jlm/llvm/opt/alias-analyses/LocalAliasAnalysis.cpp` (LAA below) and the tracing of pointers in
`jlm/llvm/ir/Trace.cpp` (T below).

Simplifications:

* Offsets and sizes are unbounded integers; sums do not wrap around.
* `traceOutput` (T:61-67) is the parameter `norm`; what is assumed of it is stated in LocalAaSpec.
* Unordered maps are association lists; the order of their elements does not matter to the queries.
* `none` means that the given fuel did not suffice.
* The memoization of `IsOriginalOriginFullyTraceable` (LAA:448-451) is left out.
-/

namespace Jlm.Aa.Local

abbrev Out := Nat

/-- What defines a pointer. -/
inductive Def
  /-- argument of a gamma subregion, context variable, `IOBarrier`: the value of another output -/
  | copy (o : Out)
  /-- `GetElementPtrOperation` with its base and, if it is constant, its offset in bytes -/
  | gep (base : Out) (off : Option Int)
  /-- `SelectOperation` with its two pointer operands -/
  | select (a b : Out)
  /-- `UndefValueOperation` -/
  | undef
  /-- exit variable of a gamma node, with the origins of its branch results -/
  | gamma (results : List Out)
  /-- output of a theta node, with the origin of the post result -/
  | thetaOut (post : Out)
  /-- argument of the subregion of a theta node, with the origins of the post result and the input -/
  | thetaPre (post input : Out)
  /-- `AllocaOperation`, with the size in bytes if it is constant -/
  | alloca (size : Option Nat)
  /-- `MallocOperation`, with the size in bytes if it is constant -/
  | malloc (size : Option Nat)
  | delta (size : Nat)
  /-- `LlvmGraphImport`, with the size unless it is 0 -/
  | import (size : Option Nat)
  | lambda
  /-- argument of the function -/
  | param
  /-- loads, calls, ... -/
  | other
  deriving DecidableEq

/-- A user of a pointer, as `IsOriginalOriginFullyTraceable` sees it (LAA:465-565). -/
inductive Use
  /-- the pointer goes on to these outputs: gamma and theta inputs and results, `IOBarrier`,
  `GetElementPtr`, select -/
  | flow (targets : List Out)
  /-- load, or address of a store -/
  | access
  /-- everything else -/
  | escape
  deriving DecidableEq

/-- The function that is analysed. -/
structure Fn where
  deff : Out → Def
  /-- `llvm::traceOutput` (T:61-67) -/
  norm : Out → Out
  users : Out → List Use

/-- `AliasAnalysis::AliasQueryResponse`. -/
inductive Response
  | noAlias
  | mayAlias
  | mustAlias
  deriving DecidableEq

/-- `TracePointerOriginPrecise` (T:152-181), with the sum of the constants (T:136-150): the base and
the offset from there. -/
def precise (F : Fn) : Nat → Out → Int → Option (Out × Int)
  | 0, _, _ => none
  | fuel + 1, p, off =>
      match F.deff (F.norm p) with
      | .gep base (some k) => precise F fuel base (off + k)
      | _ => some (F.norm p, off)

/-- `unordered_map<const Output *, optional<int64_t>>`. -/
abbrev Map := List (Out × Option Int)

def Map.set (m : Map) (o : Out) (off : Option Int) : Map := (o, off) :: m.filter fun e => e.1 ≠ o

/-- `TraceCollection` (Trace.hpp:124-140). -/
structure TC where
  all : Map
  tops : Map

/-- Where tracing goes on from an output, and with which offset (T:216-318); `none`: it is a top
origin (T:320-322). -/
def succs : Def → Option Int → Option (List Out × Option Int)
  | .gep base k, off => some ([base], match off, k with
      | some x, some y => some (x + y)
      | _, _ => none)
  | .select a b, off => some ([a, b], off)
  | .undef, off => some ([], off)
  | .gamma rs, off => some (rs, off)
  | .thetaOut post, off => some ([post], off)
  | .thetaPre post input, off => some ([post, input], off)
  | _, _ => none

/-- The output `b` is traced further, with offset `off` (T:214-322). -/
def expand (F : Fn) (b : Out) (off : Option Int) (tc : TC) : List (Out × Option Int) × TC :=
  match succs (F.deff b) off with
  | some (os, off') => (os.map fun o => (o, off'), ⟨tc.all.set b off, tc.tops⟩)
  | none => ([], ⟨tc.all.set b off, tc.tops.set b off⟩)

/-- `traceAllPointerOriginsInternal` (T:183-323): the calls that remain are kept on a stack. The
result is `false` if it gave up. -/
def traceAll (F : Fn) (max : Nat) : Nat → List (Out × Option Int) → TC → Option (Bool × TC)
  | 0, _, _ => none
  | _ + 1, [], tc => some (true, tc)
  | fuel + 1, (p, off) :: stack, tc =>
      if max ≤ tc.all.length then some (false, tc)
      else
        match tc.all.lookup (F.norm p) with
        | some none => traceAll F max fuel stack tc
        | some (some prev) =>
            if off = some prev then traceAll F max fuel stack tc
            else
              let r := expand F (F.norm p) none tc
              traceAll F max fuel (r.1 ++ stack) r.2
        | none =>
            let r := expand F (F.norm p) off tc
            traceAll F max fuel (r.1 ++ stack) r.2

/-- `QueryOffsets` (LAA:184-210). -/
def queryOffsets (o1 : Option Int) (s1 : Nat) (o2 : Option Int) (s2 : Nat) : Response :=
  match o1, o2 with
  | some o1, some o2 =>
      let d := o2 - o1
      if d = 0 then .mustAlias
      else if 0 ≤ d ∧ (s1 : Int) ≤ d then .noAlias
      else if d ≤ 0 ∧ (s2 : Int) ≤ -d then .noAlias
      else .mayAlias
  | _, _ => .mayAlias

/-- `IsOriginalOrigin` (LAA:212-236). -/
def isOriginal : Def → Bool
  | .alloca _ | .malloc _ | .delta _ | .import _ | .lambda => true
  | _ => false

/-- `rvsdg::IsOwnerNodeOperation<AllocaOperation>`. -/
def isAlloca : Def → Bool
  | .alloca _ => true
  | _ => false

/-- `GetOriginalOriginSize` (LAA:249-280). -/
def originSize : Def → Option Nat
  | .alloca s | .malloc s | .import s => s
  | .delta s => some s
  | _ => none

/-- `GetRemainingSize` (LAA:282-299). -/
def remaining (d : Def) (off : Option Int) : Option Nat :=
  (originSize d).map fun total =>
    match off with
    | none => total
    | some o => if 0 < o ∧ (total : Int) < o then 0 else ((total : Int) - o).toNat

/-- `RemoveTopOriginsWithRemainingSizeBelow` (LAA:301-323). -/
def removeBelow (F : Fn) (s : Nat) (m : Map) : Map :=
  m.filterMap fun e =>
    match remaining (F.deff e.1) e.2 with
    | some r => if r < s then none else if r = s ∧ e.2 = none then some (e.1, some 0) else some e
    | none => some e

/-- `GetMinimumOffsetFromStart` (LAA:325-350). -/
def minimumOffset (m : Map) : Nat :=
  if m.any fun e => e.2.isNone || e.2.any (· < 0) then 0
  else ((m.filterMap fun e => e.2.map Int.toNat).min?).getD 0

/-- `RemoveTopOriginsSmallerThanSize` (LAA:352-364). -/
def removeSmaller (F : Fn) (s : Nat) (m : Map) : Map :=
  m.filter fun e => !(originSize (F.deff e.1)).any (· < s)

/-- `RemoveTopOriginsWithinTheFirstNBytes` (LAA:366-384). The sum of a negative offset and a size
wraps around unless it is positive. -/
def removeWithin (F : Fn) (s n : Nat) (m : Map) : Map :=
  m.filter fun e => !(isOriginal (F.deff e.1) && e.2.any fun (o : Int) => 0 ≤ o + s && o + s ≤ n)

/-- `DoTraceCollectionsOverlap` (LAA:386-405). -/
def doOverlap (m1 : Map) (s1 : Nat) (m2 : Map) (s2 : Nat) : Bool :=
  m1.any fun e =>
    match m2.lookup e.1 with
    | some o2 => queryOffsets e.2 s1 o2 s2 != .noAlias
    | none => false

/-- `HasOnlyOriginalTopOrigins` (LAA:238-247). -/
def onlyOriginal (F : Fn) (m : Map) : Bool := m.all fun e => isOriginal (F.deff e.1)

/-- `hasOnlyAllocaTopOrigins` (LAA:407-416). -/
def onlyAlloca (F : Fn) (m : Map) : Bool := m.all fun e => isAlloca (F.deff e.1)

/-- `removeArgumentTopOrigins` (LAA:418-439). -/
def removeParams (F : Fn) (m : Map) : Map := m.filter fun e => F.deff e.1 ≠ .param

/-- The loop of `IsOriginalOriginFullyTraceable` (LAA:453-568): `queue` is the queue, `added` the set
of all outputs that were ever put into it. -/
def traceUsers (F : Fn) : Nat → List Out → List Out → Option Bool
  | 0, _, _ => none
  | _ + 1, [], _ => some true
  | fuel + 1, p :: queue, added =>
      if Use.escape ∈ F.users p then some false
      else
        let next := ((F.users p).flatMap fun u => match u with
          | .flow ts => ts
          | _ => []).eraseDups.filter fun o => o ∉ added
        traceUsers F fuel (queue ++ next) (added ++ next)

/-- `IsOriginalOriginFullyTraceable` (LAA:441-569). -/
def fullyTraceable (F : Fn) (fuel : Nat) (o : Out) : Option Bool :=
  if isAlloca (F.deff o) then traceUsers F fuel [o] [o] else some false

/-- `HasOnlyFullyTraceableTopOrigins` (LAA:571-581). -/
def onlyTraceable (F : Fn) (fuel : Nat) : Map → Option Bool
  | [] => some true
  | e :: m => (fullyTraceable F fuel e.1).bind fun b => if b then onlyTraceable F fuel m else some false

/-- Does tracing pass a loop variable that is not invariant? -/
def hasLoop (F : Fn) (m : Map) : Bool :=
  m.any fun e => match F.deff e.1 with
    | .thetaOut _ | .thetaPre _ _ => true
    | _ => false

/-- The second half of `Query` (LAA:100-182), for the collections of both pointers and the offsets from
the bases that were found at first. `strict = false` is /repo; the repaired program compares the
offsets from a single origin (LAA:105-112) only if no loop variable was passed on the way. -/
def queryTops (F : Fn) (strict : Bool) (fuel : Nat) (off1 : Int) (s1 : Nat) (off2 : Int) (s2 : Nat) (t1 t2 : TC) :
    Option Response :=
  let m1 := removeBelow F s1 t1.tops
  let m2 := removeBelow F s2 t2.tops
  let single : Option Response :=
    match m1, m2 with
    | [e1], [e2] =>
        if e1.1 = e2.1 ∧ !(strict && (hasLoop F t1.all || hasLoop F t2.all)) then some (queryOffsets e1.2 s1 e2.2 s2)
        else none
    | _, _ => none
  match single with
  | some r => some r
  | none =>
      let min1 := max (minimumOffset m1) off1.toNat
      let min2 := max (minimumOffset m2) off2.toNat
      let m2 := removeWithin F s2 min1 (removeSmaller F (min1 + s1) m2)
      let m1 := removeWithin F s1 min2 (removeSmaller F (min2 + s2) m1)
      if doOverlap m1 s1 m2 s2 then some .mayAlias
      else if onlyOriginal F m1 && onlyOriginal F m2 then some .noAlias
      else
        let m2' := if onlyAlloca F m1 then removeParams F m2 else m2
        let m1' := if onlyAlloca F m1 then m1 else if onlyAlloca F m2 then removeParams F m1 else m1
        if m1'.isEmpty || m2'.isEmpty then some .noAlias
        else
          (onlyTraceable F fuel m1').bind fun b1 =>
            if b1 then some .noAlias
            else (onlyTraceable F fuel m2').map fun b2 => if b2 then .noAlias else .mayAlias

/-- `LocalAliasAnalysis::Query` (LAA:50-183); `max` is `maxTraceCollectionSize_`. -/
def query (F : Fn) (strict : Bool) (max fuel : Nat) (p1 : Out) (s1 : Nat) (p2 : Out) (s2 : Nat) : Option Response :=
  if F.norm p1 = F.norm p2 then some .mustAlias
  else
    (precise F fuel (F.norm p1) 0).bind fun r1 =>
      (precise F fuel (F.norm p2) 0).bind fun r2 =>
        if r1.1 = r2.1 then some (queryOffsets (some r1.2) s1 (some r2.2) s2)
        else if max ≤ 1 then
          some (if isOriginal (F.deff r1.1) && isOriginal (F.deff r2.1) then .noAlias else .mayAlias)
        else
          (traceAll F max fuel [(r1.1, some r1.2)] ⟨[], []⟩).bind fun t1 =>
            if !t1.1 then some .mayAlias
            else
              (traceAll F max fuel [(r2.1, some r2.2)] ⟨[], []⟩).bind fun t2 =>
                if !t2.1 then some .mayAlias
                else queryTops F strict fuel r1.2 s1 r2.2 s2 t1.2 t2.2

end Jlm.Aa.Local
