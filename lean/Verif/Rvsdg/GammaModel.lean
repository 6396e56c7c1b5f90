import Verif.Bits.Model
import Mathlib.Data.List.Dedup
/-
A gamma node seen from the region that contains it: jlm/rvsdg/gamma.cpp, control.hpp and
jlm/llvm/opt/IfConversion.cpp.
-/
namespace Jlm.Rvsdg.Gamma
open Jlm.Bits

/-- MatchOperation, jlm/rvsdg/control.hpp:157-259; the mapping in the iteration order of the
unordered_map. -/
structure Match where
  nbits : Nat
  mapping : List (Nat × Nat)
  defaultAlternative : Nat
  nalternatives : Nat

/-- MatchOperation::alternative, control.hpp:185-193. -/
def Match.alternative (m : Match) (value : Nat) : Nat :=
  match m.mapping.lookup value with
  | some a => a
  | none => m.defaultAlternative

/-- An output of the region containing the gamma node: an output that existed before, or one of the
nodes the transformations create. -/
inductive Out where
  /-- existing output number i -/
  | orig (i : Nat)
  /-- ControlConstantOperation node -/
  | ctl (alternative nalternatives : Nat)
  /-- MatchOperation node, control.hpp:219-233 -/
  | mtch (m : Match) (value : Out)
  /-- IntegerConstantOperation node -/
  | const (v : BVR)
  /-- IntegerEqOperation node -/
  | eq (a b : Out)
  /-- ControlToIntOperation node from a two-alternative control value to one bit -/
  | ctlToInt (p : Out)
  /-- SelectOperation node, jlm/llvm/ir/operators/operators.hpp:130-166: predicate, true, false -/
  | select (p t f : Out)
  /-- result of a copied subregion: copy of the origin `c` of a branch result, with the branch
  arguments replaced by the given outputs -/
  | copied (c : Nat) (args : List Out)

/-- Origin of a branch result (`exitvar.branchResult[n]->origin()`). -/
inductive BranchOrigin where
  /-- the branch argument of entry variable j: a RegionArgument whose input is entry input j -/
  | entry (j : Nat)
  /-- the match-content argument (gamma.cpp:230-233): a RegionArgument without input -/
  | matchContent
  /-- output of a ControlConstantOperation with the given alternative and number of alternatives -/
  | ctl (alternative nalternatives : Nat)
  /-- any other output of a node in the branch, identified by c -/
  | computed (c : Nat)
deriving DecidableEq

/-- Origin of the predicate of the gamma. -/
inductive Pred where
  /-- output of a match node with the given operation and operand -/
  | mtch (m : Match) (value : Nat)
  /-- output of a ControlConstantOperation -/
  | ctl (alternative nalternatives : Nat)
  /-- any other control output, number i -/
  | other (i : Nat)

/-- A gamma node: predicate, the origins of the entry variables, and for each exit variable the list
of the origins of its branch results, one per subregion (gamma.hpp EntryVar/ExitVar).
Simplification: the inside of a subregion is represented only by the origins of its results. -/
structure Gamma where
  pred : Pred
  nsubregions : Nat
  entries : List Nat
  exits : List (List BranchOrigin)
  /-- `is<ControlType>(*exitvar.output->Type())` for each exit variable -/
  isCtl : List Bool

/-- What happens to an exit variable's users: nothing, diverted to an output, or the code fails an
assertion / throws / has undefined behaviour. -/
inductive Act where
  | keep
  | divert (o : Out)
  | abort

/-- gamma.cpp:26-44 perform_predicate_reduction: the users of exit variable `results` are diverted to
the copy of the origin in subregion `alternative`. Reading a missing alternative is undefined. A
match-content argument has no substitute in the map (smap.lookup throws). -/
def predicateReduction (g : Gamma) (alternative : Nat) (results : List BranchOrigin) : Act :=
  match results[alternative]? with
  | none => .abort
  | some (.entry j) =>
    match g.entries[j]? with
    | some i => .divert (.orig i)
    | none => .abort
  | some .matchContent => .abort
  | some (.ctl a n) => .divert (.ctl a n)
  | some (.computed c) => .divert (.copied c (g.entries.map .orig))

/-- gamma.cpp:46-75 perform_invariant_reduction for one exit variable: the for loop over the
branches n ≥ 1. Because the test is `!argument && argument->input() != input`, an argument never
breaks the loop, whatever its input; a non-argument is a null dereference (`none`). -/
def invariantLoop : List BranchOrigin → Option Unit
  | [] => some ()
  | .entry _ :: rest => invariantLoop rest
  | .matchContent :: rest => invariantLoop rest
  | .ctl _ _ :: _ => none
  | .computed _ :: _ => none

/-- gamma.cpp:46-75 perform_invariant_reduction for one exit variable. -/
def invariantReduction (g : Gamma) (results : List BranchOrigin) : Act :=
  match results with
  | .entry j :: rest =>
    match invariantLoop rest, g.entries[j]? with
    | some (), some i => .divert (.orig i)
    | _, _ => .abort
  | .matchContent :: _ => .abort    -- argument->input() is null (line 69)
  | _ => .keep

/-- gamma.cpp:77-114 is_control_constant_reducible for one exit variable; `dedup.length` is the size
of the set of alternatives. -/
def ctlReducible (g : Gamma) (m : Match) (isCtl : Bool) (results : List BranchOrigin) : Bool :=
  (m.defaultAlternative :: m.mapping.map (·.2)).dedup.length = g.nsubregions
  && isCtl
  && results.all fun r => match r with
      | .ctl _ n => n = 2
      | _ => false

/-- gamma.cpp:124-126: the inverse map; a later pair overwrites an earlier one. -/
def inverseMap (mapping : List (Nat × Nat)) (n : Nat) : Option Nat :=
  mapping.foldl (fun acc p => if p.2 = n then some p.1 else acc) none

/-- Insert or overwrite an entry of an unordered_map. -/
def upsert (k v : Nat) (l : List (Nat × Nat)) : List (Nat × Nat) :=
  (k, v) :: l.filter (fun p => p.1 ≠ k)

/-- gamma.cpp:133-148: the loop over the branches; `n` is the branch number. -/
def newMapping (inv : Nat → Option Nat) :
    Nat → List BranchOrigin → List (Nat × Nat) → Nat → Nat → List (Nat × Nat) × Nat × Nat
  | _, [], mapping, dflt, nalt => (mapping, dflt, nalt)
  | n, .ctl a k :: rest, mapping, dflt, _ =>
    match inv n with
    | some key => newMapping inv (n + 1) rest (upsert key a mapping) dflt k
    | none => newMapping inv (n + 1) rest mapping a k
  | n, _ :: rest, mapping, dflt, nalt => newMapping inv (n + 1) rest mapping dflt nalt

/-- gamma.cpp:116-153 perform_control_constant_reduction for one exit variable selected by
is_control_constant_reducible. -/
def ctlReduction (g : Gamma) (isCtl : Bool) (results : List BranchOrigin) : Act :=
  match g.pred with
  | .mtch m value =>
    if ctlReducible g m isCtl results then
      let r := newMapping (inverseMap m.mapping) 0 results [] 0 0
      .divert (.mtch ⟨m.nbits, r.1, r.2.1, r.2.2⟩ (.orig value))
    else .keep
  | _ => .keep

/-- A `uint64_t` passed as `int64_t`. -/
def asInt64 (v : Nat) : Int := (BitVec.ofNat 64 v).toInt

/-- jlm/llvm/opt/IfConversion.cpp:96-190: the treatment of one exit variable by
IfConversion::HandleGammaNode. -/
def ifConvert (g : Gamma) (results : List BranchOrigin) : Act :=
  if g.nsubregions ≠ 2 then .keep
  else
    let go (i0 i1 : Nat) : Act :=
      if i0 = i1 then .divert (.orig i0)
      else
        match g.pred with
        | .mtch m value =>
          match m.mapping with
          | [(caseValue, caseSubregion)] =>
            if caseSubregion = m.defaultAlternative then .abort
            else if m.nbits = 1 ∧ caseValue = caseSubregion then
              .divert (.select (.orig value) (.orig i1) (.orig i0))
            else
              match BVR.ofInt m.nbits (asInt64 caseValue) with
              | none => .abort
              | some c =>
                let t := if caseSubregion = 0 then i0 else i1
                let f := if caseSubregion = 0 then i1 else i0
                .divert (.select (.eq (.const c) (.orig value)) (.orig t) (.orig f))
          | _ => .keep
        | .ctl a n => .divert (.select (.ctlToInt (.ctl a n)) (.orig i1) (.orig i0))
        | .other i => .divert (.select (.ctlToInt (.orig i)) (.orig i1) (.orig i0))
    match results with
    | [.entry j0, .entry j1] =>
      match g.entries[j0]?, g.entries[j1]? with
      | some i0, some i1 => go i0 i1
      | _, _ => .abort
    | [.matchContent, .entry _] => .abort
    | [.entry _, .matchContent] => .abort
    | [.matchContent, .matchContent] => .abort
    | _ => .keep

end Jlm.Rvsdg.Gamma
