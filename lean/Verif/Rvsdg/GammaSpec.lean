import Verif.Rvsdg.GammaModel
import Verif.Bits.Spec
/-
What a gamma node computes.
-/
namespace Jlm.Rvsdg.Gamma
open Jlm.Bits

/-- Run-time values: bit strings, control values (an alternative), anything else. -/
inductive Val where
  | bits (b : BVR)
  | ctl (alternative : Nat)
  | data (d : Nat)
deriving DecidableEq

/-- The unsigned number written by the bits, lsb first. -/
def decode : BVR → Nat
  | [] => 0
  | b :: bs => (if b = .one then 1 else 0) + 2 * decode bs

/-- `env`: values of the existing outputs; `comp c args`: the value the node output `c` of a
subregion computes from the values of the entry variables; `content`: value of the match-content
argument. -/
structure World where
  env : Nat → Val
  comp : Nat → List Val → Val
  content : Val

/-- The control value a match produces for an operand. -/
def matchVal (m : Match) : Val → Val
  | .bits b => .ctl (m.alternative (decode b))
  | v => v

/-- Value of an output of the outer region. -/
def evalOut (w : World) : Out → Val
  | .orig i => w.env i
  | .ctl a _ => .ctl a
  | .mtch m o => matchVal m (evalOut w o)
  | .const v => .bits v
  | .eq a b =>
    match evalOut w a, evalOut w b with
    | .bits x, .bits y => .bits (if decode x = decode y then [.one] else [.zero])
    | _, _ => .data 0
  | .ctlToInt p =>
    match evalOut w p with
    | .ctl k => .bits (if k = 0 then [.zero] else [.one])
    | v => v
  | .select p t f => if evalOut w p = .bits [.one] then evalOut w t else evalOut w f
  | .copied c args => w.comp c (args.map (evalOut w))

/-- Value of the predicate. -/
def predVal (w : World) : Pred → Val
  | .mtch m i => matchVal m (w.env i)
  | .ctl a _ => .ctl a
  | .other i => w.env i

/-- Value of a branch result's origin. -/
def branchVal (w : World) (g : Gamma) : BranchOrigin → Option Val
  | .entry j => g.entries[j]?.map w.env
  | .matchContent => some w.content
  | .ctl a _ => some (.ctl a)
  | .computed c => some (w.comp c (g.entries.map w.env))

/-- The value of an exit variable: that of the result of the subregion selected by the predicate. -/
def exitVal (w : World) (g : Gamma) (results : List BranchOrigin) : Option Val :=
  match predVal w g.pred with
  | .ctl k => results[k]?.bind (branchVal w g)
  | _ => none

/-- The predicate is a control value below the number of subregions, and a match predicate reads a
machine word of the width of its operation. Mapping keys are pairwise different (unordered_map) and
64-bit numbers that the operand can take. -/
def PredOk (w : World) (g : Gamma) : Prop :=
  (∃ k, predVal w g.pred = .ctl k ∧ k < g.nsubregions) ∧
  match g.pred with
  | .mtch m i => (∃ x : BitVec m.nbits, 0 < m.nbits ∧ w.env i = .bits (repr x)) ∧
      (m.mapping.map (·.1)).Nodup ∧ ∀ p ∈ m.mapping, p.1 < 2 ^ 64 ∧ p.1 < 2 ^ m.nbits
  | _ => True

/-- The action on an exit variable is correct: users are diverted only to an output with the value
of the exit variable. -/
def Preserves (w : World) (g : Gamma) (results : List BranchOrigin) : Act → Prop
  | .keep => True
  | .divert o => exitVal w g results = some (evalOut w o)
  | .abort => False

end Jlm.Rvsdg.Gamma
