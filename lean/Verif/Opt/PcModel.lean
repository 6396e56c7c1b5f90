import Verif.Opt.IvrModel

/-!
# Predicate correlation (model)

Model of `PredicateCorrelation::Run` (jlm/llvm/opt/PredicateCorrelation.cpp:282-409): the predicate of a loop that comes
from a gamma node with a constant in each branch is replaced by the predicate of the gamma node. The correlations are
those of `Ivr` (IvrModel). A `matchCorr` correlation is never acted upon (cpp:346-348), so the users of the match output
do not matter.
-/

namespace Jlm.Opt.Pc

open Jlm.Opt.Ivr

/-- The first two attempts of `computeThetaGammaPredicateCorrelation` (PredicateCorrelation.cpp:154-167). -/
def correlation (pred : Out) (sub : Nodes) : Option Corr :=
  match controlCorrelation pred sub with
  | some c => some c
  | none => matchConstantCorrelation pred sub

/-- `gammaNode.predicate()->origin()`. -/
def predicateOf : Node → Option Out
  | .gamma p _ _ _ => some p
  | _ => none

/-- `handleControlConstantCorrelation` and `handleMatchConstantCorrelation` (PredicateCorrelation.cpp:358-403): the new
origin of the predicate of the loop. -/
def redirect : Option Corr → Option Out
  | some (.control g [a, b]) => if a = 0 ∧ b = 1 then predicateOf g else none
  | some (.matchConstant g m d [a, b]) => if alternative m d a = 0 ∧ alternative m d b = 1 then predicateOf g else none
  | _ => none

/-- The loop of `correlatePredicatesInTheta` (PredicateCorrelation.cpp:322-356), with a bound for the number of
iterations. -/
def newPredicate (sub : Nodes) : Nat → Out → Out
  | 0, pred => pred
  | f + 1, pred =>
      match redirect (correlation pred sub) with
      | none => pred
      | some p => newPredicate sub f p

/-- Number of nodes of a region. -/
def size : Nodes → Nat
  | .nil => 0
  | .cons _ ns => size ns + 1

mutual

/-- One node in `correlatePredicatesInRegion` (PredicateCorrelation.cpp:285-319). -/
def corrNode : Node → Node
  | .simple op ins outs => .simple op ins outs
  | .gamma pred ins outs subs => .gamma pred ins outs (corrRegions subs)
  | .theta ins outs args pred posts sub =>
      .theta ins outs args (newPredicate (corrNodes sub) (size (corrNodes sub)) pred) posts (corrNodes sub)
  | .lambda ins args params results out sub => .lambda ins args params results out (corrNodes sub)
  | .phi ins args recs results outs sub => .phi ins args recs results outs (corrNodes sub)
  | .delta ins args result out sub => .delta ins args result out sub

/-- `correlatePredicatesInRegion` (PredicateCorrelation.cpp:282-320). -/
def corrNodes : Nodes → Nodes
  | .nil => .nil
  | .cons n ns => .cons (corrNode n) (corrNodes ns)

/-- The subregions of a gamma node (PredicateCorrelation.cpp:307-313). -/
def corrRegions : Regions → Regions
  | .nil => .nil
  | .cons args results sub rest => .cons args results (corrNodes sub) (corrRegions rest)

end

/-- `PredicateCorrelation::Run` (PredicateCorrelation.cpp:405-409). -/
def run (g : Graph) : Graph := { g with body := corrNodes g.body }

end Jlm.Opt.Pc
