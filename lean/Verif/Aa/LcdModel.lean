import Verif.Aa.WorklistModel
/-
Model of the lazy cycle detector, jlm/llvm/opt/alias-analyses/LazyCycleDetection.hpp, together with
`UnifyPointerObjects` of the solver as far as it concerns the detector (sets and edges).
-/
namespace Jlm.Llvm.Aa

/-- LazyCycleDetection.hpp:175-177 -/
inductive Lcd.Mark where
  | notVisited
  | visited
  | popped
  deriving DecidableEq

/-- the state of `OnPropagatedNothing`, LazyCycleDetection.hpp:63-135. `pairs` records the calls of
`UnifyPointerObjects`. -/
structure Lcd where
  set : RSet
  edges : Nat → List Nat
  subset : Nat
  mark : Nat → Lcd.Mark
  /-- top first -/
  stack : List Nat
  pairs : List (Nat × Nat)

namespace Lcd

/-- `UnifyPointerObjects(node, subset)`, PointerObjectSet.cpp:1648-1689 -/
def join (node : Nat) (l : Lcd) : Lcd :=
  let ra := l.set.root node
  let rb := l.set.root l.subset
  if ra = rb then { l with subset := ra, pairs := l.pairs ++ [(node, l.subset)] }
  else
    let u := l.set.unify ra rb
    let root := u.1
    let non := if root = ra then rb else ra
    { l with
      set := u.2
      edges := upd (upd l.edges root (((uni (l.edges root) (l.edges non)).filter (· ≠ root)).filter (· ≠ non))) non []
      subset := root
      pairs := l.pairs ++ [(node, l.subset)] }

/-- the body of the loop, LazyCycleDetection.hpp:84-124. `ord` is the order in which the hash set of
successors is enumerated. -/
def step (ord : Lcd → List Nat → List Nat) (l : Lcd) : Lcd :=
  match l.stack with
  | [] => l
  | node :: rest =>
    match l.mark node with
    | .notVisited =>
      let mark := upd l.mark node .visited
      let next := ((ord l (l.edges node)).map l.set.root).filter (fun r => r ≠ l.subset && mark r = .notVisited)
      { l with mark := mark, stack := next.reverse ++ node :: rest }
    | .visited =>
      let l' := { l with mark := upd l.mark node .popped, stack := rest }
      if (ord l (l.edges node)).any (fun t => l.set.root t = l.subset) then l'.join node else l'
    | .popped => { l with stack := rest }

/-- the loop, LazyCycleDetection.hpp:82-125 -/
def loop (ord : Lcd → List Nat → List Nat) : Nat → Lcd → Option Lcd
  | 0, l => if l.stack = [] then some l else none
  | k + 1, l => if l.stack = [] then some l else loop ord k (l.step ord)

/-- LazyCycleDetection.hpp:76-80 -/
def start (s : RSet) (edges : Nat → List Nat) (sub sup : Nat) : Lcd :=
  { set := s, edges := edges, subset := sub, mark := fun _ => .notVisited, stack := [sup], pairs := [] }

/-- enough iterations, see `lcd_terminates` -/
def fuel (n : Nat) (edges : Nat → List Nat) : Nat := ((List.range n).map fun m => (edges m).length + 1).sum + 1

/-- the result of `OnPropagatedNothing`, LazyCycleDetection.hpp:127-134 -/
def result (sup : Nat) (l : Lcd) : Option Nat := if l.subset = l.set.root sup then some l.subset else none

/-- `OnPropagatedNothing`, LazyCycleDetection.hpp:63-135, as the detector of a worklist solver. The
state of the detector is the set of checked edges. -/
def det (ord : Lcd → List Nat → List Nat) (checked : List (Nat × Nat)) (s : RSet) (edges : Nat → List Nat)
    (sub sup : Nat) : List (Nat × Nat) × List (Nat × Nat) :=
  if checked.contains (sub, sup) then (checked, [])
  else ((sub, sup) :: checked,
    match loop ord (fuel s.n edges) (start s edges sub sup) with
    | some l => l.pairs
    | none => [])

end Lcd
end Jlm.Llvm.Aa
