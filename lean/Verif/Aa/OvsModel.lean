import Verif.Aa.NaiveModel
import Verif.Util.TarjanModel
/-
Model of the offline preprocessing of constraints, `PointerObjectConstraintSet::NormalizeConstraints`
and `PerformOfflineVariableSubstitution`,
jlm/llvm/opt/alias-analyses/PointerObjectSet.cpp:1251-1545, on the pointer object set with root
functions.

* A call node is identified with its list of registers (`Call`).
* `regs` lists the indices in the register map, `fns` the indices in the function map.
* The counts that the functions return are dropped.
-/
namespace Jlm.Llvm.Aa
open Jlm.Util

/-- a constraint with all indices replaced by unification roots, PointerObjectSet.cpp:1502-1537 -/
def Constraint.norm (s : RSet) : Constraint → Constraint
  | .superset a b => .superset (s.root a) (s.root b)
  | .store p v => .store (s.root p) (s.root v)
  | .load v p => .load (s.root v) (s.root p)
  | .call p c => .call (s.root p) c

/-- a no-op constraint, PointerObjectSet.cpp:1507-1509 -/
def Constraint.trivial : Constraint → Bool
  | .superset a b => a == b
  | _ => false

/-- the loop of `NormalizeConstraints`, PointerObjectSet.cpp:1499-1540; the four sets of added
constraints are the constraints in `acc` -/
def normalizeStep (s : RSet) (acc : List Constraint) (c : Constraint) : List Constraint :=
  let c := c.norm s
  if c.trivial then acc else if acc.contains c then acc else acc ++ [c]

/-- `NormalizeConstraints`, PointerObjectSet.cpp:1487-1545 -/
def normalize (s : RSet) (cs : List Constraint) : List Constraint := cs.foldl (normalizeStep s) []

namespace Ovs

/-- the input of the substitution besides the set -/
structure In where
  regs : List Nat
  fns : List Nat
  fn : Nat → Fn
  cs : List Constraint

/-- whether a node is direct in the end, PointerObjectSet.cpp:1262-1274 and 1305-1314 -/
def direct (s : RSet) (I : In) (i : Nat) : Bool :=
  I.regs.contains i && (s.pointees i).isEmpty &&
  !(I.fns.any fun f => (I.fn f).args.contains (some i)) &&
  !(I.cs.any fun c => match c with
    | .call _ c => c.outs.contains (some i)
    | _ => false)

/-- the edges that one constraint adds to the graph; `n(v)` is node `v`, `n(*v)` is node `v + n`,
PointerObjectSet.cpp:1279-1304 -/
def edgesOf (s : RSet) : Constraint → List (Nat × Nat)
  | .superset a b => [(s.root b, s.root a), (s.root b + s.n, s.root a + s.n)]
  | .store p v => [(s.root v, s.root p + s.n)]
  | .load v p => [(s.root p + s.n, s.root v)]
  | .call _ _ => []

/-- `CreateOvsSubsetGraph`, PointerObjectSet.cpp:1251-1320 -/
def succs (s : RSet) (cs : List Constraint) (a : Nat) : List Nat :=
  (((cs.flatMap (edgesOf s)).filter fun e => e.1 == a).map (·.2)).foldl ins []

/-- `predecessorEquivalenceLabels`, PointerObjectSet.cpp:1342-1345 -/
inductive Pred where
  | noneYet
  | one (label : Nat)
  | several
  deriving DecidableEq

structure Labels where
  label : Nat → Option Nat
  pred : Nat → Pred
  next : Nat

/-- PointerObjectSet.cpp:1373-1384 -/
def inform (scc : Nat → Nat) (l : Nat) (st : Labels) (t : Nat) : Labels :=
  match st.pred (scc t) with
  | .several => st
  | .noneYet => { st with pred := upd st.pred (scc t) (.one l) }
  | .one k => if k = l then st else { st with pred := upd st.pred (scc t) .several }

/-- give the component a label if it has none, PointerObjectSet.cpp:1354-1368 -/
def assign (scc : Nat → Nat) (directOnly : Nat → Bool) (st : Labels) (node : Nat) : Labels :=
  match st.label (scc node) with
  | some _ => st
  | none =>
    match directOnly (scc node), st.pred (scc node) with
    | true, .one l => { st with label := upd st.label (scc node) (some l) }
    | _, _ => { st with label := upd st.label (scc node) (some st.next), next := st.next + 1 }

/-- the body of the loop over the nodes, PointerObjectSet.cpp:1351-1385 -/
def labelNode (succ : Nat → List Nat) (scc : Nat → Nat) (directOnly : Nat → Bool) (st : Labels) (node : Nat) : Labels :=
  let st := assign scc directOnly st node
  (succ node).foldl (inform scc ((st.label (scc node)).getD 0)) st

/-- `AssignOvsEquivalenceSetLabels`, PointerObjectSet.cpp:1329-1389; `order` is the topological order -/
def labels (succ : Nat → List Nat) (scc : Nat → Nat) (directOnly : Nat → Bool) (order : List Nat) : Labels :=
  order.foldl (labelNode succ scc directOnly) { label := fun _ => none, pred := fun _ => .noneYet, next := 0 }

/-- the variables of the loop that unifies; `pairs` are the calls of `UnifyPointerObjects` -/
structure Uni where
  set : RSet
  root : Nat → Option Nat
  pairs : List (Nat × Nat)

/-- PointerObjectSet.cpp:1442-1455 -/
def uniStep (lab : Nat → Nat) (u : Uni) (i : Nat) : Uni :=
  if u.set.root i ≠ i then u
  else
    match u.root (lab i) with
    | some r =>
      let v := u.set.unify i r
      { set := v.2, root := upd u.root (lab i) (some v.1), pairs := u.pairs ++ [(i, r)] }
    | none => { u with root := upd u.root (lab i) (some i) }

/-- one representative for each component, PointerObjectSet.cpp:1466-1471 -/
def refRoots (s : RSet) (scc : Nat → Nat) (n : Nat) : Nat → Option Nat :=
  (List.range n).foldl (fun r i => if (r (scc i)).isNone then upd r (scc i) (some (s.root i)) else r) (fun _ => none)

/-- what the substitution produces: the new set, the unifications, and
`RefNodeUnificationRoot_`, PointerObjectSet.cpp:1458-1482 -/
structure Out where
  set : RSet
  pairs : List (Nat × Nat)
  ref : Nat → Option Nat

/-- whether all nodes of component `c` are direct, PointerObjectSet.cpp:1418-1424 -/
def directOnly (s : RSet) (I : In) (scc : Nat → Nat) (c : Nat) : Bool :=
  (List.range (2 * s.n)).all fun v => scc v != c || (decide (v < s.n) && direct s I v)

/-- the final label of a node -/
def labelOf (s : RSet) (I : In) (r : Tarjan.Result) (i : Nat) : Nat :=
  ((labels (succs s I.cs) r.sccIndex (directOnly s I r.sccIndex) r.reverseTopologicalOrder.reverse).label (r.sccIndex i)).getD 0

/-- the part of `PerformOfflineVariableSubstitution` that uses the components,
PointerObjectSet.cpp:1418-1485 -/
def finish (s : RSet) (I : In) (r : Tarjan.Result) : Out :=
  let u := (List.range s.n).foldl (uniStep (labelOf s I r)) { set := s, root := fun _ => none, pairs := [] }
  let rr := refRoots u.set r.sccIndex s.n
  { set := u.set, pairs := u.pairs, ref := fun i => if i < s.n then rr (r.sccIndex (i + s.n)) else none }

/-- `PerformOfflineVariableSubstitution`, PointerObjectSet.cpp:1391-1485; `none` if the computation of
the components fails -/
def perform (s : RSet) (I : In) : Option Out :=
  (Tarjan.findSccs ⟨2 * s.n, id, succs s I.cs⟩ (fun _ => 0)).map (finish s I)

end Ovs
end Jlm.Llvm.Aa
