import Verif.Rvsdg.TracerModel

/-!
# What the output tracer promises

Trace.hpp:16-24,109-125: the tracer finds "the source of the output's value". What that means is said by executions: an execution has
*instances* of regions - one for the branch that a gamma node takes, one for each iteration of a theta node, one for each call of a
lambda node, one for each phi node - and in each instance every output of the region has at most one value.
-/

namespace Jlm.Rvsdg.Tracer

variable {V : Type}

/-- An execution. -/
structure Exec (V : Type) where
  I : Type
  /-- the region that it is an instance of -/
  rg : I → Rg
  /-- the instance around it, in which the node is executed (a lambda: created) that the region belongs to -/
  up : I → I
  /-- the value of an output of the region in this instance; `none` if it is never computed -/
  val : I → Out → Option V
  /-- the number of the iteration -/
  iter : I → Nat

/-- `E` is an execution of `G`: what structural nodes, barriers and the memory states of loads do with values. Nothing is said about other
operations. -/
structure Exec.Of (G : Graph) (E : Exec V) : Prop where
  up : ∀ i n k, E.rg i = some (n, k) → E.rg (E.up i) = G.region n
  /-- entry variables of gamma nodes; argument 0 is the content of the match -/
  gammaIn : ∀ i n k a, E.rg i = some (n, k) → G.kind n = .gamma → 1 ≤ a → a < G.nin n →
    E.val i (.arg (some (n, k)) a) = E.val (E.up i) (G.origin n a)
  /-- exit variables of gamma nodes: the value comes from one of the branches -/
  gammaOut : ∀ p n x v, E.rg p = G.region n → G.kind n = .gamma → x < G.nout n → E.val p (.out n x) = some v →
    ∃ i k, k < G.nsub n ∧ E.rg i = some (n, k) ∧ E.up i = p ∧ E.val i (G.result (some (n, k)) x) = some v
  /-- the first iteration of a theta node gets the inputs, the others what the iteration before leaves -/
  thetaIn : ∀ i n, E.rg i = some (n, 0) → G.kind n = .theta →
    (∀ a, a < G.nin n → E.val i (.arg (some (n, 0)) a) = E.val (E.up i) (G.origin n a)) ∨
    ∃ j, E.rg j = some (n, 0) ∧ E.up j = E.up i ∧ E.iter j < E.iter i ∧
      ∀ a, a < G.nin n → E.val i (.arg (some (n, 0)) a) = E.val j (G.result (some (n, 0)) (a + 1))
  /-- the outputs of a theta node come from the last iteration -/
  thetaOut : ∀ p n x v, E.rg p = G.region n → G.kind n = .theta → x < G.nout n → E.val p (.out n x) = some v →
    ∃ i, E.rg i = some (n, 0) ∧ E.up i = p ∧ E.val i (G.result (some (n, 0)) (x + 1)) = some v
  /-- context variables -/
  lambdaCtx : ∀ i n na a, E.rg i = some (n, 0) → G.kind n = .lambda na → a < G.nin n →
    E.val i (.arg (some (n, 0)) (na + a)) = E.val (E.up i) (G.origin n a)
  deltaCtx : ∀ i n a, E.rg i = some (n, 0) → G.kind n = .delta → a < G.nin n →
    E.val i (.arg (some (n, 0)) a) = E.val (E.up i) (G.origin n a)
  phiCtx : ∀ i n a, E.rg i = some (n, 0) → G.kind n = .phi → a < G.nin n →
    E.val i (.arg (some (n, 0)) (G.nres (some (n, 0)) + a)) = E.val (E.up i) (G.origin n a)
  /-- the outputs of a phi node -/
  phiOut : ∀ p n x v, E.rg p = G.region n → G.kind n = .phi → x < G.nout n → E.val p (.out n x) = some v →
    ∃ i, E.rg i = some (n, 0) ∧ E.up i = p ∧ E.val i (G.result (some (n, 0)) x) = some v
  /-- a phi node is executed once where it stands -/
  phiOnce : ∀ i j n k, G.kind n = .phi → E.rg i = some (n, k) → E.rg j = some (n, k) → E.up i = E.up j → i = j
  /-- an `IOBarrierOperation` passes its operand on -/
  barrier : ∀ i n x v, E.rg i = G.region n → G.kind n = .simple .barrier → E.val i (.out n x) = some v →
    E.val i (G.origin n 0) = some v
  /-- a load does not change memory -/
  loadState : ∀ i n x v, E.rg i = G.region n → G.kind n = .simple .load → G.isMem (.out n x) = true → E.val i (.out n x) = some v →
    E.val i (G.origin n x) = some v

/-- `j` is `i` or an instance around it. -/
inductive Around (E : Exec V) : E.I → E.I → Prop
  | refl (i : E.I) : Around E i i
  | up (i : E.I) (n : Nd) (k : Nat) (j : E.I) : E.rg i = some (n, k) → Around E (E.up i) j → Around E i j

/-- `j` is `i` or in a phi node in it. -/
inductive InPhi (G : Graph) (E : Exec V) : E.I → E.I → Prop
  | refl (i : E.I) : InPhi G E i i
  | down (i j : E.I) (n : Nd) (k : Nat) : G.kind n = .phi → E.rg j = some (n, k) → InPhi G E i (E.up j) → InPhi G E i j

/-- The instances whose values are fixed in instance `i`: those around it and the phi nodes in those. -/
def Visible (G : Graph) (E : Exec V) (i j : E.I) : Prop := ∃ a, Around E i a ∧ InPhi G E a j

/-- Region `r` is `w` or nested in it. -/
inductive Sub (G : Graph) : Rg → Rg → Prop
  | refl (r : Rg) : Sub G r r
  | up (n : Nd) (k : Nat) (w : Rg) : Sub G (G.region n) w → Sub G (some (n, k)) w

/-- The output exists. -/
def Graph.Valid (G : Graph) : Out → Prop
  | .arg none a => a < G.narg none
  | .arg (some (n, k)) a => k < G.nsub n ∧ a < G.narg (some (n, k))
  | .out n x => x < G.nout n

/-- The content of the match of a gamma node. -/
def Graph.IsMatch (G : Graph) : Out → Prop
  | .arg (some (n, _)) 0 => G.kind n = .gamma
  | _ => False

/-- The graph is a well-formed RVSDG. `rank` numbers the outputs such that everything follows what it depends on (recursion variables of
phi nodes excepted), `depth` is the nesting of the regions. -/
structure Graph.Wf (G : Graph) (rank : Out → Nat) (depth : Rg → Nat) : Prop where
  depth : ∀ n k, depth (some (n, k)) = depth (G.region n) + 1
  /-- inputs and results are connected to outputs of the same region -/
  origin : ∀ n j, j < G.nin n → G.Valid (G.origin n j) ∧ G.regionOf (G.origin n j) = G.region n
  result : ∀ n k j, k < G.nsub n → j < G.nres (some (n, k)) →
    G.Valid (G.result (some (n, k)) j) ∧ G.regionOf (G.result (some (n, k)) j) = some (n, k)
  rankOut : ∀ n x j, x < G.nout n → j < G.nin n → rank (G.origin n j) < rank (.out n x)
  rankArg : ∀ n k a j, k < G.nsub n → a < G.narg (some (n, k)) → j < G.nin n →
    rank (G.origin n j) < rank (.arg (some (n, k)) a)
  rankResult : ∀ n k x j, k < G.nsub n → x < G.nout n → j < G.nres (some (n, k)) →
    rank (G.result (some (n, k)) j) < rank (.out n x)
  gamma : ∀ n, G.kind n = .gamma → 0 < G.nsub n ∧
    ∀ k, k < G.nsub n → G.narg (some (n, k)) = G.nin n ∧ G.nres (some (n, k)) = G.nout n
  theta : ∀ n, G.kind n = .theta → G.nsub n = 1 ∧ G.nout n = G.nin n ∧ G.narg (some (n, 0)) = G.nin n ∧
    G.nres (some (n, 0)) = G.nin n + 1
  lambda : ∀ n na, G.kind n = .lambda na → G.nsub n = 1 ∧ G.narg (some (n, 0)) = na + G.nin n
  delta : ∀ n, G.kind n = .delta → G.nsub n = 1 ∧ G.narg (some (n, 0)) = G.nin n
  phi : ∀ n, G.kind n = .phi → G.nsub n = 1 ∧ G.nres (some (n, 0)) = G.nout n ∧
    G.narg (some (n, 0)) = G.nres (some (n, 0)) + G.nin n
  barrier : ∀ n, G.kind n = .simple .barrier → 0 < G.nin n
  load : ∀ n, G.kind n = .simple .load → G.nin n = G.nout n

/-- The contents of matches are not used. -/
structure Graph.NoMatch (G : Graph) : Prop where
  origin : ∀ n j, j < G.nin n → ¬ G.IsMatch (G.origin n j)
  result : ∀ n k j, k < G.nsub n → j < G.nres (some (n, k)) → ¬ G.IsMatch (G.result (some (n, k)) j)

/-- `t` has the value of `o` in every execution, wherever `o` is computed. -/
def SameValue (G : Graph) (o t : Out) : Prop :=
  ∀ (V : Type) (E : Exec V), E.Of G → ∀ i v, E.rg i = G.regionOf o → E.val i o = some v →
    (∃ j, Visible G E i j ∧ E.rg j = G.regionOf t) ∧
    ∀ j, Visible G E i j → E.rg j = G.regionOf t → E.val j t = some v

/-- The same, with the value in an instance around that of `o`. -/
def SameValueAround (G : Graph) (o t : Out) : Prop :=
  ∀ (V : Type) (E : Exec V), E.Of G → ∀ i v, E.rg i = G.regionOf o → E.val i o = some v →
    (∃ j, Around E i j ∧ E.rg j = G.regionOf t) ∧
    ∀ j, Around E i j → E.rg j = G.regionOf t → E.val j t = some v

/-- The caches that a tracer can have: it is used with any configurations, one after the other. -/
inductive Reached (G : Graph) : Cache → Prop
  | empty : Reached G []
  | trace (cfg : Cfg) (N d : Nat) (W : Option Rg) (o : Out) (C C' : Cache) (t : Out) : Reached G C → G.Valid o → ¬ G.IsMatch o →
      Tracer.trace G cfg N d W o C = .ok (t, C') → Reached G C'

/-- The same with one configuration only. -/
inductive ReachedBy (G : Graph) (cfg : Cfg) (N : Nat) : Cache → Prop
  | empty : ReachedBy G cfg N []
  | trace (d : Nat) (W : Option Rg) (o : Out) (C C' : Cache) (t : Out) : ReachedBy G cfg N C →
      Tracer.trace G cfg N d W o C = .ok (t, C') → ReachedBy G cfg N C'

end Jlm.Rvsdg.Tracer
