import Verif.Rvsdg.PredTraceModel

/-!
# What the region predicate trace promises

RegionPredicateTrace.hpp:165-189: if the check says no, "any value generated in `originRegion` cannot be the value ultimately used in
`targetRegion`". That is said by executions, as for the output tracer: an execution has *instances* of regions - one for the branch that a
gamma node takes, one for each iteration of a theta node - and in each instance every control output of the region has at most one value.
-/

namespace Jlm.Rvsdg.PredTrace

open Jlm.Rvsdg.Tracer (Nd Rg Out)

/-! ## The graph -/

/-- Region `r` is `w` or nested in it. -/
inductive Sub (G : Graph) : Rg → Rg → Prop
  | refl (r : Rg) : Sub G r r
  | up (n : Nd) (k : Nat) (w : Rg) : Sub G (G.region n) w → Sub G (some (n, k)) w

/-- The graph is a well-formed RVSDG, as far as inputs with control type go. `rank` numbers the outputs as in the text of the program: what
is in a node comes after its operands and before its outputs. `depth` is the nesting of the regions. -/
structure Graph.Wf (G : Graph) (rank : Out → Nat) (depth : Rg → Nat) : Prop where
  depth : ∀ n k, depth (some (n, k)) = depth (G.region n) + 1
  /-- inputs are connected to outputs of the same region -/
  origin : ∀ i c, G.ctl i = some c → G.regionO (G.origin i) = G.regionI i
  rankOut : ∀ n j c x, G.ctl (.inp n j) = some c → rank (G.origin (.inp n j)) < rank (.out n x)
  rankIn : ∀ n j c k o, G.ctl (.inp n j) = some c → Sub G (G.regionO o) (some (n, k)) → rank (G.origin (.inp n j)) < rank o
  rankUp : ∀ n k o x, Sub G (G.regionO o) (some (n, k)) → rank o < rank (.out n x)
  /-- types -/
  gamma : ∀ n, G.kind n = .gamma → G.ctl (.inp n 0) = some (G.nsub n)
  gammaOut : ∀ i c n x k, G.ctl i = some c → G.origin i = .out n x → G.kind n = .gamma → k < G.nsub n →
    G.ctl (.res (some (n, k)) x) = some c
  gammaArg : ∀ i c n k a, G.ctl i = some c → G.origin i = .arg (some (n, k)) a → G.kind n = .gamma → a ≠ 0 →
    G.ctl (.inp n a) = some c
  thetaOut : ∀ i c n x, G.ctl i = some c → G.origin i = .out n x → G.kind n = .theta →
    G.ctl (.inp n x) = some c ∧ G.ctl (.res (some (n, 0)) (x + 1)) = some c
  thetaArg : ∀ i c n k a, G.ctl i = some c → G.origin i = .arg (some (n, k)) a → G.kind n = .theta →
    k = 0 ∧ G.ctl (.inp n a) = some c ∧ G.ctl (.res (some (n, k)) (a + 1)) = some c
  const : ∀ i c n x m v, G.ctl i = some c → G.origin i = .out n x → G.kind n = .const m v → m = c ∧ v < c

/-- The value of input `i` is that of input `j`, in one way of executing the graph. -/
inductive Leads (G : Graph) : Inp → Inp → Prop
  /-- from a branch of a gamma node -/
  | gammaOut (i : Inp) (n : Nd) (x k : Nat) : G.origin i = .out n x → G.kind n = .gamma → k < G.nsub n →
      Leads G i (.res (some (n, k)) x)
  /-- from an operand of a gamma node -/
  | gammaArg (i : Inp) (n : Nd) (k a : Nat) : G.origin i = .arg (some (n, k)) a → G.kind n = .gamma → a ≠ 0 → Leads G i (.inp n a)
  /-- from before a theta node, as the loop variable never changes -/
  | thetaOut (i : Inp) (n : Nd) (x : Nat) : G.origin i = .out n x → G.kind n = .theta →
      G.origin (.res (some (n, 0)) (x + 1)) = .arg (some (n, 0)) x → Leads G i (.inp n x)
  /-- from the last iteration of a theta node -/
  | thetaPost (i : Inp) (n : Nd) (x : Nat) : G.origin i = .out n x → G.kind n = .theta →
      G.origin (.res (some (n, 0)) (x + 1)) ≠ .arg (some (n, 0)) x → Leads G i (.res (some (n, 0)) (x + 1))
  /-- from an operand of a theta node, as the loop variable never changes -/
  | thetaArg (i : Inp) (n : Nd) (k a : Nat) : G.origin i = .arg (some (n, k)) a → G.kind n = .theta →
      G.origin (.res (some (n, k)) (a + 1)) = .arg (some (n, k)) a → Leads G i (.inp n a)

/-- Any number of steps. -/
inductive Leads.Star (G : Graph) : Inp → Inp → Prop
  | refl (i : Inp) : Leads.Star G i i
  | tail (i j k : Inp) : Leads.Star G i j → Leads G j k → Leads.Star G i k

/-- What the input is connected to is not followed any further: its value can be anything. -/
inductive Opaque (G : Graph) : Inp → Prop
  | simple (i : Inp) (n : Nd) (x : Nat) : G.origin i = .out n x → G.kind n = .simple → Opaque G i
  | node (i : Inp) (n : Nd) (x : Nat) : G.origin i = .out n x → G.kind n = .other → Opaque G i
  | root (i : Inp) (a : Nat) : G.origin i = .arg none a → Opaque G i
  /-- the content of the match -/
  | content (i : Inp) (n : Nd) (k : Nat) : G.origin i = .arg (some (n, k)) 0 → G.kind n = .gamma → Opaque G i
  /-- a loop variable that changes -/
  | loop (i : Inp) (n : Nd) (k a : Nat) : G.origin i = .arg (some (n, k)) a → G.kind n = .theta →
      G.origin (.res (some (n, k)) (a + 1)) ≠ .arg (some (n, k)) a → Opaque G i
  | arg (i : Inp) (n : Nd) (k a : Nat) : G.origin i = .arg (some (n, k)) a → G.kind n ≠ .gamma → G.kind n ≠ .theta → Opaque G i

/-- The input gets value `v` directly: from a constant, or it is not known where from. -/
def Source (G : Graph) (c : Nat) (i : Inp) (v : Nat) : Prop :=
  (∃ n x m, G.origin i = .out n x ∧ G.kind n = .const m v) ∨ (Opaque G i ∧ v < c)

/-- The input can have value `v`. -/
def May (G : Graph) (c : Nat) (i : Inp) (v : Nat) : Prop := ∃ j, Leads.Star G i j ∧ Source G c j v

/-- The values that predicate `use` can have if its value is that of a result of region `r`; all if no result of the region matters for it. -/
def Assigns (G : Graph) (c : Nat) (r : Rg) (use : Inp) (v : Nat) : Prop :=
  (∃ x, r ≠ none ∧ Leads.Star G use (.res r x) ∧ May G c (.res r x) v) ∨
  ((∀ x, r ≠ none → ¬ Leads.Star G use (.res r x)) ∧ v < c)

/-- Region `r` is only entered if predicate `use` has value `v`: it is in branch `v` of the gamma node. -/
def Requires (G : Graph) (r : Rg) (use : Inp) (v : Nat) : Prop :=
  ∃ n, use = .inp n 0 ∧ G.kind n = .gamma ∧ Sub G r (some (n, v))

/-! ## Executions -/

/-- An execution. -/
structure Exec where
  I : Type
  /-- the region that it is an instance of -/
  rg : I → Rg
  /-- the instance around it, in which the node is executed that the region belongs to -/
  up : I → I
  /-- the value of a control output of the region in this instance; `none` if it is never computed -/
  val : I → Out → Option Nat
  /-- is it the last iteration? -/
  last : I → Prop
  /-- the number of the iteration -/
  iter : I → Nat

/-- `E` is an execution of `G`: what control values do. Nothing is said about operations other than constants. -/
structure Exec.Of (G : Graph) (E : Exec) : Prop where
  up : ∀ i n k, E.rg i = some (n, k) → E.rg (E.up i) = G.region n
  /-- the predicate decides on the branch -/
  taken : ∀ i n k, E.rg i = some (n, k) → G.kind n = .gamma → E.val (E.up i) (G.origin (.inp n 0)) = some k ∧ k < G.nsub n
  once : ∀ i j n k, E.rg i = some (n, k) → E.rg j = some (n, k) → G.kind n = .gamma → E.up i = E.up j → i = j
  gammaIn : ∀ i n k a c, E.rg i = some (n, k) → G.kind n = .gamma → a ≠ 0 → G.ctl (.inp n a) = some c →
    E.val i (.arg (some (n, k)) a) = E.val (E.up i) (G.origin (.inp n a))
  /-- the outputs of a gamma node come from the branch that is taken -/
  gammaOut : ∀ p n x v, E.rg p = G.region n → G.kind n = .gamma → E.val p (.out n x) = some v →
    (∃ i k, E.rg i = some (n, k) ∧ E.up i = p) ∧
    ∀ i k, E.rg i = some (n, k) → E.up i = p → E.val i (G.origin (.res (some (n, k)) x)) = some v
  /-- the first iteration of a theta node gets the inputs, the others what the iteration before leaves -/
  thetaIn : ∀ i n, E.rg i = some (n, 0) → G.kind n = .theta →
    (∀ a c, G.ctl (.inp n a) = some c → E.val i (.arg (some (n, 0)) a) = E.val (E.up i) (G.origin (.inp n a))) ∨
    ∃ j, E.rg j = some (n, 0) ∧ E.up j = E.up i ∧ E.iter j < E.iter i ∧
      ∀ a c, G.ctl (.inp n a) = some c →
        E.val i (.arg (some (n, 0)) a) = E.val j (G.origin (.res (some (n, 0)) (a + 1)))
  /-- there is one last iteration, and the outputs of a theta node come from it -/
  lastOnce : ∀ i j n, E.rg i = some (n, 0) → E.rg j = some (n, 0) → G.kind n = .theta → E.up i = E.up j → E.last i → E.last j → i = j
  thetaOut : ∀ p n x v, E.rg p = G.region n → G.kind n = .theta → E.val p (.out n x) = some v →
    (∃ i, E.rg i = some (n, 0) ∧ E.up i = p ∧ E.last i) ∧
    ∀ i, E.rg i = some (n, 0) → E.up i = p → E.last i → E.val i (G.origin (.res (some (n, 0)) (x + 1))) = some v
  const : ∀ i n x m v w, E.rg i = G.region n → G.kind n = .const m v → E.val i (.out n x) = some w → w = v
  /-- values are of their type -/
  typed : ∀ i j c v, E.rg i = G.regionI j → G.ctl j = some c → E.val i (G.origin j) = some v → v < c

/-- `j` is `i` or an instance around it. -/
inductive Around (E : Exec) : E.I → E.I → Prop
  | refl (i : E.I) : Around E i i
  | up (i : E.I) (n : Nd) (k : Nat) (j : E.I) : E.rg i = some (n, k) → Around E (E.up i) j → Around E i j

/-- The instances that `i` can have a value from without taking the back edge of a loop: those around it, and, of the gamma and theta nodes
that are not around it, the branch that was taken and the last iteration. -/
inductive Seen (G : Graph) (E : Exec) (i : E.I) : E.I → Prop
  | around (j : E.I) : Around E i j → Seen G E i j
  | gamma (j : E.I) (n : Nd) (k : Nat) : Seen G E i (E.up j) → E.rg j = some (n, k) → G.kind n = .gamma →
      (∀ a k', Around E i a → E.rg a ≠ some (n, k')) → Seen G E i j
  | theta (j : E.I) (n : Nd) : Seen G E i (E.up j) → E.rg j = some (n, 0) → G.kind n = .theta → E.last j →
      (∀ a k', Around E i a → E.rg a ≠ some (n, k')) → Seen G E i j

/-- In no execution is `origin` seen in `target`. -/
def NeverSeen (G : Graph) (origin target : Rg) : Prop :=
  ∀ E : Exec, E.Of G → ∀ i j, E.rg i = target → E.rg j = origin → ¬ Seen G E i j

/-- What a gamma node gives to predicate `use` is made in it: no operand of the gamma node is handed through. -/
def NotHandedThrough (G : Graph) (use : Inp) : Prop :=
  ∀ n k x a, G.kind n = .gamma → a ≠ 0 → Leads.Star G use (.res (some (n, k)) x) →
    ¬ Leads.Star G (.res (some (n, k)) x) (.inp n a)

/-! ## Histories -/

/-- A trace object and a graph that have been used together: checks, and changes of what inputs with control type are connected to, from an
empty trace and a well-formed graph with well-formed graphs between (`inv`: also changes of loop variables that were invariant). -/
inductive History (fuel : Nat) (inv : Bool) : Graph → Trace → Prop
  | start (G : Graph) (rank : Out → Nat) (depth : Rg → Nat) : G.Wf rank depth → (∀ o, rank o < fuel) → (∀ r, depth r < fuel) →
      History fuel inv G {}
  | check (G : Graph) (T T' : Trace) (r t : Rg) (b : Bool) : History fuel inv G T → check G fuel T r t = .ok (b, T') →
      History fuel inv G T'
  | divert (G : Graph) (T : Trace) (i : Inp) (o : Out) (rank : Out → Nat) (depth : Rg → Nat) : History fuel inv G T →
      (G.divert i o).Wf rank depth → (∀ o, rank o < fuel) → (∀ r, depth r < fuel) →
      (inv = false → ∀ n k a, i = .res (some (n, k)) (a + 1) → G.kind n = .theta → G.origin i ≠ .arg (some (n, k)) a) →
      History fuel inv (G.divert i o) (onInputChange G i T)

end Jlm.Rvsdg.PredTrace
