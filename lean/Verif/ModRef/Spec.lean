import Verif.ModRef.Model
import Mathlib.Logic.Relation

/-!
# What the nodes of a program may do to memory

Nothing here mentions mod/ref sets, constraints or worklists.
-/

namespace Jlm.ModRef

inductive Acc
  | read
  | write
  deriving DecidableEq

def Eff.has (e : Eff) : Acc → Bool
  | .read => e.ref
  | .write => e.mod

/-- The accesses of a simple node: pointer, number of bytes if known. -/
def Op.accesses : Op → List (Nat × Option Nat × Acc)
  | .load r size => [(r, some size, .read)]
  | .store r size => [(r, some size, .write)]
  | .free r => [(r, none, .write)]
  | .memcpy dst src count => [(dst, count, .write), (src, count, .read)]
  | .memset dst count => [(dst, count, .write)]
  | _ => []

/-- `r` may point to `m`. -/
def Ptg.pointee (g : Ptg) (r m : Nat) : Prop := m ∈ g.targets r ∨ (g.all r = true ∧ g.ext m = true)

/-- An access of so many bytes fits. -/
def Ptg.fits (g : Ptg) (bytes : Option Nat) (m : Nat) : Prop := ∀ b k, bytes = some b → g.size m = some k → b ≤ k

/-- A function that other modules may enter: by a call or by `longjmp`. -/
def Prog.enterable (P : Prog) (f : Nat) : Prop :=
  (∃ m, P.lambda f = some m ∧ P.ptg.ext m = true) ∨
  ((∃ m, P.lambda f = some m) ∧ ∃ n ∈ P.nodes, n.fn = f ∧ ∃ t args, n.kind = .simple (.call t args true))

/-- `MayTouch P hidden i m x`: the node `i` may access (`x`: read or write) memory that the memory node `m` stands for.
`hidden i m`: what happens to `m` in `i` cannot be seen from outside of `i`. -/
inductive MayTouch (P : Prog) (hidden : Nat → Nat → Prop) : Nat → Nat → Acc → Prop
  | access {i : Nat} {op : Op} {r : Nat} {bytes : Option Nat} {x : Acc} {m : Nat} : P.op i = some op → (r, bytes, x) ∈ op.accesses →
      P.ptg.pointee r m → P.ptg.const m = false → P.ptg.fits bytes m → MayTouch P hidden i m x
  | allocate {i m : Nat} : (P.op i = some (.alloca m) ∨ P.op i = some (.malloc m)) → MayTouch P hidden i m .read
  | inner {i p m : Nat} {n : PNode} {x : Acc} : P.nodes[i]? = some n → n.parent = some p → MayTouch P hidden i m x → ¬ hidden p m →
      MayTouch P hidden p m x
  | call {i t f k m : Nat} {args : List Nat} {setjmp : Bool} {x : Acc} : P.op i = some (.call t args setjmp) → k ∈ P.ptg.targets t →
      P.ptg.kind k = .lambda f → MayTouch P hidden f m x → ¬ hidden i m → MayTouch P hidden i m x
  | external {i t m : Nat} {args : List Nat} {setjmp : Bool} (x : Acc) : P.op i = some (.call t args setjmp) →
      ((∃ k ∈ P.ptg.targets t, P.ptg.kind k = .import_) ∨ P.ptg.all t = true) → P.ptg.ext m = true → MayTouch P hidden i m x
  | back {i t f m : Nat} {args : List Nat} {setjmp : Bool} {x : Acc} : P.op i = some (.call t args setjmp) →
      ((∃ k ∈ P.ptg.targets t, P.ptg.kind k = .import_) ∨ P.ptg.all t = true) → P.enterable f → MayTouch P hidden f m x → ¬ hidden i m →
      MayTouch P hidden i m x

/-! ## Allocas that are hidden -/

/-- Not simple: not an alloca, externally available, or something not simple may point to it. -/
inductive Ptg.NotSimple (g : Ptg) : Nat → Prop
  | base {m : Nat} : m < g.num → g.kind m ≠ .register → (g.kind m ≠ .alloca ∨ g.ext m = true) → NotSimple g m
  | step {m t : Nat} : NotSimple g m → t ∈ g.targets m → NotSimple g t

def Ptg.Simple (g : Ptg) (m : Nat) : Prop := m < g.num ∧ g.kind m = .alloca ∧ ¬ g.NotSimple m

/-- The simple allocas that some pointers lead to. -/
inductive Ptg.Leads (g : Ptg) (roots : List Nat) : Nat → Prop
  | root {r m : Nat} : r ∈ roots → m ∈ g.targets r → g.Simple m → Leads g roots m
  | step {k m : Nat} : Leads g roots k → m ∈ g.targets k → g.Simple m → Leads g roots m

/-- `f` may call `f'`, directly; `none` stands for the functions of other modules. -/
inductive Prog.Calls (P : Prog) : Option Nat → Option Nat → Prop
  | call {n : PNode} {t k f' : Nat} {args : List Nat} : n ∈ P.nodes → n.kind = .simple (.call t args false) → k ∈ P.ptg.targets t →
      P.ptg.kind k = .lambda f' → Calls P (some n.fn) (some f')
  | out {n : PNode} {t : Nat} {args : List Nat} : n ∈ P.nodes → n.kind = .simple (.call t args false) →
      ((∃ k ∈ P.ptg.targets t, P.ptg.kind k = .import_) ∨ P.ptg.all t = true) → Calls P (some n.fn) none
  | back {f m : Nat} : P.lambda f = some m → P.ptg.ext m = true → Calls P none (some f)
  | outside : Calls P none none

/-- A function that may be active more than once at a time. -/
def Prog.Recursive (P : Prog) (f : Nat) : Prop := Relation.TransGen P.Calls (some f) (some f)

/-- What the analysis takes for hidden: a simple alloca at a call none of whose arguments lead to it, and a simple alloca at the structural
node it is in, if the function is not recursive or no argument of the region leads to it. -/
def Prog.Hidden (P : Prog) (i m : Nat) : Prop :=
  P.ptg.Simple m ∧
    ((∃ t args setjmp, P.op i = some (.call t args setjmp) ∧ ¬ P.ptg.Leads args m) ∨
     (P.op i = none ∧ ∃ n ∈ P.nodes, n.kind = .simple (.alloca m) ∧ n.parent = some i ∧
       (¬ P.Recursive n.fn ∨ ¬ P.ptg.Leads n.regionArgs m)))

/-! ## Well-formed programs -/

/-- Functions that are run: other modules may call them or running functions do. -/
inductive Prog.Live (P : Prog) : Nat → Prop
  | entry {f m : Nat} : P.lambda f = some m → P.ptg.ext m = true → Live P f
  | call {i t f k : Nat} {n : PNode} {args : List Nat} {setjmp : Bool} : P.nodes[i]? = some n → Live P n.fn →
      n.kind = .simple (.call t args setjmp) → k ∈ P.ptg.targets t → P.ptg.kind k = .lambda f → Live P f

structure Prog.WF (P : Prog) : Prop where
  /-- the external memory node -/
  zero : P.ptg.kind 0 = .external ∧ P.ptg.ext 0 = true ∧ P.ptg.size 0 = none
  targets : ∀ r, ∀ m ∈ P.ptg.targets r, m < P.ptg.num ∧ P.ptg.kind m ≠ .register
  ext : ∀ m, P.ptg.ext m = true → m < P.ptg.num ∧ P.ptg.kind m ≠ .register
  lambda : ∀ m < P.ptg.num, ∀ f, P.ptg.kind m = .lambda f → P.lambda f = some m
  /-- lambda nodes are outermost, other nodes are in structural nodes of the same function, that come before them -/
  outer : ∀ (i : Nat) (n : PNode), P.nodes[i]? = some n → n.parent = none → (∃ m, n.kind = .lambda m) ∧ n.fn = i
  nested : ∀ (i : Nat) (n : PNode) (p : Nat), P.nodes[i]? = some n → n.parent = some p → (∀ m, n.kind ≠ .lambda m) ∧ p < i ∧
    ∃ np : PNode, P.nodes[p]? = some np ∧ np.fn = n.fn ∧ ∀ op, np.kind ≠ .simple op
  alloc : ∀ i m, P.op i = some (.alloca m) ∨ P.op i = some (.malloc m) → m < P.ptg.num

end Jlm.ModRef
