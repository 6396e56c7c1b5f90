import Verif.Aa.PtgModel
/-
Specification for the points-to graph: what the answers of the graph must be, in terms of the
calls that built it, and what alias answers must mean for the memory of a running program.
-/
namespace Jlm.Llvm.Aa.Ptg

/-- what a call that creates a node says about it: `size` is the number of bytes of the object (in
unbounded arithmetic), if the call fixes it -/
structure Info where
  kind : NodeKind
  ext : Bool
  const : Bool
  size : Option Nat
  obj : Nat

def Op.info : Op → Option Info
  | .alloca o e c z =>
    some { kind := .alloca, ext := e, const := false, obj := o
           size := match c with | some c => if 0 ≤ c then some (c.toNat * z) else none | none => none }
  | .delta o e c z => some { kind := .delta, ext := e, const := c, size := some z, obj := o }
  | .imported o e none => some { kind := .imported, ext := e, const := false, size := none, obj := o }
  | .imported o e (some (c, z)) =>
    some { kind := .imported, ext := e, const := c, size := if z = 0 then none else some z, obj := o }
  | .lambda o e => some { kind := .lambda, ext := e, const := true, size := some 0, obj := o }
  | .malloc o e z =>
    some { kind := .malloc, ext := e, const := false, obj := o
           size := match z with | some c => if 0 ≤ c then some c.toNat else none | none => none }
  | .registers => some { kind := .register, ext := false, const := true, size := none, obj := 0 }
  | _ => none

/-- the nodes of the graph in the order of their indices: memory outside the module, then what the
calls created -/
def created (ops : List Op) : List Info :=
  { kind := .external, ext := true, const := false, size := none, obj := 0 } :: ops.filterMap Op.info

/-- the size that the graph can report: only small sizes are stored -/
def reported (size : Option Nat) : Option Nat := size.filter fun z => z < 1023

/-- after the calls `ops`, node `s` must be said to target node `t`: an edge was asked for, or `s`
targets everything available outside the module and `t` was created as such -/
def Targets (ops : List Op) (s t : Nat) : Prop :=
  .target s t ∈ ops ∨ ((s = 0 ∨ .mark s ∈ ops) ∧ ∃ x, (created ops)[t]? = some x ∧ x.ext = true)

/-- the calls that are accepted after the calls `ops`: an object gets one node, a register is mapped
once and to a register node, an edge leads from a node of the module to a memory node of the module -/
def Legal (ops : List Op) : Op → Prop
  | .mapRegister o i => (∃ x, (created ops)[i]? = some x ∧ x.kind = .register) ∧ ∀ j, .mapRegister o j ∉ ops
  | .mark i => i < (created ops).length
  | .target s t => s ≠ 0 ∧ s < (created ops).length ∧ t ≠ 0 ∧ ∃ x, (created ops)[t]? = some x ∧ x.kind ≠ .register
  | .registers => True
  | o => ∀ x, o.info = some x → ∀ y ∈ created ops, ¬(y.kind = x.kind ∧ y.obj = x.obj)

/-! ## Comparison of graphs -/

/-- the things that nodes of different graphs represent -/
inductive Ent where
  | outside
  | mem (kind : NodeKind) (obj : Nat)
  | reg (out : Nat)
deriving DecidableEq, Repr

/-- the node of a graph for a thing, if it has one -/
def Graph.node? (g : Graph) : Ent → Option Nat
  | .outside => some 0
  | .mem k o => if k = .register ∨ k = .external then none else (g.map k).lookup o
  | .reg o => g.regMap.lookup o

/-- the graph says that `e` may point to `t` -/
def Graph.Points (g : Graph) (e t : Ent) : Prop :=
  ∃ a b, g.node? e = some a ∧ g.node? t = some b ∧ g.isTargeting a b = true

/-- the graph says that `e` is available outside the module -/
def Graph.Available (g : Graph) (e : Ent) : Prop :=
  ∃ a, g.node? e = some a ∧ (g.data a).ext = true

/-- `super` knows everything that `sub` knows, and claims at least the same possibilities -/
structure Supergraph (super sub : Graph) : Prop where
  node : ∀ e, (sub.node? e).isSome → (super.node? e).isSome
  available : ∀ e, sub.Available e → super.Available e
  points : ∀ e t, sub.Points e t → super.Points e t

/-! ## Alias queries -/

/-- the accesses through the registers of nodes `a` and `b` may concern the same object of at
least `s` bytes -/
def Graph.Share (g : Graph) (a b s : Nat) : Prop :=
  ∃ t, t < g.n ∧ g.isTargeting a t = true ∧ g.isTargeting b t = true ∧ ∀ z, g.nodeSize t = some z → s ≤ z

/-- `t` is the only target of `a` that has room for `s` bytes -/
def Graph.OnlyTarget (g : Graph) (a s t : Nat) : Prop :=
  ∀ u, (u < g.n ∧ g.isTargeting a u = true ∧ ∀ z, g.nodeSize u = some z → s ≤ z) ↔ u = t

/-- memory at a point of the execution of the program: the live objects with their addresses and
sizes, and the node that stands for each object -/
structure Memory where
  Live : Nat → Prop
  base : Nat → Nat
  size : Nat → Nat
  node : Nat → Nat
  /-- different live objects do not overlap -/
  apart : ∀ o p, Live o → Live p → o ≠ p → base o + size o ≤ base p ∨ base p + size p ≤ base o

/-- the graph describes the memory: the sizes it reports are not smaller than those of the objects,
and global variables, functions and imports are single objects -/
structure Describes (g : Graph) (M : Memory) : Prop where
  node : ∀ o, M.Live o → M.node o < g.n
  size : ∀ o z, M.Live o → g.nodeSize (M.node o) = some z → M.size o ≤ z
  single : ∀ o p, M.Live o → M.Live p → M.node o = M.node p →
    (g.data (M.node o)).kind = .delta ∨ (g.data (M.node o)).kind = .lambda ∨ (g.data (M.node o)).kind = .imported → o = p

/-- pointer values of RVSDG outputs: an object and an offset in it -/
abbrev Values := Nat → Nat × Nat

/-- every pointer points into an object that the graph lists as a target -/
def Follows (g : Graph) (M : Memory) (v : Values) : Prop :=
  ∀ p a, g.regMap.lookup p = some a → g.isTargeting a (M.node (v p).1) = true

/-- an access of `s` bytes at pointer `p` lies inside of a live object -/
def InBounds (M : Memory) (v : Values) (p s : Nat) : Prop :=
  M.Live (v p).1 ∧ (v p).2 + s ≤ M.size (v p).1

def address (M : Memory) (v : Values) (p : Nat) : Nat := M.base (v p).1 + (v p).2

/-- the two ranges of bytes have no byte in common -/
def Disjoint (a s b t : Nat) : Prop := ∀ x, ¬((a ≤ x ∧ x < a + s) ∧ (b ≤ x ∧ x < b + t))

end Jlm.Llvm.Aa.Ptg
