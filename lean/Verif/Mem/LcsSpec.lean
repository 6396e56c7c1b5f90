import Verif.Mem.LcsModel

/-!
# Which nodes are ordered by memory states

The specification of the theorems on load chain separation.
-/

namespace Jlm.Mem.Lcs

mutual

/-- Does any node above write memory? -/
def writes : T → Bool
  | .arg => false
  | .alloc _ => false
  | .load _ t => writes t
  | .store _ _ => true
  | .theta _ b t => writes b || writes t
  | .gamma _ _ _ => true
  | .call _ _ => true
  | .merge ts => writess ts

def writess : List T → Bool
  | [] => false
  | t :: ts => writes t || writess ts

end

/-- A node, and whether it may write to (or create) the memory of the state. -/
abbrev Access := Nat × Bool

mutual

/-- The nodes above a state, in its region. A theta node writes if its body does. -/
def accesses : T → List Access
  | .arg => []
  | .alloc n => [(n, true)]
  | .load n t => (n, false) :: accesses t
  | .store n t => (n, true) :: accesses t
  | .theta n b t => (n, writes b) :: accesses t
  | .gamma n _ ts => (n, true) :: accessess ts
  | .call n ts => (n, true) :: accessess ts
  | .merge ts => accessess ts

def accessess : List T → List Access
  | [] => []
  | t :: ts => accesses t ++ accessess ts

end

mutual

/-- The pairs of nodes `(a, b)` with `a` above `b`: `a` is executed before `b`. -/
def ordered : T → List (Access × Access)
  | .arg => []
  | .alloc _ => []
  | .load n t => (accesses t).map (·, (n, false)) ++ ordered t
  | .store n t => (accesses t).map (·, (n, true)) ++ ordered t
  | .theta n b t => (accesses t).map (·, (n, writes b)) ++ ordered t
  | .gamma n _ ts => (accessess ts).map (·, (n, true)) ++ ordereds ts
  | .call n ts => (accessess ts).map (·, (n, true)) ++ ordereds ts
  | .merge ts => ordereds ts

def ordereds : List T → List (Access × Access)
  | [] => []
  | t :: ts => ordered t ++ ordereds ts

end

mutual

/-- In no loop is there a call (or it comes with another write that is noticed): the loops that are taken for references do not write.
This is what the code gets wrong: `C57_call_in_loop`. -/
def loopsOk : T → Prop
  | .arg => True
  | .alloc _ => True
  | .load _ t => loopsOk t
  | .store _ t => loopsOk t
  | .theta _ b t => (hasMod b = false → writes b = false) ∧ loopsOk b ∧ loopsOk t
  | .gamma _ bs ts => loopsOks bs ∧ loopsOks ts
  | .call _ ts => loopsOks ts
  | .merge ts => loopsOks ts

def loopsOks : List T → Prop
  | [] => True
  | t :: ts => loopsOk t ∧ loopsOks ts

end

mutual

/-- There is no call anywhere. -/
def noCalls : T → Prop
  | .arg => True
  | .alloc _ => True
  | .load _ t => noCalls t
  | .store _ t => noCalls t
  | .theta _ b t => noCalls b ∧ noCalls t
  | .gamma _ bs ts => noCallss bs ∧ noCallss ts
  | .call _ _ => False
  | .merge ts => noCallss ts

def noCallss : List T → Prop
  | [] => True
  | t :: ts => noCalls t ∧ noCallss ts

end

/-- A sequential order `l` of the nodes of a region that respects its memory states `ts` and all other dependencies `data` (values,
other states). -/
structure Schedule (data : Nat → Nat → Prop) (ts : List T) (l : List Nat) : Prop where
  nodup : l.Nodup
  states : ∀ a b : Access, (a, b) ∈ ordereds ts → [a.1, b.1].Sublist l
  others : ∀ a b : Nat, data a b → [a, b].Sublist l

/-- The execution of nodes, one after the other. -/
def run {σ : Type} (f : Nat → σ → σ) : List Nat → σ → σ
  | [], s => s
  | n :: l, s => run f l (f n s)

/-- Nodes whose order matters are ordered by a memory state that one of them writes, or by something else than a memory state. -/
def Covered {σ : Type} (f : Nat → σ → σ) (data : Nat → Nat → Prop) (ts : List T) : Prop :=
  ∀ a b : Nat, (∃ s : σ, f a (f b s) ≠ f b (f a s)) →
    (∃ wa wb : Bool, (wa || wb) = true ∧ (((a, wa), (b, wb)) ∈ ordereds ts ∨ ((b, wb), (a, wa)) ∈ ordereds ts)) ∨ data a b ∨ data b a

end Jlm.Mem.Lcs
