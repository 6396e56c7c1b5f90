import Verif.Front.DomModel

/-! # Dominators -/

namespace Jlm.Front.Dom

/-- The nodes on a walk from the entry, last node first. -/
inductive Walk (G : Cfg) : Nat → List Nat → Prop
  | entry : Walk G G.entry [G.entry]
  | step {u v : Nat} {l : List Nat} : Walk G u l → v ∈ G.succs u → Walk G v (v :: l)

def Reachable (G : Cfg) (b : Nat) : Prop := ∃ l, Walk G b l

/-- Every walk to `b` goes through `c`. -/
def Dominates (G : Cfg) (c b : Nat) : Prop := ∀ l, Walk G b l → c ∈ l

def IsIdom (G : Cfg) (d b : Nat) : Prop := d ≠ b ∧ Dominates G d b ∧ ∀ c, c ≠ b → Dominates G c b → Dominates G c d

structure Cfg.WF (G : Cfg) : Prop where
  entry : G.entry < G.num
  succs : ∀ u < G.num, ∀ v ∈ G.succs u, v < G.num
  preds : ∀ u v, v < G.num → (u ∈ G.preds v ↔ u < G.num ∧ v ∈ G.succs u)

/-- `c` is `b` or above it in the tree. -/
inductive Above (t : Tree) (c : Nat) : Nat → Prop
  | self {p : Option Nat} {k : Nat} : (c, p, k) ∈ t → Above t c c
  | up {b d k : Nat} : (b, some d, k) ∈ t → Above t c d → Above t c b

end Jlm.Front.Dom
