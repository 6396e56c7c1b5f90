import Verif.Util.DisjointSetModel
import Mathlib.Data.Finset.Card
import Mathlib.Logic.Relation
/-
Specification of a disjoint set: the elements inserted and the pairs merged since the last clear.
-/
namespace Jlm.Util.DisjointSet

variable {α : Type} [DecidableEq α]

/-- What has been inserted and merged. -/
structure Hist (α : Type) where
  elems : Finset α
  merged : List (α × α)

def Hist.step (h : Hist α) : Op α → Hist α
  | .insert x => ⟨Insert.insert x h.elems, h.merged⟩
  | .findOrInsert x => ⟨Insert.insert x h.elems, h.merged⟩
  | .merge a b => ⟨h.elems, (a, b) :: h.merged⟩
  | .clear => ⟨∅, []⟩
  | .find _ => h
  | .nmembers _ => h
  | .members _ => h

/-- The operation only names elements that have been inserted. -/
def Hist.legal (h : Hist α) : Op α → Prop
  | .merge a b => a ∈ h.elems ∧ b ∈ h.elems
  | .find x => x ∈ h.elems
  | .nmembers x => x ∈ h.elems
  | .members x => x ∈ h.elems
  | _ => True

def Hist.run (h : Hist α) : List (Op α) → Hist α
  | [] => h
  | op :: ops => (h.step op).run ops

def Hist.legalRun (h : Hist α) : List (Op α) → Prop
  | [] => True
  | op :: ops => h.legal op ∧ (h.step op).legalRun ops

def Hist.empty : Hist α := ⟨∅, []⟩

/-- Connected by merged pairs: the finest equivalence relation containing them. -/
def Hist.Conn (h : Hist α) : α → α → Prop := Relation.EqvGen (fun a b => (a, b) ∈ h.merged)

/-- The class of an element among the inserted elements. -/
noncomputable def Hist.cls (h : Hist α) (x : α) : Finset α := by
  classical exact h.elems.filter (fun y => h.Conn x y)

end Jlm.Util.DisjointSet
