import Mathlib.Data.Finset.Card
import Verif.Util.HashSetModel
/-
Specification of HashSet: numbered mathematical finite sets.
-/
namespace Jlm.Util.HashSet

variable {α : Type} [DecidableEq α]

abbrev SpecStore (α : Type) := Nat → Finset α

/-- What each operation does to the mathematical sets. -/
def specStore (S : SpecStore α) : Op α → SpecStore α
  | .insert s x => Function.update S s (Insert.insert x (S s))
  | .remove s x => Function.update S s ((S s).erase x)
  | .removeWhere s p => Function.update S s ((S s).filter (fun x => p x = false))
  | .clear s => Function.update S s ∅
  | .unionWith s t => Function.update S s (S s ∪ S t)
  | .unionWithAndClear s t => Function.update (Function.update S s (S s ∪ S t)) t ∅
  | .intersectWith s t => Function.update S s (S s ∩ S t)
  | .intersectWithAndClear s t => Function.update (Function.update S s (S s ∩ S t)) t ∅
  | .differenceWith s t => Function.update S s (S s \ S t)
  | .contains _ _ => S
  | .size _ => S
  | .isEmpty _ => S
  | .equals _ _ => S

/-- What each operation must return. `UnionWithAndClear` is left unconstrained here: its documented
result is refuted in HashSetProps. -/
def specOut (S : SpecStore α) : Op α → Out → Prop
  | .insert s x, o => o = .bool (decide (x ∉ S s))
  | .remove s x, o => o = .bool (decide (x ∈ S s))
  | .removeWhere s p, o => o = .num ((S s).filter (fun x => p x = true)).card
  | .unionWith s t, o => o = .bool (decide (¬ S t ⊆ S s))
  | .unionWithAndClear _ _, _ => True
  | .contains s x, o => o = .bool (decide (x ∈ S s))
  | .size s, o => o = .num (S s).card
  | .isEmpty s, o => o = .bool (decide (S s = ∅))
  | .equals s t, o => o = .bool (decide (S s = S t))
  | .clear _, o => o = .unit
  | .intersectWith _ _, o => o = .unit
  | .intersectWithAndClear _ _, o => o = .unit
  | .differenceWith _ _, o => o = .unit

/-- A history of operations with its outputs is one that mathematical sets could show. -/
def SpecRun : SpecStore α → List (Op α) → List Out → SpecStore α → Prop
  | S, [], [], S' => S' = S
  | S, op :: ops, o :: os, S' => specOut S op o ∧ SpecRun (specStore S op) ops os S'
  | _, _, _, _ => False

end Jlm.Util.HashSet
