import Verif.Bits.Model
/-
Specification vocabulary for bit strings: the representation of a machine word (`BitVec n`)
and the set of machine words a four-valued representation stands for.
Nothing here mentions the algorithms of the model.
-/
namespace Jlm.Bits

/-- The bit a Boolean is written as. -/
def bitOf (b : Bool) : Bit := if b then .one else .zero

/-- The n characters, lsb first, of the machine word `x`. -/
def repr {n : Nat} (x : BitVec n) : BVR := (List.range n).map (fun i => bitOf (x.getLsbD i))

/-- The character `c` allows the Boolean `b`: '0' only false, '1' only true, 'D' and 'X' both. -/
def Allows (c : Bit) (b : Bool) : Prop :=
  match c with
  | .zero => b = false
  | .one => b = true
  | .D => True
  | .X => True

/-- `x` is one of the machine words the representation `a` stands for. -/
def Stands {n : Nat} (a : BVR) (x : BitVec n) : Prop :=
  a.length = n ∧ ∀ (i : Nat) (h : i < a.length), Allows a[i] (x.getLsbD i)

end Jlm.Bits
