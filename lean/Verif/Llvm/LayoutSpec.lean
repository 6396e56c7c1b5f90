import Verif.Llvm.LayoutModel
/-
Specification of data layout (C25), independent of the functions of the model: the LLVM rules as
the documentation of types.hpp:570-607 states them.
-/
namespace Jlm.Llvm.Layout

/-- `m` is the least natural number satisfying `P` -/
def Least (P : Nat → Prop) (m : Nat) : Prop := P m ∧ ∀ k, P k → m ≤ k

/-- `m` is the first multiple of `a` that is not below `x` -/
def NextMultiple (x a m : Nat) : Prop := Least (fun m => x ≤ m ∧ a ∣ m) m

/-- `m` is the first power of two that is not below `x` -/
def NextPowerOf2 (x m : Nat) : Prop := Least (fun m => x ≤ m ∧ ∃ k, m = 2 ^ k) m

mutual
/-- `HasLayout t store alloc align` -/
inductive HasLayout : Ty → Nat → Nat → Nat → Prop
  /-- an integer occupies the least number of 8-bit bytes that hold its bits -/
  | bits {n s c a} : Least (fun s => n ≤ 8 * s) s → NextPowerOf2 s a → NextMultiple s a c →
      HasLayout (.bits n) s c a
  | ptr : HasLayout .ptr 8 8 8
  | half : HasLayout (.fp .half) 2 2 2
  | flt : HasLayout (.fp .flt) 4 4 4
  | dbl : HasLayout (.fp .dbl) 8 8 8
  | fp128 : HasLayout (.fp .fp128) 16 16 16
  | x86fp80 : HasLayout (.fp .x86fp80) 10 16 16
  /-- functions are never read or written -/
  | fn : HasLayout .fn 0 0 1
  /-- an array is its elements, one after the other, with the alignment of an element -/
  | arr {n e s c a} : HasLayout e s c a → HasLayout (.arr n e) (n * c) (n * c) a
  /-- a vector holds its elements one after the other and is aligned to its own size -/
  | vec {n e s c a c' a'} : HasLayout e s c a → NextPowerOf2 (n * c) a' →
      NextMultiple (n * c) a' c' → HasLayout (.vec n e) (n * c) c' a'
  /-- a structure places its fields in order; its alignment is the least that all fields accept;
  its size is padded to a multiple of the alignment -/
  | struct {packed fs offs aligns fin s a} : FieldsLayout packed 0 fs offs aligns fin →
      Least (fun a => 0 < a ∧ ∀ b ∈ aligns, b ∣ a) a → NextMultiple fin a s →
      HasLayout (.struct packed fs) s s a
/-- `FieldsLayout packed start fields offsets aligns fin`: the fields are placed one after the
other, not before `start`, each at the first suitably aligned position; the last one ends at
`fin`. -/
inductive FieldsLayout : Bool → Nat → List Ty → List Nat → List Nat → Nat → Prop
  | nil {packed start} : FieldsLayout packed start [] [] [] start
  | packed {start f fs s c a offs aligns fin} : HasLayout f s c a →
      FieldsLayout true (start + c) fs offs aligns fin →
      FieldsLayout true start (f :: fs) (start :: offs) (1 :: aligns) fin
  | aligned {start f fs s c a off offs aligns fin} : HasLayout f s c a →
      NextMultiple start a off →
      FieldsLayout false (off + c) fs offs aligns fin →
      FieldsLayout false start (f :: fs) (off :: offs) (a :: aligns) fin
end

/-- `Reach root path offset t`: following the indices of `path` from an object of type `root`
leads to an object of type `t` at byte `offset` from the start of the object. Array indices are
arbitrary integers (pointer arithmetic), structure indices name a field. -/
inductive Reach : Ty → List Int → Int → Ty → Prop
  | nil {t} : Reach t [] 0 t
  | arr {n e s c a i path off t} : HasLayout e s c a → Reach e path off t →
      Reach (.arr n e) (i :: path) (i * c + off) t
  | field {packed fs offs aligns fin f path t} {k o : Nat} {off : Int} :
      FieldsLayout packed 0 fs offs aligns fin → fs[k]? = some f → offs[k]? = some o →
      Reach f path off t → Reach (.struct packed fs) ((k : Int) :: path) (o + off) t

/-- the array indices of the path are within the arrays they index -/
def InBounds : Ty → List Int → Prop
  | .arr n e, i :: path => 0 ≤ i ∧ i < n ∧ InBounds e path
  | .struct _ fs, k :: path => 0 ≤ k ∧ ∃ f, fs[k.toNat]? = some f ∧ InBounds f path
  | _, _ => True

/-- no packed structure occurs on the path -/
def Unpacked : Ty → List Int → Prop
  | .arr _ e, _ :: path => Unpacked e path
  | .struct packed fs, k :: path =>
    packed = false ∧ ∃ f, fs[k.toNat]? = some f ∧ Unpacked f path
  | _, _ => True

end Jlm.Llvm.Layout
