import Verif.Llvm.FoldSpec
import Verif.Bits.Props
/-
C37: constant folding of integer operations and conversions computes what LLVM computes.
-/
set_option linter.unusedSimpArgs false
set_option linter.unusedVariables false
namespace Jlm.Llvm.Fold
open Jlm.Bits

theorem num_eq (rep : BVR) :
    rep.foldr (fun c v => 2 * v + if c = Bit.one then 1 else 0) 0 = val rep := by
  induction rep with
  | nil => rfl
  | cons c r ih =>
    simp only [List.foldr_cons, val, ih]
    cases c <;> simp [bv] <;> omega

theorem word_repr {n : Nat} (x : BitVec n) : word n (Bits.repr x) = some x := by
  unfold word
  simp only [num_eq, val_repr, BitVec.ofNat_toNat, BitVec.setWidth_eq, if_true]

theorem word_some {n : Nat} {rep : BVR} {x : BitVec n} (h : word n rep = some x) :
    rep = Bits.repr x := by
  unfold word at h
  simp only at h
  split at h
  · rename_i e; cases h; exact e.symm
  · cases h

theorem ofBit_repr (p : Prop) [Decidable p] :
    ofBit (bitOf (decide p)) = Bits.repr (if p then 1#1 else 0#1) := by
  by_cases h : p <;> simp [h, ofBit] <;> decide

/-- **C37, comparisons.** Folding a comparison of two constants of the same width never fails, and
gives the `i1` that LLVM's `icmp` gives. -/
theorem C37_fold_cmp {n : Nat} (hn : 0 < n) (x y : BitVec n) (op : Cmp) :
    foldCmp op (Bits.repr x) (Bits.repr y) =
      some (Bits.repr (if icmp x y op then 1#1 else 0#1)) := by
  cases op <;> unfold foldCmp icmp <;> simp only
  · rw [C02_eq hn, Option.map_some, ofBit_repr]
  · rw [C02_ne hn, Option.map_some, ofBit_repr]
  · rw [C02_sge hn, Option.map_some, ofBit_repr]
  · rw [C02_sgt hn, Option.map_some, ofBit_repr]
  · rw [C02_sle hn, Option.map_some, ofBit_repr]
  · rw [C02_slt hn, Option.map_some, ofBit_repr]
  · rw [C02_uge hn, Option.map_some, ofBit_repr]
  · rw [C02_ugt hn, Option.map_some, ofBit_repr]
  · rw [C02_ule hn, Option.map_some, ofBit_repr]
  · rw [C02_ult hn, Option.map_some, ofBit_repr]

theorem shift_toUint {n : Nat} (y : BitVec n) (f : Nat → Option BVR) :
    (BVR.toUint (Bits.repr y)).bind f = if y.toNat < 2 ^ 64 then f y.toNat else none := by
  rw [C06_toUint]; split <;> rfl

/-- **C37, arithmetic.** If LLVM defines the result of the operation on two constants, then folding
gives that result or throws. -/
theorem C37_fold_arith {n : Nat} (hn : 0 < n) (x y z : BitVec n) (op : Arith) (r : BVR)
    (hz : llvm x y op = some z) (hr : foldArith op (Bits.repr x) (Bits.repr y) = some r) :
    r = Bits.repr z := by
  cases op <;> simp only [foldArith, llvm] at hz hr
  · rw [C01_add hn] at hr; cases hr; cases hz
    congr 1; apply BitVec.eq_of_toInt_eq; rw [BitVec.toInt_add, BitVec.toInt_ofInt]
  · rw [C01_sub hn] at hr; cases hr; cases hz
    congr 1; apply BitVec.eq_of_toInt_eq; rw [BitVec.toInt_sub, BitVec.toInt_ofInt]
  · rw [C01_mul hn] at hr; cases hr; cases hz
    congr 1; apply BitVec.eq_of_toInt_eq; rw [BitVec.toInt_mul, BitVec.toInt_ofInt]
  · split at hz
    · cases hz
    · rename_i h; rw [not_or] at h
      rw [C04_sdiv hn x y h.1] at hr; cases hr; cases hz; rfl
  · split at hz
    · cases hz
    · rename_i h
      rw [C04_udiv hn x y h] at hr; cases hr; cases hz; rfl
  · split at hz
    · cases hz
    · rw [C04_smod hn] at hr; cases hr; cases hz; rfl
  · split at hz
    · cases hz
    · rw [C04_umod hn] at hr; cases hr; cases hz; rfl
  · rw [shift_toUint] at hr
    split at hr
    · split at hz
      · rw [(C03_shift_values hn x y.toNat).2.2] at hr; cases hr; cases hz; rfl
      · cases hz
    · cases hr
  · rw [shift_toUint] at hr
    split at hr
    · split at hz
      · rw [(C03_shift_values hn x y.toNat).1] at hr; cases hr; cases hz; rfl
      · cases hz
    · cases hr
  · rw [shift_toUint] at hr
    split at hr
    · split at hz
      · rw [(C03_shift_values hn x y.toNat).2.1] at hr; cases hr; cases hz; rfl
      · cases hz
    · cases hr
  · rw [C01_lor hn] at hr; cases hr; cases hz; rfl
  · rw [C01_land hn] at hr; cases hr; cases hz; rfl
  · rw [C01_lxor hn] at hr; cases hr; cases hz; rfl

/-- The operations whose second operand is the number of places to shift. -/
def IsShift (op : Arith) : Prop := op = .ashr ∨ op = .shl ∨ op = .lshr

/-- **C37, when folding throws.** It always produces a constant of the operands' width, also for a
zero divisor and for shifts past the width, except that it throws for a shift amount that is at
least 2^64. Such a shift is poison in LLVM, unless the type has more than 2^64 bits. -/
theorem C37_fold_total_partial {n : Nat} (hn : 0 < n) (x y : BitVec n) (op : Arith) :
    (foldArith op (Bits.repr x) (Bits.repr y) = none ↔ IsShift op ∧ 2 ^ 64 ≤ y.toNat) ∧
    (∀ r, foldArith op (Bits.repr x) (Bits.repr y) = some r → ∃ z : BitVec n, r = Bits.repr z) := by
  cases op <;> simp only [foldArith, IsShift]
  · rw [C01_add hn]; simp; exact ⟨_, rfl⟩
  · rw [C01_sub hn]; simp; exact ⟨_, rfl⟩
  · rw [C01_mul hn]; simp; exact ⟨_, rfl⟩
  · rw [BVR.sdiv, BVR.sdivrem_repr hn]; simp; exact ⟨_, rfl⟩
  · rw [BVR.udiv, BVR.udivrem_repr hn]; simp; exact ⟨_, rfl⟩
  · rw [C04_smod hn]; simp; exact ⟨_, rfl⟩
  · rw [C04_umod hn]; simp; exact ⟨_, rfl⟩
  · rw [shift_toUint, C03_ashr hn]; split
    · simp; exact ⟨by omega, _, rfl⟩
    · simp; omega
  · rw [shift_toUint, C03_shl hn]; split
    · simp; exact ⟨by omega, _, rfl⟩
    · simp; omega
  · rw [shift_toUint, C03_shr hn]; split
    · simp; exact ⟨by omega, _, rfl⟩
    · simp; omega
  · rw [C01_lor hn]; simp; exact ⟨_, rfl⟩
  · rw [C01_land hn]; simp; exact ⟨_, rfl⟩
  · rw [C01_lxor hn]; simp; exact ⟨_, rfl⟩

/-- **C37 is false without the exception:** `shl i128 1, 2^64` is a poison value in LLVM, so a
function that contains it is a legal program, but folding it throws an exception that nothing
catches. -/
theorem C37_fold_total_counterexample :
    foldArith .shl (Bits.repr (BitVec.ofNat 128 1)) (Bits.repr (BitVec.ofNat 128 (2 ^ 64))) = none :=
  (C37_fold_total_partial (by omega) _ _ _).1.mpr ⟨Or.inr (Or.inl rfl), by
    rw [BitVec.toNat_ofNat]; decide⟩

/-- no constant of the wrong type -/
theorem created_some {n : Nat} {o : Option BVR} {e : IExpr n} (h : created n o = .becomes e) :
    ∃ rep, o = some rep ∧ e = .const n rep ∧ rep.length = n := by
  unfold created at h
  cases o with
  | none => cases h
  | some rep =>
    simp only at h
    split at h
    · rename_i hl; cases h; exact ⟨rep, rfl, rfl, hl⟩
    · cases h

theorem typed_pos : ∀ {n : Nat} (e : IExpr n), Typed e → 0 < n
  | _, .var _ _, h => h
  | _, .const _ _, h => h.1
  | _, .cmp _ _ _, _ => by omega
  | _, .arith _ a _, h => typed_pos a h.1
  | _, .sext _ _, h => by have := h.1; omega
  | _, .zext _ _, h => by have := h.1; omega
  | _, .trunc _ _, h => h.1

theorem cmp_inv {n : Nat} {op : Cmp} {a b : IExpr n} {e : IExpr 1}
    (h : foldCmpConstants op a b = .becomes e) :
    ∃ r1 r2, a = .const n r1 ∧ b = .const n r2 ∧ created 1 (foldCmp op r1 r2) = .becomes e := by
  unfold foldCmpConstants at h
  split at h
  · exact ⟨_, _, rfl, rfl, h⟩
  · cases h

theorem arith_inv {n : Nat} {op : Arith} {a b e : IExpr n}
    (h : foldArithConstants op a b = .becomes e) :
    ∃ r1 r2, a = .const n r1 ∧ b = .const n r2 ∧ created n (foldArith op r1 r2) = .becomes e := by
  unfold foldArithConstants at h
  split at h
  · exact ⟨_, _, rfl, rfl, h⟩
  · cases h

theorem arith_sound {n : Nat} {op : Arith} {a b e : IExpr n} (ha : Typed a) (hb : Typed b)
    (h : foldArithConstants op a b = .becomes e) :
    Typed e ∧ ∀ ρ z, value ρ (.arith op a b) = some z → value ρ e = some z := by
  obtain ⟨r1, r2, rfl, rfl, h⟩ := arith_inv h
  obtain ⟨hn, x, rfl⟩ := ha
  obtain ⟨-, y, rfl⟩ := hb
  obtain ⟨rep, hr, rfl, hl⟩ := created_some h
  refine ⟨⟨hn, (C37_fold_total_partial hn x y op).2 rep hr⟩, ?_⟩
  intro ρ z hz
  simp only [value, word_repr, Option.bind_some] at hz ⊢
  rw [C37_fold_arith hn x y z op rep hz hr, word_repr]

theorem zero_repr {n : Nat} : (List.replicate n Bit.zero) = Bits.repr (0#n) := by
  apply List.ext_getElem
  · simp
  · intro i h1 h2
    simp [Bits.repr, bitOf]

theorem conv_typed_sext {s d : Nat} (hs : 0 < s) (hd : s < d) (x : BitVec s) :
    BVR.sext (Bits.repr x) (d - s) = some (Bits.repr (BitVec.ofInt d x.toInt)) := by
  obtain ⟨k, rfl⟩ : ∃ k, d = s + k := ⟨d - s, by omega⟩
  rw [Nat.add_sub_cancel_left, C03_sext hs]; rfl

theorem conv_typed_zext {s d : Nat} (hd : s < d) (x : BitVec s) :
    BVR.zext (Bits.repr x) (d - s) = some (Bits.repr (BitVec.ofNat d x.toNat)) := by
  obtain ⟨k, rfl⟩ : ∃ k, d = s + k := ⟨d - s, by omega⟩
  rw [Nat.add_sub_cancel_left, C03_zext]; simp

theorem conv_typed_trunc {s d : Nat} (h0 : 0 < d) (hd : d < s) (x : BitVec s) :
    BVR.trunc (Bits.repr x) d = some (Bits.repr (BitVec.ofNat d x.toNat)) := by
  rw [C03_trunc x d h0 (by omega)]; simp

/-- **C37, the conversions.** A sign extension, zero extension or truncation of a constant is always
folded, to the constant of the same signed value, unsigned value, or value modulo 2^ndstbits. -/
theorem C37_fold_conversions {s : Nat} (hs : 0 < s) (x : BitVec s) :
    (∀ d, s < d → foldSExt d (.const s (Bits.repr x)) =
      .becomes (.const d (Bits.repr (BitVec.ofInt d x.toInt)))) ∧
    (∀ d, s < d → foldZExt d (.const s (Bits.repr x)) =
      .becomes (.const d (Bits.repr (BitVec.ofNat d x.toNat)))) ∧
    (∀ d, 0 < d → d < s → foldTrunc d (.const s (Bits.repr x)) =
      .becomes (.const d (Bits.repr (BitVec.ofNat d x.toNat)))) := by
  refine ⟨fun d hd => ?_, fun d hd => ?_, fun d h0 hd => ?_⟩
  · simp only [foldSExt, conv_typed_sext hs hd, created]; simp
  · simp only [foldZExt, conv_typed_zext hd, created]; simp
  · simp only [foldTrunc, conv_typed_trunc h0 hd, created]; simp

theorem root_sound {n : Nat} {e e' : IExpr n} (h : Typed e) (hr : reduceRoot e = .becomes e') :
    Typed e' ∧ ∀ ρ z, value ρ e = some z → value ρ e' = some z := by
  cases e with
  | var => cases hr
  | const => cases hr
  | cmp op a b =>
    simp only [reduceRoot] at hr
    obtain ⟨r1, r2, rfl, rfl, hr1⟩ := cmp_inv hr
    obtain ⟨⟨hn, x, rfl⟩, -, y, rfl⟩ := h
    obtain ⟨rep, hr2, rfl, hl⟩ := created_some hr1
    rw [C37_fold_cmp hn] at hr2
    cases hr2
    refine ⟨⟨by omega, _, rfl⟩, ?_⟩
    intro ρ z hz
    simp only [value, word_repr, Option.bind_some] at hz ⊢
    exact hz
  | arith op a b =>
    simp only [reduceRoot] at hr
    split at hr
    · rename_i hop
      subst hop
      unfold reduceSub at hr
      split at hr
      · exact arith_sound h.1 h.2 hr
      · unfold additiveInverse at hr
        split at hr
        · rename_i hab
          subst hab
          have hn := typed_pos a h.1
          obtain ⟨rep, hz, rfl, hl⟩ := created_some hr
          rw [BVR.ofInt_zero hn] at hz
          cases hz
          refine ⟨⟨hn, 0#n, zero_repr⟩, ?_⟩
          intro ρ z hz
          simp only [value, zero_repr, word_repr] at hz ⊢
          cases hv : value ρ a with
          | none => rw [hv] at hz; cases hz
          | some x =>
            rw [hv] at hz
            simp only [Option.bind_some, llvm] at hz
            rw [← hz]
            simp
        · cases hr
    · exact arith_sound h.1 h.2 hr
  | @sext s d a =>
    simp only [reduceRoot] at hr
    cases a <;> simp only [foldSExt] at hr <;> try cases hr
    obtain ⟨hd, hn, x, rfl⟩ := h
    rw [conv_typed_sext hn hd] at hr
    obtain ⟨rep, hz, rfl, hl⟩ := created_some hr
    cases hz
    refine ⟨⟨by omega, _, rfl⟩, ?_⟩
    intro ρ z hz
    simp only [value, word_repr, Option.map_some] at hz ⊢
    exact hz
  | @zext s d a =>
    simp only [reduceRoot] at hr
    cases a <;> simp only [foldZExt] at hr <;> try cases hr
    obtain ⟨hd, hn, x, rfl⟩ := h
    rw [conv_typed_zext hd] at hr
    obtain ⟨rep, hz, rfl, hl⟩ := created_some hr
    cases hz
    refine ⟨⟨by omega, _, rfl⟩, ?_⟩
    intro ρ z hz
    simp only [value, word_repr, Option.map_some] at hz ⊢
    exact hz
  | @trunc s d a =>
    simp only [reduceRoot] at hr
    cases a <;> simp only [foldTrunc] at hr <;> try cases hr
    obtain ⟨h0, hd, hn, x, rfl⟩ := h
    rw [conv_typed_trunc h0 hd] at hr
    obtain ⟨rep, hz, rfl, hl⟩ := created_some hr
    cases hz
    refine ⟨⟨by omega, _, rfl⟩, ?_⟩
    intro ρ z hz
    simp only [value, word_repr, Option.map_some] at hz ⊢
    exact hz

theorem step_sound {n : Nat} {e e' : IExpr n} (hs : Step e e') :
    Typed e → Typed e' ∧ ∀ ρ z, value ρ e = some z → value ρ e' = some z := by
  induction hs with
  | root hr => exact fun h => root_sound h hr
  | cmpLeft _ ih =>
    intro h
    obtain ⟨t, v⟩ := ih h.1
    refine ⟨⟨t, h.2⟩, fun ρ z hz => ?_⟩
    simp only [value, Option.bind_eq_some_iff] at hz ⊢
    obtain ⟨x, hx, hz⟩ := hz
    exact ⟨x, v ρ x hx, hz⟩
  | cmpRight _ ih =>
    intro h
    obtain ⟨t, v⟩ := ih h.2
    refine ⟨⟨h.1, t⟩, fun ρ z hz => ?_⟩
    simp only [value, Option.bind_eq_some_iff] at hz ⊢
    obtain ⟨x, hx, y, hy, hz⟩ := hz
    exact ⟨x, hx, y, v ρ y hy, hz⟩
  | left _ ih =>
    intro h
    obtain ⟨t, v⟩ := ih h.1
    refine ⟨⟨t, h.2⟩, fun ρ z hz => ?_⟩
    simp only [value, Option.bind_eq_some_iff] at hz ⊢
    obtain ⟨x, hx, hz⟩ := hz
    exact ⟨x, v ρ x hx, hz⟩
  | right _ ih =>
    intro h
    obtain ⟨t, v⟩ := ih h.2
    refine ⟨⟨h.1, t⟩, fun ρ z hz => ?_⟩
    simp only [value, Option.bind_eq_some_iff] at hz ⊢
    obtain ⟨x, hx, y, hy, hz⟩ := hz
    exact ⟨x, hx, y, v ρ y hy, hz⟩
  | sext _ ih =>
    intro h
    obtain ⟨t, v⟩ := ih h.2
    refine ⟨⟨h.1, t⟩, fun ρ z hz => ?_⟩
    simp only [value, Option.map_eq_some_iff] at hz ⊢
    obtain ⟨x, hx, hz⟩ := hz
    exact ⟨x, v ρ x hx, hz⟩
  | zext _ ih =>
    intro h
    obtain ⟨t, v⟩ := ih h.2
    refine ⟨⟨h.1, t⟩, fun ρ z hz => ?_⟩
    simp only [value, Option.map_eq_some_iff] at hz ⊢
    obtain ⟨x, hx, hz⟩ := hz
    exact ⟨x, v ρ x hx, hz⟩
  | trunc _ ih =>
    intro h
    obtain ⟨t, v⟩ := ih h.2.2
    refine ⟨⟨h.1, h.2.1, t⟩, fun ρ z hz => ?_⟩
    simp only [value, Option.map_eq_some_iff] at hz ⊢
    obtain ⟨x, hx, hz⟩ := hz
    exact ⟨x, v ρ x hx, hz⟩

/-- **C37.** Any number of reductions at any places of a tree of integer operations, in any order,
keeps the tree well typed, and whenever the value of the original is defined in LLVM the reduced tree
has that value, for all values of the outputs that are not integer operations. -/
theorem C37_reduce {n : Nat} {e e' : IExpr n} (hs : Steps e e') :
    Typed e → Typed e' ∧ ∀ ρ z, value ρ e = some z → value ρ e' = some z := by
  induction hs with
  | refl => exact fun h => ⟨h, fun _ _ hz => hz⟩
  | tail _ hst ih =>
    intro h
    obtain ⟨t, v⟩ := ih h
    obtain ⟨t', v'⟩ := step_sound hst t
    exact ⟨t', fun ρ z hz => v' ρ z (v ρ z hz)⟩

/-- a reduction yields a constant -/
theorem root_const {n : Nat} {e e' : IExpr n} (hr : reduceRoot e = .becomes e') :
    size e' = 0 ∧ 0 < size e := by
  have hc : ∀ {m : Nat} {o : Option BVR} {c : IExpr m}, created m o = .becomes c → size c = 0 := by
    intro m o c h
    obtain ⟨rep, _, rfl, _⟩ := created_some h
    rfl
  cases e with
  | var => cases hr
  | const => cases hr
  | cmp op a b =>
    obtain ⟨r1, r2, -, -, hr1⟩ := cmp_inv hr
    exact ⟨hc hr1, by simp [size]⟩
  | arith op a b =>
    refine ⟨?_, by simp [size]⟩
    simp only [reduceRoot] at hr
    split at hr
    · unfold reduceSub at hr
      split at hr
      · obtain ⟨r1, r2, -, -, hr1⟩ := arith_inv hr
        exact hc hr1
      · unfold additiveInverse at hr
        split at hr
        · exact hc hr
        · cases hr
    · obtain ⟨r1, r2, -, -, hr1⟩ := arith_inv hr
      exact hc hr1
  | @sext s d a =>
    refine ⟨?_, by simp [size]⟩
    simp only [reduceRoot] at hr
    cases a <;> simp only [foldSExt] at hr <;> try cases hr
    exact hc hr
  | @zext s d a =>
    refine ⟨?_, by simp [size]⟩
    simp only [reduceRoot] at hr
    cases a <;> simp only [foldZExt] at hr <;> try cases hr
    exact hc hr
  | @trunc s d a =>
    refine ⟨?_, by simp [size]⟩
    simp only [reduceRoot] at hr
    cases a <;> simp only [foldTrunc] at hr <;> try cases hr
    exact hc hr

/-- **C37, termination.** Every reduction removes at least one operation, so there is no infinite
sequence of them. -/
theorem C37_terminates {n : Nat} {e e' : IExpr n} (hs : Step e e') : size e' < size e := by
  induction hs with
  | root hr => have := root_const hr; omega
  | cmpLeft _ ih => simp only [size]; omega
  | cmpRight _ ih => simp only [size]; omega
  | left _ ih => simp only [size]; omega
  | right _ ih => simp only [size]; omega
  | sext _ ih => simp only [size]; omega
  | zext _ ih => simp only [size]; omega
  | trunc _ ih => simp only [size]; omega

theorem created_repr {n : Nat} (x : BitVec n) :
    created n (some (Bits.repr x)) = .becomes (.const n (Bits.repr x)) := by
  simp [created]

theorem arith_const {n : Nat} (hn : 0 < n) (x y : BitVec n) (op : Arith) :
    (∃ e', foldArithConstants op (.const n (Bits.repr x)) (.const n (Bits.repr y)) = .becomes e') ∨
    foldArithConstants op (.const n (Bits.repr x)) (.const n (Bits.repr y)) = .throws := by
  simp only [foldArithConstants]
  cases h : foldArith op (Bits.repr x) (Bits.repr y) with
  | none => exact Or.inr rfl
  | some r =>
    obtain ⟨z, rfl⟩ := (C37_fold_total_partial hn x y op).2 r h
    exact Or.inl ⟨_, created_repr z⟩

/-- **C37, completeness.** A tree whose leaves are constants, and to which no reduction applies any
more, is a constant, unless a reduction throws: folding does not stop early. -/
theorem C37_complete : {n : Nat} → (e : IExpr n) → Typed e → Closed e →
    (∀ e', ¬ Step e e') → (∃ x : BitVec n, e = .const n (Bits.repr x)) ∨ Throws e
  | _, .var _ _, _, hc, _ => hc.elim
  | _, .const _ _, ht, _, _ => by
    obtain ⟨_, x, rfl⟩ := ht; exact Or.inl ⟨x, rfl⟩
  | _, .cmp op a b, ht, hc, hs => by
    have hp := typed_pos a ht.1
    rcases C37_complete a ht.1 hc.1 (fun e' h => hs _ (.cmpLeft h)) with ⟨x, rfl⟩ | h
    · rcases C37_complete b ht.2 hc.2 (fun e' h => hs _ (.cmpRight h)) with ⟨y, rfl⟩ | h
      · refine (hs _ (.root (e' := .const 1 (Bits.repr (if icmp x y op then 1#1 else 0#1))) ?_)).elim
        simp only [reduceRoot, foldCmpConstants, C37_fold_cmp hp, created_repr]
      · exact Or.inr (Or.inr (Or.inl h))
    · exact Or.inr (Or.inl h)
  | n, .arith op a b, ht, hc, hs => by
    have hp := typed_pos a ht.1
    rcases C37_complete a ht.1 hc.1 (fun e' h => hs _ (.left h)) with ⟨x, rfl⟩ | h
    · rcases C37_complete b ht.2 hc.2 (fun e' h => hs _ (.right h)) with ⟨y, rfl⟩ | h
      · have key : (∃ e', reduceRoot (.arith op (.const n (Bits.repr x)) (.const n (Bits.repr y))) =
            .becomes e') ∨
            reduceRoot (.arith op (.const n (Bits.repr x)) (.const n (Bits.repr y))) = .throws := by
          simp only [reduceRoot]
          split
          · rename_i hop
            subst hop
            have ha : additiveInverse (.const n (Bits.repr x)) (.const n (Bits.repr y)) = .nothing ∨
                additiveInverse (.const n (Bits.repr x)) (.const n (Bits.repr y)) =
                  .becomes (.const n (Bits.repr 0#n)) := by
              unfold additiveInverse
              split
              · rw [BVR.ofInt_zero hp, zero_repr, created_repr]; exact Or.inr rfl
              · exact Or.inl rfl
            unfold reduceSub
            rcases ha with ha | ha <;> rw [ha]
            · exact arith_const hp x y .sub
            · exact Or.inl ⟨_, rfl⟩
          · exact arith_const hp x y op
        rcases key with ⟨e', h⟩ | h
        · exact (hs _ (.root h)).elim
        · exact Or.inr (Or.inr (Or.inr h))
      · exact Or.inr (Or.inr (Or.inl h))
    · exact Or.inr (Or.inl h)
  | _, @IExpr.sext s d a, ht, hc, hs => by
    have hp := typed_pos a ht.2
    rcases C37_complete a ht.2 hc (fun e' h => hs _ (.sext h)) with ⟨x, rfl⟩ | h
    · exact (hs _ (.root ((C37_fold_conversions hp x).1 d ht.1))).elim
    · exact Or.inr (Or.inl h)
  | _, @IExpr.zext s d a, ht, hc, hs => by
    have hp := typed_pos a ht.2
    rcases C37_complete a ht.2 hc (fun e' h => hs _ (.zext h)) with ⟨x, rfl⟩ | h
    · exact (hs _ (.root ((C37_fold_conversions hp x).2.1 d ht.1))).elim
    · exact Or.inr (Or.inl h)
  | _, @IExpr.trunc s d a, ht, hc, hs => by
    have hp := typed_pos a ht.2.2
    rcases C37_complete a ht.2.2 hc (fun e' h => hs _ (.trunc h)) with ⟨x, rfl⟩ | h
    · exact (hs _ (.root ((C37_fold_conversions hp x).2.2 d ht.1 ht.2.1))).elim
    · exact Or.inr (Or.inl h)

/-! ### Non-vacuity: `sext (−3 : i4) to i8, divided by the variable minus itself plus 2` -/

def exTree : IExpr 8 :=
  .arith .sdiv (.sext 8 (.const 4 (Bits.repr 13#4)))
    (.arith .add (.arith .sub (.var 8 0) (.var 8 0)) (.const 8 (Bits.repr 2#8)))

example : Typed exTree :=
  ⟨⟨by omega, by omega, _, rfl⟩, ⟨⟨by simp [Typed], by simp [Typed]⟩, by omega, _, rfl⟩⟩

/-- −3 / 2 = −1, for every value of the variable -/
example (ρ : (n : Nat) → Nat → Option (BitVec n)) (x : BitVec 8) (h : ρ 8 0 = some x) :
    value ρ exTree = some 255#8 := by
  simp only [exTree, value, word_repr, h, Option.map_some, Option.bind_some, llvm]
  have e : BitVec.ofInt 8 (x.toInt - x.toInt) = 0#8 := by simp
  rw [e]
  decide

example : Steps exTree (.const 8 (Bits.repr 255#8)) := by
  refine .tail (.tail (.tail (.tail (.refl _)
    (.left (a' := .const 8 (Bits.repr 253#8)) (.root (by decide +kernel))))
    (.right (.left (a' := .const 8 (Bits.repr 0#8)) (.root (by decide +kernel)))))
    (.right (b' := .const 8 (Bits.repr 2#8)) (.root (by decide +kernel))))
    (.root (by decide +kernel))

end Jlm.Llvm.Fold
