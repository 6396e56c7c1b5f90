import Verif.Llvm.ConstModel
import Verif.Bits.Props
import Verif.Util.MathProps
/-
C30: `tryGetConstantSignedInteger` returns the value the output has at run time.
-/
set_option linter.unusedSimpArgs false
namespace Jlm.Llvm.Const
open Jlm.Bits Jlm.Util.Math

/-! ### specification -/

/-- the number of bits of the value -/
def width : CExpr → Nat
  | .const rep => BVR.nbits rep
  | .sext _ d _ => d
  | .zext _ d _ => d
  | .trunc _ d _ => d
  | .other n => n

/-- The expression is well-typed: the constructors of the operations
(ConversionOperations.hpp:90-102,170-181,245-252) reject everything else. -/
def WF : CExpr → Prop
  | .const rep => 0 < BVR.nbits rep
  | .sext s d e => WF e ∧ width e = s ∧ s < d
  | .zext s d e => WF e ∧ width e = s ∧ s < d
  | .trunc s d e => WF e ∧ width e = s ∧ d < s ∧ 0 < d
  | .other n => 0 < n

/-- `Value e x`: at run time the value of `e`, read as a signed integer, can be `x`. -/
inductive Value : CExpr → Int → Prop
  | const {n} (x : BitVec n) : Value (.const (Bits.repr x)) x.toInt
  /-- sign extension keeps the signed value -/
  | sext {s d e x} : Value e x → Value (.sext s d e) x
  /-- zero extension gives the unsigned value -/
  | zext {s d e x} : Value e x → Value (.zext s d e) (x % 2 ^ s)
  /-- truncation keeps the low bits -/
  | trunc {s d e x} : Value e x → Value (.trunc s d e) (Int.bmod x (2 ^ d))
  | other {n x} : -2 ^ (n - 1) ≤ x → x < 2 ^ (n - 1) → Value (.other n) x

/-! ### proofs -/

theorem two_pow_split (n : Nat) (h : 0 < n) : (2 : Int) ^ n = 2 * 2 ^ (n - 1) := by
  have : n = (n - 1) + 1 := by omega
  conv => lhs; rw [this]
  rw [Int.pow_succ, Int.mul_comm]

theorem bmod_range (x : Int) (d : Nat) (hd : 0 < d) :
    -2 ^ (d - 1) ≤ Int.bmod x (2 ^ d) ∧ Int.bmod x (2 ^ d) < 2 ^ (d - 1) := by
  have h2 := two_pow_split d hd
  have hp : (0 : Int) < 2 ^ (d - 1) := Int.pow_pos (by omega)
  have h1 := Int.le_bmod (x := x) (m := 2 ^ d) (Nat.two_pow_pos d)
  have h3 := Int.bmod_lt (x := x) (m := 2 ^ d) (Nat.two_pow_pos d)
  push_cast at h1 h3
  rw [h2] at h1 h3
  omega

theorem width_pos {e : CExpr} (h : WF e) : 0 < width e := by
  cases e with
  | const => exact h
  | sext s d e => simp only [WF] at h; simp only [width]; omega
  | zext s d e => simp only [WF] at h; simp only [width]; omega
  | trunc s d e => simp only [WF] at h; simp only [width]; omega
  | other => exact h

theorem pow_mono {a b : Nat} (h : a ≤ b) : (2 : Int) ^ a ≤ 2 ^ b :=
  Util.Math.pow_le_of h

/-- a value fits its width -/
theorem value_range {e : CExpr} {x : Int} (hv : Value e x) (h : WF e) :
    -2 ^ (width e - 1) ≤ x ∧ x < 2 ^ (width e - 1) := by
  induction hv with
  | @const n x =>
    have hn : BVR.nbits (Bits.repr x) = n := by simp [BVR.nbits, Bits.repr]
    simp only [width, hn]
    have h1 := BitVec.le_toInt x
    have h2 := BitVec.toInt_lt (x := x)
    exact ⟨h1, h2⟩
  | @sext s d e x hv ih =>
    simp only [WF] at h
    obtain ⟨h1, h2, h3⟩ := h
    have := ih h1
    simp only [width]
    have := pow_mono (show width e - 1 ≤ d - 1 by omega)
    omega
  | @zext s d e x hv ih =>
    simp only [WF] at h
    obtain ⟨h1, h2, h3⟩ := h
    simp only [width]
    have hp : (0 : Int) < 2 ^ s := Int.pow_pos (by omega)
    have := pow_mono (show s ≤ d - 1 by omega)
    have := Int.emod_nonneg x (show (2 : Int) ^ s ≠ 0 by omega)
    have := Int.emod_lt_of_pos x hp
    omega
  | @trunc s d e x hv ih =>
    simp only [WF] at h
    simp only [width]
    exact bmod_range x d h.2.2.2
  | other h1 h2 => exact ⟨h1, h2⟩

theorem bmod_ofInt (x : Int) (k : Nat) (hk : k ≤ 64) :
    Int.bmod (BitVec.ofInt 64 x).toInt (2 ^ k) = Int.bmod x (2 ^ k) := by
  rw [BitVec.toInt_ofInt, Int.bmod_bmod_of_dvd]
  exact_mod_cast pow_dvd_pow 2 hk

theorem eq_ofInt_of_toInt {v : BitVec 64} {x : Int} (h : v.toInt = x) : v = BitVec.ofInt 64 x := by
  rw [← h, BitVec.ofInt_toInt]

theorem ofMath_sext {v r : BitVec 64} {k : Nat} (h1 : 1 ≤ k)
    (h : ofMath (truncateAndSignExtend v k) = .ret (some r)) :
    k ≤ 64 ∧ r.toInt = Int.bmod v.toInt (2 ^ k) := by
  by_cases h2 : k ≤ 64
  · obtain ⟨r', e, _, hr⟩ := C16_truncateAndSignExtend v k h1 h2
    rw [e] at h
    simp only [ofMath, Out.ret.injEq, Option.some.injEq] at h
    exact ⟨h2, h ▸ hr⟩
  · have := ((C16_truncate_boundary v k).2.2.1).2 (by omega)
    rw [this] at h; simp [ofMath] at h

theorem ofMath_zext {v r : BitVec 64} {k : Nat} (h1 : 1 ≤ k)
    (h : ofMath (truncateAndZeroExtend v k) = .ret (some r)) :
    k ≤ 64 ∧ r.toNat = v.toNat % 2 ^ k := by
  by_cases h2 : k ≤ 64
  · obtain ⟨r', e, _, hr⟩ := C16_truncateAndZeroExtend v k h1 h2
    rw [e] at h
    simp only [ofMath, Out.ret.injEq, Option.some.injEq] at h
    exact ⟨h2, h ▸ hr⟩
  · have := ((C16_truncate_boundary v k).2.2.2).2 (by omega)
    rw [this] at h; simp [ofMath] at h

/-- **C30 (modulo 2^64).** For every well-typed expression of any widths: a returned constant
agrees with the value of the expression in the low 64 bits. -/
theorem C30_constant_mod (e : CExpr) (h : WF e) (v : BitVec 64) (x : Int)
    (hr : tryGetConstantSignedInteger e = .ret (some v)) (hv : Value e x) :
    v = BitVec.ofInt 64 x := by
  induction hv generalizing v with
  | @const n x =>
    have hn : BVR.nbits (Bits.repr x) = n := by simp [BVR.nbits, Bits.repr]
    simp only [WF, hn] at h
    simp only [tryGetConstantSignedInteger] at hr
    split at hr
    · rw [C06_toInt h x] at hr
      by_cases hx : -(2 : Int) ^ 63 ≤ x.toInt ∧ x.toInt < 2 ^ 63
      · rw [if_pos hx] at hr
        simp only [Out.ret.injEq, Option.some.injEq] at hr
        exact hr.symm
      · rw [if_neg hx] at hr; simp at hr
    · simp at hr
  | @sext s d e x hv ih =>
    simp only [WF] at h
    obtain ⟨h1, h2, h3⟩ := h
    have hw := width_pos h1
    simp only [tryGetConstantSignedInteger] at hr
    split at hr
    · rename_i v' hv'
      have := ih h1 v' hv'
      subst this
      obtain ⟨hk, hr⟩ := ofMath_sext (by omega) hr
      rw [bmod_ofInt x s hk] at hr
      have hx := value_range hv h1
      rw [h2] at hx
      have h2' := two_pow_split s (by omega)
      have : Int.bmod x (2 ^ s) = x := by
        apply Int.bmod_eq_of_le <;> push_cast <;> rw [h2'] <;> omega
      rw [this] at hr
      exact eq_ofInt_of_toInt hr
    · rename_i r' hne; exact absurd hr (hne v)
  | @zext s d e x hv ih =>
    simp only [WF] at h
    obtain ⟨h1, h2, h3⟩ := h
    have hw := width_pos h1
    simp only [tryGetConstantSignedInteger] at hr
    split at hr
    · rename_i v' hv'
      have := ih h1 v' hv'
      subst this
      obtain ⟨hk, hr⟩ := ofMath_zext (by omega) hr
      apply BitVec.eq_of_toNat_eq
      rw [hr, BitVec.toNat_ofInt, BitVec.toNat_ofInt]
      have hp : (0 : Int) < 2 ^ s := Int.pow_pos (by omega)
      have hm := pow_mono hk
      have e1 : (x % 2 ^ s) % ((2 ^ 64 : Nat) : Int) = x % 2 ^ s := by
        apply Int.emod_eq_of_lt (Int.emod_nonneg _ (by omega))
        have := Int.emod_lt_of_pos x hp
        push_cast
        omega
      rw [e1]
      have e2 : (0 : Int) ≤ x % ((2 ^ 64 : Nat) : Int) := Int.emod_nonneg _ (by omega)
      apply Int.ofNat_inj.1
      rw [Int.natCast_mod, Int.toNat_of_nonneg e2, Int.toNat_of_nonneg (Int.emod_nonneg _ (by omega))]
      push_cast
      exact Int.emod_emod_of_dvd _ (pow_dvd_pow 2 hk)
    · rename_i r' hne; exact absurd hr (hne v)
  | @trunc s d e x hv ih =>
    simp only [WF] at h
    obtain ⟨h1, h2, h3, h4⟩ := h
    simp only [tryGetConstantSignedInteger] at hr
    split at hr
    · rename_i v' hv'
      have := ih h1 v' hv'
      subst this
      obtain ⟨hk, hr⟩ := ofMath_sext (by omega) hr
      rw [bmod_ofInt x d hk] at hr
      exact eq_ofInt_of_toInt hr
    · rename_i r' hne; exact absurd hr (hne v)
  | other => simp [tryGetConstantSignedInteger] at hr

/-- **C30.** For every well-typed expression whose result has at most 64 bits (the operands of
its operations may be wider): a returned constant *is* the signed value of the expression. -/
theorem C30_constant (e : CExpr) (h : WF e) (hw : width e ≤ 64) (v : BitVec 64) (x : Int)
    (hr : tryGetConstantSignedInteger e = .ret (some v)) (hv : Value e x) : v.toInt = x := by
  rw [C30_constant_mod e h v x hr hv]
  have hx := value_range hv h
  have := pow_mono (show width e - 1 ≤ 63 by omega)
  exact BitVec.toInt_ofInt_eq_self (by omega) (by simp; omega) (by simp; omega)

/-- all values in the expression have at most 64 bits -/
def Narrow : CExpr → Prop
  | .const _ => True
  | .sext _ d e => d ≤ 64 ∧ Narrow e
  | .zext _ d e => d ≤ 64 ∧ Narrow e
  | .trunc s _ e => s ≤ 64 ∧ Narrow e
  | .other _ => True

/-- the leaf is a fully known constant of at most 64 bits -/
def KnownLeaf : CExpr → Prop
  | .const rep => BVR.isKnown rep = true ∧ BVR.nbits rep ≤ 64
  | .sext _ _ e => KnownLeaf e
  | .zext _ _ e => KnownLeaf e
  | .trunc _ _ e => KnownLeaf e
  | .other _ => False

/-- **C30 (completeness).** With values of at most 64 bits the function never fails, and it
returns a constant exactly if the leaf is a fully known constant. -/
theorem C30_total (e : CExpr) (h : WF e) (hn : Narrow e) :
    (KnownLeaf e → ∃ v, tryGetConstantSignedInteger e = .ret (some v)) ∧
    (¬ KnownLeaf e → tryGetConstantSignedInteger e = .ret none) := by
  induction e with
  | const rep =>
    simp only [KnownLeaf, tryGetConstantSignedInteger, Bool.and_eq_true, decide_eq_true_eq]
    constructor
    · rintro ⟨h1, h2⟩
      rw [if_pos ⟨h1, h2⟩]
      obtain ⟨n, x, rfl⟩ : ∃ (n : Nat) (x : BitVec n), rep = Bits.repr x := by
        exact ⟨_, (isKnown_iff_repr rep).1 h1⟩
      have hnn : BVR.nbits (Bits.repr x) = n := by simp [BVR.nbits, Bits.repr]
      simp only [WF, hnn] at h
      rw [hnn] at h2
      rw [C06_toInt h x, if_pos]
      · exact ⟨_, rfl⟩
      · have h1 := BitVec.le_toInt x
        have h2' := BitVec.toInt_lt (x := x)
        have := pow_mono (show n - 1 ≤ 63 by omega)
        omega
    · intro hh; rw [if_neg hh]
  | sext s d e ih =>
    simp only [WF] at h
    simp only [Narrow] at hn
    have hw := width_pos h.1
    obtain ⟨i1, i2⟩ := ih h.1 hn.2
    simp only [KnownLeaf, tryGetConstantSignedInteger]
    constructor
    · intro hk
      obtain ⟨v, hv⟩ := i1 hk
      obtain ⟨r, hr, _⟩ := C16_truncateAndSignExtend v s (by omega) (by omega)
      rw [hv]; simp only [hr, ofMath]; exact ⟨r, rfl⟩
    · intro hk; rw [i2 hk]
  | zext s d e ih =>
    simp only [WF] at h
    simp only [Narrow] at hn
    have hw := width_pos h.1
    obtain ⟨i1, i2⟩ := ih h.1 hn.2
    simp only [KnownLeaf, tryGetConstantSignedInteger]
    constructor
    · intro hk
      obtain ⟨v, hv⟩ := i1 hk
      obtain ⟨r, hr, _⟩ := C16_truncateAndZeroExtend v s (by omega) (by omega)
      rw [hv]; simp only [hr, ofMath]; exact ⟨r, rfl⟩
    · intro hk; rw [i2 hk]
  | trunc s d e ih =>
    simp only [WF] at h
    simp only [Narrow] at hn
    obtain ⟨i1, i2⟩ := ih h.1 hn.2
    simp only [KnownLeaf, tryGetConstantSignedInteger]
    constructor
    · intro hk
      obtain ⟨v, hv⟩ := i1 hk
      obtain ⟨r, hr, _⟩ := C16_truncateAndSignExtend v d (by omega) (by omega)
      rw [hv]; simp only [hr, ofMath]; exact ⟨r, rfl⟩
    · intro hk; rw [i2 hk]
  | other n => exact ⟨fun h => h.elim, fun _ => rfl⟩

/-- Without the bound on the width the signed value is wrong (finding 19): `zext i64 -1 to i128`
is reported as -1, its value is 2^64 - 1. -/
theorem C30_wide_wrong : ∃ (e : CExpr) (v : BitVec 64) (x : Int), WF e ∧ Value e x ∧
    tryGetConstantSignedInteger e = .ret (some v) ∧ v.toInt ≠ x := by
  have hn : BVR.nbits (Bits.repr (-1#64)) = 64 := by simp [BVR.nbits, Bits.repr]
  have hwf : WF (.zext 64 128 (.const (Bits.repr (-1#64)))) := ⟨by simp only [WF]; omega, hn, by omega⟩
  refine ⟨.zext 64 128 (.const (Bits.repr (-1#64))), -1#64, _, hwf, .zext (.const _), ?_, ?_⟩
  · decide
  · decide

/-- Finding 19: an extension whose source has more than 64 bits fails the assertion of the
helper, although a constant was found below it. -/
theorem C30_wide_fails (e : CExpr) (s d : Nat) (v : BitVec 64) (hs : 64 < s)
    (he : tryGetConstantSignedInteger e = .ret (some v)) :
    tryGetConstantSignedInteger (.sext s d e) = .fail ∧
    tryGetConstantSignedInteger (.zext s d e) = .fail := by
  simp only [tryGetConstantSignedInteger, he]
  rw [((C16_truncate_boundary v s).2.2.1).2 hs, ((C16_truncate_boundary v s).2.2.2).2 hs]
  exact ⟨rfl, rfl⟩

/-- a concrete case: `trunc (zext (sext i8 -20 to i32) to i64) to i16` -/
example : let e := CExpr.trunc 64 16 (.zext 32 64 (.sext 8 32 (.const (Bits.repr (-20#8)))))
    WF e ∧ Narrow e ∧ KnownLeaf e ∧ Value e (Int.bmod (-20 % 2 ^ 32) (2 ^ 16)) ∧
    tryGetConstantSignedInteger e = .ret (some (-20#64)) := by
  refine ⟨by simp [WF, width, BVR.nbits, Bits.repr], by simp [Narrow],
    by simp only [KnownLeaf]; decide, .trunc (.zext (.sext (.const _))), by decide⟩

end Jlm.Llvm.Const
