import Verif.Bits.Lemmas2
/-
Properties C01-C06: `BitValueRepresentation`.
`repr x` is the n characters of the machine word `x : BitVec n`; `Stands a x` says that `x` is one
of the words a four-valued representation `a` stands for (Verif/Bits/Spec.lean).
`none` is a thrown exception. All public constructors give width > 0 (`constructors_nonempty`).
-/
namespace Jlm.Bits
open BVR

/-- The fully known representations are exactly the representations of machine words, so the
theorems below about `repr x` cover every operand for which `is_known()` holds. -/
theorem isKnown_iff_repr (a : BVR) : isKnown a = true ↔ ∃ x : BitVec a.length, a = repr x := by
  have hk : isKnown a = true ↔ Known a := by
    simp only [isKnown, List.all_eq_true, decide_eq_true_eq, Known, KnownB]
    constructor
    · intro h b hb
      have := h b hb
      cases b <;> simp_all
    · intro h b hb
      rcases h b hb with h | h <;> simp [h]
  rw [hk]
  constructor
  · intro h; exact ⟨_, eq_repr_ofNat h rfl⟩
  · rintro ⟨x, hx⟩; rw [hx]; exact repr_known x

/-- A machine word has one representation and a representation determines the word. -/
theorem repr_injective {n : Nat} (x y : BitVec n) : repr x = repr y ↔ x = y := by
  constructor
  · intro h
    have := congrArg val h
    simp only [val_repr] at this
    exact BitVec.eq_of_toNat_eq this
  · rintro rfl; rfl

/-! ### C01 -/

theorem C01_add {n : Nat} (hn : 0 < n) (x y : BitVec n) :
    add (repr x) (repr y) = some (repr (x + y)) := add_repr hn x y
theorem C01_sub {n : Nat} (hn : 0 < n) (x y : BitVec n) :
    sub (repr x) (repr y) = some (repr (x - y)) := sub_repr hn x y
theorem C01_neg {n : Nat} (hn : 0 < n) (x : BitVec n) :
    neg (repr x) = some (repr (-x)) := neg_repr hn x
theorem C01_mul {n : Nat} (hn : 0 < n) (x y : BitVec n) :
    mul (repr x) (repr y) = some (repr (x * y)) := mul_repr hn x y
theorem C01_land {n : Nat} (hn : 0 < n) (x y : BitVec n) :
    land (repr x) (repr y) = some (repr (x &&& y)) := land_repr hn x y
theorem C01_lor {n : Nat} (hn : 0 < n) (x y : BitVec n) :
    lor (repr x) (repr y) = some (repr (x ||| y)) := lor_repr hn x y
theorem C01_lxor {n : Nat} (hn : 0 < n) (x y : BitVec n) :
    lxor (repr x) (repr y) = some (repr (x ^^^ y)) := lxor_repr hn x y
theorem C01_lnot {n : Nat} (hn : 0 < n) (x : BitVec n) :
    lnot (repr x) = some (repr (~~~x)) := lnot_repr hn x

/-- Operands of different widths are reported by an exception. -/
theorem C01_width_mismatch (a b : BVR) (h : a.length ≠ b.length) :
    add a b = none ∧ mul a b = none ∧ land a b = none ∧ lor a b = none ∧ lxor a b = none ∧
    sub a b = none := by
  refine ⟨by simp [add, h], by simp [mul, h], by simp [land, bitwise, h], by simp [lor, bitwise, h],
    by simp [lxor, bitwise, h], ?_⟩
  by_cases hb : b = []
  · subst hb; rfl
  · rw [sub, neg_eq hb]
    show add _ _ = none
    rw [add, if_pos (by rw [negLoop_length]; exact h)]

-- non-vacuity: 5 + 6 = 11 on 4 bits and 12 * 13 = 156 mod 16
example : add (repr 5#4) (repr 6#4) = some (repr 11#4) := C01_add (by omega) _ _
example : mul (repr 12#4) (repr 13#4) = some (repr 12#4) := C01_mul (by omega) _ _
example : repr 6#4 = [.zero, .one, .one, .zero] := by decide

/-! ### C02 -/

theorem C02_ult {n : Nat} (hn : 0 < n) (x y : BitVec n) :
    ult (repr x) (repr y) = some (bitOf (decide (x.toNat < y.toNat))) := by
  rw [ult_spec (repr_known x) (repr_known y) (by simp) (repr_ne_nil hn x)]; simp
theorem C02_ule {n : Nat} (_hn : 0 < n) (x y : BitVec n) :
    ule (repr x) (repr y) = some (bitOf (decide (x.toNat ≤ y.toNat))) := by
  rw [ule_spec (repr_known x) (repr_known y) (by simp)]; simp
theorem C02_ugt {n : Nat} (hn : 0 < n) (x y : BitVec n) :
    ugt (repr x) (repr y) = some (bitOf (decide (x.toNat > y.toNat))) := by
  rw [ugt, C02_ule hn, Option.map_some, lnot_bitOf, ← decide_not]
  congr 3; rw [eq_iff_iff]; omega
theorem C02_uge {n : Nat} (hn : 0 < n) (x y : BitVec n) :
    uge (repr x) (repr y) = some (bitOf (decide (x.toNat ≥ y.toNat))) := by
  rw [uge, C02_ult hn, Option.map_some, lnot_bitOf, ← decide_not]
  congr 3; rw [eq_iff_iff]; omega
theorem C02_ne {n : Nat} (_hn : 0 < n) (x y : BitVec n) :
    ne (repr x) (repr y) = some (bitOf (decide (x.toNat ≠ y.toNat))) := by
  rw [ne_spec (repr_known x) (repr_known y) (by simp)]; simp
theorem C02_eq {n : Nat} (hn : 0 < n) (x y : BitVec n) :
    BVR.eq (repr x) (repr y) = some (bitOf (decide (x.toNat = y.toNat))) := by
  rw [BVR.eq, C02_ne hn, Option.map_some, lnot_bitOf, ← decide_not]
  congr 3; rw [eq_iff_iff]; omega
theorem C02_slt {n : Nat} (hn : 0 < n) (x y : BitVec n) :
    slt (repr x) (repr y) = some (bitOf (decide (x.toInt < y.toInt))) := slt_repr hn x y
theorem C02_sle {n : Nat} (hn : 0 < n) (x y : BitVec n) :
    sle (repr x) (repr y) = some (bitOf (decide (x.toInt ≤ y.toInt))) := sle_repr hn x y
theorem C02_sgt {n : Nat} (hn : 0 < n) (x y : BitVec n) :
    sgt (repr x) (repr y) = some (bitOf (decide (x.toInt > y.toInt))) := by
  rw [sgt, C02_sle hn, Option.map_some, lnot_bitOf, ← decide_not]
  congr 3; rw [eq_iff_iff]; omega
theorem C02_sge {n : Nat} (hn : 0 < n) (x y : BitVec n) :
    sge (repr x) (repr y) = some (bitOf (decide (x.toInt ≥ y.toInt))) := by
  rw [sge, C02_slt hn, Option.map_some, lnot_bitOf, ← decide_not]
  congr 3; rw [eq_iff_iff]; omega

/-- Operands of different widths are reported by an exception (`eq`/`uge`/... inherit it). -/
theorem C02_width_mismatch (a b : BVR) (h : a.length ≠ b.length) :
    ult a b = none ∧ ule a b = none ∧ ne a b = none ∧ BVR.eq a b = none ∧ uge a b = none ∧
    ugt a b = none ∧ slt a b = none ∧ sle a b = none ∧ sge a b = none ∧ sgt a b = none := by
  have hult : ∀ c d : BVR, c.length ≠ d.length → ult c d = none := by
    intro c d hcd; unfold ult; rw [if_pos hcd]
  have hu : ult a b = none := hult a b h
  have hl : ule a b = none := by rw [ule, if_pos h]
  have hn : ne a b = none := by rw [ne, if_pos h]
  have hs : slt a b = none ∧ sle a b = none := by
    by_cases ha : a = []
    · subst ha; exact ⟨rfl, rfl⟩
    · by_cases hb : b = []
      · subst hb
        obtain ⟨t, e, _⟩ := flipSign_some ha
        exact ⟨by rw [slt, e]; rfl, by rw [sle, e]; rfl⟩
      · obtain ⟨t, e, l⟩ := flipSign_some ha
        obtain ⟨u, e', l'⟩ := flipSign_some hb
        constructor
        · rw [slt, e, e']; exact hult t u (by omega)
        · rw [sle, e, e']; show ule t u = none; rw [ule, if_pos (by omega)]
  exact ⟨hu, hl, hn, by rw [BVR.eq, hn]; rfl, by rw [uge, hu]; rfl, by rw [ugt, hl]; rfl,
    hs.1, hs.2, by rw [sge, hs.1]; rfl, by rw [sgt, hs.2]; rfl⟩

example : slt (repr 8#4) (repr 7#4) = some .one := C02_slt (by omega) 8#4 7#4
example : ult (repr 8#4) (repr 7#4) = some .zero := C02_ult (by omega) 8#4 7#4

/-! ### C03 -/

theorem C03_slice {n : Nat} (x : BitVec n) (lo hi : Nat) :
    slice (repr x) lo hi =
      if lo < hi ∧ hi ≤ n then some (repr (x.extractLsb' lo (hi - lo))) else none := by
  split
  · rename_i h; exact slice_repr x lo hi h.1 h.2
  · rename_i h; rw [slice, if_pos (by simp; omega)]
/-- the value of a slice is the quotient by 2^lo modulo 2^(hi-lo) -/
theorem C03_slice_value {n : Nat} (x : BitVec n) (lo hi : Nat) (h : lo < hi) (h' : hi ≤ n) :
    slice (repr x) lo hi = some (repr (BitVec.ofNat (hi - lo) (x.toNat / 2 ^ lo))) := by
  rw [slice_repr x lo hi h h']
  congr 2
  apply BitVec.eq_of_toNat_eq
  rw [BitVec.extractLsb'_toNat, BitVec.toNat_ofNat, Nat.shiftRight_eq_div_pow]
theorem C03_trunc {n : Nat} (x : BitVec n) (k : Nat) (h : 0 < k) (h' : k ≤ n) :
    trunc (repr x) k = some (repr (x.setWidth k)) := by
  rw [trunc, slice_repr x 0 k h h']
  congr 2
  apply BitVec.eq_of_toNat_eq
  simp
/-- `concat`: the first operand supplies the low bits. -/
theorem C03_concat {n m : Nat} (x : BitVec n) (y : BitVec m) :
    BVR.concat (repr x) (repr y) = repr ((y ++ x).cast (Nat.add_comm m n)) := by
  apply eq_repr
  · simp only [BVR.concat, known_append]; exact ⟨repr_known x, repr_known y⟩
  · simp [BVR.concat]
  · rw [BVR.concat, val_append]
    simp [BitVec.toNat_append]
    rw [← Nat.shiftLeft_add_eq_or_of_lt x.isLt, Nat.shiftLeft_eq, Nat.mul_comm]; omega
theorem C03_zext {n : Nat} (x : BitVec n) (k : Nat) :
    zext (repr x) k = some (repr (x.setWidth (n + k))) := by
  rw [zext_eq, zext_list_repr]
theorem C03_sext {n : Nat} (hn : 0 < n) (x : BitVec n) (k : Nat) :
    sext (repr x) k = some (repr (x.signExtend (n + k))) := by
  rw [sext_eq _ _ (sign_repr hn x), sext_list_repr]
theorem C03_shl {n : Nat} (hn : 0 < n) (x : BitVec n) (s : Nat) :
    shl (repr x) s = some (repr (x <<< s)) := shl_repr hn x s
theorem C03_shr {n : Nat} (hn : 0 < n) (x : BitVec n) (s : Nat) :
    shr (repr x) s = some (repr (x >>> s)) := shr_repr hn x s
theorem C03_ashr {n : Nat} (hn : 0 < n) (x : BitVec n) (s : Nat) :
    ashr (repr x) s = some (repr (x.sshiftRight s)) := ashr_repr hn x s
/-- the same three shifts, arithmetically: multiplication modulo 2^n and floor division -/
theorem C03_shift_values {n : Nat} (hn : 0 < n) (x : BitVec n) (s : Nat) :
    shl (repr x) s = some (repr (BitVec.ofNat n (x.toNat * 2 ^ s))) ∧
    shr (repr x) s = some (repr (BitVec.ofNat n (x.toNat / 2 ^ s))) ∧
    ashr (repr x) s = some (repr (BitVec.ofInt n (x.toInt / 2 ^ s))) := by
  refine ⟨?_, ?_, ?_⟩
  · rw [shl_repr hn]; congr 2; apply BitVec.eq_of_toNat_eq; simp [Nat.shiftLeft_eq]
  · rw [shr_repr hn]; congr 2; apply BitVec.eq_of_toNat_eq
    have h1 : x.toNat / 2 ^ s ≤ x.toNat := Nat.div_le_self _ _
    have h2 := x.isLt
    simp only [BitVec.toNat_ushiftRight, Nat.shiftRight_eq_div_pow, BitVec.toNat_ofNat]
    rw [Nat.mod_eq_of_lt (by omega)]
  · rw [ashr_repr hn]; congr 2
    rw [BitVec.sshiftRight, Int.shiftRight_eq_div_pow]; simp

/-- slicing, extending and shifting four-valued words moves characters and loses none:
bit `i` of the result is bit `i ± s` of the operand, or the filler. -/
theorem C03_four_valued_shl (a : BVR) (s i : Nat) (r : BVR) (h : shl a s = some r)
    (hi : i < a.length) : r[i]? = if i < s then some .zero else a[i - s]? := by
  unfold shl at h
  split at h
  · cases h; simp_all
  · split at h
    · rename_i h0 h1
      rw [rep] at h
      split at h
      · cases h
      · cases h; rw [if_pos (by omega)]; simp [hi]
    · rename_i h0 h1
      rw [rep, if_neg h0, slice, if_neg (by omega)] at h
      cases h
      simp only [BVR.concat, List.getElem?_append, List.length_replicate]
      split
      · rename_i h2; simp [h2]
      · simp [List.getElem?_take]; omega

example : shl (repr 11#4) 7 = some (repr 0#4) := C03_shl (by omega) 11#4 7
example : ashr (repr 9#4) 2 = some (repr 14#4) := C03_ashr (by omega) 9#4 2
example : slice (repr 13#4) 1 3 = some (repr 2#2) := C03_slice 13#4 1 3

/-! ### C04 -/

theorem C04_udiv {n : Nat} (hn : 0 < n) (x y : BitVec n) (hy : y.toNat ≠ 0) :
    udiv (repr x) (repr y) = some (repr (BitVec.ofNat n (x.toNat / y.toNat))) := by
  rw [udiv, udivrem_repr hn, Option.map_some, BitVec.smtUDiv_eq,
    if_neg (fun h => hy (by simp [h]))]
  show some (repr _) = _
  congr 2
  apply BitVec.eq_of_toNat_eq
  have h1 : x.toNat / y.toNat ≤ x.toNat := Nat.div_le_self _ _
  have h2 := x.isLt
  rw [BitVec.toNat_udiv, BitVec.toNat_ofNat, Nat.mod_eq_of_lt (by omega)]
theorem C04_umod {n : Nat} (hn : 0 < n) (x y : BitVec n) :
    umod (repr x) (repr y) = some (repr (BitVec.ofNat n (x.toNat % y.toNat))) := by
  rw [umod, udivrem_repr hn, Option.map_some, BitVec.umod_eq]
  show some (repr _) = _
  congr 2
  apply BitVec.eq_of_toNat_eq
  have h1 : x.toNat % y.toNat ≤ x.toNat := Nat.mod_le _ _
  have h2 := x.isLt
  rw [BitVec.toNat_umod, BitVec.toNat_ofNat, Nat.mod_eq_of_lt (a := x.toNat % y.toNat) (by omega)]
/-- quotient truncated toward zero (`Int.tdiv`), modulo 2^n -/
theorem C04_sdiv {n : Nat} (hn : 0 < n) (x y : BitVec n) (hy : y.toInt ≠ 0) :
    sdiv (repr x) (repr y) = some (repr (BitVec.ofInt n (x.toInt.tdiv y.toInt))) := by
  have hy0 : y ≠ 0#n := fun h => hy (by simp [h])
  have hny0 : -y ≠ 0#n := by simpa using hy0
  rw [sdiv, sdivrem_repr hn, Option.map_some]
  have e : x.smtSDiv y = x.sdiv y := by
    rw [BitVec.smtSDiv_eq, BitVec.sdiv_eq]
    simp only [BitVec.smtUDiv_eq, if_neg hy0, if_neg hny0, BitVec.udiv_eq]
  rw [e]
  show some (repr _) = _
  congr 2
  apply BitVec.eq_of_toInt_eq
  rw [BitVec.toInt_sdiv, BitVec.toInt_ofInt]
/-- remainder with the sign of the dividend (`Int.tmod`) -/
theorem C04_smod {n : Nat} (hn : 0 < n) (x y : BitVec n) :
    smod (repr x) (repr y) = some (repr (BitVec.ofInt n (x.toInt.tmod y.toInt))) := by
  rw [smod, sdivrem_repr hn, Option.map_some]
  show some (repr _) = _
  congr 2
  apply BitVec.eq_of_toInt_eq
  rw [BitVec.toInt_srem, BitVec.toInt_ofInt, ← BitVec.toInt_srem, BitVec.toInt_bmod_cancel]
/-- A zero divisor is not rejected: the code answers "all ones" / "the dividend". -/
theorem C04_udiv_by_zero {n : Nat} (hn : 0 < n) (x : BitVec n) :
    udiv (repr x) (repr 0#n) = some (repr (BitVec.allOnes n)) ∧
    umod (repr x) (repr 0#n) = some (repr x) := by
  constructor
  · rw [udiv, udivrem_repr hn]; rfl
  · rw [umod, udivrem_repr hn]; simp
theorem C04_umulh {n : Nat} (hn : 0 < n) (x y : BitVec n) :
    umulh (repr x) (repr y) = some (repr (BitVec.ofNat n (x.toNat * y.toNat / 2 ^ n))) := by
  rw [umulh, if_neg (by simp), repr_length, ofInt_zero (by omega), C03_zext, C03_zext]
  simp only [Option.bind_eq_bind, Option.bind_some]
  rw [mulh_repr hn]
  congr 2
  apply BitVec.eq_of_toNat_eq
  have h1 := x.isLt
  have h2 := y.isLt
  have h3 : x.toNat * y.toNat < 2 ^ (n + n) := by
    rw [Nat.pow_add]; exact Nat.mul_lt_mul'' h1 h2
  have h4 : 2 ^ n ≤ 2 ^ (n + n) := Nat.pow_le_pow_right (by omega) (by omega)
  rw [BitVec.extractLsb'_toNat, BitVec.toNat_ofNat, BitVec.toNat_mul, BitVec.toNat_setWidth,
    BitVec.toNat_setWidth, Nat.mod_eq_of_lt (show x.toNat < 2 ^ (n + n) by omega),
    Nat.mod_eq_of_lt (show y.toNat < 2 ^ (n + n) by omega), Nat.mod_eq_of_lt h3,
    Nat.shiftRight_eq_div_pow]
/-- high half of the signed 2n-bit product: floor division of the integer product by 2^n -/
theorem C04_smulh {n : Nat} (hn : 0 < n) (x y : BitVec n) :
    smulh (repr x) (repr y) = some (repr (BitVec.ofInt n (x.toInt * y.toInt / 2 ^ n))) := by
  rw [smulh, if_neg (by simp), repr_length, ofInt_zero (by omega), C03_sext hn, C03_sext hn]
  simp only [Option.bind_eq_bind, Option.bind_some]
  rw [mulh_repr hn]
  have e : x.signExtend (n + n) * y.signExtend (n + n) = BitVec.ofInt (n + n) (x.toInt * y.toInt) := by
    apply BitVec.eq_of_toInt_eq
    rw [BitVec.toInt_mul, BitVec.toInt_signExtend_of_le (by omega),
      BitVec.toInt_signExtend_of_le (by omega), BitVec.toInt_ofInt]
  rw [e, extract_high_ofInt n hn]

example : sdiv (repr 9#4) (repr 2#4) = some (repr 13#4) := C04_sdiv (by omega) 9#4 2#4 (by decide)
example : smod (repr 9#4) (repr 2#4) = some (repr 15#4) := C04_smod (by omega) 9#4 2#4
-- INT_MIN / -1 wraps
example : sdiv (repr 8#4) (repr 15#4) = some (repr 8#4) := C04_sdiv (by omega) 8#4 15#4 (by decide)

/-! ### C05 -/

/-- Every operation except division: on four-valued operands of equal width > 0 the operation
succeeds and whatever words the operands stand for, the result stands for the exact result. -/
theorem C05_arith_partial {n : Nat} (hn : 0 < n) (a b : BVR) (x y : BitVec n) (hx : Stands a x)
    (hy : Stands b y) :
    (∃ r, add a b = some r ∧ Stands r (x + y)) ∧
    (∃ r, sub a b = some r ∧ Stands r (x - y)) ∧
    (∃ r, mul a b = some r ∧ Stands r (x * y)) ∧
    (∃ r, land a b = some r ∧ Stands r (x &&& y)) ∧
    (∃ r, lor a b = some r ∧ Stands r (x ||| y)) ∧
    (∃ r, lxor a b = some r ∧ Stands r (x ^^^ y)) ∧
    (∃ r, neg a = some r ∧ Stands r (-x)) ∧
    (∃ r, lnot a = some r ∧ Stands r (~~~x)) := by
  have ha := stands_iff.mp hx
  have hb := stands_iff.mp hy
  have hl : a.length = b.length := by rw [hx.1, hy.1]
  have h0 : a ≠ [] := by rintro rfl; have := hx.1; simp at this; omega
  refine ⟨sound2 (add_mono' ha hb hl h0) (add_repr hn x y),
    sound2 (sub_mono' ha hb hl h0) (sub_repr hn x y),
    sound2 (mul_mono' ha hb hl h0) (mul_repr hn x y),
    sound2 (bitwise_mono (fun _ _ _ _ => land_mono) ha hb hl h0) (land_repr hn x y),
    sound2 (bitwise_mono (fun _ _ _ _ => lor_mono) ha hb hl h0) (lor_repr hn x y),
    sound2 (bitwise_mono (fun _ _ _ _ => lxor_mono) ha hb hl h0) (lxor_repr hn x y), ?_, ?_⟩
  · exact sound2 (op := fun a _ => neg a) (y := x) (b := a) (neg_mono' ha h0) (neg_repr hn x)
  · have hlen : a.length ≠ 0 := by rw [hx.1]; omega
    have e : ∀ c : BVR, c.length = n → lnot c = lxor c (List.replicate n .one) := by
      intro c hc
      rw [lnot, rep, if_neg (by omega), hc]; rfl
    have hm : ∃ r s, lnot a = some r ∧ lnot (repr x) = some s ∧ Ref s r := by
      rw [e a hx.1, e (repr x) (by simp)]
      exact bitwise_mono (fun _ _ _ _ => lxor_mono) ha (Ref.refl _) (by simp [hx.1]) h0
    exact sound2 (op := fun a _ => lnot a) (y := x) (b := a) hm (lnot_repr hn x)

theorem C05_shift_partial {n : Nat} (hn : 0 < n) (a : BVR) (x : BitVec n) (hx : Stands a x)
    (k : Nat) :
    (∃ r, shl a k = some r ∧ Stands r (x <<< k)) ∧
    (∃ r, shr a k = some r ∧ Stands r (x >>> k)) ∧
    (∃ r, ashr a k = some r ∧ Stands r (x.sshiftRight k)) := by
  have ha := stands_iff.mp hx
  have h0 : a ≠ [] := by rintro rfl; have := hx.1; simp at this; omega
  exact ⟨sound2 (op := fun a _ => shl a k) (y := x) (b := a) (shl_mono' ha h0 k) (shl_repr hn x k),
    sound2 (op := fun a _ => shr a k) (y := x) (b := a) (shr_mono' ha h0 k) (shr_repr hn x k),
    sound2 (op := fun a _ => ashr a k) (y := x) (b := a) (ashr_mono' ha h0 k) (ashr_repr hn x k)⟩

/-- Comparisons: a '0'/'1' answer is right for every concretisation. `BitCompareOperation` folds a
comparison with a non-constant operand (all 'D') on exactly this ground. -/
theorem C05_compare_partial {n : Nat} (hn : 0 < n) (a b : BVR) (x y : BitVec n) (hx : Stands a x)
    (hy : Stands b y) :
    (∃ r, ult a b = some r ∧ Allows r (decide (x.toNat < y.toNat))) ∧
    (∃ r, ule a b = some r ∧ Allows r (decide (x.toNat ≤ y.toNat))) ∧
    (∃ r, ugt a b = some r ∧ Allows r (decide (x.toNat > y.toNat))) ∧
    (∃ r, uge a b = some r ∧ Allows r (decide (x.toNat ≥ y.toNat))) ∧
    (∃ r, slt a b = some r ∧ Allows r (decide (x.toInt < y.toInt))) ∧
    (∃ r, sle a b = some r ∧ Allows r (decide (x.toInt ≤ y.toInt))) ∧
    (∃ r, sgt a b = some r ∧ Allows r (decide (x.toInt > y.toInt))) ∧
    (∃ r, sge a b = some r ∧ Allows r (decide (x.toInt ≥ y.toInt))) ∧
    (∃ r, ne a b = some r ∧ Allows r (decide (x.toNat ≠ y.toNat))) ∧
    (∃ r, BVR.eq a b = some r ∧ Allows r (decide (x.toNat = y.toNat))) := by
  have ha := stands_iff.mp hx
  have hb := stands_iff.mp hy
  have hl : a.length = b.length := by rw [hx.1, hy.1]
  have h0 : a ≠ [] := by rintro rfl; have := hx.1; simp at this; omega
  exact ⟨soundc (ult_mono' ha hb hl h0) (C02_ult hn x y),
    soundc (ule_mono' ha hb hl) (C02_ule hn x y),
    soundc (map_lnot_mono (ule_mono' ha hb hl)) (C02_ugt hn x y),
    soundc (map_lnot_mono (ult_mono' ha hb hl h0)) (C02_uge hn x y),
    soundc (slt_mono' ha hb hl h0) (C02_slt hn x y),
    soundc (sle_mono' ha hb hl h0) (C02_sle hn x y),
    soundc (map_lnot_mono (sle_mono' ha hb hl h0)) (C02_sgt hn x y),
    soundc (map_lnot_mono (slt_mono' ha hb hl h0)) (C02_sge hn x y),
    soundc (ne_mono' ha hb hl) (C02_ne hn x y),
    soundc (map_lnot_mono (ne_mono' ha hb hl)) (C02_eq hn x y)⟩

/-- The code violates C05 for division: 'D' / '1' is reported as '0' although 1 / 1 = 1. -/
theorem C05_udiv_fails : ¬ ∀ (n : Nat) (a b : BVR) (x y : BitVec n), 0 < n → y.toNat ≠ 0 →
    Stands a x → Stands b y → ∃ r, udiv a b = some r ∧ Stands r (x / y) := by
  intro h
  have hx : Stands [.D] 1#1 := ⟨rfl, by intro i hi; have : i = 0 := by simp at hi; omega
                                        subst this; trivial⟩
  have hy : Stands [.one] 1#1 := ⟨rfl, by intro i hi; have : i = 0 := by simp at hi; omega
                                          subst this; rfl⟩
  obtain ⟨r, h1, h2⟩ := h 1 [.D] [.one] 1#1 1#1 (by omega) (by decide) hx hy
  have e : udiv [.D] [.one] = some [.zero] := by decide
  rw [e] at h1
  cases h1
  have := h2.2 0 (by simp)
  simp [Allows] at this

/-- ... and for the remainder: "10" mod "1D" (lsb first, 1 mod (1 or 3)) is reported as "10" (one)
although 1 mod 1 = 0. -/
theorem C05_umod_fails : ¬ ∀ (n : Nat) (a b : BVR) (x y : BitVec n), 0 < n → y.toNat ≠ 0 →
    Stands a x → Stands b y → ∃ r, umod a b = some r ∧ Stands r (x % y) := by
  intro h
  have hx : Stands [.one, .zero] 1#2 := stands_iff.mpr (by
    rw [show repr 1#2 = [.one, .zero] by decide]; simp [Ref, bitLe])
  have hy : Stands [.one, .D] 1#2 := stands_iff.mpr (by
    rw [show repr 1#2 = [.one, .zero] by decide]; simp [Ref, bitLe])
  obtain ⟨r, h1, h2⟩ := h 2 _ _ 1#2 1#2 (by omega) (by decide) hx hy
  have e : umod [.one, .zero] [.one, .D] = some [.one, .zero] := by decide
  rw [e] at h1
  cases h1
  have := h2.2 0 (by simp)
  simp [Allows] at this

-- non-vacuity: "1D" stands for 1 and for 3
example : Stands [.one, .D] 1#2 ∧ Stands [.one, .D] 3#2 := by
  constructor <;> refine stands_iff.mpr ?_
  · rw [show repr 1#2 = [.one, .zero] by decide]; simp [Ref, bitLe]
  · rw [show repr 3#2 = [.one, .one] by decide]; simp [Ref, bitLe]
example : ult [.D, .zero] [.D, .one] = some .one := by decide

/-! ### C06 -/

/-- The integer constructor: rejected exactly for n = 0 or when `value >> n` is neither 0 nor -1
(n < 64); otherwise it gives the n-bit pattern of the value. -/
theorem C06_ofInt (n : Nat) (v : Int) (h64 : -2 ^ 63 ≤ v ∧ v < 2 ^ 63) :
    ofInt n v =
      if n = 0 then none
      else if -2 ^ n ≤ v ∧ v < 2 ^ n then some (repr (BitVec.ofInt n v))
      else none := by
  unfold ofInt
  split
  · rfl
  · have hdiv : (v >>> n = 0 ∨ v >>> n = -1) ↔ (-2 ^ n ≤ v ∧ v < 2 ^ n) := by
      rw [Int.shiftRight_eq_div_pow]
      have hp : (0 : Int) < 2 ^ n := Int.pow_pos (by omega)
      have e : ((2 ^ n : Nat) : Int) = 2 ^ n := by simp
      rw [e]
      generalize (2 : Int) ^ n = P at hp
      have h1 := Int.emod_add_mul_ediv v P
      have h2 := Int.emod_nonneg v (b := P) (by omega)
      have h3 := Int.emod_lt_of_pos v hp
      constructor
      · rintro (h | h) <;> rw [h] at h1 <;> omega
      · intro h
        have h4 : v / P < 1 := Int.ediv_lt_of_lt_mul hp (by omega)
        have h5 : -1 ≤ v / P := by
          rw [Int.le_ediv_iff_mul_le hp]; omega
        omega
    rcases Nat.lt_or_ge n 64 with h | h
    · by_cases hr : -2 ^ n ≤ v ∧ v < 2 ^ n
      · rw [if_neg (by have := hdiv.mpr hr; omega), if_pos hr, ofIntLoop_repr]
      · rw [if_pos ⟨h, by have := mt hdiv.mp hr; omega⟩, if_neg hr]
    · have h1 : (2 : Int) ^ 63 ≤ 2 ^ n := by
        exact_mod_cast Nat.pow_le_pow_right (n := 2) (by omega) (show 63 ≤ n by omega)
      rw [if_neg (by omega), if_pos (by omega), ofIntLoop_repr]

/-- Values representable as unsigned or as signed n-bit numbers are accepted. -/
theorem C06_ofInt_accepts (n : Nat) (hn : 0 < n) (v : Int) (h64 : -2 ^ 63 ≤ v ∧ v < 2 ^ 63)
    (hr : (0 ≤ v ∧ v < 2 ^ n) ∨ (-2 ^ (n - 1) ≤ v ∧ v < 2 ^ (n - 1))) :
    ofInt n v = some (repr (BitVec.ofInt n v)) := by
  rw [C06_ofInt n v h64, if_neg (by omega), if_pos]
  have h2 : (2 : Int) ^ n = 2 * 2 ^ (n - 1) := by
    have : n = (n - 1) + 1 := by omega
    conv => lhs; rw [this]
    rw [Int.pow_succ, Int.mul_comm]
  have hp : (0 : Int) < 2 ^ (n - 1) := Int.pow_pos (by omega)
  omega

/-- "Value not representable" is *not* always reported: -2 on one bit is accepted as "0"
(`value >> 1 == -1`). So "rejects every unrepresentable value" is false of the code. -/
theorem C06_unrepresentable_accepted : ∃ (n : Nat) (v : Int) (r : BVR), 0 < n ∧
    ¬ (0 ≤ v ∧ v < 2 ^ n) ∧ ¬ (-2 ^ (n - 1) ≤ v ∧ v < 2 ^ (n - 1)) ∧ ofInt n v = some r :=
  ⟨1, -2, [.zero], by decide⟩

/-- `to_uint` returns exactly the unsigned value or reports that it does not fit ... -/
theorem C06_toUint {n : Nat} (x : BitVec n) :
    toUint (repr x) = if x.toNat < 2 ^ 64 then some x.toNat else none := toUint_repr x
/-- ... and reports unknown bits. -/
theorem C06_toUint_known (a : BVR) (m : Nat) (h : toUint a = some m) : isKnown a = true := by
  rw [isKnown_iff_repr]; exact ⟨_, eq_repr_ofNat (toUint_some h) rfl⟩
theorem C06_toInt {n : Nat} (hn : 0 < n) (x : BitVec n) :
    toInt (repr x) =
      if -(2 : Int) ^ 63 ≤ x.toInt ∧ x.toInt < 2 ^ 63 then some x.toInt else none :=
  toInt_repr hn x
theorem C06_toInt_known (a : BVR) (m : Int) (h : toInt a = some m) : isKnown a = true := by
  rw [isKnown_iff_repr]; exact ⟨_, eq_repr_ofNat (toInt_some h) rfl⟩

/-- signed round trip -/
theorem C06_roundtrip_int (n : Nat) (hn : 0 < n) (v : Int) (h64 : -2 ^ 63 ≤ v ∧ v < 2 ^ 63)
    (hr : -2 ^ (n - 1) ≤ v ∧ v < 2 ^ (n - 1)) : (ofInt n v).bind toInt = some v := by
  rw [C06_ofInt_accepts n hn v h64 (Or.inr hr), Option.bind_some, toInt_repr hn,
    BitVec.toInt_ofInt_eq_self (by omega) hr.1 hr.2, if_pos (by omega)]
/-- unsigned round trip -/
theorem C06_roundtrip_uint (n : Nat) (hn : 0 < n) (v : Nat) (h64 : v < 2 ^ 63)
    (hr : v < 2 ^ n) : (ofInt n v).bind toUint = some v := by
  have hr' : (v : Int) < 2 ^ n := by exact_mod_cast hr
  rw [C06_ofInt_accepts n hn v (by omega) (Or.inl ⟨by omega, hr'⟩), Option.bind_some, toUint_repr]
  have e : (BitVec.ofInt n (v : Int)).toNat = v := by
    rw [BitVec.ofInt_natCast, BitVec.toNat_ofNat, Nat.mod_eq_of_lt hr]
  rw [e, if_pos (by omega)]

/-- `str` and the string constructor are inverse to each other. -/
theorem C06_string_roundtrip (a : BVR) (h : a ≠ []) : ofString (str a) = some a := by
  have hp : 0 < a.length := List.length_pos_iff.mpr h
  rw [ofString, if_neg (by simp [str]; exact h), str]
  clear h hp
  induction a with
  | nil => rfl
  | cons b bs ih =>
    simp only [List.map_cons, List.mapM_cons, ih]
    cases b <;> rfl
theorem C06_string_exact (s : List Char) (a : BVR) (h : ofString s = some a) : str a = s := by
  rw [ofString] at h
  split at h
  · cases h
  · rename_i hs; clear hs
    induction s generalizing a with
    | nil => simp at h; subst h; rfl
    | cons c cs ih =>
      simp only [List.mapM_cons, Option.bind_eq_bind, Option.bind_eq_some_iff] at h
      obtain ⟨b, hb, bs, hbs, e⟩ := h
      cases e
      have := ih bs hbs
      simp only [str] at this
      simp only [str, List.map_cons, this]
      congr 1
      unfold Bit.ofChar? at hb
      split at hb
      · cases hb; subst_vars; rfl
      · split at hb
        · cases hb; subst_vars; rfl
        · split at hb
          · cases hb; subst_vars; rfl
          · split at hb
            · cases hb; subst_vars; rfl
            · cases hb
theorem C06_string_rejects (s : List Char) :
    ofString s = none ↔ s = [] ∨ ∃ c ∈ s, c ≠ '0' ∧ c ≠ '1' ∧ c ≠ 'X' ∧ c ≠ 'D' := by
  rw [ofString]
  split
  · rename_i h; simp at h; simp [h]
  · rename_i h
    have hs : s ≠ [] := by rintro rfl; simp at h
    simp only [hs, false_or]
    clear h hs
    induction s with
    | nil => simp
    | cons c cs ih =>
      have hex : (∃ d ∈ c :: cs, d ≠ '0' ∧ d ≠ '1' ∧ d ≠ 'X' ∧ d ≠ 'D') ↔
          ((c ≠ '0' ∧ c ≠ '1' ∧ c ≠ 'X' ∧ c ≠ 'D') ∨ cs.mapM Bit.ofChar? = none) := by
        constructor
        · rintro ⟨d, hd, hp⟩
          rcases List.mem_cons.mp hd with rfl | hd
          · exact Or.inl hp
          · exact Or.inr (ih.mpr ⟨d, hd, hp⟩)
        · rintro (hp | hp)
          · exact ⟨c, by simp, hp⟩
          · obtain ⟨d, hd, hp⟩ := ih.mp hp
            exact ⟨d, by simp [hd], hp⟩
      rw [hex]
      simp only [List.mapM_cons, Option.bind_eq_bind]
      have hc : Bit.ofChar? c = none ↔ (c ≠ '0' ∧ c ≠ '1' ∧ c ≠ 'X' ∧ c ≠ 'D') := by
        unfold Bit.ofChar?
        split
        · simp_all
        · split
          · simp_all
          · split
            · simp_all
            · split
              · simp_all
              · simp_all
      cases hb : Bit.ofChar? c with
      | none => simp [hc.mp hb]
      | some b =>
        have : ¬ (c ≠ '0' ∧ c ≠ '1' ∧ c ≠ 'X' ∧ c ≠ 'D') := by rw [← hc, hb]; simp
        simp only [this, false_or, Option.bind_some]
        cases cs.mapM Bit.ofChar? <;> simp

/-- all public constructors give a non-empty bit string -/
theorem constructors_nonempty (r : BVR) :
    (∀ n v, ofInt n v = some r → r ≠ []) ∧ (∀ s, ofString s = some r → r ≠ []) ∧
    (∀ c, ofChar c = some r → r ≠ []) ∧ (∀ n b, rep n b = some r → r ≠ []) := by
  refine ⟨?_, ?_, ?_, ?_⟩
  · intro n v h
    unfold ofInt at h
    split at h
    · cases h
    · split at h
      · cases h
      · cases h
        intro h0
        have := ofIntLoop_length n v
        rw [h0] at this
        simp at this; omega
  · intro s h h0
    have := C06_string_exact s r h
    subst h0
    subst this
    simp [ofString, str] at h
  · intro c h
    simp only [ofChar, Option.map_eq_some_iff] at h
    obtain ⟨b, _, rfl⟩ := h
    simp
  · intro n b h
    unfold rep at h
    split at h
    · cases h
    · cases h
      rename_i hn
      simpa using hn

example : ofInt 4 (-3) = some (repr 13#4) := by decide
example : (ofInt 70 (-3)).bind toInt = some (-3) := C06_roundtrip_int 70 (by omega) (-3) (by omega) (by omega)

end Jlm.Bits
