import Verif.Util.MathModel
import Mathlib.Tactic.Ring
import Mathlib.Tactic.Linarith
import Mathlib.Data.Int.Log
import Mathlib.Tactic.IntervalCases
import Mathlib.Algebra.Ring.Divisibility.Basic
set_option linter.unusedSimpArgs false
/- C16: integer helper functions. -/
namespace Jlm.Util.Math

/-- The integer types of C++ on the platform. -/
def IntTy.standard (t : IntTy) : Prop := t.bits = 8 ∨ t.bits = 16 ∨ t.bits = 32 ∨ t.bits = 64
/-- `v` is a value of type `t`. -/
def IntTy.has (t : IntTy) (v : Int) : Prop := t.min ≤ v ∧ v ≤ t.max
instance (t : IntTy) (v : Int) : Decidable (t.has v) := by unfold IntTy.has; infer_instance

@[simp] theorem bind_val {α β} (a : α) (f : α → Res β) : (Res.val a >>= f) = f a := rfl
@[simp] theorem bind_ub {α β} (f : α → Res β) : (Res.ub >>= f) = Res.ub := rfl
@[simp] theorem pure_val {α} (a : α) : (pure a : Res α) = Res.val a := rfl

/-- `log2Floor` of a positive value is the exponent of the largest power of two below it; of any
other value it is -1. -/
theorem C16_log2Floor (v : Int) :
    (v < 1 → log2Floor v = -1) ∧
    (1 ≤ v → ∃ k : Nat, log2Floor v = k ∧ 2 ^ k ≤ v ∧ v < 2 ^ (k + 1)) := by
  constructor
  · intro h; rw [log2Floor, if_pos h]
  · intro h
    obtain ⟨n, rfl⟩ : ∃ n : Nat, v = n := ⟨v.toNat, by omega⟩
    induction n using Nat.strong_induction_on with
    | _ n ih =>
      rw [log2Floor, if_neg (by omega)]
      have hs : (n : Int) >>> 1 = ((n / 2 : Nat) : Int) := by
        rw [Int.shiftRight_eq_div_pow]; norm_num
      rw [hs]
      by_cases h1 : n = 1
      · subst h1
        refine ⟨0, ?_, by norm_num, by norm_num⟩
        rw [log2Floor]; norm_num
      · obtain ⟨k, hk, h2, h3⟩ := ih (n / 2) (by omega) (by omega)
        refine ⟨k + 1, by rw [hk]; push_cast; ring, ?_, ?_⟩
        · rw [pow_succ]; omega
        · rw [pow_succ]; omega

example : log2Floor 7 = 2 := by
  obtain ⟨_, h⟩ := C16_log2Floor 7
  obtain ⟨k, hk, h2, h3⟩ := h (by norm_num)
  have : k = 2 := by
    by_contra hne
    rcases Nat.lt_or_gt_of_ne hne with h | h
    · interval_cases k <;> norm_num at h3
    · have : (2:Int)^3 ≤ 2^k := pow_le_pow_right₀ (by norm_num) h
      linarith
  subst this; exact hk

theorem bits_pos {t : IntTy} (h : t.standard) : 8 ≤ t.bits ∧ t.bits ≤ 64 := by
  rcases h with h | h | h | h <;> rw [h] <;> constructor <;> norm_num

theorem conv_has {t : IntTy} (ht : t.standard) {v : Int} (h : t.has v) : t.conv v = v := by
  obtain ⟨sg, b⟩ := t
  have hb := (bits_pos ht).1
  simp only [IntTy.has, IntTy.min, IntTy.max, IntTy.conv] at *
  have hp : (2:Int) ^ b = 2 * 2 ^ (b - 1) := by rw [← pow_succ']; congr 1; omega
  cases sg
  · simp only [Bool.false_eq_true, if_false] at *
    exact Int.emod_eq_of_lt h.1 (by omega)
  · simp only [if_true] at *
    apply Int.bmod_eq_of_le_mul_two
    · push_cast; rw [hp]; omega
    · push_cast; rw [hp]; omega

theorem has_promote {t : IntTy} (ht : t.standard) {v : Int} (h : t.has v) : t.promote.has v := by
  obtain ⟨sg, b⟩ := t
  rcases ht with rfl | rfl | rfl | rfl <;> cases sg <;>
    simp only [IntTy.has, IntTy.min, IntTy.max, IntTy.promote] at * <;> norm_num at * <;> omega

theorem promote_standard {t : IntTy} (ht : t.standard) : t.promote.standard := by
  unfold IntTy.promote; split
  · exact Or.inr (Or.inr (Or.inl rfl))
  · exact ht

theorem arith_has {t : IntTy} {v : Int} (h : t.has v) : t.arith v = .val v := by
  obtain ⟨sg, b⟩ := t
  simp only [IntTy.has, IntTy.arith, IntTy.min, IntTy.max] at *
  cases sg <;> simp at *
  · exact Int.emod_eq_of_lt h.1 (by omega)
  · omega

/-- The outcome of `RoundUpToPowerOf2` when the next power of two does not fit into the type. -/
def roundUpToPowerOf2Overflow (t : IntTy) : Res Int :=
  if t.signed then .val t.min          -- wraps to the most negative value
  else if t.bits < 32 then .val 0      -- wraps to zero
  else .ub                             -- shift by the width of the type

theorem pow_le_of {k m : Nat} (h : k ≤ m) : (2:Int) ^ k ≤ 2 ^ m :=
  pow_le_pow_right₀ (by norm_num) h

/-- `RoundUpToPowerOf2` returns the least power of two that is at least `value`, if the type has
that number, and otherwise overflows as stated. -/
theorem C16_roundUpToPowerOf2 (t : IntTy) (ht : t.standard) (v : Int) (hv : t.has v) :
    ∃ k : Nat, (∀ j : Nat, v ≤ 2 ^ j ↔ k ≤ j) ∧
      roundUpToPowerOf2 t v =
        if t.has (2 ^ k) then .val (2 ^ k) else roundUpToPowerOf2Overflow t := by
  unfold roundUpToPowerOf2
  by_cases h1 : v ≤ 1
  · refine ⟨0, fun j => ⟨fun _ => Nat.zero_le _, fun _ => ?_⟩, ?_⟩
    · have := pow_le_of (Nat.zero_le j); simp at this; omega
    · rw [if_pos h1, if_pos]; · rfl
      obtain ⟨sg, b⟩ := t
      rcases ht with rfl | rfl | rfl | rfl <;> cases sg <;>
        simp [IntTy.has, IntTy.min, IntTy.max]
  · rw [if_neg h1]
    obtain ⟨_, hl⟩ := C16_log2Floor (v - 1)
    obtain ⟨k, hk, h2, h3⟩ := hl (by omega)
    have hle : ∀ j : Nat, v ≤ 2 ^ j ↔ k + 1 ≤ j := by
      intro j
      constructor
      · intro h
        by_contra hc
        have := pow_le_of (show j ≤ k by omega)
        omega
      · intro h
        have := pow_le_of h
        omega
    refine ⟨k + 1, hle, ?_⟩
    have hm : t.has (v - 1) := by
      refine ⟨?_, by have := hv.2; omega⟩
      unfold IntTy.min; split
      · have : (0:Int) < 2 ^ (t.bits - 1) := by positivity
        omega
      · omega
    rw [arith_has (has_promote ht hm), bind_val, hk]
    have hcast : ((k:Int) + 1).toNat = k + 1 := by omega
    -- the exponent is bounded by the width
    have hkb : k + 1 ≤ (if t.signed then t.bits - 1 else t.bits) := by
      rw [← hle]
      have := hv.2; unfold IntTy.max at this
      split at this <;> rename_i hs <;> simp only [hs, if_true] <;> (try simp) <;> omega
    by_cases hfit : t.has (2 ^ (k + 1))
    · rw [if_pos hfit]
      have hb : k + 1 < t.promote.bits := by
        have h4 := (has_promote ht hfit).2
        by_contra hc
        have h5 := pow_le_of (show t.promote.bits ≤ k + 1 by omega)
        have h6 := pow_le_of (show t.promote.bits - 1 ≤ t.promote.bits by omega)
        unfold IntTy.max at h4
        split at h4 <;> omega
      rw [IntTy.shlOne, if_neg (by omega), hcast, bind_val, pure_val,
        conv_has (promote_standard ht) (has_promote ht hfit), conv_has ht hfit]
    · rw [if_neg hfit]
      -- then the exponent is exactly the number of value bits
      have hke : k + 1 = (if t.signed then t.bits - 1 else t.bits) := by
        by_contra hne
        apply hfit
        have hlt : k + 1 < (if t.signed then t.bits - 1 else t.bits) := by omega
        have hpos : (0:Int) < 2 ^ (k + 1) := by positivity
        constructor
        · unfold IntTy.min; split
          · have : (0:Int) < 2 ^ (t.bits - 1) := by positivity
            omega
          · omega
        · have := pow_lt_pow_right₀ (show (1:Int) < 2 by norm_num) hlt
          unfold IntTy.max
          split <;> rename_i hs <;> simp only [hs, if_true] at this <;> (try simp at this) <;> omega
      unfold roundUpToPowerOf2Overflow IntTy.shlOne
      rw [hcast, hke]
      obtain ⟨sg, b⟩ := t
      have hk' : (k:Int) + 1 = ((k + 1 : Nat) : Int) := by push_cast; rfl
      rw [hk', hke]
      rcases ht with rfl | rfl | rfl | rfl <;> cases sg <;>
        simp [IntTy.promote, IntTy.conv, IntTy.min]

example : IntTy.has ⟨true, 32⟩ 9 ∧ roundUpToPowerOf2 ⟨true, 32⟩ 9 = .val 16 := by
  refine ⟨by simp [IntTy.has, IntTy.min, IntTy.max], ?_⟩
  obtain ⟨k, hk, h⟩ := C16_roundUpToPowerOf2 ⟨true, 32⟩ (Or.inr (Or.inr (Or.inl rfl))) 9
    (by simp [IntTy.has, IntTy.min, IntTy.max])
  have : k = 4 := by
    apply le_antisymm
    · exact (hk 4).mp (by norm_num)
    · by_contra hc
      have := (hk 3).mpr (by omega)
      norm_num at this
  subst this; rw [h]; simp [IntTy.has, IntTy.min, IntTy.max]

theorem emod_le_self' {a : Int} (h : 0 ≤ a) (b : Int) : a % b ≤ a := by
  rcases le_or_gt 0 b with hb | hb
  · obtain ⟨n, rfl⟩ := Int.eq_ofNat_of_zero_le h
    obtain ⟨k, rfl⟩ := Int.eq_ofNat_of_zero_le hb
    exact_mod_cast Nat.mod_le n k
  · rw [← Int.emod_neg]
    obtain ⟨n, rfl⟩ := Int.eq_ofNat_of_zero_le h
    obtain ⟨k, hk⟩ := Int.eq_ofNat_of_zero_le (show 0 ≤ -b by omega)
    rw [hk]
    exact_mod_cast Nat.mod_le n k

/-- The condition under which the sum `value + multiple` that the code computes first leaves the
(promoted) type although only the rounded value is wanted. -/
def intermediateOverflow (t : IntTy) (v m : Int) : Prop :=
  t.promote.signed = true ∧ 0 < v ∧ ¬ m ∣ v ∧ t.promote.max < v + m

/-- `RoundUpToMultipleOf` with a strictly positive multiple: unless the intermediate sum
overflows, the result is the least multiple of `m` that is at least `v`, converted to the type
(so exactly that multiple whenever the type has it); if it does overflow, and only then, the
behaviour is undefined. -/
theorem C16_roundUpToMultipleOf (t : IntTy) (ht : t.standard) (v m : Int)
    (hv : t.has v) (hm : t.has m) (hpos : 0 < m) :
    ∃ r : Int, m ∣ r ∧ v ≤ r ∧ (∀ r', m ∣ r' → v ≤ r' → r ≤ r') ∧
      (roundUpToMultipleOf t v m = .ub ↔ intermediateOverflow t v m) ∧
      (¬ intermediateOverflow t v m → roundUpToMultipleOf t v m = .val (t.conv r)) ∧
      (¬ intermediateOverflow t v m → t.has r → roundUpToMultipleOf t v m = .val r) := by
  have least : ∀ r, m ∣ r → r < v + m → ∀ r', m ∣ r' → v ≤ r' → r ≤ r' := by
    rintro r ⟨a, rfl⟩ hr r' ⟨b, rfl⟩ hv'
    by_contra hc
    have : b < a := by
      by_contra h; exact hc (mul_le_mul_of_nonneg_left (by omega) hpos.le)
    have : m * (b + 1) ≤ m * a := mul_le_mul_of_nonneg_left (by omega) hpos.le
    rw [mul_add, mul_one] at this
    omega
  have key : ∃ r : Int, m ∣ r ∧ v ≤ r ∧ (∀ r', m ∣ r' → v ≤ r' → r ≤ r') ∧
      (roundUpToMultipleOf t v m = .ub ↔ intermediateOverflow t v m) ∧
      (¬ intermediateOverflow t v m → roundUpToMultipleOf t v m = .val (t.conv r)) := by
    have hdvd : m ∣ v - v.tmod m := Int.dvd_self_sub_tmod
    have habs : |v.tmod m| < m := by
      have h1 := Int.tmod_lt_of_pos v hpos
      have h2 := Int.lt_tmod_of_pos v hpos
      rw [abs_lt]; exact ⟨h2, h1⟩
    have habs' := abs_lt.mp habs
    have hsgn : (0 ≤ v → 0 ≤ v.tmod m) ∧ (v ≤ 0 → v.tmod m ≤ 0) :=
      ⟨fun h => Int.tmod_nonneg m h, fun h => by
        have := Int.tmod_nonneg m (a := -v) (by omega)
        rw [Int.neg_tmod] at this; omega⟩
    have hmin : t.promote.min ≤ 0 := by unfold IntTy.min; split <;> simp
    have hvle : (0 ≤ v → v.tmod m ≤ v) ∧ (v ≤ 0 → v ≤ v.tmod m) := by
      constructor
      · intro h
        rw [Int.tmod_eq_emod_of_nonneg h]; exact emod_le_self' h m
      · intro h
        have h2 := emod_le_self' (show 0 ≤ -v by omega) m
        rw [← Int.tmod_eq_emod_of_nonneg (by omega), Int.neg_tmod] at h2; omega
    have hpv := has_promote ht hv
    have hmiss : t.promote.has (v.tmod m) := by
      rcases le_or_gt 0 v with h | h
      · exact ⟨by have := hsgn.1 h; omega, by have := hvle.1 h; have := hpv.2; omega⟩
      · have h1 := hvle.2 h.le; have h2 := hsgn.2 h.le
        have hmax : 0 ≤ t.promote.max := by
          unfold IntTy.max; split
          · have : (0:Int) < 2 ^ (t.promote.bits - 1) := by positivity
            omega
          · have : (0:Int) < 2 ^ (t.promote.bits) := by positivity
            omega
        exact ⟨by have := hpv.1; omega, by omega⟩
    have hub : ∀ x : Int, (Res.val x = .ub) = False := by intro x; simp
    unfold roundUpToMultipleOf
    rw [if_neg (by omega), arith_has hmiss, bind_val]
    rcases lt_trichotomy (v.tmod m) 0 with hneg | hz | hp
    · -- negative value
      have hv0 : v < 0 := by
        by_contra h; have := hsgn.1 (by omega); omega
      have hni : ¬ intermediateOverflow t v m := fun h => by have := h.2.1; omega
      have hr0 : v - v.tmod m ≤ 0 := by
        have := hvle.2 hv0.le; omega
      have hhas : t.promote.has (v - v.tmod m) := by
        refine ⟨by have := hpv.1; omega, ?_⟩
        have := hmiss.2; have := hpv.2
        have hmax : 0 ≤ t.promote.max := by
          unfold IntTy.max; split
          · have : (0:Int) < 2 ^ (t.promote.bits - 1) := by positivity
            omega
          · have : (0:Int) < 2 ^ (t.promote.bits) := by positivity
            omega
        omega
      refine ⟨v - v.tmod m, hdvd, by omega, least _ hdvd (by omega), ?_, ?_⟩
      · rw [if_pos hneg, arith_has hhas]; simp [hni]
      · intro _; rw [if_pos hneg, arith_has hhas]; simp
    · have hd : m ∣ v := by rw [hz] at hdvd; simpa using hdvd
      have hni : ¬ intermediateOverflow t v m := fun h => h.2.2.1 hd
      refine ⟨v, hd, le_refl _, fun r' _ h => h, ?_, ?_⟩
      · rw [if_neg (by omega), if_pos hz]; simp [hni]
      · intro _; rw [if_neg (by omega), if_pos hz, conv_has ht hv]; rfl
    · have hv0 : 0 < v := by
        by_contra h; have := hsgn.2 (by omega); omega
      have hnd : ¬ m ∣ v := by
        intro h; have := Int.tmod_eq_zero_of_dvd h; omega
      have hd : m ∣ v + m - v.tmod m := by
        have := dvd_add hdvd (dvd_refl m)
        rwa [show v - v.tmod m + m = v + m - v.tmod m by ring] at this
      refine ⟨v + m - v.tmod m, hd, by omega, least _ hd (by omega), ?_, ?_⟩ <;>
        rw [if_neg (by omega), if_neg (by omega)]
      all_goals
        rcases hsg : t.promote.signed with _ | _
        · -- unsigned: wraps
          have hni : ¬ intermediateOverflow t v m := fun h => by have := h.1; rw [hsg] at this; simp at this
          simp only [IntTy.arith, hsg, Bool.false_eq_true, if_false, bind_val, pure_val, hub, hni,
            not_false_eq_true, forall_const]
          try
            have ht' : t.promote = t := by
              unfold IntTy.promote at hsg ⊢
              split <;> simp_all
            rw [ht'] at hsg ⊢
            simp only [IntTy.conv, hsg, Bool.false_eq_true, if_false]
            simp [Int.sub_emod]
        · have hio : intermediateOverflow t v m ↔ t.promote.max < v + m := by
            simp [intermediateOverflow, hsg, hv0, hnd]
          by_cases hov : t.promote.max < v + m
          · have hio' := hio.mpr hov
            simp only [hio']
            rw [show t.promote.arith (v + m) = .ub by
              simp only [IntTy.arith, hsg, if_true]; rw [if_neg (by omega)]]
            simp
          · have hni : ¬ intermediateOverflow t v m := fun h => hov (hio.mp h)
            have h1 : t.promote.has (v + m) := ⟨by omega, by omega⟩
            have h2 : t.promote.has (v + m - v.tmod m) := ⟨by omega, by omega⟩
            rw [arith_has h1, bind_val, arith_has h2]
            simp [hni]
  obtain ⟨r, h1, h2, h3, h4, h5⟩ := key
  exact ⟨r, h1, h2, h3, h4, h5, fun h hr => by rw [h5 h, conv_has ht hr]⟩

/-- The overflow is not harmless: the rounded value is the largest `int`, yet the behaviour is
undefined. -/
theorem C16_roundUpToMultipleOf_ub :
    roundUpToMultipleOf ⟨true, 32⟩ 2147483646 2147483647 = .ub ∧
    IntTy.has ⟨true, 32⟩ 2147483647 := by
  refine ⟨by decide, by simp [IntTy.has, IntTy.min, IntTy.max]⟩

example : roundUpToMultipleOf ⟨true, 32⟩ (-11) 5 = .val (-10) ∧
    roundUpToMultipleOf ⟨false, 64⟩ 8567 2000 = .val 10000 := by decide

/-- `BitsRequiredToRepresent` is the least number of bits that hold the (unsigned) pattern of the
value; `BitWidthOfEnum` is the same for the underlying value. -/
theorem C16_bitsRequired (t : IntTy) (v : Int) (j : Nat) :
    ((v % 2 ^ t.bits < 2 ^ j) ↔ bitsRequiredToRepresent t v ≤ j) ∧
    0 ≤ bitsRequiredToRepresent t v ∧ bitsRequiredToRepresent t v ≤ t.bits ∧
    bitWidthOfEnum t v = bitsRequiredToRepresent t v := by
  have hp : (0:Int) < 2 ^ t.bits := by positivity
  have h0 := Int.emod_nonneg v hp.ne'
  have h1 := Int.emod_lt_of_pos v hp
  simp only [bitWidthOfEnum, bitsRequiredToRepresent, IntTy.conv, Bool.false_eq_true, if_false]
  obtain ⟨hz, hl⟩ := C16_log2Floor (v % 2 ^ t.bits)
  have hj : (0:Int) < 2 ^ j := by positivity
  by_cases hc : v % 2 ^ t.bits < 1
  · rw [hz hc]
    refine ⟨⟨fun _ => by omega, fun _ => by omega⟩, by omega, by omega, trivial⟩
  · obtain ⟨k, hk, h2, h3⟩ := hl (by omega)
    rw [hk]
    refine ⟨⟨fun h => ?_, fun h => ?_⟩, by omega, ?_, trivial⟩
    · by_contra hcon
      have := pow_le_of (show j ≤ k by omega)
      omega
    · have := pow_le_of (show k + 1 ≤ j by omega)
      omega
    · by_contra hcon
      have := pow_le_of (show t.bits ≤ k by omega)
      omega

example : bitsRequiredToRepresent ⟨false, 32⟩ 7 = 3 := by
  have h := fun j => (C16_bitsRequired ⟨false, 32⟩ 7 j).1
  have h3 := (h 3).mp (by norm_num)
  have h2 : ¬ (bitsRequiredToRepresent ⟨false, 32⟩ 7 ≤ ((2:Nat):Int)) := fun hc => by
    have := (h 2).mpr hc; norm_num at this
  push_cast at h2 h3; omega

/-- `truncateAndSignExtend` keeps the low bits and copies the highest kept one; as a number it is
the two's-complement value of the low `k` bits. -/
theorem C16_truncateAndSignExtend (v : BitVec 64) (k : Nat) (h1 : 1 ≤ k) (h2 : k ≤ 64) :
    ∃ r, truncateAndSignExtend v k = some (.val r) ∧
      (∀ i < 64, r.getLsbD i = if i < k then v.getLsbD i else v.getLsbD (k - 1)) ∧
      r.toInt = Int.bmod v.toInt (2 ^ k) := by
  have hbits : ∀ i < 64, ((v <<< (64 - k)).sshiftRight (64 - k)).getLsbD i
      = if i < k then v.getLsbD i else v.getLsbD (k - 1) := by
    intro i hi
    rw [BitVec.getLsbD_sshiftRight]
    simp only [show ¬ 64 ≤ i by omega, decide_false, Bool.not_false, Bool.true_and]
    by_cases hik : i < k
    · rw [if_pos (by omega), if_pos hik, BitVec.getLsbD_shiftLeft]
      simp [show 64 - k + i < 64 by omega, show ¬ (64 - k + i < 64 - k) by omega,
        show 64 - k + i - (64 - k) = i by omega]
    · rw [if_neg (by omega), if_neg hik, BitVec.msb_eq_getLsbD_last, BitVec.getLsbD_shiftLeft]
      simp only [show (64 - 1 : Nat) < 64 by omega, decide_true, Bool.true_and,
        show ¬ (64 - 1 < 64 - k) by omega, decide_false, Bool.not_false,
        show 64 - 1 - (64 - k) = k - 1 by omega]
  refine ⟨_, by rw [truncateAndSignExtend, if_pos h2]; simp only; rw [if_neg (by omega)], hbits, ?_⟩
  have heq : (v <<< (64 - k)).sshiftRight (64 - k) = (v.setWidth k).signExtend 64 := by
    apply BitVec.eq_of_getLsbD_eq
    intro i hi
    rw [hbits i hi, BitVec.getLsbD_signExtend, BitVec.msb_eq_getLsbD_last]
    simp only [hi, decide_true, Bool.true_and, BitVec.getLsbD_setWidth, show k - 1 < k by omega]
    split <;> simp_all
  rw [heq, BitVec.toInt_signExtend_of_le h2, BitVec.toInt_setWidth, BitVec.toInt_eq_toNat_bmod]
  rw [Int.bmod_bmod_of_dvd]
  exact_mod_cast pow_dvd_pow 2 h2

/-- `truncateAndZeroExtend` keeps the low bits and clears the others: the value modulo 2^k. -/
theorem C16_truncateAndZeroExtend (v : BitVec 64) (k : Nat) (h1 : 1 ≤ k) (h2 : k ≤ 64) :
    ∃ r, truncateAndZeroExtend v k = some (.val r) ∧
      (∀ i < 64, r.getLsbD i = (decide (i < k) && v.getLsbD i)) ∧
      r.toNat = v.toNat % 2 ^ k := by
  have hbits : ∀ i < 64, ((v <<< (64 - k)) >>> (64 - k)).getLsbD i
      = (decide (i < k) && v.getLsbD i) := by
    intro i hi
    rw [BitVec.getLsbD_ushiftRight, BitVec.getLsbD_shiftLeft]
    by_cases hik : i < k
    · simp [hik, show 64 - k + i < 64 by omega, show ¬ (64 - k + i < 64 - k) by omega,
        show 64 - k + i - (64 - k) = i by omega]
    · simp [hik, show ¬ (64 - k + i < 64) by omega]
  refine ⟨_, by rw [truncateAndZeroExtend, if_pos h2]; simp only; rw [if_neg (by omega)], hbits, ?_⟩
  have heq : (v <<< (64 - k)) >>> (64 - k) = (v.setWidth k).setWidth 64 := by
    apply BitVec.eq_of_getLsbD_eq
    intro i hi
    rw [hbits i hi]
    simp [hi]
  rw [heq]
  simp only [BitVec.toNat_setWidth]
  apply Nat.mod_eq_of_lt
  calc v.toNat % 2 ^ k < 2 ^ k := Nat.mod_lt _ (by positivity)
    _ ≤ 2 ^ 64 := Nat.pow_le_pow_right (by norm_num) h2

/-- The assertion admits `keepBits = 0`, whose shift by 64 is undefined; it rejects all
widths over 64. -/
theorem C16_truncate_boundary (v : BitVec 64) (k : Nat) :
    (truncateAndSignExtend v k = some .ub ↔ k = 0) ∧
    (truncateAndZeroExtend v k = some .ub ↔ k = 0) ∧
    (truncateAndSignExtend v k = none ↔ 64 < k) ∧ (truncateAndZeroExtend v k = none ↔ 64 < k) := by
  unfold truncateAndSignExtend truncateAndZeroExtend
  by_cases h : k ≤ 64
  · by_cases h0 : 64 - k ≥ 64
    · simp [h, h0]; omega
    · simp [h, h0]; omega
  · simp [h]; omega

example : truncateAndSignExtend 0b10100111#64 8 = some (.val 0xFFFFFFFFFFFFFFA7#64) ∧
    truncateAndSignExtend 0b10100111#64 4 = some (.val 7#64) ∧
    truncateAndZeroExtend 0b10100111#64 4 = some (.val 7#64) := by decide

end Jlm.Util.Math
