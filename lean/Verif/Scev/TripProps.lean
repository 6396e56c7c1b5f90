import Verif.Scev.TripSpec
import Verif.Scev.Main
import Mathlib.Tactic.Ring
import Mathlib.Tactic.Linarith
import Mathlib.Data.BitVec

set_option linter.unusedSimpArgs false
set_option linter.unusedVariables false

namespace Jlm.Scev

/-! ## Values of the recurrences -/

theorem cr1 (i : Nat) (a : Int) : cr i [a] = a := by
  induction i with
  | zero => rfl
  | succ i ih =>
    have : ∀ j, cr j ([] : List Int) = 0 := by
      intro j
      induction j with
      | zero => rfl
      | succ j ih => simp [cr, ih]
    simp [cr, ih, this]

theorem cr2 (i : Nat) (a b : Int) : cr i [a, b] = a + i * b := by
  induction i with
  | zero => simp [cr]
  | succ i ih =>
    simp only [cr, List.tail_cons, ih, cr1]
    push_cast
    ring

theorem cr3 (i : Nat) (a b c : Int) : 2 * cr i [a, b, c] = 2 * a + 2 * (i * b) + i * (i - 1) * c := by
  induction i with
  | zero => simp [cr]
  | succ i ih =>
    simp only [cr, List.tail_cons, cr2, mul_add, ih]
    push_cast
    ring

theorem cr3_succ (i : Nat) (a b c : Int) : cr (i + 1) [a, b, c] = cr i [a, b, c] + (b + i * c) := by
  simp [cr, cr2]

theorem cr3_zero (a b c : Int) : cr 0 [a, b, c] = a := rfl

theorem cr3_mono {a b c : Int} (hb : 0 ≤ b) (hc : 0 ≤ c) (i j : Nat) (h : i ≤ j) : cr i [a, b, c] ≤ cr j [a, b, c] := by
  induction j with
  | zero =>
    have : i = 0 := by omega
    subst this
    exact le_refl _
  | succ j ih =>
    by_cases hij : i = j + 1
    · subst hij; exact le_refl _
    · have := ih (by omega)
      rw [cr3_succ]
      have : 0 ≤ (j : Int) * c := mul_nonneg (by omega) hc
      omega

theorem cr3_anti {a b c : Int} (hb : b ≤ 0) (hc : c ≤ 0) (i j : Nat) (h : i ≤ j) : cr j [a, b, c] ≤ cr i [a, b, c] := by
  have h1 := cr3_mono (a := -a) (b := -b) (c := -c) (by omega) (by omega) i j h
  have h2 := cr3 i a b c
  have h3 := cr3 j a b c
  have h4 := cr3 i (-a) (-b) (-c)
  have h5 := cr3 j (-a) (-b) (-c)
  simp only [mul_neg] at h4 h5
  omega

/-! ## The quadratic equation -/

theorem key (A B C x : Int) : 4 * A * (A * (x * x) + B * x + C) = (2 * A * x + B) * (2 * A * x + B) - (B * B - 4 * A * C) := by
  ring

theorem solveWith_spec {A B C sq : Int} (hA : 0 < A) (hC : C ≤ 0)
    (hreg : 0 ≤ B ∨ ∀ z : Int, z ≤ 0 → A * (z * z) + B * z + C ≠ 0)
    (h0 : 0 ≤ sq) (h1 : sq * sq ≤ B * B - 4 * A * C) (h2 : B * B - 4 * A * C < (sq + 1) * (sq + 1)) {n : Nat}
    (h : solveWith A B C (B * B - 4 * A * C) sq = .val n) :
    0 ≤ A * ((n : Int) * n) + B * n + C ∧ (n = 0 ∨ A * (((n : Int) - 1) * (n - 1)) + B * (n - 1) + C < 0) := by
  have hsq : ¬ sq * sq > B * B - 4 * A * C := by omega
  simp only [solveWith, if_neg hsq] at h
  by_cases hB : B < 0
  · -- the lower root is not positive
    have hz := (hreg.resolve_left (by omega))
    have hC' : C < 0 := by
      have := hz 0 (le_refl _)
      simp at this
      omega
    have hAC : 0 < -(4 * A * C) := by nlinarith
    have hge : -B ≤ sq := by
      by_contra hlt
      have : sq + 1 ≤ -B := by omega
      have : (sq + 1) * (sq + 1) ≤ (-B) * (-B) := by nlinarith
      nlinarith
    have hx : ∀ e : Int, 0 ≤ e → (if Int.tdiv (-B - (sq + e)) (2 * A) < 0 then 0 else Int.tdiv (-B - (sq + e)) (2 * A)) = 0 := by
      intro e he
      have : Int.tdiv (-B - (sq + e)) (2 * A) ≤ 0 := by
        have hn : -B - (sq + e) = -(B + sq + e) := by ring
        rw [hn, Int.neg_tdiv]
        have := Int.tdiv_nonneg (a := B + sq + e) (b := 2 * A) (by omega) (by omega)
        omega
      split <;> omega
    have hx' := hx (if (sq * sq != B * B - 4 * A * C) = true then 1 else 0) (by split <;> omega)
    simp only [if_pos hB, hx'] at h
    by_cases hex : (!(sq * sq != B * B - 4 * A * C) && Int.tmod (-B - sq) (2 * A) == 0) = true
    · exfalso
      simp only [Bool.and_eq_true, Bool.not_eq_true', bne_eq_false_iff_eq, beq_iff_eq] at hex
      obtain ⟨e1, e2⟩ := hex
      have hd : (2 * A) ∣ (-B - sq) := Int.dvd_of_tmod_eq_zero e2
      obtain ⟨z, hz'⟩ := hd
      have hzneg : z ≤ 0 := by
        by_contra hp
        have : 2 * A * 1 ≤ 2 * A * z := mul_le_mul_of_nonneg_left (by omega) (by omega)
        omega
      apply hz z hzneg
      have hk := key A B C z
      have : 2 * A * z + B = -sq := by omega
      rw [this, ← e1] at hk
      have : 4 * A * (A * (z * z) + B * z + C) = 0 := by rw [hk]; ring
      rcases mul_eq_zero.mp this with hh | hh
      · omega
      · exact hh
    · rw [if_neg hex] at h
      split at h
      · rename_i hs
        injection h with h
        subst h
        simp only [mul_zero, zero_add, mul_one] at hs
        have : (decide (C < 0)) = true := by simp [hC']
        rw [this] at hs
        have hC0 : (C == 0) = false := by simp; omega
        rw [hC0] at hs
        simp only [Int.zero_add, Int.toNat_one, Nat.cast_one]
        constructor
        · by_contra hlt
          have e1 : decide (A + B + C < 0) = true := by simp; omega
          have e2 : (A + B + C == 0) = false := by simp; omega
          simp [e1, e2] at hs
        · right
          simpa using hC'
      · exact absurd h (by simp)
  · have hB' : 0 ≤ B := by omega
    have hge : B ≤ sq := by
      by_contra hlt
      have : sq + 1 ≤ B := by omega
      have : (sq + 1) * (sq + 1) ≤ B * B := by nlinarith
      nlinarith
    have hxn : 0 ≤ Int.tdiv (-B + sq) (2 * A) := Int.tdiv_nonneg (by omega) (by omega)
    simp only [if_neg hB, if_neg (show ¬ Int.tdiv (-B + sq) (2 * A) < 0 by omega)] at h
    obtain ⟨x, hxd⟩ : ∃ x, x = Int.tdiv (-B + sq) (2 * A) := ⟨_, rfl⟩
    obtain ⟨r, hrd⟩ : ∃ r, r = Int.tmod (-B + sq) (2 * A) := ⟨_, rfl⟩
    rw [← hxd, ← hrd] at h
    rw [← hxd] at hxn
    have hdm : 2 * A * x + r = -B + sq := by rw [hxd, hrd]; exact Int.mul_tdiv_add_tmod _ _
    have hr0 : 0 ≤ r := by rw [hrd]; exact Int.tmod_nonneg _ (by omega)
    have hr1 : r < 2 * A := by rw [hrd]; exact Int.tmod_lt_of_pos _ (by omega)
    by_cases hex : (!(sq * sq != B * B - 4 * A * C) && r == 0) = true
    · rw [if_pos hex] at h
      simp only [Bool.and_eq_true, Bool.not_eq_true', bne_eq_false_iff_eq, beq_iff_eq] at hex
      obtain ⟨e1, e2⟩ := hex
      injection h with h
      have hn : (n : Int) = x := by omega
      rw [hn]
      have hk := key A B C x
      have e3 : 2 * A * x + B = sq := by omega
      rw [e3, ← e1, sub_self] at hk
      have h0' : A * (x * x) + B * x + C = 0 := by
        rcases mul_eq_zero.mp hk with hh | hh
        · omega
        · exact hh
      refine ⟨by omega, ?_⟩
      by_cases hxz : n = 0
      · exact Or.inl hxz
      · right
        have hx1 : 1 ≤ x := by omega
        have : A * ((x - 1) * (x - 1)) + B * (x - 1) + C = (A * (x * x) + B * x + C) - (2 * A * x - A) - B := by ring
        rw [this, h0']
        have : 2 * A * 1 ≤ 2 * A * x := mul_le_mul_of_nonneg_left hx1 (by omega)
        omega
    · rw [if_neg hex] at h
      -- the value at `x` is negative, the one at `x + 1` is positive
      have hneg : A * (x * x) + B * x + C < 0 := by
        by_contra hnn
        have hk := key A B C x
        have hnn' : 0 ≤ 4 * A * (A * (x * x) + B * x + C) := mul_nonneg (by omega) (by omega)
        have hle : 2 * A * x + B ≤ sq := by omega
        have hnx : 0 ≤ 2 * A * x + B := by
          have : 0 ≤ 2 * A * x := mul_nonneg (by omega) hxn
          omega
        have hsq2 : (2 * A * x + B) * (2 * A * x + B) ≤ sq * sq := by nlinarith
        have heq : sq * sq = B * B - 4 * A * C := by omega
        have hne : 2 * A * x + B = sq := by
          by_contra hne
          have : 2 * A * x + B + 1 ≤ sq := by omega
          nlinarith
        have hr : r = 0 := by omega
        apply hex
        simp [heq, hr]
      have hpos : 0 < A * ((x + 1) * (x + 1)) + B * (x + 1) + C := by
        have hk := key A B C (x + 1)
        have : sq + 1 ≤ 2 * A * (x + 1) + B := by
          have : 2 * A * (x + 1) = 2 * A * x + 2 * A := by ring
          omega
        have : (sq + 1) * (sq + 1) ≤ (2 * A * (x + 1) + B) * (2 * A * (x + 1) + B) := by nlinarith
        have : 0 < 4 * A * (A * ((x + 1) * (x + 1)) + B * (x + 1) + C) := by omega
        exact (mul_pos_iff_of_pos_left (by omega : (0:Int) < 4 * A)).mp this
      split at h
      · injection h with h
        have hn : (n : Int) = x + 1 := by omega
        rw [hn]
        refine ⟨by omega, Or.inr ?_⟩
        simpa using hneg
      · exact absurd h (by simp)

theorem solve_pos {fp : Fp} (hfp : fp.Exact) {A B C : Int} (hA : 0 < A) (hC : C ≤ 0)
    (hreg : 0 ≤ B ∨ ∀ z : Int, z ≤ 0 → A * (z * z) + B * z + C ≠ 0) (hd : B * B - 4 * A * C < 2 ^ 52) {n : Nat}
    (h : solve fp A B C = .val n) :
    0 ≤ A * ((n : Int) * n) + B * n + C ∧ (n = 0 ∨ A * (((n : Int) - 1) * (n - 1)) + B * (n - 1) + C < 0) := by
  have hA' : ¬ A < 0 := by omega
  have hd0 : ¬ B * B - 4 * A * C < 0 := by nlinarith [mul_self_nonneg B]
  simp only [solve, if_neg hA', if_neg hd0, if_neg (show ¬ A = 0 by omega)] at h
  obtain ⟨h0, h1, h2⟩ := hfp.sqrt _ (by omega) hd
  exact solveWith_spec hA hC hreg h0 h1 h2 h

theorem solve_neg {fp : Fp} (hfp : fp.Exact) {A B C : Int} (hA : A < 0) (hC : 0 ≤ C)
    (hreg : B ≤ 0 ∨ ∀ z : Int, z ≤ 0 → A * (z * z) + B * z + C ≠ 0) (hd : B * B - 4 * A * C < 2 ^ 52) {n : Nat}
    (h : solve fp A B C = .val n) :
    A * ((n : Int) * n) + B * n + C ≤ 0 ∧ (n = 0 ∨ 0 < A * (((n : Int) - 1) * (n - 1)) + B * (n - 1) + C) := by
  have hs : solve fp (-A) (-B) (-C) = solve fp A B C := by
    simp [solve, hA, show ¬ 0 < A by omega]
  have hp := solve_pos hfp (A := -A) (B := -B) (C := -C) (by omega) (by omega)
    (by
      rcases hreg with hb | hz
      · exact Or.inl (by omega)
      · refine Or.inr fun z hz0 he => hz z hz0 ?_
        have : -A * (z * z) + -B * z + -C = -(A * (z * z) + B * z + C) := by ring
        omega)
    (by
      have : -B * -B - 4 * -A * -C = B * B - 4 * A * C := by ring
      omega)
    (by rw [hs]; exact h)
  obtain ⟨p1, p2⟩ := hp
  refine ⟨by nlinarith, ?_⟩
  rcases p2 with p2 | p2
  · exact Or.inl p2
  · right; nlinarith

/-! ## Comparisons of words -/

theorem toInt_fits {w : Nat} {v : Int} (h : -2 ^ w ≤ 2 * v ∧ 2 * v < 2 ^ w) : (BitVec.ofInt w v).toInt = v := by
  rw [BitVec.toInt_ofInt]
  have e : ((2 ^ w : Nat) : Int) = 2 ^ w := by push_cast; rfl
  apply Int.bmod_eq_of_le
  · rw [e]; omega
  · rw [e]; omega

theorem toNat_fits {w : Nat} {v : Int} (h : 0 ≤ v ∧ v < 2 ^ w) : ((BitVec.ofInt w v).toNat : Int) = v := by
  rw [BitVec.toNat_ofInt]
  have e : ((2 ^ w : Nat) : Int) = 2 ^ w := by push_cast; rfl
  rw [e, Int.emod_eq_of_lt h.1 h.2]
  omega

theorem holds_int {w : Nat} (cmp : Cmp) {x y : Int} (hx : cmp.fits w x) (hy : cmp.fits w y) :
    cmp.holds (BitVec.ofInt w x) (BitVec.ofInt w y) = cmp.int x y := by
  cases cmp <;> simp only [Cmp.fits] at hx hy <;> simp only [Cmp.holds, Cmp.int]
  case slt => rw [BitVec.slt, toInt_fits hx, toInt_fits hy]
  case sle => rw [BitVec.sle, toInt_fits hx, toInt_fits hy]
  case sgt => rw [BitVec.slt, toInt_fits hx, toInt_fits hy]
  case sge => rw [BitVec.sle, toInt_fits hx, toInt_fits hy]
  case ult => have h1 := toNat_fits hx; have h2 := toNat_fits hy; rw [BitVec.ult, decide_eq_decide]; omega
  case ule => have h1 := toNat_fits hx; have h2 := toNat_fits hy; rw [BitVec.ule, decide_eq_decide]; omega
  case ugt => have h1 := toNat_fits hx; have h2 := toNat_fits hy; rw [BitVec.ult, decide_eq_decide]; omega
  case uge => have h1 := toNat_fits hx; have h2 := toNat_fits hy; rw [BitVec.ule, decide_eq_decide]; omega
  case eq =>
    rw [Bool.eq_iff_iff, beq_iff_eq, beq_iff_eq]
    constructor
    · intro h
      rw [← toInt_fits hx, ← toInt_fits hy, h]
    · intro h; rw [h]
  case ne =>
    rw [Bool.eq_iff_iff, bne_iff_ne, bne_iff_ne, not_iff_not]
    constructor
    · intro h
      rw [← toInt_fits hx, ← toInt_fits hy, h]
    · intro h; rw [h]

/-! ## Backedges -/

theorem lin_pos {fp : Fp} (hfp : fp.Exact) {start bound b : Int} {cmp : Cmp} (hb : 0 < b) (hs : start ≤ bound)
    (hlt : bound - start < 2 ^ 53) {n : Nat} (h : backedge fp start bound cmp (.lin b) = .val n) :
    (cmp.orEqual = false → (∀ i : Nat, i < n → start + i * b < bound) ∧ bound ≤ start + n * b) ∧
    (cmp.orEqual = true → (∀ i : Nat, i < n → start + i * b ≤ bound) ∧ bound < start + n * b) := by
  obtain ⟨c1, c2⟩ := hfp.ceil_pos (bound - start) b (by omega) hlt hb
  obtain ⟨q, hq⟩ : ∃ q, q = fp.ceilDiv (bound - start) b := ⟨_, rfl⟩
  simp only [backedge, Res.ofDouble] at h
  rw [← hq] at c1 c2 h
  have hq0 : ¬ q < 0 := by
    intro hn
    have : q * b ≤ -1 * b := mul_le_mul_of_nonneg_right (by omega) (by omega)
    omega
  rw [if_neg hq0] at h
  simp only [Res.val.injEq] at h
  have hmul : ∀ i j : Int, i ≤ j → i * b ≤ j * b := fun i j hij => mul_le_mul_of_nonneg_right hij (by omega)
  constructor
  · intro he
    rw [he] at h
    simp only [Bool.false_and, Bool.false_eq_true, if_false] at h
    have hn : (n : Int) = q := by omega
    refine ⟨fun i hi => ?_, by rw [hn]; omega⟩
    have := hmul i (q - 1) (by omega)
    omega
  · intro he
    rw [he] at h
    simp only [Bool.true_and, beq_iff_eq] at h
    by_cases hm : Int.tmod (bound - start) b = 0
    · rw [if_pos hm] at h
      obtain ⟨k, hk⟩ := Int.dvd_of_tmod_eq_zero hm
      have hkq : k = q := by
        have : b * k = k * b := mul_comm _ _
        have k1 : k ≤ q := by
          by_contra hc
          have := hmul (q + 1) k (by omega)
          have : (q + 1) * b = q * b + b := by ring
          omega
        have k2 : q ≤ k := by
          by_contra hc
          have := hmul k (q - 1) (by omega)
          omega
        omega
      subst hkq
      have hn : (n : Int) = k + 1 := by omega
      have e : b * k = k * b := mul_comm _ _
      refine ⟨fun i hi => ?_, ?_⟩
      · have := hmul i k (by omega)
        omega
      · rw [hn]
        have : (k + 1) * b = k * b + b := by ring
        omega
    · rw [if_neg hm] at h
      have hn : (n : Int) = q := by omega
      refine ⟨fun i hi => ?_, ?_⟩
      · have := hmul i (q - 1) (by omega)
        omega
      · rw [hn]
        have : bound - start ≠ q * b := by
          intro he
          apply hm
          rw [he, mul_comm]
          exact Int.mul_tmod_right _ _
        omega

theorem lin_neg {fp : Fp} (hfp : fp.Exact) {start bound b : Int} {cmp : Cmp} (hb : b < 0) (hs : bound ≤ start)
    (hlt : -2 ^ 53 < bound - start) {n : Nat} (h : backedge fp start bound cmp (.lin b) = .val n) :
    (cmp.orEqual = false → (∀ i : Nat, i < n → bound < start + i * b) ∧ start + n * b ≤ bound) ∧
    (cmp.orEqual = true → (∀ i : Nat, i < n → bound ≤ start + i * b) ∧ start + n * b < bound) := by
  obtain ⟨c1, c2⟩ := hfp.ceil_neg (bound - start) b hlt (by omega) hb
  obtain ⟨q, hq⟩ : ∃ q, q = fp.ceilDiv (bound - start) b := ⟨_, rfl⟩
  simp only [backedge, Res.ofDouble] at h
  rw [← hq] at c1 c2 h
  have hmul : ∀ i j : Int, i ≤ j → j * b ≤ i * b := fun i j hij => mul_le_mul_of_nonpos_right hij (by omega)
  have hq0 : ¬ q < 0 := by
    intro hn
    have := hmul q (-1) (by omega)
    omega
  rw [if_neg hq0] at h
  simp only [Res.val.injEq] at h
  constructor
  · intro he
    rw [he] at h
    simp only [Bool.false_and, Bool.false_eq_true, if_false] at h
    have hn : (n : Int) = q := by omega
    refine ⟨fun i hi => ?_, by rw [hn]; omega⟩
    have := hmul i (q - 1) (by omega)
    omega
  · intro he
    rw [he] at h
    simp only [Bool.true_and, beq_iff_eq] at h
    by_cases hm : Int.tmod (bound - start) b = 0
    · rw [if_pos hm] at h
      obtain ⟨k, hk⟩ := Int.dvd_of_tmod_eq_zero hm
      have hkq : k = q := by
        have : b * k = k * b := mul_comm _ _
        have k1 : k ≤ q := by
          by_contra hc
          have := hmul (q + 1) k (by omega)
          have : (q + 1) * b = q * b + b := by ring
          omega
        have k2 : q ≤ k := by
          by_contra hc
          have := hmul k (q - 1) (by omega)
          omega
        omega
      subst hkq
      have hn : (n : Int) = k + 1 := by omega
      have e : b * k = k * b := mul_comm _ _
      refine ⟨fun i hi => ?_, ?_⟩
      · have := hmul i k (by omega)
        omega
      · rw [hn]
        have : (k + 1) * b = k * b + b := by ring
        omega
    · rw [if_neg hm] at h
      have hn : (n : Int) = q := by omega
      refine ⟨fun i hi => ?_, ?_⟩
      · have := hmul i (q - 1) (by omega)
        omega
      · rw [hn]
        have : bound - start ≠ q * b := by
          intro he
          apply hm
          rw [he, mul_comm]
          exact Int.mul_tmod_right _ _
        omega

/-- The value the code checks is the value of the recurrence. -/
theorem value_at (n : Nat) (a b c : Int) : a + n * b + Int.tdiv ((n : Int) * (n - 1)) 2 * c = cr n [a, b, c] := by
  have h := cr3 n a b c
  have hev : (2 : Int) ∣ (n : Int) * (n - 1) := by
    cases n with
    | zero => simp
    | succ m =>
      have := Int.even_mul_succ_self m
      obtain ⟨k, hk⟩ := this
      refine ⟨k, ?_⟩
      push_cast
      have : ((m : Int) + 1) * (m + 1 - 1) = m * (m + 1) := by ring
      omega
  obtain ⟨k, hk⟩ := hev
  rw [hk] at h ⊢
  rw [Int.mul_tdiv_cancel_left _ (by omega)]
  have : 2 * k * c = 2 * (k * c) := by ring
  omega

theorem quad_pos {fp : Fp} (hfp : fp.Exact) {start bound b c : Int} {cmp : Cmp} (hb : 0 ≤ b) (hc : 0 ≤ c)
    (hs : start < bound ∨ cmp.orEqual = true ∧ start ≤ bound)
    (hsm : Small bound [start, b, c]) (hreg : Regular bound [start, b, c]) {n : Nat}
    (h : backedge fp start bound cmp (.quad b c) = .val n) :
    (cmp.orEqual = false → (∀ i : Nat, i < n → cr i [start, b, c] < bound) ∧ bound ≤ cr n [start, b, c]) ∧
    (cmp.orEqual = true → (∀ i : Nat, i < n → cr i [start, b, c] ≤ bound) ∧ bound < cr n [start, b, c]) := by
  simp only [backedge] at h
  cases hsol : solve fp c (2 * b - c) (2 * (start - bound)) with
  | none => simp [hsol] at h
  | undef => simp [hsol] at h
  | val m =>
    simp only [hsol, Res.val.injEq, value_at] at h
    have hc0 : 0 < c := by
      by_contra hn
      have : c = 0 := by omega
      subst this
      simp only [solve, lt_irrefl, if_false, if_true] at hsol
      split at hsol <;> exact absurd hsol (by simp)
    have hd : (2 * b - c) * (2 * b - c) - 4 * c * (2 * (start - bound)) < 2 ^ 52 := by
      simp only [Small] at hsm
      have : 4 * c * (2 * (start - bound)) = -(8 * c * (bound - start)) := by ring
      omega
    have hle : start ≤ bound := by omega
    obtain ⟨p1, p2⟩ := solve_pos hfp hc0 (by omega) (by
        rcases hreg.1 hc0 with hr | hr
        · exact Or.inl (by omega)
        · exact Or.inr hr) hd hsol
    have hval : ∀ i : Nat, 2 * (cr i [start, b, c] - bound) = c * ((i : Int) * i) + (2 * b - c) * i + 2 * (start - bound) := by
      intro i
      have := cr3 i start b c
      rw [mul_sub, this]
      ring
    have hge : bound ≤ cr m [start, b, c] := by
      have := hval m
      omega
    have hlt : ∀ i : Nat, i < m → cr i [start, b, c] < bound := by
      intro i hi
      rcases p2 with p2 | p2
      · omega
      · have h1 := hval (m - 1)
        have hcast : ((m - 1 : Nat) : Int) = (m : Int) - 1 := by omega
        rw [hcast] at h1
        have h2 := cr3_mono (a := start) hb hc i (m - 1) (by omega)
        omega
    constructor
    · intro he
      rw [he] at h
      simp only [Bool.false_and, Bool.false_eq_true, if_false] at h
      subst h
      exact ⟨hlt, hge⟩
    · intro he
      rw [he] at h
      simp only [Bool.true_and, beq_iff_eq] at h
      by_cases hm : cr m [start, b, c] = bound
      · rw [if_pos hm] at h
        subst h
        refine ⟨fun i hi => ?_, ?_⟩
        · have := cr3_mono (a := start) hb hc i m (by omega)
          omega
        · rw [cr3_succ, hm]
          have hpos : 0 < b + m * c := by
            by_cases hm0 : m = 0
            · subst hm0
              -- the recurrence starts at the bound
              rw [cr3_zero] at hm
              rcases hreg.1 hc0 with hr | hr
              · push_cast
                omega
              · exact absurd (by rw [hm]; ring) (hr 0 (le_refl _))
            · have : 0 < (m : Int) * c := mul_pos (by omega) hc0
              omega
          omega
      · rw [if_neg hm] at h
        subst h
        exact ⟨fun i hi => le_of_lt (hlt i hi), by omega⟩

theorem quad_neg {fp : Fp} (hfp : fp.Exact) {start bound b c : Int} {cmp : Cmp} (hb : b ≤ 0) (hc : c ≤ 0)
    (hs : bound ≤ start)
    (hsm : Small bound [start, b, c]) (hreg : Regular bound [start, b, c]) {n : Nat}
    (h : backedge fp start bound cmp (.quad b c) = .val n) :
    (cmp.orEqual = false → (∀ i : Nat, i < n → bound < cr i [start, b, c]) ∧ cr n [start, b, c] ≤ bound) ∧
    (cmp.orEqual = true → (∀ i : Nat, i < n → bound ≤ cr i [start, b, c]) ∧ cr n [start, b, c] < bound) := by
  simp only [backedge] at h
  cases hsol : solve fp c (2 * b - c) (2 * (start - bound)) with
  | none => simp [hsol] at h
  | undef => simp [hsol] at h
  | val m =>
    simp only [hsol, Res.val.injEq, value_at] at h
    have hc0 : c < 0 := by
      by_contra hn
      have : c = 0 := by omega
      subst this
      simp only [solve, lt_irrefl, if_false, if_true] at hsol
      split at hsol <;> exact absurd hsol (by simp)
    have hd : (2 * b - c) * (2 * b - c) - 4 * c * (2 * (start - bound)) < 2 ^ 52 := by
      simp only [Small] at hsm
      have : 4 * c * (2 * (start - bound)) = -(8 * c * (bound - start)) := by ring
      omega
    obtain ⟨p1, p2⟩ := solve_neg hfp hc0 (by omega) (by
        rcases hreg.2 hc0 with hr | hr
        · exact Or.inl (by omega)
        · exact Or.inr hr) hd hsol
    have hval : ∀ i : Nat, 2 * (cr i [start, b, c] - bound) = c * ((i : Int) * i) + (2 * b - c) * i + 2 * (start - bound) := by
      intro i
      have := cr3 i start b c
      rw [mul_sub, this]
      ring
    have hge : cr m [start, b, c] ≤ bound := by
      have := hval m
      omega
    have hlt : ∀ i : Nat, i < m → bound < cr i [start, b, c] := by
      intro i hi
      rcases p2 with p2 | p2
      · omega
      · have h1 := hval (m - 1)
        have hcast : ((m - 1 : Nat) : Int) = (m : Int) - 1 := by omega
        rw [hcast] at h1
        have h2 := cr3_anti (a := start) hb hc i (m - 1) (by omega)
        omega
    constructor
    · intro he
      rw [he] at h
      simp only [Bool.false_and, Bool.false_eq_true, if_false] at h
      subst h
      exact ⟨hlt, hge⟩
    · intro he
      rw [he] at h
      simp only [Bool.true_and, beq_iff_eq] at h
      by_cases hm : cr m [start, b, c] = bound
      · rw [if_pos hm] at h
        subst h
        refine ⟨fun i hi => ?_, ?_⟩
        · have := cr3_anti (a := start) hb hc i m (by omega)
          omega
        · rw [cr3_succ, hm]
          have hpos : b + m * c < 0 := by
            by_cases hm0 : m = 0
            · subst hm0
              rw [cr3_zero] at hm
              rcases hreg.2 hc0 with hr | hr
              · push_cast
                omega
              · exact absurd (by rw [hm]; ring) (hr 0 (le_refl _))
            · have : (m : Int) * c < 0 := mul_neg_of_pos_of_neg (by omega) hc0
              omega
          omega
      · rw [if_neg hm] at h
        subst h
        exact ⟨fun i hi => le_of_lt (hlt i hi), by omega⟩


/-! ## The prediction -/

theorem predict_right {fp : Fp} {cmp : Cmp} {vs : List Int} {bound : Int} {n : Nat}
    (h : predict fp cmp (vs.map S.const) [.const bound] = .val n) :
    (∃ a b, vs = [a, b] ∧ predictFor fp cmp a (.lin b) bound = .val n) ∨
    (∃ a b c, vs = [a, b, c] ∧ predictFor fp cmp a (.quad b c) bound = .val n) := by
  match vs, h with
  | [], h => simp [predict, predictOps] at h
  | [_], h => simp [predict, predictOps] at h
  | [a, b], h => exact Or.inl ⟨a, b, rfl, by simpa [predict, predictOps] using h⟩
  | [a, b, c], h => exact Or.inr ⟨a, b, c, rfl, by simpa [predict, predictOps] using h⟩
  | _ :: _ :: _ :: _ :: _, h => simp [predict, predictOps] at h

theorem Res.succ_val {r : Res} {n : Nat} (h : r.succ = .val n) : ∃ m, r = .val m ∧ n = m + 1 := by
  cases r with
  | none => simp [Res.succ] at h
  | undef => simp [Res.succ] at h
  | val m =>
    simp only [Res.succ, Res.val.injEq] at h
    exact ⟨m, rfl, h.symm⟩

/-- `m` repetitions. -/
theorem trip_of {cont : Nat → Bool} {m : Nat} (h1 : ∀ i, i < m → cont i = true) (h2 : cont m = false) : TripCount cont (m + 1) :=
  ⟨by omega, fun i hi => h1 i (by omega), by simpa using h2⟩

/-- The trip count of the comparison of the integers. -/
theorem trip_int {fp : Fp} (hfp : fp.Exact) {cmp : Cmp} {vs : List Int} {bound : Int} {n : Nat}
    (hsm : Small bound vs) (hreg : Regular bound vs) (h : predict fp cmp (vs.map S.const) [.const bound] = .val n) :
    TripCount (fun i => cmp.int (cr i vs) bound) n := by
  rcases predict_right h with ⟨a, b, rfl, hp⟩ | ⟨a, b, c, rfl, hp⟩
  · have one : ∀ {k : Nat}, k = 1 → cmp.int a bound = false → TripCount (fun i => cmp.int (cr i [a, b]) bound) k := by
      intro k hk hf
      subst hk
      exact trip_of (fun i hi => absurd hi (by omega)) (by simpa [cr2] using hf)
    simp only [Small] at hsm
    cases cmp <;> simp only [predictFor] at hp
    case slt | ult =>
      split at hp
      · injection hp with hp; exact one hp.symm (by simp [Cmp.int]; omega)
      · split at hp
        · rename_i hb
          obtain ⟨m, hm, rfl⟩ := Res.succ_val hp
          obtain ⟨g, _⟩ := lin_pos hfp (by simpa [Step.positive] using hb) (by omega) hsm.2 hm
          obtain ⟨g1, g2⟩ := g rfl
          exact trip_of (fun i hi => by simpa [Cmp.int, cr2] using g1 i hi) (by simpa [Cmp.int, cr2] using g2)
        · simp at hp
    case sle | ule =>
      split at hp
      · injection hp with hp; exact one hp.symm (by simp [Cmp.int]; omega)
      · split at hp
        · rename_i hb
          obtain ⟨m, hm, rfl⟩ := Res.succ_val hp
          obtain ⟨_, g⟩ := lin_pos hfp (by simpa [Step.positive] using hb) (by omega) hsm.2 hm
          obtain ⟨g1, g2⟩ := g rfl
          exact trip_of (fun i hi => by simpa [Cmp.int, cr2] using g1 i hi) (by simpa [Cmp.int, cr2] using g2)
        · simp at hp
    case sgt | ugt =>
      split at hp
      · injection hp with hp; exact one hp.symm (by simp [Cmp.int]; omega)
      · split at hp
        · rename_i hb
          obtain ⟨m, hm, rfl⟩ := Res.succ_val hp
          obtain ⟨g, _⟩ := lin_neg hfp (by simpa [Step.negative] using hb) (by omega) hsm.1 hm
          obtain ⟨g1, g2⟩ := g rfl
          exact trip_of (fun i hi => by simpa [Cmp.int, cr2] using g1 i hi) (by simpa [Cmp.int, cr2] using g2)
        · simp at hp
    case sge | uge =>
      split at hp
      · injection hp with hp; exact one hp.symm (by simp [Cmp.int]; omega)
      · split at hp
        · rename_i hb
          obtain ⟨m, hm, rfl⟩ := Res.succ_val hp
          obtain ⟨_, g⟩ := lin_neg hfp (by simpa [Step.negative] using hb) (by omega) hsm.1 hm
          obtain ⟨g1, g2⟩ := g rfl
          exact trip_of (fun i hi => by simpa [Cmp.int, cr2] using g1 i hi) (by simpa [Cmp.int, cr2] using g2)
        · simp at hp
    case eq =>
      split at hp
      · rename_i hab
        split at hp
        · simp at hp
        · rename_i hz
          injection hp with hp
          subst hp
          refine trip_of (m := 1) (fun i hi => ?_) ?_
          · have : i = 0 := by omega
            subst this
            simp [Cmp.int, cr2, hab]
          · simp [Cmp.int, cr2, hab]
            simpa [Step.zero] using hz
      · injection hp with hp; exact one hp.symm (by simpa [Cmp.int] using ‹_›)
    case ne =>
      have start : ∀ {k : Nat}, (if a = bound then Res.val 1 else .none) = .val k →
          TripCount (fun i => Cmp.ne.int (cr i [a, b]) bound) k := by
        intro k hk
        split at hk
        · injection hk with hk; exact one hk.symm (by simpa [Cmp.int] using ‹_›)
        · simp at hk
      have exact' : ∀ {m : Nat}, Int.tmod (bound - a) b = 0 →
          ((0 < b ∧ a ≤ bound ∧ (∀ i : Nat, i < m → a + i * b < bound) ∧ bound ≤ a + m * b) ∨
            (b < 0 ∧ bound ≤ a ∧ (∀ i : Nat, i < m → bound < a + i * b) ∧ a + m * b ≤ bound)) →
          TripCount (fun i => Cmp.ne.int (cr i [a, b]) bound) (m + 1) := by
        intro m hm hg
        obtain ⟨k, hk⟩ := Int.dvd_of_tmod_eq_zero hm
        have hk0 : 0 ≤ k := by
          by_contra hn
          rcases hg with ⟨hb, hle, _⟩ | ⟨hb, hle, _⟩
          · have : b * k ≤ b * (-1) := mul_le_mul_of_nonneg_left (by omega) (by omega)
            omega
          · have : b * (-1) ≤ b * k := mul_le_mul_of_nonpos_left (by omega) (by omega)
            omega
        obtain ⟨j, rfl⟩ := Int.eq_ofNat_of_zero_le hk0
        have hjb : a + j * b = bound := by rw [mul_comm]; omega
        have hmj : m = j := by
          rcases hg with ⟨hb, _, g1, g2⟩ | ⟨hb, _, g1, g2⟩
          · have h1 : ¬ j < m := fun hlt => by have := g1 j hlt; omega
            have h2 : ¬ m < j := by
              intro hlt
              have : (m : Int) * b < j * b := mul_lt_mul_of_pos_right (by omega) hb
              omega
            omega
          · have h1 : ¬ j < m := fun hlt => by have := g1 j hlt; omega
            have h2 : ¬ m < j := by
              intro hlt
              have : (j : Int) * b < m * b := mul_lt_mul_of_neg_right (by omega) hb
              omega
            omega
        subst hmj
        refine trip_of (fun i hi => ?_) ?_
        · have : a + i * b ≠ bound := by
            rcases hg with ⟨_, _, g1, _⟩ | ⟨_, _, g1, _⟩ <;> · have := g1 i hi; omega
          simpa [Cmp.int, cr2] using this
        · simp [Cmp.int, cr2, hjb]
      split at hp
      · rename_i hb
        cases hbk : backedge fp a bound .ne (.lin b) with
        | undef => simp [hbk] at hp
        | none =>
          simp only [hbk, Res.succ] at hp
          split at hp
          · simp at hp
          · exact start hp
        | val m =>
          simp only [hbk, Res.succ] at hp
          split at hp
          · rename_i hc
            injection hp with hp
            subst hp
            obtain ⟨g, _⟩ := lin_pos hfp hb hc.1 hsm.2 hbk
            exact exact' hc.2 (Or.inl ⟨hb, hc.1, g rfl⟩)
          · exact start hp
      · split at hp
        · rename_i hb
          cases hbk : backedge fp a bound .ne (.lin b) with
          | undef => simp [hbk] at hp
          | none =>
            simp only [hbk, Res.succ] at hp
            split at hp
            · simp at hp
            · exact start hp
          | val m =>
            simp only [hbk, Res.succ] at hp
            split at hp
            · rename_i hc
              injection hp with hp
              subst hp
              obtain ⟨g, _⟩ := lin_neg hfp hb hc.1 hsm.1 hbk
              exact exact' hc.2 (Or.inr ⟨hb, hc.1, g rfl⟩)
            · exact start hp
        · exact start hp
  · have one : ∀ {k : Nat}, k = 1 → cmp.int a bound = false → TripCount (fun i => cmp.int (cr i [a, b, c]) bound) k := by
      intro k hk hf
      subst hk
      exact trip_of (fun i hi => absurd hi (by omega)) (by simpa [cr] using hf)
    cases cmp <;> simp only [predictFor] at hp
    case slt | ult =>
      split at hp
      · injection hp with hp; exact one hp.symm (by simp [Cmp.int]; omega)
      · split at hp
        · rename_i hb
          simp only [Step.positive, Bool.and_eq_true, decide_eq_true_eq] at hb
          obtain ⟨m, hm, rfl⟩ := Res.succ_val hp
          obtain ⟨g, _⟩ := quad_pos hfp hb.1.1 hb.1.2 (Or.inl (by omega)) hsm hreg hm
          obtain ⟨g1, g2⟩ := g rfl
          exact trip_of (fun i hi => by simpa [Cmp.int] using g1 i hi) (by simpa [Cmp.int] using g2)
        · simp at hp
    case sle | ule =>
      split at hp
      · injection hp with hp; exact one hp.symm (by simp [Cmp.int]; omega)
      · split at hp
        · rename_i hb
          simp only [Step.positive, Bool.and_eq_true, decide_eq_true_eq] at hb
          obtain ⟨m, hm, rfl⟩ := Res.succ_val hp
          obtain ⟨_, g⟩ := quad_pos hfp hb.1.1 hb.1.2 (Or.inr ⟨rfl, by omega⟩) hsm hreg hm
          obtain ⟨g1, g2⟩ := g rfl
          exact trip_of (fun i hi => by simpa [Cmp.int] using g1 i hi) (by simpa [Cmp.int] using g2)
        · simp at hp
    case sgt | ugt =>
      split at hp
      · injection hp with hp; exact one hp.symm (by simp [Cmp.int]; omega)
      · split at hp
        · rename_i hb
          simp only [Step.negative, Bool.and_eq_true, decide_eq_true_eq] at hb
          obtain ⟨m, hm, rfl⟩ := Res.succ_val hp
          obtain ⟨g, _⟩ := quad_neg hfp hb.1.1 hb.1.2 (by omega) hsm hreg hm
          obtain ⟨g1, g2⟩ := g rfl
          exact trip_of (fun i hi => by simpa [Cmp.int] using g1 i hi) (by simpa [Cmp.int] using g2)
        · simp at hp
    case sge | uge =>
      split at hp
      · injection hp with hp; exact one hp.symm (by simp [Cmp.int]; omega)
      · split at hp
        · rename_i hb
          simp only [Step.negative, Bool.and_eq_true, decide_eq_true_eq] at hb
          obtain ⟨m, hm, rfl⟩ := Res.succ_val hp
          obtain ⟨_, g⟩ := quad_neg hfp hb.1.1 hb.1.2 (by omega) hsm hreg hm
          obtain ⟨g1, g2⟩ := g rfl
          exact trip_of (fun i hi => by simpa [Cmp.int] using g1 i hi) (by simpa [Cmp.int] using g2)
        · simp at hp
    case ne =>
      split at hp
      · injection hp with hp; exact one hp.symm (by simpa [Cmp.int] using ‹_›)
      · simp at hp
    case eq =>
      split at hp
      · rename_i hab
        split at hp
        · simp at hp
        · rename_i hz
          injection hp with hp
          subst hp
          have hb0 : b ≠ 0 := by
            intro hb
            subst hb
            simp only [Step.zero, BEq.rfl, Bool.true_and, beq_iff_eq] at hz
            rcases lt_or_gt_of_ne hz with hc | hc
            · rcases hreg.2 hc with hr | hr
              · omega
              · exact hr 0 (le_refl _) (by rw [hab]; ring)
            · rcases hreg.1 hc with hr | hr
              · omega
              · exact hr 0 (le_refl _) (by rw [hab]; ring)
          refine trip_of (m := 1) (fun i hi => ?_) ?_
          · have : i = 0 := by omega
            subst this
            simp [Cmp.int, cr3_zero, hab]
          · rw [show (1 : Nat) = 0 + 1 from rfl, cr3_succ, cr3_zero]
            simp [Cmp.int, hab, hb0]
      · injection hp with hp; exact one hp.symm (by simpa [Cmp.int] using ‹_›)

/-- **C52** A predicted trip count is the number of times the body is executed: for all recurrences `{a,+,b}` and `{a,+,b,+,c}`, bounds,
word sizes and comparisons, if the bound is the right operand of the comparison, the values fit in a word, and the numbers are in the
range where `double` is exact. Missing: the bound as the left operand (`C52_constant_left`), recurrences that are not `Regular`
(`C52_irregular`), values that wrap around (`C52_wrap`), and constants that the comparison reads as unsigned (`C52_unsigned`). -/
theorem C52_trip_partial {fp : Fp} (hfp : fp.Exact) (w : Nat) (cmp : Cmp) (vs : List Int) (bound : Int) (n : Nat)
    (h : predict fp cmp (vs.map S.const) [.const bound] = .val n)
    (hfit : ∀ i, i < n → cmp.fits w (cr i vs)) (hb : cmp.fits w bound) (hsm : Small bound vs) (hreg : Regular bound vs) :
    TripCount (fun i => cmp.holds (BitVec.ofInt w (cr i vs)) (BitVec.ofInt w bound)) n := by
  obtain ⟨h1, h2, h3⟩ := trip_int hfp hsm hreg h
  refine ⟨h1, fun i hi => ?_, ?_⟩
  · show cmp.holds (BitVec.ofInt w (cr i vs)) (BitVec.ofInt w bound) = true
    rw [holds_int cmp (hfit i (by omega)) hb]
    exact h2 i hi
  · show cmp.holds (BitVec.ofInt w (cr (n - 1) vs)) (BitVec.ofInt w bound) = false
    rw [holds_int cmp (hfit (n - 1) (by omega)) hb]
    exact h3

/-! ## Loops -/

theorem cr_ofInt (w : Nat) (i : Nat) (vs : List Int) : cr i (vs.map fun v => (BitVec.ofInt w v)) = BitVec.ofInt w (cr i vs) := by
  induction i generalizing vs with
  | zero => cases vs <;> simp [cr]
  | succ i ih =>
    have ht : (vs.map fun v => (BitVec.ofInt w v)).tail = vs.tail.map fun v => (BitVec.ofInt w v) := by cases vs <;> rfl
    simp only [cr, ih, ht, BitVec.ofInt_add]

theorem evs_const {w : Nat} (e : Env (BitVec w)) (vs : List Int) : evs e (vs.map S.const) = vs.map fun v => (BitVec.ofInt w v) := by
  induction vs with
  | nil => rfl
  | cons v vs ih =>
    simp only [List.map_cons, evs, S.ev, ih]
    rfl

theorem known_const (vs : List Int) : isUnknowns (vs.map S.const) = false := by
  induction vs with
  | nil => rfl
  | cons v vs ih => simp [isUnknowns, S.isUnknown, ih]

/-- **C52** The same for a loop: its body computes with words of `w` bits, and is repeated as long as `x cmp y`. If the analysis finds
recurrences of constants for the two values and predicts `n`, the body is executed `n` times, whatever the start values that are not
constants and the operations the analysis does not look at. -/
theorem C52_loop_partial {fp : Fp} (hfp : fp.Exact) (w : Nat) (cmp : Cmp) (lp : Loop) (opq : Nat → (Out → BitVec w) → BitVec w)
    (x₀ : Out → BitVec w) (hs : lp.starts x₀) (fuel : Nat) (k : Lp) (order : List Out)
    (hinc : ∀ v ∈ order, (lp.post v).increments v) (out out' : Out) (x y : Expr) (hx : x.free out) (hy : y.free out')
    (vs : List Int) (bound : Int) (hl : lp.chrecOfExpr fuel k order out x = vs.map S.const)
    (hr : lp.chrecOfExpr fuel k order out' y = [.const bound]) (n : Nat)
    (h : predict fp cmp (lp.chrecOfExpr fuel k order out x) (lp.chrecOfExpr fuel k order out' y) = .val n)
    (hfit : ∀ i, i < n → cmp.fits w (cr i vs)) (hb : cmp.fits w bound) (hsm : Small bound vs) (hreg : Regular bound vs) :
    TripCount (fun i => cmp.holds (x.eval opq (lp.run opq x₀ i)) (y.eval opq (lp.run opq x₀ i))) n := by
  rw [hl, hr] at h
  have ht := C52_trip_partial hfp w cmp vs bound n h hfit hb hsm hreg
  have hfun : (fun i => cmp.holds (x.eval opq (lp.run opq x₀ i)) (y.eval opq (lp.run opq x₀ i))) =
      fun i => cmp.holds (BitVec.ofInt w (cr i vs)) (BitVec.ofInt w bound) := by
    funext i
    rw [C45_expression_partial lp opq x₀ hs fuel k order hinc out x hx (by rw [hl]; exact known_const vs)
        ⟨fun _ => 0, x₀, fun _ => 0⟩ rfl i, hl, evs_const, cr_ofInt,
      C45_expression_partial lp opq x₀ hs fuel k order hinc out' y hy (by rw [hr]; rfl) ⟨fun _ => 0, x₀, fun _ => 0⟩ rfl i, hr]
    rw [show ([S.const bound] : List S) = [bound].map S.const from rfl, evs_const, cr_ofInt, cr1]
  rw [hfun]
  exact ht

/-! ## Predictions are made -/

theorem solveWith_found {A B C sq : Int} (hA : 0 < A) (hC : C ≤ 0) (hB : 0 ≤ B)
    (h0 : 0 ≤ sq) (h1 : sq * sq ≤ B * B - 4 * A * C) (h2 : B * B - 4 * A * C < (sq + 1) * (sq + 1)) :
    ∃ n, solveWith A B C (B * B - 4 * A * C) sq = .val n := by
  have hsq : ¬ sq * sq > B * B - 4 * A * C := by omega
  have hge : B ≤ sq := by
    by_contra hlt
    have : sq + 1 ≤ B := by omega
    have : (sq + 1) * (sq + 1) ≤ B * B := by nlinarith
    nlinarith
  have hxn : 0 ≤ Int.tdiv (-B + sq) (2 * A) := Int.tdiv_nonneg (by omega) (by omega)
  simp only [solveWith, if_neg hsq, if_neg (show ¬ B < 0 by omega),
    if_neg (show ¬ Int.tdiv (-B + sq) (2 * A) < 0 by omega)]
  obtain ⟨x, hxd⟩ : ∃ x, x = Int.tdiv (-B + sq) (2 * A) := ⟨_, rfl⟩
  obtain ⟨r, hrd⟩ : ∃ r, r = Int.tmod (-B + sq) (2 * A) := ⟨_, rfl⟩
  rw [← hxd, ← hrd]
  rw [← hxd] at hxn
  have hdm : 2 * A * x + r = -B + sq := by rw [hxd, hrd]; exact Int.mul_tdiv_add_tmod _ _
  have hr0 : 0 ≤ r := by rw [hrd]; exact Int.tmod_nonneg _ (by omega)
  have hr1 : r < 2 * A := by rw [hrd]; exact Int.tmod_lt_of_pos _ (by omega)
  by_cases hex : (!(sq * sq != B * B - 4 * A * C) && r == 0) = true
  · exact ⟨_, by rw [if_pos hex]⟩
  · rw [if_neg hex]
    have hneg : A * (x * x) + B * x + C < 0 := by
      by_contra hnn
      have hk := key A B C x
      have hnn' : 0 ≤ 4 * A * (A * (x * x) + B * x + C) := mul_nonneg (by omega) (by omega)
      have hle : 2 * A * x + B ≤ sq := by omega
      have hnx : 0 ≤ 2 * A * x + B := by
        have : 0 ≤ 2 * A * x := mul_nonneg (by omega) hxn
        omega
      have hsq2 : (2 * A * x + B) * (2 * A * x + B) ≤ sq * sq := by nlinarith
      have heq : sq * sq = B * B - 4 * A * C := by omega
      have hne : 2 * A * x + B = sq := by
        by_contra hne
        have : 2 * A * x + B + 1 ≤ sq := by omega
        nlinarith
      have hr : r = 0 := by omega
      apply hex
      simp [heq, hr]
    have hpos : 0 < A * ((x + 1) * (x + 1)) + B * (x + 1) + C := by
      have hk := key A B C (x + 1)
      have : sq + 1 ≤ 2 * A * (x + 1) + B := by
        have : 2 * A * (x + 1) = 2 * A * x + 2 * A := by ring
        omega
      have : (sq + 1) * (sq + 1) ≤ (2 * A * (x + 1) + B) * (2 * A * (x + 1) + B) := by nlinarith
      have : 0 < 4 * A * (A * ((x + 1) * (x + 1)) + B * (x + 1) + C) := by omega
      exact (mul_pos_iff_of_pos_left (by omega : (0:Int) < 4 * A)).mp this
    have e0 : (A * x + B) * x + C = A * (x * x) + B * x + C := by ring
    have e1 : (A * (x + 1) + B) * (x + 1) + C = A * ((x + 1) * (x + 1)) + B * (x + 1) + C := by ring
    refine ⟨(x + 1).toNat, ?_⟩
    rw [if_pos]
    rw [e0, e1]
    have d0 : decide (A * (x * x) + B * x + C < 0) = true := by simpa using hneg
    have d1 : decide (A * ((x + 1) * (x + 1)) + B * (x + 1) + C < 0) = false := by
      simp only [decide_eq_false_iff_not]
      omega
    rw [d0, d1]
    rfl

theorem solve_found {fp : Fp} (hfp : fp.Exact) {A B C : Int} (hA : 0 < A ∧ C ≤ 0 ∧ 0 ≤ B ∨ A < 0 ∧ 0 ≤ C ∧ B ≤ 0)
    (hd : B * B - 4 * A * C < 2 ^ 52) : ∃ n, solve fp A B C = .val n := by
  rcases hA with ⟨hA, hC, hB⟩ | ⟨hA, hC, hB⟩
  · have hA' : ¬ A < 0 := by omega
    have hd0 : ¬ B * B - 4 * A * C < 0 := by nlinarith [mul_self_nonneg B]
    simp only [solve, if_neg hA', if_neg hd0, if_neg (show ¬ A = 0 by omega)]
    obtain ⟨h0, h1, h2⟩ := hfp.sqrt _ (by omega) hd
    exact solveWith_found hA hC hB h0 h1 h2
  · have e : -B * -B - 4 * -A * -C = B * B - 4 * A * C := by ring
    have hd0 : ¬ -B * -B - 4 * -A * -C < 0 := by rw [e]; nlinarith [mul_self_nonneg B]
    simp only [solve, if_pos hA, if_neg hd0, if_neg (show ¬ -A = 0 by omega)]
    obtain ⟨h0, h1, h2⟩ := hfp.sqrt (-B * -B - 4 * -A * -C) (by omega) (by omega)
    exact solveWith_found (by omega) (by omega) (by omega) h0 h1 h2

theorem lin_found {fp : Fp} (hfp : fp.Exact) {start bound b : Int} (cmp : Cmp)
    (hlt : -2 ^ 53 < bound - start ∧ bound - start < 2 ^ 53)
    (hdir : 0 < b ∧ start ≤ bound ∨ b < 0 ∧ bound ≤ start) : ∃ n, backedge fp start bound cmp (.lin b) = .val n := by
  have hq : ¬ fp.ceilDiv (bound - start) b < 0 := by
    intro hn
    rcases hdir with ⟨hb, hs⟩ | ⟨hb, hs⟩
    · obtain ⟨c1, c2⟩ := hfp.ceil_pos (bound - start) b hlt.1 hlt.2 hb
      have : fp.ceilDiv (bound - start) b * b ≤ -1 * b := mul_le_mul_of_nonneg_right (by omega) (by omega)
      omega
    · obtain ⟨c1, c2⟩ := hfp.ceil_neg (bound - start) b hlt.1 hlt.2 hb
      have : -1 * b ≤ fp.ceilDiv (bound - start) b * b := mul_le_mul_of_nonpos_right (by omega) (by omega)
      omega
  simp only [backedge, Res.ofDouble, if_neg hq]
  exact ⟨_, rfl⟩

theorem quad_found {fp : Fp} (hfp : fp.Exact) {start bound b c : Int} (cmp : Cmp) (hsm : Small bound [start, b, c])
    (hdir : 0 < c ∧ c ≤ 2 * b ∧ start ≤ bound ∨ c < 0 ∧ 2 * b ≤ c ∧ bound ≤ start) :
    ∃ n, backedge fp start bound cmp (.quad b c) = .val n := by
  have hd : (2 * b - c) * (2 * b - c) - 4 * c * (2 * (start - bound)) < 2 ^ 52 := by
    simp only [Small] at hsm
    have : 4 * c * (2 * (start - bound)) = -(8 * c * (bound - start)) := by ring
    omega
  obtain ⟨n, hn⟩ := solve_found hfp (A := c) (B := 2 * b - c) (C := 2 * (start - bound)) (by omega) hd
  simp only [backedge, hn]
  exact ⟨_, rfl⟩

/-- **C52** A count is predicted for every loop that ends (without wrap-around): for all affine recurrences and comparisons, and for
all quadratic ones whose increments do not change their sign, except that loops of the latter that end with `!=` are not looked at. -/
theorem C52_found {fp : Fp} (hfp : fp.Exact) (cmp : Cmp) (vs : List Int) (bound : Int) (hsm : Small bound vs) (hs : Simple vs)
    (hne : cmp = .ne → vs.length = 2) (hend : ∃ i, cmp.int (cr i vs) bound = false) :
    ∃ n, predict fp cmp (vs.map S.const) [.const bound] = .val n := by
  obtain ⟨i, hi⟩ := hend
  match vs, hs with
  | [a, b], _ =>
    simp only [Small] at hsm
    rw [cr2] at hi
    have up : a + i * b > a → 0 < b := by
      intro h
      by_contra hn
      have : (i : Int) * b ≤ 0 := mul_nonpos_of_nonneg_of_nonpos (by omega) (by omega)
      omega
    have dn : a + i * b < a → b < 0 := by
      intro h
      by_contra hn
      have : 0 ≤ (i : Int) * b := mul_nonneg (by omega) (by omega)
      omega
    simp only [List.map_cons, List.map_nil, predict, predictOps]
    cases cmp <;> simp only [Cmp.int, decide_eq_false_iff_not, bne_eq_false_iff_eq, beq_eq_false_iff_ne] at hi <;>
      simp only [predictFor]
    case slt | ult | sle | ule =>
      split
      · exact ⟨_, rfl⟩
      · have hb := up (by omega)
        rw [if_pos (by simpa [Step.positive] using hb)]
        obtain ⟨n, hn⟩ := lin_found hfp _ hsm (Or.inl ⟨hb, by omega⟩)
        exact ⟨n + 1, by rw [hn]; rfl⟩
    case sgt | ugt | sge | uge =>
      split
      · exact ⟨_, rfl⟩
      · have hb := dn (by omega)
        rw [if_pos (by simpa [Step.negative] using hb)]
        obtain ⟨n, hn⟩ := lin_found hfp _ hsm (Or.inr ⟨hb, by omega⟩)
        exact ⟨n + 1, by rw [hn]; rfl⟩
    case ne =>
      have hm : Int.tmod (bound - a) b = 0 := by
        have : bound - a = i * b := by omega
        rw [this]
        exact Int.mul_tmod_left _ _
      by_cases hab : a = bound
      · subst hab
        by_cases hb : b > 0
        · rw [if_pos hb]
          obtain ⟨n, hn⟩ := lin_found hfp .ne hsm (Or.inl ⟨hb, le_refl _⟩)
          simp only [hn]
          rw [if_pos ⟨le_refl _, hm⟩]
          exact ⟨n + 1, rfl⟩
        · rw [if_neg hb]
          by_cases hb' : b < 0
          · rw [if_pos hb']
            obtain ⟨n, hn⟩ := lin_found hfp .ne hsm (Or.inr ⟨hb', le_refl _⟩)
            simp only [hn]
            rw [if_pos ⟨le_refl _, hm⟩]
            exact ⟨n + 1, rfl⟩
          · rw [if_neg hb']
            exact ⟨1, by simp⟩
      · rcases lt_or_gt_of_ne hab with h | h
        · have hb := up (by omega)
          rw [if_pos hb]
          obtain ⟨n, hn⟩ := lin_found hfp .ne hsm (Or.inl ⟨hb, by omega⟩)
          simp only [hn]
          rw [if_pos ⟨by omega, hm⟩]
          exact ⟨n + 1, rfl⟩
        · have hb := dn (by omega)
          rw [if_neg (by omega), if_pos hb]
          obtain ⟨n, hn⟩ := lin_found hfp .ne hsm (Or.inr ⟨hb, by omega⟩)
          simp only [hn]
          rw [if_pos ⟨by omega, hm⟩]
          exact ⟨n + 1, rfl⟩
    case eq =>
      split
      · rename_i hab
        have : b ≠ 0 := by
          intro hb
          subst hb
          apply hi
          omega
        rw [if_neg (by simpa [Step.zero] using this)]
        exact ⟨2, rfl⟩
      · exact ⟨1, rfl⟩
  | [a, b, c], hs =>
    simp only [Simple] at hs
    have up : cr i [a, b, c] > a → 0 < c ∧ c ≤ 2 * b := by
      intro h
      rcases hs with hs | hs
      · exact hs
      · have := cr3_anti (a := a) (b := b) (c := c) (by omega) (by omega) 0 i (by omega)
        rw [cr3_zero] at this
        omega
    have dn : cr i [a, b, c] < a → c < 0 ∧ 2 * b ≤ c := by
      intro h
      rcases hs with hs | hs
      · have := cr3_mono (a := a) (b := b) (c := c) (by omega) (by omega) 0 i (by omega)
        rw [cr3_zero] at this
        omega
      · exact hs
    simp only [List.map_cons, List.map_nil, predict, predictOps]
    cases cmp <;> simp only [Cmp.int, decide_eq_false_iff_not, bne_eq_false_iff_eq, beq_eq_false_iff_ne] at hi <;>
      simp only [predictFor]
    case slt | ult | sle | ule =>
      split
      · exact ⟨_, rfl⟩
      · have hb := up (by omega)
        have hp : (Step.quad b c).positive = true := by
          simp only [Step.positive, ge_iff_le, Bool.and_eq_true, decide_eq_true_eq, Bool.not_eq_true', Bool.and_eq_false_iff,
            beq_eq_false_iff_ne]
          omega
        rw [if_pos hp]
        obtain ⟨n, hn⟩ := quad_found hfp _ hsm (Or.inl ⟨hb.1, hb.2, by omega⟩)
        exact ⟨n + 1, by rw [hn]; rfl⟩
    case sgt | ugt | sge | uge =>
      split
      · exact ⟨_, rfl⟩
      · have hb := dn (by omega)
        have hp : (Step.quad b c).negative = true := by
          simp only [Step.negative, Bool.and_eq_true, decide_eq_true_eq, Bool.not_eq_true', Bool.and_eq_false_iff,
            beq_eq_false_iff_ne]
          omega
        rw [if_pos hp]
        obtain ⟨n, hn⟩ := quad_found hfp _ hsm (Or.inr ⟨hb.1, hb.2, by omega⟩)
        exact ⟨n + 1, by rw [hn]; rfl⟩
    case ne => exact absurd (hne rfl) (by simp)
    case eq =>
      split
      · have : (Step.quad b c).zero = false := by
          simp only [Step.zero, Bool.and_eq_false_iff, beq_eq_false_iff_ne]
          omega
        rw [this]
        exact ⟨2, rfl⟩
      · exact ⟨1, rfl⟩

/-- **C52** And none is predicted for a loop that does not end. -/
theorem C52_endless_partial {fp : Fp} (hfp : fp.Exact) (cmp : Cmp) (vs : List Int) (bound : Int) (hsm : Small bound vs)
    (hreg : Regular bound vs) (hend : ∀ i, cmp.int (cr i vs) bound = true) (n : Nat) :
    predict fp cmp (vs.map S.const) [.const bound] ≠ .val n := by
  intro h
  have h3 : cmp.int (cr (n - 1) vs) bound = false := (trip_int hfp hsm hreg h).2.2
  rw [hend] at h3
  exact absurd h3 (by simp)

end Jlm.Scev
