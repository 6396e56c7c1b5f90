import Verif.Llvm.UnrollModel
import Mathlib.Tactic.Ring
import Mathlib.Data.BitVec
import Mathlib.Algebra.Order.Group.Nat
set_option linter.unusedSimpArgs false
set_option linter.unusedVariables false
/-
C26 (loop unrolling): specification and proofs.
-/
namespace Jlm.Llvm.Unroll
open Jlm.Bits
open Jlm.Bits.BVR

variable {n : Nat} {σ α : Type}

/-! ### Specification -/

/-- Two programs have the same outcomes from `x` (including: none at all). -/
def SameFrom (p q : Prog α) (x : α) : Prop := ∀ y, Exec p x y ↔ Exec q x y

/-- `do { g } while (c)` started in `x` performs exactly `k` iterations and stops in `y`. -/
def Iterates (g : α → α) (c : α → Bool) (k : Nat) (x y : α) : Prop :=
  0 < k ∧ y = g^[k] x ∧ c y = false ∧ ∀ j, 0 < j → j < k → c (g^[j] x) = true

/-! ### Execution as iteration -/

theorem exec_act {f : α → α} {x y : α} : Exec (.act f) x y ↔ y = f x := by
  constructor
  · intro h; cases h; rfl
  · rintro rfl; exact .act f x

theorem exec_skip {x y : α} : Exec .skip x y ↔ y = x := by
  constructor
  · intro h; cases h; rfl
  · rintro rfl; exact .skip _

theorem exec_seq {p q : Prog α} {x z : α} :
    Exec (.seq p q) x z ↔ ∃ y, Exec p x y ∧ Exec q y z := by
  constructor
  · intro h; cases h with | seq h1 h2 => exact ⟨_, h1, h2⟩
  · rintro ⟨y, h1, h2⟩; exact .seq h1 h2

theorem exec_ite {c : α → Bool} {p q : Prog α} {x y : α} :
    Exec (.ite c p q) x y ↔ if c x then Exec p x y else Exec q x y := by
  constructor
  · intro h
    cases h with
    | iteT h1 h2 => rw [if_pos h1]; exact h2
    | iteF h1 h2 => rw [if_neg (by simp [h1])]; exact h2
  · intro h
    cases hc : c x with
    | true => rw [if_pos hc] at h; exact .iteT hc h
    | false => rw [if_neg (by simp [hc])] at h; exact .iteF hc h

/-- A theta whose body computes the function `g` iterates `g`. -/
theorem exec_doWhile {p : Prog α} {g : α → α} (hp : ∀ x y, Exec p x y ↔ y = g x) {c : α → Bool}
    {x y : α} : Exec (.doWhile p c) x y ↔ ∃ k, Iterates g c k x y := by
  constructor
  · intro h
    generalize hq : Prog.doWhile p c = q at h
    induction h with
    | skip | act | seq | iteT | iteF => cases hq
    | once h1 h2 =>
      cases hq
      rw [hp] at h1
      exact ⟨1, by omega, by simpa using h1, h2, fun j h1 h2 => by omega⟩
    | again h1 h2 h3 _ ih =>
      cases hq
      obtain ⟨k, hk, hy, hc, hj⟩ := ih rfl
      rw [hp] at h1
      subst h1
      refine ⟨k + 1, by omega, by rw [hy]; rfl, hc, fun j h1 h3 => ?_⟩
      obtain ⟨i, rfl⟩ : ∃ i, j = i + 1 := ⟨j - 1, by omega⟩
      rcases Nat.eq_zero_or_pos i with rfl | hi
      · exact h2
      · exact hj i hi (by omega)
  · rintro ⟨k, hk, hy, hc, hj⟩
    obtain ⟨m, rfl⟩ : ∃ m, k = m + 1 := ⟨k - 1, by omega⟩
    clear hk
    induction m generalizing x with
    | zero => exact .once ((hp _ _).2 (by simpa using hy)) hc
    | succ m ih =>
      refine .again ((hp x (g x)).2 rfl) (hj 1 (by omega) (by omega)) (ih hy fun j h1 h2 => ?_)
      exact hj (j + 1) (by omega) (by omega)

theorem iterates_det {g : α → α} {c : α → Bool} {k k' : Nat} {x y y' : α}
    (h : Iterates g c k x y) (h' : Iterates g c k' x y') : k = k' ∧ y = y' := by
  have : k = k' := by
    rcases Nat.lt_trichotomy k k' with h1 | h1 | h1
    · have := h'.2.2.2 k h.1 h1
      rw [← h.2.1, h.2.2.1] at this; cases this
    · exact h1
    · have := h.2.2.2 k' h'.1 h1
      rw [← h'.2.1, h'.2.2.1] at this; cases this
  subst this
  exact ⟨rfl, h.2.1.trans h'.2.1.symm⟩

/-- Removing `m` full iterations, after each of which the loop continues. -/
theorem iterates_shift {g : α → α} {c : α → Bool} {m : Nat} {x y : α}
    (hm : ∀ j, 0 < j → j ≤ m → c (g^[j] x) = true) :
    (∃ k, Iterates g c k x y) ↔ ∃ k, Iterates g c k (g^[m] x) y := by
  constructor
  · rintro ⟨k, hk, hy, hc, hj⟩
    have hlt : m < k := by
      rcases Nat.lt_or_ge m k with h | h
      · exact h
      · have := hm k hk h
        rw [← hy, hc] at this; cases this
    refine ⟨k - m, by omega, ?_, hc, fun j h1 h2 => ?_⟩
    · rw [hy, ← Function.iterate_add_apply]; congr 2; omega
    · rw [← Function.iterate_add_apply]; exact hj _ (by omega) (by omega)
  · rintro ⟨k, hk, hy, hc, hj⟩
    refine ⟨k + m, by omega, ?_, hc, fun j h1 h2 => ?_⟩
    · rw [hy, ← Function.iterate_add_apply]
    · rcases Nat.lt_or_ge m j with h | h
      · have := hj (j - m) (by omega) (by omega)
        rw [← Function.iterate_add_apply] at this
        have e : j - m + m = j := by omega
        rwa [e] at this
      · exact hm j h1 h

theorem copies_exec (L : Loop n σ) (k : Nat) : ∃ p, L.copies (k + 1) = some p ∧
    ∀ x y, Exec p x y ↔ y = L.next^[k + 1] x := by
  induction k with
  | zero => exact ⟨_, rfl, fun x y => exec_act⟩
  | succ k ih =>
    obtain ⟨p, hp, he⟩ := ih
    refine ⟨.seq (.act L.next) p, ?_, fun x y => ?_⟩
    · show (L.copies (k + 1)).map _ = _
      rw [hp]; rfl
    · rw [exec_seq]
      constructor
      · rintro ⟨z, h1, h2⟩
        rw [exec_act] at h1
        rw [he, h1] at h2
        exact h2
      · intro h
        exact ⟨L.next x, exec_act.2 rfl, (he _ _).2 h⟩

theorem orig_exec (L : Loop n σ) (x y : BitVec n × σ) :
    Exec L.orig x y ↔ ∃ k, Iterates L.next (L.test L.fin) k x y :=
  exec_doWhile fun x y => exec_act

/-! ### The machine-word computations of `niterations` -/

/-- `niterations` on machine words. -/
theorem niterations_eq (hn : 0 < n) (L : Loop n σ) (hk : L.known = true) :
    let lo := if L.additive then L.init else L.fin
    let st := if L.additive then L.step else -L.step
    let hi := (if L.additive then L.fin else L.init) + (if isEqCmp L.cmp then 1#n else 0#n)
    let range := hi - lo
    L.niterations =
      if range.msb then some none
      else if range.toNat % st.toNat ≠ 0 then some none
      else if st.toNat = 0 then some (some (Bits.repr (BitVec.allOnes n)))
      else some (some (Bits.repr (BitVec.ofNat n (range.toNat / st.toNat)))) := by
  intro lo st hi range
  have one : ofInt n 1 = some (Bits.repr 1#n) := by
    rw [C06_ofInt n 1 (by omega), if_neg (by omega), if_pos]
    · congr 2
    · have : (2 : Int) ^ n ≥ 2 ^ 1 := by
        have : (2 : Nat) ^ n ≥ 2 ^ 1 := Nat.pow_le_pow_right (by omega) hn
        exact_mod_cast this
      omega
  have zero : ofInt n 0 = some (Bits.repr 0#n) := by
    rw [C06_ofInt n 0 (by omega), if_neg (by omega), if_pos]
    · congr 2
    · have : (2 : Int) ^ n > 0 := Int.pow_pos (by omega)
      omega
  have e1 : L.countStep = some (Bits.repr st) := by
    simp only [st, Loop.countStep]; split
    · rfl
    · exact C01_neg hn _
  have e2 : (if L.additive then Bits.repr L.init else Bits.repr L.fin) = Bits.repr lo := by
    simp only [lo]; split <;> rfl
  have e3 : L.countEnd = some (Bits.repr hi) := by
    simp only [Loop.countEnd]
    have e : (if L.additive then Bits.repr L.fin else Bits.repr L.init) =
        Bits.repr (if L.additive then L.fin else L.init) := by split <;> rfl
    rw [e]
    simp only [hi]
    split
    · rw [one, Option.bind_some, C01_add hn]
    · simp
  rw [Loop.niterations, if_neg (by simp [hk])]
  simp only [e1, e2, e3, Option.bind_eq_bind, Option.bind_some]
  rw [C01_sub hn]
  simp only [Option.bind_some, isNegative_repr hn, range]
  by_cases hm : (hi - lo).msb = true
  · rw [if_pos hm, if_pos hm]
  rw [if_neg hm, if_neg hm, C04_umod hn]
  simp only [Option.bind_some, eqInt, repr_length, zero, Option.map_some, repr_injective]
  have hlt : (hi - lo).toNat % st.toNat < 2 ^ n :=
    Nat.lt_of_le_of_lt (Nat.mod_le _ _) (hi - lo).isLt
  by_cases hz : (hi - lo).toNat % st.toNat = 0
  · rw [if_neg (by rw [hz]; simp), if_neg (by simpa using hz)]
    by_cases hs : st.toNat = 0
    · rw [if_pos hs]
      have : st = 0#n := by apply BitVec.eq_of_toNat_eq; simpa using hs
      rw [this, (C04_udiv_by_zero hn _).1]; rfl
    · rw [if_neg hs, C04_udiv hn _ _ hs]; rfl
  · rw [if_pos hz, if_pos]
    simp only [decide_eq_false_iff_not]
    intro h
    have := congrArg BitVec.toNat h
    rw [BitVec.toNat_ofNat, Nat.mod_eq_of_lt hlt] at this
    exact hz (by simpa using this)

/-! ### Counting loops -/

/-- The loops the trip count formula is right for: the induction variable is increased, the
comparison asks "not yet at the end" in the direction of travel, the match node continues on that
answer, and the first test would succeed on the initial value. -/
inductive Counts (L : Loop n σ) : Prop
  | ult (hc : L.cmp = .ult ∧ L.idvFirst = true ∨ L.cmp = .ugt ∧ L.idvFirst = false)
      (ht : ∀ b, L.cont b = b) (hr : L.init.toNat < L.fin.toNat)
  | ule (hc : L.cmp = .ule ∧ L.idvFirst = true ∨ L.cmp = .uge ∧ L.idvFirst = false)
      (ht : ∀ b, L.cont b = b) (hr : L.init.toNat ≤ L.fin.toNat) (hm : L.fin.toNat + 1 < 2 ^ n)
  | slt (hc : L.cmp = .slt ∧ L.idvFirst = true ∨ L.cmp = .sgt ∧ L.idvFirst = false)
      (ht : ∀ b, L.cont b = b) (hr : L.init.toInt < L.fin.toInt)
  | sle (hc : L.cmp = .sle ∧ L.idvFirst = true ∨ L.cmp = .sge ∧ L.idvFirst = false)
      (ht : ∀ b, L.cont b = b) (hr : L.init.toInt ≤ L.fin.toInt) (hm : L.fin.toInt + 1 < 2 ^ (n - 1))
  | ne (hc : L.cmp = .ne ∧ (∀ b, L.cont b = b) ∨ L.cmp = .eq ∧ (∀ b, L.cont b = !b))
      (hr : L.init ≠ L.fin)

theorem toNat_off (a : BitVec n) (t : Nat) (h : a.toNat + t < 2 ^ n) :
    (a + BitVec.ofNat n t).toNat = a.toNat + t := by
  rw [BitVec.toNat_add, BitVec.toNat_ofNat, Nat.mod_eq_of_lt (a := t) (by omega),
    Nat.mod_eq_of_lt h]

theorem pow_split (hn : 0 < n) : (2 : Nat) ^ n = 2 * 2 ^ (n - 1) := by
  have : n = (n - 1) + 1 := by omega
  conv => lhs; rw [this]
  rw [Nat.pow_succ, Nat.mul_comm]

theorem toInt_off (hn : 0 < n) (a : BitVec n) (t : Nat) (h : a.toInt + t < 2 ^ (n - 1)) :
    (a + BitVec.ofNat n t).toInt = a.toInt + t := by
  have h1 := a.le_toInt
  have hp := pow_split hn
  have hp' : ((2 ^ (n - 1) : Nat) : Int) = (2 : Int) ^ (n - 1) := by simp
  rw [BitVec.toInt_add, BitVec.toInt_ofNat', Int.add_bmod_bmod, Int.bmod_eq_of_le_mul_two]
  · rw [hp]; push_cast; omega
  · rw [hp]; push_cast; omega

theorem toInt_off_wrap (hn : 0 < n) (a : BitVec n) (t : Nat) (ht : t < 2 ^ n)
    (h : 2 ^ (n - 1) ≤ a.toInt + t) :
    (a + BitVec.ofNat n t).toInt = a.toInt + t - 2 ^ n := by
  have h1 := a.le_toInt
  have h2 := @BitVec.toInt_lt n a
  have hp := pow_split hn
  have hp' : ((2 ^ (n - 1) : Nat) : Int) = (2 : Int) ^ (n - 1) := by simp
  have hp2 : (2 : Int) ^ n = ((2 ^ n : Nat) : Int) := by simp
  rw [BitVec.toInt_add, BitVec.toInt_ofNat', Int.add_bmod_bmod, hp2]
  have : (a.toInt + t).bmod (2 ^ n) = (a.toInt + t - (2 ^ n : Nat)).bmod (2 ^ n) := by
    rw [Int.sub_bmod_right]
  rw [this, Int.bmod_eq_of_le_mul_two]
  · rw [hp] at ht ⊢; push_cast; omega
  · rw [hp] at ht ⊢; push_cast; omega

/-- What the trip count gives for a counting loop: the `c` it returns is positive, and the test
against the end value moved back by `c - m` steps succeeds after exactly the first `m - 1`
iterations. -/
theorem counts_test (hn : 0 < n) (L : Loop n σ) (hk : L.known = true) (ha : L.additive = true)
    (hC : Counts L) (N : BVR) (hN : L.niterations = some (some N)) :
    ∃ c : Nat, 0 < c ∧ c < 2 ^ n ∧ N = Bits.repr (BitVec.ofNat n c) ∧
      ∀ (k m : Nat) (s : σ), k ≤ m → m ≤ c → 0 < m →
        L.test (L.fin - BitVec.ofNat n (c - m) * L.step) (L.init + BitVec.ofNat n k * L.step, s) =
          decide (k < m) := by
  have hq := niterations_eq hn L hk
  simp only [ha, if_true] at hq
  set e : BitVec n := if isEqCmp L.cmp then 1#n else 0#n with he
  set range := L.fin + e - L.init with hrange
  rw [hq] at hN
  by_cases h1 : range.msb = true
  · rw [if_pos h1] at hN; cases hN
  rw [if_neg h1] at hN
  by_cases h2 : range.toNat % L.step.toNat = 0
  swap
  · rw [if_pos h2] at hN; cases hN
  rw [if_neg (by simpa using h2)] at hN
  -- the range is a positive number below 2^(n-1)
  have hp := pow_split hn
  have hlt : range.toNat < 2 ^ (n - 1) := by
    rw [BitVec.msb_eq_decide] at h1
    simpa using h1
  have hfe : L.fin + e = L.init + range := by rw [hrange]; ring
  have hofr : BitVec.ofNat n range.toNat = range := by simp
  have hpos : 0 < range.toNat := by
    rcases Nat.eq_zero_or_pos range.toNat with h0 | h0
    · exfalso
      have hr0 : range = 0#n := by apply BitVec.eq_of_toNat_eq; simpa using h0
      rw [hr0] at hfe
      have hfe' : L.fin + e = L.init := by rw [hfe]; simp
      cases hC with
      | ult hc ht hr =>
        have : e = 0#n := by rw [he]; rcases hc with ⟨h, _⟩ | ⟨h, _⟩ <;> rw [h] <;> rfl
        rw [this] at hfe'; simp at hfe'; rw [hfe'] at hr; omega
      | ule hc ht hr hm =>
        have : e = 1#n := by rw [he]; rcases hc with ⟨h, _⟩ | ⟨h, _⟩ <;> rw [h] <;> rfl
        rw [this] at hfe'
        have := toNat_off L.fin 1 (by omega)
        rw [hfe'] at this; omega
      | slt hc ht hr =>
        have : e = 0#n := by rw [he]; rcases hc with ⟨h, _⟩ | ⟨h, _⟩ <;> rw [h] <;> rfl
        rw [this] at hfe'; simp at hfe'; rw [hfe'] at hr; omega
      | sle hc ht hr hm =>
        have : e = 1#n := by rw [he]; rcases hc with ⟨h, _⟩ | ⟨h, _⟩ <;> rw [h] <;> rfl
        rw [this] at hfe'
        have := toInt_off hn L.fin 1 (by simpa using hm)
        rw [hfe'] at this; push_cast at this; omega
      | ne hc hr =>
        have : e = 0#n := by rw [he]; rcases hc with ⟨h, _⟩ | ⟨h, _⟩ <;> rw [h] <;> rfl
        rw [this] at hfe'; simp at hfe'; exact hr hfe'.symm
    · exact h0
  have hs : 0 < L.step.toNat := by
    rcases Nat.eq_zero_or_pos L.step.toNat with h0 | h0
    · rw [h0, Nat.mod_zero] at h2; omega
    · exact h0
  rw [if_neg (by omega)] at hN
  set st := L.step.toNat with hst
  obtain ⟨c, hc⟩ : ∃ c, range.toNat = c * st := ⟨_, (Nat.div_mul_cancel (Nat.dvd_of_mod_eq_zero h2)).symm⟩
  have hdiv : range.toNat / st = c := by rw [hc]; exact Nat.mul_div_cancel _ hs
  have hcpos : 0 < c := by
    rcases Nat.eq_zero_or_pos c with h | h
    · rw [h] at hc; omega
    · exact h
  have hcle : c ≤ range.toNat := by rw [hc]; exact Nat.le_mul_of_pos_right _ hs
  have hofs : BitVec.ofNat n st = L.step := by rw [hst]; simp
  refine ⟨c, hcpos, by omega, ?_, ?_⟩
  · have := Option.some.inj (Option.some.inj hN)
    rw [← this, hdiv]
  intro k m s hkm hmc hm
  -- offsets from the initial value
  have hA : m * st ≤ range.toNat := by rw [hc]; exact Nat.mul_le_mul_right _ hmc
  have hK : k * st ≤ m * st := Nat.mul_le_mul_right _ hkm
  have hKm : k * st < m * st ↔ k < m := by
    constructor
    · intro h; exact Nat.lt_of_mul_lt_mul_right h
    · intro h; exact Nat.mul_lt_mul_of_pos_right h hs
  have hA1 : st ≤ m * st := Nat.le_mul_of_pos_left _ hm
  have hk' : L.init + BitVec.ofNat n k * L.step = L.init + BitVec.ofNat n (k * st) := by
    rw [BitVec.ofNat_mul, hofs]
  have hm' : L.fin - BitVec.ofNat n (c - m) * L.step = L.init + BitVec.ofNat n (m * st) - e := by
    have h1 : range = BitVec.ofNat n ((c - m) * st) + BitVec.ofNat n (m * st) := by
      rw [← hofr, hc, ← BitVec.ofNat_add]
      congr 1
      rw [← Nat.add_mul]; congr 1; omega
    rw [BitVec.ofNat_mul, hofs] at h1
    have h2 : L.fin = L.init + range - e := by rw [← hfe]; ring
    rw [h2, h1]; ring
  rw [hk', hm']
  generalize m * st = A at *
  generalize k * st = K at *
  have e0 : ∀ x : BitVec n, x - 0#n = x := fun x => by simp
  have e1 : L.init + BitVec.ofNat n A - 1#n = L.init + BitVec.ofNat n (A - 1) := by
    have : BitVec.ofNat n A = BitVec.ofNat n (A - 1) + 1#n := by
      rw [show (1#n) = BitVec.ofNat n 1 from rfl, ← BitVec.ofNat_add]; congr 1; omega
    rw [this]; ring
  have hfr : L.fin = L.init + BitVec.ofNat n range.toNat - e := by
    rw [hofr, ← hfe]; ring
  have ef1 : L.init + BitVec.ofNat n range.toNat - 1#n = L.init + BitVec.ofNat n (range.toNat - 1) := by
    have : BitVec.ofNat n range.toNat = BitVec.ofNat n (range.toNat - 1) + 1#n := by
      rw [show (1#n) = BitVec.ofNat n 1 from rfl, ← BitVec.ofNat_add]; congr 1; omega
    rw [this]; ring
  have hp' : ((2 ^ (n - 1) : Nat) : Int) = (2 : Int) ^ (n - 1) := by simp
  have hp2 : (2 : Int) ^ n = 2 * (2 : Int) ^ (n - 1) := by
    have : ((2 ^ n : Nat) : Int) = ((2 * 2 ^ (n - 1) : Nat) : Int) := by rw [hp]
    push_cast at this; exact this
  have hin := L.init.isLt
  have hil := L.init.le_toInt
  cases hC with
  | ult hcm ht hr =>
    have : e = 0#n := by rw [he]; rcases hcm with ⟨h, _⟩ | ⟨h, _⟩ <;> rw [h] <;> rfl
    rw [this, e0] at hfr ⊢
    have hno : L.init.toNat + range.toNat < 2 ^ n := by
      rcases Nat.lt_or_ge (L.init.toNat + range.toNat) (2 ^ n) with h | h
      · exact h
      · exfalso
        rw [hfr, BitVec.toNat_add, BitVec.toNat_ofNat, Nat.mod_eq_of_lt (a := range.toNat) (by omega),
          Nat.mod_eq_sub_mod h, Nat.mod_eq_of_lt (by omega)] at hr
        omega
    have hb := toNat_off L.init A (by omega)
    have hb' := toNat_off L.init K (by omega)
    rcases hcm with ⟨h, h'⟩ | ⟨h, h'⟩ <;>
      simp only [Loop.test, h, h', ht, Cmp.holds, hb, hb', if_true, if_false, Bool.false_eq_true] <;>
      rw [decide_eq_decide] <;> omega
  | ule hcm ht hr hmx =>
    have : e = 1#n := by rw [he]; rcases hcm with ⟨h, _⟩ | ⟨h, _⟩ <;> rw [h] <;> rfl
    rw [this] at hfr ⊢
    rw [e1]
    rw [ef1] at hfr
    have hno : L.init.toNat + (range.toNat - 1) < 2 ^ n := by
      rcases Nat.lt_or_ge (L.init.toNat + (range.toNat - 1)) (2 ^ n) with h | h
      · exact h
      · exfalso
        rw [hfr, BitVec.toNat_add, BitVec.toNat_ofNat,
          Nat.mod_eq_of_lt (a := range.toNat - 1) (by omega),
          Nat.mod_eq_sub_mod h, Nat.mod_eq_of_lt (by omega)] at hr
        omega
    have hf := toNat_off L.init _ hno
    rw [← hfr] at hf
    have hb := toNat_off L.init (A - 1) (by omega)
    have hb' := toNat_off L.init K (by omega)
    rcases hcm with ⟨h, h'⟩ | ⟨h, h'⟩ <;>
      simp only [Loop.test, h, h', ht, Cmp.holds, hb, hb', if_true, if_false, Bool.false_eq_true] <;>
      rw [decide_eq_decide] <;> omega
  | slt hcm ht hr =>
    have : e = 0#n := by rw [he]; rcases hcm with ⟨h, _⟩ | ⟨h, _⟩ <;> rw [h] <;> rfl
    rw [this, e0] at hfr ⊢
    have hno : L.init.toInt + range.toNat < 2 ^ (n - 1) := by
      rcases lt_or_ge (L.init.toInt + range.toNat) (2 ^ (n - 1)) with h | h
      · exact h
      · exfalso
        rw [hfr, toInt_off_wrap hn _ _ range.isLt h] at hr
        omega
    have hb := toInt_off hn L.init A (by omega)
    have hb' := toInt_off hn L.init K (by omega)
    rcases hcm with ⟨h, h'⟩ | ⟨h, h'⟩ <;>
      simp only [Loop.test, h, h', ht, Cmp.holds, hb, hb', if_true, if_false, Bool.false_eq_true] <;>
      rw [decide_eq_decide] <;> omega
  | sle hcm ht hr hmx =>
    have : e = 1#n := by rw [he]; rcases hcm with ⟨h, _⟩ | ⟨h, _⟩ <;> rw [h] <;> rfl
    rw [this] at hfr ⊢
    rw [e1]
    rw [ef1] at hfr
    have hno : L.init.toInt + (range.toNat - 1 : Nat) < 2 ^ (n - 1) := by
      rcases lt_or_ge (L.init.toInt + (range.toNat - 1 : Nat)) (2 ^ (n - 1)) with h | h
      · exact h
      · exfalso
        rw [hfr, toInt_off_wrap hn _ _ (by omega) h] at hr
        omega
    have hf := toInt_off hn L.init _ hno
    rw [← hfr] at hf
    have hb := toInt_off hn L.init (A - 1) (by omega)
    have hb' := toInt_off hn L.init K (by omega)
    rcases hcm with ⟨h, h'⟩ | ⟨h, h'⟩ <;>
      simp only [Loop.test, h, h', ht, Cmp.holds, hb, hb', if_true, if_false, Bool.false_eq_true] <;>
      rw [decide_eq_decide] <;> omega
  | ne hcm hr =>
    have : e = 0#n := by rw [he]; rcases hcm with ⟨h, _⟩ | ⟨h, _⟩ <;> rw [h] <;> rfl
    rw [this, e0] at hfr ⊢
    have heq : (L.init + BitVec.ofNat n K = L.init + BitVec.ofNat n A) ↔ K = A := by
      constructor
      · intro h
        have h := add_left_cancel h
        have := congrArg BitVec.toNat h
        rwa [BitVec.toNat_ofNat, BitVec.toNat_ofNat, Nat.mod_eq_of_lt (by omega),
          Nat.mod_eq_of_lt (by omega)] at this
      · rintro rfl; rfl
    have heq' : (L.init + BitVec.ofNat n A = L.init + BitVec.ofNat n K) ↔ K = A := by
      rw [eq_comm, heq]
    rcases hcm with ⟨h, h'⟩ | ⟨h, h'⟩ <;> cases hi : L.idvFirst <;>
      simp only [Loop.test, h, h', hi, Cmp.holds, heq, heq', ne_eq, if_true, if_false,
        Bool.false_eq_true] <;>
      first
        | (rw [decide_eq_decide]; omega)
        | (rw [← decide_not, decide_eq_decide]; omega)

theorem next_idv (L : Loop n σ) (ha : L.additive = true) (x : BitVec n × σ) (k : Nat) :
    (L.next^[k] x).1 = x.1 + BitVec.ofNat n k * L.step := by
  induction k generalizing x with
  | zero => simp
  | succ k ih =>
    rw [Function.iterate_succ_apply, ih, BitVec.ofNat_add]
    have : (L.next x).1 = x.1 + L.step := by
      simp only [Loop.next, Loop.arm, ha, if_true]
      split
      · rfl
      · exact BitVec.add_comm _ _
    rw [this]
    have h1 : BitVec.ofNat n 1 = 1 := rfl
    rw [h1]; ring

theorem ofInt_factor (hn : 0 < n) (f : Nat) (hf : f < 2 ^ n) (h64 : f < 2 ^ 63) :
    ofInt n f = some (Bits.repr (BitVec.ofNat n f)) := by
  have h2 : ((2 ^ n : Nat) : Int) = (2 : Int) ^ n := by simp
  rw [C06_ofInt n f (by omega), if_neg (by omega), if_pos (by omega)]
  congr 2

theorem eqInt_small (hn : 0 < n) (x : BitVec n) (v : Nat) (hv : v < 2) :
    eqInt (Bits.repr x) v = some (decide (x.toNat = v)) := by
  have h1 : 2 ^ 1 ≤ 2 ^ n := Nat.pow_le_pow_right (by omega) hn
  rw [eqInt, repr_length, ofInt_factor hn v (by omega) (by omega), Option.map_some]
  congr 1
  rw [decide_eq_decide, repr_injective]
  constructor
  · rintro rfl
    rw [BitVec.toNat_ofNat, Nat.mod_eq_of_lt (by omega)]
  · intro h
    apply BitVec.eq_of_toNat_eq
    rw [BitVec.toNat_ofNat, Nat.mod_eq_of_lt (by omega), h]

/-- C26, the trip count: whenever `niterations` returns a number for a counting loop, the original
loop runs exactly that many times. -/
theorem C26_niterations_partial (hn : 0 < n) (L : Loop n σ) (hk : L.known = true)
    (ha : L.additive = true) (hC : Counts L) (N : BVR) (hN : L.niterations = some (some N)) :
    ∃ c : BitVec n, N = Bits.repr c ∧
      ∀ s : σ, ∃ y, Iterates L.next (L.test L.fin) c.toNat (L.init, s) y := by
  obtain ⟨c, hc, hlt, hNc, ht⟩ := counts_test hn L hk ha hC N hN
  refine ⟨BitVec.ofNat n c, hNc, fun s => ⟨_, ?_, rfl, ?_, ?_⟩⟩ <;>
    rw [BitVec.toNat_ofNat, Nat.mod_eq_of_lt hlt]
  · exact hc
  · have := ht c c (L.next^[c] (L.init, s)).2 (Nat.le_refl _) (Nat.le_refl _) hc
    simp only [Nat.sub_self, Nat.lt_irrefl, decide_false] at this
    rw [← this, ← next_idv L ha (L.init, s) c]; simp
  · intro j hj hjc
    have := ht j c (L.next^[j] (L.init, s)).2 (by omega) (Nat.le_refl _) hc
    simp only [Nat.sub_self, hjc, decide_true] at this
    rw [← this, ← next_idv L ha (L.init, s) j]; simp

/-- C26, statically known trip counts: the unrolled program has exactly the outcomes of the original
loop, for every body, every factor of at least 2 that the loop's bit width can represent and every
counting loop. -/
theorem C26_known_partial (hn : 0 < n) (L : Loop n σ) (hk : L.known = true)
    (ha : L.additive = true) (hC : Counts L) (N : BVR) (hN : L.niterations = some (some N))
    (f : Nat) (hf : 2 ≤ f) (hfn : f < 2 ^ n) (hf64 : f < 2 ^ 63) :
    ∃ p, L.unroll f = some p ∧ ∀ s : σ, SameFrom p L.orig (L.init, s) := by
  obtain ⟨c, hc, hlt, hNc, ht⟩ := counts_test hn L hk ha hC N hN
  have hofc : (BitVec.ofNat n c).toNat = c := by rw [BitVec.toNat_ofNat, Nat.mod_eq_of_lt hlt]
  have hoff : (BitVec.ofNat n f).toNat = f := by rw [BitVec.toNat_ofNat, Nat.mod_eq_of_lt hfn]
  have key : ∀ (s : σ) (k m : Nat), k ≤ m → m ≤ c → 0 < m →
      L.test (L.fin - BitVec.ofNat n (c - m) * L.step) (L.next^[k] (L.init, s)) = decide (k < m) := by
    intro s k m h1 h2 h3
    rw [← ht k m (L.next^[k] (L.init, s)).2 h1 h2 h3, ← next_idv L ha (L.init, s) k]
  have keyc : ∀ (s : σ) (k : Nat), k ≤ c →
      L.test L.fin (L.next^[k] (L.init, s)) = decide (k < c) := by
    intro s k h1
    have := key s k c h1 (Nat.le_refl _) hc
    simpa using this
  have horig : ∀ s, Iterates L.next (L.test L.fin) c (L.init, s) (L.next^[c] (L.init, s)) :=
    fun s => ⟨hc, rfl, by rw [keyc s c (Nat.le_refl _)]; simp,
      fun j h1 h2 => by rw [keyc s j (by omega)]; simp [h2]⟩
  have horig' : ∀ s y, Exec L.orig (L.init, s) y ↔ y = L.next^[c] (L.init, s) := by
    intro s y
    rw [orig_exec]
    constructor
    · rintro ⟨k, h⟩; exact (iterates_det h (horig s)).2
    · rintro rfl; exact ⟨c, horig s⟩
  have hun : L.unroll f = L.unrollKnown N f := by
    rw [Loop.unroll, if_neg (by omega), hN]; rfl
  rw [hun, hNc, Loop.unrollKnown, ofInt_factor hn f hfn hf64]
  simp only [Option.bind_eq_bind, Option.bind_some]
  rw [C02_ule hn]
  simp only [Option.bind_some, hofc, hoff]
  by_cases hcf : c ≤ f
  · rw [if_pos (by simp [bitOf, hcf]), C06_toUint, hofc, if_pos (by omega), Option.bind_some]
    obtain ⟨k, rfl⟩ : ∃ k, c = k + 1 := ⟨c - 1, by omega⟩
    obtain ⟨p, hp, he⟩ := copies_exec L k
    exact ⟨p, hp, fun s y => by rw [he, horig']⟩
  rw [if_neg (by simp [bitOf, hcf]), C04_umod hn]
  simp only [Option.bind_some, hofc, hoff]
  have hmod : c % f < f := Nat.mod_lt _ (by omega)
  have hofm : (BitVec.ofNat n (c % f)).toNat = c % f := by
    rw [BitVec.toNat_ofNat, Nat.mod_eq_of_lt (by omega)]
  have z0 := eqInt_small hn (BitVec.ofNat n (c % f)) 0 (by omega)
  have z1 := eqInt_small hn (BitVec.ofNat n (c % f)) 1 (by omega)
  push_cast at z0 z1
  rw [z0, z1]
  obtain ⟨k, rfl⟩ : ∃ k, f = k + 1 := ⟨f - 1, by omega⟩
  obtain ⟨b, hb, he⟩ := copies_exec L k
  rw [hb]
  simp only [Option.bind_some, hofm, decide_eq_true_eq]
  set f := k + 1 with hfdef
  have hdm := Nat.div_add_mod c f
  set q := c / f with hqdef
  set r := c % f with hrdef
  have hq : 0 < q := Nat.div_pos (by omega) (by omega)
  -- the unrolled loop stops after q rounds
  have hloop : ∀ (e : BitVec n), e = L.fin - BitVec.ofNat n r * L.step → ∀ (s : σ) y,
      Exec (.doWhile b (L.test e)) (L.init, s) y ↔ y = L.next^[f * q] (L.init, s) := by
    intro e he' s y
    have hfq : f * q = c - r := by omega
    have hcm : c - (f * q) = r := by omega
    have hfq0 : 0 < f * q := Nat.mul_pos (by omega) hq
    have hit : Iterates (L.next^[f]) (L.test e) q (L.init, s) (L.next^[f * q] (L.init, s)) := by
      refine ⟨hq, by rw [Function.iterate_mul], ?_, fun j h1 h2 => ?_⟩
      · have := key s (f * q) (f * q) (Nat.le_refl _) (by omega) hfq0
        rw [hcm, ← he'] at this
        rw [this]; simp
      · have h3 : f * j < f * q := Nat.mul_lt_mul_of_pos_left h2 (by omega)
        have := key s (f * j) (f * q) (by omega) (by omega) hfq0
        rw [hcm, ← he'] at this
        rw [← Function.iterate_mul, this]; simp [h3]
    rw [exec_doWhile (g := L.next^[f]) (fun x y => he x y)]
    constructor
    · rintro ⟨k, h⟩; exact (iterates_det h hit).2
    · rintro rfl; exact ⟨q, hit⟩
  by_cases hr0 : r = 0
  · rw [if_pos hr0]
    refine ⟨_, rfl, fun s y => ?_⟩
    rw [hloop L.fin (by rw [hr0]; simp), horig']
    have : f * q = c := by omega
    rw [this]
  rw [if_neg hr0]
  have hadj : L.adjustedEnd (Bits.repr (BitVec.ofNat n r)) =
      some (Bits.repr (L.fin - BitVec.ofNat n r * L.step)) := by
    simp only [Loop.adjustedEnd, Loop.countStep, ha, if_true, Option.bind_eq_bind,
      Option.bind_some, C01_mul hn, C01_sub hn]
  rw [hadj, Option.bind_some]
  have hval : BitVec.ofNat n (val (Bits.repr (L.fin - BitVec.ofNat n r * L.step))) =
      L.fin - BitVec.ofNat n r * L.step := by
    rw [val_repr, BitVec.ofNat_toNat, BitVec.setWidth_eq]
  rw [hval]
  by_cases hr1 : r = 1
  · rw [if_pos hr1]
    refine ⟨_, rfl, fun s y => ?_⟩
    rw [exec_seq, horig']
    constructor
    · rintro ⟨z, h1, h2⟩
      rw [hloop _ rfl] at h1
      rw [exec_act, h1, ← Function.iterate_succ_apply' L.next] at h2
      rw [h2]; congr 2; omega
    · rintro rfl
      refine ⟨_, (hloop _ rfl s _).2 rfl, ?_⟩
      rw [exec_act, ← Function.iterate_succ_apply' L.next]
      congr 2; omega
  · rw [if_neg hr1]
    refine ⟨_, rfl, fun s y => ?_⟩
    have hsh : (∃ k, Iterates L.next (L.test L.fin) k (L.init, s) y) ↔
        ∃ k, Iterates L.next (L.test L.fin) k (L.next^[f * q] (L.init, s)) y :=
      iterates_shift fun j h1 h2 => by rw [keyc s j (by omega)]; simp; omega
    rw [exec_seq]
    constructor
    · rintro ⟨z, h1, h2⟩
      rw [hloop _ rfl] at h1
      rw [h1, orig_exec, ← hsh, ← orig_exec] at h2
      exact h2
    · intro h
      refine ⟨_, (hloop _ rfl s _).2 rfl, ?_⟩
      rw [orig_exec, ← hsh, ← orig_exec]
      exact h

/-! ### Unknown trip counts -/

theorem armOp_iter (L : Loop n σ) (ha : L.additive = true ∨ L.armIdvFirst = true)
    (x : BitVec n × σ) (k : Nat) :
    (L.next^[k] x).1 = L.armOp x.1 (BitVec.ofNat n k * L.step) := by
  have h1 : BitVec.ofNat n 1 = 1 := rfl
  induction k generalizing x with
  | zero => simp [Loop.armOp]
  | succ k ih =>
    rw [Function.iterate_succ_apply, ih, BitVec.ofNat_add, h1]
    cases hadd : L.additive with
    | true =>
      simp only [Loop.next, Loop.arm, Loop.armOp, hadd, if_true]
      split <;> ring
    | false =>
      have : L.armIdvFirst = true := by simpa [hadd] using ha
      simp only [Loop.next, Loop.arm, Loop.armOp, hadd, this, if_true, if_false, Bool.false_eq_true]
      ring

/-- Adding `f` steps to a value inside the loop's range does not wrap around: the loop moves
towards its end and the distance of `f` steps behind the end is representable. -/
inductive NoWrap (L : Loop n σ) (f : Nat) : Prop
  | up (ha : L.additive = true) (hc : L.cmp = .ult ∨ L.cmp = .ule)
      (hw : L.fin.toNat + f * L.step.toNat < 2 ^ n)
  | sup (ha : L.additive = true) (hc : L.cmp = .slt ∨ L.cmp = .sle)
      (hs : 0 ≤ L.step.toInt) (hw : L.fin.toInt + f * L.step.toInt < 2 ^ (n - 1))
  | down (ha : L.additive = false) (hc : L.cmp = .ugt ∨ L.cmp = .uge)
      (hw : f * L.step.toNat ≤ L.fin.toNat)
  | sdown (ha : L.additive = false) (hc : L.cmp = .sgt ∨ L.cmp = .sge)
      (hs : 0 ≤ L.step.toInt) (hw : -2 ^ (n - 1) ≤ L.fin.toInt - f * L.step.toInt)

theorem toInt_nonneg_eq (x : BitVec n) (h : 0 ≤ x.toInt) : x.toInt = x.toNat := by
  rw [BitVec.toInt_eq_toNat_cond] at h ⊢
  split
  · rfl
  · rename_i h1
    rw [if_neg h1] at h
    have := x.isLt
    omega

theorem toNat_off_sub (a : BitVec n) (t : Nat) (h : t ≤ a.toNat) :
    (a - BitVec.ofNat n t).toNat = a.toNat - t := by
  have := a.isLt
  rw [BitVec.toNat_sub, BitVec.toNat_ofNat, Nat.mod_eq_of_lt (a := t) (by omega)]
  have : 2 ^ n - t + a.toNat = (a.toNat - t) + 2 ^ n := by omega
  rw [this, Nat.add_mod_right, Nat.mod_eq_of_lt (by omega)]

theorem toInt_off_sub (hn : 0 < n) (a : BitVec n) (t : Nat) (h : -2 ^ (n - 1) ≤ a.toInt - t) :
    (a - BitVec.ofNat n t).toInt = a.toInt - t := by
  have h1 := @BitVec.toInt_lt n a
  have hp := pow_split hn
  have hp' : ((2 ^ (n - 1) : Nat) : Int) = (2 : Int) ^ (n - 1) := by simp
  rw [BitVec.toInt_sub, BitVec.toInt_ofNat', Int.sub_bmod_bmod, Int.bmod_eq_of_le_mul_two]
  · rw [hp]; push_cast; omega
  · rw [hp]; push_cast; omega

/-- Within a non-wrapping range, the loop continues at every point between two points at which it
continues. -/
theorem between (hn : 0 < n) (L : Loop n σ) (f : Nat) (hW : NoWrap L f) (i : BitVec n)
    (hi : L.freshTest i = true) (hg : L.freshTest (L.armOp i (BitVec.ofNat n f * L.step)) = true)
    (k : Nat) (hk : k ≤ f) : L.freshTest (L.armOp i (BitVec.ofNat n k * L.step)) = true := by
  set st := L.step.toNat with hst
  have hofs : BitVec.ofNat n st = L.step := by
    rw [hst, BitVec.ofNat_toNat, BitVec.setWidth_eq]
  have e : ∀ k : Nat, BitVec.ofNat n k * L.step = BitVec.ofNat n (k * st) := by
    intro k; rw [BitVec.ofNat_mul, hofs]
  rw [e] at hg ⊢
  have hkf : k * st ≤ f * st := Nat.mul_le_mul_right _ hk
  have hcf : ((f * st : Nat) : Int) = (f : Int) * (st : Int) := by push_cast; rfl
  cases hW with
  | up ha hc hw =>
    rw [← hst] at hw
    generalize f * st = F at *
    generalize k * st = K at *
    have hi' : i.toNat ≤ L.fin.toNat := by
      rcases hc with h | h <;> simp only [Loop.freshTest, h, Cmp.holds, decide_eq_true_eq] at hi <;>
        omega
    have h1 := toNat_off i F (by omega)
    have h2 := toNat_off i K (by omega)
    rcases hc with h | h <;>
      simp only [Loop.freshTest, Loop.armOp, ha, if_true, h, Cmp.holds, decide_eq_true_eq, h1, h2]
        at hg ⊢ <;> omega
  | sup ha hc hs hw =>
    rw [toInt_nonneg_eq _ hs, ← hst, ← hcf] at hw
    clear hcf
    generalize f * st = F at *
    generalize k * st = K at *
    have hi' : i.toInt ≤ L.fin.toInt := by
      rcases hc with h | h <;> simp only [Loop.freshTest, h, Cmp.holds, decide_eq_true_eq] at hi <;>
        omega
    have h1 := toInt_off hn i F (by omega)
    have h2 := toInt_off hn i K (by omega)
    rcases hc with h | h <;>
      simp only [Loop.freshTest, Loop.armOp, ha, if_true, h, Cmp.holds, decide_eq_true_eq, h1, h2]
        at hg ⊢ <;> omega
  | down ha hc hw =>
    rw [← hst] at hw
    generalize f * st = F at *
    generalize k * st = K at *
    have hi' : L.fin.toNat ≤ i.toNat := by
      rcases hc with h | h <;> simp only [Loop.freshTest, h, Cmp.holds, decide_eq_true_eq] at hi <;>
        omega
    have h1 := toNat_off_sub i F (by omega)
    have h2 := toNat_off_sub i K (by omega)
    rcases hc with h | h <;>
      simp only [Loop.freshTest, Loop.armOp, ha, if_false, Bool.false_eq_true, h, Cmp.holds,
        decide_eq_true_eq, h1, h2] at hg ⊢ <;> omega
  | sdown ha hc hs hw =>
    rw [toInt_nonneg_eq _ hs, ← hst, ← hcf] at hw
    clear hcf
    generalize f * st = F at *
    generalize k * st = K at *
    have hi' : L.fin.toInt ≤ i.toInt := by
      rcases hc with h | h <;> simp only [Loop.freshTest, h, Cmp.holds, decide_eq_true_eq] at hi <;>
        omega
    have h1 := toInt_off_sub hn i F (by omega)
    have h2 := toInt_off_sub hn i K (by omega)
    rcases hc with h | h <;>
      simp only [Loop.freshTest, Loop.armOp, ha, if_false, Bool.false_eq_true, h, Cmp.holds,
        decide_eq_true_eq, h1, h2] at hg ⊢ <;> omega

/-- C26, trip count not statically known: the emitted gammas and thetas have exactly the outcomes
of the original loop, for every body and every run-time init, step and end such that the loop would
also have been entered as a `while` loop (the test succeeds on the initial value) and `factor`
steps behind the end do not wrap, provided the source's comparison and subtraction have the
induction variable as first operand and the match continues on "true". -/
theorem C26_unknown_partial (hn : 0 < n) (L : Loop n σ) (hN : L.niterations = some none)
    (f : Nat) (hf : 2 ≤ f) (hfn : f < 2 ^ n) (hf64 : f < 2 ^ 63)
    (hfirst : L.idvFirst = true) (harm : L.additive = true ∨ L.armIdvFirst = true)
    (hcont : ∀ b, L.cont b = b) (hW : NoWrap L f) (henter : L.cmp.holds L.init L.fin = true) :
    ∃ p, L.unroll f = some p ∧ ∀ s : σ, SameFrom p L.orig (L.init, s) := by
  have hun : L.unroll f = L.unrollUnknown f := by
    rw [Loop.unroll, if_neg (by omega), hN]; rfl
  obtain ⟨k, rfl⟩ : ∃ k, f = k + 1 := ⟨f - 1, by omega⟩
  obtain ⟨b, hb, he⟩ := copies_exec L k
  rw [hun, Loop.unrollUnknown, ofInt_factor hn _ hfn hf64, hb]
  simp only [Option.bind_eq_bind, Option.bind_some, val_repr, BitVec.ofNat_toNat,
    BitVec.setWidth_eq]
  refine ⟨_, rfl, fun s y => ?_⟩
  set f := k + 1 with hfdef
  have hm : L.step * BitVec.ofNat n f = BitVec.ofNat n f * L.step := BitVec.mul_comm _ _
  rw [hm]
  have htest : ∀ x : BitVec n × σ, L.test L.fin x = L.freshTest x.1 := by
    intro x; simp only [Loop.test, hfirst, if_true, hcont]; rfl
  have henter' : L.freshTest L.init = true := henter
  set x : BitVec n × σ := (L.init, s) with hx
  -- all tests along the rounds of the unrolled loop succeed
  have along : ∀ K, L.freshTest (L.armOp L.init (BitVec.ofNat n f * L.step)) = true →
      (∀ j, 0 < j → j < K → L.freshTest (L.armOp ((L.next^[f])^[j] x).1
        (BitVec.ofNat n f * L.step)) = true) →
      ∀ t, t ≤ f * K → L.freshTest (L.next^[t] x).1 = true := by
    intro K h0 hj t ht
    induction K generalizing t with
    | zero =>
      have : t = 0 := by omega
      subst this; exact henter'
    | succ K ih =>
      have ih' := ih fun j h1 h2 => hj j h1 (by omega)
      rcases Nat.lt_or_ge (f * K) t with h | h
      · obtain ⟨d, rfl⟩ : ∃ d, t = d + f * K := ⟨t - f * K, by omega⟩
        have hd : d ≤ f := by rw [Nat.mul_succ] at ht; omega
        rw [Function.iterate_add_apply, armOp_iter L harm]
        refine between hn L f hW _ (ih' _ (Nat.le_refl _)) ?_ d hd
        rcases Nat.eq_zero_or_pos K with rfl | hK
        · exact h0
        · have := hj K hK (by omega)
          rwa [← Function.iterate_mul] at this
      · exact ih' t h
  rw [exec_seq, orig_exec]
  by_cases h0 : L.freshTest (L.armOp L.init (BitVec.ofNat n f * L.step)) = true
  swap
  · constructor
    · rintro ⟨z, h1, h2⟩
      rw [exec_ite, if_neg h0, exec_skip] at h1
      rw [h1, exec_ite, if_pos henter', orig_exec] at h2
      exact h2
    · intro h
      refine ⟨x, ?_, ?_⟩
      · rw [exec_ite, if_neg h0, exec_skip]
      · rw [exec_ite, if_pos henter', orig_exec]; exact h
  constructor
  · rintro ⟨z, h1, h2⟩
    rw [exec_ite, if_pos h0, exec_doWhile (g := L.next^[f]) (fun x y => he x y)] at h1
    obtain ⟨K, hK, hz, hc, hj⟩ := h1
    have hal := along K h0 hj
    rw [← Function.iterate_mul] at hz
    rw [exec_ite, hz, if_pos (hal _ (Nat.le_refl _)), orig_exec, ← iterates_shift] at h2
    · exact h2
    · intro j h1 h2
      rw [htest]; exact hal j h2
  · rintro ⟨t, ht⟩
    have hex : ∃ K, 0 < K ∧ L.freshTest (L.armOp ((L.next^[f])^[K] x).1
        (BitVec.ofNat n f * L.step)) = false := by
      by_contra hno
      have := along t h0 (fun j h1 h2 => by
        by_contra h3
        exact hno ⟨j, h1, by simpa using h3⟩) t (Nat.le_mul_of_pos_left _ (by omega))
      rw [← htest, ← ht.2.1, ht.2.2.1] at this
      cases this
    classical
    obtain ⟨hK, hKf⟩ := Nat.find_spec hex
    have hmin : ∀ j, 0 < j → j < Nat.find hex → L.freshTest (L.armOp ((L.next^[f])^[j] x).1
        (BitVec.ofNat n f * L.step)) = true := by
      intro j h1 h2
      by_contra h3
      exact Nat.find_min hex h2 ⟨h1, by simpa using h3⟩
    set K := Nat.find hex
    have hal := along K h0 hmin
    refine ⟨L.next^[f * K] x, ?_, ?_⟩
    · rw [exec_ite, if_pos h0, exec_doWhile (g := L.next^[f]) (fun x y => he x y)]
      exact ⟨K, hK, by rw [Function.iterate_mul], by rw [Function.iterate_mul]; exact hKf, hmin⟩
    · rw [exec_ite, if_pos (hal _ (Nat.le_refl _)), orig_exec, ← iterates_shift]
      · exact ⟨t, ht⟩
      · intro j h1 h2
        rw [htest]; exact hal j h2

/-- C26, factors below 2 leave the loop alone. -/
theorem C26_small_factor (L : Loop n σ) (f : Nat) (hf : f < 2) : L.unroll f = some L.orig := by
  rw [Loop.unroll, if_pos hf]

end Jlm.Llvm.Unroll
