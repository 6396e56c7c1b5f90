import Verif.Llvm.UnrollProps
set_option linter.unusedSimpArgs false
/-
C26: the hypotheses of the positive theorems are met by ordinary loops, and each of them is needed:
for every loop outside them below, the transformation changes the outcome (or never finishes).
The bodies count the iterations, so different outcomes are different numbers of iterations.
-/
namespace Jlm.Llvm.Unroll
open Jlm.Bits
open Jlm.Bits.BVR

variable {n : Nat} {σ α : Type}

/-- The full claim of C26 for one loop and one factor. -/
def Correct (L : Loop n σ) (f : Nat) : Prop :=
  ∃ p, L.unroll f = some p ∧ ∀ s : σ, SameFrom p L.orig (L.init, s)

/-! ### An evaluator with fuel -/

/-- Evaluate with a bound on the depth. -/
def run : Nat → Prog α → α → Option α
  | 0, _, _ => none
  | _ + 1, .skip, x => some x
  | _ + 1, .act f, x => some (f x)
  | k + 1, .seq p q, x => (run k p x).bind (run k q)
  | k + 1, .ite c p q, x => if c x then run k p x else run k q x
  | k + 1, .doWhile p c, x => (run k p x).bind fun y => if c y then run k (.doWhile p c) y else some y

theorem run_exec (k : Nat) (p : Prog α) (x y : α) (h : run k p x = some y) : Exec p x y := by
  induction k generalizing p x y with
  | zero => cases h
  | succ k ih =>
    cases p with
    | skip => cases h; exact .skip _
    | act f => cases h; exact .act _ _
    | seq p q =>
      simp only [run, Option.bind_eq_some_iff] at h
      obtain ⟨z, h1, h2⟩ := h
      exact .seq (ih _ _ _ h1) (ih _ _ _ h2)
    | ite c p q =>
      simp only [run] at h
      cases hc : c x with
      | true => rw [if_pos hc] at h; exact .iteT hc (ih _ _ _ h)
      | false => rw [if_neg (by simp [hc])] at h; exact .iteF hc (ih _ _ _ h)
    | doWhile p c =>
      simp only [run, Option.bind_eq_some_iff] at h
      obtain ⟨z, h1, h2⟩ := h
      cases hc : c z with
      | true => rw [if_pos hc] at h2; exact .again (ih _ _ _ h1) hc (ih _ _ _ h2)
      | false => rw [if_neg (by simp [hc])] at h2; cases h2; exact .once (ih _ _ _ h1) hc

theorem exec_det {p : Prog α} {x y z : α} (h : Exec p x y) (h' : Exec p x z) : y = z := by
  induction h generalizing z with
  | skip => cases h'; rfl
  | act => cases h'; rfl
  | seq _ _ ih1 ih2 => cases h' with | seq h1 h2 => cases ih1 h1; exact ih2 h2
  | iteT hc _ ih =>
    cases h' with
    | iteT _ h => exact ih h
    | iteF hc' _ => rw [hc] at hc'; cases hc'
  | iteF hc _ ih =>
    cases h' with
    | iteT hc' _ => rw [hc] at hc'; cases hc'
    | iteF _ h => exact ih h
  | once _ hc ih =>
    cases h' with
    | once h _ => exact ih h
    | again h hc' _ => cases ih h; rw [hc] at hc'; cases hc'
  | again _ hc _ ih1 ih2 =>
    cases h' with
    | once h hc' => cases ih1 h; rw [hc] at hc'; cases hc'
    | again h _ h2 => cases ih1 h; exact ih2 h2

/-- Different results refute correctness. -/
theorem not_correct (L : Loop n σ) (f k k' : Nat) (s : σ) (y z : BitVec n × σ)
    (h1 : run k L.orig (L.init, s) = some y)
    (h2 : (L.unroll f).bind (fun p => run k' p (L.init, s)) = some z) (hne : y ≠ z) :
    ¬ Correct L f := by
  rintro ⟨p, hp, hs⟩
  rw [hp, Option.bind_some] at h2
  exact hne (exec_det (run_exec _ _ _ _ h1) ((hs s z).1 (run_exec _ _ _ _ h2)))

/-! ### Ordinary loops -/

/-- `for (i = 0; i < 30; i += 3)` on i8: ten iterations. -/
def ordinary : Loop 8 Nat :=
  { cmp := .ult, idvFirst := true, additive := true, armIdvFirst := true, cont := id, known := true
    init := 0, step := 3, fin := 30, body := fun _ s => s + 1 }

example : ordinary.niterations = some (some (Bits.repr 10#8)) := by decide +kernel
example : Counts ordinary := .ult (by decide) (fun _ => rfl) (by decide)
example : Correct ordinary 4 :=
  C26_known_partial (by decide) ordinary rfl rfl (.ult (by decide) (fun _ => rfl) (by decide))
    (Bits.repr 10#8) (by decide +kernel) 4 (by decide) (by decide) (by decide)
/-- A two-iteration remainder: the old theta is the epilogue. -/
example : (ordinary.unroll 4).bind (fun p => run 30 p (0, 0)) = some (30, 10) := by decide +kernel
/-- A one-iteration remainder. -/
example : (ordinary.unroll 3).bind (fun p => run 30 p (0, 0)) = some (30, 10) := by decide +kernel
/-- Fully unrolled. -/
example : (ordinary.unroll 16).bind (fun p => run 30 p (0, 0)) = some (30, 10) := by decide +kernel
/-- `5 >= i` with the end on the left, from -4 on, is a counting loop too. -/
example : Counts ({ ordinary with cmp := .sge, idvFirst := false, init := -4, fin := 5, step := 1 } : Loop 8 Nat) :=
  .sle (by decide) (fun _ => rfl) (by decide) (by decide)

/-- The same loop with an unknown end. -/
def ordinaryUnknown : Loop 8 Nat := { ordinary with known := false }

example : Correct ordinaryUnknown 4 :=
  C26_unknown_partial (by decide) ordinaryUnknown rfl 4 (by decide) (by decide) (by decide)
    rfl (.inl rfl) (fun _ => rfl) (.up rfl (.inl rfl) (by decide)) (by decide)
example : (ordinaryUnknown.unroll 4).bind (fun p => run 30 p (0, 0)) = some (30, 10) := by
  decide +kernel
/-- A loop counting down: `for (i = 20; i > 4; i -= 2)`. -/
def countdown : Loop 8 Nat :=
  { cmp := .sgt, idvFirst := true, additive := false, armIdvFirst := true, cont := id, known := true
    init := 20, step := 2, fin := 4, body := fun _ s => s + 1 }
example : Correct countdown 2 :=
  C26_unknown_partial (by decide) countdown (by decide +kernel) 2 (by decide) (by decide) (by decide)
    rfl (.inr rfl) (fun _ => rfl) (.sdown rfl (.inl rfl) (by decide) (by decide)) (by decide)

/-- Loops that subtract a positive step are never treated as known, whatever their bounds (or the
trip count is 0, on which the compiler does not terminate). -/
theorem C26_subtractive_not_counted (hn : 0 < n) (L : Loop n σ) (ha : L.additive = false)
    (hs : 0 < L.step.toInt) :
    L.niterations = some none ∨ L.niterations = some (some (Bits.repr 0#n)) := by
  by_cases hk : L.known = true
  swap
  · left; rw [Loop.niterations, if_pos (by simpa using hk)]
  have hq := niterations_eq hn L hk
  simp only [ha, if_false, Bool.false_eq_true] at hq
  rw [hq]
  set e : BitVec n := if isEqCmp L.cmp then 1#n else 0#n
  set range := L.init + e - L.fin
  by_cases h1 : range.msb = true
  · left; rw [if_pos h1]
  rw [if_neg h1]
  have hp := pow_split hn
  have hlt : range.toNat < 2 ^ (n - 1) := by
    rw [BitVec.msb_eq_decide] at h1
    simpa using h1
  have hst := toInt_nonneg_eq L.step (by omega)
  have hsl := @BitVec.toInt_lt n L.step
  have hp' : ((2 ^ (n - 1) : Nat) : Int) = (2 : Int) ^ (n - 1) := by simp
  have hneg : (-L.step).toNat = 2 ^ n - L.step.toNat := by
    rw [BitVec.toNat_neg, Nat.mod_eq_of_lt (by omega)]
  rw [hneg]
  have hmod : range.toNat % (2 ^ n - L.step.toNat) = range.toNat := Nat.mod_eq_of_lt (by omega)
  rw [hmod]
  by_cases h0 : range.toNat = 0
  · right
    rw [if_neg (by simpa using h0), if_neg (by omega), h0, Nat.zero_div]
  · left; rw [if_pos h0]

/-! ### Loops on which the claim fails -/

/-- The first test would fail on the initial value (`do ... while (i < 5)` from 5): the trip count
is computed as 0 and `unroll_body` never returns. -/
theorem C26_zero_trip_counterexample :
    ({ ordinary with init := 5, fin := 5, step := 1 } : Loop 8 Nat).unroll 4 = none := by
  decide +kernel

/-- The direction of the comparison is ignored: `do ... while (i > 10)` from 0 runs once, its
unrolled form ten times. -/
theorem C26_direction_counterexample :
    ¬ Correct ({ ordinary with cmp := .ugt, fin := 10, step := 1 } : Loop 8 Nat) 16 :=
  not_correct _ _ 40 40 0 (1, 1) (10, 10) (by decide +kernel) (by decide +kernel) (by decide)

/-- The match node is ignored: `do ... while (!(i < 10))` from 0. -/
theorem C26_polarity_counterexample :
    ¬ Correct ({ ordinary with cont := (!·), fin := 10, step := 1 } : Loop 8 Nat) 16 :=
  not_correct _ _ 40 40 0 (1, 1) (10, 10) (by decide +kernel) (by decide +kernel) (by decide)

/-- Overflow is ignored: `do ... while (i < 10)` (unsigned) from 200 runs once; the trip count is
computed modulo 256. -/
theorem C26_wrap_counterexample :
    ¬ Correct ({ ordinary with init := 200, fin := 10, step := 1 } : Loop 8 Nat) 4 :=
  not_correct _ _ 80 80 0 (201, 1) (205, 5) (by decide +kernel) (by decide +kernel) (by decide)

/-- A constant step of 0 is not rejected (the pointer is compared instead of the value):
`do ... while (i < 5)` from 5 with step 0 runs once; the trip count is computed as 255. -/
theorem C26_zero_step_counterexample :
    ¬ Correct ({ ordinary with init := 5, fin := 5, step := 0 } : Loop 8 Nat) 4 :=
  not_correct _ _ 80 80 0 (5, 1) (5, 5) (by decide +kernel) (by decide +kernel) (by decide)

/-- A factor that the loop's width cannot represent throws inside the compiler. -/
theorem C26_wide_factor_counterexample : ordinary.unroll 256 = none := by decide +kernel

/-- Unknown trip count: the do-while loop becomes a while loop (`do ... while (i < 5)` from 10). -/
theorem C26_unknown_enter_counterexample :
    ¬ Correct ({ ordinaryUnknown with init := 10, fin := 5, step := 1 } : Loop 8 Nat) 4 :=
  not_correct _ _ 80 80 0 (11, 1) (10, 0) (by decide +kernel) (by decide +kernel) (by decide)

/-- Unknown trip count, end on the left of the comparison (`10 > i` from 0): no iteration is run. -/
theorem C26_unknown_operand_order_counterexample :
    ¬ Correct ({ ordinaryUnknown with cmp := .ugt, idvFirst := false, fin := 10, step := 1 } :
      Loop 8 Nat) 2 :=
  not_correct _ _ 80 80 0 (10, 10) (0, 0) (by decide +kernel) (by decide +kernel) (by decide)

/-- Unknown trip count, `factor` steps beyond the current value wrap around
(`do ... while (i < 251)` from 250 with step 3): the unrolled loop starts over at 0. -/
theorem C26_unknown_wrap_counterexample :
    ¬ Correct ({ ordinaryUnknown with init := 250, fin := 251, step := 3 } : Loop 8 Nat) 2 :=
  not_correct _ _ 100 100 0 (253, 1) (252, 86) (by decide +kernel) (by decide +kernel) (by decide)

/-- `do ... while (i < 7)` from 3 with `i := 255 - i`. -/
def reversed : Loop 8 Nat :=
  { cmp := .ult, idvFirst := true, additive := false, armIdvFirst := false, cont := id
    known := false, init := 3, step := 255, fin := 7, body := fun _ s => s + 1 }

/-- Unknown trip count, `i := 255 - i` is treated like `i := i - 255`. -/
theorem C26_unknown_reversed_subtraction_counterexample : ¬ Correct reversed 3 :=
  not_correct _ _ 80 80 0 (252, 1) (252, 3) (by decide +kernel) (by decide +kernel) (by decide)

/-- `for (i = 0; i != n; i++)` with an unknown bound `n`. -/
def neLoop : Loop 8 Nat := { ordinaryUnknown with cmp := .ne, init := 0, fin := 3, step := 1 }

/-- Unknown trip count with `!=`: the end is stepped over and a loop of three iterations becomes an
infinite loop. -/
theorem C26_unknown_ne_counterexample :
    Exec neLoop.orig (0, 0) (3, 3) ∧
    ∃ p, neLoop.unroll 2 = some p ∧ ∀ y, ¬ Exec p (0, 0) y := by
  refine ⟨run_exec 10 _ _ _ (by decide +kernel), ?_⟩
  obtain ⟨b, hb, he⟩ := copies_exec neLoop 1
  have hun : neLoop.unroll 2 = neLoop.unrollUnknown 2 := rfl
  rw [hun, Loop.unrollUnknown, ofInt_factor (by decide) 2 (by decide) (by decide), hb]
  refine ⟨_, rfl, fun y h => ?_⟩
  simp only [val_repr] at h
  rw [exec_seq] at h
  obtain ⟨z, h1, -⟩ := h
  rw [exec_ite, if_pos (by decide +kernel), exec_doWhile (g := neLoop.next^[2]) (fun x y => he x y)] at h1
  obtain ⟨K, hK, hz, hc, -⟩ := h1
  rw [← Function.iterate_mul] at hz
  have hi := next_idv neLoop rfl ((0, 0) : BitVec 8 × Nat) (2 * K)
  rw [← hz] at hi
  simp only [Loop.freshTest, Loop.armOp, hi] at hc
  have : decide (((0 : BitVec 8) + BitVec.ofNat 8 (2 * K) * 1 + 1 * 2#8) ≠ 3) = false := hc
  rw [decide_eq_false_iff_not, not_not] at this
  have := congrArg BitVec.toNat this
  simp at this
  omega

end Jlm.Llvm.Unroll
