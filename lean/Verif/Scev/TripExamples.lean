import Verif.Scev.TripProps

/-!
# Trip counts: examples, and where the prediction is wrong
-/

namespace Jlm.Scev

/-- Exact arithmetic. -/
def Fp.ideal : Fp where
  ceilDiv x y := -Int.fdiv (-x) y
  isqrt d := Nat.sqrt d.toNat

/-- Exact arithmetic satisfies the assumptions. -/
theorem Fp.ideal_exact : Fp.ideal.Exact where
  ceil_pos x y _ _ hy := by
    have h1 := Int.mul_fdiv_add_fmod (-x) y
    have h2 := Int.fmod_nonneg_of_pos (-x) hy
    have h3 := Int.fmod_lt_of_pos (-x) hy
    simp only [Fp.ideal]
    constructor
    · have : (-Int.fdiv (-x) y - 1) * y = -(y * Int.fdiv (-x) y) - y := by ring
      omega
    · have : -Int.fdiv (-x) y * y = -(y * Int.fdiv (-x) y) := by ring
      omega
  ceil_neg x y _ _ hy := by
    have h1 := Int.mul_fdiv_add_fmod (-x) y
    have hf : Int.fdiv (-x) y = Int.fdiv x (-y) := by
      have := Int.fdiv_eq_ediv_of_nonneg x (show 0 ≤ -y by omega)
      rw [← Int.neg_fdiv_neg, Int.neg_neg]
    have h1' := Int.mul_fdiv_add_fmod x (-y)
    have h2 := Int.fmod_nonneg_of_pos x (show 0 < -y by omega)
    have h3 := Int.fmod_lt_of_pos x (show 0 < -y by omega)
    simp only [Fp.ideal, hf]
    constructor
    · have : (-Int.fdiv x (-y) - 1) * y = -y * Int.fdiv x (-y) - y := by ring
      omega
    · have : -Int.fdiv x (-y) * y = -y * Int.fdiv x (-y) := by ring
      omega
  sqrt d h0 _ := by
    have h1 := Nat.sqrt_le d.toNat
    have h2 := Nat.lt_succ_sqrt d.toNat
    simp only [Fp.ideal]
    refine ⟨by omega, ?_, ?_⟩
    · have : ((Nat.sqrt d.toNat * Nat.sqrt d.toNat : Nat) : Int) ≤ d := by omega
      simpa using this
    · have : d < (((Nat.sqrt d.toNat + 1) * (Nat.sqrt d.toNat + 1) : Nat) : Int) := by
        simp only [Nat.succ_eq_add_one] at h2
        omega
      simpa using this

/-! ## Examples -/

/-- `{0,+,3} < 10` on 0, 3, 6, 9, 12: five times; and so on. -/
example : predict Fp.ideal .slt [.const 0, .const 3] [.const 10] = .val 5 ∧
    predict Fp.ideal .sle [.const 0, .const 3] [.const 9] = .val 5 ∧
    predict Fp.ideal .uge [.const 9, .const (-3)] [.const 3] = .val 4 ∧
    predict Fp.ideal .ne [.const 9, .const (-3)] [.const 0] = .val 4 ∧
    predict Fp.ideal .eq [.const 9, .const (-3)] [.const 9] = .val 2 ∧
    predict Fp.ideal .sgt [.const 0, .const 3] [.const (-10)] = .none ∧
    -- {0,+,1,+,1} : 0, 1, 3, 6, 10, 15, ...
    predict Fp.ideal .slt [.const 0, .const 1, .const 1] [.const 10] = .val 5 ∧
    predict Fp.ideal .sle [.const 0, .const 1, .const 1] [.const 10] = .val 6 ∧
    predict Fp.ideal .slt [.const 0, .const 1, .const 1] [.const 11] = .val 6 ∧
    predict Fp.ideal .sgt [.const 0, .const (-1), .const (-2)] [.const (-30)] = .val 7 ∧
    -- {0,+,1,+,3}: 0, 1, 5, ... is not monotone before the start
    predict Fp.ideal .slt [.const 0, .const 1, .const 3] [.const 1] = .val 2 ∧
    predict Fp.ideal .slt [.const 0, .const 1, .const 3] [.const 4] = .none := by
  decide +kernel

/-- The hypotheses of `C52_trip_partial` are met by `{0,+,1,+,1} < 11` on 32 bits. -/
example : TripCount (fun i => Cmp.slt.holds (BitVec.ofInt 32 (cr i [0, 1, 1])) (BitVec.ofInt 32 11)) 6 := by
  refine C52_trip_partial Fp.ideal_exact 32 .slt [0, 1, 1] 11 6 (by decide +kernel) ?_ ?_ ?_ ?_
  · intro i hi
    have := cr3_mono (a := 0) (b := 1) (c := 1) (by omega) (by omega) i 5 (by omega)
    have h5 : cr 5 [(0 : Int), 1, 1] = 15 := by decide
    have h0 := cr3_mono (a := 0) (b := 1) (c := 1) (by omega) (by omega) 0 i (by omega)
    rw [cr3_zero] at h0
    simp only [Cmp.fits]
    omega
  · simp only [Cmp.fits]; omega
  · simp [Small]
  · simp [Regular]

/-- And by `{0,+,1,+,3} < 1`, where only the second alternative of `Regular` holds. -/
example : Regular 1 [0, 1, 3] := by
  refine ⟨fun _ => Or.inr ?_, fun h => absurd h (by omega)⟩
  intro z hz h
  have h1 : (3 * z + 2) * (z - 1) = 0 := by linarith [h, show (3 * z + 2) * (z - 1) = 3 * (z * z) + (2 * 1 - 3) * z + 2 * (0 - 1) by ring]
  rcases mul_eq_zero.mp h1 with h | h <;> omega

/-- `i = 0; s = 0; do { s = s + i + 1; i = i + 1 } while (s < 100)` -/
def exTri : Loop where
  vars := [0, 1]
  start v := if v = 0 then some 0 else if v = 1 then some 0 else none
  post v := match v with
    | 0 => .add (.var 0) (.const 1)
    | 1 => .add (.var 1) (.add (.var 0) (.const 1))
    | v => .var v

/-- The loop compares the sum at the beginning of the iteration: 0, 1, 3, 6, ..., 91, 105: 15 times. The hypotheses of
`C52_loop_partial` are met. -/
example : TripCount (fun i => Cmp.ult.holds (Expr.eval (fun _ _ => 0) (exTri.run (fun _ _ => 0) (fun _ => (0 : BitVec 64)) i) (.var 1))
      (Expr.eval (fun _ _ => 0) (exTri.run (fun _ _ => 0) (fun _ => (0 : BitVec 64)) i) (.const 100))) 15 := by
  refine C52_loop_partial Fp.ideal_exact 64 .ult exTri (fun _ _ => 0) (fun _ => 0) ?_ 20 9 [0, 1] ?_ 77 78 (.var 1) (.const 100)
    (by simp [Expr.free]) (by simp [Expr.free]) [0, 1, 1] 100 (by rfl) (by rfl) 15 (by decide +kernel) ?_ ?_ ?_ ?_
  · intro v c hc
    simp only [exTri] at hc
    split at hc
    · injection hc with hc; subst hc; simp
    · split at hc
      · injection hc with hc; subst hc; simp
      · simp at hc
  · simp [exTri, Expr.increments, Expr.free]
  · intro i hi
    have := cr3_mono (a := 0) (b := 1) (c := 1) (by omega) (by omega) i 14 (by omega)
    have h5 : cr 14 [(0 : Int), 1, 1] = 105 := by decide
    have h0 := cr3_mono (a := 0) (b := 1) (c := 1) (by omega) (by omega) 0 i (by omega)
    rw [cr3_zero] at h0
    simp only [Cmp.fits]
    omega
  · simp only [Cmp.fits]; omega
  · simp [Small]
  · simp [Regular]

/-- The hypotheses of `C52_found` and of `C52_endless_partial` are met. -/
example : (Small 10 [0, 3] ∧ Simple [0, 3] ∧ ∃ i, Cmp.slt.int (cr i [0, 3]) 10 = false) ∧
    (Small 10 [0, -3] ∧ Regular 10 [0, -3] ∧ ∀ i, Cmp.slt.int (cr i [0, -3]) 10 = true) := by
  refine ⟨⟨by simp [Small], trivial, 4, by decide⟩, by simp [Small], trivial, fun i => ?_⟩
  simp only [Cmp.int, cr2, decide_eq_true_eq]
  omega

/-! ## Where the prediction is wrong -/

/-- The bound on the left: `while (10 < i)` with `i = 0, 1, ...` ends at once, but the prediction is 11, as for `i < 10`. -/
theorem C52_constant_left : predict Fp.ideal .slt [.const 10] [.const 0, .const 1] = .val 11 ∧
    TripCount (fun i => Cmp.slt.holds (BitVec.ofInt 32 10) (BitVec.ofInt 32 (cr i [0, 1]))) 1 := by
  refine ⟨by decide +kernel, by omega, fun i hi => absurd hi (by omega), by decide⟩

/-- A recurrence that is not regular: `{0,+,0,+,1}` is 0, 0, 1, ..., and `< 1` holds twice, but the prediction is 1: the solution
`-1` of the equation is taken for 0 (cpp:749-750). -/
theorem C52_irregular : predict Fp.ideal .slt [.const 0, .const 0, .const 1] [.const 1] = .val 1 ∧
    TripCount (fun i => Cmp.slt.holds (BitVec.ofInt 32 (cr i [0, 0, 1])) (BitVec.ofInt 32 1)) 3 := by
  refine ⟨by decide +kernel, by omega, ?_, by decide⟩
  intro i hi
  have : i = 0 ∨ i = 1 := by omega
  rcases this with rfl | rfl <;> decide

/-- `{5,+,0,+,1} == 5` holds twice, but the prediction is 2 (cpp:584: the step is not zero). -/
theorem C52_eq_first_step_zero : predict Fp.ideal .eq [.const 5, .const 0, .const 1] [.const 5] = .val 2 ∧
    TripCount (fun i => Cmp.eq.holds (BitVec.ofInt 32 (cr i [5, 0, 1])) (BitVec.ofInt 32 5)) 3 := by
  refine ⟨by decide +kernel, by omega, ?_, by decide⟩
  intro i hi
  have : i = 0 ∨ i = 1 := by omega
  rcases this with rfl | rfl <;> decide

/-- For all quadratic recurrences with the last operand 0 and a positive step the code divides by zero. -/
theorem C52_division_by_zero (fp : Fp) (a b bound : Int) (hb : 0 < b) (ha : a < bound) :
    predict fp .slt [.const a, .const b, .const 0] [.const bound] = .undef := by
  have h : ¬ (2 * b - 0) * (2 * b - 0) - 4 * 0 * (2 * (a - bound)) < 0 := by nlinarith
  have hp : (Step.quad b 0).positive = true := by
    simp [Step.positive]
    omega
  simp only [predict, predictOps, predictFor, if_neg (show ¬ a ≥ bound by omega), hp, if_true, backedge, solve, lt_irrefl, if_false,
    if_neg h, Res.succ]

/-- For all affine recurrences that move away from the bound by at least one step, `!=` converts a negative `double` to `size_t`. -/
theorem C52_negative_double {fp : Fp} (hfp : fp.Exact) (a b bound : Int) (hb : 0 < b) (ha : b ≤ a - bound) (hs : a - bound < 2 ^ 53) :
    predict fp .ne [.const a, .const b] [.const bound] = .undef := by
  obtain ⟨c1, c2⟩ := hfp.ceil_pos (bound - a) b (by omega) (by omega) hb
  have hq : fp.ceilDiv (bound - a) b < 0 := by
    by_contra hn
    have : -1 * b ≤ (fp.ceilDiv (bound - a) b - 1) * b := mul_le_mul_of_nonneg_right (by omega) (by omega)
    omega
  simp only [predict, predictOps, predictFor, backedge, Res.ofDouble, if_pos hq, if_pos hb]

/-- 200 is stored as -56 for 8 bits: `while (i < 10u)` with `i = 200` ends at once, but the prediction is 67. -/
theorem C52_unsigned : BitVec.ofInt 8 200 = BitVec.ofInt 8 (-56) ∧ predict Fp.ideal .ult [.const (-56), .const 1] [.const 10] = .val 67 ∧
    TripCount (fun i => Cmp.ult.holds (BitVec.ofInt 8 (cr i [-56, 1])) (BitVec.ofInt 8 10)) 1 := by
  refine ⟨by decide, by decide +kernel, by omega, fun i hi => absurd hi (by omega), by decide⟩

/-- Wrap-around: on 8 bits `{0,+,100} < 120` holds in iteration 2 (the value is -56), but the prediction is 3. -/
theorem C52_wrap : predict Fp.ideal .slt [.const 0, .const 100] [.const 120] = .val 3 ∧
    ¬ TripCount (fun i => Cmp.slt.holds (BitVec.ofInt 8 (cr i [0, 100])) (BitVec.ofInt 8 120)) 3 := by
  refine ⟨by decide +kernel, ?_⟩
  rintro ⟨_, _, h⟩
  exact absurd h (by decide)

/-- A mapping of the comparison to the predicate that is not the identity is not looked at (cpp:404-409 uses the operation only to
test its presence): `match(0 ↦ 1, 1 ↦ 0)` of `i < 10`. -/
theorem C52_inverted_match : predict Fp.ideal .slt [.const 0, .const 1] [.const 10] = .val 11 ∧
    TripCount (fun i => !Cmp.slt.holds (BitVec.ofInt 32 (cr i [0, 1])) (BitVec.ofInt 32 10)) 1 := by
  refine ⟨by decide +kernel, by omega, fun i hi => absurd hi (by omega), by decide⟩

end Jlm.Scev
