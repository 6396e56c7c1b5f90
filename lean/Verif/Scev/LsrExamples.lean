import Verif.Scev.LsrProps

/-! # C56: examples -/

set_option linter.unusedSimpArgs false
set_option linter.unusedVariables false

namespace Jlm.Scev.Lsr

open Jlm.Scev

/-- `do { store(p + i * 4, j * a); store(q, j * a * b); i = i + 1; j = j + b; } while (other)`: variables `i` (0, starts at 0), `p` (1), `j` (2), `a` (3), `b` (4). -/
def exCtx : Ctx where
  n := 20
  k := 0
  lp := { vars := [0, 1, 2, 3, 4]
          start := fun v => if v = 0 then some 0 else none
          post := fun v => match v with
            | 0 => .add (.var 0) (.const 1)
            | 2 => .add (.var 2) (.var 4)
            | 1 => .var 1
            | 3 => .var 3
            | 4 => .var 4
            | _ => .const 0 }
  args i := match i with
    | 0 => [.add (.var 1) (.mul (.ext (.var 0)) (.const 4)), .mul (.var 2) (.var 3)]
    | 1 => [.other 0, .mul (.var 0) (.mul (.var 3) (.var 4)), .mul (.var 0) (.var 0)]
    | _ => []
  pred := .other 1
  order := [0, 1, 3, 4, 2]
  out := 99
  gep _ := false

/-- The address `p + i * 4` is a candidate, `{p,+,4}`; so is `j * a`, `{j * a,+,b * a}`. The square is none. -/
example : exCtx.candidate (.add (.var 1) (.mul (.ext (.var 0)) (.const 4))) = true ∧ exCtx.candidate (.mul (.var 2) (.var 3)) = true ∧
    exCtx.candidate (.mul (.var 0) (.mul (.var 3) (.var 4))) = true ∧ exCtx.candidate (.mul (.var 0) (.var 0)) = false := by decide +kernel

example : (exCtx.chrec (.mul (.var 2) (.var 3))).length = 2 := by decide +kernel

/-- The steps are a constant and new loop variables. -/
example : (∃ h, planOf (exCtx.chrec (.add (.var 1) (.mul (.ext (.var 0)) (.const 4)))) = some ⟨h, .const 4⟩) ∧
    (∃ h h', planOf (exCtx.chrec (.mul (.var 2) (.var 3))) = some ⟨h, .hoisted h'⟩) := by
  refine ⟨⟨_, rfl⟩, ⟨_, _, rfl⟩⟩

/-- The hypotheses of the theorems hold for the example, for all start values with `i = 0`. -/
theorem exCtx_analysed {R : Type} [CommRing R] (x₀ : Out → R) (h : x₀ 0 = 0) : Analysed exCtx x₀ := by
  refine ⟨?_, ?_, ?_, ?_, ?_⟩
  · intro v c hc
    simp only [exCtx] at hc
    split at hc
    · rename_i hv
      injection hc with hc
      subst hv hc
      simpa using h
    · simp at hc
  · simp [exCtx, Expr.increments, Expr.free]
  · intro o
    simp only [exCtx]
    split <;> simp [Expr.free]
  · intro i e he
    simp only [exCtx] at he
    split at he
    · simp at he
      rcases he with rfl | rfl <;> simp [exCtx, Expr.free]
    · simp at he
      rcases he with rfl | rfl | rfl <;> simp [exCtx, Expr.free]
    · simp at he
  · simp [exCtx, Expr.free]

/-- The theorem for the example: for all programs around it, all start values and any number of iterations, modulo `2^64` for instance. -/
example (ops : Ops Int Nat) (p j a b : Int) (m₀ N : Nat) :
    (exec ops nev exCtx.newBody 2 N (exCtx.newStart (fun v => match v with | 0 => 0 | 1 => p | 2 => j | 3 => a | _ => b), m₀)).map
        (fun s => ((fun o => s.1 (.old o)), s.2)) =
      exec ops ev exCtx.body 2 N ((fun v => match v with | 0 => 0 | 1 => p | 2 => j | 3 => a | _ => b), m₀) :=
  C56_result_partial exCtx _ (exCtx_analysed _ rfl) ops 2 m₀ N

/-- In the new loop the first operand of the first node is a loop variable. -/
example : exCtx.newBody.args 0 = [.var (.iv (.add (.var 1) (.mul (.ext (.var 0)) (.const 4)))), .var (.iv (.mul (.var 2) (.var 3)))] := by
  simp only [Ctx.newBody, exCtx]
  rfl

/-! ## Conversions -/

/-- `do { use(zext16(i) * 4); i = i + 1 } while (...)` with an 8-bit variable `i` that starts at `c`. -/
def extCtx (c : Int) : Ctx where
  n := 20
  k := 0
  lp := { vars := [0]
          start := fun v => if v = 0 then some c else none
          post := fun v => if v = 0 then .add (.var 0) (.const 1) else .const 0 }
  args i := if i = 0 then [.mul (.ext (.var 0)) (.const 4)] else []
  pred := .other 0
  order := [0]
  out := 99
  gep _ := false

/-- Zero extensions are ignored: with `i` starting at 254 (the signed constant -2) the operation `zext16(i) * 4` is replaced by the 16-bit
variable `{-8,+,4}`, which has the value 65528 in the first iteration; the operation has the value 1016. -/
theorem C56_zext : (extCtx (-2)).candidate (.mul (.ext (.var 0)) (.const 4)) = true ∧
    planOf ((extCtx (-2)).chrec (.mul (.ext (.var 0)) (.const 4))) = some ⟨.const (-8), .const 4⟩ ∧
    BitVec.ofInt 8 (-2) = 254#8 ∧ BitVec.ofInt 16 (-8) = 65528#16 ∧ (254#8).setWidth 16 * 4#16 = 1016#16 := by
  refine ⟨by decide +kernel, rfl, by decide +kernel, by decide +kernel, by decide +kernel⟩

/-- Sign extensions are ignored, too: with `i` starting at 127 the replacement `{508,+,4}` is 512 in the second iteration, where
`i` has become -128 and `sext16(i) * 4` is -512. -/
theorem C56_sext_wrap : (extCtx 127).candidate (.mul (.ext (.var 0)) (.const 4)) = true ∧
    planOf ((extCtx 127).chrec (.mul (.ext (.var 0)) (.const 4))) = some ⟨.const 508, .const 4⟩ ∧
    BitVec.ofInt 16 508 + BitVec.ofInt 16 4 = 512#16 ∧ (BitVec.ofInt 8 127 + 1#8).signExtend 16 * 4#16 = BitVec.ofInt 16 (-512) ∧
    (512#16 ≠ BitVec.ofInt 16 (-512)) := by
  refine ⟨by decide +kernel, rfl, by decide +kernel, by decide +kernel, by decide +kernel⟩

/-- `do { use(j * 4); j = 5 } while (...)`: the variable is overwritten, and the transformation takes it for an induction variable. -/
def resetCtx : Ctx where
  n := 20
  k := 0
  lp := { vars := [0]
          start := fun v => if v = 0 then some 0 else none
          post := fun v => if v = 0 then .const 5 else .const 0 }
  args i := if i = 0 then [.mul (.var 0) (.const 4)] else []
  pred := .other 0
  order := [0]
  out := 99
  gep _ := false

/-- The transformation changes what this loop computes: in the third iteration (number 2) the node is used with 40 instead of 20. -/
theorem C56_reset : resetCtx.lp.canCreate 0 = true ∧ ∃ ops : Ops Int Unit,
    operands ops nev resetCtx.newBody 1 () (states ops nev resetCtx.newBody 1 (resetCtx.newStart (fun _ => 0), ()) 2).1 0 = [40] ∧
    operands ops ev resetCtx.body 1 () (states ops ev resetCtx.body 1 ((fun _ => 0), ()) 2).1 0 = [20] := by
  refine ⟨by decide +kernel, ⟨fun _ _ _ => 0, fun _ _ => (), fun _ => true⟩, by decide +kernel, by decide +kernel⟩

end Jlm.Scev.Lsr
