import Verif.Opt.InlineProps
import Verif.Opt.IvrExamples
import Verif.Opt.TreeDec

/-! # Inlining of functions: examples -/

set_option linter.unusedSimpArgs false
set_option linter.unusedVariables false

namespace Jlm.Opt.Inline

open Jlm.Opt.Pull Jlm.Opt.Unswitch

def exBar : Op := ⟨.other, 9⟩

/-- Sums, constants, match operations, calls that run functions, and I/O barriers. -/
def exInlSem : Sem Nat := { exSem with apply := fun op ws => if op = exBar then [(ws.headD none).map (·.1)] else exSem.apply op ws }

theorem exInlSem_mono : exInlSem.Mono := by
  intro op xs ys hlen hle
  by_cases h : op = exBar
  · simp only [exInlSem, if_pos h]
    refine leL_single ?_
    rcases xs with _ | ⟨x, xs⟩ <;> rcases ys with _ | ⟨y, ys⟩
    · exact .inr rfl
    · simp at hlen
    · simp at hlen
    · have := (leLW_uncons hle).1
      rcases x with _ | x <;> rcases y with _ | y
      · exact .inr rfl
      · exact .inl rfl
      · exact this.elim
      · exact .inr (by simp [this.1])
  · simp only [exInlSem, if_neg h]
    exact exSem_mono op xs ys hlen hle

theorem exInlSem_calls : Calls exInlSem := by
  intro op v f ws h
  have : op ≠ exBar := by rintro rfl; simp [exBar] at h
  simp [exInlSem, this, exSem, h]

theorem strictSum_plain : ∀ ws ws' : List (W Nat), plain ws = plain ws' → strictSum ws = strictSum ws'
  | [], [], _ => rfl
  | [], _ :: _, h => by simp [plain] at h
  | _ :: _, [], h => by simp [plain] at h
  | x :: xs, y :: ys, h => by
    simp only [plain, List.map_cons, List.cons.injEq] at h
    have ih := strictSum_plain xs ys h.2
    rcases x with _ | x <;> rcases y with _ | y
    · rfl
    · simp at h
    · simp at h
    · have h1 : x.1 = y.1 := by simpa using h.1
      simp [strictSum, ih, h1]

theorem exInlSem_noPeek : NoPeek exInlSem := by
  intro op ws ws' h hc
  have hl : ws.length = ws'.length := by have := congrArg List.length h; simpa [plain] using this
  by_cases hb : op = exBar
  · simp only [exInlSem, if_pos hb]
    rcases ws with _ | ⟨x, xs⟩ <;> rcases ws' with _ | ⟨y, ys⟩
    · rfl
    · simp at hl
    · simp at hl
    · simp only [plain, List.map_cons, List.cons.injEq] at h
      simp [h.1]
  · simp only [exInlSem, if_neg hb]
    rcases hk : op.kind with _ | _ | c | ⟨m, d⟩ | _
    · simp only [exSem, hk, strictSum_plain ws ws' h]
    · have h1 := hc hk
      rcases ws with _ | ⟨x, xs⟩ <;> rcases ws' with _ | ⟨y, ys⟩
      · rfl
      · simp at hl
      · simp at hl
      · simp only [List.head?_cons, Option.some.injEq] at h1
        subst h1
        simp only [plain, List.map_cons, List.cons.injEq] at h
        have h2 : plain xs = plain ys := h.2
        simp only [exSem, hk]
        rcases x with _ | ⟨v, _ | (f | d)⟩ <;> simp [h2]
    · simp [exSem, hk]
    · simp only [exSem, hk]
      rcases ws with _ | ⟨_ | x, _ | ⟨x', xs⟩⟩ <;> rcases ws' with _ | ⟨_ | y, _ | ⟨y', ys⟩⟩ <;> simp [plain] at h <;> simp [h]
    · simp only [exSem, hk, strictSum_plain ws ws' h]

theorem exInlSem_barrier : Barrier exBar exInlSem := by
  refine ⟨rfl, fun x io => ?_⟩
  simp [exInlSem]

/-- `f(x, io, mem) = x + 50`, where 50 is imported; `main` calls it in a loop. -/
def exCallee : Callee := ⟨[5], [1, 2, 3], [6, 2, 3], nodesOf [.simple exAdd [1, 5] [6]]⟩

def exInl : Graph where
  imports := [50]
  exports := [40]
  body := nodesOf
    [ .lambda [50] [5] [1, 2, 3] [6, 2, 3] 10 (nodesOf [.simple exAdd [1, 5] [6]]),
      .lambda [10] [11] [12, 13, 14] [32, 33, 34] 40 (nodesOf
        [ .theta [11, 12, 13, 14] [31, 32, 33, 34] [21, 22, 23, 24] 28 [21, 25, 26, 27] (nodesOf
            [ .simple exCall [21, 22, 23, 24] [25, 26, 27],
              .simple exM [25] [28] ]) ]) ]

/-- Afterwards: the imported value is routed into the loop, the body of `f` takes the place of the call. -/
def exInl' : Graph where
  imports := [50]
  exports := [40]
  body := nodesOf
    [ .lambda [50] [5] [1, 2, 3] [6, 2, 3] 10 (nodesOf [.simple exAdd [1, 5] [6]]),
      .lambda [10, 50] [11, 51] [12, 13, 14] [32, 33, 34] 40 (nodesOf
        [ .theta [11, 12, 13, 14, 51] [31, 32, 33, 34, 53] [21, 22, 23, 24, 52] 28 [21, 58, 55, 56, 52] (nodesOf
            [ .simple exBar [22, 23] [54], .simple exBar [23, 23] [55], .simple exBar [24, 23] [56], .simple exBar [52, 23] [57],
              .simple exAdd [54, 57] [58],
              .simple exM [58] [28] ]) ]) ]

theorem exInl_into : Into exCallee exBar (fun o => o == 21) 21 [52] 54
    [ .simple exCall [21, 22, 23, 24] [25, 26, 27], .simple exM [25] [28] ] [28, 21, 25, 26, 27] 59
    [ .simple exBar [22, 23] [54], .simple exBar [23, 23] [55], .simple exBar [24, 23] [56], .simple exBar [52, 23] [57],
      .simple exAdd [54, 57] [58], .simple exM [58] [28] ] [28, 21, 58, 55, 56] := by
  have h := Into.call (c := exCallee) (bop := exBar) (fty := fun o => o == 21) (fn := 21) (deps := [52]) (xs := [22, 23, 24])
    (outs := [25, 26, 27]) (rs := [58, 55, 56]) (R := [28, 21, 25, 26, 27]) (n := 54) (n' := 59) (op := exCall) (p := [])
    (s := [.simple exM [25] [28]])
    (mid := [ .simple exBar [22, 23] [54], .simple exBar [23, 23] [55], .simple exBar [24, 23] [56], .simple exBar [52, 23] [57],
      .simple exAdd [54, 57] [58]]) rfl (by decide) rfl rfl (by decide +kernel)
  have e1 : [28, 21, 25, 26, 27].map (divertTo [25, 26, 27] [58, 55, 56]) = [28, 21, 58, 55, 56] := by decide +kernel
  have e2 : [Node.simple exM [25] [28]].map (Node.divert (divertTo [25, 26, 27] [58, 55, 56])) = [.simple exM [58] [28]] := by
    decide +kernel
  rw [e1, e2] at h
  exact h

theorem exInl_runs : Runs exBar exInl exInl' := by
  refine ⟨rfl, 59, ?_⟩
  have hf : freshName exInl.names = 51 := by decide +kernel
  rw [hf]
  have h1 := Into.theta (deps := [51]) (R := [32, 33, 34]) (n := 52) (k := 0) (p := []) (s := []) (ins := [11, 12, 13, 14]) (outs := [31, 32, 33, 34]) (args := [21, 22, 23, 24])
    (pred := 28) (posts := [21, 25, 26, 27])
    (sub := nodesOf [ .simple exCall [21, 22, 23, 24] [25, 26, 27], .simple exM [25] [28] ]) (fn := 11) rfl rfl rfl exInl_into
  have h2 := Into.lambda (deps := [50]) (R := [40]) (n := 51) (k := 0) (p := []) (s := []) (ins := [10]) (args := [11]) (params := [12, 13, 14])
    (out := 40) (fn := 10) (sub := nodesOf
        [ .theta [11, 12, 13, 14] [31, 32, 33, 34] [21, 22, 23, 24] 28 [21, 25, 26, 27] (nodesOf
            [ .simple exCall [21, 22, 23, 24] [25, 26, 27], .simple exM [25] [28] ]) ]) rfl rfl h1
  exact Inlines.inline (p := []) (fun o => o == 21) (by decide +kernel) h2

/-- `C47_inlining_partial` applies to the module. -/
example : Refines (exInl.meaning exInlSem) (exInl'.meaning exInlSem) :=
  (C47_inlining_partial rfl (by decide +kernel) exInl_runs).2.2 exInlSem exInlSem_mono exInlSem_calls exInlSem_noPeek exInlSem_barrier

/-- The argument of the callee is not a function. -/
example : exCallee.Good (fun o => o == 21) := ⟨by decide +kernel, by decide +kernel, by decide +kernel, by decide +kernel⟩

end Jlm.Opt.Inline
