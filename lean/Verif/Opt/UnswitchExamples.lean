import Verif.Opt.UnswitchProps
import Verif.Opt.IvrExamples
import Verif.Opt.TreeDec

/-! # C42: examples -/

set_option linter.unusedSimpArgs false

namespace Jlm.Opt.Unswitch

open Jlm.Opt.Pull

def exWhile : Op := ⟨.matchOp [(12, 0)] 1, 9⟩

/-- `for (x = 1; x != 12; x = x + y) {}; return x + (x + y)`: node 22 is needed by both branches, loop variable 12 goes
around the gamma node. -/
def exFor : Graph where
  imports := []
  exports := [60]
  body := nodesOf
    [ .lambda [] [] [1, 2, 3] [51] 60 (nodesOf
        [ .theta [1, 2] [51, 52] [11, 12] 21 [24, 12] (nodesOf
            [ .simple exWhile [11] [21],
              .simple exAdd [11, 12] [22],
              .gamma 21 [11, 22] [24]
                (.cons [30, 31, 32] [33] (nodesOf [.simple exAdd [31, 32] [33]])
                (.cons [40, 41, 42] [42] .nil .nil)) ]) ]) ]

/-- The loop is in the repetition branch of a gamma node, the exit branch comes after it. -/
def exFor' : Graph where
  imports := []
  exports := [60]
  body := nodesOf
    [ .lambda [] [] [1, 2, 3] [96] 60 (nodesOf
        [ .simple exWhile [1] [70],
          .gamma 70 [1, 2, 1, 2] [91, 92, 93, 94]
            (.cons [71, 72, 73, 74, 75] [72, 73, 74, 75] .nil
            (.cons [76, 77, 78, 79, 80] [87, 88, 89, 90] (nodesOf
              [ .theta [77, 78, 79, 80] [87, 88, 89, 90] [81, 82, 83, 84] 86 [85, 82, 85, 82] (nodesOf
                [ .simple exAdd [83, 84] [85],
                  .simple exWhile [85] [86] ]) ]) .nil)),
          .simple exAdd [93, 94] [95],
          .simple exAdd [91, 95] [96] ]) ]

/-- One step for a module with one function that consists of a loop: `UnswitchLoop`, then `prune`. `none`: the loop is
not considered, `some none`: an exception is thrown. -/
def bodyStep (strict : Bool) (g : Graph) : Option (Option Graph) :=
  match g with
  | ⟨imports, .cons (.lambda ins args params rs out (.cons y .nil)) .nil, exports⟩ =>
      (isUnswitchable strict y).map fun L => (unswitchLoop L (freshName g.names)).map fun r =>
        ⟨imports, .cons (.lambda ins args params (rs.map (divertTo y.outs r.2.1)) out
          (Dne.prune (nodesOf r.1) (rs.map (divertTo y.outs r.2.1)))) .nil, exports⟩
  | _ => none

theorem bodyStep_runs {strict : Bool} {g g' : Graph} (h : bodyStep strict g = some (some g')) : Runs strict g g' := by
  obtain ⟨imports, body, exports⟩ := g
  simp only [bodyStep] at h
  split at h
  · rename_i imports' ins args params rs out y exports' hg
    obtain ⟨rfl, rfl, rfl⟩ := Graph.mk.inj hg
    simp only [Option.map_eq_some_iff] at h
    obtain ⟨L, hL, r, hr, rfl⟩ := h
    have h1 : Handle strict (freshName (Graph.names ⟨imports, .cons (.lambda ins args params rs out (.cons y .nil)) .nil, exports⟩))
        [y] rs r.2.2 r.1 (rs.map (divertTo y.outs r.2.1)) := by
      simpa using Handle.unswitch (p := []) (s := []) (R := rs) hL hr
    have h2 := Handle.lambda (p := []) (s := []) (R := exports) (ins := ins) (args := args) (params := params) (out := out)
      (sub := .cons y .nil) (.step h1 (.prune _ _ _))
    rw [Lst.nodesOf_list] at h2
    exact ⟨rfl, r.2.2, h2⟩
  · simp at h

theorem exFor_runs : Runs true exFor exFor' := bodyStep_runs (by decide +kernel)

/-- The theorem applies: the hypotheses of `C42_unswitching` are met. -/
example : exFor.wf = true ∧ Runs true exFor exFor' ∧ exSem.Mono ∧ exSem.Control :=
  ⟨by decide +kernel, exFor_runs, exSem_mono, exSem_control⟩

/-- The gamma node of the loop of `exMatchUser` is not controlled by the predicate of the loop, but `IsUnswitchable`
accepts it. -/
def exBad' : Graph where
  imports := []
  exports := [60]
  body := nodesOf
    [ .lambda [] [] [1, 2, 3] [102] 60 (nodesOf
        [ .simple exM [1] [70],
          .simple (exC 0) [] [71],
          .simple exM [71] [72],
          .gamma 70 [2, 3, 72, 1, 2, 3] [102, 103, 104, 105, 106, 107]
            (.cons [73, 74, 75, 76, 77, 78, 79] [74, 75, 76, 77, 78, 79] .nil
            (.cons [80, 81, 82, 83, 84, 85, 86] [96, 97, 98, 99, 100, 101] (nodesOf
              [ .theta [81, 82, 83, 84, 85, 86] [96, 97, 98, 99, 100, 101] [87, 88, 89, 90, 91, 92] 95
                  [91, 92, 95, 90, 91, 92] (nodesOf
                [ .simple exM [90] [93],
                  .simple (exC 0) [] [94],
                  .simple exM [94] [95] ]) ]) .nil)) ]) ]

theorem exBad_runs : Runs false exMatchUser exBad' := bodyStep_runs (by decide +kernel)

theorem exBad'_result : exResult exBad' = some [some 5] := by
  simp only [exResult, exBad', Graph.meaning, Graph.valueOf, nodesOf, evalNodes, List.map_cons, List.map_nil,
    nodeVals, Node.outs, upd, List.headD, if_true, plain, lift, regionVals]
  simp [loopState, evalNodes, nodeVals, Node.outs, upd, exSem, exM, exC, lift, regionVals, emptyEnv]
  rw [loopVals_at (n := 0) (by
    refine ⟨?_, fun m hm => by omega⟩
    simp [loopPred, loopState, evalNodes, nodeVals, Node.outs, upd, exSem, exM, exC, lift, regionVals, emptyEnv])]
  simp [loopState, evalNodes, nodeVals, Node.outs, upd, exSem, exM, exC, lift, regionVals, emptyEnv]

/-- **C42.** `IsUnswitchable` (LoopUnswitching.cpp:83-127) does not check that the gamma node is controlled by the
match node: a gamma node that has it as entry variable is turned inside out, too, and the function returns something
else. -/
theorem C42_unchecked_unsound : ∃ (sem : Sem Nat) (g g' : Graph), sem.Mono ∧ sem.Control ∧ g.wf = true ∧
    Runs false g g' ∧ ¬ Refines (g.meaning sem) (g'.meaning sem) := by
  refine ⟨exSem, exMatchUser, exBad', exSem_mono, exSem_control, by decide +kernel, exBad_runs, fun h => ?_⟩
  obtain ⟨ys, h1, h2⟩ := refines_result h exMatchUser_result
  rw [exBad'_result] at h1
  cases h1
  exact absurd (h2 0) (by simp [LeO])

/-- A loop with a dead node (25) after the gamma node. -/
def exDead : Graph where
  imports := []
  exports := [60]
  body := nodesOf
    [ .lambda [] [] [1] [51] 60 (nodesOf
        [ .theta [1] [51] [11] 21 [24] (nodesOf
            [ .simple exWhile [11] [21],
              .gamma 21 [11] [24] (.cons [30, 31] [31] .nil (.cons [40, 41] [42] (nodesOf [.simple exAdd [41, 41] [42]]) .nil)),
              .simple exAdd [24, 24] [25] ]) ]) ]

/-- A loop whose repetition branch uses the value of the predicate (40). -/
def exMatchVar : Graph where
  imports := []
  exports := [60]
  body := nodesOf
    [ .lambda [] [] [1] [51] 60 (nodesOf
        [ .theta [1] [51] [11] 21 [24] (nodesOf
            [ .simple exWhile [11] [21],
              .gamma 21 [11] [24] (.cons [30, 31] [31] .nil (.cons [40, 41] [42] (nodesOf [.simple exAdd [40, 41] [42]]) .nil))
              ]) ]) ]

/-- **C42.** A dead node that depends on the gamma node of the loop (LoopUnswitching.cpp:159-168 collects all nodes but
the gamma node), and a branch that uses the value of the predicate, make `SubstitutionMap::lookup` throw. -/
theorem C42_throws : exDead.wf = true ∧ bodyStep true exDead = some none ∧ exMatchVar.wf = true ∧
    bodyStep true exMatchVar = some none := by decide +kernel

end Jlm.Opt.Unswitch
