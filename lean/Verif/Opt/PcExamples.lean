import Verif.Opt.PcProps
import Verif.Opt.IvrExamples
import Verif.Opt.TreeDec

/-! # C43: examples -/

namespace Jlm.Opt.Pc

/-- A loop whose predicate (24) is a match on the result (23) of a gamma node that gives the constants 0 and 1; the
predicate (22) of this gamma node is the result of another one with control constants, which is controlled by 21. A
second loop has its alternatives swapped. -/
def exChain (a b : Nat) : Graph where
  imports := []
  exports := [60]
  body := nodesOf
    [ .lambda [] [] [1] [51] 60 (nodesOf
        [ .theta [1] [51] [11] 24 [25] (nodesOf
            [ .simple exM [11] [21],
              .gamma 21 [] [22] (.cons [30] [31] (nodesOf [.simple (exC 0) [] [31]])
                (.cons [32] [33] (nodesOf [.simple (exC 1) [] [33]]) .nil)),
              .gamma 22 [] [23] (.cons [34] [35] (nodesOf [.simple (exC a) [] [35]])
                (.cons [36] [37] (nodesOf [.simple (exC b) [] [37]]) .nil)),
              .simple exM [23] [24],
              .simple exAdd [11, 11] [25] ]) ]) ]

example : (exChain 0 1).wf = true ∧ (exChain 1 0).wf = true := by decide +kernel

/-- Two redirections, from 24 to 22 to 21. -/
theorem exChain_run : run (exChain 0 1) = ⟨[], nodesOf
    [ .lambda [] [] [1] [51] 60 (nodesOf
        [ .theta [1] [51] [11] 21 [25] (nodesOf
            [ .simple exM [11] [21],
              .gamma 21 [] [22] (.cons [30] [31] (nodesOf [.simple (exC 0) [] [31]])
                (.cons [32] [33] (nodesOf [.simple (exC 1) [] [33]]) .nil)),
              .gamma 22 [] [23] (.cons [34] [35] (nodesOf [.simple (exC 0) [] [35]])
                (.cons [36] [37] (nodesOf [.simple (exC 1) [] [37]]) .nil)),
              .simple exM [23] [24],
              .simple exAdd [11, 11] [25] ]) ]) ], [60]⟩ := by decide +kernel

/-- Nothing happens if the alternatives are swapped. -/
theorem exChain_swapped : run (exChain 1 0) = exChain 1 0 := by decide +kernel

/-- The hypotheses of `C43_correlation` are met. -/
example : (exChain 0 1).wf = true ∧ exSem.Mono ∧ exSem.Control := ⟨by decide +kernel, exSem_mono, exSem_control⟩

end Jlm.Opt.Pc
