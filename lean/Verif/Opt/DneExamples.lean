import Verif.Opt.DneProps

/-! # A concrete module on which the theorems of C27 say something -/

namespace Jlm.Opt

/-- Operations of the example. -/
def exConst : Op := ⟨.other, 0⟩
def exAdd : Op := ⟨.other, 1⟩
def exMatch : Op := ⟨.other, 2⟩
def exLoad : Op := ⟨.load, 3⟩
def exCall : Op := ⟨.call, 4⟩

/-- List of nodes. -/
def nodesOf : List Node → Nodes
  | [] => .nil
  | n :: ns => .cons n (nodesOf ns)

/-- A module with two imports, a global variable, two mutually recursive functions and an exported
function that contains a dead load, a gamma node with a dead exit and a dead entry variable, and a
loop with a dead loop variable. -/
def exGraph : Graph where
  imports := [0, 1]
  exports := [50]
  body := nodesOf
    [ .delta [0] [2] 3 4 (nodesOf [.simple exConst [] [3], .simple exAdd [2] [5]]),
      -- fix variables: 10 ↦ 22, 11 ↦ 23, 12 (dead) ↦ 24
      .phi [4, 1] [6, 7] [10, 11, 12] [22, 23, 24] [30, 31, 32] (nodesOf
        [ .lambda [11] [13] [14] [20] 22 (nodesOf [.simple exCall [13, 14] [20]]),
          .lambda [10] [15] [16] [17] 23 (nodesOf [.simple exCall [15, 16] [17]]),
          .lambda [7] [18] [19] [18] 24 .nil ]),
      .lambda [30, 4, 1] [40, 41, 42] [43, 44, 45] [67, 71, 58] 50 (nodesOf
        [ -- dead load: value 51 has no user, memory state 52 has
          .simple exLoad [41, 44] [51, 52],
          .simple exMatch [43] [53],
          .gamma 53 [43, 45] [54, 55] (.cons [80, 81, 82] [81, 82] .nil
            (.cons [83, 84, 85] [86, 85] (nodesOf [.simple exAdd [84, 83] [86]]) .nil)),
          -- loop variables: 43, 52 (dead), 54
          .theta [43, 52, 54] [56, 57, 67] [90, 91, 92] 94 [93, 91, 92] (nodesOf
            [.simple exAdd [90, 92] [93], .simple exMatch [93] [94]]),
          .simple exLoad [41, 52] [70, 71],
          .simple exCall [40, 70] [58],
          .simple exAdd [42, 55] [59] ]) ]

example : exGraph.wf = true := by decide +kernel

/-- What dead node elimination makes of it. -/
example : Dne.run exGraph =
    { imports := []
      exports := [50]
      body := nodesOf
        [ .delta [] [] 3 4 (nodesOf [.simple exConst [] [3]]),
          .phi [] [] [10, 11] [22, 23] [30, 31] (nodesOf
            [ .lambda [11] [13] [14] [20] 22 (nodesOf [.simple exCall [13, 14] [20]]),
              .lambda [10] [15] [16] [17] 23 (nodesOf [.simple exCall [15, 16] [17]]) ]),
          .lambda [30, 4] [40, 41] [43, 44, 45] [67, 71, 58] 50 (nodesOf
            [ .simple exMatch [43] [53],
              .gamma 53 [43] [54] (.cons [80, 81] [81] .nil
                (.cons [83, 84] [86] (nodesOf [.simple exAdd [84, 83] [86]]) .nil)),
              .theta [43, 54] [56, 67] [90, 92] 94 [93, 92] (nodesOf
                [.simple exAdd [90, 92] [93], .simple exMatch [93] [94]]),
              .simple exLoad [41, 44] [70, 71],
              .simple exCall [40, 70] [58] ]) ] } := by
  rfl

end Jlm.Opt
