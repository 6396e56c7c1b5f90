import Verif.Opt.PullEnd

/-! # C41: an example -/

namespace Jlm.Opt.Pull

/-- A function with a gamma node: two nodes (11 and 12) are needed by one branch only. -/
def exSink : Graph where
  imports := []
  exports := [1]
  body := nodesOf
    [ .lambda [] [] [10] [15] 1 (nodesOf
      [ .simple exAdd [10, 10] [11],
        .simple exAdd [11, 10] [12],
        .simple exMatch [10] [13],
        .gamma 13 [12, 10] [14] (.cons [20, 21, 22] [23] (nodesOf [.simple exAdd [21, 22] [23]])
          (.cons [24, 25, 26] [26] .nil .nil)),
        .simple exAdd [14, 10] [15] ]) ]

example : exSink.wf = true := by decide +kernel

/-- Node 12 is moved into both branches. Afterwards both branches need node 11, so it stays (pull.cpp:357-360). -/
example : run exSink = some
    { imports := []
      exports := [1]
      body := nodesOf
        [ .lambda [] [] [10] [15] 1 (nodesOf
          [ .simple exAdd [10, 10] [11],
            .simple exMatch [10] [13],
            .gamma 13 [10, 11, 10] [14]
              (.cons [20, 22, 27, 28] [23] (nodesOf [.simple exAdd [27, 28] [29], .simple exAdd [29, 22] [23]])
              (.cons [24, 26, 30, 31] [26] (nodesOf [.simple exAdd [30, 31] [32]]) .nil)),
            .simple exAdd [14, 10] [15] ]) ] } := by rfl

/-- A gamma node (14) that is itself moved into a branch of another gamma node. -/
def exNest : Graph where
  imports := []
  exports := [1]
  body := nodesOf
    [ .lambda [] [] [10] [16] 1 (nodesOf
      [ .simple exMatch [10] [13],
        .gamma 13 [10] [14] (.cons [20, 21] [22] (nodesOf [.simple exAdd [21, 21] [22]]) (.cons [23, 24] [24] .nil .nil)),
        .simple exMatch [10] [15],
        .gamma 15 [10, 14] [16] (.cons [30, 31, 32] [33] (nodesOf [.simple exAdd [31, 32] [33]])
          (.cons [34, 35, 36] [35] .nil .nil)) ]) ]

example : exNest.wf = true ∧ (run exNest).isSome = true := by decide +kernel

end Jlm.Opt.Pull
