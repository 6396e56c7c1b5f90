import Verif.Back.Destruct
import Verif.Opt.DneExamples

/-!
# C39: examples, and a function that the backend cannot convert
-/

namespace Jlm.Back

open Jlm.Opt Jlm.Front

def exMatch (m : List (Nat × Nat)) (d : Nat) : Op := ⟨.matchOp m d, 0⟩
def exAdd : Op := ⟨.other, 7⟩

/-- A loop that exchanges two of its variables, adds up, and contains a gamma node one of whose outputs is the same
in both branches. -/
def exBody : Nodes := nodesOf
  [.simple (exMatch [(0, 0)] 1) [1] [10],
   .theta [1, 2, 3] [21, 22, 23] [31, 32, 33] 40 [32, 31, 51]
     (nodesOf
       [.simple (exMatch [(0, 0)] 1) [31] [41],
        .gamma 41 [32, 33] [51, 52]
          (.cons [60, 61, 62] [61, 62] .nil
            (.cons [70, 71, 72] [73, 72] (nodesOf [.simple exAdd [71, 72] [73]]) .nil)),
        .simple (exMatch [(5, 1)] 0) [52] [40]]),
   .gamma 10 [21, 23] [80]
     (.cons [90, 91, 92] [91] .nil (.cons [93, 94, 95] [95] .nil .nil))]

def exFun : Fn := ⟨[1, 2], [(3, 500)], exBody, [80, 22, 1]⟩

theorem exFun_ok : exFun.wf = true ∧ Nodes.supported exFun.body = true := by decide +kernel

example : ∃ (C : PCfg) (vs : List Var), createCfg exFun = some (C, vs) ∧ C.Valid ∧ C.Straight ∧
      ∀ {V : Type} (sem : Sem V) (truth : V → Bool) (s : St V) (rs : List (W V)),
        (∃ s', C.Exec sem truth C.entry s s' ∧ vs.map s'.env = rs) ↔
          (RunsNodes sem exFun.body (exFun.env s) ∧ rs = exFun.results.map (evalNodes sem exFun.body (exFun.env s))) :=
  C39_run exFun exFun_ok.1 exFun_ok.2

/-- What is generated for the loop: phi operations for the two exchanged variables and the sum; the second output
of the gamma node in the loop needs none. -/
example : ((buildCfg exFun).map fun r => (r.1.nodes.length, r.2,
      (r.1.nodes.map fun b => (r.1.phis b).map fun p => (p.res, p.ins.map Prod.snd)).filter (· ≠ []))) =
    some (25, [80, 31, 1], [[(31, [1, 32]), (32, [2, 31]), (33, [500, 51])], [(51, [32, 73])], [(80, [32, 51])]]) := by
  decide +kernel

example : ((createCfg exFun).map fun r => r.1.nodes.length) = some 11 := by decide +kernel

/-- The loop is left after the first iteration. -/
theorem exFun_runs : RunsNodes exSem exFun.body (exFun.env ⟨fun v => some (v, none), none⟩) := by
  simp only [exFun, exBody, nodesOf, RunsNodes, RunsNode, true_and, and_true]
  refine ⟨⟨0, ?_, fun j hj => absurd hj (Nat.not_lt_zero j), fun j hj => ?_⟩, ?_⟩
  · simp [loopPred, loopState, evalNodes, nodeVals, Node.outs, upd, exSem, exMatch, exAdd, lift, regionVals, emptyEnv,
      Fn.env, strictSum]
  · cases Nat.le_zero.1 hj
    simp [RunsNodes, RunsNode, RunsRegion, loopState, evalNodes, nodeVals, Node.outs, upd, exSem, exMatch, exAdd, lift,
      regionVals, emptyEnv, Fn.env, strictSum]
  · simp [RunsNodes, RunsNode, RunsRegion, nodeVals, Node.outs, upd, exSem, exMatch, exAdd, lift,
      emptyEnv, Fn.env, strictSum]

/-- A gamma node one of whose branches uses its match variable (`GammaNode::GetMatchVar`). -/
def exMatchVar : Fn := ⟨[1], [], nodesOf
  [.simple (exMatch [(0, 0)] 1) [1] [10],
   .gamma 10 [1] [20] (.cons [30, 31] [30] .nil (.cons [32, 33] [33] .nil .nil))], [20]⟩

/-- **C39, false of /repo:** no variable is inserted for the match variable, so that the assertion of `GetVariable`
fails. -/
theorem C39_matchVar_fails : exMatchVar.wf = true ∧ createCfg exMatchVar = none ∧
    RunsNodes exSem exMatchVar.body (exMatchVar.env ⟨fun v => some (v, none), none⟩) := by
  refine ⟨by decide +kernel, by rw [createCfg, Option.map_eq_none_iff]; rfl, ?_⟩
  simp [exMatchVar, nodesOf, RunsNodes, RunsNode, RunsRegion, nodeVals, Node.outs, upd, exSem, exMatch, lift, Fn.env]

end Jlm.Back
