import Verif.Opt.TreeDec
import Verif.Opt.CneEqual
import Verif.Opt.IvrExamples

/-!
# Common node elimination on concrete modules

Two modules with loops on which /repo goes wrong, and modules that the theorems apply to.
-/

set_option linter.unusedSimpArgs false
set_option linter.unusedVariables false

namespace Jlm.Opt


namespace Cne

def opF : Op := ⟨.other, 10⟩
def opG : Op := ⟨.other, 11⟩
def opH : Op := ⟨.other, 12⟩
def cneCfg (strict : Bool) : Cne.Config where
  strict := strict
  ty := fun _ => 0
  order := fun _ _ => [20, 21, 22, 23, 24, 70, 71, 72, 73, 74, 75, 76, 77, 84, 85, 86, 87]
/-- In the body of the loop `11`, `12` and `13` are congruent at first; `12` and `13` leave the set
when the post values have been marked. -/
def exStale : Graph where
  imports := []
  exports := [60]
  body := nodesOf
    [ .lambda [] [] [1] [104, 105] 60 (nodesOf
        [ .theta [1, 1, 1, 1, 1] [101, 102, 103, 104, 105] [11, 12, 13, 14, 15] 24 [11, 21, 23, 74, 76]
            (nodesOf
              [ .simple (exC 1) [] [20],
                .simple exAdd [12, 20] [21],
                .simple exAdd [13, 20] [22],
                .simple exAdd [22, 20] [23],
                .simple exM [12] [24],
                .simple opH [12] [84],
                .gamma 24 [11, 12, 13] [31, 32, 33]
                  (.cons [40, 41, 42, 43] [41, 41, 43] .nil
                    (.cons [50, 51, 52, 53] [56, 52, 56] (nodesOf
                      [ .simple exM [52] [55],
                        .gamma 55 [52] [56] (.cons [61, 62] [62] .nil (.cons [63, 64] [64] .nil .nil)) ]) .nil)),
                .simple opG [11, 20] [70],
                .simple opH [84] [85],
                .simple opF [70] [71],
                .simple opG [31, 20] [72],
                .simple opG [32, 20] [73],
                .simple opH [85] [86],
                .simple opF [73] [74],
                .simple opH [86] [87],
                .simple exM [87] [77],
                .gamma 77 [20] [78] (.cons [80, 81] [81] .nil (.cons [82, 83] [83] .nil .nil)),
                .simple opG [33, 78] [75],
                .simple opF [75] [76] ]) ]) ]

/-- The exit variables 132 and 133 of the gamma node in the inner loop are congruent with the loop variables at first,
and the inner loop is marked again when the outer loop has been. -/
def exThrow : Graph where
  imports := []
  exports := [60]
  body := nodesOf
    [ .lambda [] [] [1] [104, 105] 60 (nodesOf
        [ .theta [1, 1, 1, 1, 1, 1] [101, 102, 103, 104, 105, 106] [11, 12, 13, 14, 15, 16] 24 [11, 21, 23, 124, 125, 126]
            (nodesOf
              [ .simple (exC 1) [] [20],
                .simple exAdd [12, 20] [21],
                .simple exAdd [13, 20] [22],
                .simple exAdd [22, 20] [23],
                .simple exM [12] [24],
                .theta [11, 12, 13, 11, 11, 11] [121, 122, 123, 124, 125, 126] [111, 112, 113, 114, 115, 116]
                  120 [111, 112, 113, 132, 133, 131] (nodesOf
                  [ .simple exM [111] [120],
                    .gamma 120 [111, 112, 113] [131, 132, 133]
                      (.cons [140, 141, 142, 143] [142, 141, 141] .nil
                        (.cons [150, 151, 152, 153] [156, 153, 156] (nodesOf
                          [ .simple exM [153] [155],
                            .gamma 155 [153] [156] (.cons [161, 162] [162] .nil (.cons [163, 164] [164] .nil .nil)) ])
                          .nil)) ]) ]) ]) ]

def divExplicit (ps : List (Out × Out)) (o : Out) : Out := (ps.lookup o).getD o

def exStale' : Graph :=
  Cne.divertGraph (divExplicit [(101,1),(105,104),(32,31),(56,52),(73,72),(74,76),(78,20)]) exStale


/-- Module with a single function, which consists of a loop. -/
def loopGraph (params results : List Out) (out : Out) (ins outs args : List Out) (pred : Out) (posts : List Out)
    (sub : Nodes) : Graph :=
  ⟨[], nodesOf [.lambda [] [] params results out (nodesOf [.theta ins outs args pred posts sub])], [out]⟩

/-- The arguments of the function. -/
def exArgs (params : List Out) : Env Nat := upd emptyEnv params (lift [some 1, some 5, some 7])

theorem loopGraph_result {params results ins outs args posts : List Out} {out pred : Out} {sub : Nodes} (n : Nat)
    (h : loopExits exSem (loopBody exSem args pred posts sub) (ins.map (exArgs params)) n) :
    exResult (loopGraph params results out ins outs args pred posts sub) = some (plain (results.map (upd (exArgs params) outs
      (loopState (loopBody exSem args pred posts sub) (ins.map (exArgs params)) (n + 1))))) := by
  have h' := loopVals_at h
  simp only [exResult, loopGraph, Graph.meaning, Graph.valueOf, nodesOf, evalNodes, List.map_cons, List.map_nil,
    nodeVals, Node.outs, upd, List.headD, if_true]
  simp only [exArgs] at h' ⊢
  rw [← h']
  rfl

theorem exits_one {f : List (W Nat) → List (W Nat)} {init : List (W Nat)} (h0 : loopPred exSem f init 0 = some 1)
    (h1 : loopPred exSem f init 1 = some 0) : loopExits exSem f init 1 := by
  refine ⟨h1, fun m hm => ?_⟩
  have : m = 0 := by omega
  subst this
  exact ⟨0, h0⟩

theorem exStale_result : exResult exStale = some [some 2, some 4] := by
  refine (loopGraph_result 1 (exits_one ?_ ?_)).trans ?_
  · decide +kernel
  · decide +kernel
  · decide +kernel

theorem exStale'_result : exResult exStale' = some [some 4, some 4] := by
  refine (loopGraph_result 1 (exits_one ?_ ?_)).trans ?_
  · decide +kernel
  · decide +kernel
  · decide +kernel
theorem exStale_run : Cne.run (cneCfg false) exStale = some exStale' := by decide +kernel

theorem exStale_wf : exStale.wf = true := by decide +kernel

/-- **C28.** /repo: when the body of a loop is marked again, `markSimpleNode` (cpp:490-532) may find a
leader that comes later in the traversal, whose inputs have not been marked again. Such a node remains
in the set of the leader although their inputs turn out not to be congruent. -/
theorem C28_stale_leader_unsound : ∃ (sem : Sem Nat) (cfg : Config) (g g' : Graph), sem.Mono ∧ cfg.strict = false ∧
    g.wf = true ∧ run cfg g = some g' ∧ ¬ Refines (g.meaning sem) (g'.meaning sem) := by
  refine ⟨exSem, cneCfg false, exStale, exStale', exSem_mono, rfl, exStale_wf, exStale_run, fun h => ?_⟩
  obtain ⟨ys, h1, h2⟩ := refines_result h exStale_result
  rw [exStale'_result] at h1
  cases h1
  exact absurd (h2 0) (by simp [LeO])

/-- What the repaired program makes of it. -/
def exStaleStrict : Graph :=
  divertGraph (divExplicit [(101, 1), (32, 31), (56, 52), (73, 72), (78, 20)]) exStale

theorem exStale_strict : run (cneCfg true) exStale = some exStaleStrict := by decide +kernel

/-- A case of `C28_cne_refines` and `C28_cne_wf`: five outputs are merged. -/
example : Refines (exStale.meaning exSem) (exStaleStrict.meaning exSem) ∧ exStaleStrict.wf = true ∧ exStaleStrict ≠ exStale :=
  ⟨C28_cne_refines exSem_mono rfl exStale_wf exStale_strict, C28_cne_wf rfl exStale_wf exStale_strict, by decide +kernel⟩

/-- **C28.** An exit variable that was congruent with something outside of the gamma node is made a
leader when the gamma node is marked again, and it cannot become a follower any more when it is marked
for the third time. The exception is thrown by the repaired program, too. -/
theorem C28_leader_to_follower_throws : ∃ (cfg : Bool → Config) (g : Graph), (∀ s, (cfg s).strict = s) ∧ g.wf = true ∧
    ∀ s, run (cfg s) g = none := by
  refine ⟨cneCfg, exThrow, fun _ => rfl, by decide +kernel, fun s => ?_⟩
  cases s <;> decide +kernel

/-- The first branch of the gamma node passes its match variable on. -/
def exMatchVar : Graph where
  imports := []
  exports := [60]
  body := nodesOf
    [ .lambda [] [] [1] [31] 60 (nodesOf
        [ .simple exM [1] [20],
          .gamma 20 [1] [31] (.cons [40, 41] [40] .nil (.cons [50, 51] [51] .nil .nil)) ]) ]

/-- **C28.** `tryGetGammaExitVarCongruenceSet` (cpp:693-722) dereferences the input of the match
variable of a gamma node, which has none. -/
theorem C28_match_variable_abort : ∃ (cfg : Bool → Config) (g : Graph), (∀ s, (cfg s).strict = s) ∧ g.wf = true ∧
    g.body.loopFree = true ∧ ∀ s, run (cfg s) g = none := by
  refine ⟨cneCfg, exMatchVar, fun _ => rfl, by decide +kernel, by decide +kernel, fun s => ?_⟩
  cases s <;> decide +kernel

/-- Two additions, and a gamma node whose exit variables are congruent. -/
def exPlain : Graph where
  imports := []
  exports := [60]
  body := nodesOf
    [ .lambda [] [] [1, 2] [33, 34] 60 (nodesOf
        [ .simple (exC 1) [] [20],
          .simple (exC 1) [] [21],
          .simple exAdd [1, 20] [22],
          .simple exAdd [1, 21] [23],
          .simple exM [1] [24],
          .gamma 24 [22, 23, 2] [33, 34]
            (.cons [40, 41, 42, 43] [41, 42] .nil
              (.cons [50, 51, 52, 53] [70, 71] (nodesOf [.simple exAdd [51, 53] [70], .simple exAdd [52, 53] [71]]) .nil)) ]) ]

def exPlain' : Graph :=
  divertGraph (divExplicit [(21, 20), (23, 22), (42, 41), (52, 51), (71, 70), (34, 33)]) exPlain

theorem exPlain_run : run (cneCfg false) exPlain = some exPlain' := by decide +kernel

/-- A case of `C28_cne_refines_loopfree`. -/
example : exPlain'.wf = true ∧ Refines (exPlain.meaning exSem) (exPlain'.meaning exSem) ∧ exPlain' ≠ exPlain :=
  have h := C28_cne_refines_loopfree exSem_mono rfl (cfg := cneCfg false) (by decide +kernel) (by decide +kernel) exPlain_run
  ⟨h.1, h.2, by decide +kernel⟩

/-- A case of `C28_congruent_equal_loopfree`: the additions 22 and 23 in a call. -/
example (ps : List (Option Nat)) : ∃ (ns : Nodes) (e : Env Nat), exPlain.Runs exSem [1, 2] ns e ∧
    Same (evalNodes exSem ns e 22) (evalNodes exSem ns e 23) := by
  obtain ⟨c, hc, hld⟩ : ∃ c, markGraph ((cneCfg false).with false) exPlain = some c ∧ ld c 22 = ld c 23 := by
    have h : (markGraph ((cneCfg false).with false) exPlain).map (fun c => decide (ld c 22 = ld c 23)) = some true := by
      decide +kernel
    obtain ⟨c, h1, h2⟩ := Option.map_eq_some_iff.1 h
    exact ⟨c, h1, of_decide_eq_true h2⟩
  have hr := Graph.Runs.lambda (sem := exSem) ps (Graph.Runs.root (g := exPlain)) (List.mem_singleton.2 rfl)
  exact ⟨_, _, by simpa using hr, C28_congruent_equal_loopfree exSem_mono (cfg := cneCfg false) (by decide +kernel)
    (by decide +kernel) hc hr (by decide +kernel) (by decide +kernel) hld⟩

end Cne

end Jlm.Opt
