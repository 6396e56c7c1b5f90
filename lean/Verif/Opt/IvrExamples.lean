import Verif.Opt.IvrComplete
import Verif.Opt.DneExamples
import Mathlib.Tactic.Push

/-!
# C29: concrete modules

A semantics that meets the hypotheses of `C29_ivr_refines`, a module on which the pass does
something in every one of its parts, the unsoundness of the theta-gamma correlation of /repo
(`C29_roles_unsound`), and a module on which the enumeration order of nodes matters
(`C29_order_matters`).
-/

set_option linter.unusedSimpArgs false
set_option linter.unusedVariables false

namespace Jlm.Opt

/-- Sum of values, if all of them are produced. -/
def strictSum : List (W Nat) → Option Nat
  | [] => some 0
  | none :: _ => none
  | some v :: ws => (strictSum ws).map (v.1 + ·)

/-- Constants, match operations, calls that run the function they are given, and sums. -/
def exSem : Sem Nat where
  apply op ws :=
    match op.kind with
    | .const c => [some c]
    | .matchOp m d =>
        match ws with
        | [some x] => [some ((m.lookup x.1).getD d)]
        | _ => []
    | .call =>
        match ws with
        | some (_, some (.lam f)) :: rest => f (plain rest)
        | _ => []
    | _ => [strictSum ws]
  ctl v := v
  content v := v
  sym o := o + 1000
  depth := 3

theorem exSem_control : exSem.Control where
  const op c ws u h hu := by simpa [exSem, h] using hu
  matchOp op m d w u h hu := by
    rcases w with _ | x
    · simp [exSem, h] at hu
    · exact ⟨x, rfl, by simpa [exSem, h] using hu⟩

theorem leLW_uncons {x y : W Nat} {xs ys : List (W Nat)} (h : LeLW (x :: xs) (y :: ys)) :
    LeW x y ∧ LeLW xs ys :=
  ⟨by simpa using h 0, fun k => by simpa using h (k + 1)⟩

theorem strictSum_le : ∀ (xs ys : List (W Nat)), xs.length = ys.length → LeLW xs ys →
    LeO (strictSum xs) (strictSum ys)
  | [], [], _, _ => .inr rfl
  | [], _ :: _, h, _ => by simp at h
  | _ :: _, [], h, _ => by simp at h
  | x :: xs, y :: ys, h, hl => by
      obtain ⟨h1, h2⟩ := leLW_uncons hl
      have ih := strictSum_le xs ys (by simpa using h) h2
      rcases x with _ | x
      · exact .inl rfl
      · rcases y with _ | y
        · exact absurd h1 (by simp [LeW])
        · rcases ih with ih | ih
          · exact .inl (by simp [strictSum, ih])
          · exact .inr (by simp [strictSum, ih, h1.1])

theorem leL_single {a b : Option Nat} (h : LeO a b) : LeL [a] [b]
  | 0 => by simpa using h
  | k + 1 => by simp [LeO]

theorem leL_nil (ys : List (Option Nat)) : LeL [] ys := fun k => .inl (by simp)

/-- The semantics meets the hypothesis of `C29_ivr_refines`. -/
theorem exSem_mono : exSem.Mono := by
  intro op xs ys hlen hle
  rcases hk : op.kind with _ | _ | c | ⟨m, d⟩ | _
  · simp only [exSem, hk]
    exact leL_single (strictSum_le xs ys hlen hle)
  · simp only [exSem, hk]
    rcases xs with _ | ⟨x, xs⟩
    · exact leL_nil _
    · rcases ys with _ | ⟨y, ys⟩
      · simp at hlen
      · obtain ⟨h1, h2⟩ := leLW_uncons hle
        rcases x with _ | ⟨v, _ | (f | d)⟩
        · exact leL_nil _
        · exact leL_nil _
        · rcases y with _ | ⟨v', _ | (f' | d')⟩
          · exact absurd h1 (by simp [LeW])
          · exact absurd h1.2 (by simp [LeOF])
          · have hf := h1.2
            simp only [LeOF, LeFun] at hf
            exact (hf.1 _ _ (plain_le h2)).trans (hf.2.2 _)
          · exact absurd h1.2 (by simp [LeOF, LeFun])
        · exact leL_nil _
  · simp only [exSem, hk]
    exact LeL.refl _
  · simp only [exSem, hk]
    rcases xs with _ | ⟨_ | x, _ | ⟨x', xs⟩⟩
    · exact leL_nil _
    · exact leL_nil _
    · exact leL_nil _
    · rcases ys with _ | ⟨y, _ | ⟨y', ys⟩⟩
      · simp at hlen
      · obtain ⟨h1, _⟩ := leLW_uncons hle
        rcases y with _ | y
        · exact absurd h1 (by simp [LeW])
        · have e : x.1 = y.1 := h1.1
          simp only [e]
          exact LeL.refl _
      · simp at hlen
    · exact leL_nil _
  · simp only [exSem, hk]
    exact leL_single (strictSum_le xs ys hlen hle)

/-! ## A module on which the pass does something -/

def exC (c : Nat) : Op := ⟨.const c, c⟩
def exM : Op := ⟨.matchOp [(1, 1)] 0, 2⟩

/-- All options; `strict` selects the repaired program. -/
def exCfg (strict : Bool) : Ivr.Config where
  gamma := true
  theta := true
  thetaGamma := true
  load := true
  strict := strict
  io := fun _ => false
  order := fun ns => List.range ns.length
  users := fun ns _ => List.range ns.length

/-- A function with parameters 1 (value), 2 (address) and 3 (memory state): a gamma node whose exit
variable 12 is invariant, a load whose value is dead, and a loop with an invariant loop variable
(25) and a loop variable (26) whose post value is computed by a gamma node that is correlated with
the loop predicate. -/
def exIvr : Graph where
  imports := []
  exports := [60]
  body := nodesOf
    [ .lambda [] [] [1, 2, 3] [25, 26, 27, 15] 60 (nodesOf
        [ .simple exM [1] [10],
          .gamma 10 [1, 2] [11, 12] (.cons [30, 31, 32] [31, 32] .nil
            (.cons [33, 34, 35] [36, 35] (nodesOf [.simple exAdd [34] [36]]) .nil)),
          .simple exLoad [12, 3] [14, 15],
          .theta [11, 12, 1, 2] [24, 25, 26, 27] [40, 41, 42, 43] 46 [45, 41, 47, 48] (nodesOf
            [ .simple exAdd [40, 41] [45],
              .simple exM [45] [44],
              .gamma 44 [40, 45] [46, 47, 48]
                (.cons [50, 51, 52] [53, 51, 52] (nodesOf [.simple (exC 0) [] [53]])
                  (.cons [54, 55, 56] [57, 56, 55] (nodesOf [.simple (exC 1) [] [57]]) .nil)) ]) ]) ]

example : exIvr.wf = true := by decide +kernel

example : Ivr.run (exCfg true) exIvr =
    { imports := []
      exports := [60]
      body := nodesOf
        [ .lambda [] [] [1, 2, 3] [2, 26, 27, 3] 60 (nodesOf
            [ .simple exM [1] [10],
              .gamma 10 [1, 2] [11, 12] (.cons [30, 31, 32] [31, 32] .nil
                (.cons [33, 34, 35] [36, 35] (nodesOf [.simple exAdd [34] [36]]) .nil)),
              .theta [11, 2, 1, 2] [24, 25, 26, 27] [40, 41, 42, 43] 46 [45, 41, 40, 45] (nodesOf
                [ .simple exAdd [40, 41] [45],
                  .simple exM [45] [44],
                  .gamma 44 [40, 45] [46, 47, 48]
                    (.cons [50, 51, 52] [53, 51, 52] (nodesOf [.simple (exC 0) [] [53]])
                      (.cons [54, 55, 56] [57, 56, 55] (nodesOf [.simple (exC 1) [] [57]]) .nil)) ]) ]) ] } := by
  rfl

/-- The hypotheses of `C29_ivr_refines` are met. -/
example : Refines (exIvr.meaning exSem) ((Ivr.run (exCfg true) exIvr).meaning exSem) :=
  C29_ivr_refines exSem exSem_mono exSem_control (exCfg true) (fun _ => rfl) exIvr (by decide +kernel)

/-- The hypotheses of `C29_ivr_complete` are met. -/
example : NoInvariantsRoot (fun _ => false) (Ivr.run (exCfg true) exIvr).body :=
  C29_ivr_complete (exCfg true) rfl rfl (fun _ => rfl) exIvr (by decide +kernel)

/-! ## The unrepaired theta-gamma correlation -/

/-- A loop that is always left after the first iteration: both branches of the gamma node that
computes the loop predicate (21) give the constant 0. Loop variable 54 gets `a` (parameter 2) or
`b` (parameter 3) from that gamma node. -/
def exRoles : Graph where
  imports := []
  exports := [60]
  body := nodesOf
    [ .lambda [] [] [1, 2, 3] [54] 60 (nodesOf
        [ .theta [1, 2, 3, 2] [51, 52, 53, 54] [11, 12, 13, 14] 21 [11, 12, 13, 22] (nodesOf
            [ .simple exM [11] [20],
              .gamma 20 [12, 13] [21, 22]
                (.cons [30, 31, 32] [33, 31] (nodesOf [.simple (exC 0) [] [33]])
                  (.cons [40, 41, 42] [43, 42] (nodesOf [.simple (exC 0) [] [43]]) .nil)) ]) ]) ]

/-- What the pass of /repo makes of it: `a` on every path. -/
def exRoles' : Graph where
  imports := []
  exports := [60]
  body := nodesOf
    [ .lambda [] [] [1, 2, 3] [54] 60 (nodesOf
        [ .theta [1, 2, 3, 2] [51, 52, 53, 54] [11, 12, 13, 14] 21 [11, 12, 13, 12] (nodesOf
            [ .simple exM [11] [20],
              .gamma 20 [12, 13] [21, 22]
                (.cons [30, 31, 32] [33, 31] (nodesOf [.simple (exC 0) [] [33]])
                  (.cons [40, 41, 42] [43, 42] (nodesOf [.simple (exC 0) [] [43]]) .nil)) ]) ]) ]

theorem exRoles_run : Ivr.run (exCfg false) exRoles = exRoles' := rfl

/-- The repaired program leaves it alone. -/
theorem exRoles_strict : Ivr.run (exCfg true) exRoles = exRoles := rfl

/-- What the function returns for the arguments 1, 5, 7. -/
noncomputable def exResult (g : Graph) : Option (List (Option Nat)) :=
  match g.meaning exSem with
  | [some (_, some (.lam f))] => some (f [some 1, some 5, some 7])
  | _ => none

theorem exRoles_result : exResult exRoles = some [some 7] := by
  simp only [exResult, exRoles, Graph.meaning, Graph.valueOf, nodesOf, evalNodes, List.map_cons, List.map_nil,
    nodeVals, Node.outs, upd, List.headD, if_true, plain, lift]
  rw [loopVals_at (n := 0) (by
    refine ⟨?_, fun m hm => by omega⟩
    simp [loopPred, loopState, evalNodes, nodeVals, Node.outs, upd, exSem, exM, exC, lift, regionVals, emptyEnv])]
  simp [loopState, evalNodes, nodeVals, Node.outs, upd, exSem, exM, exC, lift, regionVals, emptyEnv]

theorem exRoles'_result : exResult exRoles' = some [some 5] := by
  simp only [exResult, exRoles', Graph.meaning, Graph.valueOf, nodesOf, evalNodes, List.map_cons, List.map_nil,
    nodeVals, Node.outs, upd, List.headD, if_true, plain, lift]
  rw [loopVals_at (n := 0) (by
    refine ⟨?_, fun m hm => by omega⟩
    simp [loopPred, loopState, evalNodes, nodeVals, Node.outs, upd, exSem, exM, exC, lift, regionVals, emptyEnv])]
  simp [loopState, evalNodes, nodeVals, Node.outs, upd, exSem, exM, exC, lift, regionVals, emptyEnv]

theorem refines_result {g g' : Graph} {xs : List (Option Nat)}
    (h : Refines (g.meaning exSem) (g'.meaning exSem))
    (hr : exResult g = some xs) : ∃ ys, exResult g' = some ys ∧ LeL xs ys := by
  obtain ⟨h1, h2⟩ := h
  simp only [exResult] at hr ⊢
  generalize g.meaning exSem = ms at *
  generalize g'.meaning exSem = ms' at *
  rcases ms with _ | ⟨_ | ⟨v, _ | (f | d)⟩, _ | ⟨m, ms⟩⟩ <;> simp_all only [reduceCtorEq, Option.some.injEq]
  rcases ms' with _ | ⟨m', _ | ⟨m'', ms'⟩⟩
  · simp at h1
  · have h0 := h2 0
    simp only [List.getD_cons_zero] at h0
    rcases m' with _ | ⟨v', _ | (f' | d')⟩
    · exact absurd h0 (by simp [LeW])
    · exact absurd h0.2 (by simp [LeOF])
    · have hf := h0.2
      simp only [LeOF, LeFun] at hf
      exact ⟨_, rfl, hr ▸ hf.2.2 _⟩
    · exact absurd h0.2 (by simp [LeOF, LeFun])
  · simp at h1

/-- **C29.** The theta-gamma correlation of /repo, which looks at the alternative of the first
branch only (jlm/llvm/opt/PredicateCorrelation.cpp:211-270), changes what a function returns. -/
theorem C29_roles_unsound : ∃ (sem : Sem Nat) (cfg : Ivr.Config) (g : Graph), sem.Mono ∧ sem.Control ∧
    cfg.strict = false ∧ (∀ ns, cfg.order ns = List.range ns.length) ∧ g.wf = true ∧
    ¬ Refines (g.meaning sem) ((Ivr.run cfg g).meaning sem) := by
  refine ⟨exSem, exCfg false, exRoles, exSem_mono, exSem_control, rfl, fun _ => rfl, by decide +kernel, fun h => ?_⟩
  obtain ⟨ys, h1, h2⟩ := refines_result h exRoles_result
  rw [exRoles_run, exRoles'_result] at h1
  cases h1
  exact absurd (h2 0) (by simp [LeO])

/-- A loop that is left after the first iteration; its predicate 23 is the output of a match
operation. The gamma node is controlled by something else (20), and 23 is one of its entry
variables. -/
def exMatchUser : Graph where
  imports := []
  exports := [60]
  body := nodesOf
    [ .lambda [] [] [1, 2, 3] [54] 60 (nodesOf
        [ .theta [1, 2, 3, 2] [51, 52, 53, 54] [11, 12, 13, 14] 23 [11, 12, 13, 22] (nodesOf
            [ .simple exM [11] [20],
              .simple (exC 0) [] [24],
              .simple exM [24] [23],
              .gamma 20 [12, 13, 23] [22]
                (.cons [30, 31, 32, 33] [31] .nil (.cons [40, 41, 42, 43] [42] .nil .nil)) ]) ]) ]

def exMatchUser' : Graph where
  imports := []
  exports := [60]
  body := nodesOf
    [ .lambda [] [] [1, 2, 3] [54] 60 (nodesOf
        [ .theta [1, 2, 3, 2] [51, 52, 53, 54] [11, 12, 13, 14] 23 [11, 12, 13, 12] (nodesOf
            [ .simple exM [11] [20],
              .simple (exC 0) [] [24],
              .simple exM [24] [23],
              .gamma 20 [12, 13, 23] [22]
                (.cons [30, 31, 32, 33] [31] .nil (.cons [40, 41, 42, 43] [42] .nil .nil)) ]) ]) ]

theorem exMatchUser_run : Ivr.run (exCfg false) exMatchUser = exMatchUser' := rfl

theorem exMatchUser_result : exResult exMatchUser = some [some 7] := by
  simp only [exResult, exMatchUser, Graph.meaning, Graph.valueOf, nodesOf, evalNodes, List.map_cons, List.map_nil,
    nodeVals, Node.outs, upd, List.headD, if_true, plain, lift]
  rw [loopVals_at (n := 0) (by
    refine ⟨?_, fun m hm => by omega⟩
    simp [loopPred, loopState, evalNodes, nodeVals, Node.outs, upd, exSem, exM, exC, lift, regionVals, emptyEnv])]
  simp [loopState, evalNodes, nodeVals, Node.outs, upd, exSem, exM, exC, lift, regionVals, emptyEnv]

theorem exMatchUser'_result : exResult exMatchUser' = some [some 5] := by
  simp only [exResult, exMatchUser', Graph.meaning, Graph.valueOf, nodesOf, evalNodes, List.map_cons, List.map_nil,
    nodeVals, Node.outs, upd, List.headD, if_true, plain, lift]
  rw [loopVals_at (n := 0) (by
    refine ⟨?_, fun m hm => by omega⟩
    simp [loopPred, loopState, evalNodes, nodeVals, Node.outs, upd, exSem, exM, exC, lift, regionVals, emptyEnv])]
  simp [loopState, evalNodes, nodeVals, Node.outs, upd, exSem, exM, exC, lift, regionVals, emptyEnv]

/-- **C29.** `computeMatchCorrelation` (jlm/llvm/opt/PredicateCorrelation.cpp:130-152) takes a gamma
node that merely uses the loop predicate for one that is controlled by it. -/
theorem C29_match_user_unsound : ∃ (sem : Sem Nat) (cfg : Ivr.Config) (g : Graph), sem.Mono ∧
    sem.Control ∧ cfg.strict = false ∧ (∀ ns, cfg.order ns = List.range ns.length) ∧ g.wf = true ∧
    ¬ Refines (g.meaning sem) ((Ivr.run cfg g).meaning sem) := by
  refine ⟨exSem, exCfg false, exMatchUser, exSem_mono, exSem_control, rfl, fun _ => rfl, by decide +kernel,
    fun h => ?_⟩
  obtain ⟨ys, h1, h2⟩ := refines_result h exMatchUser_result
  rw [exMatchUser_run, exMatchUser'_result] at h1
  cases h1
  exact absurd (h2 0) (by simp [LeO])

/-! ## The order of nodes -/

/-- Output 13 of the loop is invariant with origin 2; once it is diverted, both branches of the
gamma node pass 2 on. -/
def exOrder : Graph where
  imports := []
  exports := [60]
  body := nodesOf
    [ .lambda [] [] [1, 2] [22] 60 (nodesOf
        [ .theta [1, 2] [12, 13] [30, 31] 33 [32, 31] (nodesOf
            [.simple exAdd [30] [32], .simple exM [32] [33]]),
          .simple exM [12] [20],
          .gamma 20 [2, 13] [22] (.cons [40, 41, 42] [41] .nil (.cons [43, 44, 45] [45] .nil .nil)) ]) ]

/-- **C29.** "It is irrelevant in which order we handle the nodes"
(jlm/llvm/opt/InvariantValueRedirection.cpp:129-130) is not true of what the pass achieves: with
the nodes in reverse order, an invariant output keeps its users. -/
theorem C29_order_matters : exOrder.wf = true ∧
    NoInvariantsRoot (fun _ => false) (Ivr.run (exCfg true) exOrder).body ∧
    ¬ NoInvariantsRoot (fun _ => false)
      (Ivr.run { exCfg true with order := fun ns => (List.range ns.length).reverse } exOrder).body := by
  refine ⟨by decide +kernel,
    C29_ivr_complete (exCfg true) rfl rfl (fun _ => rfl) exOrder (by decide +kernel), fun h => ?_⟩
  have hr : (Ivr.run { exCfg true with order := fun ns => (List.range ns.length).reverse } exOrder).body =
      nodesOf [ .lambda [] [] [1, 2] [22] 60 (nodesOf
        [ .theta [1, 2] [12, 13] [30, 31] 33 [32, 31] (nodesOf
            [.simple exAdd [30] [32], .simple exM [32] [33]]),
          .simple exM [12] [20],
          .gamma 20 [2, 2] [22] (.cons [40, 41, 42] [41] .nil (.cons [43, 44, 45] [45] .nil .nil)) ]) ] := rfl
  rw [hr] at h
  simp only [nodesOf, NoInvariantsRoot, NoInvariantsFun, NoInvariants] at h
  refine h.1.2.2.2.2.1 22 ⟨0, 2, rfl, by decide, ?_⟩ (.inr (by simp))
  intro b args results hb
  rcases b with _ | _ | b
  · cases hb
    exact ⟨0, 41, rfl, rfl, rfl⟩
  · cases hb
    exact ⟨1, 45, rfl, rfl, rfl⟩
  · simp [Regions.branch] at hb

end Jlm.Opt
