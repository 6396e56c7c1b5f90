import Verif.Opt.HoistMarks
import Verif.Opt.IvrExamples
import Verif.Opt.TreeDec

/-! # C44: examples -/

set_option linter.unusedSimpArgs false

namespace Jlm.Opt.Hoist

open Jlm.Opt.Pull Jlm.Opt.Unswitch

/-! ## A module in which nodes are hoisted -/

/-- No operation but loads leaves a memory state as it is. -/
def noStates : Op → Nat → Nat → Prop := fun _ _ _ => False

theorem exSem_repeats : Repeats noStates exSem := by
  intro op ws ws' hl h
  have : ws' = ws := by
    refine List.ext_getElem? fun k => ?_
    rcases h k with h | ⟨_, h, _⟩
    · by_cases hk : k < ws.length
      · simpa [List.getD_eq_getElem?_getD, List.getElem?_eq_getElem hk, List.getElem?_eq_getElem (hl ▸ hk : k < ws'.length)] using h
      · rw [List.getElem?_eq_none (by omega), List.getElem?_eq_none (by omega)]
    · exact h.elim
  rw [this]

/-- The gamma node in the loop. -/
def exIf : Node := .gamma 24 [11, 12] [25]
  (.cons [30, 31, 32] [34] (nodesOf [.simple exAdd [31, 31] [33], .simple exAdd [33, 32] [34]])
  (.cons [40, 41, 42] [42] .nil .nil))

/-- `do { x = *p; y = (y == 1 ? y : p + p + y); } while (y == 1)`: loop variables `p` (11, invariant), `y` (12), the
memory state (13), and `x` (14). -/
def exLoop : Graph where
  imports := []
  exports := [60]
  body := nodesOf
    [ .lambda [] [] [1, 2, 3] [54, 53] 60 (nodesOf
        [ .theta [1, 2, 3, 1] [51, 52, 53, 54] [11, 12, 13, 14] 23 [11, 25, 21, 20] (nodesOf
            [ .simple exLoad [11, 13] [20, 21],
              .simple exM [12] [24],
              exIf,
              .simple exM [25] [23] ]) ]) ]

/-- The load and `p + p` are in front of the loop. -/
def exLoop' : Graph where
  imports := []
  exports := [60]
  body := nodesOf
    [ .lambda [] [] [1, 2, 3] [54, 53] 60 (nodesOf
        [ .simple exLoad [1, 3] [64, 65],
          .simple exAdd [1, 1] [70],
          .theta [1, 2, 3, 1, 64, 65, 70] [51, 52, 53, 54, 68, 69, 72] [11, 12, 13, 14, 66, 67, 71] 23
            [11, 25, 67, 66, 66, 67, 71] (nodesOf
            [ .simple exM [12] [24],
              .gamma 24 [11, 12, 71] [25]
                (.cons [30, 31, 32, 62] [34] (nodesOf [.simple exAdd [62, 32] [34]])
                (.cons [40, 41, 42, 63] [42] .nil .nil)),
              .simple exM [25] [23] ]) ]) ]

theorem exLoop_runs : Runs noStates exLoop exLoop' := by
  refine ⟨rfl, 73, ?_⟩
  refine Handle.lambda (states := noStates) (n := 61) (p := []) (s := []) (sub := nodesOf
    [ .theta [1, 2, 3, 1] [51, 52, 53, 54] [11, 12, 13, 14] 23 [11, 25, 21, 20] (nodesOf
            [ .simple exLoad [11, 13] [20, 21], .simple exM [12] [24], exIf, .simple exM [25] [23] ]) ]) (l := _) ?_
  -- the gamma node
  have h1 : Handle noStates 61 [ .simple exLoad [11, 13] [20, 21], .simple exM [12] [24], exIf, .simple exM [25] [23] ]
      [23, 11, 25, 21, 20] (61 + 3) _ _ :=
    Handle.outOfGamma (b := 0) (p := [.simple exLoad [11, 13] [20, 21], .simple exM [12] [24]]) (s := [.simple exM [25] [23]])
      (bp := []) (bs := [.simple exAdd [33, 32] [34]]) (xi := [31, 31]) (xo := [33]) (op := exAdd) (ops := [11, 11])
      rfl rfl rfl
  have h2 := Handle.theta (p := []) (s := []) (R := [54, 53]) (ins := [1, 2, 3, 1]) (outs := [51, 52, 53, 54])
    (args := [11, 12, 13, 14]) (sub := nodesOf
            [ .simple exLoad [11, 13] [20, 21], .simple exM [12] [24], exIf, .simple exM [25] [23] ]) h1
  refine Handle.step h2 ?_
  -- the load
  have h3 : Handle noStates 64 _ [54, 53] 70 _ [54, 53] :=
    Handle.outOfTheta (p := []) (s := []) (ins := [1, 2, 3, 1]) (outs := [51, 52, 53, 54]) (args := [11, 12, 13, 14])
      (pred := 23) (posts := [11, 25, 21, 20]) (sub := nodesOf ([.simple exLoad [11, 13] [20, 21], .simple exM [12] [24]] ++
        outOfGamma 24 [11, 12] [25] (.cons [30, 31, 32] [34] (nodesOf [.simple exAdd [31, 31] [33], .simple exAdd [33, 32] [34]])
          (.cons [40, 41, 42] [42] .nil .nil)) 0 [] [.simple exAdd [33, 32] [34]] exAdd [11, 11] [33] 61 ++
        [.simple exM [25] [23]]))
      (bp := []) (xi := [11, 13]) (xo := [20, 21]) (op := exLoad) (ops := [1, 3]) rfl (by
        intro k a h
        match k, h with
        | 0, h => cases h; exact .inl ⟨0, rfl, rfl⟩
        | 1, h => cases h; exact .inr ⟨2, 1, 21, 21, rfl, rfl, rfl, by simp [stateOf, exLoad], .same _ _⟩
        | k + 2, h => simp at h) rfl
  refine Handle.step h3 ?_
  -- the addition
  exact Handle.outOfTheta (p := [.simple exLoad [1, 3] [64, 65]]) (s := []) (ins := [1, 2, 3, 1, 64, 65])
    (outs := [51, 52, 53, 54, 68, 69]) (args := [11, 12, 13, 14, 66, 67]) (pred := 23) (posts := [11, 25, 67, 66, 66, 67])
    (sub := nodesOf [.simple exM [12] [24], .simple exAdd [11, 11] [61], .gamma 24 [11, 12, 61] [25]
                (.cons [30, 31, 32, 62] [34] (nodesOf [.simple exAdd [62, 32] [34]])
                (.cons [40, 41, 42, 63] [42] .nil .nil)),
              .simple exM [25] [23] ])
    (bp := [.simple exM [12] [24]]) (xi := [11, 11]) (xo := [61]) (op := exAdd) (ops := [1, 1]) rfl (by
        intro k a h
        match k, h with
        | 0, h => cases h; exact .inl ⟨0, rfl, rfl⟩
        | 1, h => cases h; exact .inl ⟨0, rfl, rfl⟩
        | k + 2, h => simp at h) rfl

/-- The theorem applies: the hypotheses of `C44_hoisting_partial` are met. -/
example : exLoop.wf = true ∧ Runs noStates exLoop exLoop' ∧ exSem.Mono ∧ Repeats noStates exSem :=
  ⟨by decide +kernel, exLoop_runs, exSem_mono, exSem_repeats⟩

/-! ## A semantics with stores -/

/-- `store`: address, value, memory. -/
def exStore : Op := ⟨.other, 77⟩

/-- The memory is one cell: `store` replaces its contents. -/
def storeSem : Sem Nat where
  apply op ws :=
    if op = exStore then
      match ws with
      | [some _, some v, some _] => [some v.1]
      | _ => []
    else if op.kind = .load then
      match ws with
      | [some _, some m] => [some m.1]
      | _ => []
    else exSem.apply op ws
  ctl v := v
  content v := v
  sym o := o + 1000
  depth := 3

/-- The memory state of a store. -/
def storeStates : Op → Nat → Nat → Prop := fun op k k' => op = exStore ∧ k = 2 ∧ k' = 0

theorem storeSem_mono : storeSem.Mono := by
  intro op xs ys hlen hle
  simp only [storeSem]
  split
  · match xs, ys, hlen with
    | [], [], _ => exact leL_nil _
    | [a], [a'], _ => rcases a with _ | a <;> exact leL_nil _
    | [a, b], [a', b'], _ => rcases a with _ | a <;> rcases b with _ | b <;> exact leL_nil _
    | [a, b, c], [a', b', c'], _ =>
      obtain ⟨h1, h⟩ := leLW_uncons hle
      obtain ⟨h2, h⟩ := leLW_uncons h
      obtain ⟨h3, _⟩ := leLW_uncons h
      rcases a with _ | a
      · exact leL_nil _
      rcases b with _ | b
      · exact leL_nil _
      rcases c with _ | c
      · exact leL_nil _
      rcases a' with _ | a'
      · exact absurd h1 (by simp [LeW])
      rcases b' with _ | b'
      · exact absurd h2 (by simp [LeW])
      rcases c' with _ | c'
      · exact absurd h3 (by simp [LeW])
      exact leL_single (.inr (by simp [h2.1]))
    | a :: b :: c :: d :: xs, a' :: b' :: c' :: d' :: ys, _ =>
      rcases a with _ | a <;> rcases b with _ | b <;> rcases c with _ | c <;> exact leL_nil _
  · split
    · match xs, ys, hlen with
      | [], [], _ => exact leL_nil _
      | [a], [a'], _ => rcases a with _ | a <;> exact leL_nil _
      | [a, b], [a', b'], _ =>
        obtain ⟨h1, h⟩ := leLW_uncons hle
        obtain ⟨h2, h⟩ := leLW_uncons h
        rcases a with _ | a
        · exact leL_nil _
        rcases b with _ | b
        · exact leL_nil _
        rcases a' with _ | a'
        · exact absurd h1 (by simp [LeW])
        rcases b' with _ | b'
        · exact absurd h2 (by simp [LeW])
        exact leL_single (.inr (by simp [h2.1]))
      | a :: b :: d :: xs, a' :: b' :: d' :: ys, _ =>
        rcases a with _ | a <;> rcases b with _ | b <;> exact leL_nil _
    · exact exSem_mono op xs ys hlen hle

/-- A store of the same value to the same address may be repeated. -/
theorem storeSem_repeats : Repeats storeStates storeSem := by
  intro op ws ws' hl h
  by_cases ho : op = exStore
  · subst ho
    match ws, ws', hl with
    | [], [], _ => rfl
    | [a], [a'], _ => rcases a with _ | a <;> rcases a' with _ | a' <;> rfl
    | [a, b], [a', b'], _ => rcases a with _ | a <;> rcases a' with _ | a' <;> rcases b with _ | b <;> rcases b' with _ | b' <;> rfl
    | [a, b, c], [a', b', c'], _ =>
      have h0 := h 0
      have h1 := h 1
      have h2 := h 2
      simp only [storeStates, List.getD_cons_zero, List.getD_cons_succ] at h0 h1 h2
      have e0 : a' = a := by
        rcases h0 with h0 | ⟨_, h0, _⟩
        · exact h0
        · simp at h0
      have e1 : b' = b := by
        rcases h1 with h1 | ⟨_, h1, _⟩
        · exact h1
        · simp at h1
      subst e0 e1
      rcases h2 with h2 | ⟨k', ⟨_, _, rfl⟩, h2⟩
      · rw [h2]
      · clear h h0 h1
        rcases a' with _ | a <;> rcases b' with _ | b <;> rcases c with _ | c
        iterate 7 (rcases c' with _ | c' <;> first | rfl | simp [storeSem, lift] at h2)
        rcases c' with _ | c'
        · simp [storeSem, lift] at h2
        · rfl
    | a :: b :: c :: d :: xs, a' :: b' :: c' :: d' :: ys, _ =>
      rcases a with _ | a <;> rcases b with _ | b <;> rcases c with _ | c <;>
        rcases a' with _ | a' <;> rcases b' with _ | b' <;> rcases c' with _ | c' <;> rfl
  · have : ws' = ws := by
      refine List.ext_getElem? fun k => ?_
      rcases h k with h | ⟨_, h, _⟩
      · by_cases hk : k < ws.length
        · simpa [List.getD_eq_getElem?_getD, List.getElem?_eq_getElem hk, List.getElem?_eq_getElem (hl ▸ hk : k < ws'.length)] using h
        · rw [List.getElem?_eq_none (by omega), List.getElem?_eq_none (by omega)]
      · exact absurd h.1 ho
    rw [this]

/-- `do { *p = x; i = ... } while (i == 1)`: the store is hoisted out of the loop. -/
def exStoreLoop : Graph where
  imports := []
  exports := [60]
  body := nodesOf
    [ .lambda [] [] [1, 2, 3] [53] 60 (nodesOf
        [ .theta [1, 2, 3] [51, 52, 53] [11, 12, 13] 23 [11, 12, 20] (nodesOf
            [ .simple exStore [11, 12, 13] [20],
              .simple exM [12] [23] ]) ]) ]

def exStoreLoop' : Graph where
  imports := []
  exports := [60]
  body := nodesOf
    [ .lambda [] [] [1, 2, 3] [53] 60 (nodesOf
        [ .simple exStore [1, 2, 3] [61],
          .theta [1, 2, 3, 61] [51, 52, 53, 63] [11, 12, 13, 62] 23 [11, 12, 62, 62] (nodesOf
            [ .simple exM [12] [23] ]) ]) ]

theorem exStoreLoop_runs : Runs storeStates exStoreLoop exStoreLoop' := by
  refine ⟨rfl, 64, ?_⟩
  refine Handle.lambda (states := storeStates) (n := 61) (p := []) (s := []) (sub := nodesOf
    [ .theta [1, 2, 3] [51, 52, 53] [11, 12, 13] 23 [11, 12, 20] (nodesOf
            [ .simple exStore [11, 12, 13] [20], .simple exM [12] [23] ]) ]) (l := _) ?_
  exact Handle.outOfTheta (p := []) (s := []) (bp := []) (bs := [.simple exM [12] [23]]) (xi := [11, 12, 13]) (xo := [20])
    (op := exStore) (ops := [1, 2, 3]) rfl (by
        intro k a h
        match k, h with
        | 0, h => cases h; exact .inl ⟨0, rfl, rfl⟩
        | 1, h => cases h; exact .inl ⟨1, rfl, rfl⟩
        | 2, h => cases h; exact .inr ⟨2, 0, 20, 20, rfl, rfl, rfl, by simp [stateOf, storeStates, exStore], .same _ _⟩
        | k + 3, h => simp at h) rfl

example : exStoreLoop.wf = true ∧ Runs storeStates exStoreLoop exStoreLoop' ∧ storeSem.Mono ∧ Repeats storeStates storeSem :=
  ⟨by decide +kernel, exStoreLoop_runs, storeSem_mono, storeSem_repeats⟩

/-! ## The memory state of a loop that contains other loops -/

/-- The first inner loop reads memory. -/
def exRead : Node := .theta [12, 13, 14] [61, 62, 63] [71, 72, 73] 76 [71, 75, 74] (nodesOf
  [.simple exLoad [71, 72] [74, 75], .simple (exC 0) [] [76]])

/-- The second inner loop changes memory. -/
def exWrite : Node := .theta [12, 62, 11] [64, 65, 66] [81, 82, 83] 85 [81, 84, 83] (nodesOf
  [.simple exAdd [82, 83] [84], .simple (exC 0) [] [85]])

/-- `do { do { x = *p; } while (0); do { *p = ...; } while (0); } while (...); return x`. -/
def exSeqBody : Nodes := nodesOf
  [ .theta [1, 2, 3, 2] [51, 52, 53, 54] [11, 12, 13, 14] 21 [20, 12, 65, 63] (nodesOf
      [ exRead, exWrite, .simple exAdd [11, 11] [20], .simple exM [11] [21] ]) ]

def exSeq : Graph where
  imports := []
  exports := [60]
  body := nodesOf [ .lambda [] [] [1, 2, 3] [54] 60 exSeqBody ]

/-- 3, 13, 53, 62, 65, 72, 75, 82 and 84 are memory states. -/
def exTy (o : Out) : Ty := if o ∈ [3, 13, 53, 62, 65, 72, 75, 82, 84] then .memory else if o ∈ [76, 85, 21] then .control else .value

/-- The first inner loop after the load has been hoisted out of both loops. -/
def exRead' : Node := .theta [12, 13, 14, 94, 95] [61, 62, 63, 90, 91] [71, 72, 73, 88, 89] 76 [71, 89, 88, 88, 89]
  (nodesOf [.simple (exC 0) [] [76]])

/-- The load is in front of the outer loop. -/
def exSeq' : Graph where
  imports := []
  exports := [60]
  body := nodesOf
    [ .lambda [] [] [1, 2, 3] [54] 60 (nodesOf
        [ .simple exLoad [2, 3] [92, 93],
          .theta [1, 2, 3, 2, 92, 93] [51, 52, 53, 54, 96, 97] [11, 12, 13, 14, 94, 95] 21 [20, 12, 65, 63, 94, 95] (nodesOf
            [ exRead', exWrite, .simple exAdd [11, 11] [20], .simple exM [11] [21] ]) ]) ]

/-- `copyNodeToTargetRegion` for the load: out of the inner loop, and out of the outer loop. -/
theorem exSeq'_hoisted :
    outOfTheta [1, 2, 3, 2] [51, 52, 53, 54] [11, 12, 13, 14] [20, 12, 65, 63] 21 []
      ((outOfTheta [12, 13, 14] [61, 62, 63] [71, 72, 73] [71, 75, 74] 76 [] [.simple (exC 0) [] [76]] exLoad [12, 13]
        [74, 75] 86).tail ++ [exWrite, .simple exAdd [11, 11] [20], .simple exM [11] [21]]) exLoad [2, 3] [86, 87] 92 =
      exSeq'.body.list.flatMap (fun n => match n with | .lambda _ _ _ _ _ sub => sub.list | _ => []) ∧
    (outOfTheta [12, 13, 14] [61, 62, 63] [71, 72, 73] [71, 75, 74] 76 [] [.simple (exC 0) [] [76]] exLoad [12, 13]
        [74, 75] 86).head? = some (.simple exLoad [12, 13] [86, 87]) := by decide +kernel

/-- The pass decides to hoist the load out of both loops. -/
theorem exSeq_marked : ([74, 75], 0) ∈ markNodes exTy 0 (fun _ => 0) exSeqBody := by decide +kernel

theorem exRead_vals (e : Env Nat) : nodeVals exSem exRead e =
    [e 12, e 13, (strictSum [e 12, e 13]).map fun v => (v, none)] := by
  simp only [exRead, nodeVals, nodesOf]
  rw [loopVals_at (n := 0) (by
    refine ⟨?_, fun m hm => by omega⟩
    simp [loopPred, loopState, evalNodes, nodeVals, Node.outs, upd, exSem, exM, exC, lift, exLoad])]
  simp [loopState, evalNodes, nodeVals, Node.outs, upd, exSem, exM, exC, lift, emptyEnv, exLoad]

theorem exRead'_vals (e : Env Nat) : nodeVals exSem exRead' e = [e 12, e 95, e 94, e 94, e 95] := by
  simp only [exRead', nodeVals, nodesOf]
  rw [loopVals_at (n := 0) (by
    refine ⟨?_, fun m hm => by omega⟩
    simp [loopPred, loopState, evalNodes, nodeVals, Node.outs, upd, exSem, exM, exC, lift, exLoad])]
  simp [loopState, evalNodes, nodeVals, Node.outs, upd, exSem, exM, exC, lift, emptyEnv, exLoad]

theorem exWrite_vals (e : Env Nat) : nodeVals exSem exWrite e =
    [e 12, (strictSum [e 62, e 11]).map fun v => (v, none), e 11] := by
  simp only [exWrite, nodeVals, nodesOf]
  rw [loopVals_at (n := 0) (by
    refine ⟨?_, fun m hm => by omega⟩
    simp [loopPred, loopState, evalNodes, nodeVals, Node.outs, upd, exSem, exM, exC, lift, exAdd])]
  simp [loopState, evalNodes, nodeVals, Node.outs, upd, exSem, exM, exC, lift, emptyEnv, exAdd]

theorem simple_outs (op : Op) (i o : List Out) : (Node.simple op i o).outs = o := rfl
theorem theta_outs (i o a : List Out) (p : Out) (q : List Out) (s : Nodes) : (Node.theta i o a p q s).outs = o := rfl
theorem lambda_outs (i a p r : List Out) (o : Out) (s : Nodes) : (Node.lambda i a p r o s).outs = [o] := rfl
theorem exRead_outs : exRead.outs = [61, 62, 63] := rfl
theorem exRead'_outs : exRead'.outs = [61, 62, 63, 90, 91] := rfl
theorem exWrite_outs : exWrite.outs = [64, 65, 66] := rfl

theorem exSeq_result : exResult exSeq = some [some 13] := by
  simp only [exResult, exSeq, exSeqBody, Graph.meaning, Graph.valueOf, nodesOf, evalNodes, List.map_cons, List.map_nil,
    nodeVals, simple_outs, theta_outs, lambda_outs, upd, List.headD, if_true, plain, lift]
  rw [loopVals_at (n := 1) (by
    refine ⟨?_, fun m hm => ⟨0, ?_⟩⟩
    · simp only [loopPred, loopState, evalNodes, exRead_vals, exWrite_vals, exRead_outs, exWrite_outs, nodeVals, simple_outs, theta_outs, lambda_outs]
      simp [upd, exSem, exM, lift, emptyEnv, exAdd, strictSum]
    · have : m = 0 := by omega
      subst this
      simp only [loopPred, loopState, evalNodes, exRead_vals, exWrite_vals, exRead_outs, exWrite_outs, nodeVals, simple_outs, theta_outs, lambda_outs]
      simp [upd, exSem, exM, lift, emptyEnv, exAdd, strictSum])]
  simp only [loopState, evalNodes, exRead_vals, exWrite_vals, exRead_outs, exWrite_outs, nodeVals, simple_outs, theta_outs, lambda_outs]
  simp [upd, exSem, exM, lift, emptyEnv, exAdd, strictSum]

theorem exSeq'_result : exResult exSeq' = some [some 12] := by
  simp only [exResult, exSeq', Graph.meaning, Graph.valueOf, nodesOf, evalNodes, List.map_cons, List.map_nil,
    nodeVals, simple_outs, theta_outs, lambda_outs, upd, List.headD, if_true, plain, lift]
  rw [loopVals_at (n := 1) (by
    refine ⟨?_, fun m hm => ⟨0, ?_⟩⟩
    · simp only [loopPred, loopState, evalNodes, exRead'_vals, exWrite_vals, exRead'_outs, exWrite_outs, nodeVals, simple_outs, theta_outs, lambda_outs]
      simp [upd, exSem, exM, lift, emptyEnv, exAdd, strictSum]
    · have : m = 0 := by omega
      subst this
      simp only [loopPred, loopState, evalNodes, exRead'_vals, exWrite_vals, exRead'_outs, exWrite_outs, nodeVals, simple_outs, theta_outs, lambda_outs]
      simp [upd, exSem, exM, lift, emptyEnv, exAdd, strictSum])]
  simp only [loopState, evalNodes, exRead'_vals, exWrite_vals, exRead'_outs, exWrite_outs, nodeVals, simple_outs, theta_outs, lambda_outs]
  simp [upd, exSem, exM, lift, emptyEnv, exAdd, exLoad, strictSum]

/-- **C44.** `isInvariantMemoryStateLoopVar` (push.cpp:93-110) compares two pointers that are both null if the user of the
memory state and the producer of its next value are structural nodes. A load in a loop is then hoisted out of the
surrounding loop although another loop in it writes to memory, and the function returns something else. -/
theorem C44_null_comparison_unsound : ∃ (sem : Sem Nat) (g g' : Graph), sem.Mono ∧ Repeats noStates sem ∧ g.wf = true ∧
    g = exSeq ∧ ([74, 75], 0) ∈ markNodes exTy 0 (fun _ => 0) exSeqBody ∧ g' = exSeq' ∧
    ¬ Refines (g.meaning sem) (g'.meaning sem) := by
  refine ⟨exSem, exSeq, exSeq', exSem_mono, exSem_repeats, by decide +kernel, rfl, exSeq_marked, rfl, fun h => ?_⟩
  obtain ⟨ys, h1, h2⟩ := refines_result h exSeq_result
  rw [exSeq'_result] at h1
  cases h1
  exact absurd (h2 0) (by simp [LeO])

/-! ## The marks -/

/-- 3, 13, 21 and 53 are memory states. -/
def exLoopTy (o : Out) : Ty := if o ∈ [3, 13, 21, 53] then .memory else .value

def exLoopSub : Nodes := nodesOf [ .simple exLoad [11, 13] [20, 21], .simple exM [12] [24], exIf, .simple exM [25] [23] ]

/-- The body of the function of `exLoop`. -/
def exLoopBody : Nodes := nodesOf [ .theta [1, 2, 3, 1] [51, 52, 53, 54] [11, 12, 13, 14] 23 [11, 25, 21, 20] exLoopSub ]

/-- The load (20, 21) and the addition (33) are hoisted out of the loop, the second addition (34) is not. -/
theorem exLoop_marks : markNodes exLoopTy 0 (fun _ => 0) exLoopBody =
    [([20, 21], 0), ([24], 1), ([33], 0), ([34], 1), ([23], 1)] := by decide +kernel

/-- The load: its address belongs to an invariant loop variable, its memory state is used once. -/
example : ∀ a ∈ [11, 13],
    (∃ j : Nat, [11, 12, 13, 14][j]? = some a ∧ [11, 25, 21, 20][j]? = some a) ∨
    (∃ (j : Nat) (p : Out), [11, 12, 13, 14][j]? = some a ∧ [11, 25, 21, 20][j]? = some p ∧ exLoopTy a = .memory ∧
      (exLoopSub.ins ++ 23 :: [11, 25, 21, 20]).count a = 1 ∧ userNode exLoopSub a = originNode exLoopSub p) ∨
    ∃ (op' : Op) (yi yo : List Out) (t' : Nat), .simple op' yi yo ∈ exLoopSub.list ∧ a ∈ yo ∧ t' ≤ 0 ∧
      (yo, t') ∈ markNodes exLoopTy 0 (fun _ => 0) exLoopBody :=
  C44_marked_in_loop (d := 0) (t := 0) (P := [1, 2, 3]) (op := exLoad) (xo := [20, 21]) (by decide +kernel) (by decide +kernel)
    (.here (List.mem_singleton.2 rfl)) (List.mem_cons_self ..) (by simp) (by rw [exLoop_marks]; simp) (Nat.le_refl _)

/-- The first addition in the branch of the gamma node in the loop. -/
example : ∀ a ∈ [31, 31],
    (∃ j : Nat, [30, 31, 32][j + 1]? = some a ∧ j < [11, 12].length ∧ (exLoopTy a).isState = false) ∨
    ∃ (op' : Op) (yi yo : List Out) (t' : Nat),
      .simple op' yi yo ∈ (nodesOf [.simple exAdd [31, 31] [33], .simple exAdd [33, 32] [34]]).list ∧ a ∈ yo ∧ t' ≤ 0 ∧
      (yo, t') ∈ markNodes exLoopTy 0 (fun _ => 0) exLoopBody :=
  C44_marked_in_branch (d := 1) (t := 0) (b := 0) (P := [1, 2, 3]) (op := exAdd) (xo := [33]) (by decide +kernel) (by decide +kernel)
    (.inTheta (List.mem_singleton.2 rfl) (.here (List.mem_cons_of_mem _ (List.mem_cons_of_mem _ (List.mem_cons_self ..))))) rfl
    (List.mem_cons_self ..) (by simp) (by rw [exLoop_marks]; simp) (by omega)

end Jlm.Opt.Hoist
