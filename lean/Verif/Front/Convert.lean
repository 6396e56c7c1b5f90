import Verif.Front.ConvertWf
import Verif.Opt.IvrExamples

/-!
# C33: the conversion of a function into a lambda node preserves what the function computes

`convFn false` is /repo: annotation and conversion of the aggregation tree of a function.
-/

set_option linter.unusedSimpArgs false
set_option linter.unusedVariables false

namespace Jlm.Front

open Jlm.Opt

variable {V : Type}

/-- **C33.** For every well-formed function, every map from the variables of the outer region to its outputs
and every environment `E` of the outer region: when the conversion produces a node, then this node defines a
function, and whenever the function returns `rs` for the arguments `ps`, so does the function of the node. -/
theorem C33_conversion_preserves {sem : Sem V} {truth : V → Bool} (hs : SelectSem sem truth) {f : Fn} (hw : f.wf)
    {outer : VMap} {n : Nat} {node : Node} (h : convFn false f outer n = some node) (E : Env V) :
    ∃ symbol g, nodeVals sem node E = [some (symbol, some (.lam g))] ∧
      ∀ ps rs, Returns sem truth f outer E ps rs → g ps = rs :=
  convFn_correct hs hw h

/-- **C33.** The node is well-formed: every input is connected to an output of its region that is defined
before it, numbers of inputs, arguments, results and outputs match, and all outputs and arguments are new and
different. -/
theorem C33_conversion_wellformed {f : Fn} (hl : loadsOkAll f.body) {outer : VMap} {n : Nat} {node : Node}
    (h : convFn false f outer n = some node) {A : List Out} (ho : ∀ v o, outer v = some o → o ∈ A) :
    wfNode A node = true ∧ (namesNode node).Nodup ∧ ∀ x ∈ namesNode node, n ≤ x :=
  convFn_wf hl h ho

/-- **C33.** If the working set loses the variables that all cases of a branch write (AN:444 repaired), then
every well-formed function can be converted, and the result is right. -/
theorem C33_repaired_total {sem : Sem V} {truth : V → Bool} (hs : SelectSem sem truth) {f : Fn} (hw : f.wf)
    (outer : VMap) (n : Nat) (E : Env V) : ∃ node symbol g, convFn true f outer n = some node ∧
      nodeVals sem node E = [some (symbol, some (.lam g))] ∧
      ∀ ps rs, Returns sem truth f outer E ps rs → g ps = rs := by
  have hb : ∀ r : RW, Ok true (fun _ => True) r := fun r => ⟨fun _ _ => .inl rfl, fun _ _ => .inl trivial⟩
  have all : branchesIn (Ok true fun _ => True) f.body := go hb f.body
  obtain ⟨node, h⟩ := convFn_total hw all outer n
  obtain ⟨a, g, h1, h2⟩ := convFn_correct hs hw h (E := E)
  exact ⟨node, a, g, h, h1, h2⟩
where
  go {P : RW → Prop} (h : ∀ r, P r) : ∀ cs : Aggs, branchesIn P cs := fun cs =>
    Aggs.rec (motive_1 := fun a => branches P a) (motive_2 := fun cs => branchesIn P cs)
      (fun _ => by simp only [branches]) (fun _ h => by simpa only [branches] using h)
      (fun cs ih => by simp only [branches]; exact ⟨h _, ih⟩) (fun _ h => by simpa only [branches] using h)
      (by simp only [branchesIn]) (fun _ _ h h' => by simp only [branchesIn]; exact ⟨h, h'⟩) cs

mutual

theorem branches_imp {P Q : RW → Prop} (h : ∀ r, P r → Q r) : ∀ a : Agg, branches P a → branches Q a
  | .block _, _ => by simp only [branches]
  | .linear cs, x => by simp only [branches] at x ⊢; exact branchesIn_imp h cs x
  | .branch cs, x => by simp only [branches] at x ⊢; exact ⟨h _ x.1, branchesIn_imp h cs x.2⟩
  | .loop b, x => by simp only [branches] at x ⊢; exact branches_imp h b x

theorem branchesIn_imp {P Q : RW → Prop} (h : ∀ r, P r → Q r) : ∀ cs : Aggs, branchesIn P cs → branchesIn Q cs
  | .nil, _ => by simp only [branchesIn]
  | .cons c cs, x => by simp only [branchesIn] at x ⊢; exact ⟨branches_imp h c x.1, branchesIn_imp h cs x.2⟩

end

mutual

theorem branches_all {P : Var → RW → Prop} : ∀ a : Agg, (∀ v, branches (P v) a) → branches (fun r => ∀ v, P v r) a
  | .block _, _ => by simp only [branches]
  | .linear cs, x => by simp only [branches] at x ⊢; exact branchesIn_all cs x
  | .branch cs, x => by
      simp only [branches] at x ⊢; exact ⟨fun v => (x v).1, branchesIn_all cs fun v => (x v).2⟩
  | .loop b, x => by simp only [branches] at x ⊢; exact branches_all b x

theorem branchesIn_all {P : Var → RW → Prop} : ∀ cs : Aggs, (∀ v, branchesIn (P v) cs) →
    branchesIn (fun r => ∀ v, P v r) cs
  | .nil, _ => by simp only [branchesIn]
  | .cons c cs, x => by
      simp only [branchesIn] at x ⊢; exact ⟨branches_all c fun v => (x v).1, branchesIn_all cs fun v => (x v).2⟩

end

/-- **C33.** /repo converts every well-formed function in which each variable is either at every branch
written by all cases or by none, or at no branch written by all cases.
(Without this condition the conversion can fail: `C33_demand_crash`.) -/
theorem C33_total_partial {f : Fn} (hw : f.wf)
    (hv : ∀ v, branchesIn (fun r => v ∈ r.all → v ∈ r.full) f.body ∨ branchesIn (fun r => v ∉ r.full) f.body)
    (outer : VMap) (n : Nat) : ∃ node, convFn false f outer n = some node := by
  refine convFn_total (Q := fun v => branchesIn (fun r => v ∉ r.full) f.body) hw ?_ outer n
  have := branchesIn_all (P := fun v r => (v ∈ r.full → ¬ branchesIn (fun r => v ∉ r.full) f.body) ∧
      (v ∈ r.all → branchesIn (fun r => v ∉ r.full) f.body ∨ v ∈ r.full)) f.body (fun v => by
    by_cases hq : branchesIn (fun r => v ∉ r.full) f.body
    · exact branchesIn_imp (fun r hr => ⟨fun h => absurd h hr, fun _ => .inl hq⟩) _ hq
    · exact branchesIn_imp (fun r hr => ⟨fun _ => hq, fun h => .inr (hr h)⟩) _ ((hv v).resolve_right hq))
  exact branchesIn_imp (fun r hr => ⟨fun v h => .inr ((hr v).1 h), fun v h => (hr v).2 h⟩) _ this

/-! ### Examples -/

theorem exSelect : SelectSem exSem (fun v => v == 1) := by
  intro w
  cases w with
  | none => rfl
  | some x =>
    simp only [exSem, selectMatch, List.headD, Option.map_some]
    by_cases h : x.1 = 1
    · simp [h, List.lookup]
    · have : (x.1 == 1) = false := by simp [h]
      simp [List.lookup, h, this]

def aggs : List Agg → Aggs
  | [] => .nil
  | a :: as => .cons a (aggs as)

def cvConst (c : Nat) : Op := ⟨.const c, 1⟩
def cvMatch (mapping : List (Nat × Nat)) (d : Nat) : Op := ⟨.matchOp mapping d, 1⟩
def cvAdd : Op := ⟨.other, 1⟩

/-- `f(x) { s = 0; do { s = s + x; t = s == 2 } while (s != 2); if (x == 1) v = s; else { v = x; u = x }
r = t ? v : x; return r + global, u }`: variables x = 1, s = 2, t = 3, v = 5, r = 6, u = 8; 20 is a global. -/
def exFn : Fn where
  args := [1]
  body := aggs
    [ .block [.op (cvConst 0) [] [2]],
      .loop (.linear (aggs
        [ .block [.op cvAdd [2, 1] [7], .assign 2 7, .op (cvMatch [(2, 1)] 0) [2] [3]],
          .block [.op (cvMatch [(2, 0)] 1) [2] [4], .branch 4] ])),
      .linear (aggs
        [ .block [.op (cvMatch [(1, 1)] 0) [1] [4], .branch 4],
          .branch (aggs [.block [.assign 5 1, .assign 8 1], .block [.assign 5 2]]),
          .block [.select 3 5 1 6] ]),
      .block [.op cvAdd [6, 20] [6]] ]
  results := [6, 8]

def exOuter : VMap := fun v => if v = 20 then some 3 else none
def exOuterEnv : Env Nat := fun o => if o = 3 then some (7, none) else none

theorem exFn_wf : exFn.wf := by
  simp [Fn.wf, exFn, aggs, wfList, wf, wfCases, endsIn, endsInList, branchVar]

theorem exFn_loads : loadsOkAll exFn.body := by
  simp [exFn, aggs, loadsOkAll, loadsOk, Tac.loadOk, cvConst, cvMatch, cvAdd]

/-- The function returns: two iterations, the second case of the branch, the first value of the select. -/
theorem exFn_returns : Returns exSem (fun v => v == 1) exFn exOuter exOuterEnv [some 1] [some 9, some 0] := by
  refine ⟨_, ⟨_, rfl, _, .again ⟨_, rfl, _, rfl, rfl⟩ rfl (.exit ⟨_, rfl, _, rfl, rfl⟩ rfl), _,
    ⟨_, rfl, _, ⟨1, rfl, rfl⟩, _, rfl, rfl⟩, _, rfl, rfl⟩, rfl⟩

/-- The conversion succeeds, and the function of the lambda node returns the same. -/
theorem exFn_converts : ∃ node symbol g, convFn false exFn exOuter 100 = some node ∧
    nodeVals exSem node exOuterEnv = [some (symbol, some (.lam g))] ∧ g [some 1] = [some 9, some 0] ∧
    wfNode [3] node = true := by
  have h : (convFn false exFn exOuter 100).isSome = true := by decide +kernel
  obtain ⟨node, h⟩ := Option.isSome_iff_exists.1 h
  obtain ⟨a, g, h1, h2⟩ := C33_conversion_preserves exSelect exFn_wf h exOuterEnv
  refine ⟨node, a, g, h, h1, h2 _ _ exFn_returns, ?_⟩
  refine (C33_conversion_wellformed exFn_loads h fun v o e => ?_).1
  by_cases hv : v = 20
  · simp [exOuter, hv] at e; simp [← e]
  · simp [exOuter, hv] at e

/-- The function meets the condition of `C33_total_partial`: variable 5 is written by all cases, 8 by one. -/
theorem exFn_settled (v : Var) : branchesIn (fun r => v ∈ r.all → v ∈ r.full) exFn.body ∨
    branchesIn (fun r => v ∉ r.full) exFn.body := by
  simp only [exFn, aggs, branchesIn, branches, rwBranch, rw, rwBlock, Tac.writes, Tac.reads]
  by_cases h8 : v = 8
  · right; subst h8; decide
  · left; simp [union, inter]; intro h; rcases h with h | h
    · exact absurd h h8
    · exact h

/-- `f(p) { do { if (p) v = 1; if (p) v = 2 else v = 3; r = v } while (r != 2 && r != 3) return r }`:
variables p = 1, v = 2, r = 3. -/
def crashFn : Fn where
  args := [1]
  body := aggs
    [ .loop (.linear (aggs
        [ .block [.op (cvMatch [(1, 1)] 0) [1] [4], .branch 4],
          .branch (aggs [.block [], .block [.op (cvConst 1) [] [2]]]),
          .block [.op (cvMatch [(1, 1)] 0) [1] [5], .branch 5],
          .branch (aggs [.block [.op (cvConst 2) [] [2]], .block [.op (cvConst 3) [] [2]]]),
          .block [.assign 3 2],
          .block [.op (cvMatch [(2, 0), (3, 0)] 1) [3] [6], .branch 6] ])) ]
  results := [3]

/-- **C33, counterexample.** A branch does not remove the variables that all of its cases write from the
working set (AN:444). A branch before it that writes one of them in some cases only then asks for its value
(AN:437), which the map of a loop body or of an enclosing case does not have: the lookup fails, although
the function is well-formed, never reads an undefined variable, and returns. -/
theorem C33_demand_crash : crashFn.wf ∧
    Returns exSem (fun v => v == 1) crashFn VMap.empty emptyEnv [some 1] [some 3] ∧
    Returns exSem (fun v => v == 1) crashFn VMap.empty emptyEnv [some 0] [some 2] ∧
    convFn false crashFn VMap.empty 0 = none ∧ (convFn true crashFn VMap.empty 0).isSome = true := by
  refine ⟨?_, ?_, ?_, ?_, ?_⟩
  · simp [Fn.wf, crashFn, aggs, wfList, wf, wfCases, endsIn, endsInList, branchVar]
  · exact ⟨_, ⟨_, .exit ⟨_, rfl, _, ⟨1, rfl, rfl⟩, _, rfl, _, ⟨1, rfl, rfl⟩, _, rfl, _, rfl, rfl⟩ rfl, rfl⟩, rfl⟩
  · exact ⟨_, ⟨_, .exit ⟨_, rfl, _, ⟨0, rfl, rfl⟩, _, rfl, _, ⟨0, rfl, rfl⟩, _, rfl, _, rfl, rfl⟩ rfl, rfl⟩, rfl⟩
  · have h : (convFn false crashFn VMap.empty 0).isNone = true := by decide +kernel
    simpa using h
  · decide +kernel

end Jlm.Front
