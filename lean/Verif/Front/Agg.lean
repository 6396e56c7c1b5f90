import Verif.Front.AggProps
import Verif.Front.Convert

/-!
# C34: aggregation of a control flow graph preserves what it computes
-/

set_option linter.unusedSimpArgs false
set_option linter.unusedVariables false

namespace Jlm.Front

open Jlm.Opt

variable {V : Type}

/-- **C34.** For every well-formed control flow graph that aggregation turns into a tree: the graph, started in
`s`, reaches the end of its exit block in `s'` if and only if the tree does. -/
theorem C34_aggregation_exact (sem : Sem V) (truth : V → Bool) {C : Cfg} (hw : C.Wf)
    {sccs : Flow → Nat → Nat → List (List Nat)} {fuel : Nat} {tree : Agg} (h : C.aggregate sccs fuel = some tree)
    (s s' : St V) : C.Exec sem truth C.entry s s' ↔ Run sem truth tree s s' :=
  (aggregate_correct hw h).2 s s'

/-- **C34.** In the tree, every branch node comes directly after a node that ends in a branch operation, and every
loop body ends in one: what the conversion to RVSDG asserts. -/
theorem C34_aggregation_wellformed {C : Cfg} (hw : C.Wf) {sccs : Flow → Nat → Nat → List (List Nat)} {fuel : Nat}
    {tree : Agg} (h : C.aggregate sccs fuel = some tree) : wf tree none :=
  (aggregate_correct (sem := exSem) (truth := fun _ => true) hw h).1

/-! ### Normalization -/

theorem runAll_append {sem : Sem V} {truth : V → Bool} : ∀ {xs ys : Aggs} {s s' : St V},
    RunAll sem truth (xs.append ys) s s' ↔ ∃ t, RunAll sem truth xs s t ∧ RunAll sem truth ys t s'
  | .nil, ys, s, s' => by simp [Aggs.append, RunAll]
  | .cons c cs, ys, s, s' => by
      simp only [Aggs.append, RunAll, runAll_append (xs := cs)]
      constructor
      · rintro ⟨t, h1, u, h2, h3⟩; exact ⟨u, ⟨t, h1, h2⟩, h3⟩
      · rintro ⟨u, ⟨t, h1, h2⟩, h3⟩; exact ⟨t, h1, u, h2, h3⟩

theorem iter_congr {R R' : St V → St V → Prop} (h : ∀ s s', R s s' ↔ R' s s') {s s' : St V} :
    Iter R s s' ↔ Iter R' s s' := by
  have : R = R' := by funext a b; exact propext (h a b)
  rw [this]

mutual

theorem run_normalize (sem : Sem V) (truth : V → Bool) : ∀ (a : Agg) (s s' : St V),
    Run sem truth (normalize a) s s' ↔ Run sem truth a s s'
  | .block ts, s, s' => by rw [normalize]
  | .linear cs, s, s' => by rw [normalize]; simp only [Run]; exact run_flatten sem truth cs s s'
  | .branch cs, s, s' => by
      rw [normalize]; simp only [Run]; exact exists_congr fun k => and_congr_right fun _ => run_all sem truth cs k s s'
  | .loop b, s, s' => by rw [normalize]; simp only [Run]; exact iter_congr (run_normalize sem truth b)

theorem run_flatten (sem : Sem V) (truth : V → Bool) : ∀ (cs : Aggs) (s s' : St V),
    RunAll sem truth (flatten cs) s s' ↔ RunAll sem truth cs s s'
  | .nil, s, s' => by rw [flatten]
  | .cons (.linear ds) cs, s, s' => by
      rw [flatten, runAll_append]
      simp only [RunAll, Run]
      exact exists_congr fun t => and_congr (run_flatten sem truth ds s t) (run_flatten sem truth cs t s')
  | .cons (.block ts) cs, s, s' => by
      rw [flatten]; simp only [RunAll]
      exact exists_congr fun t => and_congr Iff.rfl (run_flatten sem truth cs t s')
  | .cons (.branch ds) cs, s, s' => by
      rw [flatten]; simp only [RunAll, Run]
      exact exists_congr fun t => and_congr (exists_congr fun k => and_congr_right fun _ => run_all sem truth ds k s t)
        (run_flatten sem truth cs t s')
  | .cons (.loop b) cs, s, s' => by
      rw [flatten]; simp only [RunAll, Run]
      exact exists_congr fun t => and_congr (iter_congr (run_normalize sem truth b)) (run_flatten sem truth cs t s')

theorem run_all (sem : Sem V) (truth : V → Bool) : ∀ (cs : Aggs) (k : Nat) (s s' : St V),
    RunCase sem truth (normalizeAll cs) k s s' ↔ RunCase sem truth cs k s s'
  | .nil, k, s, s' => by rw [normalizeAll]
  | .cons c cs, 0, s, s' => by rw [normalizeAll]; simp only [RunCase]; exact run_normalize sem truth c s s'
  | .cons c cs, k + 1, s, s' => by rw [normalizeAll]; simp only [RunCase]; exact run_all sem truth cs k s s'

end

theorem wfList_none : ∀ {cs : Aggs} (p : Option Var), wfList cs none → wfList cs p
  | .nil, _, _ => trivial
  | .cons _ _, p, h => ⟨wf_none p h.1, h.2⟩

theorem wfList_append : ∀ {xs ys : Aggs} {p q : Option Var}, wfList xs p → wfList ys q →
    (xs = .nil → q = none ∨ q = p) → (∀ v, q = some v → xs ≠ .nil → endsInList xs = some v) → wfList (xs.append ys) p
  | .nil, ys, p, q, h, h', hn, he => by
      rcases hn rfl with rfl | rfl
      · exact wfList_none p h'
      · exact h'
  | .cons c .nil, ys, p, q, h, h', hn, he => by
      refine ⟨h.1, ?_⟩
      show wfList ys (endsIn c)
      cases q with
      | none => exact wfList_none _ h'
      | some v => have := he v rfl (by simp); simp only [endsInList] at this; rw [this]; exact h'
  | .cons c (.cons c' cs), ys, p, q, h, h', hn, he => by
      refine ⟨h.1, ?_⟩
      exact wfList_append (xs := .cons c' cs) h.2 h' (fun e => by cases e) (fun v hv _ => by
        have := he v hv (by simp); simpa only [endsInList] using this)

theorem endsIn_append : ∀ {xs ys : Aggs} {v : Var}, endsInList ys = some v → endsInList (xs.append ys) = some v
  | .nil, ys, v, h => h
  | .cons c .nil, .cons d ds, v, h => by simpa only [Aggs.append, endsInList] using h
  | .cons c .nil, .nil, v, h => by simp [endsInList] at h
  | .cons c (.cons c' cs), ys, v, h => by
      have := endsIn_append (xs := .cons c' cs) h
      simpa only [Aggs.append, endsInList] using this

theorem append_nil : ∀ xs : Aggs, xs.append .nil = xs
  | .nil => rfl
  | .cons c cs => by rw [Aggs.append, append_nil cs]

theorem endsIn_cons {c : Agg} : ∀ {cs : Aggs} {v : Var}, endsInList cs = some v → endsInList (.cons c cs) = some v
  | .nil, v, h => by simp [endsInList] at h
  | .cons _ _, v, h => by simpa only [endsInList] using h

mutual

theorem ends_normalize : ∀ (a : Agg) (v : Var), endsIn a = some v → endsIn (normalize a) = some v
  | .block ts, v, h => by rw [normalize]; exact h
  | .linear cs, v, h => by rw [normalize]; simp only [endsIn] at h ⊢; exact ends_flatten cs v h
  | .branch cs, v, h => by simp [endsIn] at h
  | .loop b, v, h => by simp [endsIn] at h

theorem ends_flatten : ∀ (cs : Aggs) (v : Var), endsInList cs = some v → endsInList (flatten cs) = some v
  | .nil, v, h => by simp [endsInList] at h
  | .cons (.linear ds) .nil, v, h => by
      simp only [endsInList, endsIn] at h
      rw [flatten, flatten, append_nil]; exact ends_flatten ds v h
  | .cons (.block ts) .nil, v, h => by rw [flatten, flatten]; exact h
  | .cons (.branch ds) .nil, v, h => by simp [endsInList, endsIn] at h
  | .cons (.loop b) .nil, v, h => by simp [endsInList, endsIn] at h
  | .cons (.linear ds) (.cons c' cs), v, h => by
      rw [flatten]; exact endsIn_append (ends_flatten (.cons c' cs) v (by simpa only [endsInList] using h))
  | .cons (.block ts) (.cons c' cs), v, h => by
      rw [flatten]; exact endsIn_cons (ends_flatten (.cons c' cs) v (by simpa only [endsInList] using h))
  | .cons (.branch ds) (.cons c' cs), v, h => by
      rw [flatten]; exact endsIn_cons (ends_flatten (.cons c' cs) v (by simpa only [endsInList] using h))
  | .cons (.loop b) (.cons c' cs), v, h => by
      rw [flatten]; exact endsIn_cons (ends_flatten (.cons c' cs) v (by simpa only [endsInList] using h))

end

mutual

theorem wf_normalize : ∀ (a : Agg) (p : Option Var), wf a p → wf (normalize a) p
  | .block ts, p, h => by rw [normalize]; exact h
  | .linear cs, p, h => by rw [normalize]; exact wf_flatten cs none h
  | .branch cs, p, h => by rw [normalize]; exact ⟨h.1, wf_all cs h.2⟩
  | .loop b, p, h => by
      rw [normalize]
      obtain ⟨v, hv⟩ := Option.isSome_iff_exists.1 h.2
      exact ⟨wf_normalize b none h.1, by rw [ends_normalize b v hv]; rfl⟩

theorem wf_flatten : ∀ (cs : Aggs) (p : Option Var), wfList cs p → wfList (flatten cs) p
  | .nil, p, h => by rw [flatten]; exact h
  | .cons (.linear ds) cs, p, h => by
      rw [flatten]
      refine wfList_append (q := endsInList ds) (wfList_none p (wf_flatten ds none h.1)) (wf_flatten cs _ h.2) ?_ ?_
      · intro e
        left
        cases hd : endsInList ds with
        | none => rfl
        | some v => have := ends_flatten ds v hd; rw [e] at this; simp [endsInList] at this
      · intro v hv _; exact ends_flatten ds v hv
  | .cons (.block ts) cs, p, h => by rw [flatten]; exact ⟨h.1, wf_flatten cs _ h.2⟩
  | .cons (.branch ds) cs, p, h => by rw [flatten]; exact ⟨⟨h.1.1, wf_all ds h.1.2⟩, wf_flatten cs _ h.2⟩
  | .cons (.loop b) cs, p, h => by
      rw [flatten]
      obtain ⟨v, hv⟩ := Option.isSome_iff_exists.1 h.1.2
      exact ⟨⟨wf_normalize b none h.1.1, by rw [ends_normalize b v hv]; rfl⟩, wf_flatten cs _ h.2⟩

theorem wf_all : ∀ (cs : Aggs), wfCases cs → wfCases (normalizeAll cs)
  | .nil, h => by rw [normalizeAll]; exact h
  | .cons c cs, h => by rw [normalizeAll]; exact ⟨wf_normalize c none h.1, wf_all cs h.2⟩

end

mutual

/-- No child of a linear node is a linear node. -/
def Agg.flat : Agg → Prop
  | .block _ => True
  | .linear cs => cs.flat ∧ cs.noLinear
  | .branch cs => cs.flat
  | .loop b => b.flat

def Aggs.flat : Aggs → Prop
  | .nil => True
  | .cons c cs => c.flat ∧ cs.flat

def Aggs.noLinear : Aggs → Prop
  | .nil => True
  | .cons (.linear _) _ => False
  | .cons _ cs => cs.noLinear

end

theorem flat_append : ∀ {xs ys : Aggs}, xs.flat → ys.flat → (xs.append ys).flat
  | .nil, _, _, h => h
  | .cons _ _, _, h, h' => ⟨h.1, flat_append h.2 h'⟩

theorem noLinear_append : ∀ {xs ys : Aggs}, xs.noLinear → ys.noLinear → (xs.append ys).noLinear
  | .nil, _, _, h => h
  | .cons (.linear _) _, _, h, _ => h.elim
  | .cons (.block _) cs, _, h, h' => noLinear_append (xs := cs) h h'
  | .cons (.branch _) cs, _, h, h' => noLinear_append (xs := cs) h h'
  | .cons (.loop _) cs, _, h, h' => noLinear_append (xs := cs) h h'

mutual

theorem flat_normalize : ∀ a : Agg, (normalize a).flat
  | .block _ => trivial
  | .linear cs => by rw [normalize]; exact flat_flatten cs
  | .branch cs => by rw [normalize]; exact flat_all cs
  | .loop b => by rw [normalize]; exact flat_normalize b

theorem flat_flatten : ∀ cs : Aggs, (flatten cs).flat ∧ (flatten cs).noLinear
  | .nil => ⟨trivial, trivial⟩
  | .cons (.linear ds) cs => by
      rw [flatten]
      exact ⟨flat_append (flat_flatten ds).1 (flat_flatten cs).1, noLinear_append (flat_flatten ds).2 (flat_flatten cs).2⟩
  | .cons (.block ts) cs => by rw [flatten]; exact ⟨⟨trivial, (flat_flatten cs).1⟩, (flat_flatten cs).2⟩
  | .cons (.branch ds) cs => by rw [flatten]; exact ⟨⟨flat_all ds, (flat_flatten cs).1⟩, (flat_flatten cs).2⟩
  | .cons (.loop b) cs => by rw [flatten]; exact ⟨⟨flat_normalize b, (flat_flatten cs).1⟩, (flat_flatten cs).2⟩

theorem flat_all : ∀ cs : Aggs, (normalizeAll cs).flat
  | .nil => trivial
  | .cons c cs => by rw [normalizeAll]; exact ⟨flat_normalize c, flat_all cs⟩

end

/-- **C34.** Normalization does not change what a tree does, keeps it well-formed, and afterwards no child of a
linear node is a linear node. -/
theorem C34_normalize (sem : Sem V) (truth : V → Bool) (tree : Agg) :
    (∀ s s', Run sem truth (normalize tree) s s' ↔ Run sem truth tree s s') ∧
    (∀ p, wf tree p → wf (normalize tree) p) ∧ (normalize tree).flat :=
  ⟨run_normalize sem truth tree, wf_normalize tree, flat_normalize tree⟩

/-! ### From the graph to the lambda node -/

/-- The function with body `C`, called with `ps`, returns `rs`. -/
def Cfg.Returns (sem : Sem V) (truth : V → Bool) (C : Cfg) (args results : List Var) (outer : VMap) (E : Env V)
    (ps rs : List (Option V)) : Prop :=
  ∃ s, C.Exec sem truth C.entry (initial sem ⟨args, .nil, results⟩ outer E ps) s ∧ rs = plain (results.map s.env)

theorem runAll_fnOf (sem : Sem V) (truth : V → Bool) (args results : List Var) (a : Agg) (s s' : St V) :
    RunAll sem truth (fnOf args results a).body s s' ↔ Run sem truth a s s' := by
  cases a <;> simp [fnOf, RunAll, Run]

/-- **C34.** From the control flow graph to the lambda node: whatever aggregation, normalization, annotation and
conversion produce, the function of the node returns what the function with that control flow graph returns. -/
theorem C34_graph_to_lambda {sem : Sem V} {truth : V → Bool} (hs : SelectSem sem truth) {C : Cfg} (hw : C.Wf)
    {sccs : Flow → Nat → Nat → List (List Nat)} {fuel : Nat} {tree : Agg} (h : C.aggregate sccs fuel = some tree)
    {args results : List Var} {outer : VMap} {n : Nat} {node : Node}
    (h' : convFn false (fnOf args results (normalize tree)) outer n = some node) (E : Env V) :
    ∃ symbol g, nodeVals sem node E = [some (symbol, some (.lam g))] ∧
      ∀ ps rs, C.Returns sem truth args results outer E ps rs → g ps = rs := by
  obtain ⟨hwf, hx⟩ := aggregate_correct (sem := sem) (truth := truth) hw h
  have hwf' : (fnOf args results (normalize tree)).wf := by
    have := wf_normalize tree none hwf
    unfold Fn.wf
    generalize normalize tree = a at this
    cases a with
    | linear cs => exact this
    | block ts => exact ⟨this, trivial⟩
    | branch cs => exact ⟨this, trivial⟩
    | loop b => exact ⟨this, trivial⟩
  obtain ⟨symbol, g, h1, h2⟩ := C33_conversion_preserves hs hwf' h' E
  refine ⟨symbol, g, h1, fun ps rs hr => h2 ps rs ?_⟩
  obtain ⟨s, hr, rfl⟩ := hr
  have e1 : (fnOf args results (normalize tree)).args = args := by cases normalize tree <;> rfl
  have e2 : (fnOf args results (normalize tree)).results = results := by cases normalize tree <;> rfl
  refine ⟨s, ?_, by rw [e2]⟩
  rw [runAll_fnOf, run_normalize, ← hx]
  unfold initial at hr ⊢
  rw [e1]
  exact hr

/-! ### Examples -/

/-- `f(x) { s = 0; do { s = s + x; if (s == 1) u = s; else v = s; } while (s != 2); return s }` as a control flow
graph: 0 is the entry, 1 the exit; variables x = 1, s = 2, u = 5, v = 6. -/
def exCfg : Cfg where
  nodes := [0, 1, 2, 3, 4, 5, 6]
  code x := match x with
    | 2 => [.op (cvConst 0) [] [2]]
    | 3 => [.op cvAdd [2, 1] [2], .op (cvMatch [(1, 1)] 0) [2] [3], .branch 3]
    | 4 => [.assign 6 2]
    | 5 => [.assign 5 2]
    | 6 => [.op (cvMatch [(2, 0)] 1) [2] [4], .branch 4]
    | _ => []
  succs x := match x with
    | 0 => [2] | 2 => [3] | 3 => [4, 5] | 4 => [6] | 5 => [6] | 6 => [1, 3] | _ => []
  entry := 0
  exit := 1

theorem exCfg_wf : exCfg.Wf where
  entry := by simp [exCfg]
  exit := by simp [exCfg]
  closed := by decide
  last := rfl
  branch := by decide

/-- Two iterations, with different cases of the branch. -/
theorem exCfg_returns : exCfg.Returns exSem (fun v => v == 1) [1] [2, 5, 6] exOuter exOuterEnv [some 1]
    [some 2, some 1, some 2] :=
  ⟨_, .step (y := 2) (by decide) rfl (.step (y := 3) (by decide) rfl (.step (y := 5) (by decide) rfl
    (.step (y := 6) (by decide) rfl (.step (y := 3) (by decide) rfl (.step (y := 4) (by decide) rfl
      (.step (y := 6) (by decide) rfl (.step (y := 1) (by decide) rfl .stop))))))), rfl⟩

theorem exCfg_sccs : exCfg.flow.sccs 0 1 = [[3, 4, 5, 6]] := by decide +kernel

/-- Aggregation finds the loop, and in it the branch. -/
theorem exCfg_tree : exCfg.aggregate Flow.sccs 100 = some (.linear (aggs [
    .linear (aggs [.linear (aggs [.block [], .block [.op (cvConst 0) [] [2]]]),
      .loop (.linear (aggs [
        .linear (aggs [.block [.op cvAdd [2, 1] [2], .op (cvMatch [(1, 1)] 0) [2] [3], .branch 3],
          .branch (aggs [.block [.assign 6 2], .block [.assign 5 2]])]),
        .block [.op (cvMatch [(2, 0)] 1) [2] [4], .branch 4]]))]),
    .block []])) := by rfl

/-- All steps together, on the example. -/
theorem exCfg_lambda : ∃ tree node symbol g, exCfg.aggregate Flow.sccs 100 = some tree ∧
    convFn false (fnOf [1] [2, 5, 6] (normalize tree)) exOuter 100 = some node ∧
    nodeVals exSem node exOuterEnv = [some (symbol, some (.lam g))] ∧ g [some 1] = [some 2, some 1, some 2] := by
  have h := exCfg_tree
  generalize ht : (Agg.linear (aggs [.linear (aggs [.linear (aggs [.block [], .block [.op (cvConst 0) [] [2]]]), _]),
    .block []])) = tree at h
  have h' : (convFn false (fnOf [1] [2, 5, 6] (normalize tree)) exOuter 100).isSome = true := by
    rw [← ht]; decide +kernel
  obtain ⟨node, h'⟩ := Option.isSome_iff_exists.1 h'
  obtain ⟨a, g, h1, h2⟩ := C34_graph_to_lambda exSelect exCfg_wf h h' exOuterEnv
  exact ⟨tree, node, a, g, h, h', h1, h2 _ _ exCfg_returns⟩

end Jlm.Front
