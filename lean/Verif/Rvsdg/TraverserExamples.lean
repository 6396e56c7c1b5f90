import Verif.Rvsdg.BottomUpProps
/-
Concrete runs of the traversers: the hypotheses of the theorems of C17 and C18 are satisfiable,
and counterexamples for what does not hold (findings 4 and 20 of DESIGN.md).
-/
set_option linter.unusedSimpArgs false
set_option linter.unusedVariables false
namespace Jlm.Rvsdg.Trav

/-- checkable versions of the specification -/
def hasOriginB (g : Graph) (o : Origin) : Bool :=
  match o.owner with
  | some p => g.nodes.contains p
  | none => true

theorem hasOriginB_iff {g o} : hasOriginB g o = true ↔ g.HasOrigin o := by
  unfold hasOriginB Graph.HasOrigin
  cases h : o.owner with
  | none => simp
  | some p => simp

def wfB (g : Graph) : Bool :=
  decide g.nodes.Nodup && g.nodes.all (fun n => decide (n < g.nextId)) &&
  g.nodes.all (fun n => (g.inputs n).all (hasOriginB g)) && g.results.all (hasOriginB g)

theorem wf_of_wfB {g : Graph} (h : wfB g = true) : g.WF := by
  unfold wfB at h
  simp only [Bool.and_eq_true, List.all_eq_true, decide_eq_true_eq, hasOriginB_iff] at h
  exact ⟨h.1.1.1, h.1.1.2, h.1.2, h.2⟩

def smallInB (g : Graph) : Bool := g.nodes.all (fun n => decide (g.ninputs n < u32))
theorem smallIn_of {g : Graph} (h : smallInB g = true) : g.SmallIn := by
  unfold smallInB at h
  simp only [List.all_eq_true, decide_eq_true_eq] at h
  exact h
def smallOutB (g : Graph) : Bool := g.nodes.all (fun n => decide (g.numSuccessors n < u32))
theorem smallOut_of {g : Graph} (h : smallOutB g = true) : g.SmallOut := by
  unfold smallOutB at h
  simp only [List.all_eq_true, decide_eq_true_eq] at h
  exact h

/-- the ids are a topological order -/
def sortedB (g : Graph) : Bool :=
  g.nodes.all (fun n => (g.inputs n).all (fun o => match o.owner with
    | some p => decide (p < n)
    | none => true))
theorem acyclic_of {g : Graph} (h : sortedB g = true) : g.Acyclic := by
  refine ⟨id, ?_⟩
  rintro n hn p ⟨o, ho, hop⟩
  unfold sortedB at h
  simp only [List.all_eq_true] at h
  have := h n hn o ho
  rw [hop] at this
  simpa using this

/-- node 0 without inputs; node 1 uses node 0 twice; node 2 uses an argument and node 0;
node 3 uses nodes 1 and 2; the result is node 3 -/
def exG : Graph where
  nodes := [0, 1, 2, 3]
  inputs := fun n => match n with
    | 1 => [.out 0 0, .out 0 1]
    | 2 => [.arg 0, .out 0 0]
    | 3 => [.out 1 0, .out 2 0]
    | _ => []
  results := [.out 3 0]
  nextId := 4

theorem exG_wf : exG.WF := wf_of_wfB (by decide)
theorem exG_in : exG.SmallIn := smallIn_of (by decide)
theorem exG_out : exG.SmallOut := smallOut_of (by decide)
theorem exG_acyclic : exG.Acyclic := acyclic_of (by decide)

def tdStep (s : TD.State) (n : NodeId) : TD.State :=
  { s with t := TD.markAsVisited s.g s.t n (s.g.userNodes n) }

def tdInit (g : Graph) : TD.State :=
  { g := g, t := TD.init g g.topNodes g.argUserNodes, cutoff := g.nextId }

theorem tdRet {g₀ tr s} (h : TD.Run g₀ tr s) (n : NodeId) (hp : s.t.peek = some n)
    (hc : ¬ n ≥ s.cutoff) : TD.Run g₀ (tr ++ [.ret n]) (tdStep s n) :=
  TD.Run.next h (.ret s n _ hp (List.Perm.refl _) hc)

def tdMut (s : TD.State) (m : Mut) : TD.State :=
  { s with g := s.g.apply m, t := TD.notify s.g s.t m }

/-- a traversal with mutations in between: after node 0 is returned, a node (4) using node 1 is
created, and input 1 of node 3 is diverted to it -/
example : ∃ s, TD.Run exG [.ret 0, .mut (.createNode [.out 1 0]), .mut (.divertInput 3 1 (.out 4 0)),
    .ret 1, .ret 2, .ret 3] s ∧ s.g.nodes = [0, 1, 2, 3, 4] ∧ s.g.Acyclic ∧
    ∃ s', TD.Next s none s' := by
  have h0 := TD.Run.init (g₀ := exG) _ _ (List.Perm.refl _) (List.Perm.refl _)
  have h1 := tdRet h0 0 (by decide) (by decide)
  have h2 := TD.Run.mutate (.createNode [.out 1 0]) h1
    (by intro o ho; exact hasOriginB_iff.mp (by rw [List.mem_singleton] at ho; subst ho; decide))
    (smallIn_of (by decide))
  have h3 := TD.Run.mutate (.divertInput 3 1 (.out 4 0)) h2
    ⟨by decide, by decide, hasOriginB_iff.mp (by decide)⟩ (smallIn_of (by decide))
  have h4 := tdRet h3 1 (by decide) (by decide)
  have h5 := tdRet h4 2 (by decide) (by decide)
  -- node 4 is on the frontier, and skipped
  have h6 := TD.Run.next h5 (.skip _ 4 _ (by decide) (List.Perm.refl _) (by decide) _ _
    (.ret _ 3 _ (by decide) (List.Perm.refl _) (by decide)))
  refine ⟨_, h6, by decide, ?_, _, .null _ (by decide)⟩
  refine ⟨fun n => if n = 3 then 5 else n, ?_⟩
  rintro n hn p ⟨o, ho, hop⟩
  have key : ((tdMut (tdMut (tdStep (tdInit exG) 0) (.createNode [.out 1 0])) (.divertInput 3 1 (.out 4 0))).g.nodes.all
    (fun n => ((tdMut (tdMut (tdStep (tdInit exG) 0) (.createNode [.out 1 0])) (.divertInput 3 1 (.out 4 0))).g.inputs n).all
      (fun o => match o.owner with
        | some p => decide ((if p = 3 then 5 else p) < (if n = 3 then 5 else n))
        | none => true))) = true := by decide
  simp only [List.all_eq_true] at key
  have := key n hn o ho
  rw [hop] at this
  simpa using this

/-- node 1 has two inputs from node 0, which is not visited yet -/
def exR : Graph where
  nodes := [0, 1]
  inputs := fun n => match n with
    | 1 => [.out 0 0, .out 0 1]
    | _ => []
  results := [.out 1 0]
  nextId := 2

/-- Finding 20: removing both inputs of node 1 with one call of `RemoveInputs` during the
traversal means that node 1 is never returned, although it is still in the (acyclic) region. This
is why `topDown_complete` requires that inputs are removed one at a time. -/
theorem topDown_incomplete_on_bulk_removal :
    ∃ (tr : List Ev) (s s' : TD.State), exR.WF ∧ exR.SmallIn ∧ TD.Run exR tr s ∧ s.g.Acyclic ∧
      TD.Next s none s' ∧ 1 ∈ s.g.nodes ∧ 1 ∈ exR.nodes ∧ Ev.ret 1 ∉ tr := by
  have h0 := TD.Run.init (g₀ := exR) _ _ (List.Perm.refl _) (List.Perm.refl _)
  have h1 := TD.Run.mutate (.removeInputs 1 [0, 1]) h0 (show 1 ∈ exR.nodes by decide)
    (smallIn_of (by decide))
  have h2 := tdRet h1 0 (by decide) (by decide)
  refine ⟨_, _, _, wf_of_wfB (by decide), smallIn_of (by decide), h2, ?_, .null _ (by decide),
    by decide, by decide, by simp⟩
  exact acyclic_of (by decide)

/-- removing them one at a time is fine -/
example : ∃ s, TD.Run exR [.mut (.removeInputs 1 [0]), .mut (.removeInputs 1 [0]), .ret 0, .ret 1] s := by
  have h0 := TD.Run.init (g₀ := exR) _ _ (List.Perm.refl _) (List.Perm.refl _)
  have h1 := TD.Run.mutate (.removeInputs 1 [0]) h0 (show 1 ∈ exR.nodes by decide)
    (smallIn_of (by decide))
  have h2 := TD.Run.mutate (.removeInputs 1 [0]) h1 (show 1 ∈ exR.nodes by decide)
    (smallIn_of (by decide))
  have h3 := tdRet h2 0 (by decide) (by decide)
  exact ⟨_, tdRet h3 1 (by decide) (by decide)⟩

/-! ### bottom-up -/

theorem buRet {g₀ tr s} (h : BU.Run g₀ tr s) (n : NodeId) (hp : (BU.next s).1 = some n) :
    BU.Run g₀ (tr ++ [.ret n]) (BU.next s).2 := by
  have := BU.Run.next h
  rw [hp] at this
  exact this

/-- a bottom-up traversal with mutations in between: node 3 is returned, its second input is
removed, node 2 (now dead) is destroyed -/
example : ∃ s, BU.Run exG [.ret 3, .mut (.removeInputs 3 [1]), .mut (.destroyNode 2), .ret 1, .ret 0] s ∧
    (BU.next s).1 = none ∧ s.g.nodes = [0, 1, 3] := by
  have h0 := BU.Run.init (g₀ := exG) _ (List.Perm.refl _)
  have h1 := buRet h0 3 (by decide)
  have h2 := BU.Run.mutate (.removeInputs 3 [1]) h1 (show 3 ∈ exG.nodes by decide) (smallOut_of (by decide))
  have h3 := BU.Run.mutate (.destroyNode 2) h2
    ⟨by decide, by
      rintro (⟨n, hn, o, ho, hop⟩ | ⟨o, ho, hop⟩)
      · have key : ((exG.apply (.removeInputs 3 [1])).nodes.all (fun n =>
          ((exG.apply (.removeInputs 3 [1])).inputs n).all (fun o => decide (o.owner ≠ some 2)))) = true := by decide
        simp only [List.all_eq_true, decide_eq_true_eq] at key
        exact key n hn o ho hop
      · have key : ((exG.apply (.removeInputs 3 [1])).results.all (fun o => decide (o.owner ≠ some 2))) = true := by decide
        simp only [List.all_eq_true, decide_eq_true_eq] at key
        exact key o ho hop⟩ (smallOut_of (by decide))
  have h4 := buRet h3 1 (by decide)
  have h5 := buRet h4 0 (by decide)
  exact ⟨_, h5, by decide, by decide⟩

/-- node 0 is used by node 1 and node 2; results: 1, 4; 4 uses 3, 3 uses 2 -/
def exN : Graph where
  nodes := [0, 1, 2, 3, 4]
  inputs := fun n => match n with
    | 1 => [.out 0 0]
    | 2 => [.out 0 0]
    | 3 => [.out 2 0]
    | 4 => [.out 3 0]
    | _ => []
  results := [.out 1 0, .out 4 0]
  nextId := 5

/-- Finding 4: if the visited node 1 is replaced by a new node 5 during the traversal, the new node
is returned by `next()`, and because its operand (node 0) is counted twice, node 0 is returned
before its user, node 2. -/
theorem bottomUp_creation_breaks_order :
    ∃ (tr : List Ev) (s : BU.State), exN.WF ∧ exN.SmallOut ∧ exN.Acyclic ∧ BU.Run exN tr s ∧
      Ev.ret 5 ∈ tr ∧ 5 ∉ exN.nodes ∧ (BU.next s).1 = some 0 ∧
      2 ∈ s.g.nodes ∧ s.g.Pred 0 2 ∧ Ev.ret 2 ∉ tr := by
  have h0 := BU.Run.init (g₀ := exN) _ (List.Perm.refl _)
  have h1 := buRet h0 1 (by decide)
  have h2 := BU.Run.mutate (.createNode [.out 0 0]) h1
    (by intro o ho; exact hasOriginB_iff.mp (by rw [List.mem_singleton] at ho; subst ho; decide))
    (smallOut_of (by decide))
  have h3 := BU.Run.mutate (.divertResult 0 (.out 5 0)) h2
    ⟨by decide, hasOriginB_iff.mp (by decide)⟩ (smallOut_of (by decide))
  have h4 := BU.Run.mutate (.destroyNode 1) h3
    ⟨by decide, by
      rintro (⟨n, hn, o, ho, hop⟩ | ⟨o, ho, hop⟩)
      · have key : ((((exN.apply (.createNode [.out 0 0])).apply (.divertResult 0 (.out 5 0)))).nodes.all (fun n =>
          ((((exN.apply (.createNode [.out 0 0])).apply (.divertResult 0 (.out 5 0)))).inputs n).all (fun o => decide (o.owner ≠ some 1)))) = true := by decide
        simp only [List.all_eq_true, decide_eq_true_eq] at key
        exact key n hn o ho hop
      · have key : ((((exN.apply (.createNode [.out 0 0])).apply (.divertResult 0 (.out 5 0)))).results.all (fun o => decide (o.owner ≠ some 1))) = true := by decide
        simp only [List.all_eq_true, decide_eq_true_eq] at key
        exact key o ho hop⟩ (smallOut_of (by decide))
  have h5 := buRet h4 4 (by decide)
  have h6 := buRet h5 5 (by decide)
  have h7 := buRet h6 3 (by decide)
  exact ⟨_, _, wf_of_wfB (by decide), smallOut_of (by decide), acyclic_of (by decide), h7,
    by simp, by decide, by decide, by decide, ⟨.out 0 0, by decide, rfl⟩, by simp⟩

end Jlm.Rvsdg.Trav
