import Verif.Opt.DneExamples
import Verif.Opt.CneEqual
import Verif.Opt.DneWf
import Verif.Opt.TreeLemmas
import Verif.Opt.Copy

/-! # Lists of nodes: facts about appending -/

set_option linter.unusedSimpArgs false
set_option linter.unusedVariables false

namespace Jlm.Opt.Lst

variable {V : Type}

theorem nodesOf_list : ∀ ns : Nodes, nodesOf ns.list = ns
  | .nil => rfl
  | .cons x ns => by simp [Nodes.list, nodesOf, nodesOf_list ns]

theorem list_nodesOf : ∀ l : List Node, (nodesOf l).list = l
  | [] => rfl
  | x :: l => by simp [Nodes.list, nodesOf, list_nodesOf l]

theorem eval_append (sem : Sem V) : ∀ (xs ys : List Node) (E : Env V),
    evalNodes sem (nodesOf (xs ++ ys)) E = evalNodes sem (nodesOf ys) (evalNodes sem (nodesOf xs) E)
  | [], ys, E => by simp [nodesOf, evalNodes]
  | x :: xs, ys, E => by simp [nodesOf, evalNodes, eval_append sem xs ys]

theorem outs_append : ∀ (xs ys : List Node), (nodesOf (xs ++ ys)).outs = (nodesOf xs).outs ++ (nodesOf ys).outs
  | [], ys => by simp [nodesOf, Nodes.outs]
  | x :: xs, ys => by simp [nodesOf, Nodes.outs, outs_append xs ys]

theorem ins_append : ∀ (xs ys : List Node), (nodesOf (xs ++ ys)).ins = (nodesOf xs).ins ++ (nodesOf ys).ins
  | [], ys => by simp [nodesOf, Nodes.ins]
  | x :: xs, ys => by simp [nodesOf, Nodes.ins, ins_append xs ys]

theorem ins_flatMap : ∀ (xs : List Node), (nodesOf xs).ins = xs.flatMap Node.ins
  | [] => by simp [nodesOf, Nodes.ins]
  | x :: xs => by simp [nodesOf, Nodes.ins, ins_flatMap xs]

theorem names_append : ∀ (xs ys : List Node),
    namesNodes (nodesOf (xs ++ ys)) = namesNodes (nodesOf xs) ++ namesNodes (nodesOf ys)
  | [], ys => by simp [nodesOf, namesNodes]
  | x :: xs, ys => by simp [nodesOf, namesNodes, names_append xs ys]

/-- Only membership in the list of available outputs matters. -/
theorem wf_mono {A B : List Out} {ns : Nodes} (h : ∀ x ∈ A, x ∈ B) (hw : wfNodes A ns = true) : wfNodes B ns = true :=
  Dne.wfNodes_mono ns A B (fun x _ hx => h x hx) hw

theorem wfNode_mono {A B : List Out} {x : Node} (h : ∀ o ∈ A, o ∈ B) (hw : wfNode A x = true) : wfNode B x = true := by
  have := Dne.wfNode_divert (τ := id) (A := A) (B := B) (n := x) (fun o _ ho => h o ho) hw
  rwa [Dne.Node.divert_id] at this

theorem wf_append : ∀ (xs ys : List Node) {A : List Out}, wfNodes A (nodesOf (xs ++ ys)) = true ↔
    wfNodes A (nodesOf xs) = true ∧ wfNodes ((nodesOf xs).outs ++ A) (nodesOf ys) = true
  | [], ys, A => by simp [nodesOf, wfNodes, Nodes.outs]
  | x :: xs, ys, A => by
    simp only [List.cons_append, nodesOf, wfNodes, Nodes.outs, Bool.and_eq_true, wf_append xs ys, and_assoc]
    refine and_congr_right fun _ => and_congr_right fun _ => ⟨wf_mono ?_, wf_mono ?_⟩ <;>
      · intro o ho
        simp only [List.mem_append] at ho ⊢
        tauto

/-- The inputs of a well-formed node are available. -/
theorem wfNode_ins {A : List Out} {x : Node} (h : wfNode A x = true) : ∀ o ∈ x.ins, o ∈ A := by
  cases x <;> simp only [wfNode, Bool.and_eq_true, Copy.mem_subset, Node.ins] at h ⊢ <;> tauto

theorem wf_ins : ∀ (ns : Nodes) {A : List Out}, wfNodes A ns = true → ∀ o ∈ ns.ins, o ∈ A ++ ns.outs
  | .nil, A, _ => by simp [Nodes.ins]
  | .cons x ns, A, h => by
    simp only [wfNodes, Bool.and_eq_true] at h
    intro o ho
    simp only [Nodes.ins, Nodes.outs, List.mem_append] at ho ⊢
    rcases ho with ho | ho
    · exact .inl (wfNode_ins h.1 o ho)
    · have := wf_ins ns h.2 o ho
      simp only [List.mem_append] at this
      tauto

end Jlm.Opt.Lst
