import Verif.Opt.DneMin
import Verif.Opt.DneEval
import Verif.Opt.DneMark

/-!
# C27: dead node elimination

The theorems about `Dne.run` (`DeadNodeElimination::Run`), for every well-formed graph.
-/

set_option linter.unusedSimpArgs false
set_option linter.unusedVariables false

namespace Jlm.Opt

open Dne

theorem upd_imports {V : Type} (sem : Sem V) (g : Graph) (S : Marks) (x : Out)
    (h : x ∈ g.imports → x ∈ S.outs) :
    upd emptyEnv (g.imports.filter S.alive)
      ((g.imports.filter S.alive).map fun i => some (sem.sym i, none)) x =
    upd (emptyEnv (V := V)) g.imports (g.imports.map fun i => some (sem.sym i, none)) x := by
  have key : ∀ l : List Out, upd (emptyEnv (V := V)) l (l.map fun i => some (sem.sym i, none)) x =
      if x ∈ l then some (sem.sym x, none) else none := by
    intro l
    induction l with
    | nil => simp [upd, emptyEnv]
    | cons a l ih =>
      simp only [upd, List.map_cons, List.headD_cons, List.tail_cons, ih, List.mem_cons]
      by_cases hx : x = a <;> simp [hx]
  rw [key, key]
  simp only [List.mem_filter, Marks.alive_iff]
  by_cases hx : x ∈ g.imports
  · simp [hx, h hx]
  · simp [hx]

/-- **C27.** Dead node elimination does not change what the exports of a module compute, whatever
the operations mean. -/
theorem C27_dne_meaning {V : Type} (sem : Sem V) (g : Graph) (h : g.wf = true) :
    (Dne.run g).meaning sem = g.meaning sem := by
  obtain ⟨hroot, hcoh⟩ := markGraph_coh h
  obtain ⟨h1, h2, h3⟩ := wf_parts h
  simp only [Graph.names] at h1
  have hn := List.nodup_append.1 h1
  simp only [Graph.meaning, Graph.valueOf, Dne.run, sweepGraph, List.map_map]
  refine List.map_congr_left fun r hr => ?_
  refine sweepNodes_eval sem (P := Alive (defsGraph g) (markGraph g)) g.body g.imports h2 hn.2.1
    (fun x hx hx' => hn.2.2 x hx x hx' rfl)
    (fun p hp => hcoh p (by simp [defsGraph, hp])) _ _ ?_ r (hroot r hr)
  intro x hx
  refine upd_imports sem g _ x fun hxi => ?_
  exact (hcoh (x, .other []) (by simp [defsGraph, hxi])).1.1 hx

/-- **C27.** Every function, global variable or other output that is left at the top level of the
module keeps its value, also if it is reached from the exports only through its address. -/
theorem C27_dne_definitions {V : Type} (sem : Sem V) (g : Graph) (h : g.wf = true) (o : Out)
    (ho : o ∈ (Dne.run g).imports ++ (Dne.run g).body.outs) :
    (Dne.run g).valueOf sem o = g.valueOf sem o := by
  obtain ⟨hroot, hcoh⟩ := markGraph_coh h
  obtain ⟨h1, h2, h3⟩ := wf_parts h
  have hn := List.nodup_append.1 (show (g.imports ++ namesNodes g.body).Nodup from h1)
  have hagree : AgreeOn (Alive (defsGraph g) (markGraph g))
      (upd (emptyEnv (V := V)) (g.imports.filter (markGraph g).alive)
        ((g.imports.filter (markGraph g).alive).map fun i => some (sem.sym i, none)))
      (upd emptyEnv g.imports (g.imports.map fun i => some (sem.sym i, none))) := by
    intro x hx
    refine upd_imports sem g _ x fun hxi => ?_
    exact (hcoh (x, .other []) (by simp [defsGraph, hxi])).1.1 hx
  simp only [Graph.valueOf, Dne.run, sweepGraph] at ho ⊢
  by_cases hb : o ∈ (sweepNodes (markGraph g) g.body).1.outs
  · exact sweepNodes_kept sem (P := Alive (defsGraph g) (markGraph g)) g.body g.imports h2 hn.2.1
      (fun x hx hx' => hn.2.2 x hx x hx' rfl)
      (fun p hp => hcoh p (by simp [defsGraph, hp])) _ _ hagree o hb
  · have hi := (List.mem_append.1 ho).resolve_right hb
    have hi' := List.mem_filter.1 hi
    have hon : o ∉ g.body.outs := fun hc =>
      hn.2.2 o hi'.1 o (Nodes_outs_subset_names g.body o hc) rfl
    rw [evalNodes_notin sem _ _ o hb, evalNodes_notin sem _ _ o hon]
    exact upd_imports sem g _ o fun _ => ((markGraph g).alive_iff o).1 hi'.2

/-- **C27.** The result is a well-formed graph again (so none of the assertions about indices,
users and origins of the removal functions can fail), with the same number of exports. -/
theorem C27_dne_wf (g : Graph) (h : g.wf = true) :
    (Dne.run g).wf = true ∧ (Dne.run g).exports.length = g.exports.length := by
  obtain ⟨hroot, hcoh⟩ := markGraph_coh h
  obtain ⟨h1, h2, h3⟩ := wf_parts h
  refine ⟨?_, by simp [Dne.run, sweepGraph]⟩
  have hn := List.nodup_append.1 (show (g.imports ++ namesNodes g.body).Nodup from h1)
  have hcb : ∀ p ∈ defsNodes g.body, Coh (markGraph g) (Alive (defsGraph g) (markGraph g)) p :=
    fun p hp => hcoh p (by simp [defsGraph, hp])
  obtain ⟨w1, w2⟩ := sweepNodes_wf (P := Alive (defsGraph g) (markGraph g)) g.body g.imports h2
    hn.2.1 (fun x hx hx' => hn.2.2 x hx x hx' rfl) hcb
  have huse := (sweepNodes_uses (P := Alive (defsGraph g) (markGraph g)) g.body g.imports h2
    hn.2.1 hcb)
  simp only [Graph.wf, Bool.and_eq_true, decide_eq_true_eq, subset_iff]
  have himp : ∀ x ∈ g.imports, Alive (defsGraph g) (markGraph g) x →
      x ∈ g.imports.filter (markGraph g).alive := by
    intro x hx ha
    have := (hcoh (x, .other []) (by simp [defsGraph, hx])).1.1 ha
    simp [List.mem_filter, hx, Marks.alive_iff, this]
  refine ⟨⟨?_, ?_⟩, ?_⟩
  · simp only [Graph.names, Dne.run, sweepGraph]
    exact ((List.filter_sublist).append (sweepNodes_names _ g.body)).nodup h1
  · simp only [Dne.run, sweepGraph]
    exact wfNodes_mono _ _ _ (fun x hx hxi => himp x hxi (huse.1 x hx)) w1
  · simp only [Dne.run, sweepGraph, List.mem_map]
    rintro x ⟨r, hr, rfl⟩
    have := w2 r (hroot r hr) (h3 r hr)
    rcases List.mem_append.1 this with h' | h'
    · exact List.mem_append_left _ (himp _ h' (huse.2 r (hroot r hr)))
    · exact List.mem_append_right _ h'

/-- **C27.** Nothing dead is left: every simple node, every output of a structural node, every
loop, entry, context and fix variable, and every import that is still there is involved in
computing the exports. -/
theorem C27_dne_minimal (g : Graph) (h : g.wf = true) :
    (∀ n ∈ nodesIn (Dne.run g).body, ∀ u ∈ n.units, ∃ o ∈ u, g.Needs o) ∧
      ∀ i ∈ (Dne.run g).imports, g.Needs i := by
  obtain ⟨hroot, hcoh⟩ := markGraph_coh h
  obtain ⟨h1, h2, h3⟩ := wf_parts h
  have hn := List.nodup_append.1 (show (g.imports ++ namesNodes g.body).Nodup from h1)
  have hjust := markGraph_justified g
  have hN : ∀ o ∈ (markGraph g).outs, g.Needs o := fun o ho => needed_needs (hjust.2 o ho)
  refine ⟨?_, ?_⟩
  · have hj : JustIn (markGraph g) g.Needs (defsGraph g) := by
      intro key hk _
      obtain ⟨o, ins, ho, hm⟩ := hjust.1 key hk
      exact ⟨o, ins, needed_needs ho, hm⟩
    have hnd : ((defsGraph g).map (·.1)).Nodup := by
      rw [defsGraph_names h]
      exact h1
    simp only [defsGraph] at hj hnd
    exact sweepNodes_units (P := Alive (defsGraph g) (markGraph g)) (N := g.Needs) (top := g.body)
      hN (fun m o x ho hd hm => .dep ho hm hd) g.body g.imports h2 hn.2.1
      (fun p hp => hcoh p (by simp [defsGraph, hp]))
      (hj.right (keysOk_others (by
        simp only [List.mem_map]
        rintro p ⟨q, _, rfl⟩
        exact ⟨_, rfl⟩)) hnd) (fun m hm => hm)
  · intro i hi
    simp only [Dne.run, sweepGraph, List.mem_filter, Marks.alive_iff] at hi
    exact hN i hi.2

end Jlm.Opt
