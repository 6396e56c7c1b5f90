import Verif.Aa.WorklistSpec
import Verif.Aa.OcdSpec
import Verif.Util.TarjanProps
set_option linter.unusedVariables false
/-
The use of `FindStronglyConnectedComponents` (C14) by the worklist solver: the topological
traversal, PointerObjectSet.cpp:2111-2122, and `InitializeTopologicalOrdering`,
OnlineCycleDetection.hpp:45-96.
-/
namespace Jlm.Llvm.Aa
open Jlm.Util
variable {σ : Type}

/-- the graph that is passed to `FindStronglyConnectedComponents`, PointerObjectSet.cpp:2117-2122 and
OnlineCycleDetection.hpp:65-70 -/
def sccGraph (s : RSet) (edges : Nat → List Nat) : Tarjan.Graph := ⟨s.n, s.root, edges⟩

theorem sccGraph_wf {s : RSet} (hs : s.Wf) {edges : Nat → List Nat} (he : ∀ m, ∀ t ∈ edges m, t < s.n) : Tarjan.WF (sccGraph s edges) :=
  ⟨fun v hv => hs.lt v hv, fun v _ => hs.idem v, fun v _ w hw => he v w hw⟩

theorem reach_path {s : RSet} (hid : ∀ i, s.root (s.root i) = s.root i) {edges : Nat → List Nat} {a b : Nat}
    (h : Tarjan.Reach (sccGraph s edges) a b) : WS.Path s edges a b := by
  induction h with
  | refl => exact .refl _
  | tail _ e ih =>
    obtain ⟨w, h1, h2⟩ := e
    change s.root w = _ at h2
    refine Lcd.path_trans ih (.edge h1 ?_)
    subst h2
    exact .same (hid w).symm (.refl _)

/-- **C22**: the components that are computed before each sweep of the topological traversal are a
legal `sweep` step of the solver. -/
theorem C22_sweep (env : Env σ) (w : WS σ) (hs : w.set.Wf) (he : ∀ m, ∀ t ∈ w.edges m, t < w.set.n) (before : Nat → Nat) :
    ∃ r, Tarjan.findSccs (sccGraph w.set w.edges) before = some r ∧ WS.Trans env 0 w { w with scc := r.sccIndex } := by
  obtain ⟨r, h1, h2⟩ := Tarjan.C14_scc _ (sccGraph_wf hs he) before
  refine ⟨r, h1, .sweep _ ?_⟩
  intro a b hab ha hb ra rb
  exact reach_path hs.idem ((h2.same_iff a b ⟨ha, ra⟩ ⟨hb, rb⟩).1 hab).1

/-- the unifications of `InitializeTopologicalOrdering`, OnlineCycleDetection.hpp:74-93: neighbours
in the (reversed) order that are in the same component. `UnifyPointerObjects` looks up the root, so
that the node itself stands for the root that is written to `*nextIt`. -/
def initPairs (scc : Nat → Nat) : List Nat → List (Nat × Nat)
  | a :: b :: l => if scc a = scc b then (a, b) :: initPairs scc (b :: l) else initPairs scc (b :: l)
  | _ => []

theorem mem_initPairs {scc : Nat → Nat} {p : Nat × Nat} : ∀ {l : List Nat}, p ∈ initPairs scc l → p.1 ∈ l ∧ p.2 ∈ l ∧ scc p.1 = scc p.2
  | [], h => by simp [initPairs] at h
  | [a], h => by simp [initPairs] at h
  | a :: b :: l, h => by
    unfold initPairs at h
    split at h
    · rename_i e
      rcases List.mem_cons.1 h with rfl | h
      · exact ⟨by simp, by simp, e⟩
      · have := mem_initPairs h
        exact ⟨List.mem_cons_of_mem _ this.1, List.mem_cons_of_mem _ this.2.1, this.2.2⟩
    · have := mem_initPairs h
      exact ⟨List.mem_cons_of_mem _ this.1, List.mem_cons_of_mem _ this.2.1, this.2.2⟩

/-- **C22**: what `InitializeTopologicalOrdering` unifies lies on cycles of the subset graph, as
`Input.Ok` demands. -/
theorem C22_init_cycles (s : RSet) (hs : s.Wf) (edges : Nat → List Nat) (he : ∀ m, ∀ t ∈ edges m, t < s.n) (before : Nat → Nat) :
    ∃ r, Tarjan.findSccs (sccGraph s edges) before = some r ∧
      ∀ p ∈ initPairs r.sccIndex r.reverseTopologicalOrder.reverse, (p.1 < s.n ∧ p.2 < s.n) ∧ WS.Path s edges p.1 p.2 ∧ WS.Path s edges p.2 p.1 := by
  obtain ⟨r, h1, h2⟩ := Tarjan.C14_scc _ (sccGraph_wf hs he) before
  refine ⟨r, h1, ?_⟩
  intro p hp
  obtain ⟨a, b, c⟩ := mem_initPairs hp
  rw [List.mem_reverse, h2.order_mem] at a b
  have := (h2.same_iff _ _ a b).1 c
  exact ⟨⟨a.1, b.1⟩, reach_path hs.idem this.1, reach_path hs.idem this.2⟩

end Jlm.Llvm.Aa
