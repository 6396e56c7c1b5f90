import Verif.Front.DomProps

/-! # Examples for C51 -/

namespace Jlm.Front.Dom

/-- A graph from its edges. -/
def ofEdges (num entry exit : Nat) (es : List (Nat × Nat)) : Cfg where
  num := num
  entry := entry
  exit := exit
  succs u := (es.filter (·.1 == u)).map (·.2)
  preds v := (es.filter (·.2 == v)).map (·.1)

theorem ofEdges_wf {num entry exit : Nat} {es : List (Nat × Nat)} (h : entry < num) (he : ∀ e ∈ es, e.1 < num ∧ e.2 < num) :
    (ofEdges num entry exit es).WF where
  entry := h
  succs u _ v hv := by
    simp [ofEdges] at hv
    exact (he _ hv).2
  preds u v _ := by
    simp [ofEdges]
    exact fun h => (he _ h).1

/-- An irreducible graph: 2 and 3 are a loop with two entries, 4 and 5 another one below 3. -/
def irreducible : Cfg := ofEdges 7 0 6 [(0, 1), (1, 2), (1, 3), (2, 3), (3, 2), (3, 4), (3, 5), (4, 5), (5, 4), (5, 6)]

theorem irreducible_wf : irreducible.WF := ofEdges_wf (by decide) (by decide)

theorem irreducible_reach : ∀ b < irreducible.num, Reachable irreducible b := by
  intro b hb
  rw [← (C51_rpo irreducible irreducible_wf).2]
  have : irreducible.num = 7 := rfl
  rw [this] at hb
  revert b
  decide +kernel

example : irreducible.rpo = [0, 1, 2, 3, 4, 5, 6] := by decide +kernel

/-- Neither 2 nor 3 dominates the other one; the same holds for 4 and 5. -/
example : irreducible.domtree id = some [(0, none, 0), (1, some 0, 1), (2, some 1, 2), (3, some 1, 2), (4, some 3, 3), (5, some 3, 3), (6, some 5, 4)] := by
  decide +kernel

example : ∃ t, irreducible.domtree List.reverse = some t ∧ ∀ b < 7, ∀ c, Above t c b ↔ Dominates irreducible c b := by
  obtain ⟨t, ht, _⟩ := C51_domtree_partial irreducible irreducible_wf irreducible_reach List.reverse (by simp)
  exact ⟨t, ht, (C51_dominators_partial irreducible irreducible_wf irreducible_reach List.reverse (by simp) t ht).1⟩

/-- The irreducible graph of the paper: the second pass still changes something, since 2 and 3 get their predecessors late. -/
def paper : Cfg := ofEdges 7 0 6 [(0, 4), (0, 5), (5, 1), (4, 2), (4, 3), (1, 2), (2, 1), (2, 3), (3, 2), (3, 6)]

example : paper.WF := ofEdges_wf (by decide) (by decide)

example : paper.rpo = [0, 5, 4, 2, 3, 6, 1] := by decide +kernel

example : paper.domtree id =
    some [(0, none, 0), (1, some 0, 1), (2, some 0, 1), (3, some 0, 1), (4, some 0, 1), (5, some 0, 1), (6, some 3, 2)] := by decide +kernel

/-- An endless loop: every node has a predecessor, but the exit cannot be reached. -/
def endless : Cfg := ofEdges 3 0 2 [(0, 1), (1, 1)]

theorem endless_wf : endless.WF := ofEdges_wf (by decide) (by decide)

theorem C51_endless (shuffle : List Nat → List Nat) : (∀ b < endless.num, b ≠ endless.entry → b ≠ endless.exit → endless.preds b ≠ []) ∧
    endless.domtree shuffle = none := by
  refine ⟨by decide, C51_unreachable endless endless_wf (b := 2) (by decide) ?_ shuffle⟩
  rw [← (C51_rpo endless endless_wf).2]
  decide +kernel

end Jlm.Front.Dom
