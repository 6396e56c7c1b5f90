import Verif.Hls.ForkTheorems
set_option linter.unusedSimpArgs false
/-
C62: a function with a loop, a constant, dead outputs and outputs that are read several times.
-/
namespace Jlm.Hls
namespace Graph

namespace Ex

/-- 0: the function; 1: a constant; 2: a node that reads argument 0 twice and the constant twice; 3: a loop with node 4 -/
def uses : List Use := [.res 0 0, .inp 2 0, .inp 2 1, .inp 2 2, .inp 2 3, .inp 3 0, .res 1 0, .inp 4 0, .inp 4 1, .res 2 0]

def org : Use → Org
  | .res 0 0 => .out 0 0
  | .inp 2 0 => .arg 1 0
  | .inp 2 1 => .arg 1 0
  | .inp 2 2 => .out 1 0
  | .inp 2 3 => .out 1 0
  | .inp 3 0 => .arg 1 0
  | .res 1 0 => .out 2 0
  | .inp 4 0 => .arg 2 0
  | .inp 4 1 => .arg 2 0
  | .res 2 0 => .out 4 0
  | _ => .arg 7 7

def G : Graph where
  op
    | 0 => .lambda
    | 3 => .loop
    | _ => .simple
  nin
    | 2 => 4
    | 3 => 1
    | 4 => 2
    | _ => 0
  nout
    | 2 => 2
    | _ => 1
  nodes
    | 0 => [0]
    | 1 => [1, 2, 3]
    | 2 => [4]
    | _ => []
  subs
    | 0 => [1]
    | 3 => [2]
    | _ => []
  nargs
    | 1 => 2
    | 2 => 1
    | _ => 0
  nres
    | 0 => 1
    | 1 => 1
    | 2 => 1
    | _ => 0
  org := org
  users := fun o => uses.filter fun u => org u = o
  next := 5

theorem mem_uses (u : Use) : u ∈ uses ↔ G.IsUse u := by
  constructor
  · intro h
    simp only [uses, List.mem_cons, List.not_mem_nil, or_false] at h
    rcases h with rfl | rfl | rfl | rfl | rfl | rfl | rfl | rfl | rfl | rfl
    · exact Or.inr ⟨_, _, rfl, by decide⟩
    · exact Or.inl ⟨_, _, rfl, by decide, by decide⟩
    · exact Or.inl ⟨_, _, rfl, by decide, by decide⟩
    · exact Or.inl ⟨_, _, rfl, by decide, by decide⟩
    · exact Or.inl ⟨_, _, rfl, by decide, by decide⟩
    · exact Or.inl ⟨_, _, rfl, by decide, by decide⟩
    · exact Or.inr ⟨_, _, rfl, by decide⟩
    · exact Or.inl ⟨_, _, rfl, by decide, by decide⟩
    · exact Or.inl ⟨_, _, rfl, by decide, by decide⟩
    · exact Or.inr ⟨_, _, rfl, by decide⟩
  · rintro (⟨n, i, rfl, hn, hi⟩ | ⟨r, i, rfl, hi⟩)
    · match n, hn with
      | 0, _ => simp [G] at hi
      | 1, _ => simp [G] at hi
      | 2, _ =>
        have hi : i < 4 := hi
        match i, hi with
        | 0, _ | 1, _ | 2, _ | 3, _ => decide
      | 3, _ => have hi : i < 1 := hi; match i, hi with | 0, _ => decide
      | 4, _ => have hi : i < 2 := hi; match i, hi with | 0, _ | 1, _ => decide
    · match r with
      | 0 => have hi : i < 1 := hi; match i, hi with | 0, _ => decide
      | 1 => have hi : i < 1 := hi; match i, hi with | 0, _ => decide
      | 2 => have hi : i < 1 := hi; match i, hi with | 0, _ => decide
      | r + 3 => exact absurd hi (Nat.not_lt_zero _)

theorem isOk : G.Ok where
  nodup := fun o => List.Nodup.sublist List.filter_sublist (by decide : uses.Nodup)
  users := by
    intro o u
    show u ∈ uses.filter (fun u => decide (org u = o)) ↔ _ ∧ org u = o
    rw [List.mem_filter, mem_uses, decide_eq_true_iff]
  operand := by
    intro u n i hu
    rw [← mem_uses] at hu
    simp only [uses, List.mem_cons, List.not_mem_nil, or_false] at hu
    rcases hu with rfl | rfl | rfl | rfl | rfl | rfl | rfl | rfl | rfl | rfl <;> intro h <;> simp [G, org] at h ⊢ <;> omega
  nodes := by
    intro r n h
    match r with
    | 0 | 1 | 2 => simp [G] at h ⊢; omega
    | r + 3 => exact absurd h List.not_mem_nil

def rank (r : Nat) : Nat := 2 - r

theorem nested : G.Nested rank := by
  intro r n s h1 h2
  match r with
  | 0 => simp [G] at h1; subst h1; simp [G] at h2; subst h2; decide
  | 1 =>
    simp [G] at h1
    rcases h1 with rfl | rfl | rfl <;> simp [G] at h2
    subst h2; decide
  | 2 => simp [G] at h1; subst h1; simp [G] at h2
  | r + 3 => exact absurd h1 List.not_mem_nil

theorem simple : ∀ r, ∀ n ∈ G.nodes r, G.op n ≠ .loop → G.op n ≠ .lambda → G.op n ≠ .otherStructural → G.subs n = [] := by
  intro r n h
  match r with
  | 0 => simp [G] at h; subst h; intro _ h; exact absurd rfl h
  | 1 => simp [G] at h; rcases h with rfl | rfl | rfl <;> simp [G]
  | 2 => simp [G] at h; subst h; simp [G]
  | r + 3 => exact absurd h List.not_mem_nil

theorem below (s : Nat) (h : G.Below 1 s) : s = 1 ∨ s = 2 := by
  induction h with
  | refl => exact Or.inl rfl
  | @step s t n _ h1 h2 ih =>
    rcases ih with rfl | rfl
    · simp [G] at h1
      rcases h1 with rfl | rfl | rfl <;> simp [G] at h2
      exact Or.inr h2
    · simp [G] at h1; subst h1; simp [G] at h2

/-- the hypotheses of `C62_check` are met -/
theorem ex_check : ((G.addSinks 3).addForks 3).check 3 = true := by
  refine C62_check G isOk rank nested simple 3 (by decide) 0 rfl rfl ?_ ?_
  · rintro o (⟨i, hi, _⟩ | ⟨n, hn, i, hi, rfl⟩)
    · exact absurd hi (Nat.not_lt_zero _)
    · simp [G] at hn; subst hn
      have hi : i < 1 := hi
      match i, hi with
      | 0, _ => exact (usedOnce_iff isOk _).2 (by decide)
  · intro t ht s hb n hn
    simp [G] at ht; subst ht
    rcases below s hb with rfl | rfl
    · simp [G] at hn; rcases hn with rfl | rfl | rfl <;> simp [G]
    · simp [G] at hn; subst hn; simp [G]

/-- what the passes do: three sinks, three forks (one of them for the constant) -/
theorem ex_result : let H := (G.addSinks 3).addForks 3
    H.next = 11 ∧ H.op 5 = .sink ∧ H.op 6 = .sink ∧ H.op 7 = .sink ∧ H.org (.inp 5 0) = .arg 1 1 ∧ H.org (.inp 6 0) = .out 2 1 ∧
    H.org (.inp 7 0) = .out 3 0 ∧ H.op 8 = .fork false ∧ H.org (.inp 8 0) = .arg 1 0 ∧ H.nout 8 = 3 ∧ H.org (.inp 2 0) = .out 8 0 ∧
    H.org (.inp 2 1) = .out 8 1 ∧ H.org (.inp 3 0) = .out 8 2 ∧ H.op 9 = .fork true ∧ H.org (.inp 9 0) = .out 1 0 ∧
    H.op 10 = .fork false ∧ H.nodes 2 = [4, 10] := by decide +kernel

/-- without the passes the check does not pass -/
theorem ex_before : G.check 3 = false ∧ (G.addSinks 3).check 3 = false ∧ (G.addForks 3).check 3 = false := by decide +kernel

/-- a function that is exported under two names gets a fork in the root region, and the check does not pass: the condition
on the root region in `C62_check` is necessary -/
theorem C62_exported_twice : ((({ G with
      nres := fun | 0 => 2 | n => G.nres n
      org := fun | .res 0 1 => .out 0 0 | u => G.org u
      users := fun o => if o = .out 0 0 then [.res 0 0, .res 0 1] else G.users o } : Graph).addSinks 3).addForks 3).check 3 = false := by
  decide +kernel

end Ex

/-- a function with an argument that is read twice, and nothing else -/
def argGraph : Graph where
  op n := if n = 0 then .lambda else .simple
  nin n := if n = 1 then 2 else 0
  nout n := if n = 0 then 1 else if n = 1 then 1 else 0
  nodes r := if r = 0 then [0] else if r = 1 then [1] else []
  subs n := if n = 0 then [1] else []
  nargs r := if r = 1 then 1 else 0
  nres r := if r = 1 then 1 else 0
  org u := if u = .res 1 0 then .out 1 0 else .arg 1 0
  users o := if o = .arg 1 0 then [.inp 1 0, .inp 1 1] else if o = .out 1 0 then [.res 1 0] else []
  next := 2

/-- **C62: the check does not look at the arguments of regions.** It passes although an argument is read twice. -/
theorem C62_check_arguments_counterexample : argGraph.check 3 = true ∧ argGraph.IsOutput 1 (.arg 1 0) ∧ ¬argGraph.UsedOnce (.arg 1 0) := by
  refine ⟨by decide +kernel, Or.inl ⟨0, by decide, rfl⟩, ?_⟩
  intro h
  have := h (.inp 1 0) (.inp 1 1) (Or.inl ⟨1, 0, rfl, by decide, by decide⟩) (Or.inl ⟨1, 1, rfl, by decide, by decide⟩) rfl rfl
  cases this

end Graph
end Jlm.Hls
