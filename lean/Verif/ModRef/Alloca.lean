import Verif.ModRef.Spec
import Verif.Util.TarjanProps
import Mathlib.Tactic.Tauto
import Mathlib.Data.List.Perm.Subperm

set_option linter.unusedSimpArgs false
set_option linter.unusedVariables false

/-! # Simple allocas, reachability and recursion -/

namespace Jlm.ModRef

/-! ## Simple allocas -/

theorem simpleFold_spec (ts : List Nat) : ∀ (simple queue : List Nat),
    (∀ m, m ∈ (simpleFold ts (simple, queue)).1 ↔ m ∈ simple ∧ m ∉ ts) ∧
    (∀ m, m ∈ (simpleFold ts (simple, queue)).2 ↔ m ∈ queue ∨ (m ∈ simple ∧ m ∈ ts)) ∧
    (simpleFold ts (simple, queue)).1.length + (simpleFold ts (simple, queue)).2.length ≤ simple.length + queue.length := by
  induction ts with
  | nil => intro simple queue; simp [simpleFold]
  | cons t ts ih =>
      intro simple queue
      by_cases ht : t ∈ simple
      · have hun : simpleFold (t :: ts) (simple, queue) = simpleFold ts (simple.filter (· != t), queue ++ [t]) := by
          simp [simpleFold, ht]
        obtain ⟨h1, h2, h3⟩ := ih (simple.filter (· != t)) (queue ++ [t])
        rw [hun]
        refine ⟨?_, ?_, ?_⟩
        · intro m; rw [h1]; simp; tauto
        · intro m; rw [h2]
          by_cases hm : m = t
          · subst hm; simp [ht]
          · simp [hm]
        · have : (simple.filter (· != t)).length < simple.length := by
            refine List.length_filter_lt_length_iff_exists.2 ⟨t, ht, by simp⟩
          simp at h3; omega
      · have hun : simpleFold (t :: ts) (simple, queue) = simpleFold ts (simple, queue) := by
          simp [simpleFold, ht]
        obtain ⟨h1, h2, h3⟩ := ih simple queue
        rw [hun]
        refine ⟨?_, ?_, h3⟩
        · intro m; rw [h1]; simp; intro hm _ e; exact ht (e ▸ hm)
        · intro m; rw [h2]
          by_cases hm : m = t
          · subst hm; simp [ht]
          · simp [hm]

theorem notSimple_mem {g : Ptg} (htgt : ∀ r, ∀ m ∈ g.targets r, m < g.num ∧ g.kind m ≠ .register) {m : Nat} (h : g.NotSimple m) :
    m < g.num ∧ g.kind m ≠ .register := by
  cases h with
  | base h1 h2 _ => exact ⟨h1, h2⟩
  | step _ h => exact htgt _ _ h

theorem simple_end {g : Ptg} (htgt : ∀ r, ∀ m ∈ g.targets r, m < g.num ∧ g.kind m ≠ .register) (simple : List Nat)
    (h1 : ∀ m, g.kind m ≠ .register → m < g.num → m ∉ simple → ∀ t ∈ g.targets m, t ∉ simple)
    (h2 : ∀ m, m ∈ simple → g.kind m = .alloca ∧ g.ext m = false) {m : Nat} (hn : g.NotSimple m) : m ∉ simple := by
  induction hn with
  | base _ hk hor =>
      intro hm
      obtain ⟨a, b⟩ := h2 _ hm
      rcases hor with h | h
      · exact h a
      · rw [b] at h; cases h
  | @step m t hn ht ih =>
      have := notSimple_mem htgt hn
      exact h1 m this.2 this.1 ih t ht

theorem simpleLoop_spec (g : Ptg) (htgt : ∀ r, ∀ m ∈ g.targets r, m < g.num ∧ g.kind m ≠ .register) :
    ∀ (fuel : Nat) (simple queue : List Nat), simple.length + queue.length ≤ fuel →
      (∀ m, g.kind m ≠ .register → m < g.num → m ∉ simple → m ∉ queue → ∀ t ∈ g.targets m, t ∉ simple) →
      (∀ m, m ∈ simple → g.kind m = .alloca ∧ g.ext m = false) →
      (∀ m ∈ queue, g.NotSimple m) →
      ∀ m, m ∈ simpleLoop g fuel (simple, queue) ↔ m ∈ simple ∧ ¬ g.NotSimple m := by
  intro fuel
  induction fuel with
  | zero =>
      intro simple queue hf h1 h2 h3 m
      have e : queue = [] := List.eq_nil_of_length_eq_zero (by omega)
      subst e
      have e : simple = [] := List.eq_nil_of_length_eq_zero (by omega)
      subst e
      simp [simpleLoop]
  | succ fuel ih =>
      intro simple queue hf h1 h2 h3 m
      cases queue with
      | nil =>
          simp only [simpleLoop]
          constructor
          · intro hm; exact ⟨hm, fun hn => simple_end htgt simple (fun m a b c => h1 m a b c (by simp)) h2 hn hm⟩
          · exact fun h => h.1
      | cons q queue =>
          simp only [simpleLoop]
          obtain ⟨s1, s2, s3⟩ := simpleFold_spec (g.targets q) simple queue
          generalize hst : simpleFold (g.targets q) (simple, queue) = st at s1 s2 s3
          obtain ⟨simple', queue'⟩ := st
          simp only at s1 s2 s3
          have hq : g.NotSimple q := h3 q (by simp)
          rw [ih simple' queue' (by simp at hf; omega) ?_ ?_ ?_]
          · rw [s1]
            constructor
            · rintro ⟨⟨a, _⟩, b⟩; exact ⟨a, b⟩
            · rintro ⟨a, b⟩; exact ⟨⟨a, fun ht => b (.step hq ht)⟩, b⟩
          · intro m hk hlt hns hnq t ht hts
            obtain ⟨ht1, ht2⟩ := (s1 t).1 hts
            by_cases hmq : m = q
            · subst hmq; exact ht2 ht
            · have hms : m ∉ simple := by
                intro hm
                by_cases hmt : m ∈ g.targets q
                · exact hnq ((s2 m).2 (Or.inr ⟨hm, hmt⟩))
                · exact hns ((s1 m).2 ⟨hm, hmt⟩)
              have hmqu : m ∉ q :: queue := by
                intro hm
                rcases List.mem_cons.1 hm with e | hm
                · exact hmq e
                · exact hnq ((s2 m).2 (Or.inl hm))
              exact h1 m hk hlt hms hmqu t ht ht1
          · intro m hm; exact h2 m ((s1 m).1 hm).1
          · intro m hm
            rcases (s2 m).1 hm with h | ⟨_, h⟩
            · exact h3 m (by simp [h])
            · exact .step hq h

/-- **C49** `CreateSimpleAllocaSet` finds the simple allocas. -/
theorem C49_simple_allocas (g : Ptg) (htgt : ∀ r, ∀ m ∈ g.targets r, m < g.num ∧ g.kind m ≠ .register) (m : Nat) :
    m ∈ g.simpleAllocas ↔ g.Simple m := by
  unfold Ptg.simpleAllocas
  have hc : ∀ m, g.candidate m = true ↔ g.kind m = .alloca ∧ g.ext m = false := by intro m; simp [Ptg.candidate]
  rw [simpleLoop_spec g htgt]
  · simp only [List.mem_filter, List.mem_range, Ptg.memory, hc, Ptg.Simple]
    constructor
    · rintro ⟨⟨⟨a, _⟩, b, _⟩, c⟩; exact ⟨a, b, c⟩
    · rintro ⟨a, b, c⟩
      refine ⟨⟨⟨a, by simp [b]⟩, b, ?_⟩, c⟩
      cases he : g.ext m with
      | false => rfl
      | true => exact absurd (.base a (by simp [b]) (Or.inr he)) c
  · rw [← List.length_append]
    have h1 := (List.filter_append_perm g.candidate ((List.range g.num).filter g.memory)).length_eq
    have h2 := List.length_filter_le g.memory (List.range g.num)
    simp at h1 h2 ⊢
    omega
  · intro m hk hlt hns hnq
    exfalso
    have hm : m ∈ (List.range g.num).filter g.memory := by simp [hlt, Ptg.memory, hk]
    cases hcm : g.candidate m with
    | true => exact hns (List.mem_filter.2 ⟨hm, hcm⟩)
    | false => exact hnq (List.mem_filter.2 ⟨hm, by simp [hcm]⟩)
  · intro m hm; exact (hc m).1 (List.mem_filter.1 hm).2
  · intro m hm
    simp only [List.mem_filter, List.mem_range, Ptg.memory, Ptg.candidate] at hm
    refine .base hm.1.1 (by simpa using hm.1.2) ?_
    have := hm.2
    cases he : g.ext m with
    | true => exact Or.inr rfl
    | false => simp [he] at this; exact Or.inl this

/-! ## Reachable simple allocas -/

theorem reachFold_spec (simple ts : List Nat) : ∀ (found queue : List Nat),
    (∀ m, m ∈ (reachFold simple ts (found, queue)).1 ↔ m ∈ found ∨ (m ∈ simple ∧ m ∈ ts)) ∧
    (∀ m, m ∈ (reachFold simple ts (found, queue)).2 ↔ m ∈ queue ∨ (m ∈ simple ∧ m ∈ ts ∧ m ∉ found)) ∧
    (found.Nodup → (reachFold simple ts (found, queue)).1.Nodup) ∧
    (reachFold simple ts (found, queue)).2.length + found.length = queue.length + (reachFold simple ts (found, queue)).1.length := by
  induction ts with
  | nil => intro found queue; simp [reachFold]
  | cons t ts ih =>
      intro found queue
      by_cases ht : t ∈ simple ∧ t ∉ found
      · have hun : reachFold simple (t :: ts) (found, queue) = reachFold simple ts (t :: found, queue ++ [t]) := by
          simp [reachFold, ht]
        obtain ⟨h1, h2, h3, h4⟩ := ih (t :: found) (queue ++ [t])
        rw [hun]
        refine ⟨?_, ?_, ?_, ?_⟩
        · intro m; rw [h1]
          by_cases hm : m = t
          · subst hm; simp [ht.1]
          · simp [hm]
        · intro m; rw [h2]
          by_cases hm : m = t
          · subst hm; simp [ht]
          · simp [hm]
        · intro hn; exact h3 (List.nodup_cons.2 ⟨ht.2, hn⟩)
        · simp at h4; omega
      · have hun : reachFold simple (t :: ts) (found, queue) = reachFold simple ts (found, queue) := by
          unfold reachFold; rw [List.foldl_cons, if_neg ht]
        obtain ⟨h1, h2, h3, h4⟩ := ih found queue
        rw [hun]
        refine ⟨?_, ?_, h3, h4⟩
        · intro m; rw [h1]
          by_cases hm : m = t
          · subst hm; simp only [List.mem_cons, true_or, and_true]; tauto
          · simp [hm]
        · intro m; rw [h2]
          by_cases hm : m = t
          · subst hm; simp only [List.mem_cons, true_or, true_and]; tauto
          · simp [hm]

theorem reachLoop_spec (g : Ptg) (simple roots : List Nat) (hs : ∀ m, m ∈ simple ↔ g.Simple m) :
    ∀ (fuel : Nat) (found queue : List Nat), queue.length + g.num ≤ fuel + found.length → found.Nodup →
      (∀ m ∈ found, g.Leads roots m) →
      (∀ m ∈ queue, m ∈ roots ∨ g.Leads roots m) →
      (∀ k, k ∈ roots ∨ k ∈ found → k ∉ queue → ∀ m ∈ g.targets k, g.Simple m → m ∈ found) →
      ∀ m, m ∈ reachLoop g simple fuel (found, queue) ↔ g.Leads roots m := by
  intro fuel
  have fin : ∀ found : List Nat, (∀ m ∈ found, g.Leads roots m) →
      (∀ k, k ∈ roots ∨ k ∈ found → ∀ m ∈ g.targets k, g.Simple m → m ∈ found) → ∀ m, m ∈ found ↔ g.Leads roots m := by
    intro found h1 h2 m
    refine ⟨h1 m, ?_⟩
    intro h
    induction h with
    | root hr ht hsm => exact h2 _ (Or.inl hr) _ ht hsm
    | step _ ht hsm ih => exact h2 _ (Or.inr ih) _ ht hsm
  have hlen : ∀ found : List Nat, found.Nodup → (∀ m ∈ found, g.Leads roots m) → found.length ≤ g.num := by
    intro found hn h
    have hsub : found ⊆ List.range g.num := by
      intro m hm
      have : g.Simple m := by
        cases h m hm with
        | root _ _ h => exact h
        | step _ _ h => exact h
      simpa using this.1
    have := (hn.subperm hsub).length_le
    simpa using this
  induction fuel with
  | zero =>
      intro found queue hf hn h1 h2 h3 m
      have := hlen found hn h1
      have e : queue = [] := List.eq_nil_of_length_eq_zero (by omega)
      subst e
      simp only [reachLoop]
      exact fin found h1 (fun k hk => h3 k hk (by simp)) m
  | succ fuel ih =>
      intro found queue hf hn h1 h2 h3 m
      cases queue with
      | nil =>
          simp only [reachLoop]
          exact fin found h1 (fun k hk => h3 k hk (by simp)) m
      | cons q queue =>
          simp only [reachLoop]
          obtain ⟨s1, s2, s3, s4⟩ := reachFold_spec simple (g.targets q) found queue
          generalize hst : reachFold simple (g.targets q) (found, queue) = st at s1 s2 s3 s4
          obtain ⟨found', queue'⟩ := st
          simp only at s1 s2 s3 s4
          have hnew : ∀ m, m ∈ simple → m ∈ g.targets q → g.Leads roots m := by
            intro m hm ht
            rcases h2 q (by simp) with hr | hl
            · exact .root hr ht ((hs m).1 hm)
            · exact .step hl ht ((hs m).1 hm)
          refine ih found' queue' (by simp at hf; omega) (s3 hn) ?_ ?_ ?_ m
          · intro m hm
            rcases (s1 m).1 hm with h | ⟨a, b⟩
            · exact h1 m h
            · exact hnew m a b
          · intro m hm
            rcases (s2 m).1 hm with h | ⟨a, b, _⟩
            · exact h2 m (by simp [h])
            · exact Or.inr (hnew m a b)
          · intro k hk hkq m ht hsm
            rw [s1]
            by_cases hkq' : k = q
            · subst hkq'; exact Or.inr ⟨(hs m).2 hsm, ht⟩
            · have hk' : k ∈ roots ∨ k ∈ found := by
                rcases hk with h | h
                · exact Or.inl h
                · rcases (s1 k).1 h with h | ⟨a, b⟩
                  · exact Or.inr h
                  · exact Or.inr (Classical.byContradiction fun hf' => hkq ((s2 k).2 (Or.inr ⟨a, b, hf'⟩)))
              refine Or.inl (h3 k hk' ?_ m ht hsm)
              intro hm
              rcases List.mem_cons.1 hm with e | hm
              · exact hkq' e
              · exact hkq ((s2 k).2 (Or.inl hm))

/-- **C49** `getReachableSimpleAllocas` finds the simple allocas that the given pointers lead to. -/
theorem C49_reachable (g : Ptg) (htgt : ∀ r, ∀ m ∈ g.targets r, m < g.num ∧ g.kind m ≠ .register) (roots : List Nat) (m : Nat) :
    m ∈ g.reachable roots ↔ g.Leads roots m := by
  unfold Ptg.reachable
  refine reachLoop_spec g g.simpleAllocas roots (C49_simple_allocas g htgt) _ [] roots (by simp) (by simp) (by simp) (fun m hm => Or.inl hm) ?_ m
  intro k hk hkn
  rcases hk with h | h
  · exact absurd h hkn
  · simp at h

/-! ## Recursion -/

/-- Number of a function in the call graph. -/
def num : Option Nat → Nat
  | none => 0
  | some f => f + 1

theorem num_surj (v : Nat) : ∃ a, v = num a := by
  cases v with
  | zero => exact ⟨none, rfl⟩
  | succ f => exact ⟨some f, rfl⟩

theorem mem_callees {g : Ptg} {t f : Nat} : f ∈ g.callees t ↔ ∃ k ∈ g.targets t, g.kind k = .lambda f := by
  unfold Ptg.callees
  rw [List.mem_filterMap]
  constructor
  · rintro ⟨k, hk, h⟩
    refine ⟨k, hk, ?_⟩
    split at h
    · next f' e => cases h; exact e
    · cases h
  · rintro ⟨k, hk, h⟩
    exact ⟨k, hk, by rw [h]⟩

theorem callsOut_iff {g : Ptg} {t : Nat} : g.callsOut t = true ↔ (∃ k ∈ g.targets t, g.kind k = .import_) ∨ g.all t = true := by
  simp [Ptg.callsOut]

theorem lambda_iff {P : Prog} {i m : Nat} : P.lambda i = some m ↔ ∃ n, P.nodes[i]? = some n ∧ n.kind = .lambda m := by
  unfold Prog.lambda
  cases h : P.nodes[i]? with
  | none => simp
  | some n =>
      simp only [Option.bind_some, Option.some.injEq, exists_eq_left']
      cases hk : n.kind <;> simp

theorem op_iff {P : Prog} {i : Nat} {op : Op} : P.op i = some op ↔ ∃ n, P.nodes[i]? = some n ∧ n.kind = .simple op := by
  unfold Prog.op
  cases h : P.nodes[i]? with
  | none => simp
  | some n =>
      simp only [Option.bind_some, Option.some.injEq, exists_eq_left']
      cases hk : n.kind <;> simp

theorem getElem?_lt {α : Type} {l : List α} {i : Nat} {a : α} (h : l[i]? = some a) : i < l.length := by
  rcases Nat.lt_or_ge i l.length with h' | h'
  · exact h'
  · rw [List.getElem?_eq_none h'] at h; cases h

theorem successors_iff {P : Prog} {a : Option Nat} {v : Nat} : v ∈ P.successors (num a) ↔ ∃ b, v = num b ∧ P.Calls a b := by
  cases a with
  | none =>
      simp only [num, Prog.successors, List.mem_cons, List.mem_flatMap, List.mem_range]
      constructor
      · rintro (h | ⟨i, hi, h⟩)
        · exact ⟨none, h, .outside⟩
        · split at h
          · next m hm =>
            split at h
            · next he => simp at h; exact ⟨some i, h, .back hm he⟩
            · simp at h
          · simp at h
      · rintro ⟨b, rfl, h⟩
        cases h with
        | back hl he =>
            rename_i f m
            obtain ⟨n, hn, _⟩ := lambda_iff.1 hl
            exact Or.inr ⟨f, getElem?_lt hn, by simp [hl, he, num]⟩
        | outside => exact Or.inl rfl
  | some f =>
      simp only [num, Prog.successors, List.mem_flatMap, List.mem_range]
      constructor
      · rintro ⟨i, hi, h⟩
        split at h
        · next n hn =>
          split at h
          · next t args hk =>
            split at h
            · next hf =>
              subst hf
              have hmem := List.mem_of_getElem? hn
              rcases List.mem_append.1 h with h | h
              · obtain ⟨f', hf', rfl⟩ := List.mem_map.1 h
                obtain ⟨k, hk1, hk2⟩ := mem_callees.1 hf'
                exact ⟨some f', rfl, .call hmem hk hk1 hk2⟩
              · split at h
                · next ho => simp at h; exact ⟨none, h, .out hmem hk (callsOut_iff.1 ho)⟩
                · simp at h
            · simp at h
          · simp at h
        · simp at h
      · rintro ⟨b, rfl, h⟩
        cases h with
        | call hm hk ht hl =>
            rename_i n t k f' args
            obtain ⟨i, hi⟩ := List.getElem?_of_mem hm
            refine ⟨i, getElem?_lt hi, ?_⟩
            simp only [hi, hk, if_true]
            exact List.mem_append_left _ (List.mem_map.2 ⟨f', mem_callees.2 ⟨k, ht, hl⟩, rfl⟩)
        | out hm hk ho =>
            rename_i n t args
            obtain ⟨i, hi⟩ := List.getElem?_of_mem hm
            refine ⟨i, getElem?_lt hi, ?_⟩
            simp only [hi, hk, if_true, callsOut_iff.2 ho]
            exact List.mem_append_right _ (by simp [num])

/-- Functions in the points-to graph are functions of the program. -/
def Prog.Functions (P : Prog) : Prop := ∀ t, ∀ k ∈ P.ptg.targets t, ∀ f, P.ptg.kind k = .lambda f → ∃ m, P.lambda f = some m

theorem scc_spec (P : Prog) (hfun : P.Functions) : ∃ r, Util.Tarjan.findSccs P.callGraph (fun _ => 0) = some r ∧
    Util.Tarjan.IsScc P.callGraph (fun _ => 0) r := by
  refine Util.Tarjan.C14_scc P.callGraph ⟨fun v hv => hv, fun v hv => rfl, ?_⟩ _
  intro v hv w hw
  simp only [Prog.callGraph] at hw ⊢
  obtain ⟨a, rfl⟩ := num_surj v
  obtain ⟨b, rfl, hc⟩ := successors_iff.1 hw
  cases hc with
  | call _ _ ht hl =>
      obtain ⟨m, hm⟩ := hfun _ _ ht _ hl
      obtain ⟨n, hn, _⟩ := lambda_iff.1 hm
      have := getElem?_lt hn
      simp [num]; omega
  | out => simp [num]
  | back hl _ =>
      obtain ⟨n, hn, _⟩ := lambda_iff.1 hl
      have := getElem?_lt hn
      simp [num]; omega
  | outside => simp [num]

theorem edge_iff {P : Prog} {a : Option Nat} {v : Nat} : Util.Tarjan.Edge P.callGraph (num a) v ↔ ∃ b, v = num b ∧ P.Calls a b := by
  unfold Util.Tarjan.Edge
  simp only [Prog.callGraph, id]
  constructor
  · rintro ⟨w, hw, rfl⟩; exact successors_iff.1 hw
  · intro h; exact ⟨v, successors_iff.2 h, rfl⟩

theorem reach_iff {P : Prog} {a : Option Nat} {v : Nat} : Util.Tarjan.Reach P.callGraph (num a) v ↔
    ∃ b, v = num b ∧ Relation.ReflTransGen P.Calls a b := by
  constructor
  · intro h
    unfold Util.Tarjan.Reach at h
    induction h with
    | refl => exact ⟨a, rfl, .refl⟩
    | tail _ he ih =>
        obtain ⟨b, rfl, hb⟩ := ih
        obtain ⟨c, rfl, hc⟩ := edge_iff.1 he
        exact ⟨c, rfl, hb.tail hc⟩
  · rintro ⟨b, rfl, h⟩
    unfold Util.Tarjan.Reach
    induction h with
    | refl => exact .refl
    | tail _ he ih => exact ih.tail (edge_iff.2 ⟨_, rfl, he⟩)

theorem num_inj {a b : Option Nat} (h : num a = num b) : a = b := by
  cases a <;> cases b <;> simp [num] at h ⊢
  exact h

/-- **C49** `IsRecursionPossible`: whether a function may call itself, directly or through others. -/
theorem C49_recursion (P : Prog) (hfun : P.Functions) (f m : Nat) (hf : P.lambda f = some m) :
    P.recursionPossible f = true ↔ P.Recursive f := by
  obtain ⟨r, hr, hscc⟩ := scc_spec P hfun
  have hidx : P.scc = r.sccIndex := by unfold Prog.scc; rw [hr]
  have root : ∀ v, v < P.nodes.length + 1 → Util.Tarjan.Root P.callGraph v := fun v hv => ⟨hv, rfl⟩
  have hflt : f < P.nodes.length := by obtain ⟨n, hn, _⟩ := lambda_iff.1 hf; exact getElem?_lt hn
  have rf := root (f + 1) (by omega)
  have hsucc : ∀ {a : Option Nat} {b : Option Nat}, P.Calls a b → num b < P.nodes.length + 1 := by
    intro a b hc
    cases hc with
    | call _ _ ht hl =>
        obtain ⟨m, hm⟩ := hfun _ _ ht _ hl
        obtain ⟨n, hn, _⟩ := lambda_iff.1 hm
        have := getElem?_lt hn
        simp [num]; omega
    | out => simp [num]
    | back hl _ =>
        obtain ⟨n, hn, _⟩ := lambda_iff.1 hl
        have := getElem?_lt hn
        simp [num]; omega
    | outside => simp [num]
  unfold Prog.recursionPossible Prog.Recursive
  rw [hidx]
  simp only [List.any_eq_true, List.mem_range, Bool.and_eq_true, decide_eq_true_eq]
  constructor
  · rintro ⟨u, hu, h1, v, hv, h2⟩
    obtain ⟨a, rfl⟩ := num_surj u
    obtain ⟨b, rfl, hc⟩ := successors_iff.1 hv
    have e1 := ((hscc.same_iff _ _ (root _ hu) rf).1 h1).2
    have e2 := ((hscc.same_iff _ _ (root _ (hsucc hc)) rf).1 h2).1
    rw [show f + 1 = num (some f) from rfl] at e1 e2
    obtain ⟨a', ha', p1⟩ := reach_iff.1 e1
    obtain ⟨b', hb', p2⟩ := reach_iff.1 e2
    have := num_inj ha'; subst this
    have := num_inj hb'; subst this
    exact Relation.TransGen.trans_right p1 (Relation.TransGen.trans_left (.single hc) p2)
  · intro h
    obtain ⟨b, hc, hb⟩ := Relation.TransGen.head'_iff.1 h
    refine ⟨f + 1, by omega, rfl, num b, successors_iff (a := some f) |>.2 ⟨b, rfl, hc⟩, ?_⟩
    rw [hscc.same_iff _ _ (root _ (hsucc hc)) rf]
    refine ⟨reach_iff.2 ⟨some f, rfl, hb⟩, ?_⟩
    exact (reach_iff (a := some f)).2 ⟨b, rfl, .single hc⟩

end Jlm.ModRef
