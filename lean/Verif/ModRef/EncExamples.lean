import Verif.ModRef.EncProps

set_option linter.unusedSimpArgs false
set_option linter.unusedVariables false

/-! # Examples for C50 -/

namespace Jlm.ModRef.Enc

/-- Memory holds 0 if it does not exist, else a number plus one. Operation `2 * m`: store to the memory node `m`; `2 * m + 1`: load from it;
operation 0: subtract one; allocated memory holds the number 4. -/
def toy : Sem Nat where
  op o v M v' M' :=
    if o = 0 then M' = M ∧ ∃ x, v = [x] ∧ v' = [x - 1]
    else if o % 2 = 0 then (∃ x, v = [x] ∧ v' = [] ∧ M' = fun m => if m = o / 2 then (if M m = 0 then 0 else x + 1) else M m)
    else M' = M ∧ v = [] ∧ v' = [M (o / 2)]
  new _ v v' c := v = [] ∧ v' = [] ∧ c = 5
  none := 0
  join a b := a + b
  sel x := x
  foot o := if o = 0 then [] else [o / 2]

theorem toy_local : toy.Local where
  keeps o v M v' M' h m hm := by
    simp only [toy] at h hm
    split at h
    · rw [h.1]
    · next h0 =>
      rw [if_neg h0] at hm
      split at h
      · obtain ⟨x, _, _, rfl⟩ := h
        simp only
        rw [if_neg (by simpa using hm)]
      · rw [h.1]
  stays o v M v' M' h m hm := by
    simp only [toy] at h hm ⊢
    split at h
    · rw [h.1, hm]
    · split at h
      · obtain ⟨x, _, _, rfl⟩ := h
        simp only [hm]
        split <;> simp
      · rw [h.1, hm]
  depends o v M v' M' N h hN := by
    simp only [toy] at h hN ⊢
    split at h
    · next h0 => simp only [h0, if_true]; simp; exact h.2
    · next h0 =>
      rw [if_neg h0] at hN
      rw [if_neg h0]
      have hN' := hN (o / 2) (by simp)
      split at h
      · next h1 =>
        rw [if_pos h1]
        obtain ⟨x, hv, hv', rfl⟩ := h
        refine ⟨x, hv, hv', ?_⟩
        funext m
        by_cases hm : m = o / 2
        · subst hm
          simp [h0, hN']
        · simp [h0, hm]
      · next h1 =>
        rw [if_neg h1]
        obtain ⟨rfl, hv, hv'⟩ := h
        refine ⟨?_, hv, ?_⟩
        · funext m
          by_cases hm : m = o / 2
          · subst hm
            simp [h0, hN']
          · simp [h0, hm]
        · rw [hN']; exact hv'
  join_none d := by simp [toy]

/-- `x` (value 0) is stored to memory node 1, a loop stores its counter to the memory nodes 1 and 2 (2: an alloca of the loop), and a load
after the loop reads memory node 1. -/
def body : Region :=
  .mk [0] [.simple ⟨2, [0], [], [1], false⟩,
    .struct ⟨true, [0], [1], [1]⟩ [.mk [2] [
      .simple ⟨9, [], [], [2], true⟩,
      .simple ⟨2, [2], [], [1], false⟩,
      .simple ⟨4, [2], [], [1, 2], false⟩,
      .simple ⟨0, [2], [3], [], false⟩] [3, 3]],
    .simple ⟨3, [], [4], [1, 7], false⟩] [4]

/-- The loop gets memory node 1 alone; the node that may touch both gets both. -/
example : encLambda [1] body =
    .mk [0] [.simple ⟨2, [0], [], [1], false⟩ [(1, .arg 1)],
      .struct ⟨true, [0], [1], [1]⟩ [(1, .node 0 1)] [.mk [2] [
        .simple ⟨9, [], [], [2], true⟩ [],
        .simple ⟨2, [2], [], [1], false⟩ [(1, .arg 1)],
        .simple ⟨4, [2], [], [1, 2], false⟩ [(1, .node 1 1), (2, .node 0 2)],
        .simple ⟨0, [2], [3], [], false⟩ []] [3, 3] [(1, some (.node 2 1))]],
      .simple ⟨3, [], [4], [1, 7], false⟩ [(1, .node 1 1)]] [4] [(1, some (.node 2 1))] := by
  rfl

theorem body_fits : fitsRegion toy.foot (fun m => m ∈ [1]) [1] body := by
  simp [body, fitsRegion, fitsNodes, fitsNode, fitsRegions, toy, availAfter]

/-- A run: the loop is entered with 2 and runs twice; what it stored last, 1, is loaded. -/
theorem body_run : relP toy [1] body [2] (fun m => if m = 1 then 9 else 0) [2] (fun m => if m = 1 then 2 else 0) := by
  have iter : ∀ (x : Nat) (M : Memory Nat), M 1 ≠ 0 → (∀ m, m ≠ 1 → M m = 0) →
      relP toy [1] (.mk [2] [.simple ⟨9, [], [], [2], true⟩, .simple ⟨2, [2], [], [1], false⟩, .simple ⟨4, [2], [], [1, 2], false⟩,
        .simple ⟨0, [2], [3], [], false⟩] [3, 3]) [x] M [x - 1, x - 1] (fun m => if m = 1 then x + 1 else 0) := by
    intro x M h1 h2
    refine ⟨fun k => if k = 2 then x else x - 1, fun m => if m = 1 then x + 1 else if m = 2 then x + 1 else 0, by simp, by simp, ?_, ?_⟩
    · simp only [runP, stepP, if_true, List.map_nil, List.map_cons]
      refine ⟨_, ⟨5, ⟨rfl, rfl, rfl⟩, rfl⟩, _, ⟨x, rfl, rfl, rfl⟩, _, ⟨x, rfl, rfl, rfl⟩, _, ⟨rfl, x, rfl, rfl⟩, ?_⟩
      funext m
      by_cases hm : m = 1
      · subst hm; simp [mask, toy, h1]
      · by_cases hm' : m = 2
        · subst hm'; simp [mask, toy]
        · simp [mask, hm, hm', toy]
    · funext m
      by_cases hm : m = 1
      · simp [mask, hm]
      · simp [mask, hm, toy]
  refine ⟨fun k => if k = 0 then 2 else if k = 4 then 2 else 0, fun m => if m = 1 then 2 else 0, rfl, rfl, ?_, ?_⟩
  · simp only [runP, stepP, List.map_nil, List.map_cons]
    refine ⟨_, ⟨2, rfl, rfl, rfl⟩, _, ⟨fun m => if m = 1 then 2 else 0, ⟨_, rfl, ?_⟩, rfl⟩, _, ⟨rfl, rfl, ?_⟩, ?_⟩
    · refine .again (iter 2 _ (by simp [mask, toy]) (fun m hm => by simp [mask, toy, hm])) (by simp [toy]) ?_
      exact .stop (iter 1 _ (by simp) (fun m hm => by simp [hm])) rfl
    · rfl
    · funext m
      by_cases hm : m = 1
      · subst hm; simp
      · simp [hm, mask, toy]
  · funext m
    by_cases hm : m = 1
    · subst hm; simp [mask]
    · simp [hm, mask, toy]

/-- So the encoded function does this, too, … -/
example : relG toy (encLambda [1] body) [2] (fun m => if m = 1 then 9 else 0) [2] (fun m => if m = 1 then 2 else 0) :=
  (C50_encode toy_local [1] body body_fits _ _ _ _ (fun m hm => by simp at hm; simp [hm, toy])).2 body_run

example : okRegion [1] (encLambda [1] body) := C50_closed _ _

/-! ## A malloc that is executed more than once -/

/-- A malloc (memory node 1) in a function that may see older memory of it. -/
def again : Region := .mk [] [.simple ⟨9, [], [], [1], true⟩, .simple ⟨9, [], [], [1], true⟩, .simple ⟨3, [], [4], [1], false⟩] [4]

example : encLambda [1] again =
    .mk [] [.simple ⟨9, [], [], [1], true⟩ [], .join 1 (.node 0 1) (.arg 1), .simple ⟨9, [], [], [1], true⟩ [],
      .join 1 (.node 2 1) (.node 1 1), .simple ⟨3, [], [4], [1], false⟩ [(1, .node 3 1)]] [4] [(1, some (.node 4 1))] := by
  rfl

example : fitsRegion toy.foot (fun m => m ∈ [1]) [1] again := by
  simp [again, fitsRegion, fitsNodes, fitsNode, fitsRegions, toy, availAfter]

/-! ## Memory that escapes from the node that allocates it -/

/-- An alloca (memory node 1) in a gamma node, and a load from it after the gamma node. -/
def escape : Region := .mk [0] [.struct ⟨false, [0], [], [1]⟩ [.mk [] [.simple ⟨9, [], [], [1], true⟩] []], .simple ⟨3, [], [1], [1], false⟩] [1]

/-- **C50** The condition on allocations is needed: the load gets no memory state, and sees memory that does not exist. -/
theorem C50_escape : relP toy [] escape [0] (fun _ => 0) [5] (fun _ => 0) ∧ ∀ v M', relG toy (encLambda [] escape) [0] (fun _ => 0) v M' → v = [0] := by
  constructor
  · refine ⟨fun k => if k = 1 then 5 else 0, fun m => if m = 1 then 5 else 0, rfl, rfl, ?_, ?_⟩
    · simp only [runP, stepP, List.map_nil, List.map_cons]
      refine ⟨_, ⟨fun m => if m = 1 then 5 else 0, ⟨0, [], _, rfl, rfl, ?_⟩, rfl⟩, _, ⟨rfl, rfl, rfl⟩, ?_⟩
      · refine ⟨fun _ => 0, fun m => if m = 1 then 5 else 0, rfl, rfl, ?_, ?_⟩
        · simp only [runP, stepP, List.map_nil, if_true]
          refine ⟨_, ⟨5, ⟨rfl, rfl, rfl⟩, rfl⟩, ?_⟩
          funext m
          by_cases hm : m = 1
          · subst hm; simp [mask, toy]
          · simp [mask, hm, toy]
        · funext m
          by_cases hm : m = 1
          · subst hm; simp [mask]
          · simp [mask, hm, toy]
      · funext m
        by_cases hm : m = 1
        · subst hm; simp [mask]
        · simp [mask, hm, toy]
    · funext m
      simp [mask, toy]
  · rintro v M' ⟨env, σ, _, hv, h, _⟩
    have h2 := h.2.1
    simp only [holds] at h2
    obtain ⟨N, ⟨_, _, h3⟩, _⟩ := h2
    rw [← hv]
    exact h3

end Jlm.ModRef.Enc
