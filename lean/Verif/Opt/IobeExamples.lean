import Verif.Opt.IobeTheorems
set_option linter.unusedSimpArgs false
/-
C61: a function for which the pass does something, and the counterexamples.
-/
namespace Jlm.Opt.Iobe

/-- a node that only a stopped node could serve does not start -/
theorem not_starts {G : Graph} {r : Nat} {stop : Nat → Prop} {n p q i j : Nat} (h1 : Org.out p i ∈ G.inp n)
    (h2 : Org.out q j ∈ G.inp p) (h3 : stop q) : ¬Starts G r stop n := by
  intro h
  exact (((starts_iff.1 h).2 p i h1).inv.2.2 q j h2).inv.2.1 h3

namespace Ex

/-- `a = *p; g(a); b = *p; c = *q;` : 1 and 2 load `p`, 3 calls `g`, 4 and 5 load `p`, 6 and 7 load `q` -/
def G : Graph where
  op
    | 0 => .lambda 1
    | 1 => .barrier
    | 2 => .load 4
    | 4 => .barrier
    | 5 => .load 4
    | 6 => .barrier
    | 7 => .load 8
    | _ => .other
  inp
    | 1 => [.arg 1 0, .arg 1 1]
    | 2 => [.out 1 0, .arg 1 2]
    | 3 => [.out 2 0, .arg 1 1, .arg 1 2]
    | 4 => [.arg 1 0, .out 3 0]
    | 5 => [.out 4 0, .out 2 1]
    | 6 => [.arg 1 3, .out 3 0]
    | 7 => [.out 6 0, .out 2 1]
    | _ => []
  nodes
    | 0 => [0]
    | 1 => [1, 2, 3, 4, 5, 6, 7]
    | _ => []
  lam := fun r => r = 1

def stop (n : Nat) : Prop := n = 3
def val : Org → Nat
  | .arg 1 3 => 0
  | .out 6 _ => 0
  | _ => 1
def ok (v z : Nat) : Prop := v = 1 ∧ z ≤ 4

theorem tree : Tree G fun r => 1 - r where
  nodup := by
    intro r
    rcases r with _ | _ | r
    · decide
    · decide
    · exact List.nodup_nil
  home := by
    intro r r' n h h'
    rcases r with _ | _ | r <;> rcases r' with _ | _ | r' <;> simp [G] at h h' ⊢ <;> omega
  owner := by
    have key : ∀ s n, (G.op n = .lambda s ∨ G.op n = .phi s) → n = 0 := by
      intro s n h
      unfold G at h
      dsimp only at h
      split at h <;> simp at h ⊢
    intro s n m h h'
    rw [key s n h, key s m h']
  rank := by
    rintro r s ⟨n, hn, h⟩
    rcases r with _ | _ | r <;> simp [G] at hn h ⊢
    · subst hn; simp at h; omega
    · rcases hn with rfl | rfl | rfl | rfl | rfl | rfl | rfl <;> simp at h

theorem isScoped : Scoped G where
  out := by
    intro r n hn p i h
    rcases r with _ | _ | r <;> simp [G] at hn
    · subst hn; simp [G] at h
    · rcases hn with rfl | rfl | rfl | rfl | rfl | rfl | rfl <;> simp [G] at h ⊢ <;> omega
  arg := by
    intro r n hn p i h
    rcases r with _ | _ | r <;> simp [G] at hn
    · subst hn; simp [G] at h
    · rcases hn with rfl | rfl | rfl | rfl | rfl | rfl | rfl <;> simp [G] at h ⊢ <;> omega
  load := by
    intro r n hn z h
    rcases r with _ | _ | r <;> simp [G] at hn
    · subst hn; simp [G] at h
    · rcases hn with rfl | rfl | rfl | rfl | rfl | rfl | rfl <;> simp [G] at h ⊢
  barrier := by
    intro r n hn h
    rcases r with _ | _ | r <;> simp [G] at hn
    · subst hn; simp [G] at h
    · rcases hn with rfl | rfl | rfl | rfl | rfl | rfl | rfl <;> simp [G] at h ⊢

theorem programOrder : ProgramOrder G 1 id (· = 3) stop where
  operands := by
    intro n hn p i h
    simp [G] at hn
    rcases hn with rfl | rfl | rfl | rfl | rfl | rfl | rfl <;> simp [G] at h ⊢ <;> omega
  stops := fun n _ h => h
  kinds := by rintro n rfl; simp [G]
  chain := by rintro k _ rfl j _ rfl h; exact absurd h (Nat.lt_irrefl _)
  distinct := by rintro j _ k _ rfl rfl _; rfl
  state := by
    intro b hb hob k i h
    simp [G] at hb
    rcases hb with rfl | rfl | rfl | rfl | rfl | rfl | rfl <;> simp [G, Graph.io, Graph.origin] at hob h ⊢ <;> omega
  barrier := by
    rintro n hn ⟨z, hz⟩ b hb j hj rfl hlt
    simp [G] at hn
    rw [barred_iff] at hb
    rcases hn with rfl | rfl | rfl | rfl | rfl | rfl | rfl <;> simp [G] at hz hlt
    · simp [Graph.barrier?, Graph.addr, Graph.origin, G] at hb
      subst hb
      exact ⟨3, 0, rfl, rfl, Nat.le_refl _⟩
    · simp [Graph.barrier?, Graph.addr, Graph.origin, G] at hb
      subst hb
      exact ⟨3, 0, rfl, rfl, Nat.le_refl _⟩

theorem safe : Safe G 1 stop val ok := by
  intro n z hs hz
  have hn := (starts_iff.1 hs).1
  simp [G] at hn
  rcases hn with rfl | rfl | rfl | rfl | rfl | rfl | rfl <;> simp [G] at hz
  · subst hz; simp [ok, Graph.addr, Graph.origin, G, val]
  · subst hz; simp [ok, Graph.addr, Graph.origin, G, val]
  · exact absurd hs (not_starts (p := 6) (i := 0) (q := 3) (j := 0) (by simp [G]) (by simp [G]) rfl)

theorem barriers : ∀ b ∈ G.nodes 1, G.op b = .barrier → ∀ i, val (.out b i) = val (G.addr b) := by
  intro b hb h i
  simp [G] at hb
  rcases hb with rfl | rfl | rfl | rfl | rfl | rfl | rfl <;> simp [G] at h ⊢ <;> simp [Graph.addr, Graph.origin, G, val]

theorem unbarred : ∀ n ∈ G.nodes 1, ∀ z, G.op n = .load z → (∀ b, ¬Barred G n b) → ok (val (G.addr n)) z := by
  intro n hn z hz h
  simp [G] at hn
  rcases hn with rfl | rfl | rfl | rfl | rfl | rfl | rfl <;> simp [G] at hz
  · exact absurd (barred_iff.2 rfl) (h 1)
  · exact absurd (barred_iff.2 rfl) (h 4)
  · exact absurd (barred_iff.2 rfl) (h 6)

theorem orders (r n : Nat) : n ∈ (G.nodes r).reverse ↔ n ∈ G.nodes r := List.mem_reverse

/-- the hypotheses are met: whichever order the marking uses, no execution loads from an invalid address -/
theorem ex_safe : Safe (eliminate G (fun r => (G.nodes r).reverse) 5) 1 stop val ok :=
  (C61_safe_partial G _ tree isScoped _ orders 5 (by decide) 1 id (· = 3) stop programOrder Nat val ok barriers
    (by rintro v z y ⟨h1, h2⟩ h; exact ⟨h1, by omega⟩) safe unbarred).1

/-- the loads of `p` lose their barriers, the load of `q` does not -/
theorem ex_result : (eliminate G (fun r => (G.nodes r).reverse) 5).inp 2 = [.arg 1 0, .arg 1 2] ∧
    (eliminate G (fun r => (G.nodes r).reverse) 5).inp 5 = [.arg 1 0, .out 2 1] ∧
    (eliminate G (fun r => (G.nodes r).reverse) 5).inp 7 = [.out 6 0, .out 2 1] := by decide +kernel

/-- with the call gone, the second load of `p` starts although `g` stops: the theorem is about
executions that the graph did not have before -/
theorem ex_new : ¬Starts G 1 stop 5 ∧ Starts (eliminate G (fun r => (G.nodes r).reverse) 5) 1 stop 5 := by
  refine ⟨not_starts (p := 4) (i := 0) (q := 3) (j := 0) (by simp [G]) (by simp [G]) rfl, ?_⟩
  have e5 : (eliminate G (fun r => (G.nodes r).reverse) 5).inp 5 = [.arg 1 0, .out 2 1] := by decide +kernel
  have e2 : (eliminate G (fun r => (G.nodes r).reverse) 5).inp 2 = [.arg 1 0, .arg 1 2] := by decide +kernel
  have en : (eliminate G (fun r => (G.nodes r).reverse) 5).nodes 1 = [1, 2, 3, 4, 5, 6, 7] := by decide +kernel
  refine starts_iff.2 ⟨by rw [en]; simp, ?_⟩
  intro p i h
  rw [e5] at h
  simp at h
  obtain ⟨rfl, _⟩ := h
  refine .mk (by rw [en]; simp) (by simp [stop]) fun q j hq => ?_
  rw [e2] at hq
  simp at hq

end Ex

/-! ## The counterexamples -/

namespace Inlined

/-- A function that has had `f(p) { return p->next->x; }` inlined behind a call of `g`: `f` lost both of
its barriers, the inlining puts a barrier on the pointer argument only. 1, 2: load of `p`; 3: `g`;
4: barrier of the inlining; 5: load of `p->next` (marked by 2); 6: load of `x`, without barrier. -/
def G : Graph where
  op
    | 0 => .lambda 1
    | 1 => .barrier
    | 2 => .load 8
    | 4 => .barrier
    | 5 => .load 8
    | 6 => .load 4
    | _ => .other
  inp
    | 1 => [.arg 1 0, .arg 1 1]
    | 2 => [.out 1 0, .arg 1 2]
    | 3 => [.arg 1 1]
    | 4 => [.arg 1 0, .out 3 0]
    | 5 => [.out 4 0, .arg 1 2]
    | 6 => [.out 5 0, .arg 1 2]
    | _ => []
  nodes
    | 0 => [0]
    | 1 => [1, 2, 3, 4, 5, 6]
    | _ => []
  lam := fun r => r = 1

def stop (n : Nat) : Prop := n = 3
/-- `p->next` is null -/
def val : Org → Nat
  | .out 5 _ => 0
  | _ => 1
def ok (v _ : Nat) : Prop := v = 1

/-- **C61: the pass is not safe after inlining.** `g` exits if `p->next` is null; the load of `p->next->x`
is behind `g` before the pass and is not after it. -/
theorem C61_inlined_counterexample : Safe G 1 stop val ok ∧
    ¬Safe (eliminate G G.nodes 5) 1 stop val ok ∧
    (∀ b ∈ G.nodes 1, G.op b = .barrier → ∀ i, val (.out b i) = val (G.addr b)) ∧
    ProgramOrder G 1 id (· = 3) stop := by
  refine ⟨?_, ?_, ?_, ?_⟩
  · intro n z hs hz
    have hn := (starts_iff.1 hs).1
    simp [G] at hn
    rcases hn with rfl | rfl | rfl | rfl | rfl | rfl <;> simp [G] at hz
    · simp [ok, Graph.addr, Graph.origin, G, val]
    · simp [ok, Graph.addr, Graph.origin, G, val]
    · exfalso
      have h5 := ((starts_iff.1 hs).2 5 0 (by simp [G])).inv.2.2
      have h4 := (h5 4 0 (by simp [G])).inv.2.2
      exact (h4 3 0 (by simp [G])).inv.2.1 rfl
  · intro h
    have e6 : (eliminate G G.nodes 5).inp 6 = [.out 5 0, .arg 1 2] := by decide +kernel
    have e5 : (eliminate G G.nodes 5).inp 5 = [.arg 1 0, .arg 1 2] := by decide +kernel
    have en : (eliminate G G.nodes 5).nodes 1 = [1, 2, 3, 4, 5, 6] := by decide +kernel
    have eo : (eliminate G G.nodes 5).op 6 = .load 4 := by decide +kernel
    have hs : Starts (eliminate G G.nodes 5) 1 stop 6 := by
      refine starts_iff.2 ⟨by rw [en]; simp, fun p i hp => ?_⟩
      rw [e6] at hp
      simp at hp
      obtain ⟨rfl, _⟩ := hp
      refine .mk (by rw [en]; simp) (by simp [stop]) fun q j hq => ?_
      rw [e5] at hq
      simp at hq
    have := h 6 4 hs eo
    unfold Graph.addr Graph.origin at this
    rw [e6] at this
    simp [ok, val] at this
  · intro b hb h i
    simp [G] at hb
    rcases hb with rfl | rfl | rfl | rfl | rfl | rfl <;> simp [G] at h ⊢ <;> simp [Graph.addr, Graph.origin, G, val]
  · refine ⟨?_, fun n _ h => h, ?_, ?_, ?_, ?_, ?_⟩
    · intro n hn p i h
      simp [G] at hn
      rcases hn with rfl | rfl | rfl | rfl | rfl | rfl <;> simp [G] at h ⊢ <;> omega
    · rintro n rfl; simp [G]
    · rintro k _ rfl j _ rfl h; exact absurd h (Nat.lt_irrefl _)
    · rintro j _ k _ rfl rfl _; rfl
    · intro b hb hob k i h
      simp [G] at hb
      rcases hb with rfl | rfl | rfl | rfl | rfl | rfl <;> simp [G, Graph.io, Graph.origin] at hob h ⊢ <;> omega
    · rintro n hn ⟨z, hz⟩ b hb j hj rfl hlt
      simp [G] at hn
      rw [barred_iff] at hb
      rcases hn with rfl | rfl | rfl | rfl | rfl | rfl <;> simp [G] at hz hlt
      · simp [Graph.barrier?, Graph.addr, Graph.origin, G] at hb
        subst hb
        exact ⟨3, 0, rfl, rfl, Nat.le_refl _⟩
      · simp [Graph.barrier?, Graph.addr, Graph.origin, G] at hb

end Inlined

namespace Freed

/-- `a = *p; free(p); g(); b = *p;` : 1, 2: load; 3: free, on the memory and I/O chains; 4: `g`, which
exits; 5, 6: second load, behind `g` and after `free` in memory order -/
def G : Graph where
  op
    | 0 => .lambda 1
    | 1 => .barrier
    | 2 => .load 4
    | 5 => .barrier
    | 6 => .load 4
    | _ => .other
  inp
    | 1 => [.arg 1 0, .arg 1 1]
    | 2 => [.out 1 0, .arg 1 2]
    | 3 => [.arg 1 0, .out 2 1, .arg 1 1]
    | 4 => [.out 3 1]
    | 5 => [.arg 1 0, .out 4 0]
    | 6 => [.out 5 0, .out 3 0]
    | _ => []
  nodes
    | 0 => [0]
    | 1 => [1, 2, 3, 4, 5, 6]
    | _ => []
  lam := fun r => r = 1

def stop (n : Nat) : Prop := n = 4

/-- no execution starts a load after the memory has been freed -/
def SafeInTime (G : Graph) : Prop := ∀ l n z, Run G 1 stop l → Ready G 1 l n → n ∉ l → G.op n = .load z → 3 ∉ l

/-- **C61: the pass is not safe if memory is freed.** -/
theorem C61_freed_counterexample : SafeInTime G ∧ ¬SafeInTime (eliminate G G.nodes 5) := by
  constructor
  · intro l n z hl hr hnl hz h3
    have hn := hr.1
    simp [G] at hn
    rcases hn with rfl | rfl | rfl | rfl | rfl | rfl <;> simp [G] at hz
    · have hlive := hl.live
      -- the load of `a` is an operand of the call of `free`
      have : ∀ l, Run G 1 stop l → 3 ∈ l → 2 ∈ l := by
        intro l h
        induction h with
        | nil => simp
        | @step l n h hr _ _ ih =>
          intro h'
          rcases List.mem_append.1 h' with h' | h'
          · exact List.mem_append_left _ (ih h')
          · rw [List.mem_singleton] at h'
            subst h'
            exact List.mem_append_left _ (hr.2 2 1 (by simp [G]))
      exact hnl (this l hl h3)
    · have h5 := hl.live 5 (hr.2 5 0 (by simp [G]))
      exact (h5.inv.2.2 4 0 (by simp [G])).inv.2.1 rfl
  · intro h
    have en : (eliminate G G.nodes 5).nodes 1 = [1, 2, 3, 4, 5, 6] := by decide +kernel
    have e2 : (eliminate G G.nodes 5).inp 2 = [.arg 1 0, .arg 1 2] := by decide +kernel
    have e3 : (eliminate G G.nodes 5).inp 3 = [.arg 1 0, .out 2 1, .arg 1 1] := by decide +kernel
    have e6 : (eliminate G G.nodes 5).inp 6 = [.arg 1 0, .out 3 0] := by decide +kernel
    have eo : (eliminate G G.nodes 5).op 6 = .load 4 := by decide +kernel
    have r1 : Run (eliminate G G.nodes 5) 1 stop [2] :=
      .step .nil ⟨by rw [en]; simp, fun p i hp => by rw [e2] at hp; simp at hp⟩ (by simp) (by simp [stop])
    have r2 : Run (eliminate G G.nodes 5) 1 stop [2, 3] :=
      .step r1 ⟨by rw [en]; simp, fun p i hp => by rw [e3] at hp; simp at hp; simp [hp]⟩ (by simp) (by simp [stop])
    exact h [2, 3] 6 4 r2 ⟨by rw [en]; simp, fun p i hp => by rw [e6] at hp; simp at hp; simp [hp]⟩ (by simp) eo (by simp)

end Freed

/-- **C61: an access before the start of an allocation counts as in bounds**: 4 bytes at offset −4 of 4
bytes, because the offset is added as an unsigned number. -/
theorem C61_negative_counterexample : removable (some 4) (some (-4)) 4 = true := by decide +kernel

end Jlm.Opt.Iobe
