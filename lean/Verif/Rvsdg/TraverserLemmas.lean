import Verif.Rvsdg.TraverserSpec
import Mathlib.Data.List.Perm.Basic
import Mathlib.Data.List.Count
import Mathlib.Algebra.Order.Group.Nat
import Mathlib.Tactic.Push
/-
Lemmas about the traversal tracker, and the invariant of the traversers over an abstract list of
edges `(activator, dependent)`. Used by TraverserProps.lean.
-/
set_option linter.unusedSimpArgs false
set_option linter.unusedVariables false
namespace Jlm.Rvsdg.Trav

def st (t : Tracker) (n : NodeId) : NState := (t.entry n).state
def ct (t : Tracker) (n : NodeId) : Nat := (t.entry n).count

theorem isNodeVisited_eq (t : Tracker) (n : NodeId) : t.isNodeVisited n = (st t n == .behind) := by
  unfold Tracker.isNodeVisited st Tracker.entry
  cases t.states n <;> simp

theorem entry_set (t : Tracker) (n m : NodeId) (e : Entry) :
    (t.set n e).entry m = if m = n then e else t.entry m := by
  unfold Tracker.entry Tracker.set
  by_cases h : m = n <;> simp [h]

/-! ### effects of the tracker operations -/

theorem entry_setf (t : Tracker) (n m : NodeId) (e : Entry) (f : List NodeId) :
    ({ (t.set n e) with frontier := f } : Tracker).entry m = if m = n then e else t.entry m :=
  entry_set t n m e

theorem st_act (t : Tracker) (n k m) : st (t.checkNodeActivation n k) m =
    if m = n ∧ k ≤ ct t n ∧ st t n = .ahead then .frontier else st t m := by
  unfold Tracker.checkNodeActivation st ct
  by_cases h : k ≤ (t.entry n).count ∧ (t.entry n).state = .ahead
  · rw [if_pos h, entry_setf]; by_cases hm : m = n <;> simp [hm, h]
  · rw [if_neg h, entry_set]; by_cases hm : m = n
    · subst hm; simp only [h, and_false, if_false, if_true]
    · simp [hm]

theorem ct_act (t : Tracker) (n k m) : ct (t.checkNodeActivation n k) m = ct t m := by
  unfold Tracker.checkNodeActivation ct
  by_cases h : k ≤ (t.entry n).count ∧ (t.entry n).state = .ahead
  · rw [if_pos h, entry_setf]; by_cases hm : m = n <;> simp [hm]
  · rw [if_neg h, entry_set]; by_cases hm : m = n <;> simp [hm]

theorem fr_act (t : Tracker) (n k) : (t.checkNodeActivation n k).frontier =
    if k ≤ ct t n ∧ st t n = .ahead then t.frontier ++ [n] else t.frontier := by
  unfold Tracker.checkNodeActivation st ct
  by_cases h : k ≤ (t.entry n).count ∧ (t.entry n).state = .ahead
  · rw [if_pos h, if_pos h]
  · rw [if_neg h, if_neg h]; rfl

theorem st_deact (t : Tracker) (n k m) : st (t.checkNodeDeactivation n k) m =
    if m = n ∧ ct t n < k ∧ st t n = .frontier then .ahead else st t m := by
  unfold Tracker.checkNodeDeactivation st ct
  by_cases h : (t.entry n).count < k ∧ (t.entry n).state = .frontier
  · rw [if_pos h, entry_setf]; by_cases hm : m = n <;> simp [hm, h]
  · rw [if_neg h, entry_set]; by_cases hm : m = n
    · subst hm; simp only [h, and_false, if_false, if_true]
    · simp [hm]

theorem ct_deact (t : Tracker) (n k m) : ct (t.checkNodeDeactivation n k) m = ct t m := by
  unfold Tracker.checkNodeDeactivation ct
  by_cases h : (t.entry n).count < k ∧ (t.entry n).state = .frontier
  · rw [if_pos h, entry_setf]; by_cases hm : m = n <;> simp [hm]
  · rw [if_neg h, entry_set]; by_cases hm : m = n <;> simp [hm]

theorem fr_deact (t : Tracker) (n k) : (t.checkNodeDeactivation n k).frontier =
    if ct t n < k ∧ st t n = .frontier then t.frontier.erase n else t.frontier := by
  unfold Tracker.checkNodeDeactivation st ct
  by_cases h : (t.entry n).count < k ∧ (t.entry n).state = .frontier
  · rw [if_pos h, if_pos h]
  · rw [if_neg h, if_neg h]; rfl

theorem st_mark (t : Tracker) (n m) : st (t.checkMarkNodeVisitedIfFrontier n) m =
    if m = n ∧ st t n = .frontier then .behind else st t m := by
  unfold Tracker.checkMarkNodeVisitedIfFrontier st
  by_cases h : (t.entry n).state = .frontier
  · rw [if_pos h, entry_setf]; by_cases hm : m = n <;> simp [hm, h]
  · rw [if_neg h, entry_set]; by_cases hm : m = n
    · subst hm; simp only [h, and_false, if_false, if_true]
    · simp [hm]

theorem ct_mark (t : Tracker) (n m) : ct (t.checkMarkNodeVisitedIfFrontier n) m = ct t m := by
  unfold Tracker.checkMarkNodeVisitedIfFrontier ct
  by_cases h : (t.entry n).state = .frontier
  · rw [if_pos h, entry_setf]; by_cases hm : m = n <;> simp [hm]
  · rw [if_neg h, entry_set]; by_cases hm : m = n <;> simp [hm]

theorem fr_mark (t : Tracker) (n) : (t.checkMarkNodeVisitedIfFrontier n).frontier =
    if st t n = .frontier then t.frontier.erase n else t.frontier := by
  unfold Tracker.checkMarkNodeVisitedIfFrontier st
  by_cases h : (t.entry n).state = .frontier
  · rw [if_pos h, if_pos h]
  · rw [if_neg h, if_neg h]; rfl

theorem st_set (t : Tracker) (n c m) : st (t.set n { t.entry n with count := c }) m = st t m := by
  unfold st; rw [entry_set]; by_cases h : m = n <;> simp [h]

theorem ct_set (t : Tracker) (n c m) : ct (t.set n { t.entry n with count := c }) m =
    if m = n then c else ct t m := by
  unfold ct; rw [entry_set]; by_cases h : m = n <;> simp [h]

theorem fr_set (t : Tracker) (n e) : (t.set n e).frontier = t.frontier := rfl

theorem st_inc (t : Tracker) (n k m) : st (t.incActivationCount n k) m =
    if m = n ∧ k ≤ (ct t n + 1) % u32 ∧ st t n = .ahead then .frontier else st t m := by
  unfold Tracker.incActivationCount
  simp only [st_act, st_set, ct_set, if_true]
  rfl

theorem ct_inc (t : Tracker) (n k m) : ct (t.incActivationCount n k) m =
    if m = n then (ct t n + 1) % u32 else ct t m := by
  unfold Tracker.incActivationCount
  simp only [ct_act, ct_set]; rfl

theorem fr_inc (t : Tracker) (n k) : (t.incActivationCount n k).frontier =
    if k ≤ (ct t n + 1) % u32 ∧ st t n = .ahead then t.frontier ++ [n] else t.frontier := by
  unfold Tracker.incActivationCount
  simp only [fr_act, st_set, ct_set, if_true, fr_set]; rfl

theorem st_dec (t : Tracker) (n k m) : st (t.decActivationCount n k) m =
    if m = n ∧ (ct t n + (u32 - 1)) % u32 < k ∧ st t n = .frontier then .ahead else st t m := by
  unfold Tracker.decActivationCount
  simp only [st_deact, st_set, ct_set, if_true]; rfl

theorem ct_dec (t : Tracker) (n k m) : ct (t.decActivationCount n k) m =
    if m = n then (ct t n + (u32 - 1)) % u32 else ct t m := by
  unfold Tracker.decActivationCount
  simp only [ct_deact, ct_set]; rfl

theorem fr_dec (t : Tracker) (n k) : (t.decActivationCount n k).frontier =
    if (ct t n + (u32 - 1)) % u32 < k ∧ st t n = .frontier then t.frontier.erase n
    else t.frontier := by
  unfold Tracker.decActivationCount
  simp only [fr_deact, st_set, ct_set, if_true, fr_set]; rfl

theorem st_remove (t : Tracker) (n m) : st (t.removeNode n) m = if m = n then .ahead else st t m := by
  unfold Tracker.removeNode st Tracker.entry
  cases h : t.states n with
  | none => by_cases hm : m = n <;> simp [hm, h]
  | some e => by_cases hm : m = n <;> simp [hm, h]

theorem ct_remove (t : Tracker) (n m) : ct (t.removeNode n) m = if m = n then 0 else ct t m := by
  unfold Tracker.removeNode ct Tracker.entry
  cases h : t.states n with
  | none => by_cases hm : m = n <;> simp [hm, h]
  | some e => by_cases hm : m = n <;> simp [hm, h]

theorem fr_remove (t : Tracker) (n) : (t.removeNode n).frontier =
    if st t n = .frontier then t.frontier.erase n else t.frontier := by
  unfold Tracker.removeNode st Tracker.entry
  cases h : t.states n with
  | none => simp [h]
  | some e => simp [h]

theorem dec_mod {c : Nat} (h : 1 ≤ c) (hc : c < u32) : (c + (u32 - 1)) % u32 = c - 1 := by
  unfold u32 at *; omega

theorem inc_mod {c : Nat} (hc : c + 1 < u32) : (c + 1) % u32 = c + 1 := Nat.mod_eq_of_lt hc

/-! ### the tracker invariant -/

/-- Frontier consistency: the list and the states agree. -/
structure FI (t : Tracker) : Prop where
  nodup : t.frontier.Nodup
  mem : ∀ n, n ∈ t.frontier ↔ st t n = .frontier

/-- `need`: number of edges a node waits for; `A`: the number of these that are active. `L`: live
nodes. `C`: whether no activation may have been missed. -/
structure TI (need A : NodeId → Nat) (L : NodeId → Prop) (C : Prop) (t : Tracker) : Prop where
  fi : FI t
  cnt : ∀ n, ct t n = A n
  le : ∀ n, A n ≤ need n
  small : ∀ n, need n < u32
  front : ∀ n, st t n = .frontier → need n ≤ A n
  live : ∀ n, st t n = .frontier → L n
  comp : C → ∀ n, L n → st t n = .ahead → A n < need n

theorem FI.push {t t' : Tracker} (h : FI t) (n : NodeId) (hn : st t n = .ahead)
    (hf : t'.frontier = t.frontier ++ [n])
    (hs : ∀ m, st t' m = if m = n then .frontier else st t m) : FI t' := by
  constructor
  · rw [hf, List.nodup_append]
    refine ⟨h.nodup, by simp, ?_⟩
    intro a ha b hb
    rw [List.mem_singleton] at hb
    subst hb
    rintro rfl
    rw [h.mem] at ha; rw [hn] at ha; cases ha
  · intro m
    rw [hf, hs]
    by_cases hm : m = n
    · simp [hm]
    · simp [hm, h.mem]

theorem FI.pop {t t' : Tracker} (h : FI t) (n : NodeId) (x : NState) (hx : x ≠ .frontier)
    (hf : t'.frontier = t.frontier.erase n)
    (hs : ∀ m, st t' m = if m = n then x else st t m) : FI t' := by
  constructor
  · rw [hf]; exact h.nodup.erase n
  · intro m
    rw [hf, hs]
    by_cases hm : m = n
    · subst hm
      simp [hx]
      exact fun hh => (h.nodup.mem_erase_iff.mp hh).1 rfl
    · simp [hm, h.nodup.mem_erase_iff, h.mem]

theorem FI.keep {t t' : Tracker} (h : FI t) (hf : t'.frontier = t.frontier)
    (hs : ∀ m, st t' m = st t m) : FI t' := by
  constructor
  · rw [hf]; exact h.nodup
  · intro m; rw [hf, hs]; exact h.mem m

theorem FI.act {t : Tracker} (h : FI t) (n k) : FI (t.checkNodeActivation n k) := by
  by_cases hc : k ≤ ct t n ∧ st t n = .ahead
  · exact h.push n hc.2 (by rw [fr_act, if_pos hc]) (by intro m; rw [st_act]; simp [hc])
  · exact h.keep (by rw [fr_act, if_neg hc]) (by intro m; rw [st_act, if_neg (fun hh => hc hh.2)])

theorem FI.deact {t : Tracker} (h : FI t) (n k) : FI (t.checkNodeDeactivation n k) := by
  by_cases hc : ct t n < k ∧ st t n = .frontier
  · exact h.pop n .ahead (by decide) (by rw [fr_deact, if_pos hc])
      (by intro m; rw [st_deact]; simp [hc])
  · exact h.keep (by rw [fr_deact, if_neg hc])
      (by intro m; rw [st_deact, if_neg (fun hh => hc hh.2)])

theorem FI.inc {t : Tracker} (h : FI t) (n k) : FI (t.incActivationCount n k) := by
  by_cases hc : k ≤ (ct t n + 1) % u32 ∧ st t n = .ahead
  · exact h.push n hc.2 (by rw [fr_inc, if_pos hc]) (by intro m; rw [st_inc]; simp [hc])
  · exact h.keep (by rw [fr_inc, if_neg hc]) (by intro m; rw [st_inc, if_neg (fun hh => hc hh.2)])

theorem FI.dec {t : Tracker} (h : FI t) (n k) : FI (t.decActivationCount n k) := by
  by_cases hc : (ct t n + (u32 - 1)) % u32 < k ∧ st t n = .frontier
  · exact h.pop n .ahead (by decide) (by rw [fr_dec, if_pos hc])
      (by intro m; rw [st_dec]; simp [hc])
  · exact h.keep (by rw [fr_dec, if_neg hc])
      (by intro m; rw [st_dec, if_neg (fun hh => hc hh.2)])

theorem FI.mark {t : Tracker} (h : FI t) (n) : FI (t.checkMarkNodeVisitedIfFrontier n) := by
  by_cases hc : st t n = .frontier
  · exact h.pop n .behind (by decide) (by rw [fr_mark, if_pos hc])
      (by intro m; rw [st_mark]; simp [hc])
  · exact h.keep (by rw [fr_mark, if_neg hc])
      (by intro m; rw [st_mark, if_neg (fun hh => hc hh.2)])

theorem FI.remove {t : Tracker} (h : FI t) (n) : FI (t.removeNode n) := by
  by_cases hc : st t n = .frontier
  · exact h.pop n .ahead (by decide) (by rw [fr_remove, if_pos hc])
      (by intro m; rw [st_remove])
  · have : n ∉ t.frontier := fun hh => hc ((h.mem n).mp hh)
    exact h.pop n .ahead (by decide) (by rw [fr_remove, if_neg hc, List.erase_of_not_mem this])
      (by intro m; rw [st_remove])

section ops
variable {need need' A A' : NodeId → Nat} {L : NodeId → Prop} {C : Prop} {t : Tracker} {n : NodeId}

theorem TI.inc (h : TI need A L C t) (hL : L n) {k : Nat} (hk : k = need' n)
    (hneed : ∀ m, m ≠ n → need' m = need m) (hA : ∀ m, m ≠ n → A' m = A m)
    (hAn : A' n = A n + 1) (hle : A' n ≤ need' n) (hs : need' n < u32)
    (hn : need' n ≤ need n + 1) : TI need' A' L C (t.incActivationCount n k) := by
  have hmod : (ct t n + 1) % u32 = A' n := by rw [h.cnt, ← hAn]; exact Nat.mod_eq_of_lt (by omega)
  subst hk
  refine ⟨h.fi.inc _ _, ?_, ?_, ?_, ?_, ?_, ?_⟩
  · intro m; rw [ct_inc, hmod]
    by_cases hm : m = n
    · rw [if_pos hm, hm]
    · rw [if_neg hm, h.cnt, hA m hm]
  · intro m
    by_cases hm : m = n
    · rw [hm]; exact hle
    · rw [hA m hm, hneed m hm]; exact h.le m
  · intro m
    by_cases hm : m = n
    · rw [hm]; exact hs
    · rw [hneed m hm]; exact h.small m
  · intro m hf
    rw [st_inc, hmod] at hf
    by_cases hm : m = n
    · subst hm
      by_cases hc : need' m ≤ A' m ∧ st t m = .ahead
      · exact hc.1
      · simp only [true_and, if_neg hc] at hf
        have := h.front m hf; omega
    · simp only [hm, false_and, if_false] at hf
      rw [hA m hm, hneed m hm]; exact h.front m hf
  · intro m hf
    rw [st_inc] at hf
    by_cases hm : m = n
    · rw [hm]; exact hL
    · simp only [hm, false_and, if_false] at hf; exact h.live m hf
  · intro c m hl hf
    rw [st_inc, hmod] at hf
    by_cases hm : m = n
    · subst hm
      by_cases hc : need' m ≤ A' m ∧ st t m = .ahead
      · simp [hc] at hf
      · simp only [true_and, if_neg hc] at hf
        have := h.comp c m hl hf
        have : ¬ need' m ≤ A' m := fun hh => hc ⟨hh, hf⟩
        omega
    · simp only [hm, false_and, if_false] at hf
      rw [hA m hm, hneed m hm]; exact h.comp c m hl hf

theorem TI.deact (h : TI need A L C t) {k : Nat} (hk : k = need' n)
    (hneed : ∀ m, m ≠ n → need' m = need m) (hA : ∀ m, A' m = A m)
    (hs : need' n < u32) (hn : need n ≤ need' n) :
    TI need' A' L C (t.checkNodeDeactivation n k) := by
  subst hk
  have hA' : A' = A := funext hA
  subst hA'
  refine ⟨h.fi.deact _ _, ?_, ?_, ?_, ?_, ?_, ?_⟩
  · intro m; rw [ct_deact]; exact h.cnt m
  · intro m
    by_cases hm : m = n
    · subst hm; exact (h.le m).trans hn
    · rw [hneed m hm]; exact h.le m
  · intro m
    by_cases hm : m = n
    · rw [hm]; exact hs
    · rw [hneed m hm]; exact h.small m
  · intro m hf
    rw [st_deact, h.cnt] at hf
    by_cases hm : m = n
    · subst hm
      by_cases hc : A' m < need' m ∧ st t m = .frontier
      · simp [hc] at hf
      · simp only [true_and, if_neg hc] at hf
        exact Nat.le_of_not_lt (fun hh => hc ⟨hh, hf⟩)
    · simp only [hm, false_and, if_false] at hf
      rw [hneed m hm]; exact h.front m hf
  · intro m hf
    rw [st_deact] at hf
    split at hf
    · cases hf
    · exact h.live m hf
  · intro c m hl hf
    rw [st_deact, h.cnt] at hf
    by_cases hm : m = n
    · subst hm
      by_cases hc : A' m < need' m ∧ st t m = .frontier
      · exact hc.1
      · simp only [true_and, if_neg hc] at hf
        have := h.comp c m hl hf; omega
    · simp only [hm, false_and, if_false] at hf
      rw [hneed m hm]; exact h.comp c m hl hf

theorem TI.act (h : TI need A L C t) (hL : L n) {k : Nat} (hk : need' n ≤ k)
    (hkc : C → k ≤ need' n)
    (hneed : ∀ m, m ≠ n → need' m = need m) (hA : ∀ m, A' m = A m)
    (hle : A n ≤ need' n) (hn : need' n ≤ need n) :
    TI need' A' L C (t.checkNodeActivation n k) := by
  have hA' : A' = A := funext hA
  subst hA'
  refine ⟨h.fi.act _ _, ?_, ?_, ?_, ?_, ?_, ?_⟩
  · intro m; rw [ct_act]; exact h.cnt m
  · intro m
    by_cases hm : m = n
    · subst hm; exact hle
    · rw [hneed m hm]; exact h.le m
  · intro m
    by_cases hm : m = n
    · rw [hm]; exact lt_of_le_of_lt hn (h.small n)
    · rw [hneed m hm]; exact h.small m
  · intro m hf
    rw [st_act, h.cnt] at hf
    by_cases hm : m = n
    · subst hm
      by_cases hc : k ≤ A' m ∧ st t m = .ahead
      · exact hk.trans hc.1
      · simp only [true_and, if_neg hc] at hf
        exact hn.trans (h.front m hf)
    · simp only [hm, false_and, if_false] at hf
      rw [hneed m hm]; exact h.front m hf
  · intro m hf
    rw [st_act] at hf
    by_cases hm : m = n
    · rw [hm]; exact hL
    · simp only [hm, false_and, if_false] at hf; exact h.live m hf
  · intro c m hl hf
    rw [st_act, h.cnt] at hf
    by_cases hm : m = n
    · subst hm
      by_cases hc : k ≤ A' m ∧ st t m = .ahead
      · simp [hc] at hf
      · simp only [true_and, if_neg hc] at hf
        have : ¬ k ≤ A' m := fun hh => hc ⟨hh, hf⟩
        have := hkc c
        omega
    · simp only [hm, false_and, if_false] at hf
      rw [hneed m hm]; exact h.comp c m hl hf

/-- decrement with the right threshold -/
theorem TI.dec (h : TI need A L C t) {k : Nat} (hk : k = need' n)
    (hneed : ∀ m, m ≠ n → need' m = need m) (hA : ∀ m, m ≠ n → A' m = A m)
    (hAn : A n = A' n + 1) (hle : A' n ≤ need' n) (hs : need' n < u32)
    (hn : need n ≤ need' n + 1) : TI need' A' L C (t.decActivationCount n k) := by
  have hmod : (ct t n + (u32 - 1)) % u32 = A' n := by
    rw [dec_mod, h.cnt]
    · omega
    · rw [h.cnt]; omega
    · rw [h.cnt]; exact lt_of_le_of_lt (h.le n) (h.small n)
  subst hk
  refine ⟨h.fi.dec _ _, ?_, ?_, ?_, ?_, ?_, ?_⟩
  · intro m; rw [ct_dec, hmod]
    by_cases hm : m = n
    · rw [if_pos hm, hm]
    · rw [if_neg hm, h.cnt, hA m hm]
  · intro m
    by_cases hm : m = n
    · rw [hm]; exact hle
    · rw [hA m hm, hneed m hm]; exact h.le m
  · intro m
    by_cases hm : m = n
    · rw [hm]; exact hs
    · rw [hneed m hm]; exact h.small m
  · intro m hf
    rw [st_dec, hmod] at hf
    by_cases hm : m = n
    · subst hm
      by_cases hc : A' m < need' m ∧ st t m = .frontier
      · simp [hc] at hf
      · simp only [true_and, if_neg hc] at hf
        exact Nat.le_of_not_lt (fun hh => hc ⟨hh, hf⟩)
    · simp only [hm, false_and, if_false] at hf
      rw [hA m hm, hneed m hm]; exact h.front m hf
  · intro m hf
    rw [st_dec] at hf
    split at hf
    · cases hf
    · exact h.live m hf
  · intro c m hl hf
    rw [st_dec, hmod] at hf
    by_cases hm : m = n
    · subst hm
      by_cases hc : A' m < need' m ∧ st t m = .frontier
      · exact hc.1
      · simp only [true_and, if_neg hc] at hf
        have := h.comp c m hl hf; omega
    · simp only [hm, false_and, if_false] at hf
      rw [hA m hm, hneed m hm]; exact h.comp c m hl hf

/-- decrement when an active edge disappears -/
theorem TI.dec0 (h : TI need A L C t)
    (hneed : ∀ m, m ≠ n → need' m = need m) (hA : ∀ m, m ≠ n → A' m = A m)
    (hAn : A n = A' n + 1) (hn : need n = need' n + 1) :
    TI need' A' L C (t.decActivationCount n 0) := by
  have hmod : (ct t n + (u32 - 1)) % u32 = A' n := by
    rw [dec_mod, h.cnt]
    · omega
    · rw [h.cnt]; omega
    · rw [h.cnt]; exact lt_of_le_of_lt (h.le n) (h.small n)
  have hst : ∀ m, st (t.decActivationCount n 0) m = st t m := by
    intro m; rw [st_dec]; simp
  refine ⟨h.fi.dec _ _, ?_, ?_, ?_, ?_, ?_, ?_⟩
  · intro m; rw [ct_dec, hmod]
    by_cases hm : m = n
    · rw [if_pos hm, hm]
    · rw [if_neg hm, h.cnt, hA m hm]
  · intro m
    have := h.le m
    by_cases hm : m = n
    · subst hm; omega
    · rw [hA m hm, hneed m hm]; exact this
  · intro m
    have := h.small m
    by_cases hm : m = n
    · subst hm; omega
    · rw [hneed m hm]; exact this
  · intro m hf
    rw [hst] at hf
    have := h.front m hf
    by_cases hm : m = n
    · subst hm; omega
    · rw [hA m hm, hneed m hm]; exact this
  · intro m hf
    rw [hst] at hf; exact h.live m hf
  · intro c m hl hf
    rw [hst] at hf
    have := h.comp c m hl hf
    by_cases hm : m = n
    · subst hm; omega
    · rw [hA m hm, hneed m hm]; exact this

theorem TI.mark (h : TI need A L C t) : TI need A L C (t.checkMarkNodeVisitedIfFrontier n) := by
  refine ⟨h.fi.mark _, ?_, h.le, h.small, ?_, ?_, ?_⟩
  · intro m; rw [ct_mark]; exact h.cnt m
  · intro m hf; rw [st_mark] at hf
    split at hf
    · cases hf
    · exact h.front m hf
  · intro m hf; rw [st_mark] at hf
    split at hf
    · cases hf
    · exact h.live m hf
  · intro c m hl hf; rw [st_mark] at hf
    split at hf
    · cases hf
    · exact h.comp c m hl hf

theorem TI.congr (h : TI need A L C t) (hn : ∀ m, need' m = need m) (hA : ∀ m, A' m = A m) :
    TI need' A' L C t := by
  rw [show need' = need from funext hn, show A' = A from funext hA]; exact h

theorem TI.incFold (thr : NodeId → Nat) (us : List NodeId) (h : TI need A L C t)
    (hL : ∀ u ∈ us, L u) (hthr : ∀ u ∈ us, thr u = need u)
    (hle : ∀ m, A m + us.count m ≤ need m) :
    TI need (fun m => A m + us.count m) L C
      (us.foldl (fun t u => t.incActivationCount u (thr u)) t) := by
  induction us generalizing A t with
  | nil => simpa using h
  | cons u us ih =>
    rw [List.foldl_cons]
    have h1 : TI need (fun m => A m + if m = u then 1 else 0) L C (t.incActivationCount u (thr u)) := by
      have := hle u
      rw [List.count_cons_self] at this
      exact h.inc (hL u (by simp)) (hthr u (by simp)) (fun _ _ => rfl)
        (by intro m hm; simp [hm]) (by simp) (by simp; omega) (h.small u) (by omega)
    have h2 := ih h1 (fun v hv => hL v (by simp [hv])) (fun v hv => hthr v (by simp [hv]))
      (by
        intro m
        have := hle m
        rw [List.count_cons] at this
        by_cases hm : m = u
        · simp [hm] at this ⊢; omega
        · have hm' : ¬ u = m := fun hh => hm hh.symm
          simp [hm, hm'] at this ⊢; omega)
    refine h2.congr (fun _ => rfl) ?_
    intro m
    rw [List.count_cons]
    by_cases hm : m = u
    · simp [hm]; omega
    · have hm' : ¬ u = m := fun hh => hm hh.symm
      simp [hm, hm']

end ops

/-! ### visitedness is changed only by marking and removal -/

theorem beh_act (t n k m) : (st (t.checkNodeActivation n k) m = .behind) ↔ (st t m = .behind) := by
  rw [st_act]; split
  · rename_i h; simp [h.1, h.2.2]
  · rfl
theorem beh_deact (t n k m) : (st (t.checkNodeDeactivation n k) m = .behind) ↔ (st t m = .behind) := by
  rw [st_deact]; split
  · rename_i h; simp [h.1, h.2.2]
  · rfl
theorem beh_inc (t n k m) : (st (t.incActivationCount n k) m = .behind) ↔ (st t m = .behind) := by
  rw [st_inc]; split
  · rename_i h; simp [h.1, h.2.2]
  · rfl
theorem beh_dec (t n k m) : (st (t.decActivationCount n k) m = .behind) ↔ (st t m = .behind) := by
  rw [st_dec]; split
  · rename_i h; simp [h.1, h.2.2]
  · rfl
theorem beh_mark (t n m) : (st (t.checkMarkNodeVisitedIfFrontier n) m = .behind) ↔
    (st t m = .behind ∨ m = n ∧ st t n = .frontier) := by
  rw [st_mark]; split
  · rename_i h; simp [h]
  · rename_i h; simp [h]

theorem beh_foldl {α : Type} (f : Tracker → α → Tracker)
    (hf : ∀ t a m, (st (f t a) m = .behind) ↔ (st t m = .behind)) (l : List α) (t : Tracker) (m) :
    (st (l.foldl f t) m = .behind) ↔ (st t m = .behind) := by
  induction l generalizing t with
  | nil => rfl
  | cons a l ih => rw [List.foldl_cons, ih, hf]

/-! ### edges -/

abbrev Edges := List (Option NodeId × Option NodeId)

/-- is an edge with this activator active? -/
def V (t : Tracker) : Option NodeId → Bool
  | none => true
  | some p => st t p == .behind

theorem V_none (t : Tracker) : V t none = true := rfl
theorem V_some (t : Tracker) (p : NodeId) : V t (some p) = (st t p == .behind) := rfl

def need (E : Edges) (n : NodeId) : Nat := E.countP (fun e => e.2 == some n)
def actv (E : Edges) (v : Option NodeId → Bool) (n : NodeId) : Nat :=
  E.countP (fun e => e.2 == some n && v e.1)

theorem actv_le (E : Edges) (v n) : actv E v n ≤ need E n := by
  apply List.countP_mono_left
  intro e _ h; simp at h ⊢; exact h.1

theorem actv_eq_need {E : Edges} {v n} (h : need E n ≤ actv E v n) :
    ∀ e ∈ E, e.2 = some n → v e.1 = true := by
  induction E with
  | nil => simp
  | cons a E ih =>
    unfold need actv at h
    rw [List.countP_cons, List.countP_cons] at h
    have hle := actv_le E v n
    unfold need actv at hle
    intro e he h2
    have key : need E n ≤ actv E v n ∧ (a.2 = some n → v a.1 = true) := by
      unfold need actv
      by_cases ha : a.2 = some n
      · by_cases hv : v a.1 = true
        · simp [ha, hv] at h; exact ⟨h, fun _ => hv⟩
        · simp [ha, hv] at h; omega
      · simp [ha] at h; exact ⟨h, fun hh => absurd hh ha⟩
    rcases List.mem_cons.mp he with rfl | he
    · exact key.2 h2
    · exact ih key.1 e he h2

theorem need_perm {E E' : Edges} (h : E.Perm E') (n) : need E n = need E' n := h.countP_eq _
theorem actv_perm {E E' : Edges} (h : E.Perm E') (v n) : actv E v n = actv E' v n := h.countP_eq _

theorem need_cons (e : Option NodeId × Option NodeId) (E n) :
    need (e :: E) n = need E n + if e.2 = some n then 1 else 0 := by
  unfold need; rw [List.countP_cons]; simp

theorem actv_cons (e : Option NodeId × Option NodeId) (E v n) :
    actv (e :: E) v n = actv E v n + if e.2 = some n ∧ v e.1 = true then 1 else 0 := by
  unfold actv; rw [List.countP_cons]; simp

theorem actv_congr {E : Edges} {v v' n} (h : ∀ e ∈ E, e.2 = some n → v e.1 = v' e.1) :
    actv E v n = actv E v' n := by
  apply List.countP_congr
  intro e he
  simp only [Bool.and_eq_true, beq_iff_eq]
  constructor
  · rintro ⟨a, b⟩; exact ⟨a, by rw [← h e he a]; exact b⟩
  · rintro ⟨a, b⟩; exact ⟨a, by rw [h e he a]; exact b⟩

/-- The invariant of both traversers, over the edges `(activator, dependent)` -/
def Inv (E : Edges) (L : NodeId → Prop) (C : Prop) (t : Tracker) : Prop :=
  TI (need E) (actv E (V t)) L C t

theorem V_congr {t t' : Tracker} (h : ∀ m, (st t' m = .behind) ↔ (st t m = .behind)) : V t' = V t := by
  funext o
  cases o with
  | none => rfl
  | some p =>
    unfold V
    have := h p
    by_cases hp : st t p = .behind
    · simp [hp, this.mpr hp]
    · have : ¬ st t' p = .behind := fun hh => hp (this.mp hh)
      simp [hp, this]

theorem Inv.perm {E E' : Edges} {L C t} (h : Inv E L C t) (hp : E'.Perm E) : Inv E' L C t :=
  TI.congr h (fun m => need_perm hp m) (fun m => actv_perm hp _ m)

/-- visiting a node on the frontier -/
theorem Inv.visit {E : Edges} {L C t} (thr : NodeId → Nat) (h : Inv E L C t) {n : NodeId}
    (hn : st t n = .frontier) {us : List NodeId}
    (hus : us.Perm (E.filterMap (fun e => if e.1 = some n then e.2 else none)))
    (hL : ∀ u ∈ us, L u) (hthr : ∀ u ∈ us, thr u = need E u) :
    Inv E L C (us.foldl (fun t u => t.incActivationCount u (thr u))
      (t.checkMarkNodeVisitedIfFrontier n)) := by
  have hcount : ∀ m, actv E (V (t.checkMarkNodeVisitedIfFrontier n)) m =
      actv E (V t) m + us.count m := by
    intro m
    rw [hus.count_eq]
    have hVn : V t (some n) = false := by rw [V_some, hn]; rfl
    have hV : ∀ o, V (t.checkMarkNodeVisitedIfFrontier n) o = (V t o || decide (o = some n)) := by
      intro o
      cases o with
      | none => simp [V_none]
      | some p =>
        rw [V_some, V_some, st_mark]
        by_cases hp : p = n
        · simp [hp, hn]
        · simp [hp]
    clear hus hL hthr h
    induction E with
    | nil => simp [actv]
    | cons e E ih =>
      rw [actv_cons, actv_cons, ih, List.filterMap_cons, hV]
      by_cases h1 : e.1 = some n
      · rw [h1, hVn]
        cases h2 : e.2 with
        | none => simp [h2]
        | some x =>
          simp [h2, List.count_cons]
          by_cases hx : x = m <;> simp [hx]; omega
      · simp [h1]; omega
  have h1 : TI (need E) (actv E (V t)) L C (t.checkMarkNodeVisitedIfFrontier n) := TI.mark h
  have h2 := h1.incFold thr us hL hthr (by
    intro m; rw [← hcount]; exact actv_le _ _ _)
  refine TI.congr h2 (fun _ => rfl) ?_
  intro m
  rw [← hcount m]
  rw [V_congr (t := t.checkMarkNodeVisitedIfFrontier n)]
  intro x
  exact beh_foldl _ (fun t a m => beh_inc _ _ _ _) _ _ _

/-- the callback for a new edge -/
def edgeCreate (thr : NodeId → Nat) (t : Tracker) (a d : Option NodeId) : Tracker :=
  match d with
  | none => t
  | some n => if V t a then t.incActivationCount n (thr n) else t.checkNodeDeactivation n (thr n)

/-- the callback for an edge about to be removed; `k` is the threshold -/
def edgeDestroy (k : NodeId → Nat) (t : Tracker) (a d : Option NodeId) : Tracker :=
  match d with
  | none => t
  | some n => if V t a then t.decActivationCount n 0 else t.checkNodeActivation n (k n)

theorem beh_edgeCreate (thr t a d m) :
    (st (edgeCreate thr t a d) m = .behind) ↔ (st t m = .behind) := by
  unfold edgeCreate
  cases d with
  | none => rfl
  | some n => simp only []; split; exact beh_inc _ _ _ _; exact beh_deact _ _ _ _

theorem beh_edgeDestroy (thr t a d m) :
    (st (edgeDestroy thr t a d) m = .behind) ↔ (st t m = .behind) := by
  unfold edgeDestroy
  cases d with
  | none => rfl
  | some n => simp only []; split; exact beh_dec _ _ _ _; exact beh_act _ _ _ _

theorem Inv.create {E : Edges} {L C t thr a d} (h : Inv E L C t)
    (hL : ∀ n, d = some n → L n) (hthr : ∀ n, d = some n → thr n = need ((a, d) :: E) n)
    (hs : ∀ n, need ((a, d) :: E) n < u32) : Inv ((a, d) :: E) L C (edgeCreate thr t a d) := by
  have hV := V_congr (beh_edgeCreate thr t a d)
  unfold Inv
  rw [hV]
  unfold edgeCreate
  cases d with
  | none =>
    refine TI.congr h ?_ ?_
    · intro m; rw [need_cons]; simp
    · intro m; rw [actv_cons]; simp
  | some n =>
    simp only []
    by_cases hv : V t a = true
    · rw [if_pos hv]
      refine TI.inc h (hL n rfl) (hthr n rfl) ?_ ?_ ?_ (actv_le _ _ _) (hs n) ?_
      · intro m hm; rw [need_cons]; simp [Ne.symm hm]
      · intro m hm; rw [actv_cons]; simp [Ne.symm hm]
      · rw [actv_cons]; simp [hv]
      · rw [need_cons]; simp
    · rw [if_neg hv]
      refine TI.deact h (hthr n rfl) ?_ ?_ (hs n) ?_
      · intro m hm; rw [need_cons]; simp [Ne.symm hm]
      · intro m; rw [actv_cons]; simp [hv]
      · rw [need_cons]; simp

theorem Inv.destroy {E : Edges} {L C t k a d} (h : Inv ((a, d) :: E) L C t)
    (hL : ∀ n, d = some n → L n) (hk : ∀ n, d = some n → need E n ≤ k n)
    (hkc : C → ∀ n, d = some n → k n ≤ need E n) : Inv E L C (edgeDestroy k t a d) := by
  have hV := V_congr (beh_edgeDestroy k t a d)
  unfold Inv
  rw [hV]
  unfold edgeDestroy
  cases d with
  | none =>
    refine TI.congr h ?_ ?_
    · intro m; rw [need_cons]; simp
    · intro m; rw [actv_cons]; simp
  | some n =>
    simp only []
    by_cases hv : V t a = true
    · rw [if_pos hv]
      refine TI.dec0 h ?_ ?_ ?_ ?_
      · intro m hm; rw [need_cons]; simp [Ne.symm hm]
      · intro m hm; rw [actv_cons]; simp [Ne.symm hm]
      · rw [actv_cons]; simp [hv]
      · rw [need_cons]; simp
    · rw [if_neg hv]
      refine TI.act h (hL n rfl) (hk n rfl) (fun c => hkc c n rfl) ?_ ?_ ?_ ?_
      · intro m hm; rw [need_cons]; simp [Ne.symm hm]
      · intro m; rw [actv_cons]; simp [hv]
      · rw [actv_cons]; simp [hv]; exact actv_le _ _ _
      · rw [need_cons]; simp

/-- nothing is pending: an empty frontier means every live node is visited, if the dependences
are acyclic -/
theorem Inv.all_visited {E : Edges} {L t} (h : Inv E L True t) (hf : t.frontier = [])
    (rank : NodeId → Nat)
    (hr : ∀ p n, (some p, some n) ∈ E → L n → L p ∧ rank p < rank n) :
    ∀ n, L n → st t n = .behind := by
  intro n
  induction hk : rank n using Nat.strong_induction_on generalizing n with
  | _ k ih =>
    intro hl
    cases hs : st t n with
    | behind => rfl
    | frontier =>
      have := (h.fi.mem n).mpr hs
      rw [hf] at this; cases this
    | ahead =>
      have hlt := h.comp trivial n hl hs
      exfalso
      apply absurd hlt
      push Not
      have : actv E (V t) n = need E n := by
        apply List.countP_congr
        intro e he
        simp only [Bool.and_eq_true, beq_iff_eq]
        constructor
        · exact fun hh => hh.1
        · intro h2
          refine ⟨h2, ?_⟩
          cases h1 : e.1 with
          | none => rfl
          | some p =>
            have hmem : (some p, some n) ∈ E := by rw [← h1, ← h2]; exact he
            have := hr p n hmem hl
            rw [V_some, ih (rank p) (by omega) p rfl this.1]; rfl
      omega

end Jlm.Rvsdg.Trav
