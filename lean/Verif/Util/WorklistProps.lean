import Verif.Util.WorklistSpec
import Verif.Util.HashSetProps
import Mathlib.Tactic.Tauto
set_option linter.unusedSimpArgs false
set_option linter.unusedSectionVars false
/- C15: worklists. -/
namespace Jlm.Util.Worklist

variable {α : Type}

theorem pending_nil (x : α) : ¬ Pending [] x := by
  rintro ⟨h₂, h₁, h, _⟩; simp at h

theorem pending_push {h : List (Ev α)} {x y : α} :
    Pending (.push y :: h) x ↔ x = y ∨ Pending h x := by
  constructor
  · rintro ⟨h₂, h₁, he, hn⟩
    cases h₂ with
    | nil => simp at he; exact Or.inl he.1.symm
    | cons e h₂ => simp at he hn; exact Or.inr ⟨h₂, h₁, he.2, hn.2⟩
  · rintro (rfl | ⟨h₂, h₁, rfl, hn⟩)
    · exact ⟨[], h, rfl, by simp⟩
    · exact ⟨.push y :: h₂, h₁, rfl, by simp [hn]⟩

theorem pending_pop {h : List (Ev α)} {x y : α} :
    Pending (.pop y :: h) x ↔ x ≠ y ∧ Pending h x := by
  constructor
  · rintro ⟨h₂, h₁, he, hn⟩
    cases h₂ with
    | nil => simp at he
    | cons e h₂ =>
      simp at he hn
      refine ⟨fun hxy => hn.1 (by rw [hxy, he.1]), h₂, h₁, he.2, hn.2⟩
  · rintro ⟨hne, h₂, h₁, rfl, hn⟩
    exact ⟨.pop y :: h₂, h₁, rfl, by simp [hn, hne]⟩

/-! ### LIFO and FIFO -/

section seq
variable [DecidableEq α]

theorem insert_mem (s : List α) (x : α) :
    (HashSet.insert s x).2 = decide (x ∉ s) ∧ ∀ y, y ∈ (HashSet.insert s x).1 ↔ y = x ∨ y ∈ s := by
  unfold HashSet.insert HashSet.size
  by_cases hx : x ∈ s
  · simp [hx]
  · simp [hx]

theorem remove_mem (s : List α) (x y : α) :
    y ∈ (HashSet.remove s x).1 ↔ y ∈ s ∧ y ≠ x := by
  simp [HashSet.remove]

/-- `a` waits behind `b` in the sequence of arrival. -/
def Later (h : List (Ev α)) (a b : α) : Prop := LaterThan h a b

theorem later_push {h : List (Ev α)} {x y z : α} (hl : LaterThan h x y) :
    LaterThan (.push z :: h) x y := by
  obtain ⟨h₂, h₁, rfl, hp, hn, hx⟩ := hl
  exact ⟨.push z :: h₂, h₁, rfl, hp, by simp [hn], hx⟩

theorem later_pop {h : List (Ev α)} {x y z : α} (hl : LaterThan h x y) (hz : y ≠ z) :
    LaterThan (.pop z :: h) x y := by
  obtain ⟨h₂, h₁, rfl, hp, hn, hx⟩ := hl
  exact ⟨.pop z :: h₂, h₁, rfl, hp, by simp [hn, hz], hx⟩

theorem later_new {h : List (Ev α)} {x y : α} (hy : Pending h y) (hx : ¬ Pending h x) :
    LaterThan (.push x :: h) x y :=
  ⟨[.push x], h, rfl, hy, by simp, hx⟩

structure SeqInv (R : α → α → Prop) (s : SeqState α) (h : List (Ev α)) : Prop where
  on : ∀ x, x ∈ s.onList ↔ Pending h x
  mem : ∀ x, x ∈ s.items ↔ Pending h x
  nodup : s.items.Nodup
  ord : s.items.Pairwise R

theorem lifo_inv {s : (lifo (α := α)).σ} {h : List (Ev α)} (hr : Reach lifo s h) :
    SeqInv (fun a b => LaterThan h a b) s h := by
  induction hr with
  | init => exact ⟨fun x => by simp [lifo, pending_nil], fun x => by simp [lifo, pending_nil],
      by simp [lifo], by simp [lifo]⟩
  | @push s h x _ ih =>
    obtain ⟨h1, h2⟩ := insert_mem s.onList x
    by_cases hx : x ∈ s.onList
    · have he : lifo.push s x = ⟨(HashSet.insert s.onList x).1, s.items⟩ := by
        simp [lifo, h1, hx]
      rw [he]
      have hp := (ih.on x).mp hx
      refine ⟨fun y => ?_, fun y => ?_, ih.nodup, ih.ord.imp later_push⟩
      · rw [h2, pending_push, ih.on]
      · rw [ih.mem, pending_push]; constructor
        · exact Or.inr
        · rintro (rfl | h); exacts [hp, h]
    · have he : lifo.push s x = ⟨(HashSet.insert s.onList x).1, x :: s.items⟩ := by
        simp [lifo, h1, hx]
      rw [he]
      have hp : ¬ Pending h x := fun h => hx ((ih.on x).mpr h)
      refine ⟨fun y => ?_, fun y => ?_, ?_, ?_⟩
      · rw [h2, pending_push, ih.on]
      · simp [pending_push, ih.mem]
      · exact List.nodup_cons.mpr ⟨fun h => hp ((ih.mem x).mp h), ih.nodup⟩
      · refine List.pairwise_cons.mpr ⟨fun y hy => later_new ((ih.mem y).mp hy) hp,
          ih.ord.imp later_push⟩
  | @pop s h x s' _ hpop ih =>
    obtain ⟨on, items⟩ := s
    cases items with
    | nil => simp [lifo] at hpop
    | cons y ys =>
      simp only [lifo, Option.some.injEq, Prod.mk.injEq] at hpop
      obtain ⟨rfl, rfl⟩ := hpop
      have hnd := List.nodup_cons.mp ih.nodup
      refine ⟨fun z => ?_, fun z => ?_, hnd.2, ?_⟩
      · simp only [remove_mem, pending_pop]
        have := ih.on z; simp only at this; rw [this]; tauto
      · rw [pending_pop, ← ih.mem]; simp
        constructor
        · intro hz; exact ⟨fun h => hnd.1 (h ▸ hz), Or.inr hz⟩
        · rintro ⟨h, h' | h'⟩; exacts [absurd h' h, h']
      · have hp := (List.pairwise_cons.mp ih.ord).2
        exact hp.imp_of_mem fun {a b} _ hb hl => later_pop hl (fun h => hnd.1 (h ▸ hb))

theorem fifo_inv {s : (fifo (α := α)).σ} {h : List (Ev α)} (hr : Reach fifo s h) :
    SeqInv (fun a b => LaterThan h b a) s h := by
  induction hr with
  | init => exact ⟨fun x => by simp [fifo, pending_nil], fun x => by simp [fifo, pending_nil],
      by simp [fifo], by simp [fifo]⟩
  | @push s h x _ ih =>
    obtain ⟨h1, h2⟩ := insert_mem s.onList x
    by_cases hx : x ∈ s.onList
    · have he : fifo.push s x = ⟨(HashSet.insert s.onList x).1, s.items⟩ := by
        simp [fifo, h1, hx]
      rw [he]
      have hp := (ih.on x).mp hx
      refine ⟨fun y => ?_, fun y => ?_, ih.nodup, ih.ord.imp later_push⟩
      · rw [h2, pending_push, ih.on]
      · rw [ih.mem, pending_push]; constructor
        · exact Or.inr
        · rintro (rfl | h); exacts [hp, h]
    · have he : fifo.push s x = ⟨(HashSet.insert s.onList x).1, s.items ++ [x]⟩ := by
        simp [fifo, h1, hx]
      rw [he]
      have hp : ¬ Pending h x := fun h => hx ((ih.on x).mpr h)
      refine ⟨fun y => ?_, fun y => ?_, ?_, ?_⟩
      · rw [h2, pending_push, ih.on]
      · simp [pending_push, ih.mem]; tauto
      · refine List.nodup_append.mpr ⟨ih.nodup, by simp, ?_⟩
        intro a ha b hb; simp at hb; subst hb
        rintro rfl; exact hp ((ih.mem a).mp ha)
      · refine List.pairwise_append.mpr ⟨ih.ord.imp later_push, by simp, ?_⟩
        intro a ha b hb; simp at hb; subst hb
        exact later_new ((ih.mem a).mp ha) hp
  | @pop s h x s' _ hpop ih =>
    obtain ⟨on, items⟩ := s
    cases items with
    | nil => simp [fifo] at hpop
    | cons y ys =>
      simp only [fifo, Option.some.injEq, Prod.mk.injEq] at hpop
      obtain ⟨rfl, rfl⟩ := hpop
      have hnd := List.nodup_cons.mp ih.nodup
      refine ⟨fun z => ?_, fun z => ?_, hnd.2, ?_⟩
      · simp only [remove_mem, pending_pop]
        have := ih.on z; simp only at this; rw [this]; tauto
      · rw [pending_pop, ← ih.mem]; simp
        constructor
        · intro hz; exact ⟨fun h => hnd.1 (h ▸ hz), Or.inr hz⟩
        · rintro ⟨h, h' | h'⟩; exacts [absurd h' h, h']
      · have hp := (List.pairwise_cons.mp ih.ord).2
        exact hp.imp_of_mem fun {a b} ha _ hl => later_pop hl (fun h => hnd.1 (h ▸ ha))

/-- LIFO worklist: it holds exactly the waiting items, and pops the one that entered last. -/
theorem C15_lifo {s : (lifo (α := α)).σ} {h : List (Ev α)} (hr : Reach lifo s h) :
    (lifo.hasMore s = true ↔ ∃ x, Pending h x) ∧
    ((∃ x, Pending h x) → ∃ x s', lifo.pop s = some (x, s')) ∧
    (∀ x s', lifo.pop s = some (x, s') →
      Pending h x ∧ ∀ y, Pending h y → y ≠ x → LaterThan h x y) := by
  have inv := lifo_inv hr
  obtain ⟨on, items⟩ := s
  cases items with
  | nil =>
    have hno : ∀ x, ¬ Pending h x := fun x hx => by simpa using (inv.mem x).mpr hx
    simp [lifo, hno]
  | cons y ys =>
    have hy := (inv.mem y).mp (by simp)
    refine ⟨?_, ?_, ?_⟩
    · simp only [lifo, List.isEmpty_cons, Bool.not_false, true_iff]; exact ⟨y, hy⟩
    · intro _; exact ⟨y, _, rfl⟩
    · rintro x s' hp
      simp only [lifo, Option.some.injEq, Prod.mk.injEq] at hp
      obtain ⟨rfl, _⟩ := hp
      refine ⟨hy, fun z hz hne => ?_⟩
      have := (inv.mem z).mpr hz
      simp [hne] at this
      exact (List.pairwise_cons.mp inv.ord).1 z this

/-- FIFO worklist: it holds exactly the waiting items, and pops the one that entered first. -/
theorem C15_fifo {s : (fifo (α := α)).σ} {h : List (Ev α)} (hr : Reach fifo s h) :
    (fifo.hasMore s = true ↔ ∃ x, Pending h x) ∧
    ((∃ x, Pending h x) → ∃ x s', fifo.pop s = some (x, s')) ∧
    (∀ x s', fifo.pop s = some (x, s') →
      Pending h x ∧ ∀ y, Pending h y → y ≠ x → LaterThan h y x) := by
  have inv := fifo_inv hr
  obtain ⟨on, items⟩ := s
  cases items with
  | nil =>
    have hno : ∀ x, ¬ Pending h x := fun x hx => by simpa using (inv.mem x).mpr hx
    simp [fifo, hno]
  | cons y ys =>
    have hy := (inv.mem y).mp (by simp)
    refine ⟨?_, ?_, ?_⟩
    · simp only [fifo, List.isEmpty_cons, Bool.not_false, true_iff]; exact ⟨y, hy⟩
    · intro _; exact ⟨y, _, rfl⟩
    · rintro x s' hp
      simp only [fifo, Option.some.injEq, Prod.mk.injEq] at hp
      obtain ⟨rfl, _⟩ := hp
      refine ⟨hy, fun z hz hne => ?_⟩
      have := (inv.mem z).mpr hz
      simp [hne] at this
      exact (List.pairwise_cons.mp inv.ord).1 z this

end seq

/-- "Entered later" is irreflexive and cannot hold both ways, so LIFO and FIFO really differ. -/
theorem C15_later_asymm (h : List (Ev α)) (x y : α) (hx : Pending h x)
    (h1 : LaterThan h x y) : ¬ LaterThan h y x := by
  have mono : ∀ (h₂ h₁ : List (Ev α)) z, Pending h₁ z → Ev.pop z ∉ h₂ → Pending (h₂ ++ h₁) z := by
    rintro h₂ h₁ z ⟨a, b, rfl, hn⟩ hz
    exact ⟨h₂ ++ a, b, by simp, by simp [hz, hn]⟩
  obtain ⟨a₂, a₁, rfl, p1, n1, q1⟩ := h1
  rintro ⟨b₂, b₁, he, p2, n2, q2⟩
  rcases List.append_eq_append_iff.mp he with ⟨c, rfl, rfl⟩ | ⟨c, rfl, rfl⟩
  · exact q1 (mono _ _ _ p2 (by simp at n2; exact n2.2))
  · exact q2 (mono _ _ _ p1 (by simp at n1; exact n1.2))

/-! ### LRF -/

section lrf
variable [LinearOrder α]

theorem lrfPush_eq {s : LrfState α} {x : α} (h : s.lastFire x ≠ sentinel) :
    lrfPush s x = ⟨s.items.orderedInsert (· ≤ ·) (toLex (s.lastFire x, x)), s.fireCounter,
        Function.update s.lastFire x sentinel⟩ := if_neg h

theorem twoPush_eq {s : TwoState α} {x : α} (h : s.lastFire x ≠ sentinel) :
    twoPush s x = ⟨s.current, toLex (s.lastFire x, x) :: s.next, s.fireCounter,
        Function.update s.lastFire x sentinel⟩ := if_neg h

theorem lexExt {p q : Nat ×ₗ α} (h1 : (ofLex p).1 = (ofLex q).1) (h2 : (ofLex p).2 = (ofLex q).2) :
    p = q := by
  have : ofLex p = ofLex q := Prod.ext h1 h2
  exact ofLex.injective this

theorem lastPop_le (h : List (Ev α)) (x : α) : lastPop h x ≤ pops h := by
  induction h with
  | nil => simp [lastPop, pops]
  | cons e h ih =>
    cases e <;> simp only [lastPop, pops]
    · exact ih
    · split <;> omega

structure LrfInv (s : LrfState α) (h : List (Ev α)) : Prop where
  counter : s.fireCounter = pops h
  mem : ∀ p, p ∈ s.items ↔ Pending h (ofLex p).2 ∧ (ofLex p).1 = lastPop h (ofLex p).2
  sorted : s.items.Pairwise (· ≤ ·)
  nodup : s.items.Nodup
  fire : ∀ x, (Pending h x → s.lastFire x = sentinel) ∧ (¬ Pending h x → s.lastFire x = lastPop h x)

theorem lrf_inv {s : (lrf (α := α)).σ} {h : List (Ev α)} (hr : Reach lrf s h)
    (hb : pops h < sentinel) : LrfInv s h := by
  induction hr with
  | init => exact ⟨rfl, fun p => by simp [lrf, pending_nil], by simp [lrf], by simp [lrf],
      fun x => by simp [lrf, pending_nil, lastPop]⟩
  | @push s h x _ ih =>
    have ih := ih hb
    by_cases hx : Pending h x
    · have he : lrf.push s x = s := if_pos ((ih.fire x).1 hx)
      rw [he]
      have hpp : ∀ y, Pending (.push x :: h) y ↔ Pending h y := fun y => by
        rw [pending_push]; exact ⟨fun h => h.elim (fun h => h ▸ hx) id, Or.inr⟩
      exact ⟨ih.counter, fun p => by rw [ih.mem, hpp]; rfl, ih.sorted, ih.nodup,
        fun y => by rw [hpp]; exact ih.fire y⟩
    · have hf := (ih.fire x).2 hx
      have hlt : lastPop h x < sentinel := lt_of_le_of_lt (lastPop_le h x) hb
      have he : lrf.push s x = ⟨s.items.orderedInsert (· ≤ ·) (toLex (lastPop h x, x)),
          s.fireCounter, Function.update s.lastFire x sentinel⟩ := by
        have h0 := lrfPush_eq (s := s) (x := x) (by rw [hf]; omega)
        rw [hf] at h0; exact h0
      rw [he]
      refine ⟨ih.counter, fun p => ?_, ih.sorted.orderedInsert _ _, ?_, fun y => ?_⟩
      · simp only [List.mem_orderedInsert, ih.mem, pending_push, lastPop]
        constructor
        · rintro (rfl | ⟨h1, h2⟩)
          · exact ⟨Or.inl rfl, rfl⟩
          · exact ⟨Or.inr h1, h2⟩
        · rintro ⟨rfl | h1, h2⟩
          · left; exact lexExt h2 rfl
          · exact Or.inr ⟨h1, h2⟩
      · have hn : toLex (lastPop h x, x) ∉ s.items := fun hm => hx ((ih.mem _).mp hm).1
        exact (List.perm_orderedInsert _ _ _).nodup_iff.mpr (List.nodup_cons.mpr ⟨hn, ih.nodup⟩)
      · by_cases hyx : y = x
        · subst hyx; simp [pending_push]
        · simp only [Function.update_of_ne hyx, pending_push, hyx, false_or, lastPop]
          exact ih.fire y
  | @pop s h x s' _ hpop ih =>
    have ih := ih (by simp [pops] at hb; omega)
    obtain ⟨items, fc, lf⟩ := s
    cases items with
    | nil => simp [lrf] at hpop
    | cons p ps =>
      simp only [lrf, Option.some.injEq, Prod.mk.injEq] at hpop
      obtain ⟨rfl, rfl⟩ := hpop
      have hc := ih.counter
      simp only at hc
      have hnd := List.nodup_cons.mp ih.nodup
      have hp := (ih.mem p).mp (by simp)
      refine ⟨by simp [pops, hc], fun q => ?_, (List.pairwise_cons.mp ih.sorted).2, hnd.2,
        fun y => ?_⟩
      · have hq := ih.mem q
        simp only [List.mem_cons] at hq
        simp only [pending_pop]
        constructor
        · intro hm
          obtain ⟨h1, h2⟩ := hq.mp (Or.inr hm)
          have hne : (ofLex q).2 ≠ (ofLex p).2 := by
            intro he
            have : q = p := lexExt (by rw [h2, hp.2, he]) he
            exact hnd.1 (this ▸ hm)
          exact ⟨⟨hne, h1⟩, by rw [h2]; simp [lastPop, hne]⟩
        · rintro ⟨⟨hne, h1⟩, h2⟩
          simp only [lastPop, hne, if_false] at h2
          rcases hq.mpr ⟨h1, h2⟩ with rfl | h
          · exact absurd rfl hne
          · exact h
      · by_cases hy : y = (ofLex p).2
        · subst hy; simp [pending_pop, lastPop, hc]
        · simp only [Function.update_of_ne hy, pending_pop, ne_eq, hy, not_false_eq_true, true_and,
            lastPop, if_false]
          exact ih.fire y

/-- LRF worklist: it holds exactly the waiting items, and pops the one whose last pop is oldest
(never popped counts as oldest; ties are broken towards the smaller item). -/
theorem C15_lrf {s : (lrf (α := α)).σ} {h : List (Ev α)} (hr : Reach lrf s h)
    (hb : pops h < 2 ^ 64 - 1) :
    (lrf.hasMore s = true ↔ ∃ x, Pending h x) ∧
    ((∃ x, Pending h x) → ∃ x s', lrf.pop s = some (x, s')) ∧
    (∀ x s', lrf.pop s = some (x, s') → LeastRecent h (Pending h) x) := by
  have inv := lrf_inv hr hb
  obtain ⟨items, fc, lf⟩ := s
  have hin : ∀ y, Pending h y → toLex (lastPop h y, y) ∈ items := fun y hy =>
    (inv.mem _).mpr ⟨hy, rfl⟩
  cases items with
  | nil =>
    have hno : ∀ x, ¬ Pending h x := fun x hx => by simpa using hin x hx
    simp [lrf, hno]
  | cons p ps =>
    have hy := (inv.mem p).mp (by simp)
    refine ⟨?_, ?_, ?_⟩
    · simp only [lrf, List.isEmpty_cons, Bool.not_false, true_iff]; exact ⟨_, hy.1⟩
    · intro _; exact ⟨_, _, rfl⟩
    · rintro x s' hp
      simp only [lrf, Option.some.injEq, Prod.mk.injEq] at hp
      obtain ⟨rfl, _⟩ := hp
      refine ⟨hy.1, fun z hz => ?_⟩
      have hm := hin z hz
      have hle : p ≤ toLex (lastPop h z, z) := by
        rcases List.mem_cons.mp hm with h | h
        · exact h ▸ le_refl _
        · exact (List.pairwise_cons.mp inv.sorted).1 _ h
      rw [Prod.Lex.le_iff] at hle
      rw [hy.2] at hle
      exact hle

/-! ### Two-phase LRF -/

structure TwoInv (s : TwoState α) (h : List (Ev α)) : Prop where
  counter : s.fireCounter = pops h
  cur : ∀ p, p ∈ s.current ↔ InPhase h (ofLex p).2 ∧ (ofLex p).1 = lastPop h (ofLex p).2
  nxt : ∀ p, p ∈ s.next ↔ (Pending h (ofLex p).2 ∧ ¬ InPhase h (ofLex p).2) ∧
    (ofLex p).1 = lastPop h (ofLex p).2
  sub : ∀ x, InPhase h x → Pending h x
  sorted : s.current.Pairwise (· ≤ ·)
  nodup : s.current.Nodup
  nodup' : s.next.Nodup
  fire : ∀ x, (Pending h x → s.lastFire x = sentinel) ∧ (¬ Pending h x → s.lastFire x = lastPop h x)

structure TwoInv' (s : TwoState α) (h : List (Ev α)) : Prop where
  counter : s.fireCounter = pops h
  cur : ∀ p, p ∈ s.current ↔ Eligible h (ofLex p).2 ∧ (ofLex p).1 = lastPop h (ofLex p).2
  nxt : ∀ p, p ∈ s.next ↔ (Pending h (ofLex p).2 ∧ ¬ Eligible h (ofLex p).2) ∧
    (ofLex p).1 = lastPop h (ofLex p).2
  sub : ∀ x, Eligible h x → Pending h x
  sorted : s.current.Pairwise (· ≤ ·)
  nodup : s.current.Nodup
  nodup' : s.next.Nodup
  fire : ∀ x, (Pending h x → s.lastFire x = sentinel) ∧ (¬ Pending h x → s.lastFire x = lastPop h x)

theorem switch_inv {s : TwoState α} {h : List (Ev α)} (ih : TwoInv s h) : TwoInv' s.switch h := by
  unfold TwoState.switch
  by_cases hc : s.current = []
  · have hno : ¬ ∃ z, InPhase h z := by
      rintro ⟨z, hz⟩
      have := (ih.cur (toLex (lastPop h z, z))).mpr ⟨hz, rfl⟩
      rw [hc] at this; simp at this
    have hel : ∀ x, Eligible h x ↔ Pending h x := fun x => by
      simp [Eligible, hno]
    have hno' : ∀ z, ¬ InPhase h z := fun z hz => hno ⟨z, hz⟩
    rw [if_pos (by simp [hc])]
    refine ⟨ih.counter, fun p => ?_, fun p => ?_, fun x hx => (hel x).mp hx,
      List.pairwise_insertionSort _ _, ?_, by simp, ih.fire⟩
    · simp only [List.mem_insertionSort, ih.nxt, hel, hno', not_false_eq_true, and_true]
    · simp [hel]
    · exact (List.perm_insertionSort _ _).nodup_iff.mpr ih.nodup'
  · have hex : ∃ z, InPhase h z := by
      obtain ⟨p, hp⟩ := List.exists_mem_of_ne_nil _ hc
      exact ⟨_, ((ih.cur p).mp hp).1⟩
    have hel : ∀ x, Eligible h x ↔ InPhase h x := fun x => by
      unfold Eligible; tauto
    rw [if_neg (by simp [hc])]
    exact ⟨ih.counter, fun p => by rw [ih.cur, hel], fun p => by rw [ih.nxt, hel],
      fun x hx => ih.sub x ((hel x).mp hx), ih.sorted, ih.nodup, ih.nodup', ih.fire⟩

theorem two_inv {s : (twoPhaseLrf (α := α)).σ} {h : List (Ev α)} (hr : Reach twoPhaseLrf s h)
    (hb : pops h < sentinel) : TwoInv s h := by
  induction hr with
  | init =>
    exact ⟨rfl, fun p => by simp [twoPhaseLrf, InPhase], fun p => by simp [twoPhaseLrf, pending_nil],
      fun x hx => by simp [InPhase] at hx, by simp [twoPhaseLrf], by simp [twoPhaseLrf],
      by simp [twoPhaseLrf], fun x => by simp [twoPhaseLrf, pending_nil, lastPop]⟩
  | @push s h x _ ih =>
    have ih := ih hb
    by_cases hx : Pending h x
    · have he : twoPhaseLrf.push s x = s := if_pos ((ih.fire x).1 hx)
      rw [he]
      have hpp : ∀ y, Pending (.push x :: h) y ↔ Pending h y := fun y => by
        rw [pending_push]; exact ⟨fun h => h.elim (fun h => h ▸ hx) id, Or.inr⟩
      exact ⟨ih.counter, fun p => by rw [ih.cur]; rfl, fun p => by rw [ih.nxt, hpp]; rfl,
        fun y hy => (hpp y).mpr (ih.sub y hy), ih.sorted, ih.nodup, ih.nodup',
        fun y => by rw [hpp]; exact ih.fire y⟩
    · have hf := (ih.fire x).2 hx
      have hlt : lastPop h x < sentinel := lt_of_le_of_lt (lastPop_le h x) hb
      have he : twoPhaseLrf.push s x = ⟨s.current, toLex (lastPop h x, x) :: s.next,
          s.fireCounter, Function.update s.lastFire x sentinel⟩ := by
        have h0 := twoPush_eq (s := s) (x := x) (by rw [hf]; omega)
        rw [hf] at h0; exact h0
      rw [he]
      have hnp : ¬ InPhase h x := fun h => hx (ih.sub x h)
      refine ⟨ih.counter, fun p => by rw [ih.cur]; rfl, fun p => ?_,
        fun y hy => pending_push.mpr (Or.inr (ih.sub y hy)), ih.sorted, ih.nodup, ?_, fun y => ?_⟩
      · simp only [List.mem_cons, ih.nxt, pending_push, lastPop, InPhase]
        constructor
        · rintro (rfl | ⟨⟨h1, h2⟩, h3⟩)
          · exact ⟨⟨Or.inl rfl, hnp⟩, rfl⟩
          · exact ⟨⟨Or.inr h1, h2⟩, h3⟩
        · rintro ⟨⟨rfl | h1, h2⟩, h3⟩
          · left; exact lexExt h3 rfl
          · exact Or.inr ⟨⟨h1, h2⟩, h3⟩
      · exact List.nodup_cons.mpr ⟨fun hm => hx ((ih.nxt _).mp hm).1.1, ih.nodup'⟩
      · by_cases hyx : y = x
        · subst hyx; simp [pending_push]
        · simp only [Function.update_of_ne hyx, pending_push, hyx, false_or, lastPop]
          exact ih.fire y
  | @pop s h x s' _ hpop ih =>
    have ih := switch_inv (ih (by simp [pops] at hb; omega))
    simp only [twoPhaseLrf] at hpop
    generalize TwoState.switch s = t at hpop ih
    obtain ⟨items, nx, fc, lf⟩ := t
    cases items with
    | nil => simp at hpop
    | cons p ps =>
      simp only [Option.some.injEq, Prod.mk.injEq] at hpop
      obtain ⟨rfl, rfl⟩ := hpop
      have hc := ih.counter
      simp only at hc
      have hnd := List.nodup_cons.mp ih.nodup
      have hp := (ih.cur p).mp (by simp)
      have hip : ∀ z, InPhase (.pop (ofLex p).2 :: h) z ↔ z ≠ (ofLex p).2 ∧ Eligible h z :=
        fun z => Iff.rfl
      refine ⟨by simp [pops, hc], fun q => ?_, fun q => ?_, fun y hy => ?_,
        (List.pairwise_cons.mp ih.sorted).2, hnd.2, ih.nodup', fun y => ?_⟩
      · have hq := ih.cur q
        simp only [List.mem_cons] at hq
        simp only [hip]
        constructor
        · intro hm
          obtain ⟨h1, h2⟩ := hq.mp (Or.inr hm)
          have hne : (ofLex q).2 ≠ (ofLex p).2 := by
            intro he
            have : q = p := lexExt (by rw [h2, hp.2, he]) he
            exact hnd.1 (this ▸ hm)
          exact ⟨⟨hne, h1⟩, by rw [h2]; simp [lastPop, hne]⟩
        · rintro ⟨⟨hne, h1⟩, h2⟩
          simp only [lastPop, hne, if_false] at h2
          rcases hq.mpr ⟨h1, h2⟩ with rfl | h
          · exact absurd rfl hne
          · exact h
      · have hq := ih.nxt q
        simp only at hq
        simp only [hip, hq, pending_pop, lastPop]
        constructor
        · rintro ⟨⟨h1, h2⟩, h3⟩
          have hne : (ofLex q).2 ≠ (ofLex p).2 := fun he => h2 (he ▸ hp.1)
          refine ⟨⟨⟨hne, h1⟩, fun h => h2 h.2⟩, by simp [hne, h3]⟩
        · rintro ⟨⟨⟨hne, h1⟩, h2⟩, h3⟩
          simp only [hne, if_false] at h3
          exact ⟨⟨h1, fun h => h2 ⟨hne, h⟩⟩, h3⟩
      · exact pending_pop.mpr ⟨((hip y).mp hy).1, ih.sub y ((hip y).mp hy).2⟩
      · by_cases hy : y = (ofLex p).2
        · subst hy; simp [pending_pop, lastPop, hc]
        · simp only [Function.update_of_ne hy, pending_pop, ne_eq, hy, not_false_eq_true, true_and,
            lastPop, if_false]
          exact ih.fire y

/-- Two-phase LRF worklist: it holds exactly the waiting items, and pops the least recently popped
item of the current phase, starting a new phase with everything that is waiting when the current
one is exhausted. -/
theorem C15_twoPhaseLrf {s : (twoPhaseLrf (α := α)).σ} {h : List (Ev α)}
    (hr : Reach twoPhaseLrf s h) (hb : pops h < 2 ^ 64 - 1) :
    (twoPhaseLrf.hasMore s = true ↔ ∃ x, Pending h x) ∧
    ((∃ x, Pending h x) → ∃ x s', twoPhaseLrf.pop s = some (x, s')) ∧
    (∀ x s', twoPhaseLrf.pop s = some (x, s') → Pending h x ∧ LeastRecent h (Eligible h) x) := by
  have inv := two_inv hr hb
  have inv' := switch_inv inv
  have hmore : (twoPhaseLrf.hasMore s = true ↔ ∃ x, Pending h x) := by
    have : twoPhaseLrf.hasMore s = true ↔ (s.current ≠ [] ∨ s.next ≠ []) := by
      simp [twoPhaseLrf]
    rw [this]
    constructor
    · rintro (hc | hn)
      · obtain ⟨p, hp⟩ := List.exists_mem_of_ne_nil _ hc
        exact ⟨_, inv.sub _ ((inv.cur p).mp hp).1⟩
      · obtain ⟨p, hp⟩ := List.exists_mem_of_ne_nil _ hn
        exact ⟨_, ((inv.nxt p).mp hp).1.1⟩
    · rintro ⟨x, hx⟩
      by_cases hi : InPhase h x
      · left; exact List.ne_nil_of_mem ((inv.cur (toLex (lastPop h x, x))).mpr ⟨hi, rfl⟩)
      · right; exact List.ne_nil_of_mem ((inv.nxt (toLex (lastPop h x, x))).mpr ⟨⟨hx, hi⟩, rfl⟩)
  have hel : (∃ x, Pending h x) → ∃ x, Eligible h x := by
    rintro ⟨x, hx⟩
    by_cases hi : ∃ z, InPhase h z
    · obtain ⟨z, hz⟩ := hi; exact ⟨z, Or.inl ⟨⟨z, hz⟩, hz⟩⟩
    · exact ⟨x, Or.inr ⟨hi, hx⟩⟩
  refine ⟨hmore, ?_, ?_⟩
  · intro hx
    obtain ⟨x, hx⟩ := hel hx
    have hm := (inv'.cur (toLex (lastPop h x, x))).mpr ⟨hx, rfl⟩
    simp only [twoPhaseLrf]
    cases hc : (TwoState.switch s).current with
    | nil => rw [hc] at hm; simp at hm
    | cons p ps => exact ⟨_, _, rfl⟩
  · rintro x s' hp
    simp only [twoPhaseLrf] at hp
    cases hc : (TwoState.switch s).current with
    | nil => rw [hc] at hp; simp at hp
    | cons p ps =>
      rw [hc] at hp
      simp only [Option.some.injEq, Prod.mk.injEq] at hp
      obtain ⟨rfl, _⟩ := hp
      have hy := (inv'.cur p).mp (by rw [hc]; simp)
      refine ⟨inv'.sub _ hy.1, hy.1, fun z hz => ?_⟩
      have hm := (inv'.cur (toLex (lastPop h z, z))).mpr ⟨hz, rfl⟩
      rw [hc] at hm
      have hs := inv'.sorted; rw [hc] at hs
      have hle : p ≤ toLex (lastPop h z, z) := by
        rcases List.mem_cons.mp hm with h | h
        · exact h ▸ le_refl _
        · exact (List.pairwise_cons.mp hs).1 _ h
      rw [Prod.Lex.le_iff, hy.2] at hle
      exact hle

end lrf

/-- Workset: it holds exactly the items whose last operation was a push. -/
theorem C15_workset [DecidableEq α] (ops : List (SetOp α)) :
    let s := ops.foldl worksetStep ([] : List α)
    (∀ x, worksetHas s x = true ↔
      ∃ l₁ l₂, ops = l₁ ++ .push x :: l₂ ∧ SetOp.remove x ∉ l₂) ∧
    (worksetHasMore s = true ↔ ∃ x, worksetHas s x = true) := by
  intro s
  have hm : ∀ x, x ∈ s ↔ ∃ l₁ l₂, ops = l₁ ++ .push x :: l₂ ∧ SetOp.remove x ∉ l₂ := by
    induction ops using List.reverseRecOn with
    | nil => intro x; simp [s]
    | append_singleton l op ih =>
      intro x
      simp only [s, List.foldl_append, List.foldl_cons, List.foldl_nil]
      simp only at ih
      have step : x ∈ worksetStep (l.foldl worksetStep []) op ↔
          (op = .push x ∨ (op ≠ .remove x ∧ x ∈ l.foldl worksetStep [])) := by
        cases op with
        | push y => simp [worksetStep, (insert_mem _ y).2, eq_comm]
        | remove y => simp [worksetStep, remove_mem, and_comm]; intro _; exact ne_comm
      rw [step, ih x]
      constructor
      · rintro (rfl | ⟨hne, l₁, l₂, rfl, hn⟩)
        · exact ⟨l, [], rfl, by simp⟩
        · exact ⟨l₁, l₂ ++ [op], by simp, by simp [hn]; exact fun h => hne h.symm⟩
      · rintro ⟨l₁, l₂, he, hn⟩
        rcases List.eq_nil_or_concat l₂ with rfl | ⟨l₃, e, rfl⟩
        · have := List.append_inj' he (by simp)
          simp at this; exact Or.inl this.2
        · have : l ++ [op] = (l₁ ++ .push x :: l₃) ++ [e] := by rw [he]; simp
          have := List.append_inj' this (by simp)
          simp at this hn
          obtain ⟨rfl, rfl⟩ := this
          exact Or.inr ⟨fun h => hn.2 h.symm, l₁, l₃, by simp, hn.1⟩
  refine ⟨fun x => by rw [← hm]; simp [worksetHas, HashSet.contains], ?_⟩
  simp only [worksetHas, HashSet.contains, worksetHasMore, HashSet.isEmpty, HashSet.size]
  cases s with
  | nil => simp
  | cons a l => simp

/-! Concrete cases: pushes 1,2,1,3, a pop and another push. -/
example : ∃ s h, Reach (lifo (α := Nat)) s h ∧ Pending h 1 ∧ (lifo.pop s).map (·.1) = some 2 := by
  refine ⟨_, _, .pop (.push 3 (.push 1 (.push 2 (.push 1 .init)))) rfl, ?_, by decide⟩
  exact pending_pop.mpr ⟨by decide, pending_push.mpr (Or.inr (pending_push.mpr (Or.inl rfl)))⟩
example : ∃ s h, Reach (fifo (α := Nat)) s h ∧ Pending h 2 ∧ (fifo.pop s).map (·.1) = some 2 := by
  refine ⟨_, _, .pop (.push 3 (.push 1 (.push 2 (.push 1 .init)))) rfl, ?_, by decide⟩
  exact pending_pop.mpr ⟨by decide, pending_push.mpr (Or.inr (pending_push.mpr (Or.inr
    (pending_push.mpr (Or.inl rfl)))))⟩
example : ∃ s h, Reach (lrf (α := Nat)) s h ∧ Pending h 1 ∧ pops h < 2 ^ 64 - 1 := by
  refine ⟨_, _, .push 1 (.pop (.push 2 (.push 1 .init)) rfl), pending_push.mpr (Or.inl rfl), ?_⟩
  simp [pops]
example : ∃ s h, Reach (twoPhaseLrf (α := Nat)) s h ∧ Pending h 1 ∧ pops h < 2 ^ 64 - 1 := by
  refine ⟨_, _, .push 1 (.pop (.push 2 (.push 1 .init)) rfl), pending_push.mpr (Or.inl rfl), ?_⟩
  simp [pops]

end Jlm.Util.Worklist
