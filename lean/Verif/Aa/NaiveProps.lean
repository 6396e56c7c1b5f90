import Verif.Aa.NaiveModel
import Mathlib.Tactic.Push
/-
C21: `SolveNaively` ends and computes the least solution.
-/
set_option linter.unusedSimpArgs false
set_option linter.unusedVariables false
set_option linter.unnecessarySeqFocus false
namespace Jlm.Llvm.Aa

/-! ## Counting facts -/

open Classical in
/-- the number of facts about the objects of the set -/
noncomputable def Abs.cnt (A : Abs) : Nat :=
  ((List.range A.n).flatMap fun i => (List.range A.n).map fun x => (i, x)).countP (fun p => decide (A.pts p.1 p.2)) +
  (List.range A.n).countP (fun i => decide (A.pe i)) +
  (List.range A.n).countP (fun i => decide (A.pte i)) +
  (List.range A.n).countP (fun i => decide (A.esc i))

theorem length_pairs (n : Nat) : ∀ m : Nat, ((List.range m).flatMap fun i => (List.range n).map fun x => (i, x)).length = m * n := by
  intro m
  induction m with
  | zero => simp
  | succ m ih => rw [List.range_succ, List.flatMap_append, List.length_append, ih]; simp [Nat.succ_mul]

theorem Abs.cnt_le (A : Abs) : A.cnt ≤ A.n * A.n + 3 * A.n := by
  classical
  unfold Abs.cnt
  have h1 := List.countP_le_length (p := fun p : Nat × Nat => decide (A.pts p.1 p.2))
    (l := (List.range A.n).flatMap fun i => (List.range A.n).map fun x => (i, x))
  rw [length_pairs] at h1
  have h2 := List.countP_le_length (p := fun i => decide (A.pe i)) (l := List.range A.n)
  have h3 := List.countP_le_length (p := fun i => decide (A.pte i)) (l := List.range A.n)
  have h4 := List.countP_le_length (p := fun i => decide (A.esc i)) (l := List.range A.n)
  rw [List.length_range] at h2 h3 h4
  omega

theorem countP_le_of_imp {α : Type} {p q : α → Bool} : ∀ (l : List α), (∀ a ∈ l, p a = true → q a = true) →
    l.countP p ≤ l.countP q
  | [], _ => Nat.le_refl _
  | a :: l, h => by
    rw [List.countP_cons, List.countP_cons]
    have ih := countP_le_of_imp l (fun b hb => h b (List.mem_cons_of_mem _ hb))
    have := h a (List.mem_cons_self ..)
    cases hp : p a <;> cases hq : q a <;> simp_all <;> omega

theorem countP_lt_of_imp {α : Type} {p q : α → Bool} : ∀ (l : List α), (∀ a ∈ l, p a = true → q a = true) →
    (∃ a ∈ l, p a = false ∧ q a = true) → l.countP p < l.countP q
  | [], _, h => by obtain ⟨a, h, _⟩ := h; cases h
  | a :: l, h, ⟨b, hb, hpb, hqb⟩ => by
    rw [List.countP_cons, List.countP_cons]
    have ih := countP_le_of_imp l (fun b hb => h b (List.mem_cons_of_mem _ hb))
    have h1 := h a (List.mem_cons_self ..)
    rcases List.mem_cons.1 hb with rfl | hb
    · simp [hpb, hqb]; omega
    · have := countP_lt_of_imp l (fun b hb => h b (List.mem_cons_of_mem _ hb)) ⟨b, hb, hpb, hqb⟩
      cases hp : p a <;> cases hq : q a <;> simp_all <;> omega

/-- more facts about the same objects -/
structure Abs.Le (A B : Abs) : Prop where
  n : A.n = B.n
  pts : ∀ i x, A.pts i x → B.pts i x
  pe : ∀ i, A.pe i → B.pe i
  pte : ∀ i, A.pte i → B.pte i
  esc : ∀ i, A.esc i → B.esc i

theorem Abs.cnt_lt {A B : Abs} (h : A.Le B)
    (hs : (∃ i x, i < A.n ∧ x < A.n ∧ ¬ A.pts i x ∧ B.pts i x) ∨ (∃ i, i < A.n ∧ ¬ A.pe i ∧ B.pe i) ∨
      (∃ i, i < A.n ∧ ¬ A.pte i ∧ B.pte i) ∨ (∃ i, i < A.n ∧ ¬ A.esc i ∧ B.esc i)) :
    A.cnt < B.cnt := by
  classical
  unfold Abs.cnt
  rw [← h.n]
  have h1 := countP_le_of_imp (p := fun p : Nat × Nat => decide (A.pts p.1 p.2)) (q := fun p => decide (B.pts p.1 p.2))
    ((List.range A.n).flatMap fun i => (List.range A.n).map fun x => (i, x)) (fun p _ hp => by simp at hp ⊢; exact h.pts _ _ hp)
  have h2 := countP_le_of_imp (p := fun i => decide (A.pe i)) (q := fun i => decide (B.pe i)) (List.range A.n) (fun p _ hp => by simp at hp ⊢; exact h.pe _ hp)
  have h3 := countP_le_of_imp (p := fun i => decide (A.pte i)) (q := fun i => decide (B.pte i)) (List.range A.n) (fun p _ hp => by simp at hp ⊢; exact h.pte _ hp)
  have h4 := countP_le_of_imp (p := fun i => decide (A.esc i)) (q := fun i => decide (B.esc i)) (List.range A.n) (fun p _ hp => by simp at hp ⊢; exact h.esc _ hp)
  rcases hs with ⟨i, x, hi, hx, a, b⟩ | ⟨i, hi, a, b⟩ | ⟨i, hi, a, b⟩ | ⟨i, hi, a, b⟩
  · have := countP_lt_of_imp (p := fun p : Nat × Nat => decide (A.pts p.1 p.2)) (q := fun p => decide (B.pts p.1 p.2))
      ((List.range A.n).flatMap fun i => (List.range A.n).map fun x => (i, x)) (fun p _ hp => by simp at hp ⊢; exact h.pts _ _ hp)
      ⟨(i, x), by simp [hi, hx], by simpa using a, by simpa using b⟩
    omega
  · have := countP_lt_of_imp (p := fun i => decide (A.pe i)) (q := fun i => decide (B.pe i)) (List.range A.n) (fun p _ hp => by simp at hp ⊢; exact h.pe _ hp)
      ⟨i, by simp [hi], by simpa using a, by simpa using b⟩
    omega
  · have := countP_lt_of_imp (p := fun i => decide (A.pte i)) (q := fun i => decide (B.pte i)) (List.range A.n) (fun p _ hp => by simp at hp ⊢; exact h.pte _ hp)
      ⟨i, by simp [hi], by simpa using a, by simpa using b⟩
    omega
  · have := countP_lt_of_imp (p := fun i => decide (A.esc i)) (q := fun i => decide (B.esc i)) (List.range A.n) (fun p _ hp => by simp at hp ⊢; exact h.esc _ hp)
      ⟨i, by simp [hi], by simpa using a, by simpa using b⟩
    omega

/-! ## Facts that hold in every solution -/

/-- every explicit fact of the set holds in the assignment -/
structure Models (L : Sol) (A : Abs) : Prop where
  pts : ∀ i x, A.pts i x → L.pt i x
  pe : ∀ i, i < A.n → A.pe i → L.PointeesEscape i
  pte : ∀ i, A.pte i → L.ext i
  esc : ∀ i, A.esc i → L.esc i

/-- the invariant of the naive solver -/
structure GoodA (P : Problem) (A : Abs) : Prop where
  n : A.n = P.base.n
  kind : ∀ i, A.kind i = P.base.kind i
  conn : ∀ i j, A.conn i j ↔ P.base.conn i j
  ss : ∀ i, A.ss i ↔ P.base.ss i
  ls : ∀ i, A.ls i ↔ P.base.ls i
  wf : A.Wf
  pts : ∀ i x, P.base.pts i x → A.pts i x
  pe : ∀ i, P.base.pe i → A.pe i
  pte : ∀ i, P.base.pte i → A.pte i
  esc : ∀ i, P.base.esc i → A.esc i
  models : ∀ L, Sat P L → Models L A

def Good (P : Problem) (s : RSet) : Prop := (∃ p, Rel p s) ∧ GoodA P s.abs

namespace GoodA
variable {P : Problem} {A : Abs} (g : GoodA P A) (sh : A.Shared)
include g sh

theorem markPE {i : Nat} (hi : i < A.n) (h : ∀ L, Sat P L → L.PointeesEscape i) : GoodA P (A.step (.markPE i)) := by
  refine ⟨g.n, g.kind, g.conn, g.ss, g.ls, g.wf.step sh _ hi, g.pts, fun j hj => .inl (g.pe j hj), g.pte, g.esc, ?_⟩
  intro L hL
  have m := g.models L hL
  refine ⟨m.pts, ?_, m.pte, m.esc⟩
  rintro j hjn (hj | hj)
  · exact m.pe j hjn hj
  · intro x hx
    exact h L hL x ((hL.unified j i ((g.conn j i).1 hj)).1 x hx)

theorem markPTE {i : Nat} (hi : i < A.n) (h : ∀ L, Sat P L → L.ext i) : GoodA P (A.step (.markPTE i)) := by
  refine ⟨g.n, g.kind, g.conn, g.ss, g.ls, g.wf.step sh _ hi, g.pts, g.pe, fun j hj => .inl (g.pte j hj), g.esc, ?_⟩
  intro L hL
  have m := g.models L hL
  refine ⟨m.pts, m.pe, ?_, m.esc⟩
  rintro j (hj | hj)
  · exact m.pte j hj
  · exact (hL.unified i j ((g.conn i j).1 (sh.equiv.symm hj))).2 (h L hL)

theorem markEscaped {i : Nat} (hi : i < A.n) (hk : A.kind i ≠ .register) (h : ∀ L, Sat P L → L.esc i) :
    GoodA P (A.step (.markEscaped i)) := by
  refine ⟨g.n, g.kind, g.conn, g.ss, g.ls, g.wf.step sh _ ⟨hi, hk⟩, g.pts, fun j hj => .inl (g.pe j hj), fun j hj => .inl (g.pte j hj), fun j hj => .inl (g.esc j hj), ?_⟩
  intro L hL
  have m := g.models L hL
  refine ⟨m.pts, ?_, ?_, ?_⟩
  · rintro j hjn (hj | ⟨hj, _⟩)
    · exact m.pe j hjn hj
    · intro x hx
      exact (hL.escaped i (h L hL)).2 x ((hL.unified j i ((g.conn j i).1 hj)).1 x hx)
  · rintro j (hj | ⟨hj, _⟩)
    · exact m.pte j hj
    · exact (hL.unified i j ((g.conn i j).1 (sh.equiv.symm hj))).2 (hL.escaped i (h L hL)).1
  · rintro j (hj | rfl)
    · exact m.esc j hj
    · exact h L hL

theorem makeSuperset {a b : Nat} (ha : a < A.n) (hb : b < A.n) (h : ∀ L, Sat P L → L.Sub a b) :
    GoodA P (A.step (.makeSuperset a b)) := by
  refine ⟨g.n, g.kind, g.conn, g.ss, g.ls, g.wf.step sh _ ⟨ha, hb⟩, fun i x hx => .inl (g.pts i x hx), g.pe, fun j hj => .inl (g.pte j hj), g.esc, ?_⟩
  intro L hL
  have m := g.models L hL
  refine ⟨?_, m.pe, ?_, m.esc⟩
  · rintro i x (hx | ⟨hi, hx⟩)
    · exact m.pts i x hx
    · exact (hL.unified a i ((g.conn a i).1 (sh.equiv.symm hi))).1 x ((h L hL).1 x (m.pts b x hx))
  · rintro i (hx | ⟨hi, hx⟩)
    · exact m.pte i hx
    · exact (hL.unified a i ((g.conn a i).1 (sh.equiv.symm hi))).2 ((h L hL).2 (m.pte b hx))

end GoodA

/-- the outcome of a piece of the solver -/
structure Res (P : Problem) (s : RSet) (p : Bool × RSet) : Prop where
  good : Good P p.2
  same : p.1 = false → p.2 = s
  lt : p.1 = true → s.abs.cnt < p.2.abs.cnt

theorem Res.nil {P : Problem} {s : RSet} (g : Good P s) : Res P s (false, s) :=
  ⟨g, fun _ => rfl, fun h => by cases h⟩

theorem Res.le {P : Problem} {s : RSet} {p} (r : Res P s p) : s.abs.cnt ≤ p.2.abs.cnt := by
  cases h : p.1 with
  | false => rw [r.same h]
  | true => exact (r.lt h).le

theorem Res.comp {P : Problem} {s : RSet} {p q} (r : Res P s p) (r' : Res P p.2 q) :
    Res P s (p.1 || q.1, q.2) := by
  refine ⟨r'.good, ?_, ?_⟩
  · intro h
    rw [Bool.or_eq_false_iff] at h
    rw [r'.same h.2, r.same h.1]
  · intro h
    rw [Bool.or_eq_true] at h
    rcases h with h | h
    · exact Nat.lt_of_lt_of_le (r.lt h) r'.le
    · exact Nat.lt_of_le_of_lt r.le (r'.lt h)

theorem forEach_res {α : Type} {P : Problem} {f : α → RSet → Bool × RSet} : ∀ {l : List α} {s : RSet},
    Good P s → (∀ a ∈ l, ∀ s, Good P s → Res P s (f a s)) → Res P s (forEach f l s)
  | [], s, g, _ => Res.nil g
  | a :: l, s, g, h => by
    have r := h a (List.mem_cons_self ..) s g
    exact r.comp (forEach_res r.good fun b hb => h b (List.mem_cons_of_mem _ hb))

theorem forEach_false {α : Type} {P : Problem} {f : α → RSet → Bool × RSet} : ∀ {l : List α} {s : RSet},
    Good P s → (∀ a ∈ l, ∀ s, Good P s → Res P s (f a s)) → (forEach f l s).1 = false →
    ∀ a ∈ l, (f a s).1 = false
  | [], s, g, _, _ => fun a ha => by cases ha
  | b :: l, s, g, h, hf => by
    have r := h b (List.mem_cons_self ..) s g
    have hf' : ((f b s).1 || (forEach f l (f b s).2).1) = false := hf
    rw [Bool.or_eq_false_iff] at hf'
    intro a ha
    rcases List.mem_cons.1 ha with rfl | ha
    · exact hf'.1
    · rw [r.same hf'.1] at hf'
      exact forEach_false g (fun c hc => h c (List.mem_cons_of_mem _ hc)) hf'.2 a ha

theorem andThen_res {P : Problem} {s : RSet} {p} {f : RSet → Bool × RSet} (r : Res P s p)
    (h : ∀ s, Good P s → Res P s (f s)) : Res P s (andThen p f) := r.comp (h _ r.good)

theorem andThen_false {P : Problem} {s : RSet} {p} {f : RSet → Bool × RSet} (r : Res P s p)
    (h : (andThen p f).1 = false) : p.1 = false ∧ (f s).1 = false := by
  have h' : (p.1 || (f p.2).1) = false := h
  rw [Bool.or_eq_false_iff] at h'
  rw [r.same h'.1] at h'
  exact h'

theorem whenB_res {P : Problem} {s : RSet} {b} {f : RSet → Bool × RSet} (g : Good P s)
    (h : b = true → Res P s (f s)) : Res P s (whenB b f s) := by
  unfold whenB
  split
  · rename_i hb; exact h hb
  · exact Res.nil g

section prims
variable {P : Problem} {s : RSet} (g : Good P s)
include g

theorem markPE_res {i : Nat} (hi : i < P.base.n) (h : ∀ L, Sat P L → L.PointeesEscape i) :
    Res P s (s.markPE i) := by
  obtain ⟨⟨p, hp⟩, ga⟩ := g
  have hi' : i < s.abs.n := by rw [ga.n]; exact hi
  obtain ⟨p', _, hp'⟩ := markPE_spec hp hi'
  have hg : GoodA P (s.markPE i).2.abs := by rw [abs_markPE]; exact ga.markPE s.shared hi' h
  refine ⟨⟨⟨p', hp'⟩, hg⟩, ?_, ?_⟩
  · unfold RSet.markPE; split <;> simp
  · intro hb
    apply Abs.cnt_lt
    · rw [abs_markPE]
      exact ⟨rfl, fun _ _ h => h, fun _ h => .inl h, fun _ h => h, fun _ h => h⟩
    · right; left
      refine ⟨i, hi', ?_, ?_⟩
      · unfold RSet.markPE at hb
        split at hb
        · cases hb
        · rename_i hn; exact hn
      · rw [abs_markPE]; exact .inr rfl

theorem markPTE_res {i : Nat} (hi : i < P.base.n) (h : ∀ L, Sat P L → L.ext i) :
    Res P s (s.markPTE i) := by
  obtain ⟨⟨p, hp⟩, ga⟩ := g
  have hi' : i < s.abs.n := by rw [ga.n]; exact hi
  obtain ⟨p', _, hp'⟩ := markPTE_spec hp hi'
  have hg : GoodA P (s.markPTE i).2.abs := by rw [abs_markPTE]; exact ga.markPTE s.shared hi' h
  refine ⟨⟨⟨p', hp'⟩, hg⟩, ?_, ?_⟩
  · unfold RSet.markPTE; split <;> simp
  · intro hb
    apply Abs.cnt_lt
    · rw [abs_markPTE]
      exact ⟨rfl, fun _ _ h => h, fun _ h => h, fun _ h => .inl h, fun _ h => h⟩
    · right; right; left
      refine ⟨i, hi', ?_, ?_⟩
      · unfold RSet.markPTE at hb
        split at hb
        · cases hb
        · rename_i hn; exact hn
      · rw [abs_markPTE]; exact .inr rfl

theorem markEscaped_res {i : Nat} (hi : i < P.base.n) (hk : P.base.kind i ≠ .register)
    (h : ∀ L, Sat P L → L.esc i) : Res P s (s.markEscaped i) := by
  obtain ⟨⟨p, hp⟩, ga⟩ := g
  have hi' : i < s.abs.n := by rw [ga.n]; exact hi
  have hk' : s.abs.kind i ≠ .register := by rw [ga.kind]; exact hk
  obtain ⟨p', _, hp'⟩ := markEscaped_spec hp hi' hk'
  have ha : (s.markEscaped i).2.abs = s.abs.step (.markEscaped i) := abs_step hp.wf (.markEscaped i) ⟨hi', hk'⟩
  have hg : GoodA P (s.markEscaped i).2.abs := by rw [ha]; exact ga.markEscaped s.shared hi' hk' h
  refine ⟨⟨⟨p', hp'⟩, hg⟩, ?_, ?_⟩
  · unfold RSet.markEscaped; split <;> simp
  · intro hb
    apply Abs.cnt_lt
    · rw [ha]
      exact ⟨rfl, fun _ _ h => h, fun _ h => .inl h, fun _ h => .inl h, fun _ h => .inl h⟩
    · right; right; right
      refine ⟨i, hi', ?_, ?_⟩
      · unfold RSet.markEscaped at hb
        split at hb
        · cases hb
        · rename_i hn; exact hn
      · rw [ha]; exact .inr rfl

omit g in
theorem uni_of_subset {l m : List Nat} (h : ∀ x ∈ m, x ∈ l) : uni l m = l := by
  unfold uni
  induction m with
  | nil => rfl
  | cons a m ih =>
    rw [List.foldl_cons]
    have : ins l a = l := by unfold ins; rw [if_pos (h a (List.mem_cons_self ..))]
    rw [this]
    exact ih fun x hx => h x (List.mem_cons_of_mem _ hx)

theorem makeSuperset_res {a b : Nat} (ha : a < P.base.n) (hb : b < P.base.n)
    (h : ∀ L, Sat P L → L.Sub a b) : Res P s (s.makeSuperset a b) := by
  obtain ⟨⟨p, hp⟩, ga⟩ := g
  have ha' : a < s.abs.n := by rw [ga.n]; exact ha
  have hb' : b < s.abs.n := by rw [ga.n]; exact hb
  obtain ⟨p', _, hp'⟩ := makeSuperset_spec hp ha' hb'
  have hg : GoodA P (s.makeSuperset a b).2.abs := by rw [abs_makeSuperset]; exact ga.makeSuperset s.shared ha' hb' h
  refine ⟨⟨⟨p', hp'⟩, hg⟩, ?_, ?_⟩
  · intro hf
    have hc : ¬ (s.makeSuperset a b).1 = true := by rw [hf]; simp
    rw [makeSuperset_changed, not_or] at hc
    have hsub : ∀ x ∈ s.pointees b, x ∈ s.pointees a := by
      intro x hx; by_contra hn; exact hc.1 ⟨x, hx, hn⟩
    have hu : upd s.pts (s.root a) (uni (s.pointees a) (s.pointees b)) = s.pts := by
      rw [uni_of_subset hsub]; exact upd_self _ _
    unfold RSet.makeSuperset
    rw [hu]
    split
    · rfl
    · simp only []
      split
      · rename_i hpb
        have : s.pte a = true := by
          by_contra hn
          exact hc.2 ⟨hpb, by simpa using hn⟩
        unfold RSet.markPTE
        rw [show RSet.pte { s with pts := s.pts } a = s.pte a from rfl, if_pos this]
      · rfl
  · intro hb
    rw [makeSuperset_changed] at hb
    apply Abs.cnt_lt
    · rw [abs_makeSuperset]
      exact ⟨rfl, fun _ _ h => .inl h, fun _ h => h, fun _ h => .inl h, fun _ h => h⟩
    · rcases hb with ⟨x, h1, h2⟩ | ⟨h1, h2⟩
      · left
        refine ⟨a, x, ha', (ga.wf.ptsLt b x h1).1, h2, ?_⟩
        rw [abs_makeSuperset]; exact .inr ⟨rfl, h1⟩
      · right; right; left
        refine ⟨a, ha', ?_, ?_⟩
        · show ¬ s.pte a = true
          rw [h2]; simp
        · rw [abs_makeSuperset]; exact .inr ⟨rfl, h1⟩

end prims

theorem mem_registers {l : List (Option Nat)} {i : Nat} : i ∈ registers l ↔ some i ∈ l := by
  simp [registers]

theorem mem_paired {a b : Nat} : ∀ {l m : List (Option Nat)}, (a, b) ∈ paired l m ↔
    ∃ k : Nat, l[k]? = some (some a) ∧ m[k]? = some (some b)
  | [], m => by
    constructor
    · intro h; cases m <;> simp [paired] at h
    · rintro ⟨k, h, _⟩; simp at h
  | x :: l, [] => by
    constructor
    · intro h; cases x <;> simp [paired] at h
    · rintro ⟨k, _, h⟩; simp at h
  | x :: l, y :: m => by
    have ih := @mem_paired a b l m
    have key : (a, b) ∈ paired (x :: l) (y :: m) ↔ (x = some a ∧ y = some b) ∨ (a, b) ∈ paired l m := by
      cases x <;> cases y <;> simp [paired]
      rename_i u v
      constructor
      · rintro (⟨rfl, rfl⟩ | h)
        · exact .inl ⟨rfl, rfl⟩
        · exact .inr h
      · rintro (⟨rfl, rfl⟩ | h)
        · exact .inl ⟨rfl, rfl⟩
        · exact .inr h
    rw [key, ih]
    constructor
    · rintro (⟨rfl, rfl⟩ | ⟨k, h1, h2⟩)
      · exact ⟨0, rfl, rfl⟩
      · exact ⟨k + 1, by simpa using h1, by simpa using h2⟩
    · rintro ⟨k, h1, h2⟩
      cases k with
      | zero => left; simpa using And.intro h1 h2
      | succ k => right; exact ⟨k, by simpa using h1, by simpa using h2⟩

/-- what the order of enumeration must satisfy -/
def OrderOk (ord : Order) : Prop := ∀ s i x, x ∈ ord s i ↔ x ∈ s.pointees i

section pieces
variable {P : Problem} {ord : Order} (ho : OrderOk ord) (hr : P.InRange) {s : RSet} (g : Good P s)

include g in
theorem callExternal_res {c : Call} (hc : c.InRange P.base.n) (h : ∀ L, Sat P L → L.CallsExternal c) :
    Res P s (callExternal c s) := by
  unfold callExternal
  apply andThen_res
  · apply forEach_res g
    intro i hi s g
    rw [mem_registers] at hi
    exact markPE_res g (hc.1 i hi) fun L hL => (h L hL).1 i hi
  · intro s g
    apply forEach_res g
    intro i hi s g
    rw [mem_registers] at hi
    exact markPTE_res g (hc.2 i hi) fun L hL => (h L hL).2 i hi

include g in
theorem callLambda_res {c : Call} (hc : c.InRange P.base.n) {f : Nat} (hf : (P.fn f).InRange P.base.n)
    (h : ∀ L, Sat P L → L.CallsFn c (P.fn f)) : Res P s (callLambda P.fn c f s) := by
  unfold callLambda
  apply andThen_res
  · apply forEach_res g
    rintro ⟨i, a⟩ hi s g
    obtain ⟨k, h1, h2⟩ := mem_paired.1 hi
    exact makeSuperset_res g (hf.1 a (List.mem_of_getElem? h2)) (hc.1 i (List.mem_of_getElem? h1)) fun L hL => (h L hL).1 k i a h1 h2
  · intro s g
    apply forEach_res g
    rintro ⟨o, r⟩ hi s g
    obtain ⟨k, h1, h2⟩ := mem_paired.1 hi
    exact makeSuperset_res g (hc.2 o (List.mem_of_getElem? h1)) (hf.2 r (List.mem_of_getElem? h2)) fun L hL => (h L hL).2 k o r h1 h2

include hr g in
theorem callTarget_res {c : Call} (hc : c.InRange P.base.n) {x : Nat} (hx : x < P.base.n)
    (h1 : P.base.kind x = .imported → ∀ L, Sat P L → L.CallsExternal c)
    (h2 : P.base.kind x = .function → ∀ L, Sat P L → L.CallsFn c (P.fn x)) :
    Res P s (callTarget P.fn c x s) := by
  have hk : (s.obj x).kind = P.base.kind x := g.2.kind x
  unfold callTarget
  rw [hk]
  split
  · rename_i hk; exact callExternal_res g hc (h1 hk)
  · rename_i hk; exact callLambda_res g hc (hr.fn x hx hk) (h2 hk)
  · exact Res.nil g

include ho hr g in
theorem applyC_res {c : Constraint} (hc : c ∈ P.cs) : Res P s (applyC ord P.fn c s) := by
  have hin := hr.cs c hc
  cases c with
  | superset a b => exact makeSuperset_res g hin.1 hin.2 fun L hL => hL.cs _ hc
  | store p v =>
    unfold applyC applyStore
    have hsat : ∀ L, Sat P L → _ := fun L hL => hL.cs _ hc
    apply andThen_res
    · apply forEach_res g
      intro x hx s' g'
      rw [ho] at hx
      refine makeSuperset_res g' ?_ hin.2 fun L hL => (hsat L hL).1 x ((g.2.models L hL).pts p x hx)
      rw [← g.2.n]; exact (g.2.wf.ptsLt p x hx).1
    · intro s' g'
      apply whenB_res g'
      intro hb
      exact markPE_res g' hin.2 fun L hL => (hsat L hL).2 ((g'.2.models L hL).pte p hb)
  | load v p =>
    unfold applyC applyLoad
    have hsat : ∀ L, Sat P L → _ := fun L hL => hL.cs _ hc
    apply andThen_res
    · apply forEach_res g
      intro x hx s' g'
      rw [ho] at hx
      refine makeSuperset_res g' hin.1 ?_ fun L hL => (hsat L hL).1 x ((g.2.models L hL).pts p x hx)
      rw [← g.2.n]; exact (g.2.wf.ptsLt p x hx).1
    · intro s' g'
      apply whenB_res g'
      intro hb
      exact markPTE_res g' hin.1 fun L hL => (hsat L hL).2 ((g'.2.models L hL).pte p hb)
  | call p c =>
    unfold applyC applyCall
    have hsat : ∀ L, Sat P L → _ := fun L hL => hL.cs _ hc
    apply andThen_res
    · apply forEach_res g
      intro x hx s' g'
      rw [ho] at hx
      refine callTarget_res hr g' hin.2 (by rw [← g.2.n]; exact (g.2.wf.ptsLt p x hx).1) ?_ ?_
      · intro hk L hL
        exact ((hsat L hL).1 x ((g.2.models L hL).pts p x hx)).1 hk
      · intro hk L hL
        exact ((hsat L hL).1 x ((g.2.models L hL).pts p x hx)).2 hk
    · intro s' g'
      apply whenB_res g'
      intro hb
      exact callExternal_res g' hin.2 fun L hL => (hsat L hL).2 ((g'.2.models L hL).pte p hb)

include ho g in
theorem scalarAt_res (i : Nat) (hin : i < P.base.n) : Res P s (scalarAt ord i s) := by
  unfold scalarAt
  split
  · exact Res.nil g
  · apply andThen_res
    · apply whenB_res g
      intro hb
      apply forEach_res g
      intro x hx s' g'
      rw [ho] at hx
      refine markPTE_res g' (by rw [← g.2.n]; exact (g.2.wf.ptsLt i x hx).1) fun L hL => ?_
      exact hL.ss i x hin ((g.2.ss i).1 hb) ((g.2.models L hL).pts i x hx)
    · intro s g
      apply whenB_res g
      intro hb
      apply forEach_res g
      intro x hx s' g'
      rw [ho] at hx
      refine markPE_res g' (by rw [← g.2.n]; exact (g.2.wf.ptsLt i x hx).1) fun L hL => ?_
      exact hL.ls i x hin ((g.2.ls i).1 hb) ((g.2.models L hL).pts i x hx)

end pieces

/-! ## The queue of escapers -/

/-- objects whose pointees do not escape (yet) -/
def nonPE (s : RSet) : Nat := (List.range s.n).countP fun i => !s.pe i

theorem escPointees_spec {P : Problem} : ∀ (l : List Nat) {s : RSet}, Good P s →
    (∀ x ∈ l, x < P.base.n ∧ P.base.kind x ≠ .register ∧ ∀ L, Sat P L → L.esc x) →
    ∃ b s' new, escPointees l s = some (b, s', new) ∧ Res P s (b, s') ∧
      new.length + nonPE s' ≤ nonPE s ∧ (∀ i, s.pe i = true → s'.pe i = true) ∧ (∀ i ∈ new, s'.pe i = true) ∧
      (∀ i ∈ new, i < P.base.n) ∧
      (b = false → ∀ x ∈ l, s.escaped x = true) ∧ (b = false → new = [])
  | [], s, g, _ => ⟨false, s, [], rfl, Res.nil g, by simp, fun _ h => h, by simp, by simp, by simp, by simp⟩
  | x :: l, s, g, h => by
    obtain ⟨hx, hk, hL⟩ := h x (List.mem_cons_self ..)
    have r := markEscaped_res g hx hk hL
    have g' := r.good
    obtain ⟨p, hp⟩ := g.1
    have hn : s.n = P.base.n := g.2.n
    have hx' : x < s.n := by rw [hn]; exact hx
    have ha : (s.markEscaped x).2.abs = s.abs.step (.markEscaped x) :=
      abs_step hp.wf (.markEscaped x) ⟨hx', by rw [g.2.kind]; exact hk⟩
    have hpe : ∀ i, (s.markEscaped x).2.pe i = true ↔ s.pe i = true ∨ (s.root i = s.root x ∧ ¬ s.escaped x = true) := by
      intro i
      exact iff_of_eq (congrFun (congrArg Abs.pe ha) i)
    have hidem := hp.wf.idem x
    have hper : s.pe (s.root x) = s.pe x := by unfold RSet.pe; rw [hidem]
    have hnn : (s.markEscaped x).2.n = s.n := congrArg Abs.n ha
    obtain ⟨b, s2, new, e, r2, h1, h2, h3, h3', h4, h5⟩ := escPointees_spec l g' (fun y hy => h y (List.mem_cons_of_mem _ hy))
    have hmono : ∀ i, s.pe i = true → (s.markEscaped x).2.pe i = true := fun i hi => (hpe i).2 (.inl hi)
    have hle : nonPE (s.markEscaped x).2 ≤ nonPE s := by
      unfold nonPE
      rw [hnn]
      apply countP_le_of_imp
      intro i _ hi
      cases hs : s.pe i with
      | false => rfl
      | true => rw [hmono i hs] at hi; cases hi
    by_cases hprev : s.pe (s.root x) = true
    · refine ⟨(s.markEscaped x).1 || b, s2, new, ?_, r.comp r2, by omega, fun i hi => h2 i (hmono i hi), h3, h3', ?_, ?_⟩
      · simp only [escPointees, e, hprev]
        simp
      · intro hb
        rw [Bool.or_eq_false_iff] at hb
        have hsame := r.same hb.1
        intro y hy
        rcases List.mem_cons.1 hy with rfl | hy
        · have := hb.1
          unfold RSet.markEscaped at this
          split at this
          · assumption
          · cases this
        · have := h4 hb.2 y hy
          rw [hsame] at this
          exact this
      · intro hb
        rw [Bool.or_eq_false_iff] at hb
        exact h5 hb.2
    · have hnesc : ¬ s.escaped x = true := by
        intro hc
        have : s.pe x = true := (g.2.wf.esc x hc).2.2.1
        rw [hper] at hprev
        exact hprev this
      have hroot' : (s.markEscaped x).2.pe (s.root x) = true := (hpe _).2 (.inr ⟨hidem, hnesc⟩)
      refine ⟨(s.markEscaped x).1 || b, s2, s.root x :: new, ?_, r.comp r2, ?_, fun i hi => h2 i (hmono i hi), ?_, ?_, ?_, ?_⟩
      · simp only [escPointees, e, hprev]
        simp [hroot']
      · have hlt : nonPE (s.markEscaped x).2 < nonPE s := by
          unfold nonPE
          rw [hnn]
          apply countP_lt_of_imp
          · intro i _ hi
            cases hs : s.pe i with
            | false => rfl
            | true => rw [hmono i hs] at hi; cases hi
          · refine ⟨s.root x, ?_, ?_, ?_⟩
            · rw [List.mem_range]; exact hp.wf.lt x hx'
            · rw [hroot']; rfl
            · simp [hprev]
        rw [List.length_cons]; omega
      · intro i hi
        rcases List.mem_cons.1 hi with rfl | hi
        · exact h2 _ hroot'
        · exact h3 i hi
      · intro i hi
        rcases List.mem_cons.1 hi with rfl | hi
        · rw [← hn]; exact hp.wf.lt x hx'
        · exact h3' i hi
      · intro hb
        exfalso
        rw [Bool.or_eq_false_iff] at hb
        have hb1 := hb.1
        unfold RSet.markEscaped at hb1
        rw [if_neg hnesc] at hb1
        cases hb1
      · intro hb
        exfalso
        rw [Bool.or_eq_false_iff] at hb
        have hb1 := hb.1
        unfold RSet.markEscaped at hb1
        rw [if_neg hnesc] at hb1
        cases hb1

theorem escLoop_spec {P : Problem} {ord : Order} (ho : OrderOk ord) : ∀ (fuel : Nat) (q : List Nat) {s : RSet}, Good P s →
    (∀ i ∈ q, i < P.base.n ∧ s.pe i = true) → q.length + nonPE s ≤ fuel →
    ∃ b s', escLoop ord fuel q s = some (b, s') ∧ Res P s (b, s') ∧
      (b = false → ∀ i ∈ q, ∀ x ∈ s.pointees i, s.escaped x = true) := by
  intro fuel
  induction fuel with
  | zero =>
    intro q s g hq hf
    cases q with
    | nil => exact ⟨false, s, rfl, Res.nil g, by simp⟩
    | cons i q => simp at hf
  | succ fuel ih =>
    intro q s g hq hf
    cases q with
    | nil => exact ⟨false, s, rfl, Res.nil g, by simp⟩
    | cons i q =>
      have hpts : ∀ x ∈ ord s i, x < P.base.n ∧ P.base.kind x ≠ .register ∧ ∀ L, Sat P L → L.esc x := by
        intro x hx
        rw [ho] at hx
        have := g.2.wf.ptsLt i x hx
        rw [g.2.n, g.2.kind] at this
        refine ⟨this.1, this.2, fun L hL => ?_⟩
        have m := g.2.models L hL
        exact m.pe i (by rw [g.2.n]; exact (hq i (List.mem_cons_self ..)).1) (hq i (List.mem_cons_self ..)).2 x (m.pts i x hx)
      obtain ⟨b, s1, new, e1, r1, h1, h2, h3, h3', h4, h5⟩ := escPointees_spec (ord s i) g hpts
      rw [List.length_cons] at hf
      obtain ⟨b', s2, e2, r2, h6⟩ := ih (q ++ new) r1.good (by
        intro j hj
        rcases List.mem_append.1 hj with hj | hj
        · exact ⟨(hq j (List.mem_cons_of_mem _ hj)).1, h2 j (hq j (List.mem_cons_of_mem _ hj)).2⟩
        · exact ⟨h3' j hj, h3 j hj⟩) (by
        simp only [List.length_append]; omega)
      refine ⟨b || b', s2, ?_, r1.comp r2, ?_⟩
      · simp only [escLoop, e1, Option.bind_some, e2, Option.map_some]
      · intro hb
        rw [Bool.or_eq_false_iff] at hb
        have hs1 : s1 = s := r1.same hb.1
        subst hs1
        intro j hj x hx
        rcases List.mem_cons.1 hj with rfl | hj
        · exact h4 hb.1 x ((ho _ _ _).2 hx)
        · exact h6 hb.2 j (List.mem_append_left _ hj) x hx

theorem escapeFlags_spec {P : Problem} {ord : Order} (ho : OrderOk ord) {s : RSet} (g : Good P s) :
    ∃ b s', escapeFlags ord s = some (b, s') ∧ Res P s (b, s') ∧
      (b = false → (∀ i < s.n, (scalarAt ord i s).1 = false) ∧
        ∀ i < s.n, s.root i = i → s.pe i = true → ∀ x ∈ s.pointees i, s.escaped x = true) := by
  have r1 : Res P s (forEach (scalarAt ord) (List.range s.n) s) :=
    forEach_res g fun i hi s' g' => scalarAt_res ho g' i (by rw [← g.2.n]; exact List.mem_range.1 hi)
  unfold escapeFlags
  obtain ⟨b, s2, e2, r2, h2⟩ := escLoop_spec ho (forEach (scalarAt ord) (List.range s.n) s).2.n
    ((List.range (forEach (scalarAt ord) (List.range s.n) s).2.n).filter fun i => (forEach (scalarAt ord) (List.range s.n) s).2.root i == i && (forEach (scalarAt ord) (List.range s.n) s).2.pe i) r1.good
    (by intro i hi; simp at hi; exact ⟨by rw [← r1.good.2.n]; exact hi.1, hi.2.2⟩)
    (by
      rw [← List.countP_eq_length_filter]
      unfold nonPE
      have h1 : ∀ (l : List Nat) (s : RSet), l.countP (fun i => s.root i == i && s.pe i) + l.countP (fun i => !s.pe i) ≤ l.length := by
        intro l s
        induction l with
        | nil => simp
        | cons a l ih =>
          rw [List.countP_cons, List.countP_cons, List.length_cons]
          cases s.pe a <;> cases s.root a == a <;> simp <;> omega
      have := h1 (List.range (forEach (scalarAt ord) (List.range s.n) s).2.n) (forEach (scalarAt ord) (List.range s.n) s).2
      rwa [List.length_range] at this)
  refine ⟨_, _, by simp only [e2, Option.map_some], r1.comp r2, ?_⟩
  intro hb
  rw [Bool.or_eq_false_iff] at hb
  have hs := r1.same hb.1
  rw [hs] at h2
  refine ⟨?_, ?_⟩
  · intro i hi
    exact forEach_false g (fun i hi s' g' => scalarAt_res ho g' i (by rw [← g.2.n]; exact List.mem_range.1 hi)) hb.1 i (by simpa using hi)
  · intro i hi hri hpe x hx
    exact h2 hb.2 i (by simp [hi, hri, hpe]) x hx

theorem escapedFn_res {P : Problem} {s : RSet} (g : Good P s) {f : Fn} (hf : f.InRange P.base.n)
    (h1 : ∀ L, Sat P L → ∀ a, some a ∈ f.args → L.ext a)
    (h2 : ∀ L, Sat P L → ∀ r, some r ∈ f.results → L.PointeesEscape r) : Res P s (escapedFn f s) := by
  unfold escapedFn
  apply andThen_res
  · apply forEach_res g
    intro a ha s g
    rw [mem_registers] at ha
    apply whenB_res g
    intro _
    exact markPTE_res g (hf.1 a ha) fun L hL => h1 L hL a ha
  · intro s g
    apply forEach_res g
    intro a ha s g
    rw [mem_registers] at ha
    apply whenB_res g
    intro _
    exact markPE_res g (hf.2 a ha) fun L hL => h2 L hL a ha

/-- the function map contains exactly the functions -/
def FnsOk (P : Problem) (fns : List Nat) : Prop :=
  ∀ f, f ∈ fns ↔ f < P.base.n ∧ P.base.kind f = .function

theorem escapedFns_each {P : Problem} (hr : P.InRange) {fns : List Nat} (hf : FnsOk P fns) :
    ∀ f ∈ fns, ∀ s, Good P s → Res P s (whenB (s.escaped f) (escapedFn (P.fn f)) s) := by
  intro f hfm s g
  obtain ⟨h1, h2⟩ := (hf f).1 hfm
  apply whenB_res g
  intro hb
  refine escapedFn_res g (hr.fn f h1 h2) ?_ ?_
  · intro L hL a ha
    exact (hL.fns f ((g.2.models L hL).esc f hb) h1 h2).1 a ha
  · intro L hL a ha
    exact (hL.fns f ((g.2.models L hL).esc f hb) h1 h2).2 a ha

/-! ## A pass without changes -/

theorem makeSuperset_false {s : RSet} {a b : Nat} (h : (s.makeSuperset a b).1 = false) :
    s.abs.sol.Sub a b := by
  have hc : ¬ (s.makeSuperset a b).1 = true := by rw [h]; simp
  rw [makeSuperset_changed, not_or] at hc
  have h2 : s.pte b = true → s.pte a = true := by
    intro hb; by_contra hn; exact hc.2 ⟨hb, by simpa using hn⟩
  refine ⟨?_, h2⟩
  rintro x (hx | ⟨hx1, hx2⟩)
  · left
    show x ∈ s.pointees a
    by_contra hn; exact hc.1 ⟨x, hx, hn⟩
  · exact .inr ⟨h2 hx1, hx2⟩

theorem markPE_false {s : RSet} {i : Nat} (h : (s.markPE i).1 = false) : s.pe i = true := by
  unfold RSet.markPE at h
  split at h
  · assumption
  · cases h

theorem markPTE_false {s : RSet} {i : Nat} (h : (s.markPTE i).1 = false) : s.pte i = true := by
  unfold RSet.markPTE at h
  split at h
  · assumption
  · cases h

/-- a piece of the solver that reports no change makes none -/
def Still (f : RSet → Bool × RSet) : Prop := ∀ s, (f s).1 = false → (f s).2 = s

theorem still_markPE (i : Nat) : Still (fun s => s.markPE i) := by
  intro s h; have := markPE_false h; show (s.markPE i).2 = s; unfold RSet.markPE; rw [if_pos this]
theorem still_markPTE (i : Nat) : Still (fun s => s.markPTE i) := by
  intro s h; have := markPTE_false h; show (s.markPTE i).2 = s; unfold RSet.markPTE; rw [if_pos this]

theorem still_makeSuperset (a b : Nat) : Still (fun s => s.makeSuperset a b) := by
  intro s hf
  have hc : ¬ (s.makeSuperset a b).1 = true := by rw [show (s.makeSuperset a b).1 = false from hf]; simp
  rw [makeSuperset_changed, not_or] at hc
  have hsub : ∀ x ∈ s.pointees b, x ∈ s.pointees a := by
    intro x hx; by_contra hn; exact hc.1 ⟨x, hx, hn⟩
  have hu : upd s.pts (s.root a) (uni (s.pointees a) (s.pointees b)) = s.pts := by
    rw [uni_of_subset hsub]; exact upd_self _ _
  show (s.makeSuperset a b).2 = s
  unfold RSet.makeSuperset
  rw [hu]
  split
  · rfl
  · simp only []
    split
    · rename_i hpb
      have : s.pte a = true := by
        by_contra hn
        exact hc.2 ⟨hpb, by simpa using hn⟩
      unfold RSet.markPTE
      rw [show RSet.pte { s with pts := s.pts } a = s.pte a from rfl, if_pos this]
    · rfl

theorem forEach_still {α : Type} {f : α → RSet → Bool × RSet} (hf : ∀ a, Still (f a)) : ∀ {l : List α} {s : RSet},
    (forEach f l s).1 = false → (forEach f l s).2 = s ∧ ∀ a ∈ l, (f a s).1 = false
  | [], s, _ => ⟨rfl, by simp⟩
  | a :: l, s, h => by
    have h' : ((f a s).1 || (forEach f l (f a s).2).1) = false := h
    rw [Bool.or_eq_false_iff] at h'
    have hs := hf a s h'.1
    rw [hs] at h'
    have ih := forEach_still hf h'.2
    refine ⟨?_, ?_⟩
    · show (forEach f l (f a s).2).2 = s
      rw [hs]; exact ih.1
    · intro b hb
      rcases List.mem_cons.1 hb with rfl | hb
      · exact h'.1
      · exact ih.2 b hb

theorem still_forEach {α : Type} {f : α → RSet → Bool × RSet} (hf : ∀ a, Still (f a)) (l : List α) :
    Still (forEach f l) := fun _ h => (forEach_still hf h).1

theorem andThen_still {s : RSet} {f g : RSet → Bool × RSet} (hf : Still f)
    (h : (andThen (f s) g).1 = false) : (f s).1 = false ∧ (g s).1 = false := by
  have h' : ((f s).1 || (g (f s).2).1) = false := h
  rw [Bool.or_eq_false_iff] at h'
  rw [hf s h'.1] at h'
  exact h'

theorem still_andThen {f g : RSet → Bool × RSet} (hf : Still f) (hg : Still g) :
    Still (fun s => andThen (f s) g) := by
  intro s h
  have h' : ((f s).1 || (g (f s).2).1) = false := h
  rw [Bool.or_eq_false_iff] at h'
  show (g (f s).2).2 = s
  rw [hg _ h'.2, hf s h'.1]

theorem still_whenB {b : RSet → Bool} {f : RSet → Bool × RSet} (hf : Still f) :
    Still (fun s => whenB (b s) f s) := by
  intro s h
  show (whenB (b s) f s).2 = s
  change (whenB (b s) f s).1 = false at h
  unfold whenB at h ⊢
  split
  · rename_i hb; rw [if_pos hb] at h; exact hf s h
  · rfl

theorem whenB_false {s : RSet} {b : Bool} {f : RSet → Bool × RSet} (h : (whenB b f s).1 = false)
    (hb : b = true) : (f s).1 = false := by
  unfold whenB at h; rw [if_pos hb] at h; exact h

theorem still_callExternal (c : Call) : Still (callExternal c) :=
  still_andThen (still_forEach still_markPE _) (still_forEach still_markPTE _)

theorem still_callLambda (fn : Nat → Fn) (c : Call) (f : Nat) : Still (callLambda fn c f) :=
  still_andThen (still_forEach (fun ab : Nat × Nat => still_makeSuperset ab.2 ab.1) _)
    (still_forEach (fun ab : Nat × Nat => still_makeSuperset ab.1 ab.2) _)

theorem still_callTarget (fn : Nat → Fn) (c : Call) (x : Nat) : Still (callTarget fn c x) := by
  intro s h
  unfold callTarget at h ⊢
  split
  · rename_i hk; rw [hk] at h; exact still_callExternal c s h
  · rename_i hk; rw [hk] at h; exact still_callLambda fn c x s h
  · rfl

/-- A pass of the naive solver keeps the invariant; if it changes nothing then the set is a
solution. -/
theorem naivePass_fixpoint {P : Problem} {ord : Order} (ho : OrderOk ord) (hr : P.InRange)
    {fns : List Nat} (hf : FnsOk P fns) {s : RSet} (g : Good P s) :
    ∃ b s', naivePass ord P.fn fns P.cs s = some (b, s') ∧ Res P s (b, s') ∧
      (b = false → Sat P s.abs.sol) := by
  have r1 : Res P s (forEach (applyC ord P.fn) P.cs s) :=
    forEach_res g fun c hc s g => applyC_res ho hr g hc
  obtain ⟨b2, s2, e2, r2, h2⟩ := escapeFlags_spec ho r1.good
  have r3 : Res P s2 (escapedFns P.fn fns s2) := forEach_res r2.good (escapedFns_each hr hf)
  refine ⟨(forEach (applyC ord P.fn) P.cs s).1 || b2 || (escapedFns P.fn fns s2).1, (escapedFns P.fn fns s2).2,
    by unfold naivePass; simp only [e2, Option.map_some], (r1.comp r2).comp r3, ?_⟩
  intro hb
  rw [Bool.or_eq_false_iff, Bool.or_eq_false_iff] at hb
  obtain ⟨⟨hb1, hb2⟩, hb3⟩ := hb
  have e1 := r1.same hb1
  have e2' : s2 = _ := r2.same hb2
  rw [e1] at e2' h2
  subst e2'
  clear e2 r2 r3 r1 e1
  obtain ⟨hsc, hesc⟩ := h2 hb2
  have hcs := forEach_false g (fun c hc s g => applyC_res ho hr g hc) hb1
  have hfn := forEach_false g (escapedFns_each hr hf) hb3
  obtain ⟨p, hp⟩ := g.1
  have ga := g.2
  have sh := s2.shared
  have hn : s2.n = P.base.n := ga.n
  have hPE : ∀ i, i < P.base.n → s2.pe i = true → s2.abs.sol.PointeesEscape i := by
    intro i hi hpe x hx
    rcases hx with hx | ⟨_, hx⟩
    · have hi' : i < s2.n := by rw [hn]; exact hi
      refine hesc (s2.root i) (hp.wf.lt i hi') (hp.wf.idem i) ?_ x ?_
      · unfold RSet.pe; rw [hp.wf.idem]; exact hpe
      · show x ∈ s2.pts (s2.root (s2.root i)); rw [hp.wf.idem]; exact hx
    · exact hx
  have hext : ∀ c : Call, c.InRange P.base.n → (callExternal c s2).1 = false → s2.abs.sol.CallsExternal c := by
    intro c hc h
    have hab := andThen_still (still_forEach still_markPE _) h
    constructor
    · intro i hi
      exact hPE i (hc.1 i hi) (markPE_false ((forEach_still still_markPE hab.1).2 i (mem_registers.2 hi)))
    · intro o ho
      exact markPTE_false ((forEach_still still_markPTE hab.2).2 o (mem_registers.2 ho))
  have hlam : ∀ (c : Call) (f : Nat), (callLambda P.fn c f s2).1 = false → s2.abs.sol.CallsFn c (P.fn f) := by
    intro c f h
    unfold callLambda at h
    have hab := andThen_still (still_forEach (fun ab : Nat × Nat => still_makeSuperset ab.2 ab.1) _) h
    constructor
    · intro k i a h1 h2
      exact makeSuperset_false ((forEach_still (fun ab : Nat × Nat => still_makeSuperset ab.2 ab.1) hab.1).2 (i, a) (mem_paired.2 ⟨k, h1, h2⟩))
    · intro k o r h1 h2
      exact makeSuperset_false ((forEach_still (fun ab : Nat × Nat => still_makeSuperset ab.1 ab.2) hab.2).2 (o, r) (mem_paired.2 ⟨k, h1, h2⟩))
  -- an escaped object holds everything that escapes, and gives away only what has escaped
  have hescw : ∀ x, s2.abs.esc x → x < P.base.n ∧ s2.abs.pte x ∧ s2.abs.sol.PointeesEscape x := by
    intro x hx
    have := ga.wf.esc x hx
    have hx' : x < P.base.n := by rw [← ga.n]; exact this.1
    exact ⟨hx', this.2.2.2, hPE x hx' this.2.2.1⟩
  have hfns : ∀ f, s2.abs.esc f → f < P.base.n → P.base.kind f = .function →
      (∀ a, some a ∈ (P.fn f).args → s2.abs.pte a) ∧ (∀ r, some r ∈ (P.fn f).results → s2.abs.sol.PointeesEscape r) := by
    intro f he hfn' hk
    have h := whenB_false (hfn f ((hf f).2 ⟨hfn', hk⟩)) he
    unfold escapedFn at h
    have hab := andThen_still (s := s2)
      (f := forEach (fun a s => whenB (!s.pte a) (fun s => s.markPTE a) s) (registers (P.fn f).args))
      (g := forEach (fun r s => whenB (!s.pe r) (fun s => s.markPE r) s) (registers (P.fn f).results))
      (still_forEach (fun a => still_whenB (b := fun s => !s.pte a) (still_markPTE a)) _) h
    constructor
    · intro a ha
      have := (forEach_still (fun a => still_whenB (b := fun s => !s.pte a) (still_markPTE a)) hab.1).2 a (mem_registers.2 ha)
      show s2.pte a = true
      by_contra hn
      exact hn (markPTE_false (whenB_false this (by simpa using hn)))
    · intro r hrr
      have := (forEach_still (fun a => still_whenB (b := fun s => !s.pe a) (still_markPE a)) hab.2).2 r (mem_registers.2 hrr)
      apply hPE r ((hr.fn f hfn' hk).2 r hrr)
      by_contra hn
      exact hn (markPE_false (whenB_false this (by simpa using hn)))
  have hscal : ∀ i, i < P.base.n → (s2.ss i = true → ∀ x ∈ s2.pointees i, s2.pte x = true) ∧
      (s2.ls i = true → ∀ x ∈ s2.pointees i, s2.pe x = true) := by
    intro i hi
    have hi' : i < s2.n := by rw [hn]; exact hi
    have h := hsc (s2.root i) (hp.wf.lt i hi')
    unfold scalarAt at h
    rw [if_neg (not_not.2 (hp.wf.idem i))] at h
    have hord : ∀ x, x ∈ s2.pointees i → x ∈ ord s2 (s2.root i) := by
      intro x hx
      rw [ho]
      show x ∈ s2.pts (s2.root (s2.root i))
      rw [hp.wf.idem]; exact hx
    have hst : Still (fun s => whenB (s.ss (s2.root i)) (fun s => forEach (fun x s => s.markPTE x) (ord s (s2.root i)) s) s) := by
      intro s h
      refine still_whenB (b := fun s => s.ss (s2.root i)) ?_ s h
      intro s h
      exact (forEach_still still_markPTE h).1
    have hab := andThen_still (s := s2)
      (f := fun s => whenB (s.ss (s2.root i)) (fun s => forEach (fun x s => s.markPTE x) (ord s (s2.root i)) s) s)
      (g := fun s => whenB (s.ls (s2.root i)) (fun s => forEach (fun x s => s.markPE x) (ord s (s2.root i)) s) s) hst h
    constructor
    · intro hss x hx
      have h1 := whenB_false hab.1 (by unfold RSet.ss; rw [hp.wf.idem]; exact hss)
      exact markPTE_false ((forEach_still still_markPTE h1).2 x (hord x hx))
    · intro hls x hx
      have h1 := whenB_false hab.2 (by unfold RSet.ls; rw [hp.wf.idem]; exact hls)
      exact markPE_false ((forEach_still still_markPE h1).2 x (hord x hx))
  refine ⟨fun i x h => .inl (ga.pts i x h), ga.esc, ga.pte, fun i hi h => hPE i hi (ga.pe i h), ?_, ?_, ?_, ?_, ?_, ?_, ?_⟩
  · intro i j hc
    have hc' := (ga.conn i j).2 hc
    refine ⟨?_, fun h => (sh.pte i j hc').1 h⟩
    rintro x (hx | ⟨h1, h2⟩)
    · exact .inl ((sh.pts i j hc' x).1 hx)
    · exact .inr ⟨(sh.pte i j hc').1 h1, h2⟩
  · intro i x h1 h2
    exact .inr ⟨h1, h2⟩
  · intro x hx
    exact (hescw x hx).2
  · intro i x hi hss hx
    have hss' : s2.ss i = true := (ga.ss i).2 hss
    rcases hx with hx | ⟨_, hx⟩
    · exact hscal i hi |>.1 hss' x hx
    · exact (hescw x hx).2.1
  · intro i x hi hls hx
    have hls' : s2.ls i = true := (ga.ls i).2 hls
    rcases hx with hx | ⟨_, hx⟩
    · have := ga.wf.ptsLt i x hx
      exact hPE x (by rw [← ga.n]; exact this.1) (hscal i hi |>.2 hls' x hx)
    · exact (hescw x hx).2.2
  · intro c hc
    have hin := hr.cs c hc
    have hcf := hcs c hc
    cases c with
    | superset a b => exact makeSuperset_false hcf
    | store p v =>
      have hab := andThen_still (s := s2) (f := forEach (fun x s => s.makeSuperset x v) (ord s2 p))
        (g := fun s => whenB (s.pte p) (fun s => s.markPE v) s) (still_forEach (fun x => still_makeSuperset x v) (ord s2 p)) hcf
      have hstore := (forEach_still (fun x => still_makeSuperset x v) hab.1).2
      have hpe : s2.pte p = true → s2.abs.sol.PointeesEscape v := fun hp =>
        hPE v hin.2 (markPE_false (whenB_false hab.2 hp))
      refine ⟨?_, hpe⟩
      rintro x (hx | ⟨h1, h2⟩)
      · exact makeSuperset_false (hstore x ((ho _ _ _).2 hx))
      · refine ⟨fun y hy => .inr ⟨(hescw x h2).2.1, hpe h1 y hy⟩, fun _ => (hescw x h2).2.1⟩
    | load v p =>
      have hab := andThen_still (s := s2) (f := forEach (fun x s => s.makeSuperset v x) (ord s2 p))
        (g := fun s => whenB (s.pte p) (fun s => s.markPTE v) s) (still_forEach (fun x => still_makeSuperset v x) (ord s2 p)) hcf
      have hload := (forEach_still (fun x => still_makeSuperset v x) hab.1).2
      have hpte : s2.pte p = true → s2.pte v = true := fun hp => markPTE_false (whenB_false hab.2 hp)
      refine ⟨?_, hpte⟩
      rintro x (hx | ⟨h1, h2⟩)
      · exact makeSuperset_false (hload x ((ho _ _ _).2 hx))
      · exact ⟨fun y hy => .inr ⟨hpte h1, (hescw x h2).2.2 y hy⟩, fun _ => hpte h1⟩
    | call p c =>
      have hab := andThen_still (s := s2) (f := forEach (callTarget P.fn c) (ord s2 p))
        (g := fun s => whenB (s.pte p) (callExternal c) s) (still_forEach (still_callTarget P.fn c) (ord s2 p)) hcf
      have htar := (forEach_still (still_callTarget P.fn c) hab.1).2
      have hpte : s2.pte p = true → s2.abs.sol.CallsExternal c := fun hp =>
        hext c hin.2 (whenB_false hab.2 hp)
      refine ⟨?_, hpte⟩
      rintro x (hx | ⟨h1, h2⟩)
      · have ht := htar x ((ho _ _ _).2 hx)
        unfold callTarget at ht
        have hk : (s2.obj x).kind = P.base.kind x := ga.kind x
        rw [hk] at ht
        constructor
        · intro hk'; rw [hk'] at ht; exact hext c hin.2 ht
        · intro hk'; rw [hk'] at ht; exact hlam c x ht
      · refine ⟨fun _ => hpte h1, fun hk => ?_⟩
        have hx := hescw x h2
        have hf' := hfns x h2 hx.1 hk
        have hc' := hpte h1
        constructor
        · intro k i a h3 h4
          have hpa := hf'.1 a (List.mem_of_getElem? h4)
          exact ⟨fun y hy => .inr ⟨hpa, hc'.1 i (List.mem_of_getElem? h3) y hy⟩, fun _ => hpa⟩
        · intro k o r h3 h4
          have hpo := hc'.2 o (List.mem_of_getElem? h3)
          exact ⟨fun y hy => .inr ⟨hpo, hf'.2 r (List.mem_of_getElem? h4) y hy⟩, fun _ => hpo⟩
  · exact hfns

/-- the solver ends, within a number of passes that depends on the number of objects only -/
theorem solveNaively_spec {P : Problem} {ord : Order} (ho : OrderOk ord) (hr : P.InRange)
    {fns : List Nat} (hf : FnsOk P fns) : ∀ (fuel : Nat) {s : RSet}, Good P s →
    P.base.n * P.base.n + 3 * P.base.n < fuel + s.abs.cnt →
    ∃ r, solveNaively ord P.fn fns P.cs fuel s = some r ∧ Good P r ∧ Sat P r.abs.sol := by
  intro fuel
  induction fuel with
  | zero =>
    intro s g h
    have := s.abs.cnt_le
    rw [g.2.n] at this
    omega
  | succ fuel ih =>
    intro s g h
    obtain ⟨b, s', e, r, hs⟩ := naivePass_fixpoint ho hr hf g
    cases b with
    | false =>
      have := r.same rfl
      simp only at this
      subst this
      refine ⟨_, ?_, g, hs rfl⟩
      simp [solveNaively, e]
    | true =>
      have h1 := r.lt rfl
      obtain ⟨t, e', h'⟩ := ih r.good (by simp only at h1 ⊢; omega)
      refine ⟨t, ?_, h'⟩
      simp [solveNaively, e, e']

theorem abs_run_empty (ops : List POp) (hok : Abs.empty.OkAll ops) :
    (RSet.empty.run ops).abs = Abs.empty.run ops := by
  obtain ⟨_, _, _, h⟩ := run_rel ops rel_empty (by rw [abs_empty]; exact hok)
  rw [h, abs_empty]

theorem good_start (ops : List POp) (hok : Abs.empty.OkAll ops) (cs : List Constraint) (fn : Nat → Fn) :
    Good ⟨Abs.empty.run ops, cs, fn⟩ (RSet.empty.run ops) := by
  have hs := abs_run_empty ops hok
  obtain ⟨p, _, hp, _⟩ := run_rel ops rel_empty (by rw [abs_empty]; exact hok)
  refine ⟨⟨p, hp⟩, ?_⟩
  rw [hs]
  exact ⟨rfl, fun _ => rfl, fun _ _ => Iff.rfl, fun _ => Iff.rfl, fun _ => Iff.rfl, C20_wf ops hok,
    fun _ _ h => h, fun _ h => h, fun _ h => h, fun _ h => h,
    fun L hL => ⟨hL.pts, hL.pe, hL.ext, hL.esc⟩⟩

end Jlm.Llvm.Aa
