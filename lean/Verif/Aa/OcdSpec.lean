import Verif.Aa.OcdModel
import Verif.Aa.LcdSpec
set_option linter.unusedVariables false
set_option linter.unusedSimpArgs false
/-
The online cycle detector satisfies what the worklist solver needs of a detector (`DetOk`).
-/
namespace Jlm.Llvm.Aa
open WS (Path unifyPairs withEdge DetOk)
namespace Ocd

theorem mem_ins_iff {l : List Nat} {a x : Nat} : x ∈ ins l a ↔ x ∈ l ∨ x = a := mem_ins

section
variable (c : Ctx) (sup : Nat)

structure OInv (o : Ocd) : Prop where
  roots : ∀ e ∈ o.stack, c.set.root e.1 = e.1
  reach : ∀ e ∈ o.stack, Path c.set (withEdge c.edges c.sub sup) sup e.1
  parent : ∀ a e b, o.stack = a ++ e :: b → b ≠ [] → ∃ p, (p, true) ∈ b ∧ ∃ t ∈ c.edges p, c.set.root t = e.1
  bottom : ∀ a e, o.stack = a ++ [e] → e.1 = sup
  found : o.cyc ≠ [] → c.sub ∈ o.cyc ∧ (sup ∈ o.cyc ∨ ∃ p, (p, true) ∈ o.stack ∧ ∃ t ∈ c.edges p, c.set.root t ∈ o.cyc)
  cyc : ∀ x ∈ o.cyc, c.set.root x = x ∧ Path c.set (withEdge c.edges c.sub sup) x c.sub ∧ Path c.set (withEdge c.edges c.sub sup) sup x
  rng : Lcd.InR c.set c.edges c.sub sup → (∀ e ∈ o.stack, e.1 < c.set.n) ∧ (∀ x ∈ o.cyc, x < c.set.n)

variable {c sup}

theorem OInv.start (h2 : c.set.root sup = sup) : OInv c sup (start sup) := by
  unfold Ocd.start
  refine ⟨by simp [h2], ?_, ?_, ?_, by simp, by simp, ?_⟩
  · intro e he; simp at he; subst he; exact .refl _
  · intro a e b hs hb
    cases a with
    | nil => simp only [List.nil_append, List.cons.injEq] at hs; exact absurd hs.2.symm hb
    | cons x a => simp at hs
  · intro a e hs
    cases a with
    | nil => simp only [List.nil_append, List.cons.injEq] at hs; rw [← hs.1]
    | cons x a => simp at hs
  · intro hr; simp; exact hr.2.2.2

theorem OInv.step (ho : ∀ l k x, x ∈ c.ord l k ↔ x ∈ k) (hid : ∀ i, c.set.root (c.set.root i) = c.set.root i) (hsub : c.set.root c.sub = c.sub)
    {o : Ocd} (h : OInv c sup o) : OInv c sup (o.step c) := by
  unfold Ocd.step
  split
  · exact h
  · rename_i node rest hs
    split
    · refine ⟨fun e he => h.roots e (by rw [hs]; exact List.mem_cons_of_mem _ he), fun e he => h.reach e (by rw [hs]; exact List.mem_cons_of_mem _ he), ?_, ?_, ?_, h.cyc, ?_⟩
      · intro a e b hst hb
        exact h.parent ((node, false) :: a) e b (by rw [hs]; change rest = _ at hst; rw [hst]; rfl) hb
      · intro a e hst
        exact h.bottom ((node, false) :: a) e (by rw [hs]; change rest = _ at hst; rw [hst]; rfl)
      · intro hne
        obtain ⟨h1, h2⟩ := h.found hne
        refine ⟨h1, h2.imp id ?_⟩
        rintro ⟨p, h3, h4⟩
        refine ⟨p, ?_, h4⟩
        rw [hs] at h3
        rcases List.mem_cons.1 h3 with h3 | h3
        · cases h3
        · exact h3
      · intro hr
        exact ⟨fun e he => (h.rng hr).1 e (by rw [hs]; exact List.mem_cons_of_mem _ he), (h.rng hr).2⟩
    · show OInv c sup { o with visited := node :: o.visited, stack := ((((c.ord o (c.edges node)).map c.set.root).filter (fun r => !(node :: o.visited).contains r && c.inside r)).map fun r => (r, false)).reverse ++ (node, true) :: rest }
      have hnext : ∀ e ∈ ((((c.ord o (c.edges node)).map c.set.root).filter (fun r => !(node :: o.visited).contains r && c.inside r)).map fun r => (r, false)),
          ∃ t ∈ c.edges node, c.set.root t = e.1 ∧ e.2 = false := by
        intro e he
        rw [List.mem_map] at he
        obtain ⟨r, he, rfl⟩ := he
        rw [List.mem_filter, List.mem_map] at he
        obtain ⟨⟨t, h1, h2⟩, _⟩ := he
        exact ⟨t, (ho _ _ _).1 h1, h2, rfl⟩
      generalize ((((c.ord o (c.edges node)).map c.set.root).filter (fun r => !(node :: o.visited).contains r && c.inside r)).map fun r => (r, false)) = next at hnext
      have hmem : ∀ e, e ∈ next.reverse ++ (node, true) :: rest → e ∈ next ∨ e.1 = node ∨ e ∈ rest := by
        intro m hm
        rcases List.mem_append.1 hm with h | h
        · exact Or.inl (by simpa using h)
        · rcases List.mem_cons.1 h with h | h
          · exact Or.inr (Or.inl (by rw [h]))
          · exact Or.inr (Or.inr h)
      refine ⟨?_, ?_, ?_, ?_, ?_, h.cyc, ?_⟩
      · intro e he
        rcases hmem e he with h1 | h1 | h1
        · obtain ⟨t, _, h3, _⟩ := hnext e h1; rw [← h3]; exact hid t
        · rw [h1]; exact h.roots (node, false) (by rw [hs]; simp)
        · exact h.roots e (by rw [hs]; exact List.mem_cons_of_mem _ h1)
      · intro e he
        rcases hmem e he with h1 | h1 | h1
        · obtain ⟨t, h2, h3, _⟩ := hnext e h1
          rw [← h3]
          exact Lcd.path_trans (h.reach (node, false) (by rw [hs]; simp)) (.edge (Lcd.mem_withEdge h2) (.same (hid t).symm (.refl _)))
        · rw [h1]; exact h.reach (node, false) (by rw [hs]; simp)
        · exact h.reach e (by rw [hs]; exact List.mem_cons_of_mem _ h1)
      · intro a e b hst hb
        change next.reverse ++ (node, true) :: rest = a ++ e :: b at hst
        rcases List.append_eq_append_iff.1 hst with ⟨d, hc1, hc2⟩ | ⟨d, hc1, hc2⟩
        · cases d with
          | nil =>
            simp only [List.nil_append, List.cons.injEq] at hc2
            obtain ⟨rfl, rfl⟩ := hc2
            obtain ⟨p, h1, h2⟩ := h.parent [] (node, false) rest (by rw [hs]; rfl) hb
            exact ⟨p, h1, h2⟩
          | cons x d =>
            simp only [List.cons_append, List.cons.injEq] at hc2
            obtain ⟨p, h1, h2⟩ := h.parent ((node, false) :: d) e b (by rw [hs, hc2.2]; rfl) hb
            exact ⟨p, h1, h2⟩
        · cases d with
          | nil =>
            simp only [List.nil_append, List.cons.injEq] at hc2
            obtain ⟨rfl, rfl⟩ := hc2
            obtain ⟨p, h1, h2⟩ := h.parent [] (node, false) b (by rw [hs]; rfl) hb
            exact ⟨p, h1, h2⟩
          | cons x d =>
            simp only [List.cons_append, List.cons.injEq] at hc2
            obtain ⟨rfl, rfl⟩ := hc2
            have : e ∈ next.reverse := by rw [hc1]; simp
            obtain ⟨t, h1, h2, _⟩ := hnext e (by simpa using this)
            exact ⟨node, by simp, t, h1, h2⟩
      · intro a e hst
        change next.reverse ++ (node, true) :: rest = a ++ [e] at hst
        rcases List.append_eq_append_iff.1 hst with ⟨d, hc1, hc2⟩ | ⟨d, hc1, hc2⟩
        · cases d with
          | nil =>
            simp only [List.nil_append, List.cons.injEq] at hc2
            rw [← hc2.1]
            exact h.bottom [] (node, false) (by rw [hs, hc2.2]; rfl)
          | cons x d =>
            simp only [List.cons_append, List.cons.injEq] at hc2
            exact h.bottom ((node, false) :: d) e (by rw [hs, hc2.2]; rfl)
        · cases d with
          | nil =>
            simp only [List.nil_append, List.cons.injEq] at hc2
            rw [hc2.1]
            exact h.bottom [] (node, false) (by rw [hs, ← hc2.2]; rfl)
          | cons x d => simp at hc2
      · intro hne
        obtain ⟨h1, h2⟩ := h.found hne
        refine ⟨h1, h2.imp id ?_⟩
        rintro ⟨p, h3, h4⟩
        refine ⟨p, ?_, h4⟩
        rw [hs] at h3
        rcases List.mem_cons.1 h3 with h3 | h3
        · cases h3
        · exact List.mem_append_right _ (List.mem_cons_of_mem _ h3)
      · intro hr
        refine ⟨?_, (h.rng hr).2⟩
        intro e he
        rcases hmem e he with h1 | h1 | h1
        · obtain ⟨t, h2, h3, _⟩ := hnext e h1
          rw [← h3]; exact hr.1.lt t (hr.2.1 _ t h2)
        · rw [h1]; exact (h.rng hr).1 (node, false) (by rw [hs]; simp)
        · exact (h.rng hr).1 e (by rw [hs]; exact List.mem_cons_of_mem _ h1)
  · rename_i node rest hs
    have hnode := h.roots (node, true) (by rw [hs]; simp)
    have hreach := h.reach (node, true) (by rw [hs]; simp)
    -- joining the cycle
    have key : Path c.set (withEdge c.edges c.sub sup) node c.sub → c.sub ∈ ins o.cyc node →
        OInv c sup { o with stack := rest, cyc := ins o.cyc node } := by
      intro hp hsc
      refine ⟨fun e he => h.roots e (by rw [hs]; exact List.mem_cons_of_mem _ he), fun e he => h.reach e (by rw [hs]; exact List.mem_cons_of_mem _ he), ?_, ?_, ?_, ?_, ?_⟩
      · intro a e b hst hb
        exact h.parent ((node, true) :: a) e b (by rw [hs]; change rest = _ at hst; rw [hst]; rfl) hb
      · intro a e hst
        exact h.bottom ((node, true) :: a) e (by rw [hs]; change rest = _ at hst; rw [hst]; rfl)
      · intro _
        refine ⟨hsc, ?_⟩
        by_cases hr : rest = []
        · left
          have := h.bottom [] (node, true) (by rw [hs, hr]; rfl)
          change node = sup at this
          exact mem_ins.2 (Or.inr this.symm)
        · right
          obtain ⟨p, h1, t, h2, h3⟩ := h.parent [] (node, true) rest (by rw [hs]; rfl) hr
          exact ⟨p, h1, t, h2, mem_ins.2 (Or.inr h3)⟩
      · intro x hx
        rcases mem_ins.1 hx with hx | rfl
        · exact h.cyc x hx
        · exact ⟨hnode, hp, hreach⟩
      · intro hr
        refine ⟨fun e he => (h.rng hr).1 e (by rw [hs]; exact List.mem_cons_of_mem _ he), ?_⟩
        intro x hx
        rcases mem_ins.1 hx with hx | rfl
        · exact (h.rng hr).2 x hx
        · exact (h.rng hr).1 (x, true) (by rw [hs]; simp)
    by_cases hnc : node = c.sub
    · rw [if_pos hnc]
      exact key (by rw [hnc]; exact .refl _) (mem_ins.2 (Or.inr hnc.symm))
    · rw [if_neg hnc]
      by_cases hany : ((c.ord o (c.edges node)).any fun t => o.cyc.contains (c.set.root t)) = true
      · rw [if_pos hany]
        rw [List.any_eq_true] at hany
        obtain ⟨t, h1, h2⟩ := hany
        rw [List.contains_iff_mem] at h2
        refine key ?_ (mem_ins.2 (Or.inl (h.found (List.ne_nil_of_mem h2)).1))
        exact .edge (Lcd.mem_withEdge ((ho _ _ _).1 h1)) (.same (hid t).symm (h.cyc _ h2).2.1)
      · rw [if_neg hany]
        refine ⟨fun e he => h.roots e (by rw [hs]; exact List.mem_cons_of_mem _ he), fun e he => h.reach e (by rw [hs]; exact List.mem_cons_of_mem _ he), ?_, ?_, ?_, h.cyc, ?_⟩
        · intro a e b hst hb
          exact h.parent ((node, true) :: a) e b (by rw [hs]; change rest = _ at hst; rw [hst]; rfl) hb
        · intro a e hst
          exact h.bottom ((node, true) :: a) e (by rw [hs]; change rest = _ at hst; rw [hst]; rfl)
        · intro hne
          obtain ⟨h1, h2⟩ := h.found hne
          refine ⟨h1, h2.imp id ?_⟩
          rintro ⟨p, h3, t, h4, h5⟩
          refine ⟨p, ?_, t, h4, h5⟩
          rw [hs] at h3
          rcases List.mem_cons.1 h3 with h3 | h3
          · cases h3
            refine absurd ?_ hany
            rw [List.any_eq_true]
            exact ⟨t, (ho _ _ _).2 h4, by rw [List.contains_iff_mem]; exact h5⟩
          · exact h3
        · intro hr
          exact ⟨fun e he => (h.rng hr).1 e (by rw [hs]; exact List.mem_cons_of_mem _ he), (h.rng hr).2⟩

theorem OInv.loop (ho : ∀ l k x, x ∈ c.ord l k ↔ x ∈ k) (hid : ∀ i, c.set.root (c.set.root i) = c.set.root i) (hsub : c.set.root c.sub = c.sub) :
    ∀ (k : Nat) {o r : Ocd}, OInv c sup o → loop c k o = some r → OInv c sup r ∧ r.stack = []
  | 0, o, r, h, e => by
    unfold Ocd.loop at e
    split at e
    · cases e; exact ⟨h, by assumption⟩
    · cases e
  | k + 1, o, r, h, e => by
    unfold Ocd.loop at e
    split at e
    · cases e; exact ⟨h, by assumption⟩
    · exact OInv.loop ho hid hsub k (h.step ho hid hsub) e

end

/-- unifying along a list of pairs with one node puts everything into one class -/
theorem unifyPairs_all : ∀ (l : List Nat) {s : RSet} (a : Nat), (∀ i, s.root (s.root i) = s.root i) →
    (∀ i j, s.root i = s.root j → (unifyPairs s (l.map fun b => (a, b))).root i = (unifyPairs s (l.map fun b => (a, b))).root j) ∧
    ∀ b ∈ l, (unifyPairs s (l.map fun b => (a, b))).root b = (unifyPairs s (l.map fun b => (a, b))).root a
  | [], s, a, hid => ⟨fun _ _ h => h, by simp⟩
  | b :: l, s, a, hid => by
    have hstep : unifyPairs s ((b :: l).map fun b => (a, b)) = unifyPairs (s.unify (s.root a) (s.root b)).2 (l.map fun b => (a, b)) := rfl
    have hu : (∀ i, (s.unify (s.root a) (s.root b)).2.root ((s.unify (s.root a) (s.root b)).2.root i) = (s.unify (s.root a) (s.root b)).2.root i) ∧
        (∀ i j, s.root i = s.root j → (s.unify (s.root a) (s.root b)).2.root i = (s.unify (s.root a) (s.root b)).2.root j) ∧
        (s.unify (s.root a) (s.root b)).2.root b = (s.unify (s.root a) (s.root b)).2.root a := by
      by_cases hne : s.root a = s.root b
      · have : (s.unify (s.root a) (s.root b)).2 = s := by
          unfold RSet.unify; rw [hne]; simp
        rw [this]
        exact ⟨hid, fun _ _ h => h, hne.symm⟩
      · obtain ⟨u1, u2, u3, _⟩ := Lcd.unify_root s hid (hid a) (hid b) hne
        generalize s.unify (s.root a) (s.root b) = u at u1 u2 u3
        refine ⟨?_, ?_, ?_⟩
        · intro i
          by_cases h1 : s.root i = s.root a
          · rw [u2 i (Or.inl h1)]
            rcases u1 with e | e <;> rw [e]
            · rw [u2 _ (Or.inl (hid a)), e]
            · rw [u2 _ (Or.inr (hid b)), e]
          · by_cases h2 : s.root i = s.root b
            · rw [u2 i (Or.inr h2)]
              rcases u1 with e | e <;> rw [e]
              · rw [u2 _ (Or.inl (hid a)), e]
              · rw [u2 _ (Or.inr (hid b)), e]
            · rw [u3 i h1 h2, u3 _ (by rw [hid]; exact h1) (by rw [hid]; exact h2)]
              exact hid i
        · intro i j hij
          by_cases h1 : s.root i = s.root a
          · rw [u2 i (Or.inl h1), u2 j (Or.inl (hij ▸ h1))]
          · by_cases h2 : s.root i = s.root b
            · rw [u2 i (Or.inr h2), u2 j (Or.inr (hij ▸ h2))]
            · rw [u3 i h1 h2, u3 j (hij ▸ h1) (hij ▸ h2)]; exact hij
        · rw [u2 b (Or.inr rfl), u2 a (Or.inl rfl)]
    obtain ⟨h1, h2, h3⟩ := hu
    rw [hstep]
    obtain ⟨i1, i2⟩ := unifyPairs_all l a h1
    refine ⟨fun i j h => i1 i j (h2 i j h), ?_⟩
    intro x hx
    rcases List.mem_cons.1 hx with rfl | hx
    · exact i1 _ _ h3
    · exact i2 x hx

end Ocd

/-- **C22**: online cycle detection is a legal detector, for every order of enumeration and every
topological order. -/
theorem C22_ocd (env : Env Topo) (ord : Ocd → List Nat → List Nat) (ho : ∀ l k x, x ∈ ord l k ↔ x ∈ k)
    (ordC : List Nat → List Nat) (hc : ∀ l x, x ∈ ordC l ↔ x ∈ l)
    (he : env.det = Ocd.det ord ordC) : DetOk env := by
  have key : ∀ d s edges sub sup, (∀ i, s.root (s.root i) = s.root i) → s.root sub = sub → s.root sup = sup →
      (env.det d s edges sub sup).2 = [] ∨
      ∃ c o, c.set = s ∧ c.edges = edges ∧ c.sub = sub ∧ (env.det d s edges sub sup).2 = Ocd.pairs (ordC o.cyc) ∧ Ocd.OInv c sup o ∧ o.stack = [] := by
    intro d s edges sub sup hid h1 h2
    rw [he]
    unfold Ocd.det
    split
    · split
      · exact Or.inl rfl
      · split
        · rename_i upper lower _ _ _ _ o e
          have := Ocd.OInv.loop (c := ⟨ord, s, edges, d, sub, lower, upper⟩) (sup := sup) ho hid h1 _ (.start h2) e
          exact Or.inr ⟨_, o, rfl, rfl, rfl, rfl, this⟩
        · exact Or.inl rfl
    · exact Or.inl rfl
  have hpairs : ∀ (l : List Nat) p, p ∈ Ocd.pairs l → p.1 ∈ l ∧ p.2 ∈ l := by
    intro l p hp
    cases l with
    | nil => cases hp
    | cons a l =>
      simp only [Ocd.pairs, List.mem_map] at hp
      obtain ⟨b, hb, rfl⟩ := hp
      exact ⟨by simp, by simp [hb]⟩
  constructor
  · intro d s edges sub sup hw hed hsub hsup h1 h2 hne p hp
    rcases key d s edges sub sup hw.idem h1 h2 with e | ⟨c, o, rfl, rfl, rfl, e, i, _⟩
    · rw [e] at hp; cases hp
    · rw [e] at hp
      have := hpairs _ p hp
      rw [hc, hc] at this
      have hr := (i.rng ⟨hw, hed, hsub, hsup⟩).2
      exact ⟨hr _ this.1, hr _ this.2⟩
  · intro d s edges sub sup hid h1 h2 hne p hp
    rcases key d s edges sub sup hid h1 h2 with e | ⟨c, o, rfl, rfl, rfl, e, i, _⟩
    · rw [e] at hp; cases hp
    · rw [e] at hp
      have := hpairs _ p hp
      rw [hc, hc] at this
      have a := i.cyc _ this.1
      have b := i.cyc _ this.2
      have n := Lcd.path_new c.set c.edges c.sub sup
      exact ⟨Lcd.path_trans a.2.1 (Lcd.path_trans n b.2.2), Lcd.path_trans b.2.1 (Lcd.path_trans n a.2.2)⟩
  · intro d s edges sub sup hw hed hsub hsup h1 h2 hne hp
    rcases key d s edges sub sup hw.idem h1 h2 with e | ⟨c, o, rfl, rfl, rfl, e, i, hs⟩
    · exact absurd e hp
    · rw [e] at hp ⊢
      cases hoc : ordC o.cyc with
      | nil => rw [hoc] at hp; exact absurd rfl hp
      | cons a l =>
        have hmem : ∀ x, x ∈ o.cyc ↔ x ∈ a :: l := fun x => by rw [← hoc]; exact (hc _ _).symm
        obtain ⟨f1, f2⟩ := i.found (List.ne_nil_of_mem ((hmem a).2 (by simp)))
        have f3 : sup ∈ o.cyc := by
          rcases f2 with f | ⟨p, f, _⟩
          · exact f
          · rw [hs] at f; cases f
        have hall : ∀ x ∈ a :: l, (unifyPairs c.set (l.map fun b => (a, b))).root x = (unifyPairs c.set (l.map fun b => (a, b))).root a := by
          intro x hx
          rcases List.mem_cons.1 hx with rfl | hx
          · rfl
          · exact (Ocd.unifyPairs_all l a hw.idem).2 x hx
        refine ⟨?_, ?_⟩
        · show (unifyPairs c.set (l.map fun b => (a, b))).root c.sub = (unifyPairs c.set (l.map fun b => (a, b))).root sup
          rw [hall _ ((hmem _).1 f1), hall _ ((hmem _).1 f3)]
        · intro p hpm
          show (unifyPairs c.set (l.map fun b => (a, b))).root p.1 = (unifyPairs c.set (l.map fun b => (a, b))).root c.sub
          rw [hall _ ((hmem _).1 f1), hall _ (hpairs _ p hpm).1]

end Jlm.Llvm.Aa
