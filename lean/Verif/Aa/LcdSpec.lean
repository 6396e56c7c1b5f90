import Verif.Aa.LcdModel
import Verif.Aa.WorklistTerm
set_option linter.unusedVariables false
set_option linter.unusedSimpArgs false
/-
The lazy cycle detector satisfies what the worklist solver needs of a detector (`DetOk`), ends, and
returns the new root exactly if it has unified something.
-/
namespace Jlm.Llvm.Aa
open WS (Path unifyPairs withEdge DetOk)
namespace Lcd

/-- the classes after a unification -/
theorem unify_root (s : RSet) (hid : ∀ i, s.root (s.root i) = s.root i) {a b : Nat} (ha : s.root a = a) (hb : s.root b = b) (hne : a ≠ b) :
    ((s.unify a b).1 = a ∨ (s.unify a b).1 = b) ∧
    (∀ i, s.root i = a ∨ s.root i = b → (s.unify a b).2.root i = (s.unify a b).1) ∧
    (∀ i, s.root i ≠ a → s.root i ≠ b → (s.unify a b).2.root i = s.root i) ∧ (s.unify a b).2.n = s.n := by
  unfold RSet.unify
  rw [ha, hb]
  simp only [hne, if_false]
  by_cases hr : s.rank a < s.rank b
  · simp only [hr, if_true]
    refine ⟨by simp, ?_, ?_, by simp⟩
    · rintro i (h | h)
      · simp [h]
      · simp [h]
    · intro i h1 h2; simp [h1]
  · simp only [hr, if_false]
    refine ⟨by simp, ?_, ?_, by simp⟩
    · rintro i (h | h)
      · simp [h]
      · simp [h]
    · intro i h1 h2; simp [h2]

theorem path_trans {s : RSet} {G : Nat → List Nat} {a b c : Nat} (h : Path s G a b) (k : Path s G b c) : Path s G a c := by
  induction h with
  | refl => exact k
  | same e _ ih => exact .same e (ih k)
  | edge e _ ih => exact .edge e (ih k)

theorem path_mono {s : RSet} {G H : Nat → List Nat} (hGH : ∀ m, ∀ t ∈ G m, t ∈ H m) {a b : Nat} (h : Path s G a b) : Path s H a b := by
  induction h with
  | refl => exact .refl _
  | same e _ ih => exact .same e ih
  | edge e _ ih => exact .edge (hGH _ _ e) ih

theorem mem_withEdge {G : Nat → List Nat} {sub sup m t : Nat} (h : t ∈ G m) : t ∈ withEdge G sub sup m := by
  unfold withEdge
  by_cases hm : m = sub
  · subst hm; rw [upd_same]; exact List.mem_cons_of_mem _ h
  · rw [upd_ne _ _ hm]; exact h

theorem path_new (s : RSet) (G : Nat → List Nat) (sub sup : Nat) : Path s (withEdge G sub sup) sub sup :=
  .edge (by unfold withEdge; rw [upd_same]; simp) (.refl _)

section
variable (s0 : RSet) (G : Nat → List Nat) (sub sup : Nat)

/-- the input is in range -/
def InR : Prop := s0.Wf ∧ (∀ m, ∀ t ∈ G m, t < s0.n) ∧ sub < s0.n ∧ sup < s0.n

structure LInv (l : Lcd) : Prop where
  subRoot : l.set.root l.subset = l.subset
  subCls : l.set.root sub = l.subset
  other : ∀ x, l.set.root x ≠ l.subset → l.set.root x = s0.root x
  coarse : ∀ a b, s0.root a = s0.root b → l.set.root a = l.set.root b
  edges : ∀ m, l.set.root m ≠ l.subset → l.edges m = G m
  live : ∀ m ∈ l.stack, l.mark m ≠ .popped → l.set.root m = m ∧ m ≠ l.subset
  cls : ∀ x, l.set.root x = l.subset → Path s0 (withEdge G sub sup) x sub ∧ Path s0 (withEdge G sub sup) sub x
  reach : ∀ m ∈ l.stack, Path s0 (withEdge G sub sup) sup m
  parent : ∀ a e b, l.stack = a ++ e :: b → b ≠ [] → ∃ p ∈ b, p ∉ a ∧ p ≠ e ∧ l.mark p = .visited ∧ ∃ t ∈ G p, l.set.root t = l.set.root e
  bottom : ∀ a e, l.stack = a ++ [e] → e = sup
  found : l.pairs ≠ [] → l.set.root sup = l.subset ∨ ∃ p ∈ l.stack, l.mark p = .visited ∧ ∃ t ∈ G p, l.set.root t = l.subset
  pairs : ∀ p ∈ l.pairs, (Path s0 (withEdge G sub sup) p.1 p.2 ∧ Path s0 (withEdge G sub sup) p.2 p.1) ∧ l.set.root p.1 = l.subset
  set : l.set = unifyPairs s0 l.pairs
  rng : InR s0 G sub sup → l.subset < s0.n ∧ (∀ m ∈ l.stack, m < s0.n) ∧ (∀ p ∈ l.pairs, p.1 < s0.n ∧ p.2 < s0.n)
  empty : l.pairs = [] → l.subset = sub

variable {s0 G sub sup}

theorem LInv.start (hid : ∀ i, s0.root (s0.root i) = s0.root i) (h1 : s0.root sub = sub) (h2 : s0.root sup = sup) (hne : sub ≠ sup) :
    LInv s0 G sub sup (start s0 G sub sup) := by
  unfold Lcd.start
  refine ⟨h1, h1, fun _ _ => rfl, fun _ _ h => h, fun _ _ => rfl, ?_, ?_, ?_, ?_, ?_, by simp, by simp, rfl, ?_, fun _ => rfl⟩
  · intro m hm _; simp at hm; subst hm; exact ⟨h2, fun h => hne h.symm⟩
  · intro x hx
    have e : s0.root x = s0.root sub := by rw [h1]; exact hx
    exact ⟨.same e (.refl _), .same e.symm (.refl _)⟩
  · intro m hm; simp at hm; subst hm; exact .refl _
  · intro a e b hs hb
    cases a with
    | nil => simp only [List.nil_append, List.cons.injEq] at hs; exact absurd hs.2.symm hb
    | cons x a => simp at hs
  · intro a e hs
    cases a with
    | nil => simp only [List.nil_append, List.cons.injEq] at hs; exact hs.1.symm
    | cons x a => simp at hs
  · rintro ⟨_, _, a, b⟩
    refine ⟨a, ?_, by simp⟩
    intro m hm; simp at hm; subst hm; exact b

/-- popping the top keeps the facts about the rest of the stack -/
theorem LInv.drop {l : Lcd} (hl : LInv s0 G sub sup l) {node : Nat} {rest : List Nat} (hs : l.stack = node :: rest) (hp : l.mark node = .popped) :
    LInv s0 G sub sup { l with stack := rest } := by
  refine ⟨hl.subRoot, hl.subCls, hl.other, hl.coarse, hl.edges, ?_, hl.cls, ?_, ?_, ?_, ?_, hl.pairs, hl.set, ?_, hl.empty⟩
  · intro m hm hk; exact hl.live m (by rw [hs]; exact List.mem_cons_of_mem _ hm) hk
  · intro m hm; exact hl.reach m (by rw [hs]; exact List.mem_cons_of_mem _ hm)
  · intro a e b hst hb
    obtain ⟨p, h1, h2, h3⟩ := hl.parent (node :: a) e b (by rw [hs]; change rest = _ at hst; rw [hst]; rfl) hb
    exact ⟨p, h1, fun h => h2 (List.mem_cons_of_mem _ h), h3⟩
  · intro a e hst
    exact hl.bottom (node :: a) e (by rw [hs]; change rest = _ at hst; rw [hst]; rfl)
  · intro hne
    rcases hl.found hne with h | ⟨p, h1, h2, h3⟩
    · exact Or.inl h
    · refine Or.inr ⟨p, ?_, h2, h3⟩
      rw [hs] at h1
      rcases List.mem_cons.1 h1 with rfl | h1
      · rw [hp] at h2; cases h2
      · exact h1
  · intro hr
    obtain ⟨a, b, c⟩ := hl.rng hr
    exact ⟨a, fun m hm => b m (by rw [hs]; exact List.mem_cons_of_mem _ hm), c⟩

/-- the second visit of a node, before the unification -/
theorem LInv.step {ord : Lcd → List Nat → List Nat} (ho : ∀ l k x, x ∈ ord l k ↔ x ∈ k) (hid : ∀ i, s0.root (s0.root i) = s0.root i)
    {l : Lcd} (hl : LInv s0 G sub sup l) : LInv s0 G sub sup (l.step ord) := by
  unfold Lcd.step
  split
  · exact hl
  rename_i node rest hs
  have hid' : ∀ i, l.set.root (l.set.root i) = l.set.root i := by
    intro i
    by_cases h : l.set.root i = l.subset
    · rw [h]; exact hl.subRoot
    · have e := hl.other i h
      have := hl.coarse (s0.root i) i (hid i)
      rw [e, this]; exact e
  split
  · -- first visit
    rename_i hm
    show LInv s0 G sub sup { l with mark := upd l.mark node .visited, stack := (((ord l (l.edges node)).map l.set.root).filter (fun r => r ≠ l.subset && upd l.mark node .visited r = .notVisited)).reverse ++ node :: rest }
    have hlive := hl.live node (by rw [hs]; simp) (by rw [hm]; simp)
    have hG : l.edges node = G node := hl.edges node (by rw [hlive.1]; exact hlive.2)
    have hnext : ∀ r, r ∈ (((ord l (l.edges node)).map l.set.root).filter (fun r => r ≠ l.subset && upd l.mark node .visited r = .notVisited)) →
        (∃ t ∈ G node, l.set.root t = r) ∧ r ≠ l.subset ∧ upd l.mark node .visited r = .notVisited := by
      intro r hr
      rw [List.mem_filter, List.mem_map] at hr
      obtain ⟨⟨t, ht, he⟩, hc⟩ := hr
      rw [ho, hG] at ht
      simp only [ne_eq, Bool.and_eq_true, decide_eq_true_eq, decide_not, Bool.not_eq_true', decide_eq_false_iff_not] at hc
      exact ⟨⟨t, ht, he⟩, hc.1, hc.2⟩
    generalize hnx : (((ord l (l.edges node)).map l.set.root).filter (fun r => r ≠ l.subset && upd l.mark node .visited r = .notVisited)) = next at hnext
    have hmem : ∀ m, m ∈ next.reverse ++ node :: rest → m ∈ next ∨ m ∈ l.stack := by
      intro m hm; rw [hs]; simpa [List.mem_append] using hm
    have hmark : ∀ m, upd l.mark node .visited m ≠ .popped → l.mark m ≠ .popped := by
      intro m h
      by_cases hmn : m = node
      · subst hmn; rw [hm]; simp
      · rwa [upd_ne _ _ hmn] at h
    refine ⟨hl.subRoot, hl.subCls, hl.other, hl.coarse, hl.edges, ?_, hl.cls, ?_, ?_, ?_, ?_, hl.pairs, hl.set, ?_, hl.empty⟩
    · intro m hmm hk
      rcases hmem m hmm with h | h
      · obtain ⟨⟨t, _, e⟩, h2, _⟩ := hnext m h
        exact ⟨by rw [← e]; exact hid' t, h2⟩
      · exact hl.live m h (hmark m hk)
    · intro m hmm
      rcases hmem m hmm with h | h
      · obtain ⟨⟨t, ht, e⟩, h2, _⟩ := hnext m h
        have h3 := hl.reach node (by rw [hs]; simp)
        have e2 : l.set.root t = s0.root t := hl.other t (by rw [e]; exact h2)
        rw [← e, e2]
        exact path_trans h3 (.edge (mem_withEdge ht) (.same (hid t).symm (.refl _)))
      · exact hl.reach m h
    · intro a e b hst hb
      change next.reverse ++ node :: rest = a ++ e :: b at hst
      rcases List.append_eq_append_iff.1 hst with ⟨c, hc1, hc2⟩ | ⟨c, hc1, hc2⟩
      · -- in the old part
        obtain ⟨p, h1, h2, h3, h4, h5⟩ := hl.parent c e b (by rw [hs]; exact hc2) hb
        refine ⟨p, h1, ?_, h3, ?_, h5⟩
        · intro hpa
          rw [hc1] at hpa
          rcases List.mem_append.1 hpa with hpn | hpc
          · have := (hnext p (by simpa using hpn)).2.2
            by_cases hpn' : p = node
            · subst hpn'; rw [upd_same] at this; cases this
            · rw [upd_ne _ _ hpn', h4] at this; cases this
          · exact h2 hpc
        · change upd l.mark node .visited p = _
          by_cases hpn' : p = node
          · subst hpn'; rw [upd_same]
          · rw [upd_ne _ _ hpn']; exact h4
      · cases c with
        | nil =>
          rw [List.append_nil] at hc1
          simp only [List.nil_append, List.cons.injEq] at hc2
          obtain ⟨rfl, rfl⟩ := hc2
          obtain ⟨p, h1, h2, h3, h4, h5⟩ := hl.parent [] e b (by rw [hs]; rfl) hb
          refine ⟨p, h1, ?_, h3, ?_, h5⟩
          · intro hpa
            rw [← hc1] at hpa
            have := (hnext p (by simpa using hpa)).2.2
            rw [upd_ne _ _ h3, h4] at this; cases this
          · change upd l.mark e .visited p = _
            rw [upd_ne _ _ h3]; exact h4
        | cons x c =>
          simp only [List.cons_append, List.cons.injEq] at hc2
          obtain ⟨rfl, rfl⟩ := hc2
          have he := hnext e (by have : e ∈ next.reverse := by rw [hc1]; simp
                                 simpa using this)
          have nne : node ≠ e := by
            intro h; rw [← h, upd_same] at he; cases he.2.2
          refine ⟨node, by simp, ?_, nne, upd_same .., ?_⟩
          · intro ha
            have := (hnext node (by have : node ∈ next.reverse := by rw [hc1]; simp [ha]
                                    simpa using this)).2.2
            rw [upd_same] at this; cases this
          · obtain ⟨⟨t, h1, h2⟩, _⟩ := he
            exact ⟨t, h1, by show l.set.root t = l.set.root e; rw [← h2, hid']⟩
    · intro a e hst
      change next.reverse ++ node :: rest = a ++ [e] at hst
      rcases List.append_eq_append_iff.1 hst with ⟨c, hc1, hc2⟩ | ⟨c, hc1, hc2⟩
      · exact hl.bottom c e (by rw [hs]; exact hc2)
      · cases c with
        | nil => exact hl.bottom [] e (by rw [hs]; simpa using hc2.symm)
        | cons x c => simp at hc2
    · intro hne
      rcases hl.found hne with h | ⟨p, h1, h2, h3⟩
      · exact Or.inl h
      · refine Or.inr ⟨p, ?_, ?_, h3⟩
        · change p ∈ next.reverse ++ node :: rest
          rw [← hs]; exact List.mem_append_right _ h1
        · change upd l.mark node .visited p = _
          by_cases hpn' : p = node
          · subst hpn'; rw [upd_same]
          · rw [upd_ne _ _ hpn']; exact h2
    · intro hr
      obtain ⟨a, b, c⟩ := hl.rng hr
      refine ⟨a, ?_, c⟩
      intro m hmm
      rcases hmem m hmm with h | h
      · obtain ⟨⟨t, ht, e⟩, h2, _⟩ := hnext m h
        rw [← e, hl.other t (by rw [e]; exact h2)]
        exact hr.1.lt t (hr.2.1 _ t ht)
      · exact b m h
  · -- second visit
    rename_i hm
    have hlive := hl.live node (by rw [hs]; simp) (by rw [hm]; simp)
    have hG : l.edges node = G node := hl.edges node (by rw [hlive.1]; exact hlive.2)
    have hmk : ∀ m, m ≠ node → upd l.mark node .popped m = l.mark m := fun m h => upd_ne _ _ h
    have hpar : ∀ a e b, rest = a ++ e :: b → b ≠ [] → ∃ p ∈ b, p ∉ a ∧ p ≠ e ∧ upd l.mark node .popped p = .visited ∧ ∃ t ∈ G p, l.set.root t = l.set.root e := by
      intro a e b hst hb
      obtain ⟨p, h1, h2, h3, h4, h5⟩ := hl.parent (node :: a) e b (by rw [hs, hst]; rfl) hb
      have hpn : p ≠ node := fun h => h2 (by rw [h]; simp)
      exact ⟨p, h1, fun h => h2 (List.mem_cons_of_mem _ h), h3, by rw [hmk p hpn]; exact h4, h5⟩
    have hbot : ∀ a e, rest = a ++ [e] → e = sup := by
      intro a e hst
      exact hl.bottom (node :: a) e (by rw [hs, hst]; rfl)
    simp only []
    by_cases hany : ((ord l (l.edges node)).any fun t => decide (l.set.root t = l.subset)) = true
    · rw [if_pos hany]
      rw [List.any_eq_true] at hany
      obtain ⟨t, ht, hroot⟩ := hany
      rw [ho, hG] at ht
      have hroot := of_decide_eq_true hroot
      have hpn : Path s0 (withEdge G sub sup) node sub := .edge (mem_withEdge ht) (hl.cls t hroot).1
      have hpn' : Path s0 (withEdge G sub sup) sub node := path_trans (path_new s0 G sub sup) (hl.reach node (by rw [hs]; simp))
      unfold Lcd.join
      simp only []
      rw [hlive.1, hl.subRoot, if_neg hlive.2]
      obtain ⟨u1, u2, u3, u4⟩ := unify_root l.set hid' hlive.1 hl.subRoot hlive.2
      have hset : (l.set.unify node l.subset).2 = unifyPairs s0 (l.pairs ++ [(node, l.subset)]) := by
        unfold unifyPairs
        rw [List.foldl_append, show List.foldl _ s0 l.pairs = l.set from hl.set.symm]
        simp only [List.foldl_cons, List.foldl_nil]
        rw [hlive.1, hl.subRoot]
      generalize l.set.unify node l.subset = u at u1 u2 u3 u4 hset
      have hcls : ∀ x, u.2.root x = u.1 → l.set.root x = node ∨ l.set.root x = l.subset := by
        intro x hx
        by_cases h1 : l.set.root x = node
        · exact Or.inl h1
        · by_cases h2 : l.set.root x = l.subset
          · exact Or.inr h2
          · exfalso
            rw [u3 x h1 h2] at hx
            rcases u1 with e | e
            · exact h1 (hx.trans e)
            · exact h2 (hx.trans e)
      have hcls' : ∀ x, u.2.root x ≠ u.1 → l.set.root x ≠ node ∧ l.set.root x ≠ l.subset := by
        intro x hx; exact ⟨fun h => hx (u2 x (Or.inl h)), fun h => hx (u2 x (Or.inr h))⟩
      have hnodeRest : ∀ m ∈ rest, upd l.mark node .popped m ≠ .popped → l.mark m ≠ .popped ∧ m ≠ node := by
        intro m hm' hk
        have hmn : m ≠ node := fun h => hk (by rw [h, upd_same])
        exact ⟨by rwa [hmk m hmn] at hk, hmn⟩
      refine ⟨?_, ?_, ?_, ?_, ?_, ?_, ?_, ?_, ?_, ?_, ?_, ?_, ?_, ?_, ?_⟩
      · show u.2.root u.1 = u.1
        rcases u1 with e | e
        · exact u2 _ (Or.inl (by rw [e]; exact hlive.1))
        · exact u2 _ (Or.inr (by rw [e]; exact hl.subRoot))
      · exact u2 sub (Or.inr hl.subCls)
      · intro x hx
        have := hcls' x hx
        show u.2.root x = _
        rw [u3 x this.1 this.2]; exact hl.other x this.2
      · intro a b hab
        have e := hl.coarse a b hab
        show u.2.root a = u.2.root b
        by_cases h1 : l.set.root a = node
        · rw [u2 a (Or.inl h1), u2 b (Or.inl (e ▸ h1))]
        · by_cases h2 : l.set.root a = l.subset
          · rw [u2 a (Or.inr h2), u2 b (Or.inr (e ▸ h2))]
          · rw [u3 a h1 h2, u3 b (e ▸ h1) (e ▸ h2)]; exact e
      · intro m hm'
        have hm2 := hcls' m hm'
        have a1 : m ≠ node := fun h => hm2.1 (by rw [h]; exact hlive.1)
        have a2 : m ≠ l.subset := fun h => hm2.2 (by rw [h]; exact hl.subRoot)
        have b1 : m ≠ u.1 := by rcases u1 with e | e <;> rw [e] <;> assumption
        show upd (upd l.edges _ _) _ _ m = _
        rw [upd_ne _ _ (by split <;> assumption), upd_ne _ _ b1]
        exact hl.edges m hm2.2
      · intro m hm' hk
        have h2 := hnodeRest m hm' hk
        have h3 := hl.live m (by rw [hs]; exact List.mem_cons_of_mem _ hm') h2.1
        refine ⟨?_, ?_⟩
        · show u.2.root m = m
          rw [u3 m (by rw [h3.1]; exact h2.2) (by rw [h3.1]; exact h3.2)]; exact h3.1
        · show m ≠ u.1
          rcases u1 with e | e <;> rw [e]
          · exact h2.2
          · exact h3.2
      · intro x hx
        rcases hcls x hx with h | h
        · -- the class of `node`
          have e : s0.root x = s0.root node := by
            have e1 := hl.other x (by rw [h]; exact hlive.2)
            have e2 := hl.other node (by rw [hlive.1]; exact hlive.2)
            rw [← e1, ← e2, h, hlive.1]
          exact ⟨.same e hpn, path_trans hpn' (.same e.symm (.refl _))⟩
        · exact hl.cls x h
      · intro m hm'; exact hl.reach m (by rw [hs]; exact List.mem_cons_of_mem _ hm')
      · intro a e b hst hb
        obtain ⟨p, h1, h2, h3, h4, t', h5, h6⟩ := hpar a e b hst hb
        refine ⟨p, h1, h2, h3, h4, t', h5, ?_⟩
        show u.2.root t' = u.2.root e
        by_cases h1 : l.set.root t' = node
        · rw [u2 t' (Or.inl h1), u2 e (Or.inl (h6 ▸ h1))]
        · by_cases h2 : l.set.root t' = l.subset
          · rw [u2 t' (Or.inr h2), u2 e (Or.inr (h6 ▸ h2))]
          · rw [u3 t' h1 h2, u3 e (h6 ▸ h1) (h6 ▸ h2)]; exact h6
      · exact hbot
      · intro _
        by_cases hr : rest = []
        · left
          have : node = sup := hl.bottom [] node (by rw [hs, hr]; rfl)
          show u.2.root sup = u.1
          rw [← this]; exact u2 _ (Or.inl hlive.1)
        · right
          obtain ⟨p, h1, h2, h3, h4, t', h5, h6⟩ := hl.parent [] node rest (by rw [hs]; rfl) hr
          refine ⟨p, h1, ?_, t', h5, ?_⟩
          · change upd l.mark node .popped p = _
            rw [hmk p h3]; exact h4
          · exact u2 t' (Or.inl (by rw [h6]; exact hlive.1))
      · intro p hp
        change p ∈ l.pairs ++ [(node, l.subset)] at hp
        rcases List.mem_append.1 hp with hp | hp
        · obtain ⟨a, b⟩ := hl.pairs p hp
          exact ⟨a, u2 _ (Or.inr b)⟩
        · simp only [List.mem_singleton] at hp
          subst hp
          have hcs := hl.cls l.subset hl.subRoot
          exact ⟨⟨path_trans hpn hcs.2, path_trans hcs.1 hpn'⟩, u2 node (Or.inl hlive.1)⟩
      · exact hset
      · intro hr
        obtain ⟨a, b, c⟩ := hl.rng hr
        have hn := b node (by rw [hs]; simp)
        refine ⟨?_, fun m hm => b m (by rw [hs]; exact List.mem_cons_of_mem _ hm), ?_⟩
        · show u.1 < _
          rcases u1 with e | e <;> rw [e] <;> assumption
        · intro p hp
          change p ∈ l.pairs ++ [(node, l.subset)] at hp
          rcases List.mem_append.1 hp with hp | hp
          · exact c p hp
          · simp only [List.mem_singleton] at hp
            subst hp; exact ⟨hn, a⟩
      · intro h; exfalso; change l.pairs ++ [(node, l.subset)] = [] at h; simp at h
    · rw [if_neg hany]
      refine ⟨hl.subRoot, hl.subCls, hl.other, hl.coarse, hl.edges, ?_, hl.cls, ?_, hpar, hbot, ?_, hl.pairs, hl.set, ?_, hl.empty⟩
      · intro m hmm hk
        have hmn : m ≠ node := fun h => hk (by show upd l.mark node .popped m = _; rw [h, upd_same])
        exact hl.live m (by rw [hs]; exact List.mem_cons_of_mem _ hmm) (by change upd l.mark node .popped m ≠ _ at hk; rwa [hmk m hmn] at hk)
      · intro m hmm; exact hl.reach m (by rw [hs]; exact List.mem_cons_of_mem _ hmm)
      · intro hne
        rcases hl.found hne with h | ⟨p, h1, h2, t, h3, h4⟩
        · exact Or.inl h
        · have hpn : p ≠ node := by
            intro h
            refine hany ?_
            rw [List.any_eq_true]
            exact ⟨t, by rw [ho, hG, ← h]; exact h3, decide_eq_true h4⟩
          refine Or.inr ⟨p, ?_, ?_, t, h3, h4⟩
          · rw [hs] at h1
            rcases List.mem_cons.1 h1 with h1 | h1
            · exact absurd h1 hpn
            · exact h1
          · change upd l.mark node .popped p = _
            rw [hmk p hpn]; exact h2
      · intro hr
        obtain ⟨a, b, c⟩ := hl.rng hr
        exact ⟨a, fun m hm => b m (by rw [hs]; exact List.mem_cons_of_mem _ hm), c⟩
  · rename_i hm
    exact hl.drop hs hm

theorem LInv.loop {ord : Lcd → List Nat → List Nat} (ho : ∀ l k x, x ∈ ord l k ↔ x ∈ k) (hid : ∀ i, s0.root (s0.root i) = s0.root i) :
    ∀ (k : Nat) {l r : Lcd}, LInv s0 G sub sup l → loop ord k l = some r → LInv s0 G sub sup r ∧ r.stack = []
  | 0, l, r, h, e => by
    unfold Lcd.loop at e
    split at e
    · cases e; exact ⟨h, by assumption⟩
    · cases e
  | k + 1, l, r, h, e => by
    unfold Lcd.loop at e
    split at e
    · cases e; exact ⟨h, by assumption⟩
    · exact LInv.loop ho hid k (h.step ho hid) e

/-- legal orders of enumeration -/
def OrdOk (ord : Lcd → List Nat → List Nat) : Prop := ∀ l k, (ord l k).Perm k

/-- the work that is left: unvisited nodes with their successors, and the stack -/
def left (n : Nat) (l : Lcd) : Nat :=
  ((List.range n).map fun m => if l.mark m = .notVisited then (G m).length + 1 else 0).sum + l.stack.length

theorem sum_lt {f g : Nat → Nat} {n a : Nat} : ∀ (L : List Nat), (∀ m ∈ L, f m ≤ g m) → a ∈ L → (∀ m, m = a → f m + n ≤ g m) →
    (L.map f).sum + n ≤ (L.map g).sum
  | [], _, h, _ => by cases h
  | b :: L, h1, h2, h3 => by
    simp only [List.map_cons, List.sum_cons]
    have hle : ∀ (K : List Nat), (∀ m ∈ K, f m ≤ g m) → (K.map f).sum ≤ (K.map g).sum := by
      intro K
      induction K with
      | nil => intro _; exact Nat.le_refl _
      | cons c K ih =>
        intro h; simp only [List.map_cons, List.sum_cons]
        exact Nat.add_le_add (h c (by simp)) (ih fun m hm => h m (by simp [hm]))
    rcases List.mem_cons.1 h2 with rfl | h2
    · have := h3 a rfl
      have := hle L fun m hm => h1 m (by simp [hm])
      omega
    · have := sum_lt L (fun m hm => h1 m (by simp [hm])) h2 h3
      have := h1 b (by simp)
      omega

theorem step_left {ord : Lcd → List Nat → List Nat} (ho : OrdOk ord)
    {l : Lcd} (hl : LInv s0 G sub sup l) (hr : InR s0 G sub sup) (hne : l.stack ≠ []) :
    left (G := G) s0.n (l.step ord) < left (G := G) s0.n l := by
  unfold Lcd.step
  split
  · rename_i hs; exact absurd hs hne
  rename_i node rest hs
  have hn : node < s0.n := (hl.rng hr).2.1 node (by rw [hs]; simp)
  split
  · rename_i hm
    have hlive := hl.live node (by rw [hs]; simp) (by rw [hm]; simp)
    have hG : l.edges node = G node := hl.edges node (by rw [hlive.1]; exact hlive.2)
    unfold left
    simp only []
    have hlen : ∀ p : Nat → Bool, (((ord l (l.edges node)).map l.set.root).filter p).length ≤ (G node).length := by
      intro p
      refine Nat.le_trans (List.length_filter_le _ _) ?_
      rw [List.length_map, (ho l _).length_eq, hG]
    have := hlen (fun r => r ≠ l.subset && upd l.mark node .visited r = .notVisited)
    rw [List.length_append, List.length_reverse, hs, List.length_cons]
    have := sum_lt (f := fun m => if upd l.mark node .visited m = .notVisited then (G m).length + 1 else 0)
      (g := fun m => if l.mark m = .notVisited then (G m).length + 1 else 0) (n := (G node).length + 1) (a := node) (List.range s0.n)
      (by
        intro m _
        by_cases hmn : m = node
        · subst hmn; simp [upd_same]
        · simp only [upd_ne _ _ hmn]; exact Nat.le_refl _)
      (List.mem_range.2 hn)
      (by rintro m rfl; simp [upd_same, hm])
    omega
  · rename_i hm
    have key : ∀ l' : Lcd, l'.mark = upd l.mark node .popped → l'.stack = rest → left (G := G) s0.n l' < left (G := G) s0.n l := by
      intro l' h1 h2
      unfold left
      rw [h1, h2, hs, List.length_cons]
      have : (fun m => if upd l.mark node .popped m = Mark.notVisited then (G m).length + 1 else 0) = fun m => if l.mark m = .notVisited then (G m).length + 1 else 0 := by
        funext m
        by_cases hmn : m = node
        · subst hmn; simp [upd_same, hm]
        · simp only [upd_ne _ _ hmn]
      rw [this]; omega
    simp only []
    split
    · refine key _ ?_ ?_ <;> (unfold Lcd.join; simp only []; split <;> rfl)
    · exact key _ rfl rfl
  · unfold left
    rw [hs, List.length_cons]; simp

/-- `OnPropagatedNothing` ends -/
theorem terminates {ord : Lcd → List Nat → List Nat} (ho : OrdOk ord) (hid : ∀ i, s0.root (s0.root i) = s0.root i)
    (h1 : s0.root sub = sub) (h2 : s0.root sup = sup) (hne : sub ≠ sup) (hr : InR s0 G sub sup) :
    ∃ l, Lcd.loop ord (fuel s0.n G) (start s0 G sub sup) = some l := by
  have key : ∀ (k : Nat) {l : Lcd}, LInv s0 G sub sup l → left (G := G) s0.n l ≤ k → ∃ r, Lcd.loop ord k l = some r := by
    intro k
    induction k with
    | zero =>
      intro l _ hk
      unfold left at hk
      have : l.stack = [] := List.eq_nil_of_length_eq_zero (by omega)
      exact ⟨l, by unfold Lcd.loop; rw [if_pos this]⟩
    | succ k ih =>
      intro l hl hk
      unfold Lcd.loop
      by_cases hst : l.stack = []
      · exact ⟨l, by rw [if_pos hst]⟩
      · rw [if_neg hst]
        exact ih (hl.step (fun l k x => (ho l k).mem_iff) hid) (by have := step_left ho hl hr hst; omega)
  refine key _ (.start hid h1 h2 hne) ?_
  unfold left fuel
  simp only [Lcd.start, if_true, List.length_singleton]
  exact Nat.le_refl _

/-- the value that `OnPropagatedNothing` returns tells whether anything was unified -/
theorem result_iff {ord : Lcd → List Nat → List Nat} (ho : OrdOk ord) (hid : ∀ i, s0.root (s0.root i) = s0.root i)
    (h1 : s0.root sub = sub) (h2 : s0.root sup = sup) (hne : sub ≠ sup) {k : Nat} {l : Lcd}
    (e : Lcd.loop ord k (start s0 G sub sup) = some l) :
    (l.pairs = [] → l.result sup = none) ∧ (l.pairs ≠ [] → l.result sup = some ((unifyPairs s0 l.pairs).root sub)) := by
  obtain ⟨i, hs⟩ := LInv.loop (fun l k x => (ho l k).mem_iff) hid k (.start (G := G) hid h1 h2 hne) e
  unfold result
  constructor
  · intro hp
    have : l.set = s0 := by rw [i.set, hp]; rfl
    rw [i.empty hp, this, h2, if_neg hne]
  · intro hp
    rcases i.found hp with h | ⟨p, hp, _⟩
    · rw [if_pos h.symm, ← i.set, i.subCls]
    · rw [hs] at hp; cases hp

end

/-- The edges that `UnifyPointerObjects` of the solver produces are those that the detector saw:
recording the pairs and unifying afterwards (as `WS.detect` does) is the same as unifying
immediately. -/
theorem join_edges {σ : Type} {hcd : Bool} (w : WS σ) (node : Nat) (l : Lcd) (h1 : w.set = l.set) (h2 : w.edges = l.edges) :
    (w.unify hcd node l.subset).2.set = (l.join node).set ∧ (w.unify hcd node l.subset).2.edges = (l.join node).edges ∧
    (w.unify hcd node l.subset).1 = (l.join node).subset := by
  unfold WS.unify Lcd.join
  rw [h1, h2]
  simp only []
  split
  · exact ⟨h1, h2, rfl⟩
  · exact ⟨rfl, rfl, rfl⟩

theorem loop_edges {σ : Type} {hcd : Bool} {ord : Lcd → List Nat → List Nat} (w : WS σ) :
    ∀ (k : Nat) {l r : Lcd}, (w.unifyAll hcd l.pairs).set = l.set ∧ (w.unifyAll hcd l.pairs).edges = l.edges →
      Lcd.loop ord k l = some r → (w.unifyAll hcd r.pairs).set = r.set ∧ (w.unifyAll hcd r.pairs).edges = r.edges
  | 0, l, r, h, e => by
    unfold Lcd.loop at e
    split at e
    · cases e; exact h
    · cases e
  | k + 1, l, r, h, e => by
    unfold Lcd.loop at e
    split at e
    · cases e; exact h
    · refine loop_edges w k ?_ e
      unfold Lcd.step
      split
      · exact h
      · split
        · exact h
        · simp only []
          split
          · rename_i node rest _ _ _ _
            have := join_edges (hcd := hcd) (w.unifyAll hcd l.pairs) node { l with mark := upd l.mark node .popped, stack := rest } h.1 h.2
            have hp : (join node { l with mark := upd l.mark node .popped, stack := rest }).pairs = l.pairs ++ [(node, l.subset)] := by
              unfold Lcd.join; simp only []; split <;> rfl
            rw [hp]
            have hu : w.unifyAll hcd (l.pairs ++ [(node, l.subset)]) = ((w.unifyAll hcd l.pairs).unify hcd node l.subset).2 := by
              unfold WS.unifyAll; rw [List.foldl_append]; rfl
            rw [hu]
            exact ⟨this.1, this.2.1⟩
          · exact h
        · exact h

end Lcd

/-- **C22**: lazy cycle detection is a legal detector, for every order of enumeration of the
successors. -/
theorem C22_lcd (env : Env (List (Nat × Nat))) (ord : Lcd → List Nat → List Nat) (ho : Lcd.OrdOk ord)
    (he : env.det = Lcd.det ord) : DetOk env := by
  have key : ∀ d s edges sub sup, (∀ i, s.root (s.root i) = s.root i) → s.root sub = sub → s.root sup = sup → sub ≠ sup →
      (env.det d s edges sub sup).2 = [] ∨
      ∃ l, (env.det d s edges sub sup).2 = l.pairs ∧ Lcd.LInv s edges sub sup l ∧ l.stack = [] := by
    intro d s edges sub sup hid h1 h2 hne
    rw [he]
    unfold Lcd.det
    split
    · exact Or.inl rfl
    · simp only []
      split
      · rename_i l e
        obtain ⟨a, b⟩ := Lcd.LInv.loop (fun l k x => (ho l k).mem_iff) hid _ (.start (G := edges) hid h1 h2 hne) e
        exact Or.inr ⟨l, rfl, a, b⟩
      · exact Or.inl rfl
  constructor
  · intro d s edges sub sup hw hed hsub hsup h1 h2 hne p hp
    rcases key d s edges sub sup hw.idem h1 h2 hne with e | ⟨l, e, i, _⟩
    · rw [e] at hp; cases hp
    · rw [e] at hp
      exact (i.rng ⟨hw, hed, hsub, hsup⟩).2.2 p hp
  · intro d s edges sub sup hid h1 h2 hne p hp
    rcases key d s edges sub sup hid h1 h2 hne with e | ⟨l, e, i, _⟩
    · rw [e] at hp; cases hp
    · rw [e] at hp
      exact (i.pairs p hp).1
  · intro d s edges sub sup hw hed hsub hsup h1 h2 hne hp
    rcases key d s edges sub sup hw.idem h1 h2 hne with e | ⟨l, e, i, hs⟩
    · exact absurd e hp
    · rw [e] at hp ⊢
      rw [← i.set]
      rcases i.found hp with h | ⟨p, hp, _⟩
      · exact ⟨by rw [h]; exact i.subCls, fun p hp => by rw [i.subCls]; exact (i.pairs p hp).2⟩
      · rw [hs] at hp; cases hp

/-- a solver without cycle detection -/
theorem C22_no_detector {σ : Type} (env : Env σ) (he : ∀ d s edges sub sup, (env.det d s edges sub sup).2 = []) : DetOk env :=
  ⟨fun d s e a b _ _ _ _ _ _ _ p hp => (by rw [he] at hp; cases hp),
   fun d s e a b _ _ _ _ p hp => (by rw [he] at hp; cases hp),
   fun d s e a b _ _ _ _ _ _ _ hp => absurd (he ..) hp⟩

end Jlm.Llvm.Aa
