import Verif.Aa.PtgTheorems
set_option linter.unusedVariables false
set_option linter.unusedSimpArgs false
/-
C60: the construction of the graph from a pointer object set fails no assertion.
-/
namespace Jlm.Llvm.Aa.Ptg
open Jlm.Llvm.Aa

/-- node `i` can be the target of an edge -/
def Graph.Mem (g : Graph) (i : Nat) : Prop := i ≠ 0 ∧ i < g.n ∧ (g.data i).kind ≠ .register

/-- the same nodes of the same kinds -/
def Graph.Same (g g' : Graph) : Prop := g'.n = g.n ∧ (∀ i, (g'.data i).kind = (g.data i).kind) ∧ g'.regMap = g.regMap

theorem Graph.Same.mem {g g' : Graph} (h : g.Same g') {i : Nat} (hm : g.Mem i) : g'.Mem i :=
  ⟨hm.1, by rw [h.1]; exact hm.2.1, by rw [h.2.1]; exact hm.2.2⟩

theorem Graph.Same.trans {g g' g'' : Graph} (h : g.Same g') (h' : g'.Same g'') : g.Same g'' :=
  ⟨h'.1.trans h.1, fun i => (h'.2.1 i).trans (h.2.1 i), h'.2.2.trans h.2.2⟩

theorem addTarget_total {g : Graph} {a b : Nat} (ha : a ≠ 0) (hn : a < g.n) (hb : g.Mem b) :
    ∃ r g', g.addTarget a b = some (r, g') ∧ g.Same g' := by
  unfold Graph.addTarget
  rw [if_pos ⟨hn, hb.2.1, hb.1, ha, hb.2.2⟩]
  by_cases h : ((g.data a).all && (g.data b).ext) = true
  · rw [if_pos h]; exact ⟨_, _, rfl, rfl, fun _ => rfl, rfl⟩
  · rw [if_neg h]; exact ⟨_, _, rfl, rfl, fun _ => rfl, rfl⟩

theorem mark_total {g : Graph} {i : Nat} (hi : i < g.n) : ∃ g', g.mark i = some g' ∧ g.Same g' := by
  unfold Graph.mark
  rw [if_pos hi]
  by_cases h : (g.data i).all = true
  · rw [if_pos h]; exact ⟨_, rfl, rfl, fun _ => rfl, rfl⟩
  · rw [if_neg h]
    refine ⟨_, rfl, rfl, fun j => ?_, rfl⟩
    show (upd g.data i { g.data i with all := true } j).kind = _
    unfold upd
    split
    · subst_vars; rfl
    · rfl

variable {s : RSet}

theorem addTargets_total {m : List (Nat × Nat)} {a : Nat} (ha : a ≠ 0) : ∀ (l : List Nat) (g : Graph), a < g.n →
    (∀ t ∈ l, g.Mem ((m.lookup t).getD 0)) → ∃ g', addTargets m a g l = some g' ∧ g.Same g'
  | [], g, _, _ => ⟨g, rfl, rfl, fun _ => rfl, rfl⟩
  | t :: l, g, hn, hl => by
    obtain ⟨r, g1, h1, h2⟩ := addTarget_total ha hn (hl t List.mem_cons_self)
    obtain ⟨g', h3, h4⟩ := addTargets_total ha l g1 (by rw [h2.1]; exact hn) (fun u hu => h2.mem (hl u (List.mem_cons_of_mem _ hu)))
    exact ⟨g', by rw [addTargets, h1]; exact h3, h2.trans h4⟩

theorem applyPts_total {m : List (Nat × Nat)} {g : Graph} {a x : Nat} (ha : a ≠ 0) (hn : a < g.n)
    (hl : ∀ t ∈ s.pointees x, g.Mem ((m.lookup t).getD 0)) : ∃ g', applyPts s m g a x = some g' ∧ g.Same g' := by
  unfold applyPts
  by_cases hc : (!(s.obj x).canPoint) = true
  · rw [if_pos hc]; exact ⟨g, rfl, rfl, fun _ => rfl, rfl⟩
  · rw [if_neg hc]
    by_cases hp : s.pte x = true
    · rw [if_pos hp]
      obtain ⟨g1, h1, h2⟩ := mark_total hn
      obtain ⟨g', h3, h4⟩ := addTargets_total ha (s.pointees x) g1 (by rw [h2.1]; exact hn) (fun u hu => h2.mem (hl u hu))
      exact ⟨g', by rw [h1]; exact h3, h2.trans h4⟩
    · rw [if_neg hp]; exact addTargets_total ha _ _ hn hl

theorem mapOuts_total {i : Nat} : ∀ (os : List Nat) (g : Graph), i < g.n → (g.data i).kind = .register → os.Nodup →
    (∀ o ∈ os, g.regMap.lookup o = none) → ∃ g', mapOuts i g os = some g' ∧ g'.n = g.n ∧ g'.data = g.data ∧
      ∀ p, p ∉ os → g'.regMap.lookup p = g.regMap.lookup p
  | [], g, _, _, _, _ => ⟨g, rfl, rfl, rfl, fun _ _ => rfl⟩
  | o :: os, g, hi, hk, hn, hl => by
    have hn := List.nodup_cons.1 hn
    have h1 : g.mapRegister o i = some { g with regMap := g.regMap ++ [(o, i)] } := by
      unfold Graph.mapRegister
      rw [if_pos ⟨hi, hk⟩, hl o List.mem_cons_self]; rfl
    have key : ∀ p, p ≠ o → (g.regMap ++ [(o, i)]).lookup p = g.regMap.lookup p := by
      intro p hp
      rw [List.lookup_append]
      have hb : (p == o) = false := beq_eq_false_iff_ne.2 hp
      have : [(o, i)].lookup p = none := by simp [List.lookup, hb]
      rw [this]; simp
    obtain ⟨g', h2, h3, h4, h5⟩ := mapOuts_total os { g with regMap := g.regMap ++ [(o, i)] } hi hk hn.2 (by
      intro p hp
      show (g.regMap ++ [(o, i)]).lookup p = none
      rw [key p (by rintro rfl; exact hn.1 hp)]; exact hl p (List.mem_cons_of_mem _ hp))
    refine ⟨g', by rw [mapOuts, h1]; exact h2, h3, h4, fun p hp => ?_⟩
    rw [h5 p (fun h => hp (List.mem_cons_of_mem _ h))]
    exact key p (by rintro rfl; exact hp List.mem_cons_self)

theorem createRegs_total {m : List (Nat × Nat)} : ∀ (l : List (Nat × List Nat)) (g : Graph), 0 < g.n → (l.flatMap Prod.snd).Nodup →
    (∀ o ∈ l.flatMap Prod.snd, g.regMap.lookup o = none) → (∀ e ∈ m, g.Mem e.2) →
    (∀ r os, (r, os) ∈ l → ∀ t ∈ s.pointees r, ∃ j, m.lookup t = some j) →
    ∃ g', createRegs s m g l = some g' ∧ (∀ i, g.Mem i → g'.Mem i)
  | [], g, _, _, _, _, _ => ⟨g, rfl, fun _ h => h⟩
  | (r, os) :: l, g, hpos, hn, hl, hm, ht => by
    rw [List.flatMap_cons, List.nodup_append] at hn
    obtain ⟨g1, h1, h2, h3, h4⟩ := mapOuts_total (i := g.n) os g.addRegisters.2 (Nat.lt_succ_self _)
      (by show (upd g.data g.n _ g.n).kind = _; rw [upd_same]; rfl) hn.1
      (fun o ho => hl o (by rw [List.flatMap_cons]; exact List.mem_append_left _ ho))
    have hn1 : g1.n = g.n + 1 := h2
    have hmem : ∀ i, g.Mem i → g1.Mem i := by
      intro i hi
      refine ⟨hi.1, by rw [hn1]; have := hi.2.1; omega, ?_⟩
      rw [h3]
      show (upd g.data g.n _ i).kind ≠ _
      rw [upd_ne _ _ (by have := hi.2.1; omega)]; exact hi.2.2
    obtain ⟨g2, h5, h6⟩ := applyPts_total (s := s) (m := m) (g := g1) (a := g.n) (x := r) (by omega) (by omega) (by
      intro t htt
      obtain ⟨j, hj⟩ := ht r os List.mem_cons_self t htt
      rw [hj]
      have : (t, j) ∈ m := lookup_mem hj
      exact hmem _ (hm _ this))
    obtain ⟨g', h7, h8⟩ := createRegs_total l g2 (by rw [h6.1]; omega) hn.2.1 (by
      intro o ho
      rw [h6.2.2, h4 o (fun h => hn.2.2 o h o ho rfl)]
      exact hl o (by rw [List.flatMap_cons]; exact List.mem_append_right _ ho)) (fun e he => h6.mem (hmem _ (hm e he)))
      (fun r' os' h => ht r' os' (List.mem_cons_of_mem _ h))
    refine ⟨g', ?_, fun i hi => h8 i (h6.mem (hmem i hi))⟩
    rw [createRegs]
    show (mapOuts g.n g.addRegisters.2 os).bind _ = _
    rw [h1]
    show (applyPts s m g1 g.n r).bind _ = _
    rw [h5]; exact h7
where
  lookup_mem {t j : Nat} : ∀ {m : List (Nat × Nat)}, m.lookup t = some j → (t, j) ∈ m
    | [], h => by cases h
    | (a, b) :: m, h => by
      rw [List.lookup_cons] at h
      by_cases e : (t == a) = true
      · rw [e] at h; cases h; rw [beq_iff_eq] at e; rw [e]; exact List.mem_cons_self
      · rw [Bool.not_eq_true] at e
        rw [e] at h; exact List.mem_cons_of_mem _ (lookup_mem h)

theorem applyMems_total {m : List (Nat × Nat)} : ∀ (l : List (Nat × Nat)) (g : Graph), (∀ e ∈ l, g.Mem e.2) →
    (∀ e ∈ m, g.Mem e.2) → (∀ e ∈ l, ∀ t ∈ s.pointees e.1, ∃ j, m.lookup t = some j) → ∃ g', applyMems s m g l = some g'
  | [], g, _, _, _ => ⟨g, rfl⟩
  | (x, i) :: l, g, hl, hm, ht => by
    have hi := hl _ List.mem_cons_self
    obtain ⟨g1, h1, h2⟩ := applyPts_total (s := s) (m := m) (g := g) (a := i) (x := x) hi.1 hi.2.1 (by
      intro t htt
      obtain ⟨j, hj⟩ := ht _ List.mem_cons_self t htt
      rw [hj]
      exact hm _ (createRegs_total.lookup_mem hj))
    obtain ⟨g', h3⟩ := applyMems_total l g1 (fun e he => h2.mem (hl e (List.mem_cons_of_mem _ he))) (fun e he => h2.mem (hm e he))
      (fun e he => ht e (List.mem_cons_of_mem _ he))
    exact ⟨g', by rw [applyMems, h1]; exact h3⟩

theorem mem_insGroup_flat {r o p : Nat} : ∀ {l : List (Nat × List Nat)},
    p ∈ (insGroup r o l).flatMap Prod.snd ↔ p = o ∨ p ∈ l.flatMap Prod.snd
  | [] => by simp [insGroup]
  | (r', os) :: l => by
    unfold insGroup
    split
    · simp only [List.flatMap_cons, List.mem_append, mem_ins]; tauto
    · simp only [List.flatMap_cons, List.mem_append, mem_insGroup_flat]; tauto

theorem nodup_insGroup {r o : Nat} : ∀ {l : List (Nat × List Nat)}, (l.flatMap Prod.snd).Nodup → o ∉ l.flatMap Prod.snd →
    ((insGroup r o l).flatMap Prod.snd).Nodup
  | [], _, _ => by simp [insGroup]
  | (r', os) :: l, hn, ho => by
    rw [List.flatMap_cons, List.nodup_append] at hn
    rw [List.flatMap_cons, List.mem_append, not_or] at ho
    unfold insGroup
    split
    · rw [List.flatMap_cons, List.nodup_append]
      refine ⟨?_, hn.2.1, ?_⟩
      · unfold ins
        split
        · exact hn.1
        · rw [List.nodup_append]
          exact ⟨hn.1, by simp, fun a ha b hb e => by rw [List.mem_singleton] at hb; subst hb; subst e; exact ho.1 ha⟩
      · intro a ha b hb e
        rcases mem_ins.1 ha with h | h
        · exact hn.2.2 a h b hb e
        · subst e; subst h; exact ho.2 hb
    · rw [List.flatMap_cons, List.nodup_append]
      refine ⟨hn.1, nodup_insGroup hn.2.1 ho.2, ?_⟩
      intro a ha b hb e
      rcases mem_insGroup_flat.1 hb with h | h
      · subst e; subst h; exact ho.1 ha
      · exact hn.2.2 a ha b h e

theorem nodup_groups : ∀ (l : List (Nat × Nat)) (a : List (Nat × List Nat)), (a.flatMap Prod.snd).Nodup → (l.map Prod.fst).Nodup →
    (∀ o ∈ l.map Prod.fst, o ∉ a.flatMap Prod.snd) → ((groups s a l).flatMap Prod.snd).Nodup
  | [], a, h, _, _ => h
  | (o, x) :: l, a, h, hn, hd => by
    rw [List.map_cons, List.nodup_cons] at hn
    refine nodup_groups l _ (nodup_insGroup h (hd o List.mem_cons_self)) hn.2 ?_
    intro p hp hm
    rcases mem_insGroup_flat.1 hm with e | e
    · subst e; exact hn.1 hp
    · exact hd p (List.mem_cons_of_mem _ hp) e

theorem Src.step (src : Src) (e : Bool) : ∃ k o c z, src.ent = .mem k o ∧ k ≠ .register ∧ ∀ g : Graph, g.step (src.op e) = g.addObject k e c z o := by
  cases src with
  | imported o l => exact ⟨_, _, _, _, rfl, by decide, fun g => rfl⟩
  | _ => exact ⟨_, _, _, _, rfl, by decide, fun g => rfl⟩

/-- no node for `e` -/
def Graph.Free (g : Graph) : Ent → Prop
  | .mem k o => (g.map k).lookup o = none
  | _ => True

theorem createMem_total : ∀ (l : List (Src × Nat)) (g : Graph) (m : List (Nat × Nat)), 0 < g.n → g.regMap = [] →
    (l.map fun e => e.1.ent).Nodup → (∀ e ∈ l, g.Free e.1.ent) → (∀ e ∈ m, g.Mem e.2) →
    ∃ g' m', createMem s g m l = some (g', m') ∧ 0 < g'.n ∧ g'.regMap = [] ∧ ∀ e ∈ m', g'.Mem e.2
  | [], g, m, hp, hr, _, _, hm => ⟨g, m, rfl, hp, hr, hm⟩
  | (src, x) :: l, g, m, hp, hr, hn, hf, hm => by
    obtain ⟨k, o, c, z, he, hk, hs⟩ := src.step (s.escaped x)
    have hfree : (g.map k).lookup o = none := by
      have := hf _ List.mem_cons_self
      rw [he] at this; exact this
    rw [List.map_cons, List.nodup_cons] at hn
    have hstep : g.step (src.op (s.escaped x)) = some (g.n, { (g.addNode k (s.escaped x) c z o).2 with
        map := fun k' => if k' = k then g.map k' ++ [(o, g.n)] else g.map k' }) := by
      rw [hs]; unfold Graph.addObject
      rw [hfree]; rfl
    generalize hg1 : { (g.addNode k (s.escaped x) c z o).2 with
        map := fun k' => if k' = k then g.map k' ++ [(o, g.n)] else g.map k' } = g1 at hstep
    have hn1 : g1.n = g.n + 1 := by rw [← hg1]; rfl
    have hd1 : ∀ i, g1.data i = upd g.data g.n (NodeData.new k (s.escaped x) false c z) i := by rw [← hg1]; exact fun _ => rfl
    obtain ⟨g', m', h1, h2⟩ := createMem_total l g1 ((x, g.n) :: m) (by omega) (by rw [← hg1]; exact hr) hn.2 (by
      intro e hel
      have h := hf e (List.mem_cons_of_mem _ hel)
      have hne : e.1.ent ≠ .mem k o := by
        intro h'
        exact hn.1 (List.mem_map.2 ⟨e, hel, by rw [h', he]⟩)
      revert h hne
      cases e.1.ent with
      | mem k' o' =>
        intro h hne
        have h : (g.map k').lookup o' = none := h
        show (g1.map k').lookup o' = none
        rw [← hg1]
        show (if k' = k then g.map k' ++ [(o, g.n)] else g.map k').lookup o' = none
        split
        · rename_i e
          rw [List.lookup_append, h]
          have : o' ≠ o := by rintro rfl; exact hne (by rw [e])
          have hb : (o' == o) = false := beq_eq_false_iff_ne.2 this
          simp [List.lookup, hb]
        · exact h
      | _ => intro _ _; exact trivial) (by
      intro e he
      rcases List.mem_cons.1 he with e' | e'
      · rw [e']
        refine ⟨by show g.n ≠ 0; omega, by show g.n < g1.n; omega, ?_⟩
        show (g1.data g.n).kind ≠ _
        rw [hd1, upd_same]; exact hk
      · have := hm e e'
        refine ⟨this.1, by have := this.2.1; omega, ?_⟩
        rw [hd1, upd_ne _ _ (by have := this.2.1; omega)]; exact this.2.2)
    exact ⟨g', m', by rw [createMem, hstep]; exact h1, h2⟩

/-- **C60, construction succeeds.** If the maps belong to the pointer object set and list every object
once, no call of the construction throws or fails an assertion. -/
theorem C60_construct_total (s : RSet) (M : Maps) (hok : M.Ok s) (hsrc : (M.mems.map fun e => e.1.ent).Nodup) :
    (construct s M).isSome := by
  obtain ⟨g1, m, h1, h2, h3, h4⟩ := createMem_total (s := s) M.mems Graph.empty [] (by decide) rfl hsrc
    (by intro e _; cases e.1.ent <;> first | rfl | trivial) (by simp)
  obtain ⟨_, hm, _⟩ := createMem_spec s _ _ _ _ _ h1
  have hm : m = mapping M := by rw [hm, List.append_nil]; rfl
  have hlook : ∀ x, ∀ t ∈ s.pointees x, ∃ j, m.lookup t = some j := by
    intro x t ht
    have := hok.pointees x t ht
    rw [hm]
    obtain ⟨k, hk⟩ := List.getElem?_of_mem this
    exact ⟨k + 1, lookup_mapping hok (mem_mapping.2 ⟨by omega, hk⟩)⟩
  obtain ⟨g2, h5, h6⟩ := createRegs_total (s := s) (m := m) (groups s [] M.regs) g1 h2
    (nodup_groups M.regs [] (by simp) hok.regs (by simp)) (by rw [h3]; simp) h4 (fun r os _ => hlook r)
  obtain ⟨g3, h7⟩ := applyMems_total (s := s) (m := m) m g2 (fun e he => h6 _ (h4 e he)) (fun e he => h6 _ (h4 e he)) (fun e _ => hlook e.1)
  unfold construct
  rw [h1]
  show ((createRegs s m g1 (groups s [] M.regs)).bind fun g => applyMems s m g m).isSome
  rw [h5]
  show (applyMems s m g2 m).isSome
  rw [h7]; rfl

end Jlm.Llvm.Aa.Ptg
