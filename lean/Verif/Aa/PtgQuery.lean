import Verif.Aa.PtgHist
set_option linter.unusedVariables false
set_option linter.unusedSimpArgs false
namespace Jlm.Llvm.Aa.Ptg
open Jlm.Llvm.Aa

variable {g : Graph}

/-- `t` has room for `s` bytes -/
def Graph.Fits (g : Graph) (t s : Nat) : Prop := ∀ z, g.nodeSize t = some z → s ≤ z

theorem small_iff {t s : Nat} :
    g.tooSmall t s = true ↔ ¬g.Fits t s := by
  unfold Graph.Fits Graph.tooSmall
  cases h : g.nodeSize t with
  | none => simp
  | some z => simp

theorem Inv.fits_zero (I : Inv g) (s : Nat) : g.Fits 0 s := by
  intro z h
  unfold Graph.nodeSize at h
  rw [if_pos I.zero.2.2.2] at h
  cases h

theorem Inv.targets_outside (I : Inv g) {a : Nat} : g.isTargeting a 0 = true ↔ (g.data a).all = true := by
  rw [isTargeting_iff, I.zero.2.1]
  constructor
  · rintro (h | h)
    · exact h.1
    · exact absurd rfl (I.tgt a 0 h).2.2.1
  · intro h; exact Or.inl ⟨h, rfl⟩

theorem Inv.lt_of_targeting (I : Inv g) {a t : Nat} (h : g.isTargeting a t = true) : t < g.n := by
  rcases isTargeting_iff.1 h with h | h
  · refine Nat.lt_of_not_le fun hle => ?_
    rw [I.beyond t hle] at h
    exact Bool.noConfusion h.2
  · exact (I.tgt a t h).2.1

/-- with explicit targets only, the targets are the explicit ones -/
theorem targeting_explicit {a t : Nat} (ha : (g.data a).all = false) : g.isTargeting a t = true ↔ t ∈ g.targets a := by
  rw [isTargeting_iff, ha]; simp

theorem shareLoop_spec (other needed : Nat) (l : List Nat) :
    (g.shareLoop other needed l = .noAlias ∧ ∀ t ∈ l, g.Fits t needed → g.isTargeting other t = false) ∨
    (g.shareLoop other needed l = .mayAlias ∧ ∃ t ∈ l, g.Fits t needed ∧ g.isTargeting other t = true) := by
  induction l with
  | nil => exact Or.inl ⟨rfl, fun t h => by cases h⟩
  | cons t l ih =>
    rw [Graph.shareLoop]
    by_cases hs : g.tooSmall t needed = true
    · rw [if_pos hs]
      rw [small_iff] at hs
      rcases ih with ⟨h1, h2⟩ | ⟨h1, u, hu, h2⟩
      · refine Or.inl ⟨h1, fun u hu hf => ?_⟩
        rcases List.mem_cons.1 hu with e | hu
        · subst e; exact absurd hf hs
        · exact h2 u hu hf
      · exact Or.inr ⟨h1, u, List.mem_cons_of_mem _ hu, h2⟩
    · rw [if_neg hs]
      have hf : g.Fits t needed := Classical.byContradiction fun h => hs (small_iff.2 h)
      by_cases ht : g.isTargeting other t = true
      · rw [if_pos ht]; exact Or.inr ⟨rfl, t, List.mem_cons_self, hf, ht⟩
      · rw [if_neg ht]
        rcases ih with ⟨h1, h2⟩ | ⟨h1, u, hu, h2⟩
        · refine Or.inl ⟨h1, fun u hu hf => ?_⟩
          rcases List.mem_cons.1 hu with e | hu
          · subst e; simpa using ht
          · exact h2 u hu hf
        · exact Or.inr ⟨h1, u, List.mem_cons_of_mem _ hu, h2⟩

theorem singleLoop_some (s t : Nat) (l : List Nat) (r : Nat) :
    g.singleLoop s (some t) l = some r ↔ r = t ∧ ∀ u ∈ l, ¬g.Fits u s := by
  induction l with
  | nil => simp [Graph.singleLoop, eq_comm]
  | cons u l ih =>
    rw [Graph.singleLoop]
    by_cases hs : g.tooSmall u s = true
    · rw [if_pos hs, ih]
      rw [small_iff] at hs
      simp [hs]
    · rw [if_neg hs, if_pos (show (some t).isSome = true from rfl)]
      have hf : g.Fits u s := Classical.byContradiction fun h => hs (small_iff.2 h)
      simp [hf]

theorem singleLoop_none (s : Nat) (l : List Nat) (hn : l.Nodup) (r : Nat) :
    g.singleLoop s none l = some r ↔ ∀ u, (u ∈ l ∧ g.Fits u s) ↔ u = r := by
  induction l with
  | nil =>
    simp only [Graph.singleLoop, List.not_mem_nil, false_and, false_iff]
    constructor
    · intro h; cases h
    · intro h; exact absurd rfl (h r)
  | cons u l ih =>
    rw [List.nodup_cons] at hn
    rw [Graph.singleLoop]
    by_cases hs : g.tooSmall u s = true
    · rw [if_pos hs, ih hn.2]
      rw [small_iff] at hs
      refine forall_congr' fun v => ?_
      have : (v ∈ u :: l ∧ g.Fits v s) ↔ (v ∈ l ∧ g.Fits v s) := by
        constructor
        · rintro ⟨h1, h2⟩
          rcases List.mem_cons.1 h1 with e | h1
          · subst e; exact absurd h2 hs
          · exact ⟨h1, h2⟩
        · rintro ⟨h1, h2⟩; exact ⟨List.mem_cons_of_mem _ h1, h2⟩
      rw [this]
    · rw [if_neg hs]
      have hf : g.Fits u s := Classical.byContradiction fun h => hs (small_iff.2 h)
      rw [if_neg (by simp), singleLoop_some]
      constructor
      · rintro ⟨e, h⟩ v
        subst e
        constructor
        · rintro ⟨h1, h2⟩
          rcases List.mem_cons.1 h1 with e | h1
          · exact e
          · exact absurd h2 (h v h1)
        · intro e; subst e; exact ⟨List.mem_cons_self, hf⟩
      · intro h
        have hu : u = r := (h u).1 ⟨List.mem_cons_self, hf⟩
        refine ⟨hu.symm, fun v hv hfv => ?_⟩
        have := (h v).1 ⟨List.mem_cons_of_mem _ hv, hfv⟩
        rw [this, ← hu] at hv
        exact hn.1 hv

theorem Inv.singleTarget_iff (I : Inv g) {a s t : Nat} (hk : t ≠ 0) : g.singleTarget a s = some t ↔ g.OnlyTarget a s t := by
  unfold Graph.singleTarget Graph.OnlyTarget
  by_cases ha : (g.data a).all = true
  · rw [if_pos ha]
    constructor
    · intro h; cases h
    · intro h
      have := (h 0).1 ⟨I.pos, I.targets_outside.2 ha, I.fits_zero s⟩
      exact absurd this.symm hk
  · rw [if_neg ha, singleLoop_none s _ (I.tnodup a)]
    have ha : (g.data a).all = false := by simpa using ha
    refine forall_congr' fun u => ?_
    rw [targeting_explicit ha]
    constructor
    · intro h
      rw [← h]
      exact ⟨fun h => ⟨h.2.1, h.2.2⟩, fun h => ⟨(I.tgt a u h.1).2.1, h.1, h.2⟩⟩
    · intro h
      rw [← h]
      exact ⟨fun h => ⟨(I.tgt a u h.1).2.1, h.1, h.2⟩, fun h => ⟨h.2.1, h.2.2⟩⟩

theorem isSingle_iff {t : Nat} : g.isSingleLocation t = true ↔
    (g.data t).kind = .delta ∨ (g.data t).kind = .lambda ∨ (g.data t).kind = .imported := by
  unfold Graph.isSingleLocation
  cases (g.data t).kind <;> simp

theorem Inv.mustAlias_iff (I : Inv g) {a b s1 s2 : Nat} : g.mustAlias a b s1 s2 = true ↔
    s1 = s2 ∧ ∃ t, g.OnlyTarget a s1 t ∧ g.OnlyTarget b s2 t ∧ g.nodeSize t = some s1 ∧
      ((g.data t).kind = .delta ∨ (g.data t).kind = .lambda ∨ (g.data t).kind = .imported) := by
  unfold Graph.mustAlias
  have hz : ∀ t, ((g.data t).kind = .delta ∨ (g.data t).kind = .lambda ∨ (g.data t).kind = .imported) → t ≠ 0 := by
    intro t h e
    subst e
    rw [I.zero.1] at h
    rcases h with h | h | h <;> cases h
  constructor
  · intro h
    simp only [Bool.and_eq_true, beq_iff_eq] at h
    obtain ⟨h1, h2⟩ := h
    cases ha : g.singleTarget a s1 with
    | none => rw [ha] at h2; cases h2
    | some t =>
      cases hb : g.singleTarget b s2 with
      | none => rw [ha, hb] at h2; cases h2
      | some t' =>
        rw [ha, hb] at h2
        simp only [Bool.and_eq_true, beq_iff_eq] at h2
        obtain ⟨⟨e, hs⟩, hn⟩ := h2
        subst e
        have hk := isSingle_iff.1 hs
        exact ⟨h1, t, (I.singleTarget_iff (hz t hk)).1 ha, (I.singleTarget_iff (hz t hk)).1 hb, hn, hk⟩
  · rintro ⟨h1, t, h2, h3, h4, h5⟩
    rw [(I.singleTarget_iff (hz t h5)).2 h2, (I.singleTarget_iff (hz t h5)).2 h3]
    simp [h1, isSingle_iff.2 h5, h4, h1 ▸ h4]

theorem Inv.noShare_iff (I : Inv g) {a b s : Nat} (hab : ¬((g.data a).all = true ∧ (g.data b).all = true)) :
    g.shareLoop (if (g.data a).all = true then a else b) s (g.targets (if (g.data a).all = true then b else a)) = .noAlias ↔
      ¬g.Share a b s := by
  by_cases ha : (g.data a).all = true
  · rw [if_pos ha, if_pos ha]
    have hb : (g.data b).all = false := by
      cases h : (g.data b).all
      · rfl
      · exact absurd ⟨ha, h⟩ hab
    rcases shareLoop_spec (g := g) a s (g.targets b) with ⟨h1, h2⟩ | ⟨h1, t, ht, h2⟩
    · rw [h1]
      refine ⟨fun _ => ?_, fun _ => rfl⟩
      rintro ⟨t, hn, ht1, ht2, hf⟩
      rw [targeting_explicit hb] at ht2
      have := h2 t ht2 hf
      rw [ht1] at this; cases this
    · rw [h1]
      refine ⟨(fun h => by cases h), fun h => absurd ?_ h⟩
      exact ⟨t, (I.tgt b t ht).2.1, h2.2, (targeting_explicit hb).2 ht, h2.1⟩
  · rw [if_neg ha, if_neg ha]
    have ha : (g.data a).all = false := by simpa using ha
    rcases shareLoop_spec (g := g) b s (g.targets a) with ⟨h1, h2⟩ | ⟨h1, t, ht, h2⟩
    · rw [h1]
      refine ⟨fun _ => ?_, fun _ => rfl⟩
      rintro ⟨t, hn, ht1, ht2, hf⟩
      rw [targeting_explicit ha] at ht1
      have := h2 t ht1 hf
      rw [ht2] at this; cases this
    · rw [h1]
      refine ⟨(fun h => by cases h), fun h => absurd ?_ h⟩
      exact ⟨t, (I.tgt a t ht).2.1, (targeting_explicit ha).2 ht, h2.2, h2.1⟩

theorem Inv.queryNodes_iff (I : Inv g) {a s1 b s2 : Nat} :
    (g.queryNodes a s1 b s2 = .noAlias ↔ ¬g.Share a b (max s1 s2)) ∧
    (g.queryNodes a s1 b s2 = .mustAlias ↔ g.mustAlias a b s1 s2 = true) := by
  unfold Graph.queryNodes
  have hm : g.mustAlias a b s1 s2 = true → g.Share a b (max s1 s2) ∧ ¬((g.data a).all = true ∧ (g.data b).all = true) := by
    intro h
    obtain ⟨h1, t, h2, h3, h4, h5⟩ := I.mustAlias_iff.1 h
    have ha := (h2 t).2 rfl
    have hb := (h3 t).2 rfl
    refine ⟨⟨t, ha.1, ha.2.1, hb.2.1, ?_⟩, ?_⟩
    · rw [← h1, Nat.max_self]; exact ha.2.2
    · rintro ⟨hA, hB⟩
      have := (h2 0).1 ⟨I.pos, I.targets_outside.2 hA, I.fits_zero _⟩
      rw [← this, I.zero.1] at h5
      rcases h5 with h | h | h <;> cases h
  by_cases hb : ((g.data a).all && (g.data b).all) = true
  · rw [if_pos hb]
    simp only [Bool.and_eq_true] at hb
    refine ⟨⟨(fun h => by cases h), fun h => absurd ?_ h⟩, ⟨(fun h => by cases h), fun h => absurd hb (hm h).2⟩⟩
    exact ⟨0, I.pos, I.targets_outside.2 hb.1, I.targets_outside.2 hb.2, I.fits_zero _⟩
  · rw [if_neg hb]
    by_cases hma : g.mustAlias a b s1 s2 = true
    · rw [if_pos hma]
      exact ⟨⟨(fun h => by cases h), fun h => absurd (hm hma).1 h⟩, ⟨fun _ => hma, fun _ => rfl⟩⟩
    · rw [if_neg hma]
      have hab : ¬((g.data a).all = true ∧ (g.data b).all = true) := by simpa using hb
      have key := I.noShare_iff (s := max s1 s2) hab
      dsimp only
      have e : g.shareLoop (if (g.data a).all = true then (b, a) else (a, b)).2 (max s1 s2)
          (g.targets (if (g.data a).all = true then (b, a) else (a, b)).1) =
          g.shareLoop (if (g.data a).all = true then a else b) (max s1 s2) (g.targets (if (g.data a).all = true then b else a)) := by
        by_cases ha : (g.data a).all = true
        · simp only [if_pos ha]
        · simp only [if_neg ha]
      rw [e]
      refine ⟨key, ⟨fun h => ?_, fun h => absurd h hma⟩⟩
      rcases shareLoop_spec (g := g) (if (g.data a).all = true then a else b) (max s1 s2)
        (g.targets (if (g.data a).all = true then b else a)) with ⟨h1, _⟩ | ⟨h1, _⟩ <;> rw [h1] at h <;> cases h

/-- all answers of `Query` -/
theorem Inv.query_iff (I : Inv g) {p1 s1 p2 s2 : Nat} :
    (g.query p1 s1 p2 s2 = .noAlias ↔ p1 ≠ p2 ∧ ∃ a b, g.regMap.lookup p1 = some a ∧ g.regMap.lookup p2 = some b ∧
      ¬g.Share a b (max s1 s2)) ∧
    (g.query p1 s1 p2 s2 = .mustAlias ↔ p1 = p2 ∨ (s1 = s2 ∧ ∃ a b t, g.regMap.lookup p1 = some a ∧
      g.regMap.lookup p2 = some b ∧ g.OnlyTarget a s1 t ∧ g.OnlyTarget b s2 t ∧ g.nodeSize t = some s1 ∧
      ((g.data t).kind = .delta ∨ (g.data t).kind = .lambda ∨ (g.data t).kind = .imported))) := by
  unfold Graph.query
  by_cases e : p1 = p2
  · rw [if_pos e]
    exact ⟨⟨(fun h => by cases h), fun h => absurd e h.1⟩, ⟨fun _ => Or.inl e, fun _ => rfl⟩⟩
  · rw [if_neg e]
    cases h1 : g.regMap.lookup p1 with
    | none =>
      refine ⟨⟨(fun h => by cases h), ?_⟩, ⟨(fun h => by cases h), ?_⟩⟩
      · rintro ⟨_, a, b, h, _⟩; cases h
      · rintro (h | ⟨_, a, b, t, h, _⟩)
        · exact absurd h e
        · cases h
    | some a =>
      cases h2 : g.regMap.lookup p2 with
      | none =>
        refine ⟨⟨(fun h => by cases h), ?_⟩, ⟨(fun h => by cases h), ?_⟩⟩
        · rintro ⟨_, a, b, _, h, _⟩; cases h
        · rintro (h | ⟨_, a, b, t, _, h, _⟩)
          · exact absurd h e
          · cases h
      | some b =>
        dsimp only
        rw [I.queryNodes_iff.1, I.queryNodes_iff.2, I.mustAlias_iff]
        constructor
        · constructor
          · intro h; exact ⟨e, a, b, rfl, rfl, h⟩
          · rintro ⟨_, a', b', h1, h2, h⟩; cases h1; cases h2; exact h
        · constructor
          · rintro ⟨h, t, h3⟩; exact Or.inr ⟨h, a, b, t, rfl, rfl, h3⟩
          · rintro (h | ⟨h, a', b', t, h1, h2, h3⟩)
            · exact absurd h e
            · cases h1; cases h2; exact ⟨h, t, h3⟩

end Jlm.Llvm.Aa.Ptg
