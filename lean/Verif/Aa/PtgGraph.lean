import Verif.Aa.PtgQuery
set_option linter.unusedVariables false
set_option linter.unusedSimpArgs false
namespace Jlm.Llvm.Aa.Ptg
open Jlm.Llvm.Aa

variable {g : Graph}

/-! ## Counting edges -/

/-- the number of explicit and of all pairs (source, target), counted naively -/
def Graph.edgesOf (g : Graph) (P : Nat → Nat → Bool) : Nat :=
  ((List.range g.n).map fun i => ((List.range g.n).filter fun t => P i t).length).sum

theorem filter_length_or (l : List Nat) (p q : Nat → Bool) :
    (l.filter fun t => p t || q t).length + (l.filter fun t => p t && q t).length = (l.filter p).length + (l.filter q).length := by
  induction l with
  | nil => rfl
  | cons a l ih =>
    simp only [List.filter_cons]
    cases hp : p a <;> cases hq : q a <;> simp [hp, hq] <;> omega

theorem range_filter_mem {n : Nat} {l : List Nat} (hn : l.Nodup) (hl : ∀ t ∈ l, t < n) (p : Nat → Bool) :
    ((List.range n).filter fun t => l.contains t && p t).length = (l.filter p).length := by
  refine List.Perm.length_eq ?_
  refine (List.perm_ext_iff_of_nodup (List.nodup_range.filter _) (hn.filter _)).2 fun a => ?_
  rw [List.mem_filter, List.mem_filter, List.mem_range]
  simp only [Bool.and_eq_true, List.contains_iff_mem]
  exact ⟨fun h => h.2, fun h => ⟨hl a h.1, h⟩⟩

theorem Inv.countEdges (I : Inv g) (l : List Nat) :
    (g.countEdges l).1 = (l.map fun i => ((List.range g.n).filter fun t => (g.targets i).contains t).length).sum ∧
    (g.countEdges l).1 + (g.countEdges l).2.1 = (l.map fun i => ((List.range g.n).filter fun t => g.isTargeting i t).length).sum + (g.countEdges l).2.2 := by
  induction l with
  | nil => exact ⟨rfl, rfl⟩
  | cons i l ih =>
    rw [Graph.countEdges]
    generalize g.countEdges l = r at ih ⊢
    obtain ⟨e, im, d⟩ := r
    dsimp only at ih ⊢
    have h1 : (g.targets i).length = ((List.range g.n).filter fun t => (g.targets i).contains t).length := by
      have := range_filter_mem (I.tnodup i) (fun t ht => (I.tgt i t ht).2.1) (fun _ => true)
      simp only [Bool.and_true] at this
      rw [this, List.filter_eq_self.2 (fun _ _ => rfl)]
    have h2 : (if (g.data i).all then g.extNodes.length else 0) = ((List.range g.n).filter fun t => (g.data i).all && (g.data t).ext).length := by
      by_cases ha : (g.data i).all = true
      · rw [if_pos ha, I.extNodes]
        simp [ha]
      · rw [if_neg ha]
        have ha : (g.data i).all = false := by simpa using ha
        simp only [ha, Bool.false_and]
        rw [List.filter_eq_nil_iff.2 (fun _ _ => by simp)]
        rfl
    have h3 := range_filter_mem (I.tnodup i) (fun t ht => (I.tgt i t ht).2.1) (fun t => (g.data i).all && (g.data t).ext)
    have h4 := filter_length_or (List.range g.n) (fun t => (g.targets i).contains t) (fun t => (g.data i).all && (g.data t).ext)
    have h5 : ((List.range g.n).filter fun t => g.isTargeting i t) = ((List.range g.n).filter fun t => (g.targets i).contains t || ((g.data i).all && (g.data t).ext)) := by
      refine List.filter_congr fun t _ => ?_
      unfold Graph.isTargeting
      cases h : ((g.data i).all && (g.data t).ext) <;> simp
    rw [h3] at h4
    rw [List.map_cons, List.sum_cons, List.map_cons, List.sum_cons, h5, ih.1, h2, h1]
    refine ⟨rfl, ?_⟩
    have := ih.2
    rw [ih.1] at this
    omega

theorem Inv.numEdges (I : Inv g) : g.numEdges = (g.edgesOf (fun i t => (g.targets i).contains t), g.edgesOf (fun i t => g.isTargeting i t)) := by
  unfold Graph.numEdges Graph.edgesOf
  dsimp only
  obtain ⟨h1, h2⟩ := I.countEdges (List.range g.n)
  generalize g.countEdges (List.range g.n) = r at h1 h2 ⊢
  obtain ⟨e, im, d⟩ := r
  dsimp only at h1 h2 ⊢
  rw [← h1]
  refine congrArg _ ?_
  omega

/-! ## Supergraphs -/

theorem Inv.lookup_iff (I : Inv g) {k : NodeKind} {o i : Nat} : (g.map k).lookup o = some i ↔
    (k ≠ .register ∧ k ≠ .external ∧ i < g.n ∧ (g.data i).kind = k ∧ g.obj i = o) := by
  rw [Ptg.lookup_iff (I.mapNodup k), I.mapIff]

/-- the thing that a memory node stands for -/
def Graph.ent (g : Graph) (i : Nat) : Ent :=
  if (g.data i).kind = .external then .outside else .mem (g.data i).kind (g.obj i)

theorem Inv.node_ent (I : Inv g) {i : Nat} (hi : i < g.n) (hk : (g.data i).kind ≠ .register) : g.node? (g.ent i) = some i := by
  unfold Graph.ent
  by_cases h : (g.data i).kind = .external
  · rw [if_pos h]
    show some 0 = some i
    rw [I.notZero i hi h]
  · rw [if_neg h]
    show (if _ then _ else _) = _
    rw [if_neg (by rintro (h' | h'); exacts [hk h', h h'])]
    exact I.lookup_iff.2 ⟨hk, h, hi, rfl, rfl⟩

theorem Inv.node_bound (I : Inv g) {e : Ent} {a : Nat} (h : g.node? e = some a) : a < g.n := by
  cases e with
  | outside => cases h; exact I.pos
  | mem k o =>
    have h : (if k = .register ∨ k = .external then none else (g.map k).lookup o) = some a := h
    split at h
    · cases h
    · exact (I.lookup_iff.1 h).2.2.1
  | reg o => exact (I.regMap o a ((Ptg.lookup_iff I.regNodup).1 h)).1

theorem Inv.node_mem (I : Inv g) {k : NodeKind} {o a : Nat} (h : g.node? (.mem k o) = some a) : g.ent a = .mem k o ∧ (g.data a).kind ≠ .register := by
  have h : (if k = .register ∨ k = .external then none else (g.map k).lookup o) = some a := h
  split at h
  · cases h
  · obtain ⟨h1, h2, h3, h4, h5⟩ := I.lookup_iff.1 h
    unfold Graph.ent
    rw [if_neg (by rw [h4]; exact h2), h4, h5]
    exact ⟨rfl, h1⟩

theorem corresponding_eq (sub super : Graph) {i : Nat} (hk : (sub.data i).kind ≠ .register) :
    Graph.corresponding sub super i = super.node? (sub.ent i) := by
  unfold Graph.corresponding Graph.ent
  cases h : (sub.data i).kind with
  | register => exact absurd h hk
  | external => rfl
  | _ => rfl

theorem corr_eq (sub super : Graph) {i : Nat} (hk : (sub.data i).kind ≠ .register) :
    Graph.corresponding sub super i = super.node? (sub.ent i) := corresponding_eq sub super hk

/-- what `isNodeSuperset` establishes -/
structure NodeSup (super : Graph) (b : Nat) (sub : Graph) (a : Nat) : Prop where
  ext : (sub.data a).ext = true → (super.data b).ext = true
  all : (sub.data a).all = true → (super.data b).all = true
  tgt : ∀ t ∈ sub.targets a, ∃ t', super.node? (sub.ent t) = some t' ∧ super.isTargeting b t' = true

theorem nodeSuperset_iff {super sub : Graph} (I : Inv sub) {a b : Nat} : Graph.nodeSuperset super b sub a = true ↔ NodeSup super b sub a := by
  have ht : ∀ t ∈ sub.targets a, (Graph.targetCovered super b sub t = true ↔ ∃ t', super.node? (sub.ent t) = some t' ∧ super.isTargeting b t' = true) := by
    intro t ht
    unfold Graph.targetCovered
    rw [corr_eq _ _ (I.tgt a t ht).2.2.2]
    cases super.node? (sub.ent t) with
    | none => simp
    | some t' =>
      dsimp only
      have := isTargeting_iff (g := super) (s := b) (t := t')
      by_cases h1 : (super.targets b).contains t' = true
      · rw [if_pos h1]
        rw [List.contains_iff_mem] at h1
        simp [this, h1]
      · rw [if_neg h1]
        rw [List.contains_iff_mem] at h1
        simp [this, h1]
  unfold Graph.nodeSuperset
  by_cases h1 : ((sub.data a).ext && !(super.data b).ext) = true
  · rw [if_pos h1]
    simp at h1
    refine ⟨(fun h => by cases h), fun h => ?_⟩
    have := h.ext h1.1
    rw [h1.2] at this; cases this
  · rw [if_neg h1]
    by_cases h2 : ((sub.data a).all && !(super.data b).all) = true
    · rw [if_pos h2]
      simp at h2
      refine ⟨(fun h => by cases h), fun h => ?_⟩
      have := h.all h2.1
      rw [h2.2] at this; cases this
    · rw [if_neg h2]
      simp at h1 h2
      rw [List.all_eq_true]
      exact ⟨fun h => ⟨h1, h2, fun t hm => (ht t hm).1 (h t hm)⟩, fun h t hm => (ht t hm).2 (h.tgt t hm)⟩

/-- the answer of `isSupergraphOf`, thing by thing -/
theorem isSupergraphOf_iff {super sub : Graph} (I : Inv sub) : super.isSupergraphOf sub = true ↔
    ∀ e, e ≠ .outside → ∀ a, sub.node? e = some a → ∃ b, super.node? e = some b ∧ NodeSup super b sub a := by
  have hmem : ∀ k, k ≠ .register → k ≠ .external →
      (((sub.map k).all (fun e => Graph.hasSuper super sub e.2)) = true ↔
        ∀ o a, sub.node? (.mem k o) = some a → ∃ b, super.node? (.mem k o) = some b ∧ NodeSup super b sub a) := by
    intro k h1 h2
    rw [List.all_eq_true]
    have hn : ∀ o, sub.node? (.mem k o) = (sub.map k).lookup o := fun o => if_neg (by rintro (h | h); exacts [h1 h, h2 h])
    have hs : ∀ o a, sub.node? (.mem k o) = some a → (Graph.hasSuper super sub a = true ↔ ∃ b, super.node? (.mem k o) = some b ∧ NodeSup super b sub a) := by
      intro o a h
      obtain ⟨he, hr⟩ := I.node_mem h
      unfold Graph.hasSuper
      rw [corr_eq _ _ hr, he]
      cases super.node? (.mem k o) with
      | none => simp
      | some b => simp [nodeSuperset_iff I]
    constructor
    · intro h o a ha
      exact (hs o a ha).1 (h (o, a) ((Ptg.lookup_iff (I.mapNodup k)).1 (by rw [← hn]; exact ha)))
    · rintro h ⟨o, a⟩ hm
      have ha := (Ptg.lookup_iff (I.mapNodup k)).2 hm
      rw [← hn] at ha
      exact (hs o a ha).2 (h o a ha)
  have hreg : (sub.regMap.all (fun e => Graph.registerCovered super sub e)) = true ↔
      ∀ o a, sub.node? (.reg o) = some a → ∃ b, super.node? (.reg o) = some b ∧ NodeSup super b sub a := by
    rw [List.all_eq_true]
    have hs : ∀ o a, (Graph.registerCovered super sub (o, a) = true ↔ ∃ b, super.node? (.reg o) = some b ∧ NodeSup super b sub a) := by
      intro o a
      show (match super.node? (.reg o) with | none => false | some b => Graph.nodeSuperset super b sub a) = true ↔ _
      cases super.node? (.reg o) with
      | none => simp
      | some b => simp [nodeSuperset_iff I]
    constructor
    · intro h o a ha
      exact (hs o a).1 (h (o, a) ((Ptg.lookup_iff I.regNodup).1 ha))
    · rintro h ⟨o, a⟩ hm
      exact (hs o a).2 (h o a ((Ptg.lookup_iff I.regNodup).2 hm))
  unfold Graph.isSupergraphOf
  simp only [Bool.and_eq_true]
  rw [hmem .alloca (by decide) (by decide), hmem .delta (by decide) (by decide), hmem .imported (by decide) (by decide),
    hmem .lambda (by decide) (by decide), hmem .malloc (by decide) (by decide), hreg]
  constructor
  · rintro ⟨⟨⟨⟨⟨h1, h2⟩, h3⟩, h4⟩, h5⟩, h6⟩ e he a ha
    cases e with
    | outside => exact absurd rfl he
    | reg o => exact h6 o a ha
    | mem k o =>
      cases k with
      | register => cases ha
      | external => cases ha
      | alloca => exact h1 o a ha
      | delta => exact h2 o a ha
      | imported => exact h3 o a ha
      | lambda => exact h4 o a ha
      | malloc => exact h5 o a ha
  · intro h
    exact ⟨⟨⟨⟨⟨fun o a => h (.mem .alloca o) (by simp) a, fun o a => h (.mem .delta o) (by simp) a⟩,
      fun o a => h (.mem .imported o) (by simp) a⟩, fun o a => h (.mem .lambda o) (by simp) a⟩,
      fun o a => h (.mem .malloc o) (by simp) a⟩, fun o a => h (.reg o) (by simp) a⟩

theorem Inv.points_outside (I : Inv g) {e : Ent} {a : Nat} (h : g.node? e = some a) : g.Points e .outside ↔ (g.data a).all = true := by
  constructor
  · rintro ⟨a', b, h1, h2, h3⟩
    rw [h] at h1; cases h1; cases h2
    exact I.targets_outside.1 h3
  · intro h'
    exact ⟨a, 0, h, rfl, I.targets_outside.2 h'⟩

theorem supergraph_iff {super sub : Graph} (I : Inv sub) (J : Inv super) : super.isSupergraphOf sub = true ↔ Supergraph super sub := by
  rw [isSupergraphOf_iff I]
  constructor
  · intro h
    have hn : ∀ e a, sub.node? e = some a → ∃ b, super.node? e = some b ∧
        ((sub.data a).ext = true → (super.data b).ext = true) ∧ ((sub.data a).all = true → (super.data b).all = true) ∧
        (∀ t ∈ sub.targets a, ∃ t', super.node? (sub.ent t) = some t' ∧ super.isTargeting b t' = true) := by
      intro e a ha
      by_cases he : e = .outside
      · subst he; cases ha
        refine ⟨0, rfl, fun _ => J.zero.2.1, fun _ => J.zero.2.2.1, ?_⟩
        rw [I.tzero]; intro t h; cases h
      · obtain ⟨b, hb, hs⟩ := h e he a ha
        exact ⟨b, hb, hs.ext, hs.all, hs.tgt⟩
    refine ⟨?_, ?_, ?_⟩
    · intro e he
      obtain ⟨a, ha⟩ := Option.isSome_iff_exists.1 he
      obtain ⟨b, hb, _⟩ := hn e a ha
      rw [hb]; rfl
    · rintro e ⟨a, ha, hx⟩
      obtain ⟨b, hb, h1, _⟩ := hn e a ha
      exact ⟨b, hb, h1 hx⟩
    · rintro e t ⟨a, u, ha, hu, hx⟩
      obtain ⟨b, hb, _, h2, h3⟩ := hn e a ha
      rcases isTargeting_iff.1 hx with hx | hx
      · obtain ⟨v, hv, h4, _⟩ := hn t u hu
        exact ⟨b, v, hb, hv, isTargeting_iff.2 (Or.inl ⟨h2 hx.1, h4 hx.2⟩)⟩
      · obtain ⟨v, hv, h4⟩ := h3 u hx
        have hk := I.tgt a u hx
        refine ⟨b, v, hb, ?_, h4⟩
        have : sub.ent u = t := by
          cases t with
          | outside => cases hu; exact absurd rfl hk.2.2.1
          | mem k o => exact (I.node_mem hu).1
          | reg o => exact absurd (I.regMap o u ((Ptg.lookup_iff I.regNodup).1 hu)).2 hk.2.2.2
        rw [← this]; exact hv
  · intro h e he a ha
    obtain ⟨b, hb⟩ := Option.isSome_iff_exists.1 (h.node e (by rw [ha]; rfl))
    refine ⟨b, hb, ⟨?_, ?_, ?_⟩⟩
    · intro hx
      obtain ⟨b', hb', hx'⟩ := h.available e ⟨a, ha, hx⟩
      rw [hb] at hb'; cases hb'; exact hx'
    · intro hx
      exact (J.points_outside hb).1 (h.points e .outside ((I.points_outside ha).2 hx))
    · intro t ht
      have hk := I.tgt a t ht
      have hp := h.points e (sub.ent t) ⟨a, t, ha, I.node_ent hk.2.1 hk.2.2.2, isTargeting_iff.2 (Or.inr ht)⟩
      obtain ⟨b', v, hb', hv, hx⟩ := hp
      rw [hb] at hb'; cases hb'
      exact ⟨v, hv, hx⟩

end Jlm.Llvm.Aa.Ptg
