import Verif.Aa.WorklistLeast
/-
The worklist solver terminates: an object is put on the worklist only when a fact is added, and the
number of facts that can be added is bounded.
-/
set_option linter.unusedSimpArgs false
set_option linter.unusedVariables false
set_option linter.unnecessarySeqFocus false
namespace Jlm.Llvm.Aa

/-- the facts that are used up by the solver -/
inductive Ft where
  | root (i : Nat)
  | pe (i : Nat)
  | pte (i : Nat)
  | esc (i : Nat)
  | pt (i x : Nat)

/-- the facts about `n` objects -/
def Ft.all (n : Nat) : List Ft :=
  (List.range n).map .root ++ (List.range n).map .pe ++ (List.range n).map .pte ++ (List.range n).map .esc ++
  (List.range n).flatMap fun i => (List.range n).map (.pt i)

theorem Ft.length_all (n : Nat) : (Ft.all n).length = n * n + 4 * n := by
  simp [Ft.all, List.length_flatMap, List.map_const']
  omega

/-- the fact is not yet there; with prefer-implicit-pointees, objects with both flags need no
explicit pointees -/
def RSet.miss (pip : Bool) (s : RSet) : Ft → Bool
  | .root i => s.root i == i
  | .pe i => !s.pe i
  | .pte i => !s.pte i
  | .esc i => !s.escaped i
  | .pt i x => !(s.pointees i).contains x && !(pip && s.pe i && s.pte i)

/-- no fact is lost -/
def MLe (pip : Bool) (s s' : RSet) : Prop := ∀ f, s'.miss pip f = true → s.miss pip f = true

/-- some fact is added -/
def MLt (pip : Bool) (n : Nat) (s s' : RSet) : Prop := ∃ f ∈ Ft.all n, s.miss pip f = true ∧ s'.miss pip f = false

variable {pip : Bool}

theorem MLe.refl (s : RSet) : MLe pip s s := fun _ h => h
theorem MLe.trans {s t u : RSet} (h : MLe pip s t) (g : MLe pip t u) : MLe pip s u := fun f hf => h f (g f hf)
theorem MLt.le {n : Nat} {s t u : RSet} (h : MLt pip n s t) (g : MLe pip t u) : MLt pip n s u := by
  obtain ⟨f, h1, h2, h3⟩ := h
  refine ⟨f, h1, h2, ?_⟩
  cases hu : u.miss pip f with
  | false => rfl
  | true => rw [g f hu] at h3; cases h3
theorem MLe.lt {n : Nat} {s t u : RSet} (h : MLe pip s t) (g : MLt pip n t u) : MLt pip n s u := by
  obtain ⟨f, h1, h2, h3⟩ := g
  exact ⟨f, h1, h f h2, h3⟩

/-- sufficient conditions for `MLe` -/
theorem MLe.mk' {s s' : RSet} (hr : ∀ i, s'.root i = i → s.root i = i) (hpe : ∀ i, s.pe i = true → s'.pe i = true) (hpte : ∀ i, s.pte i = true → s'.pte i = true)
    (hesc : ∀ i, s.escaped i = true → s'.escaped i = true) (hpt : ∀ i x, x ∈ s.pointees i → x ∈ s'.pointees i ∨ (pip = true ∧ s'.pe i = true ∧ s'.pte i = true)) :
    MLe pip s s' := by
  intro f hf
  cases f with
  | root i => simp only [RSet.miss, beq_iff_eq] at hf ⊢; exact hr i hf
  | pe i =>
    simp only [RSet.miss, Bool.not_eq_true'] at hf ⊢
    cases h : s.pe i with
    | false => rfl
    | true => rw [hpe i h] at hf; exact hf
  | pte i =>
    simp only [RSet.miss, Bool.not_eq_true'] at hf ⊢
    cases h : s.pte i with
    | false => rfl
    | true => rw [hpte i h] at hf; exact hf
  | esc i =>
    simp only [RSet.miss, Bool.not_eq_true'] at hf ⊢
    cases h : s.escaped i with
    | false => rfl
    | true => rw [hesc i h] at hf; exact hf
  | pt i x =>
    simp only [RSet.miss, Bool.and_eq_true, Bool.not_eq_true', Bool.and_eq_false_iff, List.contains_iff_mem, ← Bool.not_eq_true, not_or, not_and] at hf ⊢
    refine ⟨fun h => ?_, ?_⟩
    · rcases hpt i x h with h | ⟨h1, h2, h3⟩
      · exact hf.1 h
      · exact hf.2 ⟨h1, h2⟩ h3
    · intro g h
      exact hf.2 ⟨g.1, hpe i g.2⟩ (hpte i h)

theorem Ft.mem_all {n : Nat} : ∀ f : Ft, f ∈ Ft.all n ↔ match f with
    | .root i | .pe i | .pte i | .esc i => i < n
    | .pt i x => i < n ∧ x < n := by
  intro f
  cases f <;> simp [Ft.all]

theorem MLe.markPE (s : RSet) (a : Nat) : MLe pip s (s.markPE a).2 := by
  have g := markPE_eff s a
  refine MLe.mk' (fun i => by rw [g.same.root]; exact id) (fun i h => (g.pe i).2 (.inl h)) (fun i => by rw [g.pte]; exact id) (fun i => by rw [g.esc]; exact id) ?_
  intro i x hx; left; unfold RSet.pointees at *; rw [g.pts, g.same.root]; exact hx

theorem MLe.markPTE (s : RSet) (a : Nat) : MLe pip s (s.markPTE a).2 := by
  have g := markPTE_eff s a
  refine MLe.mk' (fun i => by rw [g.same.root]; exact id) (fun i => by rw [g.pe]; exact id) (fun i h => (g.pte i).2 (.inl h)) (fun i => by rw [g.esc]; exact id) ?_
  intro i x hx; left; unfold RSet.pointees at *; rw [g.pts, g.same.root]; exact hx

theorem MLt.markPE {n : Nat} {s : RSet} {a : Nat} (ha : a < n) (h : (s.markPE a).1 = true) : MLt pip n s (s.markPE a).2 := by
  refine ⟨.pe a, (Ft.mem_all _).2 ha, ?_, ?_⟩
  · simp only [RSet.miss, (WS.markPE_fst s a).1 h]; rfl
  · simp only [RSet.miss, ((markPE_eff s a).pe a).2 (.inr rfl)]; rfl

theorem MLt.markPTE {n : Nat} {s : RSet} {a : Nat} (ha : a < n) (h : (s.markPTE a).1 = true) : MLt pip n s (s.markPTE a).2 := by
  refine ⟨.pte a, (Ft.mem_all _).2 ha, ?_, ?_⟩
  · simp only [RSet.miss, (WS.markPTE_fst s a).1 h]; rfl
  · simp only [RSet.miss, ((markPTE_eff s a).pte a).2 (.inr rfl)]; rfl

theorem MLe.markEscaped {s : RSet} (hs : SetOk s) {a : Nat} (ha : a < s.n) (hk : (s.obj a).kind ≠ .register) : MLe pip s (s.markEscaped a).2 := by
  have g := markEscaped_eff hs ha hk
  refine MLe.mk' (fun i => by rw [g.same.root]; exact id) (fun i h => (g.pe i).2 (.inl h)) (fun i h => (g.pte i).2 (.inl h)) (fun i h => (g.esc i).2 (.inl h)) ?_
  intro i x hx; left; unfold RSet.pointees at *; rw [g.pts, g.same.root]; exact hx

theorem MLt.markEscaped {s : RSet} (hs : SetOk s) {a : Nat} (ha : a < s.n) (hk : (s.obj a).kind ≠ .register) (h : (s.markEscaped a).1 = true) :
    MLt pip s.n s (s.markEscaped a).2 := by
  refine ⟨.esc a, (Ft.mem_all _).2 ha, ?_, ?_⟩
  · simp only [RSet.miss, (WS.markEscaped_fst s a).1 h]; rfl
  · simp only [RSet.miss, ((markEscaped_eff hs ha hk).esc a).2 (.inr rfl)]; rfl

theorem MLe.addPts {s s' : RSet} {a : Nat} {Q : Nat → Prop} {px : Prop} (g : AddPts s s' a Q px) : MLe pip s s' :=
  MLe.mk' (fun i => by rw [g.same.root]; exact id) (fun i => by rw [g.pe]; exact id) (fun i h => (g.pte i).2 (.inl h)) (fun i => by rw [g.esc]; exact id)
    (fun i x hx => .inl ((g.pts i x).2 (.inl hx)))

theorem MLt.addPts {n : Nat} {s s' : RSet} {a x : Nat} {Q : Nat → Prop} {px : Prop} (g : AddPts s s' a Q px) (ha : a < n) (hx : x < n) (hQ : Q x) (hn : x ∉ s.pointees a)
    (hp : ¬ (pip = true ∧ s.pte a = true ∧ s.pe a = true)) : MLt pip n s s' := by
  refine ⟨.pt a x, (Ft.mem_all _).2 ⟨ha, hx⟩, ?_, ?_⟩
  · simp only [RSet.miss, Bool.and_eq_true, Bool.not_eq_true', ← Bool.not_eq_true, List.contains_iff_mem]
    exact ⟨hn, fun h => hp ⟨h.1.1, h.2, h.1.2⟩⟩
  · simp only [RSet.miss, Bool.and_eq_false_iff, Bool.not_eq_false', List.contains_iff_mem]
    exact .inl ((g.pts a x).2 (.inr ⟨rfl, hQ⟩))

theorem MLt.makeSuperset {n : Nat} {s : RSet} {a b : Nat} (ha : a < n) (hx : ∀ x ∈ s.pointees b, x < n) (hp : ¬ (pip = true ∧ s.pte a = true ∧ s.pe a = true))
    (h : (s.makeSuperset a b).1 = true) : MLt pip n s (s.makeSuperset a b).2 := by
  have g := makeSuperset_eff s a b
  rcases (makeSuperset_changed s a b).1 h with ⟨x, h1, h2⟩ | ⟨h1, h2⟩
  · exact MLt.addPts g ha (hx x h1) h1 h2 hp
  · refine ⟨.pte a, (Ft.mem_all _).2 ha, ?_, ?_⟩
    · simp only [RSet.miss, h2]; rfl
    · simp only [RSet.miss, (g.pte a).2 (.inr ⟨rfl, h1⟩)]; rfl

namespace WS
variable {σ : Type} {P : Problem}

theorem UEff.mle {w w' : WS σ} {root non : Nat} (u : UEff w w' root non) : MLe pip w.set w'.set :=
  MLe.mk' (fun i hi => (u.isRoot hi).1) (fun i => u.pe i) (fun i => u.pte i) (fun i => by rw [u.set.esc]; exact id) (fun i x hx => .inl (u.pts i x hx))

theorem UEff.mlt {w w' : WS σ} {root non n : Nat} (u : UEff w w' root non) (hn : non < n) : MLt pip n w.set w'.set := by
  refine ⟨.root non, (Ft.mem_all _).2 hn, ?_, ?_⟩
  · simp only [RSet.miss, u.r1, beq_self_eq_true]
  · simp only [RSet.miss, u.rootN, beq_eq_false_iff_ne]; exact u.ne

/-- ranges -/
structure Rg (P : Problem) (w : WS σ) : Prop where
  ok : SetOk w.set
  n : w.set.n = P.base.n
  kind : ∀ i, (w.set.obj i).kind = P.base.kind i
  newP : ∀ m, ∀ x ∈ w.newP m, x < P.base.n ∧ P.base.kind x ≠ .register
  rng : w.Range

/-- a step that keeps the ranges and loses no fact, and adds a fact if it adds to the worklist -/
structure Ok2 (P : Problem) (pip : Bool) (w w' : WS σ) : Prop where
  rg : Rg P w'
  le : MLe pip w.set w'.set
  quiet : (∀ i, w'.wl i = true → w.wl i = true) ∨ MLt pip P.base.n w.set w'.set

theorem Ok2.refl {w : WS σ} (h : Rg P w) : Ok2 P pip w w := ⟨h, MLe.refl _, .inl fun _ h => h⟩

theorem Ok2.trans {u v w : WS σ} (h : Ok2 P pip u v) (g : Ok2 P pip v w) : Ok2 P pip u w := by
  refine ⟨g.rg, h.le.trans g.le, ?_⟩
  rcases h.quiet with h1 | h1
  · rcases g.quiet with g1 | g1
    · exact .inl fun i hi => h1 i (g1 i hi)
    · exact .inr (h.le.lt g1)
  · exact .inr (h1.le g.le)

theorem foldl_ok2 {α : Type} {f : WS σ → α → WS σ} {Q : WS σ → Prop} (l : List α) {w : WS σ} (h : Rg P w) (hq : Q w)
    (hf : ∀ a ∈ l, ∀ v, Rg P v → Q v → Ok2 P pip v (f v a) ∧ Q (f v a)) : Ok2 P pip w (l.foldl f w) ∧ Q (l.foldl f w) :=
  foldl_mw (Q := fun v => Ok2 P pip w v ∧ Q v) l ⟨Ok2.refl h, hq⟩ (fun a ha v hv => ⟨hv.1.trans (hf a ha v hv.1.rg hv.2).1, (hf a ha v hv.1.rg hv.2).2⟩)

theorem foldl_ok2' {α : Type} {f : WS σ → α → WS σ} (l : List α) {w : WS σ} (h : Rg P w)
    (hf : ∀ a ∈ l, ∀ v, Rg P v → Ok2 P pip v (f v a)) : Ok2 P pip w (l.foldl f w) :=
  (foldl_ok2 (Q := fun _ => True) l h trivial (fun a ha v hv _ => ⟨hf a ha v hv, trivial⟩)).1

theorem Rg.set {w : WS σ} (h : Rg P w) {s : RSet} (same : SameObj w.set s) (ok : SetOk s) (np : Nat → List Nat)
    (hnp : ∀ m, ∀ x ∈ np m, x < P.base.n ∧ P.base.kind x ≠ .register) (wl t x p : Nat → Bool) :
    Rg P { w with set := s, newP := np, wl := wl, tracked := t, xSeen := x, peSeen := p } := by
  have r := h.rng
  have hn := same.n
  refine ⟨ok, hn.trans h.n, fun i => (same.kind i).trans (h.kind i), hnp, ⟨?_, ?_, ?_, ?_, ?_, ?_⟩⟩
  all_goals (dsimp only; rw [hn])
  · exact r.edges
  · exact r.stores
  · exact r.loads
  · exact r.calls
  · exact r.queue
  · exact r.ref

/-- an item is pushed after a fact was added -/
theorem Ok2.push {w w' : WS σ} (h : Ok2 P pip w w') (hl : MLt pip P.base.n w.set w'.set) (r : Nat) : Ok2 P pip w (w'.push r) :=
  ⟨⟨h.rg.ok, h.rg.n, h.rg.kind, h.rg.newP, ⟨h.rg.rng.edges, h.rg.rng.stores, h.rg.rng.loads, h.rg.rng.calls, h.rg.rng.queue, h.rg.rng.ref⟩⟩, h.le, .inr hl⟩

/-- the set does not change -/
theorem Ok2.still {w w' : WS σ} (h : Rg P w) (h1 : w'.set = w.set) (h2 : w'.wl = w.wl) (h3 : w'.Range) (h4 : ∀ m, ∀ x ∈ w'.newP m, x < P.base.n ∧ P.base.kind x ≠ .register) : Ok2 P pip w w' :=
  ⟨⟨h1 ▸ h.ok, h1 ▸ h.n, h1 ▸ h.kind, h4, h3⟩, h1 ▸ MLe.refl _, .inl fun i => h2 ▸ id⟩

theorem Rg.ptsLt {w : WS σ} (h : Rg P w) {i x : Nat} (hx : x ∈ w.set.pointees i) : x < P.base.n ∧ P.base.kind x ≠ .register := by
  have := h.ok.2.ptsLt i x hx
  exact ⟨by rw [← h.n]; exact this.1, by rw [← h.kind]; exact this.2⟩

theorem Rg.root {w : WS σ} (h : Rg P w) {i : Nat} (hi : i < P.base.n) : w.set.root i < P.base.n := by
  rw [← h.n] at hi ⊢; exact h.ok.wf.lt i hi

theorem ok2_markPE {w : WS σ} (h : Rg P w) {a : Nat} (ha : a < P.base.n) : Ok2 P pip w (w.markPE a) := by
  unfold WS.markPE
  simp only []
  split
  · rename_i hc
    have hr := h.root ha
    exact ⟨h.set (markPE_eff _ _).same (h.ok.step (.markPE _) (by show _ < w.set.n; rw [h.n]; exact hr)) _ h.newP _ _ _ _, MLe.markPE _ _, .inr (MLt.markPE hr hc)⟩
  · exact Ok2.refl h

theorem ok2_markPTE {w : WS σ} (h : Rg P w) {a : Nat} (ha : a < P.base.n) : Ok2 P pip w (w.markPTE a) := by
  unfold WS.markPTE
  simp only []
  split
  · rename_i hc
    have hr := h.root ha
    exact ⟨h.set (markPTE_eff _ _).same (h.ok.step (.markPTE _) (by show _ < w.set.n; rw [h.n]; exact hr)) _ h.newP _ _ _ _, MLe.markPTE _ _, .inr (MLt.markPTE hr hc)⟩
  · exact Ok2.refl h

theorem unify_range {w w' : WS σ} {root non : Nat} (u : UEff w w' root non) (h : w.Range) : w'.Range := by
  have hl : ∀ {β : Type} (f f' : Nat → List β) (C : β → Prop), (∀ c, c ∈ f' root → c ∈ f root ∨ c ∈ f non) → (f' non = []) → (∀ i, i ≠ root → i ≠ non → f' i = f i) →
      (∀ m, ∀ c ∈ f m, C c) → ∀ m, ∀ c ∈ f' m, C c := by
    intro β f f' C g1 g2 g3 hf m c hc
    by_cases m1 : m = root
    · subst m1
      rcases g1 c hc with hc | hc
      · exact hf _ c hc
      · exact hf _ c hc
    · by_cases m2 : m = non
      · subst m2; rw [g2] at hc; cases hc
      · rw [g3 m m1 m2] at hc; exact hf m c hc
  refine ⟨?_, ?_, ?_, ?_, ?_, ?_⟩
  all_goals rw [u.set.n]
  · exact hl w.edges w'.edges (· < w.set.n) (fun c hc => ((u.edgesR c).1 hc).1) u.edgesN u.edges h.edges
  · exact hl w.stores w'.stores (· < w.set.n) (fun c hc => (u.storesR c).1 hc) u.storesN u.stores h.stores
  · exact hl w.loads w'.loads (· < w.set.n) (fun c hc => (u.loadsR c).1 hc) u.loadsN u.loads h.loads
  · exact hl w.calls w'.calls (·.InRange w.set.n) (fun c hc => (u.callsR c).1 hc) u.callsN u.calls h.calls
  · rw [u.queue]; exact h.queue
  · intro i a hi
    rcases u.ref i a hi with hi | ⟨_, hi⟩
    · exact h.ref i a hi
    · exact h.ref non a hi

theorem ok2_unify {hcd : Bool} {w : WS σ} (h : Rg P w) {a b : Nat} (ha : a < P.base.n) (hb : b < P.base.n) :
    Ok2 P pip w (w.unify hcd a b).2 ∧ (w.unify hcd a b).2.wl = w.wl ∧ (w.set.root a ≠ w.set.root b → MLt pip P.base.n w.set (w.unify hcd a b).2.set) := by
  by_cases hr : w.set.root a = w.set.root b
  · rw [unify_same hr]; exact ⟨Ok2.refl h, rfl, fun hh => absurd hr hh⟩
  · obtain ⟨non, u, hp, hs⟩ := unify_ueff (hcd := hcd) h.ok.wf.idem hr
    have hnon : non < P.base.n := by
      rcases hp with ⟨_, e⟩ | ⟨_, e⟩
      · rw [e]; exact h.root hb
      · rw [e]; exact h.root ha
    have hok : SetOk (w.unify hcd a b).2.set := by
      rw [hs]
      exact h.ok.step (.unify (w.set.root a) (w.set.root b)) ⟨by show _ < w.set.n; rw [h.n]; exact h.root ha, by show _ < w.set.n; rw [h.n]; exact h.root hb⟩
    generalize (w.unify hcd a b).1 = root at *
    generalize (w.unify hcd a b).2 = v at *
    refine ⟨⟨⟨hok, u.set.n.trans h.n, fun i => (u.set.kind i).trans (h.kind i), ?_, unify_range u h.rng⟩, u.mle, .inl fun i => by rw [u.wl]; exact id⟩, u.wl, fun _ => u.mlt hnon⟩
    intro m x hx
    by_cases m1 : m = root
    · subst m1; rw [u.newPR] at hx; cases hx
    · by_cases m2 : m = non
      · subst m2; rw [u.newPN] at hx; cases hx
      · rw [u.newP m m1 m2] at hx; exact h.newP m x hx

theorem ok2_unifyAll {hcd : Bool} : ∀ (l : List (Nat × Nat)) {w : WS σ}, Rg P w → (∀ p ∈ l, p.1 < P.base.n ∧ p.2 < P.base.n) →
    Ok2 P pip w (w.unifyAll hcd l) := by
  intro l w h hl
  exact foldl_ok2' l h (fun p hp v hv => (ok2_unify hv (hl p hp).1 (hl p hp).2).1)

/-- if two different roots are in one class afterwards, a fact was added -/
theorem mlt_of_root {n : Nat} {s s' : RSet} {a b : Nat} (ha : s.root a = a) (hb : s.root b = b) (hne : a ≠ b) (h : s'.root a = s'.root b) (h1 : a < n) (h2 : b < n) :
    MLt pip n s s' := by
  by_cases hc : s'.root a = a
  · refine ⟨.root b, (Ft.mem_all _).2 h2, by simp [RSet.miss, hb], ?_⟩
    simp only [RSet.miss, beq_eq_false_iff_ne]
    rw [← h, hc]; exact hne
  · exact ⟨.root a, (Ft.mem_all _).2 h1, by simp [RSet.miss, ha], by simp only [RSet.miss, beq_eq_false_iff_ne]; exact hc⟩

variable {env : Env σ}

theorem unifyAll_set {hcd : Bool} : ∀ (l : List (Nat × Nat)) (w : WS σ), (w.unifyAll hcd l).set = unifyPairs w.set l := by
  intro l
  induction l with
  | nil => intro w; rfl
  | cons p l ih =>
    intro w
    show (unifyAll hcd l (w.unify hcd p.1 p.2).2).set = unifyPairs (w.set.unify (w.set.root p.1) (w.set.root p.2)).2 l
    rw [ih]
    congr 1
    unfold WS.unify
    simp only []
    split
    · rename_i h; rw [h]; unfold RSet.unify; simp
    · rfl

theorem ok2_detect (hd : DetOk env) {w : WS σ} (h : Rg P w) {sub sup : Nat} (h1 : sub < P.base.n) (h2 : sup < P.base.n)
    (r1 : w.set.root sub = sub) (r2 : w.set.root sup = sup) (hne : sub ≠ sup) : Ok2 P pip w (w.detect env sub sup).2 := by
  have hdr := hd.range w.det w.set w.edges sub sup h.ok.wf h.rng.edges (by rw [h.n]; exact h1) (by rw [h.n]; exact h2) r1 r2 hne
  have hdc := hd.cycle w.det w.set w.edges sub sup h.ok.wf h.rng.edges (by rw [h.n]; exact h1) (by rw [h.n]; exact h2) r1 r2 hne
  unfold WS.detect
  simp only []
  generalize env.det w.det w.set w.edges sub sup = dl at *
  obtain ⟨d, l⟩ := dl
  have h0 : Ok2 P pip w { w with det := d } := Ok2.still h rfl rfl ⟨h.rng.edges, h.rng.stores, h.rng.loads, h.rng.calls, h.rng.queue, h.rng.ref⟩ h.newP
  cases l with
  | nil => exact h0
  | cons p l =>
    have h3 := ok2_unifyAll (pip := pip) (hcd := env.opts.hcd) (p :: l) h0.rg (fun q hq => by rw [← h.n]; exact hdr q hq)
    refine (h0.trans h3).push ?_ _
    refine mlt_of_root r1 r2 hne ?_ h1 h2
    rw [unifyAll_set]
    exact (hdc (by simp)).1
theorem ok2_makeSuperset {w : WS σ} (h : Rg P w) {a b : Nat} (ha : a < P.base.n) (hb : b < P.base.n) (hp : ¬ (pip = true ∧ w.set.pte a = true ∧ w.set.pe a = true)) :
    Ok2 P pip w (if (w.makeSuperset a b).1 then (w.makeSuperset a b).2.push a else (w.makeSuperset a b).2) := by
  have h1 : Ok2 P pip w (w.makeSuperset a b).2 := by
    refine ⟨h.set (makeSuperset_eff w.set a b).same (h.ok.step (.makeSuperset a b) ⟨by show a < w.set.n; rw [h.n]; exact ha, by show b < w.set.n; rw [h.n]; exact hb⟩) _ ?_ w.wl w.tracked w.xSeen w.peSeen,
      MLe.addPts (makeSuperset_eff w.set a b), .inl fun _ h => h⟩
    intro m x hx
    split at hx
    · by_cases hm : m = a
      · subst hm
        rw [upd_same, mem_uni, List.mem_filter] at hx
        rcases hx with hx | hx
        · exact h.newP m x hx
        · exact h.ptsLt hx.1
      · rw [upd_ne _ _ hm] at hx; exact h.newP m x hx
    · exact h.newP m x hx
  split
  · rename_i hc
    exact h1.push (MLt.makeSuperset ha (fun x hx => (h.ptsLt hx).1) hp hc) _
  · exact h1

theorem ok2_insEdge {w : WS σ} (h : Rg P w) {sup sub : Nat} (h1 : sup < P.base.n) : Ok2 P pip w (w.insEdge sup sub) := by
  refine Ok2.still h rfl rfl ⟨?_, h.rng.stores, h.rng.loads, h.rng.calls, h.rng.queue, h.rng.ref⟩ h.newP
  intro m s hs
  change s ∈ upd w.edges sub (ins (w.edges sub) sup) m at hs
  by_cases hm : m = sub
  · subst hm
    rw [upd_same, mem_ins] at hs
    rcases hs with hs | rfl
    · exact h.rng.edges m s hs
    · show s < w.set.n; rw [h.n]; exact h1
  · rw [upd_ne _ _ hm] at hs; exact h.rng.edges m s hs

theorem detect_false {w : WS σ} {sub sup : Nat} (h : (w.detect env sub sup).1 = false) : ∃ d, (w.detect env sub sup).2 = { w with det := d } := by
  revert h
  unfold WS.detect
  simp only []
  cases (env.det w.det w.set w.edges sub sup).2 with
  | nil => intro _; exact ⟨_, rfl⟩
  | cons p l => intro h; cases h

theorem ok2_linkEdge (hd : DetOk env) {w : WS σ} (h : Rg P w) {sup sub : Nat} (h1 : sup < P.base.n) (h2 : sub < P.base.n) (r1 : w.set.root sup = sup) (r2 : w.set.root sub = sub)
    (hne : sub ≠ sup) (hp : ¬ (pip = true ∧ w.set.pte sup = true ∧ w.set.pe sup = true)) : Ok2 P pip w (w.linkEdge env sup sub) := by
  unfold WS.linkEdge
  split
  · exact Ok2.refl h
  · simp only []
    have k1 := ok2_insEdge (pip := pip) h (sub := sub) h1
    have fin : ∀ w2 : WS σ, Ok2 P pip w w2 → w2.set = w.set →
        Ok2 P pip w (if (env.opts.lcd && !List.isEmpty ((if (w2.makeSuperset sup sub).1 = true then (w2.makeSuperset sup sub).2.push sup else (w2.makeSuperset sup sub).2).set.pointees sub) && !(w2.makeSuperset sup sub).1) = true
          then (WS.detect env sub sup (if (w2.makeSuperset sup sub).1 = true then (w2.makeSuperset sup sub).2.push sup else (w2.makeSuperset sup sub).2)).2
          else (if (w2.makeSuperset sup sub).1 = true then (w2.makeSuperset sup sub).2.push sup else (w2.makeSuperset sup sub).2)) := by
      intro w2 k2 hs2
      have k3 := ok2_makeSuperset k2.rg h1 h2 (pip := pip) (by rw [hs2]; exact hp)
      have hroot : (if (w2.makeSuperset sup sub).1 = true then (w2.makeSuperset sup sub).2.push sup else (w2.makeSuperset sup sub).2).set.root = w.set.root := by
        have : (w2.makeSuperset sup sub).2.set.root = w.set.root := by rw [← hs2]; exact makeSuperset_root _ _ _
        split
        · exact this
        · exact this
      generalize (if (w2.makeSuperset sup sub).1 = true then (w2.makeSuperset sup sub).2.push sup else (w2.makeSuperset sup sub).2) = w3 at *
      split
      · exact (k2.trans k3).trans (ok2_detect hd k3.rg h2 h1 (by rw [hroot]; exact r2) (by rw [hroot]; exact r1) hne)
      · exact k2.trans k3
    by_cases ho : env.opts.ocd = true
    · rw [if_pos ho]
      have k2 := k1.trans (ok2_detect (pip := pip) hd k1.rg h2 h1 r2 r1 hne)
      split
      · exact k2
      · rename_i hf
        obtain ⟨d, e⟩ := detect_false (by simpa using hf)
        exact fin _ k2 (by rw [e]; rfl)
    · rw [if_neg ho]
      simp only [Bool.false_eq_true, if_false]
      exact fin _ k1 rfl

theorem ok2_addEdge (hd : DetOk env) {w : WS σ} (h : Rg P w) {sup sub : Nat} (h1 : sup < P.base.n) (h2 : sub < P.base.n) : Ok2 P env.opts.pip w (w.addEdge env sup sub) := by
  unfold WS.addEdge
  simp only []
  split
  · exact Ok2.refl h
  · rename_i hne
    split
    · exact Ok2.refl h
    · split
      · exact ok2_markPE h (h.root h2)
      · rename_i hc
        refine ok2_linkEdge hd h (h.root h1) (h.root h2) (h.ok.wf.idem _) (h.ok.wf.idem _) (Ne.symm hne) ?_
        intro hh
        exact hc (by simp [hh])

theorem ok2_queueEdge {w : WS σ} (h : Rg P w) {sup sub : Nat} (h1 : sup < P.base.n) (h2 : sub < P.base.n) : Ok2 P pip w (w.queueEdge sup sub) := by
  unfold WS.queueEdge
  simp only []
  split
  · exact Ok2.refl h
  · split
    · exact Ok2.refl h
    · refine Ok2.still h rfl rfl ⟨h.rng.edges, h.rng.stores, h.rng.loads, h.rng.calls, ?_, h.rng.ref⟩ h.newP
      intro p hp
      rcases List.mem_append.1 hp with hp | hp
      · exact h.rng.queue p hp
      · rw [List.mem_singleton] at hp; subst hp
        exact ⟨by show _ < w.set.n; rw [h.n]; exact h.root h1, by show _ < w.set.n; rw [h.n]; exact h.root h2⟩

theorem ok2_flush (hd : DetOk env) (hen : EnOk env) {w : WS σ} (h : Rg P w) : Ok2 P env.opts.pip w (w.flush env) := by
  unfold WS.flush
  simp only []
  have k := foldl_ok2' (pip := env.opts.pip) (f := fun w p => w.addEdge env p.1 p.2) (env.en w w.queue) h (fun p hp v hv => by
    have := h.rng.queue p ((hen w w.queue p).1 hp)
    rw [h.n] at this
    exact ok2_addEdge hd hv this.1 this.2)
  refine k.trans (Ok2.still k.rg rfl rfl ⟨k.rg.rng.edges, k.rg.rng.stores, k.rg.rng.loads, k.rg.rng.calls, ?_, k.rg.rng.ref⟩ k.rg.newP)
  intro p hp; cases hp

theorem ok2_callExternal {w : WS σ} (h : Rg P w) {c : Call} (hc : c.InRange P.base.n) : Ok2 P pip w (w.callExternal c) := by
  unfold WS.callExternal
  have k := foldl_ok2' (pip := pip) (f := fun w i => WS.markPE w i) (registers c.ins) h (fun a ha v hv => ok2_markPE hv (hc.1 a (mem_registers.1 ha)))
  exact k.trans (foldl_ok2' (f := fun w i => WS.markPTE w i) _ k.rg (fun a ha v hv => ok2_markPTE hv (hc.2 a (mem_registers.1 ha))))

theorem ok2_callLambda {w : WS σ} (h : Rg P w) {c : Call} (hc : c.InRange P.base.n) {f : Nat} (hf : (env.fn f).InRange P.base.n) : Ok2 P pip w (w.callLambda env c f) := by
  unfold WS.callLambda
  have k := foldl_ok2' (pip := pip) (f := fun w (ab : Nat × Nat) => WS.queueEdge ab.2 ab.1 w) (paired c.ins (env.fn f).args) h (fun a ha v hv => by
    obtain ⟨k, h1, h2⟩ := mem_paired.1 ha
    exact ok2_queueEdge hv (hf.1 _ (List.mem_of_getElem? h2)) (hc.1 _ (List.mem_of_getElem? h1)))
  exact k.trans (foldl_ok2' (f := fun w (ab : Nat × Nat) => WS.queueEdge ab.1 ab.2 w) _ k.rg (fun a ha v hv => by
    obtain ⟨k, h1, h2⟩ := mem_paired.1 ha
    exact ok2_queueEdge hv (hc.2 _ (List.mem_of_getElem? h1)) (hf.2 _ (List.mem_of_getElem? h2))))

theorem ok2_callTarget (hfn : env.fn = P.fn) (hrg : P.InRange) {w : WS σ} (h : Rg P w) {c : Call} (hc : c.InRange P.base.n) {x : Nat} (hx : x < P.base.n) :
    Ok2 P pip w (w.callTarget env c x) := by
  unfold WS.callTarget
  split
  · exact ok2_callExternal h hc
  · rename_i hk; rw [h.kind] at hk
    exact ok2_callLambda h hc (by rw [hfn]; exact hrg.fn x hx hk)
  · exact Ok2.refl h

theorem ok2_escapedFn {w : WS σ} (h : Rg P w) {f : Fn} (hf : f.InRange P.base.n) : Ok2 P pip w (w.escapedFn f) := by
  unfold WS.escapedFn
  have k := foldl_ok2' (pip := pip) (f := fun w a => if w.set.pte a = true then w else WS.markPTE w a) (registers f.args) h (fun a ha v hv => by
    split
    · exact Ok2.refl hv
    · exact ok2_markPTE hv (hf.1 a (mem_registers.1 ha)))
  exact k.trans (foldl_ok2' (f := fun w a => if w.set.pe a = true then w else WS.markPE w a) _ k.rg (fun a ha v hv => by
    split
    · exact Ok2.refl hv
    · exact ok2_markPE hv (hf.2 a (mem_registers.1 ha))))

theorem ok2_escapePointee (hfn : env.fn = P.fn) (hrg : P.InRange) {w : WS σ} (h : Rg P w) {x : Nat} (hx : x < P.base.n) (hk : P.base.kind x ≠ .register) :
    Ok2 P pip w (w.escapePointee env x) := by
  unfold WS.escapePointee
  simp only []
  split
  · exact Ok2.refl h
  · rename_i hc
    have hxn : x < w.set.n := by rw [h.n]; exact hx
    have hkr : (w.set.obj x).kind ≠ .register := by rw [h.kind]; exact hk
    have hm : MLt pip P.base.n w.set (w.set.markEscaped x).2 := by
      rw [← h.n]; exact MLt.markEscaped h.ok hxn hkr (by simpa using hc)
    have k1 : Ok2 P pip w { w with set := (w.set.markEscaped x).2 } :=
      ⟨h.set (markEscaped_eff h.ok hxn hkr).same (h.ok.step (.markEscaped x) ⟨hxn, hkr⟩) _ h.newP w.wl w.tracked w.xSeen w.peSeen, MLe.markEscaped h.ok hxn hkr, .inr hm⟩
    have k2 : Ok2 P pip w (if (({ w with set := (w.set.markEscaped x).2 } : WS σ).set.obj x).kind = Kind.function then WS.escapedFn (env.fn x) { w with set := (w.set.markEscaped x).2 } else { w with set := (w.set.markEscaped x).2 }) ∧
       MLt pip P.base.n w.set (if (({ w with set := (w.set.markEscaped x).2 } : WS σ).set.obj x).kind = Kind.function then WS.escapedFn (env.fn x) { w with set := (w.set.markEscaped x).2 } else { w with set := (w.set.markEscaped x).2 }).set := by
      split
      · rename_i hkf
        have hkf' : P.base.kind x = .function := by rw [← k1.rg.kind]; exact hkf
        have k3 := ok2_escapedFn (pip := pip) k1.rg (f := env.fn x) (by rw [hfn]; exact hrg.fn x hx hkf')
        exact ⟨k1.trans k3, hm.le k3.le⟩
      · exact ⟨k1, hm⟩
    split
    · exact k2.1
    · exact k2.1.push k2.2 _

theorem ok2_setRef {w : WS σ} (h : Rg P w) {node a : Nat} (ha : a < P.base.n) : Ok2 P pip w { w with ref := upd w.ref node (some a) } := by
  refine Ok2.still h rfl rfl ⟨h.rng.edges, h.rng.stores, h.rng.loads, h.rng.calls, h.rng.queue, ?_⟩ h.newP
  intro i c hc
  change upd w.ref node (some a) i = some c at hc
  by_cases hi : i = node
  · subst hi; rw [upd_same] at hc; cases hc; show a < w.set.n; rw [h.n]; exact ha
  · rw [upd_ne _ _ hi] at hc; exact h.rng.ref i c hc

theorem ok2_hybrid (hen : EnOk env) {w : WS σ} (h : Rg P w) {node : Nat} {np : List Nat} (hnp : ∀ x ∈ np, x < P.base.n) : Ok2 P pip w (w.hybrid env node np).2 := by
  unfold WS.hybrid
  cases ha : w.ref node with
  | none => exact Ok2.refl h
  | some a =>
    simp only []
    have han : a < P.base.n := by rw [← h.n]; exact h.rng.ref node a ha
    have k1 := ok2_setRef (pip := pip) h (node := node) (h.root han)
    have k2 := foldl_mw (Q := fun acc : (Nat × Bool) × WS σ => Ok2 P pip w acc.2 ∧ acc.1.1 < P.base.n ∧ acc.2.set.root acc.1.1 = acc.1.1 ∧ (acc.1.2 = true → MLt pip P.base.n w.set acc.2.set))
      (f := WS.hybridStep node) (env.en { w with ref := upd w.ref node (some (w.set.root a)) } np)
      (b := ((w.set.root a, false), { w with ref := upd w.ref node (some (w.set.root a)) })) ⟨k1, h.root han, h.ok.wf.idem a, by simp⟩ (by
        rintro x hx ⟨⟨c, b⟩, v⟩ ⟨g1, g2, g3, g4⟩
        have hxn := hnp x ((hen _ np x).1 hx)
        unfold WS.hybridStep
        split
        · exact ⟨g1, g2, g3, g4⟩
        · rename_i hne
          simp only [] at g1 g2 g3 g4 hne ⊢
          have hidem := g1.rg.ok.wf.idem
          have u := ok2_unify (pip := pip) (hcd := true) g1.rg g2 (g1.rg.root hxn)
          have hr : v.set.root c ≠ v.set.root (v.set.root x) := by rw [g3, hidem]; exact Ne.symm hne
          have hm := u.2.2 hr
          obtain ⟨non, ue, hp, _⟩ := unify_ueff (hcd := true) hidem hr
          have hlt : (v.unify true c (v.set.root x)).1 < P.base.n := by
            rcases hp with ⟨e, _⟩ | ⟨e, _⟩
            · rw [e]; exact g1.rg.root g2
            · rw [e]; exact g1.rg.root (g1.rg.root hxn)
          have k := ok2_setRef (pip := pip) u.1.rg (node := node) hlt
          exact ⟨(g1.trans u.1).trans k, hlt, ue.rootR, fun _ => g1.le.lt hm⟩)
    obtain ⟨k2, _, _, k3⟩ := k2
    split
    · rename_i hc; exact k2.push (k3 hc) _
    · exact k2

theorem ok2_pipMark {w : WS σ} (h : Rg P w) {node : Nat} (hn : node < P.base.n) : Ok2 P pip w (w.pipMark env node) := by
  unfold WS.pipMark
  split
  · rename_i hc
    simp only [Bool.and_eq_true, Bool.not_eq_true'] at hc
    have hs : w.set.setPE node = (w.set.markPE node).2 := by unfold RSet.markPE; rw [hc.1.2]; rfl
    rw [hs]
    exact ⟨h.set (markPE_eff _ _).same (h.ok.step (.markPE node) (by show node < w.set.n; rw [h.n]; exact hn)) _ h.newP w.wl w.tracked w.xSeen w.peSeen, MLe.markPE _ _, .inl fun _ h => h⟩
  · exact Ok2.refl h

theorem ok2_removeAll {w : WS σ} (h : Rg P w) {node : Nat} (hn : node < P.base.n) (h1 : pip = true) (h2 : w.set.pte node = true) (h3 : w.set.pe node = true) :
    Ok2 P pip w (w.removeAll node) := by
  refine ⟨h.set (s := w.set.removeAll node) ⟨rfl, rfl, fun _ => rfl, fun _ => rfl, fun _ => rfl⟩ (h.ok.step (.removeAll node) (by show node < w.set.n; rw [h.n]; exact hn)) _ ?_ w.wl _ w.xSeen w.peSeen, ?_, .inl fun _ h => h⟩
  · intro m x hx
    by_cases hm : m = node
    · subst hm; rw [upd_same] at hx; cases hx
    · rw [upd_ne _ _ hm] at hx; exact h.newP m x hx
  · refine MLe.mk' (fun _ h => h) (fun _ h => h) (fun _ h => h) (fun _ h => h) ?_
    intro i x hx
    by_cases hi : w.set.root i = w.set.root node
    · right
      exact ⟨h1, (pe_congr w.set hi).trans h3, (pte_congr w.set hi).trans h2⟩
    · left
      show x ∈ upd w.set.pts (w.set.root node) [] (w.set.root i)
      rw [upd_ne _ _ hi]; exact hx

theorem ok2_eraseEdge {w : WS σ} (h : Rg P w) (node s : Nat) : Ok2 P pip w (w.eraseEdge node s) := by
  refine Ok2.still h rfl rfl ⟨?_, h.rng.stores, h.rng.loads, h.rng.calls, h.rng.queue, h.rng.ref⟩ h.newP
  intro m t ht
  change t ∈ upd w.edges node ((w.edges node).filter (· ≠ s)) m at ht
  by_cases hm : m = node
  · subst hm; rw [upd_same] at ht; exact h.rng.edges m t (List.mem_filter.1 ht).1
  · rw [upd_ne _ _ hm] at ht; exact h.rng.edges m t ht

theorem ok2_addPointee {dp : Bool} {w : WS σ} (h : Rg P w) {r x : Nat} (hr : r < P.base.n) (hx : x < P.base.n ∧ P.base.kind x ≠ .register)
    (hp : ¬ (pip = true ∧ w.set.pte r = true ∧ w.set.pe r = true)) :
    Ok2 P pip w (w.addPointee dp r x).2 ∧ (w.addPointee dp r x).2.set.root = w.set.root ∧ (∀ i, (w.addPointee dp r x).2.set.pe i = w.set.pe i) ∧
    (∀ i, (w.addPointee dp r x).2.set.pte i = w.set.pte i) ∧ ((w.addPointee dp r x).1 = true → MLt pip P.base.n w.set (w.addPointee dp r x).2.set) := by
  have g := addPointee_eff w.set r x
  refine ⟨⟨h.set g.same (h.ok.step (.addPointee r x) ⟨by show r < w.set.n; rw [h.n]; exact hr, by show x < w.set.n; rw [h.n]; exact hx.1, by show (w.set.obj x).kind ≠ _; rw [h.kind]; exact hx.2⟩) _ ?_ w.wl w.tracked w.xSeen w.peSeen,
    MLe.addPts g, .inl fun _ h => h⟩, g.same.root, g.pe, fun _ => rfl, ?_⟩
  · intro m y hy
    split at hy
    · by_cases hm : m = r
      · subst hm
        rw [upd_same, mem_ins] at hy
        rcases hy with hy | rfl
        · exact h.newP m y hy
        · exact hx
      · rw [upd_ne _ _ hm] at hy; exact h.newP m y hy
    · exact h.newP m y hy
  · intro hc
    have : (w.set.addPointee r x).1 = true := by
      revert hc
      unfold WS.addPointee
      simp only []
      split
      · rename_i hh; intro _; simp only [Bool.and_eq_true] at hh; exact hh.1.2
      · exact id
    simp only [RSet.addPointee, Bool.not_eq_true', ← Bool.not_eq_true, List.contains_iff_mem] at this
    exact MLt.addPts g hr hx.1 rfl this hp

theorem ok2_propagate (hen : EnOk env) {w : WS σ} (h : Rg P w) {sp : Nat} {np : List Nat} {newX : Bool} (hr : sp < P.base.n)
    (hnp : ∀ x ∈ np, x < P.base.n ∧ P.base.kind x ≠ .register) (hp : ¬ (pip = true ∧ w.set.pte sp = true ∧ w.set.pe sp = true)) :
    Ok2 P pip w (w.propagate env sp np newX).2 ∧ (w.propagate env sp np newX).2.set.root = w.set.root ∧ (∀ i, (w.propagate env sp np newX).2.set.pe i = w.set.pe i) := by
  unfold WS.propagate
  simp only []
  have h1 := foldl_mw (Q := fun acc : Bool × WS σ => Ok2 P pip w acc.2 ∧ acc.2.set.root = w.set.root ∧ (∀ i, acc.2.set.pe i = w.set.pe i) ∧ (∀ i, acc.2.set.pte i = w.set.pte i) ∧
      (acc.1 = true → MLt pip P.base.n w.set acc.2.set)) (env.en w np) (b := (false, w))
    (f := fun (acc : Bool × WS σ) x => let q := acc.2.addPointee env.opts.dp sp x; (acc.1 || q.1, q.2)) ⟨Ok2.refl h, rfl, fun _ => rfl, fun _ => rfl, by simp⟩ (by
      rintro x hx ⟨b, v⟩ ⟨g1, g2, g3, g4, g5⟩
      have hxn := hnp x ((hen w np x).1 hx)
      have k := ok2_addPointee (pip := pip) (dp := env.opts.dp) g1.rg hr hxn (by simp only [] at g3 g4 ⊢; rw [g3, g4]; exact hp)
      refine ⟨g1.trans k.1, k.2.1.trans g2, fun i => (k.2.2.1 i).trans (g3 i), fun i => (k.2.2.2.1 i).trans (g4 i), ?_⟩
      intro hb
      simp only [Bool.or_eq_true] at hb
      rcases hb with hb | hb
      · exact (g5 hb).le k.1.le
      · exact g1.le.lt (k.2.2.2.2 hb))
  generalize List.foldl _ (false, w) (env.en w np) = p at h1
  obtain ⟨b, v⟩ := p
  obtain ⟨g1, g2, g3, g4, g5⟩ := h1
  cases newX with
  | false =>
    simp only [Bool.false_eq_true, if_false]
    cases b with
    | false => exact ⟨g1, g2, g3⟩
    | true => exact ⟨g1.push (g5 rfl) _, g2, g3⟩
  | true =>
    simp only [if_true]
    have k : Ok2 P pip v { v with set := (v.set.markPTE sp).2 } :=
      ⟨g1.rg.set (markPTE_eff _ _).same (g1.rg.ok.step (.markPTE sp) (by show sp < v.set.n; rw [g1.rg.n]; exact hr)) _ g1.rg.newP v.wl v.tracked v.xSeen v.peSeen, MLe.markPTE _ _, .inl fun _ h => h⟩
    have hroot : (v.set.markPTE sp).2.root = w.set.root := (markPTE_root _ _).trans g2
    have hpe : ∀ i, (v.set.markPTE sp).2.pe i = w.set.pe i := fun i => ((markPTE_eff v.set sp).pe i).trans (g3 i)
    split
    · rename_i hc
      refine ⟨(g1.trans k).push ?_ _, hroot, hpe⟩
      simp only [Bool.or_eq_true] at hc
      rcases hc with hc | hc
      · exact (g5 hc).le k.le
      · exact g1.le.lt (MLt.markPTE hr hc)
    · exact ⟨g1.trans k, hroot, hpe⟩

theorem ok2_edgeLoop (hd : DetOk env) (hen : EnOk env) {node : Nat} {np : List Nat} {newX pes : Bool} (hn : node < P.base.n)
    (hnp : ∀ x ∈ np, x < P.base.n ∧ P.base.kind x ≠ .register) :
    ∀ (l : List Nat) {w : WS σ}, Rg P w → w.set.root node = node → (∀ s ∈ l, s < P.base.n) →
    (env.opts.pip = true → pes = false → ∀ s ∈ l, w.set.pe s = false) →
    Ok2 P env.opts.pip w (edgeLoop env node np newX pes l w).2 := by
  intro l
  induction l with
  | nil => intro w h _ _ _; exact Ok2.refl h
  | cons s l ih =>
    intro w h hr hl hpl
    unfold WS.edgeLoop
    simp only []
    have hl' := fun t (ht : t ∈ l) => hl t (List.mem_cons_of_mem s ht)
    have hpl' := fun h1 h2 t (ht : t ∈ l) => hpl h1 h2 t (List.mem_cons_of_mem s ht)
    split
    · have k := ok2_eraseEdge (pip := env.opts.pip) h node s
      exact k.trans (ih k.rg hr hl' hpl')
    · rename_i hne
      split
      · have k := ok2_eraseEdge (pip := env.opts.pip) h node s
        exact k.trans (ih k.rg hr hl' hpl')
      · rename_i hc
        have hs := h.root (hl s (by simp))
        have hidem := h.ok.wf.idem s
        obtain ⟨k1, k2, k3⟩ := ok2_propagate (pip := env.opts.pip) hen h (sp := w.set.root s) (np := np) (newX := newX) hs hnp (by
          rintro ⟨h1, h2, h3⟩
          cases hp : pes with
          | true => exact hc (by simp [h1, h2, hp])
          | false =>
            have := hpl h1 hp s (by simp)
            rw [← pe_congr w.set hidem, h3] at this
            cases this)
        generalize w.propagate env (w.set.root s) np newX = p at *
        by_cases hcc : (env.opts.lcd && !np.isEmpty && !p.1) = true
        · rw [if_pos hcc]
          have kd := ok2_detect (pip := env.opts.pip) hd k1.rg hn hs (by rw [k2]; exact hr) (by rw [k2]; exact hidem) (Ne.symm hne)
          split
          · exact k1.trans kd
          · rename_i hf
            obtain ⟨d, e⟩ := detect_false (by simpa using hf)
            refine (k1.trans kd).trans (ih kd.rg ?_ hl' ?_)
            · rw [e]; show p.2.set.root node = node; rw [k2]; exact hr
            · intro h1 h2 t ht
              rw [e]; show p.2.set.pe t = false; rw [k3]; exact hpl' h1 h2 t ht
        · rw [if_neg hcc]
          simp only [Bool.false_eq_true, if_false]
          refine k1.trans (ih k1.rg (by rw [k2]; exact hr) hl' ?_)
          intro h1 h2 t ht
          rw [k3]; exact hpl' h1 h2 t ht

theorem ok2_settle {w : WS σ} (h : Rg P w) (node : Nat) (a b : Bool) : Ok2 P pip w (w.settle node a b) := by
  refine Ok2.still h rfl rfl ⟨h.rng.edges, h.rng.stores, h.rng.loads, h.rng.calls, h.rng.queue, h.rng.ref⟩ ?_
  intro m x hx
  change x ∈ upd w.newP node [] m at hx
  by_cases hm : m = node
  · subst hm; rw [upd_same] at hx; cases hx
  · rw [upd_ne _ _ hm] at hx; exact h.newP m x hx

theorem ok2_handleRest (hd : DetOk env) (hen : EnOk env) (hfn : env.fn = P.fn) (hrg : P.InRange) {w : WS σ} (h : Rg P w) {node : Nat} {np : List Nat} {newX : Bool}
    (hr : w.set.root node = node) (hn : node < P.base.n) (hnp : ∀ x ∈ np, x < P.base.n ∧ P.base.kind x ≠ .register) : Ok2 P env.opts.pip w (w.handleRest env node np newX) := by
  unfold WS.handleRest
  simp only []
  have k1 := ok2_pipMark (pip := env.opts.pip) (env := env) h hn
  have r1 : (w.pipMark env node).set.root node = node := by
    unfold WS.pipMark; split <;> exact hr
  have hpip : env.opts.pip = true → (w.pipMark env node).set.pe node = false → ∀ s ∈ (w.pipMark env node).edges node, (w.pipMark env node).set.pe s = false := by
    intro hp
    unfold WS.pipMark
    split
    · rename_i hc
      intro hf
      exfalso
      have : (w.set.setPE node).pe node = true := by
        unfold RSet.pe RSet.setPE; simp [upd_same]
      rw [this] at hf; cases hf
    · rename_i hc
      intro hf s hs
      cases hps : w.set.pe s with
      | false => rfl
      | true =>
        exfalso
        apply hc
        simp only [hp, hf, Bool.not_false, Bool.and_self, Bool.true_and, List.any_eq_true]
        exact ⟨s, hs, hps⟩
  generalize w.pipMark env node = w1 at *
  generalize (if env.opts.dp = true then w1.set.pe node && !w1.peSeen node else w1.set.pe node) = newPE
  have h2 : ∃ w2, (if w1.set.pe node = true then List.foldl (fun w x => w.escapePointee env x) w1 (env.en w1 (if newPE = true then w1.set.pointees node else np)) else w1) = w2 ∧
      Ok2 P env.opts.pip w w2 ∧ w2.set.root node = node ∧ (w1.set.pe node = false → w2 = w1) := by
    refine ⟨_, rfl, ?_⟩
    split
    · rename_i hpe
      have := foldl_ok2 (pip := env.opts.pip) (Q := fun v : WS σ => v.set.root = w1.set.root) (f := fun w x => w.escapePointee env x)
        (env.en w1 (if newPE = true then w1.set.pointees node else np)) k1.rg rfl (by
          intro x hx v hv hvr
          have hx := (hen w1 _ x).1 hx
          have hx' : x < P.base.n ∧ P.base.kind x ≠ .register := by
            split at hx
            · exact k1.rg.ptsLt hx
            · exact hnp x hx
          exact ⟨ok2_escapePointee hfn hrg hv hx'.1 hx'.2, by rw [escapePointee_root]; exact hvr⟩)
      exact ⟨k1.trans this.1, by rw [this.2]; exact r1, fun hh => by rw [hpe] at hh; cases hh⟩
    · exact ⟨k1, r1, fun _ => rfl⟩
  obtain ⟨w2, e2, k2, r2, hw2⟩ := h2
  rw [e2]
  generalize hrem : (env.opts.pip && w2.set.pte node && w2.set.pe node) = rem
  have h3 : Ok2 P env.opts.pip w (if rem = true then w2.removeAll node else w2) ∧ (if rem = true then w2.removeAll node else w2).set.root node = node ∧
      (if rem = true then w2.removeAll node else w2).edges = w2.edges ∧ (∀ i, (if rem = true then w2.removeAll node else w2).set.pe i = w2.set.pe i) := by
    split
    · rename_i hh
      rw [hh] at hrem
      simp only [Bool.and_eq_true] at hrem
      exact ⟨k2.trans (ok2_removeAll k2.rg hn hrem.1.1 hrem.1.2 hrem.2), r2, rfl, fun _ => rfl⟩
    · exact ⟨k2, r2, rfl, fun _ => rfl⟩
  generalize (if rem = true then w2.removeAll node else w2) = w3 at h3
  obtain ⟨k3, r3, e3, p3⟩ := h3
  have hnp3 : ∀ x ∈ (if rem = true then [] else np), x < P.base.n ∧ P.base.kind x ≠ .register := by
    intro x hx
    split at hx
    · cases hx
    · exact hnp x hx
  generalize (if rem = true then [] else np) = np3 at hnp3
  have k4 := k3.trans (ok2_edgeLoop hd hen (newX := newX) (pes := w1.set.pe node) hn hnp3 (env.en w3 (w3.edges node)) k3.rg r3
    (fun s hs => by rw [← k3.rg.n]; exact k3.rg.rng.edges node s ((hen _ _ s).1 hs)) (by
      intro h1 h2 s hs
      have hs := (hen _ _ s).1 hs
      rw [e3, hw2 h2] at hs
      rw [p3, hw2 h2]
      exact hpip h1 h2 s hs))
  generalize WS.edgeLoop env node np3 newX (w1.set.pe node) (env.en w3 (w3.edges node)) w3 = e at k4
  split
  · exact k4
  · have k5 : Ok2 P env.opts.pip w (e.2.storeLoop env node np3 newX) := by
      unfold WS.storeLoop
      refine k4.trans (foldl_ok2' _ k4.rg ?_)
      intro v hv w' hw'
      have hh := k4.rg.rng.stores node v ((hen _ _ v).1 hv)
      rw [k4.rg.n] at hh
      simp only []
      have hw2 := foldl_ok2' (pip := env.opts.pip) (f := fun w x => WS.queueEdge x v w) (env.en w' np3) hw' (fun x hx w'' hw'' => ok2_queueEdge hw'' (hnp3 x ((hen _ _ x).1 hx)).1 hh)
      split
      · exact hw2.trans (ok2_markPE hw2.rg hh)
      · exact hw2
    generalize e.2.storeLoop env node np3 newX = w5 at k5
    have k6 : Ok2 P env.opts.pip w (w5.ssLoop env node np3) := by
      unfold WS.ssLoop
      split
      · exact k5.trans (foldl_ok2' _ k5.rg (fun x hx w' hw' => ok2_markPTE hw' (hnp3 x ((hen _ _ x).1 hx)).1))
      · exact k5
    generalize w5.ssLoop env node np3 = w6 at k6
    have k7 : Ok2 P env.opts.pip w (w6.loadLoop env node np3 newX) := by
      unfold WS.loadLoop
      refine k6.trans (foldl_ok2' _ k6.rg ?_)
      intro v hv w' hw'
      have hh := k6.rg.rng.loads node v ((hen _ _ v).1 hv)
      rw [k6.rg.n] at hh
      simp only []
      have hw2 := foldl_ok2' (pip := env.opts.pip) (f := fun w x => WS.queueEdge v x w) (env.en w' np3) hw' (fun x hx w'' hw'' => ok2_queueEdge hw'' hh (hnp3 x ((hen _ _ x).1 hx)).1)
      split
      · exact hw2.trans (ok2_markPTE hw2.rg hh)
      · exact hw2
    generalize w6.loadLoop env node np3 newX = w7 at k7
    have k8 : Ok2 P env.opts.pip w (w7.lsLoop env node np3) := by
      unfold WS.lsLoop
      split
      · exact k7.trans (foldl_ok2' _ k7.rg (fun x hx w' hw' => ok2_markPE hw' (hnp3 x ((hen _ _ x).1 hx)).1))
      · exact k7
    generalize w7.lsLoop env node np3 = w8 at k8
    have k9 : Ok2 P env.opts.pip w (w8.callLoop env node np3 newX) := by
      unfold WS.callLoop
      refine k8.trans (foldl_ok2' _ k8.rg ?_)
      intro c hv w' hw'
      have hh := k8.rg.rng.calls node c ((hen _ _ c).1 hv)
      rw [k8.rg.n] at hh
      simp only []
      have hw2 := foldl_ok2' (pip := env.opts.pip) (f := fun w x => WS.callTarget env c x w) (env.en w' np3) hw' (fun x hx w'' hw'' => ok2_callTarget hfn hrg hw'' hh (hnp3 x ((hen _ _ x).1 hx)).1)
      split
      · exact hw2.trans (ok2_callExternal hw2.rg hh)
      · exact hw2
    have k10 := k9.trans (ok2_settle k9.rg node newX newPE)
    exact k10.trans (ok2_flush hd hen k10.rg)

theorem ok2_handle (hd : DetOk env) (hen : EnOk env) (hfn : env.fn = P.fn) (hrg : P.InRange) {w : WS σ} (h : Rg P w) {node : Nat} (hn : node < P.base.n)
    (hi : w.Inv P (· = node) none none2) (hq : w.queue = []) : Ok2 P env.opts.pip w (w.handle env node) := by
  unfold WS.handle
  split
  · exact Ok2.refl h
  · rename_i hr
    rw [not_not] at hr
    simp only []
    have hnp : ∀ x ∈ w.newPointees env node, x < P.base.n ∧ P.base.kind x ≠ .register := by
      intro x hx
      unfold WS.newPointees at hx
      split at hx
      · exact h.newP node x hx
      · exact h.ptsLt hx
    generalize (if env.opts.dp = true then w.set.pte node && !w.xSeen node else w.set.pte node) = newX
    generalize w.newPointees env node = np at *
    by_cases hh : env.opts.hcd = true
    · rw [if_pos hh]
      have k1 := ok2_hybrid (pip := env.opts.pip) hen h (node := node) (np := np) (fun x hx => (hnp x hx).1)
      split
      · exact k1
      · rename_i hf
        refine k1.trans (ok2_handleRest hd hen hfn hrg k1.rg ?_ hn hnp)
        rcases hybrid_inv hen hi hr hq (fun x hx => by rw [hi.n]; exact (hnp x hx).1) with ⟨e1, _⟩ | ⟨_, _, _, _, e⟩
        · exact absurd e1 hf
        · exact e.rt
    · rw [if_neg hh]
      simp only [Bool.false_eq_true, if_false]
      exact ok2_handleRest hd hen hfn hrg h hr hn hnp

/-- the facts that can still be added, and the length of the worklist -/
def todo (pip : Bool) (n : Nat) (w : WS σ) : Nat := (Ft.all n).countP (w.set.miss pip)
def pending (n : Nat) (w : WS σ) : Nat := (List.range n).countP w.wl

/-- how many steps are left at most -/
def fuel (pip : Bool) (n : Nat) (w : WS σ) : Nat := todo pip n w * (n + 1) + pending n w

theorem pending_le (n : Nat) (w : WS σ) : pending n w ≤ n := by
  have := List.countP_le_length (p := w.wl) (l := List.range n)
  rw [List.length_range] at this; exact this

theorem todo_le {n : Nat} {w w' : WS σ} (h : MLe pip w.set w'.set) : todo pip n w' ≤ todo pip n w := countP_le_of_imp _ (fun f _ hf => h f hf)

theorem todo_lt {n : Nat} {w w' : WS σ} (h : MLe pip w.set w'.set) (g : MLt pip n w.set w'.set) : todo pip n w' < todo pip n w := by
  obtain ⟨f, h1, h2, h3⟩ := g
  exact countP_lt_of_imp _ (fun f _ hf => h f hf) ⟨f, h1, h3, h2⟩

theorem fuel_lt {n : Nat} {w w' : WS σ} (h : MLe pip w.set w'.set) (g : MLt pip n w.set w'.set) : fuel pip n w' < fuel pip n w := by
  unfold fuel
  have h1 := todo_lt h g
  have h2 := pending_le n w'
  have h3 : (todo pip n w' + 1) * (n + 1) ≤ todo pip n w * (n + 1) := Nat.mul_le_mul_right _ h1
  rw [Nat.add_mul, Nat.one_mul] at h3
  omega

theorem trans_fuel (hd : DetOk env) (hen : EnOk env) (hfn : env.fn = P.fn) (hrg : P.InRange) {w w' : WS σ} {c : Nat} (h : Rg P w)
    (hi : w.Inv P none2 none none2) (hq : w.queue = []) (t : Trans env c w w') :
    Rg P w' ∧ fuel env.opts.pip P.base.n w' + c ≤ fuel env.opts.pip P.base.n w := by
  cases t with
  | pop i hw =>
    have hin : i < P.base.n := by rw [← h.n]; exact hi.wlLt i hw
    have h0 : Rg P { w with wl := upd w.wl i false } := ⟨h.ok, h.n, h.kind, h.newP, ⟨h.rng.edges, h.rng.stores, h.rng.loads, h.rng.calls, h.rng.queue, h.rng.ref⟩⟩
    have k := ok2_handle hd hen hfn hrg h0 hin (hi.pop hw) hq
    refine ⟨k.rg, ?_⟩
    rcases k.quiet with hw' | hs
    · unfold fuel
      have h1 : todo env.opts.pip P.base.n (handle env i { w with wl := upd w.wl i false }) ≤ todo env.opts.pip P.base.n w := todo_le (w := w) k.le
      have h2 : pending P.base.n (handle env i { w with wl := upd w.wl i false }) < pending P.base.n w := by
        refine countP_lt_of_imp _ ?_ ⟨i, List.mem_range.2 hin, ?_, hw⟩
        · intro m _ hm
          have hm := hw' m hm
          change upd w.wl i false m = true at hm
          by_cases hmi : m = i
          · subst hmi; exact hw
          · rw [upd_ne _ _ hmi] at hm; exact hm
        · refine Bool.eq_false_iff.2 fun hm => ?_
          have hm := hw' i hm
          change upd w.wl i false i = true at hm
          rw [upd_same] at hm; cases hm
      have h3 := Nat.mul_le_mul_right (P.base.n + 1) h1
      omega
    · exact fuel_lt (w := w) k.le hs
  | sweep scc hs =>
    exact ⟨⟨h.ok, h.n, h.kind, h.newP, ⟨h.rng.edges, h.rng.stores, h.rng.loads, h.rng.calls, h.rng.queue, h.rng.ref⟩⟩, Nat.le_refl _⟩
  | sweepUnify a b ha hb ra rb hne hs =>
    rw [h.n] at ha hb
    have k := ok2_unify (pip := env.opts.pip) (hcd := env.opts.hcd) h ha hb
    have hl := k.2.2 (by rw [ra, rb]; exact hne)
    refine ⟨⟨k.1.rg.ok, k.1.rg.n, k.1.rg.kind, k.1.rg.newP, ⟨k.1.rg.rng.edges, k.1.rg.rng.stores, k.1.rg.rng.loads, k.1.rg.rng.calls, k.1.rg.rng.queue, k.1.rg.rng.ref⟩⟩, ?_⟩
    exact fuel_lt (w := w) (w' := sweepUnifyStep env a b w) k.1.le hl

theorem init_rg (hfn : env.fn = P.fn) (hrg : P.InRange) {s : RSet} (hs : SetOk s) (hbase : s.abs = P.base) {fns : List Nat} (hfns : FnsOk P fns)
    {ref : Nat → Option Nat} (href : ∀ i a, ref i = some a → a < P.base.n) {d : σ} {u : List (Nat × Nat)} (hu : ∀ p ∈ u, p.1 < P.base.n ∧ p.2 < P.base.n) :
    Rg P (init env P.cs fns ref d u s) := by
  have hi := (init_inv (env := env) hfn hrg hs hbase hfns href (d := d) hu).1
  refine ⟨hi.ok, hi.n, hi.kind, ?_, hi.rng⟩
  -- nothing is new before the first item is handled
  have h0 : ∀ m, (graph (σ := σ) P.cs ref d s).newP m = [] := by
    unfold graph
    refine foldl_mw (Q := fun w : WS σ => ∀ m, w.newP m = []) P.cs (fun _ => rfl) ?_
    intro c _ w hw
    cases c with
    | superset a b => unfold WS.addConstraint; dsimp only; split <;> exact hw
    | store p v => exact hw
    | load v p => exact hw
    | call p c => exact hw
  have h1 : ∀ m, ((graph (σ := σ) P.cs ref d s).unifyAll env.opts.hcd u).newP m = [] := by
    refine foldl_mw (Q := fun w : WS σ => ∀ m, w.newP m = []) u h0 ?_
    intro p _ w hw m
    unfold WS.unify
    dsimp only
    split
    · exact hw m
    · show upd (upd w.newP _ []) _ [] m = []
      have e : ∀ a b : Nat, upd (upd w.newP a []) b [] m = [] := by
        intro a b
        by_cases h1 : m = b
        · subst h1; rw [upd_same]
        · rw [upd_ne _ _ h1]
          by_cases h2 : m = a
          · subst h2; rw [upd_same]
          · rw [upd_ne _ _ h2]; exact hw m
      exact e _ _
  intro m x hx
  rw [show (init env P.cs fns ref d u s).newP m = [] from h1 m] at hx
  cases hx

/-- everything that holds in the states of an execution -/
theorem run_inv (hd : DetOk env) (hen : EnOk env) (hfn : env.fn = P.fn) (hrg : P.InRange) {w0 : WS σ} (h0 : w0.Inv P none2 none none2) (q0 : w0.queue = []) (r0 : Rg P w0)
    {k : Nat} {w : WS σ} (t : Run env w0 k w) :
    w.Inv P none2 none none2 ∧ w.queue = [] ∧ Rg P w ∧ fuel env.opts.pip P.base.n w + k ≤ fuel env.opts.pip P.base.n w0 ∧
    ∀ L, Sat P L → MW P L env.opts.hcd w0 → MW P L env.opts.hcd w := by
  induction t with
  | start => exact ⟨h0, q0, r0, Nat.le_refl _, fun _ _ h => h⟩
  | step _ t ih =>
    obtain ⟨i1, i2, i3, i4, i5⟩ := ih
    have a := trans_inv hd hen hfn hrg t i1 i2
    have b := trans_fuel hd hen hfn hrg i3 i1 i2 t
    exact ⟨a.1, a.2, b.1, by omega, fun L hL h => (i5 L hL h).trans hL hd hen hfn i1 i2 t⟩

theorem fuel_init (n : Nat) (w : WS σ) : fuel pip n w ≤ (n * n + 4 * n) * (n + 1) + n := by
  have h1 := List.countP_le_length (p := w.set.miss pip) (l := Ft.all n)
  rw [Ft.length_all] at h1
  exact Nat.add_le_add (Nat.mul_le_mul_right _ h1) (pending_le n w)

end WS
end Jlm.Llvm.Aa
