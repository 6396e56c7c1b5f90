import Verif.Aa.WorklistInv
/-
The steps of the worklist solver that do not unify keep the invariant.
-/
set_option linter.unusedSimpArgs false
set_option linter.unusedVariables false
set_option linter.unnecessarySeqFocus false
namespace Jlm.Llvm.Aa
namespace WS
variable {σ : Type}

/-- nothing about `m` has changed -/
structure Same (w w' : WS σ) (m : Nat) : Prop where
  pts : w'.set.pts m = w.set.pts m
  newP : w'.newP m = w.newP m
  tracked : w'.tracked m = w.tracked m
  pte : w'.set.pte m = w.set.pte m
  pe : w'.set.pe m = w.set.pe m

theorem Same.refl (w : WS σ) (m : Nat) : Same w w m := ⟨rfl, rfl, rfl, rfl, rfl⟩

theorem Same.trans {u v w : WS σ} {m : Nat} (h : Same u v m) (g : Same v w m) : Same u w m :=
  ⟨g.pts.trans h.pts, g.newP.trans h.newP, g.tracked.trans h.tracked, g.pte.trans h.pte, g.pe.trans h.pe⟩

/-- growth where only `r` changes, and it does so only if `b` -/
structure Chg (nd : Nat → Prop) (r : Nat) (b : Bool) (w w' : WS σ) : Prop extends Grow w w' where
  wl : w'.wl = w.wl
  ref : w'.ref = w.ref
  queue_eq : w'.queue = w.queue
  edges_eq : w'.edges = w.edges
  other : ∀ m, w.set.root m = m → m ≠ r → Same w w' m
  flag : b = false → Same w w' r
  pts : ∀ m, nd m → w'.set.pts m = w.set.pts m
  esc_eq : ∀ i, w'.set.escaped i = w.set.escaped i
  newOk : (∀ m, w.set.root m = m → ∀ x ∈ w.newP m, x ∈ w.set.pts m) →
    ∀ m, w.set.root m = m → ∀ x ∈ w'.newP m, x ∈ w'.set.pts m

theorem Chg.refl (nd : Nat → Prop) (r : Nat) (w : WS σ) : Chg nd r false w w :=
  { Grow.refl w with wl := rfl, ref := rfl, queue_eq := rfl, edges_eq := rfl, other := fun m _ _ => Same.refl w m, flag := fun _ => Same.refl w r, pts := fun _ _ => rfl, esc_eq := fun _ => rfl, newOk := fun h => h }

theorem Chg.trans {nd : Nat → Prop} {r : Nat} {b c : Bool} {u v w : WS σ} (h : Chg nd r b u v) (g : Chg nd r c v w) :
    Chg nd r (b || c) u w :=
  { h.toGrow.trans g.toGrow with
    wl := g.wl.trans h.wl, ref := g.ref.trans h.ref, queue_eq := g.queue_eq.trans h.queue_eq, edges_eq := g.edges_eq.trans h.edges_eq,
    other := fun m hm hr => (h.other m hm hr).trans (g.other m (by rw [h.same.root]; exact hm) hr),
    flag := fun hb => by
      rw [Bool.or_eq_false_iff] at hb
      exact (h.flag hb.1).trans (g.flag hb.2),
    pts := fun m hm => (g.pts m hm).trans (h.pts m hm),
    esc_eq := fun i => (g.esc_eq i).trans (h.esc_eq i),
    newOk := fun hn => by
      have := g.newOk (by rw [h.same.root]; exact h.newOk hn)
      rw [h.same.root] at this; exact this }

theorem Chg.weaken {nd : Nat → Prop} {r : Nat} {b : Bool} {w w' : WS σ} (h : Chg nd r b w w') (c : Bool) (hc : b = true → c = true) :
    Chg nd r c w w' :=
  { h with flag := fun hf => h.flag (by cases b with | false => rfl | true => rw [hc rfl] at hf; exact hf) }

/-- growth where everything that changes is put on the worklist -/
structure Tame (nd : Nat → Prop) (w w' : WS σ) : Prop extends Grow w w' where
  wl : ∀ m, w.wl m = true → w'.wl m = true
  ref : w'.ref = w.ref
  quiet : ∀ m, w.set.root m = m → w'.wl m = true ∨ Same w w' m
  pts : ∀ m, nd m → w'.set.pts m = w.set.pts m

theorem Tame.refl (nd : Nat → Prop) (w : WS σ) : Tame nd w w :=
  { Grow.refl w with wl := fun _ h => h, ref := rfl, quiet := fun m _ => .inr (Same.refl w m), pts := fun _ _ => rfl }

theorem Tame.trans {nd : Nat → Prop} {u v w : WS σ} (h : Tame nd u v) (g : Tame nd v w) : Tame nd u w :=
  { h.toGrow.trans g.toGrow with
    wl := fun m hm => g.wl m (h.wl m hm), ref := g.ref.trans h.ref,
    quiet := fun m hm => by
      rcases g.quiet m (by rw [h.same.root]; exact hm) with g1 | g1
      · exact .inl g1
      · rcases h.quiet m hm with h1 | h1
        · exact .inl (g.wl m h1)
        · exact .inr (h1.trans g1)
    pts := fun m hm => (g.pts m hm).trans (h.pts m hm) }

theorem AllSeen.same {w w' : WS σ} {m : Nat} (h : w.AllSeen m) (g : Grow w w') (s : Same w w' m) : w'.AllSeen m := by
  refine ⟨?_, ?_, ?_⟩
  · intro x hx
    rw [s.pts] at hx
    have := h.pts x hx
    exact ⟨by rw [s.tracked]; exact this.1, by rw [s.pts]; exact hx, by rw [s.newP]; exact this.2.2⟩
  · rw [s.pte, g.xSeen]; exact h.pte
  · rw [s.pe, g.peSeen]; exact h.pe

variable {P : Problem} {ex : Nat → Prop} {e : Option (Nat × Nat)} {exf : Nat → Prop} {nd : Nat → Prop}

theorem Inv.chg {w w' : WS σ} {r : Nat} {b : Bool} (h : w.Inv P ex e exf) (c : Chg nd r b w w') (hok : SetOk w'.set) :
    w'.Inv P (fun m => ex m ∨ (b = true ∧ m = r)) e exf := by
  refine h.grow c.toGrow hok (by rw [c.queue_eq]; exact h.rng.queue) c.ref (c.newOk h.newP) (by rw [c.wl]; exact h.wlLt) ?_ ?_
  · intro m hm hr hc
    rcases hc with hc | hc | hc
    · left; rw [c.wl]; exact hc
    · exact .inr (.inl (.inl hc))
    · by_cases hmr : m = r
      · cases b with
        | true => exact .inr (.inl (.inr ⟨rfl, hmr⟩))
        | false => exact .inr (.inr (hc.same c.toGrow (hmr ▸ c.flag rfl)))
      · exact .inr (.inr (hc.same c.toGrow (c.other m hr hmr)))
  · intro f hf _ _ hx
    rw [c.esc_eq] at hf; exact .inl ⟨hf, hx⟩

theorem push_grow (w : WS σ) (r : Nat) : Grow w (w.push r) :=
  { same := SameObj.refl _, stores := rfl, loads := rfl, calls := rfl, edges := fun _ _ h => h, seen := fun _ _ _ h => h, xSeen := rfl, peSeen := rfl,
    n := rfl, kind := fun _ => rfl, root := fun _ _ h => h, pe := fun _ h => h, pte := fun _ h => h, esc := fun _ h => h, has := fun _ _ h => h,
    sub0 := fun _ _ h => h, queue := fun _ h => h }

theorem push_wl (w : WS σ) (r m : Nat) : (w.push r).wl m = true ↔ m = r ∨ w.wl m = true := by
  show upd w.wl r true m = true ↔ _
  by_cases h : m = r
  · subst h; rw [upd_same]; simp
  · rw [upd_ne _ _ h]; simp [h]

theorem Inv.push {w : WS σ} {ex' : Nat → Prop} (h : w.Inv P ex e exf) (r : Nat) (hrn : r < w.set.n) (hex : ∀ m, ex m → ex' m ∨ m = r) :
    (w.push r).Inv P ex' e exf := by
  refine h.grow (push_grow w r) h.ok h.rng.queue rfl h.newP (fun m hm => ((push_wl w r m).1 hm).elim (fun h => h ▸ hrn) (h.wlLt m)) ?_ (fun f hf _ _ hx => .inl ⟨hf, hx⟩)
  intro m hm hr hc
  rcases hc with hc | hc | hc
  · left; rw [push_wl]; exact .inr hc
  · rcases hex m hc with h1 | h1
    · exact .inr (.inl h1)
    · left; rw [push_wl]; exact .inl h1
  · exact .inr (.inr ⟨hc.pts, hc.pte, hc.pe⟩)

theorem push_tame (w : WS σ) (r : Nat) : Tame nd w (w.push r) :=
  { push_grow w r with wl := fun m h => (push_wl w r m).2 (.inr h), ref := rfl, quiet := fun m _ => .inr ⟨rfl, rfl, rfl, rfl, rfl⟩, pts := fun _ _ => rfl }

/-- a change is put on the worklist -/
theorem Chg.pushed {w w' : WS σ} {r : Nat} {b : Bool} (h : w.Inv P ex e exf) (hrn : r < w.set.n) (c : Chg nd r b w w') (hok : SetOk w'.set) :
    (if b then w'.push r else w').Inv P ex e exf ∧ Tame nd w (if b then w'.push r else w') := by
  have hi := h.chg c hok
  cases b with
  | true =>
    refine ⟨hi.push r (by rw [c.n]; exact hrn) (fun m hm => hm.imp id And.right), ?_⟩
    exact { c.toGrow.trans (push_grow w' r) with
            wl := fun m hm => (push_wl w' r m).2 (.inr (by rw [c.wl]; exact hm)), ref := c.ref,
            quiet := fun m hm => by
              by_cases hr : m = r
              · left; exact (push_wl w' r m).2 (.inl hr)
              · right
                have := c.other m hm hr
                exact ⟨this.pts, this.newP, this.tracked, this.pte, this.pe⟩,
            pts := c.pts }
  | false =>
    refine ⟨h.chg c hok |>.grow (Grow.refl _) hok hi.rng.queue rfl hi.newP hi.wlLt ?_ (fun f hf _ _ hx => .inl ⟨hf, hx⟩), ?_⟩
    · intro m _ _ hc
      rcases hc with hc | hc | hc
      · exact .inl hc
      · rcases hc with hc | hc
        · exact .inr (.inl hc)
        · cases hc.1
      · exact .inr (.inr hc)
    · exact { c.toGrow with
              wl := fun m hm => by show w'.wl m = true; rw [c.wl]; exact hm, ref := c.ref,
              quiet := fun m hm => by
                by_cases hr : m = r
                · right; exact hr ▸ c.flag rfl
                · right; exact c.other m hm hr,
              pts := c.pts }

/-! ## Changes of the set alone -/

/-- `Grow` when only the set (and possibly the tracked pointees) have changed -/
theorem grow_set {w w' : WS σ} (same : SameObj w.set w'.set)
    (pe : ∀ i, w.set.pe i = true → w'.set.pe i = true)
    (pte : ∀ i, w.set.pte i = true → w'.set.pte i = true) (esc : ∀ i, w.set.escaped i = true → w'.set.escaped i = true)
    (has : ∀ a x, x ∈ w.set.pointees a → Has w'.set a x)
    (he : w'.edges = w.edges) (hs : w'.stores = w.stores) (hl : w'.loads = w.loads) (hc : w'.calls = w.calls)
    (hx : w'.xSeen = w.xSeen) (hp : w'.peSeen = w.peSeen) (hq : w'.queue = w.queue)
    (seen : ∀ m x, w.set.root m = m → w'.Seen m x → w.Seen m x) : Grow w w' :=
  { same := same, stores := hs, loads := hl, calls := hc, edges := fun m s h => by rw [he] at h; exact h, seen := seen, xSeen := hx, peSeen := hp,
    n := same.n, kind := same.kind, root := fun i j h => by rw [same.root]; exact h, pe := pe, pte := pte, esc := esc,
    has := fun a x h => h.elim (has a x) (fun h => .inr ⟨pte a h.1, esc x h.2⟩),
    sub0 := fun a b h => by
      unfold Sub0; rw [he, same.root]
      exact h.imp id (fun h => h.imp id (fun h => ⟨pe b h.1, pte a h.2⟩)),
    queue := fun p h => by rw [hq]; exact h }

/-- an object flag changes: `set` is replaced, everything else stays -/
theorem chg_flags {w : WS σ} {s : RSet} {r : Nat} {b : Bool} (same : SameObj w.set s) (pts : s.pts = w.set.pts)
    (pe : ∀ i, s.pe i = true ↔ w.set.pe i = true ∨ (w.set.root i = r ∧ b = true ∧ s.pe i = true))
    (pte : ∀ i, s.pte i = true ↔ w.set.pte i = true ∨ (w.set.root i = r ∧ b = true ∧ s.pte i = true))
    (esc : ∀ i, s.escaped i = w.set.escaped i) : Chg nd r b w { w with set := s } := by
  have hp : ∀ i, s.pointees i = w.set.pointees i := fun i => by unfold RSet.pointees; rw [pts, same.root]
  have hsame : ∀ m, w.set.root m = m → (m ≠ r ∨ b = false) → Same w { w with set := s } m := by
    intro m hm hr
    refine ⟨by show s.pts m = _; rw [pts], rfl, rfl, ?_, ?_⟩
    · refine Bool.eq_iff_iff.2 ((pte m).trans ⟨?_, .inl⟩)
      rintro (h | ⟨h1, h2, _⟩)
      · exact h
      · rcases hr with hr | hr
        · rw [hm] at h1; exact absurd h1 hr
        · rw [hr] at h2; cases h2
    · refine Bool.eq_iff_iff.2 ((pe m).trans ⟨?_, .inl⟩)
      rintro (h | ⟨h1, h2, _⟩)
      · exact h
      · rcases hr with hr | hr
        · rw [hm] at h1; exact absurd h1 hr
        · rw [hr] at h2; cases h2
  refine { grow_set (w := w) (w' := { w with set := s }) same (fun i h => (pe i).2 (.inl h)) (fun i h => (pte i).2 (.inl h))
      (fun i h => (esc i).trans h) (fun a x h => .inl (by show x ∈ s.pointees a; rw [hp]; exact h)) rfl rfl rfl rfl rfl rfl rfl
      (fun m x hm h => by
        have h2 : x ∈ s.pts m := h.2.1
        exact ⟨h.1, by rw [← pts]; exact h2, h.2.2⟩) with
    wl := rfl, ref := rfl, queue_eq := rfl, edges_eq := rfl, other := fun m hm hr => hsame m hm (.inl hr), pts := fun m _ => by show s.pts m = _; rw [pts],
    esc_eq := esc, newOk := fun hn m hm x hx => by show x ∈ s.pts m; rw [pts]; exact hn m hm x hx, flag := ?_ }
  intro hb
  refine ⟨by show s.pts r = _; rw [pts], rfl, rfl, ?_, ?_⟩
  · refine Bool.eq_iff_iff.2 ((pte r).trans ⟨?_, .inl⟩)
    rintro (h | ⟨h1, h2, _⟩)
    · exact h
    · rw [hb] at h2; cases h2
  · refine Bool.eq_iff_iff.2 ((pe r).trans ⟨?_, .inl⟩)
    rintro (h | ⟨h1, h2, _⟩)
    · exact h
    · rw [hb] at h2; cases h2

theorem markPE_fst (s : RSet) (a : Nat) : (s.markPE a).1 = true ↔ s.pe a = false := by
  unfold RSet.markPE; cases h : s.pe a <;> simp [h]
theorem markPTE_fst (s : RSet) (a : Nat) : (s.markPTE a).1 = true ↔ s.pte a = false := by
  unfold RSet.markPTE; cases h : s.pte a <;> simp [h]

theorem pe_congr (s : RSet) {i j : Nat} (h : s.root i = s.root j) : s.pe i = s.pe j := by unfold RSet.pe; rw [h]
theorem pte_congr (s : RSet) {i j : Nat} (h : s.root i = s.root j) : s.pte i = s.pte j := by unfold RSet.pte; rw [h]
theorem pointees_congr (s : RSet) {i j : Nat} (h : s.root i = s.root j) : s.pointees i = s.pointees j := by unfold RSet.pointees; rw [h]
theorem ss_congr (s : RSet) {i j : Nat} (h : s.root i = s.root j) : s.ss i = s.ss j := by unfold RSet.ss; rw [h]
theorem ls_congr (s : RSet) {i j : Nat} (h : s.root i = s.root j) : s.ls i = s.ls j := by unfold RSet.ls; rw [h]

theorem markPE_chg (w : WS σ) (r : Nat) (hr : w.set.root r = r) : Chg nd r (w.set.markPE r).1 w { w with set := (w.set.markPE r).2 } := by
  have g := markPE_eff w.set r
  refine chg_flags g.same g.pts ?_ ?_ g.esc
  · intro i
    constructor
    · intro h
      by_cases hp : w.set.pe i = true
      · exact .inl hp
      · right
        have h1 := ((g.pe i).1 h).resolve_left hp
        refine ⟨h1.trans hr, (markPE_fst _ _).2 ?_, h⟩
        rw [← pe_congr _ h1]; simpa using hp
    · rintro (h | h)
      · exact (g.pe i).2 (.inl h)
      · exact h.2.2
  · intro i; rw [g.pte]; exact ⟨.inl, fun h => h.elim id fun h => h.2.2⟩

theorem markPTE_chg (w : WS σ) (r : Nat) (hr : w.set.root r = r) : Chg nd r (w.set.markPTE r).1 w { w with set := (w.set.markPTE r).2 } := by
  have g := markPTE_eff w.set r
  refine chg_flags g.same g.pts ?_ ?_ g.esc
  · intro i; rw [g.pe]; exact ⟨.inl, fun h => h.elim id fun h => h.2.2⟩
  · intro i
    constructor
    · intro h
      by_cases hp : w.set.pte i = true
      · exact .inl hp
      · right
        have h1 := ((g.pte i).1 h).resolve_left hp
        refine ⟨h1.trans hr, (markPTE_fst _ _).2 ?_, h⟩
        rw [← pte_congr _ h1]; simpa using hp
    · rintro (h | h)
      · exact (g.pte i).2 (.inl h)
      · exact h.2.2

theorem markPE_false' (s : RSet) (a : Nat) (h : (s.markPE a).1 = false) : (s.markPE a).2 = s := still_markPE a s h
theorem markPTE_false' (s : RSet) (a : Nat) (h : (s.markPTE a).1 = false) : (s.markPTE a).2 = s := still_markPTE a s h

theorem markPE_eq (w : WS σ) (a : Nat) : w.markPE a =
    if (w.set.markPE (w.set.root a)).1 then WS.push { w with set := (w.set.markPE (w.set.root a)).2 } (w.set.root a)
    else { w with set := (w.set.markPE (w.set.root a)).2 } := by
  unfold markPE
  simp only []
  split
  · rfl
  · rename_i h
    rw [markPE_false' _ _ (by simpa using h)]

theorem markPTE_eq (w : WS σ) (a : Nat) : w.markPTE a =
    if (w.set.markPTE (w.set.root a)).1 then WS.push { w with set := (w.set.markPTE (w.set.root a)).2 } (w.set.root a)
    else { w with set := (w.set.markPTE (w.set.root a)).2 } := by
  unfold markPTE
  simp only []
  split
  · rfl
  · rename_i h
    rw [markPTE_false' _ _ (by simpa using h)]

theorem Inv.idem {w : WS σ} (h : w.Inv P ex e exf) (a : Nat) : w.set.root (w.set.root a) = w.set.root a := h.ok.wf.idem a
theorem Inv.rlt {w : WS σ} (h : w.Inv P ex e exf) {a : Nat} (ha : a < w.set.n) : w.set.root a < w.set.n := h.ok.wf.lt a ha

theorem markPE_tame {w : WS σ} (h : w.Inv P ex e exf) {a : Nat} (ha : a < w.set.n) :
    (w.markPE a).Inv P ex e exf ∧ Tame nd w (w.markPE a) ∧ (w.markPE a).set.pe a = true := by
  have hok : SetOk (w.set.markPE (w.set.root a)).2 := h.ok.step (.markPE (w.set.root a)) (h.rlt ha)
  have := (markPE_chg (nd := nd) w (w.set.root a) (h.idem a)).pushed h (h.rlt ha) hok
  rw [markPE_eq]
  refine ⟨this.1, this.2, ?_⟩
  have g := ((markPE_eff w.set (w.set.root a)).pe a).2 (.inr (h.idem a).symm)
  split
  · exact g
  · exact g

theorem markPTE_tame {w : WS σ} (h : w.Inv P ex e exf) {a : Nat} (ha : a < w.set.n) :
    (w.markPTE a).Inv P ex e exf ∧ Tame nd w (w.markPTE a) ∧ (w.markPTE a).set.pte a = true := by
  have hok : SetOk (w.set.markPTE (w.set.root a)).2 := h.ok.step (.markPTE (w.set.root a)) (h.rlt ha)
  have := (markPTE_chg (nd := nd) w (w.set.root a) (h.idem a)).pushed h (h.rlt ha) hok
  rw [markPTE_eq]
  refine ⟨this.1, this.2, ?_⟩
  have g := ((markPTE_eff w.set (w.set.root a)).pte a).2 (.inr (h.idem a).symm)
  split
  · exact g
  · exact g

/-- a loop of tame steps -/
theorem foldl_tame {α : Type} {F : α → WS σ → Prop} {f : WS σ → α → WS σ}
    (hF : ∀ a w w', Tame nd w w' → F a w → F a w') :
    ∀ (l : List α) {w : WS σ}, w.Inv P ex e exf →
    (∀ a ∈ l, ∀ w', w'.Inv P ex e exf → Tame nd w w' → (f w' a).Inv P ex e exf ∧ Tame nd w' (f w' a) ∧ F a (f w' a)) →
    (l.foldl f w).Inv P ex e exf ∧ Tame nd w (l.foldl f w) ∧ ∀ a ∈ l, F a (l.foldl f w) := by
  intro l
  induction l with
  | nil => intro w h _; exact ⟨h, Tame.refl nd w, fun a ha => by cases ha⟩
  | cons a l ih =>
    intro w h hs
    obtain ⟨h1, h2, h3⟩ := hs a (by simp) w h (Tame.refl nd w)
    obtain ⟨g1, g2, g3⟩ := ih h1 (fun b hb w' hw' ht => hs b (by simp [hb]) w' hw' (h2.trans ht))
    refine ⟨g1, h2.trans g2, ?_⟩
    intro b hb
    rcases List.mem_cons.1 hb with rfl | hb
    · exact hF _ _ _ g2 h3
    · exact g3 b hb

theorem Inv.mono {w : WS σ} {ex' : Nat → Prop} (h : w.Inv P ex e exf) (hx : ∀ m, ex m → ex' m) : w.Inv P ex' e exf :=
  { h with cover := fun m hm hr => (h.cover m hm hr).imp id (fun h => h.imp (hx m) id) }

theorem Inv.monof {w : WS σ} {exf' : Nat → Prop} (h : w.Inv P ex e exf) (hx : ∀ m, exf m → exf' m) : w.Inv P ex e exf' :=
  { h with fns := fun f h1 h2 h3 h4 => h.fns f h1 h2 h3 (fun h => h4 (hx f h)) }

/-! ## Calls and escaping functions -/

theorem callExternal_tame {w : WS σ} (h : w.Inv P ex e exf) {c : Call} (hc : c.InRange w.set.n) :
    (w.callExternal c).Inv P ex e exf ∧ Tame nd w (w.callExternal c) ∧ (w.callExternal c).CallExtOk c := by
  unfold callExternal
  obtain ⟨h1, h2, h3⟩ := foldl_tame (P := P) (ex := ex) (e := e) (exf := exf) (nd := nd) (F := fun i (w : WS σ) => w.set.pe i = true)
    (f := fun w i => w.markPE i) (fun a w w' t ha => t.pe a ha) (registers c.ins) h
    (fun a ha w' hw' t => markPE_tame hw' (by rw [t.n]; exact hc.1 a (mem_registers.1 ha)))
  obtain ⟨g1, g2, g3⟩ := foldl_tame (P := P) (ex := ex) (e := e) (exf := exf) (nd := nd) (F := fun i (w : WS σ) => w.set.pte i = true)
    (f := fun w i => w.markPTE i) (fun a w w' t ha => t.pte a ha) (registers c.outs) h1
    (fun a ha w' hw' t => markPTE_tame hw' (by rw [t.n, h2.n]; exact hc.2 a (mem_registers.1 ha)))
  exact ⟨g1, h2.trans g2, fun i hi => g2.pe i (h3 i (mem_registers.2 hi)), fun i hi => g3 i (mem_registers.2 hi)⟩

theorem escapedFn_tame {w : WS σ} (h : w.Inv P ex e exf) {f : Fn} (hf : f.InRange w.set.n) :
    (w.escapedFn f).Inv P ex e exf ∧ Tame nd w (w.escapedFn f) ∧
    (∀ a, some a ∈ f.args → (w.escapedFn f).set.pte a = true) ∧ (∀ a, some a ∈ f.results → (w.escapedFn f).set.pe a = true) := by
  unfold escapedFn
  obtain ⟨h1, h2, h3⟩ := foldl_tame (P := P) (ex := ex) (e := e) (exf := exf) (nd := nd) (F := fun i (w : WS σ) => w.set.pte i = true)
    (f := fun w a => if w.set.pte a then w else w.markPTE a) (fun a w w' t ha => t.pte a ha) (registers f.args) h
    (fun a ha w' hw' t => by
      split
      · rename_i hp; exact ⟨hw', Tame.refl nd w', hp⟩
      · exact markPTE_tame hw' (by rw [t.n]; exact hf.1 a (mem_registers.1 ha)))
  obtain ⟨g1, g2, g3⟩ := foldl_tame (P := P) (ex := ex) (e := e) (exf := exf) (nd := nd) (F := fun i (w : WS σ) => w.set.pe i = true)
    (f := fun w a => if w.set.pe a then w else w.markPE a) (fun a w w' t ha => t.pe a ha) (registers f.results) h1
    (fun a ha w' hw' t => by
      split
      · rename_i hp; exact ⟨hw', Tame.refl nd w', hp⟩
      · exact markPE_tame hw' (by rw [t.n, h2.n]; exact hf.2 a (mem_registers.1 ha)))
  exact ⟨g1, h2.trans g2, fun i hi => g2.pte i (h3 i (mem_registers.2 hi)), fun i hi => g3 i (mem_registers.2 hi)⟩

theorem queueEdge_tame {w : WS σ} (h : w.Inv P ex e exf) {a b : Nat} (ha : a < w.set.n) (hb : b < w.set.n) :
    (w.queueEdge a b).Inv P ex e exf ∧ Tame nd w (w.queueEdge a b) ∧ (w.queueEdge a b).SubE a b := by
  unfold queueEdge
  simp only []
  split
  · rename_i hc
    refine ⟨h, Tame.refl nd w, .inl ?_⟩
    simp only [Bool.or_eq_true, decide_eq_true_eq, List.contains_iff_mem] at hc
    rcases hc with hc | hc
    · exact .inl hc
    · exact .inr (.inl ⟨_, hc, h.idem a⟩)
  · split
    · rename_i hc
      simp only [List.contains_iff_mem] at hc
      exact ⟨h, Tame.refl nd w, .inr ⟨_, hc, h.idem a, h.idem b⟩⟩
    · have g : Grow w { w with queue := w.queue ++ [(w.set.root a, w.set.root b)] } :=
        { same := SameObj.refl _, stores := rfl, loads := rfl, calls := rfl, edges := fun _ _ h => h, seen := fun _ _ _ h => h, xSeen := rfl, peSeen := rfl,
          n := rfl, kind := fun _ => rfl, root := fun _ _ h => h, pe := fun _ h => h, pte := fun _ h => h, esc := fun _ h => h, has := fun _ _ h => h,
          sub0 := fun _ _ h => h, queue := fun p h => List.mem_append_left _ h }
      refine ⟨h.grow g h.ok ?_ rfl h.newP h.wlLt ?_ (fun f hf _ _ hx => .inl ⟨hf, hx⟩), ?_, ?_⟩
      · intro p hp
        rcases List.mem_append.1 hp with hp | hp
        · exact h.rng.queue p hp
        · simp only [List.mem_singleton] at hp
          subst hp
          exact ⟨h.rlt ha, h.rlt hb⟩
      · intro m _ _ hc
        exact hc.imp id (fun hc => hc.imp id (fun hc => ⟨hc.pts, hc.pte, hc.pe⟩))
      · exact { g with wl := fun _ h => h, ref := rfl, quiet := fun m _ => .inr ⟨rfl, rfl, rfl, rfl, rfl⟩, pts := fun _ _ => rfl }
      · exact .inr ⟨_, List.mem_append_right _ (List.mem_singleton.2 rfl), h.idem a, h.idem b⟩

theorem callLambda_tame {env : Env σ} {w : WS σ} (h : w.Inv P ex e exf) {c : Call} (hc : c.InRange w.set.n) {f : Nat}
    (hf : (env.fn f).InRange w.set.n) :
    (w.callLambda env c f).Inv P ex e exf ∧ Tame nd w (w.callLambda env c f) ∧ (w.callLambda env c f).CallFnOk c (env.fn f) := by
  unfold callLambda
  obtain ⟨h1, h2, h3⟩ := foldl_tame (P := P) (ex := ex) (e := e) (exf := exf) (nd := nd) (F := fun (ab : Nat × Nat) (w : WS σ) => w.SubE ab.2 ab.1)
    (f := fun w ab => w.queueEdge ab.2 ab.1) (fun a w w' t ha => t.sub ha) (paired c.ins (env.fn f).args) h
    (fun a ha w' hw' t => by
      obtain ⟨k, ha1, ha2⟩ := mem_paired.1 ha
      exact queueEdge_tame hw' (by rw [t.n]; exact hf.1 _ (List.mem_of_getElem? ha2)) (by rw [t.n]; exact hc.1 _ (List.mem_of_getElem? ha1)))
  obtain ⟨g1, g2, g3⟩ := foldl_tame (P := P) (ex := ex) (e := e) (exf := exf) (nd := nd) (F := fun (ab : Nat × Nat) (w : WS σ) => w.SubE ab.1 ab.2)
    (f := fun w ab => w.queueEdge ab.1 ab.2) (fun a w w' t ha => t.sub ha) (paired c.outs (env.fn f).results) h1
    (fun a ha w' hw' t => by
      obtain ⟨k, ha1, ha2⟩ := mem_paired.1 ha
      exact queueEdge_tame hw' (by rw [t.n, h2.n]; exact hc.2 _ (List.mem_of_getElem? ha1)) (by rw [t.n, h2.n]; exact hf.2 _ (List.mem_of_getElem? ha2)))
  exact ⟨g1, h2.trans g2, fun k i a hi ha => g2.sub (h3 (i, a) (mem_paired.2 ⟨k, hi, ha⟩)), fun k i a hi ha => g3 (i, a) (mem_paired.2 ⟨k, hi, ha⟩)⟩

theorem callTarget_tame {env : Env σ} {w : WS σ} (h : w.Inv P ex e exf) (hfn : env.fn = P.fn) (hr : P.InRange) {c : Call} (hc : c.InRange w.set.n) {x : Nat}
    (hx : x < w.set.n) :
    (w.callTarget env c x).Inv P ex e exf ∧ Tame nd w (w.callTarget env c x) ∧ (w.callTarget env c x).CallOk P.fn c x := by
  unfold callTarget
  split
  · rename_i hk
    obtain ⟨h1, h2, h3⟩ := callExternal_tame (nd := nd) h hc
    refine ⟨h1, h2, fun _ => h3, fun h => ?_⟩
    rw [h2.kind, hk] at h; cases h
  · rename_i hk
    obtain ⟨h1, h2, h3⟩ := callLambda_tame (nd := nd) (env := env) h hc (f := x)
      (by rw [hfn, h.n]; exact hr.fn x (by rw [← h.n]; exact hx) (by rw [← h.kind]; exact hk))
    refine ⟨h1, h2, fun h => ?_, fun _ => by rw [← hfn]; exact h3⟩
    rw [h2.kind, hk] at h; cases h
  · rename_i hk1 hk2
    exact ⟨h, Tame.refl nd w, fun h => absurd h hk1, fun h => absurd h hk2⟩

/-! ## Escaping pointees -/

theorem markEscaped_fst (s : RSet) (a : Nat) : (s.markEscaped a).1 = true ↔ s.escaped a = false := by
  unfold RSet.markEscaped; cases h : s.escaped a <;> simp [h]

theorem escapePointee_tame {env : Env σ} {w : WS σ} (h : w.Inv P ex e exf) (hfn : env.fn = P.fn) (hr : P.InRange)
    {x : Nat} (hx : x < w.set.n) (hk : (w.set.obj x).kind ≠ .register) :
    (w.escapePointee env x).Inv P ex e exf ∧ Tame nd w (w.escapePointee env x) ∧ (w.escapePointee env x).set.escaped x = true := by
  unfold escapePointee
  simp only []
  split
  · rename_i he
    have : w.set.escaped x = true := by
      cases h1 : w.set.escaped x with
      | true => rfl
      | false => rw [(markEscaped_fst _ _).2 h1] at he; cases he
    exact ⟨h, Tame.refl nd w, this⟩
  · have g := markEscaped_eff h.ok hx hk
    have hok : SetOk (w.set.markEscaped x).2 := h.ok.step (.markEscaped x) ⟨hx, hk⟩
    generalize hs : (w.set.markEscaped x).2 = s at g hok
    have hp : ∀ i, s.pointees i = w.set.pointees i := fun i => by unfold RSet.pointees; rw [g.pts, g.same.root]
    have gr : Grow w { w with set := s } :=
      grow_set (w := w) (w' := { w with set := s }) g.same (fun i h => (g.pe i).2 (.inl h)) (fun i h => (g.pte i).2 (.inl h))
        (fun i h => (g.esc i).2 (.inl h)) (fun a y h => .inl (by show y ∈ s.pointees a; rw [hp]; exact h)) rfl rfl rfl rfl rfl rfl rfl
        (fun m y hm h => by
          have h2 : y ∈ s.pts m := h.2.1
          exact ⟨h.1, by rw [← g.pts]; exact h2, h.2.2⟩)
    have hsame : ∀ m, w.set.root m = m → (m ≠ w.set.root x ∨ (w.set.pe (w.set.root x) && w.set.pte (w.set.root x)) = true) →
        Same w { w with set := s } m := by
      intro m hm hc
      have hpe : ∀ j, w.set.pe (w.set.root j) = w.set.pe j := fun j => pe_congr _ (h.idem j)
      have hpte : ∀ j, w.set.pte (w.set.root j) = w.set.pte j := fun j => pte_congr _ (h.idem j)
      refine ⟨by show s.pts m = _; rw [g.pts], rfl, rfl, ?_, ?_⟩
      · refine Bool.eq_iff_iff.2 ((g.pte m).trans ⟨?_, .inl⟩)
        rintro (h1 | h1)
        · exact h1
        · rcases hc with hc | hc
          · rw [hm] at h1; exact absurd h1 hc
          · rw [Bool.and_eq_true, hpe, hpte] at hc; rw [pte_congr _ h1]; exact hc.2
      · refine Bool.eq_iff_iff.2 ((g.pe m).trans ⟨?_, .inl⟩)
        rintro (h1 | h1)
        · exact h1
        · rcases hc with hc | hc
          · rw [hm] at h1; exact absurd h1 hc
          · rw [Bool.and_eq_true, hpe, hpte] at hc; rw [pe_congr _ h1]; exact hc.1
    generalize hb : (w.set.pe (w.set.root x) && w.set.pte (w.set.root x)) = b at hsame
    have h1 : Inv P { w with set := s } (fun m => ex m ∨ (b = false ∧ m = w.set.root x)) e
        (fun f => exf f ∨ (f = x ∧ (w.set.obj x).kind = .function)) := by
      refine h.grow gr hok h.rng.queue rfl (fun m hm y hy => by show y ∈ s.pts m; rw [g.pts]; exact h.newP m hm y hy) h.wlLt ?_ ?_
      · intro m hm hr hc
        rcases hc with hc | hc | hc
        · exact .inl hc
        · exact .inr (.inl (.inl hc))
        · by_cases hmr : m = w.set.root x
          · cases b with
            | false => exact .inr (.inl (.inr ⟨rfl, hmr⟩))
            | true => exact .inr (.inr (hc.same gr (hsame m hr (.inr rfl))))
          · exact .inr (.inr (hc.same gr (hsame m hr (.inl hmr))))
      · intro f hf _ hkf hxf
        rcases (g.esc f).1 hf with h1 | h1
        · exact .inl ⟨h1, fun h2 => hxf (.inl h2)⟩
        · subst h1; exact absurd (.inr ⟨rfl, hkf⟩) hxf
    have h2 : ∃ w2 : WS σ, (if (({ w with set := s } : WS σ).set.obj x).kind = Kind.function then WS.escapedFn (env.fn x) { w with set := s } else { w with set := s }) = w2 ∧
        w2.Inv P (fun m => ex m ∨ (b = false ∧ m = w.set.root x)) e exf ∧ Tame nd { w with set := s } w2 := by
      split
      · rename_i hkx
        have hkx' : (w.set.obj x).kind = .function := by rw [← g.same.kind]; exact hkx
        obtain ⟨a1, a2, a3⟩ := escapedFn_tame (nd := nd) h1 (f := env.fn x)
          (by show (env.fn x).InRange s.n; rw [g.same.n, hfn, h.n]; exact hr.fn x (by rw [← h.n]; exact hx) (by rw [← h.kind]; exact hkx'))
        refine ⟨_, rfl, ?_, a2⟩
        refine { a1 with fns := ?_ }
        intro f f1 f2 f3 f4
        by_cases hfx : f = x
        · subst hfx; rw [← hfn]; exact a3
        · exact a1.fns f f1 f2 f3 (fun h => h.elim f4 (fun h => hfx h.1))
      · rename_i hkx
        refine ⟨_, rfl, ?_, Tame.refl nd _⟩
        refine { h1 with fns := ?_ }
        intro f f1 f2 f3 f4
        refine h1.fns f f1 f2 f3 (fun h => h.elim f4 (fun h => ?_))
        apply hkx
        show (s.obj x).kind = _
        rw [g.same.kind]; exact h.2
    obtain ⟨w2, e2, i2, t2⟩ := h2
    have he : w2.set.escaped x = true := t2.esc x ((g.esc x).2 (.inr rfl))
    rw [e2]
    have gg := gr.trans t2.toGrow
    cases b with
    | true =>
      refine ⟨i2.mono (fun m h => h.elim id (fun h => by cases h.1)), ?_, he⟩
      exact { gg with
              wl := t2.wl, ref := t2.ref,
              quiet := fun m hm => (t2.quiet m (by show s.root m = m; rw [g.same.root]; exact hm)).imp id (fun h => (hsame m hm (.inr rfl)).trans h),
              pts := fun m hm => (t2.pts m hm).trans (by show s.pts m = _; rw [g.pts]) }
    | false =>
      refine ⟨i2.push _ (by rw [gg.n]; exact h.rlt hx) fun m h => h.imp id And.right, ?_, he⟩
      have t3 := push_tame (nd := nd) w2 (w.set.root x)
      exact { gg.trans t3.toGrow with
              wl := fun m hm => t3.wl m (t2.wl m hm), ref := t2.ref,
              quiet := fun m hm => by
                by_cases hmr : m = w.set.root x
                · left; exact (push_wl w2 _ m).2 (.inl hmr)
                · rcases t2.quiet m (by show s.root m = m; rw [g.same.root]; exact hm) with h | h
                  · left; exact t3.wl m h
                  · right
                    have := (hsame m hm (.inl hmr)).trans h
                    exact ⟨this.pts, this.newP, this.tracked, this.pte, this.pe⟩
              pts := fun m hm => (t2.pts m hm).trans (by show s.pts m = _; rw [g.pts]) }

/-! ## Propagation along an edge -/

theorem addPointee_chg {w : WS σ} {dp : Bool} {r x : Nat} (hr : w.set.root r = r) (hnd : ¬ nd r)
    (hnew : ∀ y ∈ w.newP r, y ∈ w.set.pts r) :
    Chg nd r (w.addPointee dp r x).1 w (w.addPointee dp r x).2 := by
  have g := addPointee_eff w.set r x
  have hpr : ∀ i, w.set.root i = i → w.set.pointees i = w.set.pts i := fun i hi => by unfold RSet.pointees; rw [hi]
  have hpr' : ∀ i, w.set.root i = i → (w.set.addPointee r x).2.pointees i = (w.set.addPointee r x).2.pts i := fun i hi => by
    unfold RSet.pointees; rw [g.same.root, hi]
  have hpts : ∀ m, m ≠ r → (w.set.addPointee r x).2.pts m = w.set.pts m := by
    intro m hm
    show upd w.set.pts (w.set.root r) _ m = _
    rw [hr, upd_ne _ _ hm]
  have hfst : (w.set.addPointee r x).1 = true ↔ x ∉ w.set.pts r := by
    show (!(w.set.pointees r).contains x) = true ↔ _
    rw [hpr r hr]; simp
  have hmem : ∀ y, y ∈ (w.set.addPointee r x).2.pts r ↔ y ∈ w.set.pts r ∨ y = x := by
    intro y
    have := g.pts r y
    rw [hpr' r hr, hpr r hr] at this
    exact this.trans ⟨fun h => h.imp id And.right, fun h => h.imp id (fun h => ⟨rfl, h⟩)⟩
  have hb : (w.addPointee dp r x).1 = (w.set.addPointee r x).1 := by
    unfold addPointee
    simp only []
    split
    · rename_i h
      simp only [Bool.and_eq_true] at h
      have hx : x ∉ w.newP r := fun hx => hfst.1 h.1.2 (hnew x hx)
      rw [h.1.2]; simpa using hx
    · rfl
  have hnp : ∀ m, m ≠ r → (w.addPointee dp r x).2.newP m = w.newP m := by
    intro m hm
    show (if _ then upd w.newP r _ else w.newP) m = _
    split
    · rw [upd_ne _ _ hm]
    · rfl
  rw [hb]
  refine { grow_set (w := w) (w' := (w.addPointee dp r x).2) g.same (fun i h => (g.pe i).trans h) (fun i h => (g.pte i).2 (.inl h))
      (fun i h => (g.esc i).trans h) (fun a y h => .inl ((g.pts a y).2 (.inl h))) rfl rfl rfl rfl rfl rfl rfl ?_ with
    wl := rfl, ref := rfl, queue_eq := rfl, edges_eq := rfl, esc_eq := g.esc, other := ?other, pts := ?pts, newOk := ?newOk, flag := ?flag }
  · intro m y hm h
    by_cases hmr : m = r
    · subst hmr
      obtain ⟨h1, h2, h3⟩ := h
      have h1' : w.tracked m = true := h1
      by_cases hx : x ∈ w.set.pts m
      · have : (w.set.addPointee m x).1 = false := by
          cases hc : (w.set.addPointee m x).1 with
          | false => rfl
          | true => exact absurd hx (hfst.1 hc)
        refine ⟨h1, ?_, ?_⟩
        · rcases (hmem y).1 h2 with h | h
          · exact h
          · rw [h]; exact hx
        · intro hy
          apply h3
          show y ∈ (if ((w.set.addPointee m x).1 && w.tracked m) = true then upd w.newP m (ins (w.newP m) x) else w.newP) m
          rw [this]; exact hy
      · have : (w.set.addPointee m x).1 = true := hfst.2 hx
        have h3' : y ∉ (if ((w.set.addPointee m x).1 && w.tracked m) = true then upd w.newP m (ins (w.newP m) x) else w.newP) m := h3
        rw [this, h1', Bool.and_self, if_pos rfl, upd_same, mem_ins] at h3'
        refine ⟨h1, ?_, fun hy => h3' (.inl hy)⟩
        rcases (hmem y).1 h2 with h | h
        · exact h
        · exact absurd (.inr h) h3'
    · obtain ⟨h1, h2, h3⟩ := h
      rw [hnp m hmr] at h3
      have h2' : y ∈ (w.set.addPointee r x).2.pts m := h2
      rw [hpts m hmr] at h2'
      exact ⟨h1, h2', h3⟩
  case other =>
    intro m hm hmr
    exact ⟨hpts m hmr, hnp m hmr, rfl, rfl, rfl⟩
  case pts =>
    intro m hm
    exact hpts m (fun h => hnd (h ▸ hm))
  case newOk =>
    intro hn m hm y hy
    show y ∈ (w.set.addPointee r x).2.pts m
    by_cases hmr : m = r
    · subst hmr
      have hy' : y ∈ (if ((w.set.addPointee m x).1 && w.tracked m) = true then upd w.newP m (ins (w.newP m) x) else w.newP) m := hy
      rw [hmem]
      split at hy'
      · rw [upd_same, mem_ins] at hy'
        exact hy'.imp (hn m hm y) id
      · exact .inl (hn m hm y hy')
    · rw [hpts m hmr]
      rw [hnp m hmr] at hy
      exact hn m hm y hy
  case flag =>
    intro hf
    have hx : x ∈ w.set.pts r := by
      by_cases hx : x ∈ w.set.pts r
      · exact hx
      · rw [hfst.2 hx] at hf; cases hf
    refine ⟨?_, ?_, rfl, rfl, rfl⟩
    · show upd w.set.pts (w.set.root r) (ins (w.set.pointees r) x) r = _
      rw [hr, upd_same, hpr r hr]
      unfold ins; simp [hx]
    · show (if ((w.set.addPointee r x).1 && w.tracked r) = true then upd w.newP r (ins (w.newP r) x) else w.newP) r = _
      rw [hf]; rfl

theorem addPointees_chg {dp : Bool} {r : Nat} (hnd : ¬ nd r) : ∀ (l : List Nat) {w w0 : WS σ} {b : Bool}, w.set.root r = r →
    w.Inv P ex e exf → r < w.set.n → (∀ x ∈ l, x < w.set.n ∧ (w.set.obj x).kind ≠ .register) →
    Chg nd r b w0 w →
    ∃ b' w', l.foldl (fun (acc : Bool × WS σ) x =>
        let q := acc.2.addPointee dp r x
        (acc.1 || q.1, q.2)) (b, w) = (b', w') ∧ Chg nd r b' w0 w' ∧ SetOk w'.set ∧ ∀ x ∈ l, Has w'.set r x := by
  intro l
  induction l generalizing ex with
  | nil => intro w w0 b hr h _ _ c; exact ⟨b, w, rfl, c, h.ok, fun x hx => by cases hx⟩
  | cons x l ih =>
    intro w w0 b hr h hrn hl c
    have hok : SetOk (w.addPointee dp r x).2.set := h.ok.step (.addPointee r x) ⟨hrn, hl x (by simp)⟩
    have c1 := addPointee_chg (nd := nd) (dp := dp) (x := x) hr hnd (h.newP r hr)
    have g := addPointee_eff w.set r x
    obtain ⟨b', w', e', c', ok', has'⟩ := ih (w := (w.addPointee dp r x).2) (w0 := w0) (b := b || (w.addPointee dp r x).1) hr
      (h.chg c1 hok) hrn (fun y hy => hl y (by simp [hy])) (c.trans c1)
    refine ⟨b', w', ?_, c', ok', ?_⟩
    · rw [List.foldl_cons]; exact e'
    · intro y hy
      rcases List.mem_cons.1 hy with rfl | hy
      · -- the growth from the state after this pointee
        have : Chg nd r (b' || true) (w.addPointee dp r y).2 w' := by
          obtain ⟨b2, w2, e2, c2, _, _⟩ := ih (w := (w.addPointee dp r y).2) (w0 := (w.addPointee dp r y).2) (b := false) hr
            (h.chg c1 hok) hrn (fun z hz => hl z (by simp [hz])) (Chg.refl nd r _)
          have hind : ∀ (l : List Nat) (b1 b2 : Bool) (v : WS σ),
              (l.foldl (fun (acc : Bool × WS σ) x => let q := acc.2.addPointee dp r x; (acc.1 || q.1, q.2)) (b1, v)).2 =
              (l.foldl (fun (acc : Bool × WS σ) x => let q := acc.2.addPointee dp r x; (acc.1 || q.1, q.2)) (b2, v)).2 := by
            intro l
            induction l with
            | nil => intro _ _ _; rfl
            | cons z l ihl => intro b1 b2 v; rw [List.foldl_cons, List.foldl_cons]; exact ihl _ _ _
          have := hind l false (b || (w.addPointee dp r y).1) (w.addPointee dp r y).2
          rw [e2, e'] at this
          simp only at this
          rw [← this]
          exact c2.weaken _ (by simp)
        exact this.has r y (.inl ((g.pts r y).2 (.inr ⟨rfl, rfl⟩)))
      · exact has' y hy

theorem propagate_tame {env : Env σ} {w : WS σ} (h : w.Inv P ex e exf) {r : Nat} (hr : w.set.root r = r) (hrn : r < w.set.n) (hnd : ¬ nd r)
    {np : List Nat} (hen : ∀ (w : WS σ) x, x ∈ env.en w np ↔ x ∈ np) (hnp : ∀ x ∈ np, x < w.set.n ∧ (w.set.obj x).kind ≠ .register) {newX : Bool} :
    (w.propagate env r np newX).2.Inv P ex e exf ∧ Tame nd w (w.propagate env r np newX).2 ∧
    (∀ x ∈ np, Has (w.propagate env r np newX).2.set r x) ∧ (newX = true → (w.propagate env r np newX).2.set.pte r = true) := by
  unfold propagate
  simp only []
  obtain ⟨b, w1, e1, c1, ok1, has1⟩ := addPointees_chg (nd := nd) (dp := env.opts.dp) hnd (env.en w np) (w0 := w) (b := false) hr h hrn
    (fun x hx => hnp x ((hen w x).1 hx)) (Chg.refl nd r w)
  rw [e1]
  have h1 := h.chg c1 ok1
  have hr1 : w1.set.root r = r := by rw [c1.same.root]; exact hr
  cases newX with
  | false =>
    simp only [Bool.false_eq_true, if_false]
    obtain ⟨i, t⟩ := c1.pushed h hrn ok1
    refine ⟨i, t, ?_, fun h => by cases h⟩
    intro x hx
    cases b <;> exact has1 x ((hen w x).2 hx)
  | true =>
    simp only [if_true]
    have c2 := c1.trans (markPTE_chg (nd := nd) w1 r hr1)
    have ok2 : SetOk (w1.set.markPTE r).2 := ok1.step (.markPTE r) (by show r < w1.set.n; rw [c1.n]; exact hrn)
    obtain ⟨i, t⟩ := c2.pushed h hrn ok2
    have g2 := markPTE_chg (nd := nd) w1 r hr1
    have g3 := markPTE_eff w1.set r
    refine ⟨i, t, ?_, fun _ => ?_⟩
    · intro x hx
      have := g2.has r x (has1 x ((hen w x).2 hx))
      split <;> exact this
    · have := (g3.pte r).2 (.inr rfl)
      split <;> exact this

theorem eraseEdge_tame {w : WS σ} (h : w.Inv P ex none exf) {node s : Nat} (hn : w.set.root node = node)
    (hs : w.set.root s = node ∨ (w.set.pe node = true ∧ w.set.pte s = true)) :
    (w.eraseEdge node s).Inv P ex none exf ∧ Tame nd w (w.eraseEdge node s) := by
  have g : Grow w (w.eraseEdge node s) :=
    { same := SameObj.refl _, stores := rfl, loads := rfl, calls := rfl, seen := fun _ _ _ h => h, xSeen := rfl, peSeen := rfl,
      n := rfl, kind := fun _ => rfl, root := fun _ _ h => h, pe := fun _ h => h, pte := fun _ h => h, esc := fun _ h => h, has := fun _ _ h => h,
      queue := fun _ h => h,
      edges := fun m t ht => by
        have ht' : t ∈ upd w.edges node ((w.edges node).filter (· ≠ s)) m := ht
        by_cases hm : m = node
        · subst hm; rw [upd_same] at ht'; exact (List.mem_filter.1 ht').1
        · rw [upd_ne _ _ hm] at ht'; exact ht'
      sub0 := fun a b hab => by
        rcases hab with hab | ⟨t, ht1, ht2⟩ | hab
        · exact .inl hab
        · by_cases hb : w.set.root b = node
          · by_cases hts : t = s
            · subst hts
              rcases hs with hs | hs
              · left
                show w.set.root a = w.set.root b
                rw [← ht2, hs, hb]
              · right; right
                have h1 : w.set.pe b = w.set.pe node := pe_congr _ (by rw [hb, hn])
                have h2 : w.set.pte a = w.set.pte t := pte_congr _ ht2.symm
                exact ⟨by show w.set.pe b = true; rw [h1]; exact hs.1, by show w.set.pte a = true; rw [h2]; exact hs.2⟩
            · right; left
              refine ⟨t, ?_, ht2⟩
              show t ∈ upd w.edges node ((w.edges node).filter (· ≠ s)) (w.set.root b)
              rw [hb, upd_same]; rw [hb] at ht1
              exact List.mem_filter.2 ⟨ht1, by simpa using hts⟩
          · right; left
            refine ⟨t, ?_, ht2⟩
            show t ∈ upd w.edges node ((w.edges node).filter (· ≠ s)) (w.set.root b)
            rw [upd_ne _ _ hb]; exact ht1
        · exact .inr (.inr hab) }
  refine ⟨h.grow g h.ok h.rng.queue rfl h.newP h.wlLt ?_ (fun f hf _ _ hx => .inl ⟨hf, hx⟩), ?_⟩
  · intro m _ _ hc
    exact hc.imp id (fun hc => hc.imp id (fun hc => ⟨hc.pts, hc.pte, hc.pe⟩))
  · exact { g with wl := fun _ h => h, ref := rfl, quiet := fun m _ => .inr ⟨rfl, rfl, rfl, rfl, rfl⟩, pts := fun _ _ => rfl }

theorem det_tame {w : WS σ} (h : w.Inv P ex e exf) (d : σ) :
    Inv P { w with det := d } ex e exf ∧ Tame nd w { w with det := d } := by
  have g : Grow w { w with det := d } :=
    { same := SameObj.refl _, stores := rfl, loads := rfl, calls := rfl, edges := fun _ _ h => h, seen := fun _ _ _ h => h, xSeen := rfl, peSeen := rfl,
      n := rfl, kind := fun _ => rfl, root := fun _ _ h => h, pe := fun _ h => h, pte := fun _ h => h, esc := fun _ h => h, has := fun _ _ h => h,
      sub0 := fun _ _ h => h, queue := fun _ h => h }
  refine ⟨h.grow g h.ok h.rng.queue rfl h.newP h.wlLt ?_ (fun f hf _ _ hx => .inl ⟨hf, hx⟩), ?_⟩
  · intro m _ _ hc
    exact hc.imp id (fun hc => hc.imp id (fun hc => ⟨hc.pts, hc.pte, hc.pe⟩))
  · exact { g with wl := fun _ h => h, ref := rfl, quiet := fun m _ => .inr ⟨rfl, rfl, rfl, rfl, rfl⟩, pts := fun _ _ => rfl }

end WS
end Jlm.Llvm.Aa
