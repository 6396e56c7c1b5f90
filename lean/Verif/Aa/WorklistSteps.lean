import Verif.Aa.WorklistUnify
/-
The steps of the worklist solver that may unify: cycle detectors, new edges.
-/
set_option linter.unusedSimpArgs false
set_option linter.unusedVariables false
set_option linter.unnecessarySeqFocus false
namespace Jlm.Llvm.Aa
namespace WS
variable {σ : Type}
variable {P : Problem} {ex : Nat → Prop} {e : Option (Nat × Nat)} {exf : Nat → Prop} {nd : Nat → Prop}

theorem _root_.Jlm.Llvm.Aa.Has.congr {s : RSet} {a b x : Nat} (h : s.root a = s.root b) (hx : Has s a x) : Has s b x := by
  unfold Has at *; rw [← pointees_congr _ h, ← pte_congr _ h]; exact hx

theorem Inv.mono' {w : WS σ} {ex' : Nat → Prop} (h : w.Inv P ex e exf) (hx : ∀ m, w.set.root m = m → ex m → ex' m) : w.Inv P ex' e exf :=
  { h with cover := fun m hm hr => (h.cover m hm hr).imp id (fun h => h.imp (hx m hr) id) }

theorem unifyAll_inv {hcd : Bool} : ∀ (l : List (Nat × Nat)) {w : WS σ} {ex : Nat → Prop}, w.Inv P ex e exf →
    (∀ p ∈ l, p.1 < w.set.n ∧ p.2 < w.set.n) →
    (w.unifyAll hcd l).Inv P (fun m => ex m ∨ ∃ p ∈ l, m = (w.unifyAll hcd l).set.root p.1) e exf ∧ Ext w (w.unifyAll hcd l) ∧
    (w.unifyAll hcd l).set = unifyPairs w.set l ∧ (w.unifyAll hcd l).queue = w.queue ∧ (w.unifyAll hcd l).wl = w.wl ∧
    (w.unifyAll hcd l).scc = w.scc := by
  intro l
  induction l with
  | nil =>
    intro w ex h _
    exact ⟨h.mono fun _ => .inl, Ext.refl w, rfl, rfl, rfl, rfl⟩
  | cons p l ih =>
    intro w ex h hl
    obtain ⟨h1, h2, h3, h4, h5, h6, h7, h8, h9⟩ := unify_inv (hcd := hcd) h (hl p (by simp)).1 (hl p (by simp)).2
    obtain ⟨g1, g2, g3, g4, g5, g6⟩ := ih h1 (fun q hq => by rw [h2.n]; exact hl q (by simp [hq]))
    have hfold : w.unifyAll hcd (p :: l) = WS.unifyAll hcd l (w.unify hcd p.1 p.2).2 := rfl
    rw [hfold]
    refine ⟨?_, h2.trans g2, ?_, g4.trans h5, g5.trans h6, g6.trans h7⟩
    · refine g1.mono' ?_
      rintro m hm ((h | h) | ⟨q, hq, h⟩)
      · exact .inl h
      · right
        refine ⟨p, by simp, ?_⟩
        rw [← h3] at h
        have : (w.unify hcd p.1 p.2).2.set.root p.1 = (w.unify hcd p.1 p.2).2.set.root m := by
          rw [h, h1.idem]
        rw [← hm]
        exact (g2.root _ _ this).symm
      · exact .inr ⟨q, by simp [hq], h⟩
    · rw [g3, h8]; rfl

/-- a cycle detector that unifies leaves only the class of the subset to be processed -/
theorem detect_inv {env : Env σ} (hd : DetOk env) {w : WS σ} (h : w.Inv P ex e exf) {sub sup : Nat} (h1 : sub < w.set.n) (h2 : sup < w.set.n)
    (r1 : w.set.root sub = sub) (r2 : w.set.root sup = sup) (hne : sub ≠ sup) (hedge : ∃ t ∈ w.edges sub, w.set.root t = sup)
    (hex : ∀ m, ex m → m = sub) :
    ((w.detect env sub sup).1 = false ∧ ∃ d, (w.detect env sub sup).2 = { w with det := d }) ∨
    ((w.detect env sub sup).1 = true ∧ (w.detect env sub sup).2.Inv P (fun _ => False) e exf ∧ Ext w (w.detect env sub sup).2 ∧
      (w.detect env sub sup).2.set.root sub = (w.detect env sub sup).2.set.root sup ∧ (w.detect env sub sup).2.queue = w.queue) := by
  unfold detect
  simp only []
  have hr := hd.range w.det w.set w.edges sub sup h.ok.wf h.rng.edges h1 h2 r1 r2 hne
  have hc := hd.cycle w.det w.set w.edges sub sup h.ok.wf h.rng.edges h1 h2 r1 r2 hne
  generalize hl : env.det w.det w.set w.edges sub sup = dl at hr hc
  obtain ⟨d, l⟩ := dl
  cases l with
  | nil => left; exact ⟨rfl, d, rfl⟩
  | cons p l =>
    right
    obtain ⟨hc1, hc2⟩ := hc (by simp)
    have hi := (det_tame (nd := fun _ => False) h d).1
    obtain ⟨g1, g2, g3, g4, g5, g6⟩ := unifyAll_inv (hcd := env.opts.hcd) (p :: l) hi (fun q hq => hr q hq)
    have ext0 : Ext w { w with det := d } := (det_tame (nd := fun _ => False) h d).2.toExt
    refine ⟨rfl, ?_, (ext0.trans g2).trans (push_grow _ _).toExt, ?_, g4⟩
    · have g1' := g1.mono' (ex' := fun m => m = (WS.unifyAll env.opts.hcd (p :: l) { w with det := d }).set.root sub) (by
        rintro m hm (h | ⟨q, hq, h⟩)
        · rw [hex m h] at hm ⊢; exact hm.symm
        · rw [h, g3]; exact hc2 q hq)
      exact g1'.push _ (g1.rlt (by rw [g2.n]; exact h1)) fun m h => .inr h
    · show (WS.unifyAll env.opts.hcd (p :: l) { w with det := d }).set.root sub = (WS.unifyAll env.opts.hcd (p :: l) { w with det := d }).set.root sup
      rw [g3]; exact hc1

/-! ## New edges -/

theorem insEdge_inv {w : WS σ} (h : w.Inv P ex none exf) {sup sub : Nat} (h1 : sup < w.set.n) :
    (w.insEdge sup sub).Inv P ex (some (sub, sup)) exf ∧ Ext w (w.insEdge sup sub) ∧ (w.insEdge sup sub).queue = w.queue := by
  have hm : ∀ m s, s ∈ (w.insEdge sup sub).edges m ↔ s ∈ w.edges m ∨ (m = sub ∧ s = sup) := by
    intro m s
    show s ∈ upd w.edges sub (ins (w.edges sub) sup) m ↔ _
    by_cases hm : m = sub
    · subst hm; rw [upd_same, mem_ins]; simp
    · rw [upd_ne _ _ hm]; simp [hm]
  have x : Ext w (w.insEdge sup sub) :=
    ⟨rfl, fun _ => rfl, fun _ _ h => h, fun _ h => h, fun _ h => h, fun _ h => h, fun _ _ h => h,
     fun a b h => h.imp id (fun h => h.imp (fun ⟨s, h1, h2⟩ => ⟨s, (hm _ s).2 (.inl h1), h2⟩) id), fun _ h => h⟩
  refine ⟨?_, x, rfl⟩
  refine { ok := h.ok, rng := { h.rng with edges := ?_ }, n := h.n, kind := h.kind, basePts := h.basePts, basePE := h.basePE, basePTE := h.basePTE, baseSS := h.baseSS, baseLS := h.baseLS,
           baseEsc := h.baseEsc, baseConn := h.baseConn, newP := h.newP, xOk := h.xOk, peOk := h.peOk, obl := ?_, oblX := ?_, oblPE := h.oblPE, wlLt := h.wlLt,
           cover := ?_, cs := ?_, fns := h.fns }
  · intro m s hs
    rcases (hm m s).1 hs with hs | hs
    · exact h.rng.edges m s hs
    · rw [hs.2]; exact h1
  · intro m hr y hy
    have o := h.obl m hr y hy
    refine ⟨?_, fun v hv => x.sub (o.stores v hv), fun v hv => x.sub (o.loads v hv), fun c hc => x.callOk (o.calls c hc), o.ss, o.ls⟩
    intro s hs
    rcases (hm m s).1 hs with hs | hs
    · rcases o.edges s hs with h | ⟨p, hp, _⟩
      · exact .inl h
      · cases hp
    · right; rw [hs.1, hs.2]; exact ⟨_, rfl, rfl, rfl⟩
  · intro m hr hx
    have o := h.oblX m hr hx
    refine ⟨?_, o.stores, o.loads, o.calls⟩
    intro s hs
    rcases (hm m s).1 hs with hs | hs
    · rcases o.edges s hs with h | ⟨p, hp, _⟩
      · exact .inl h
      · cases hp
    · right; rw [hs.1, hs.2]; exact ⟨_, rfl, rfl, rfl⟩
  · intro m hm hr
    exact (h.cover m hm hr).imp id (fun hc => hc.imp id (fun hc => ⟨hc.pts, hc.pte, hc.pe⟩))
  · intro c hc
    have := h.cs c hc
    cases c with
    | superset a b => exact x.sub this
    | store p v => exact this
    | load v p => exact this
    | call p c => exact this

/-- the new edge has had its effect -/
theorem Inv.discharge {w : WS σ} {sub sup : Nat} (h : w.Inv P ex (some (sub, sup)) exf)
    (h1 : ∀ x, Has w.set sub x → Has w.set sup x) (h2 : w.set.pte sub = true → w.set.pte sup = true) :
    w.Inv P ex none exf := by
  have hc : ∀ a b x, w.set.root a = w.set.root b → Has w.set a x → Has w.set b x := by
    intro a b x hr hh
    unfold Has at *
    rw [← pointees_congr _ hr, ← pte_congr _ hr]; exact hh
  refine { h with obl := ?_, oblX := ?_ }
  · intro m hr y hy
    have o := h.obl m hr y hy
    refine { o with edges := fun s hs => ?_ }
    rcases o.edges s hs with h3 | ⟨p, hp, e1, e2⟩
    · exact .inl h3
    · left
      cases hp
      refine hc _ _ y e2 (h1 y (hc _ _ y e1.symm (.inl ?_)))
      unfold RSet.pointees; rw [hr]; exact hy.2.1
  · intro m hr hx
    have o := h.oblX m hr hx
    refine { o with edges := fun s hs => ?_ }
    rcases o.edges s hs with h3 | ⟨p, hp, e1, e2⟩
    · exact .inl h3
    · left
      cases hp
      rw [← pte_congr _ e2]
      apply h2
      rw [pte_congr _ e1]
      exact h.xOk m hr hx

theorem makeSuperset_chg {w : WS σ} {sup sub : Nat} (hr : w.set.root sup = sup) (hne : w.set.root sup ≠ w.set.root sub) :
    Chg (fun _ => False) sup (w.makeSuperset sup sub).1 w (w.makeSuperset sup sub).2 := by
  have g := makeSuperset_eff w.set sup sub
  have hch := makeSuperset_changed w.set sup sub
  have hst : (w.set.makeSuperset sup sub).1 = false → (w.set.makeSuperset sup sub).2 = w.set := still_makeSuperset sup sub w.set
  have hpr : ∀ i, w.set.root i = i → w.set.pointees i = w.set.pts i := fun i hi => by unfold RSet.pointees; rw [hi]
  have hpr' : ∀ i, w.set.root i = i → (w.set.makeSuperset sup sub).2.pointees i = (w.set.makeSuperset sup sub).2.pts i := fun i hi => by
    unfold RSet.pointees; rw [g.same.root, hi]
  have hptsne : ∀ m, m ≠ sup → (w.set.makeSuperset sup sub).2.pts m = w.set.pts m := by
    intro m hm
    unfold RSet.makeSuperset
    simp only [hne, if_false]
    split
    · show (RSet.markPTE _ sup).2.pts m = _
      rw [markPTE_pts]
      show upd w.set.pts _ _ m = _
      rw [hr, upd_ne _ _ hm]
    · show upd w.set.pts _ _ m = _
      rw [hr, upd_ne _ _ hm]
  have hnp : ∀ m, m ≠ sup → (w.makeSuperset sup sub).2.newP m = w.newP m := by
    intro m hm
    show (if _ then upd w.newP sup _ else w.newP) m = _
    split
    · rw [upd_ne _ _ hm]
    · rfl
  have hmem : ∀ y, y ∈ (w.set.makeSuperset sup sub).2.pts sup ↔ y ∈ w.set.pts sup ∨ y ∈ w.set.pointees sub := by
    intro y
    have := g.pts sup y
    rw [hpr' sup hr, hpr sup hr] at this
    exact this.trans ⟨fun h => h.imp id And.right, fun h => h.imp id (fun h => ⟨rfl, h⟩)⟩
  have hnpS : ∀ y, y ∈ (w.makeSuperset sup sub).2.newP sup ↔ y ∈ w.newP sup ∨ (w.tracked sup = true ∧ y ∈ w.set.pointees sub ∧ y ∉ w.set.pts sup) := by
    intro y
    show y ∈ (if w.tracked sup = true then upd w.newP sup _ else w.newP) sup ↔ _
    split
    · rename_i ht
      rw [upd_same, mem_uni, List.mem_filter, hpr sup hr]
      simp [ht]
    · rename_i ht; simp [ht]
  refine { grow_set (w := w) (w' := (w.makeSuperset sup sub).2) g.same (fun i h => (g.pe i).trans h) (fun i h => (g.pte i).2 (.inl h))
      (fun i h => (g.esc i).trans h) (fun a y h => .inl ((g.pts a y).2 (.inl h))) rfl rfl rfl rfl rfl rfl rfl ?seen with
    wl := rfl, ref := rfl, queue_eq := rfl, edges_eq := rfl, esc_eq := g.esc, other := ?other, pts := fun _ h => h.elim, newOk := ?newOk, flag := ?flag }
  case seen =>
    intro m y hm h
    by_cases hmr : m = sup
    · subst hmr
      obtain ⟨k1, k2, k3⟩ := h
      rw [hnpS] at k3
      have k1' : w.tracked m = true := k1
      refine ⟨k1', ?_, fun h => k3 (.inl h)⟩
      rcases (hmem y).1 k2 with h | h
      · exact h
      · by_cases hy : y ∈ w.set.pts m
        · exact hy
        · exact absurd (.inr ⟨k1', h, hy⟩) k3
    · obtain ⟨k1, k2, k3⟩ := h
      rw [hnp m hmr] at k3
      have k2' : y ∈ (w.set.makeSuperset sup sub).2.pts m := k2
      rw [hptsne m hmr] at k2'
      exact ⟨k1, k2', k3⟩
  case other =>
    intro m hm hmr
    refine ⟨hptsne m hmr, hnp m hmr, rfl, ?_, g.pe m⟩
    refine Bool.eq_iff_iff.2 ((g.pte m).trans ⟨?_, .inl⟩)
    rintro (h | h)
    · exact h
    · rw [hm, hr] at h; exact absurd h.1 hmr
  case newOk =>
    intro hn m hm y hy
    show y ∈ (w.set.makeSuperset sup sub).2.pts m
    by_cases hmr : m = sup
    · subst hmr
      rw [hmem]
      exact ((hnpS y).1 hy).imp (hn m hm y) (fun h => h.2.1)
    · rw [hptsne m hmr]; rw [hnp m hmr] at hy; exact hn m hm y hy
  case flag =>
    intro hf
    have hf' : (w.set.makeSuperset sup sub).1 = false := hf
    have hs := hst hf'
    refine ⟨?_, ?_, rfl, ?_, ?_⟩
    · show (w.set.makeSuperset sup sub).2.pts sup = _; rw [hs]
    · show (if w.tracked sup = true then upd w.newP sup _ else w.newP) sup = _
      split
      · rw [upd_same]
        apply uni_of_subset
        intro y hy
        rw [List.mem_filter] at hy
        exfalso
        have : (w.set.makeSuperset sup sub).1 = true := hch.2 (.inl ⟨y, hy.1, by simpa using hy.2⟩)
        rw [this] at hf'; cases hf'
      · rfl
    · show (w.set.makeSuperset sup sub).2.pte sup = _; rw [hs]
    · show (w.set.makeSuperset sup sub).2.pe sup = _; rw [hs]

def none2 : Nat → Prop := fun _ => False

theorem linkEdge_inv {env : Env σ} (hd : DetOk env) {w : WS σ} (h : w.Inv P none2 none none2) {sup sub : Nat} (h1 : sup < w.set.n) (h2 : sub < w.set.n)
    (r1 : w.set.root sup = sup) (r2 : w.set.root sub = sub) (hne : sup ≠ sub) :
    (w.linkEdge env sup sub).Inv P none2 none none2 ∧ Ext w (w.linkEdge env sup sub) ∧ (w.linkEdge env sup sub).Sub0 sup sub ∧
    (w.linkEdge env sup sub).queue = w.queue := by
  unfold linkEdge
  split
  · rename_i hc
    rw [List.contains_iff_mem] at hc
    refine ⟨h, Ext.refl w, .inr (.inl ⟨sup, ?_, rfl⟩), rfl⟩
    rw [r2]; exact hc
  · obtain ⟨i1, x1, q1⟩ := insEdge_inv h (sub := sub) h1
    have e1 : sup ∈ (w.insEdge sup sub).edges sub := by
      show sup ∈ upd w.edges sub (ins (w.edges sub) sup) sub
      rw [upd_same, mem_ins]; exact .inr rfl
    have s1 : (w.insEdge sup sub).Sub0 sup sub := .inr (.inl ⟨sup, by show sup ∈ (w.insEdge sup sub).edges (w.set.root sub); rw [r2]; exact e1, rfl⟩)
    simp only []
    -- the online detector
    have hocd : ∃ b w2, (if env.opts.ocd then (w.insEdge sup sub).detect env sub sup else (false, w.insEdge sup sub)) = (b, w2) ∧
        ((b = true ∧ w2.Inv P none2 none none2 ∧ Ext w w2 ∧ w2.Sub0 sup sub ∧ w2.queue = w.queue) ∨
         (b = false ∧ ∃ d, w2 = { w.insEdge sup sub with det := d })) := by
      split
      · rcases detect_inv hd i1 (sub := sub) (sup := sup) h2 h1 r2 r1 (Ne.symm hne) ⟨sup, e1, r1⟩ (fun m h => h.elim) with ⟨d1, d, d2⟩ | ⟨d1, d2, d3, d4, d5⟩
        · exact ⟨_, _, rfl, .inr ⟨d1, d, d2⟩⟩
        · refine ⟨_, _, rfl, .inl ⟨d1, ?_, x1.trans d3, .inl d4.symm, d5⟩⟩
          refine Inv.discharge (sub := sub) (sup := sup) d2 ?_ ?_
          · exact fun x hx => Has.congr d4 hx
          · exact fun hx => (pte_congr _ d4).symm.trans hx
      · exact ⟨_, _, rfl, .inr ⟨rfl, _, rfl⟩⟩
    obtain ⟨b, w2, e2, hb⟩ := hocd
    rw [e2]
    rcases hb with ⟨rfl, k1, k2, k3, k4⟩ | ⟨rfl, d, hw2⟩
    · exact ⟨k1, k2, k3, k4⟩
    · simp only [Bool.false_eq_true, if_false]
      have i2 : w2.Inv P none2 (some (sub, sup)) none2 := by rw [hw2]; exact (det_tame (nd := none2) i1 d).1
      have x2 : Ext w w2 := by rw [hw2]; exact x1.trans (det_tame (nd := none2) i1 d).2.toExt
      have rt : w2.set.root = w.set.root := by rw [hw2]; rfl
      have hn2 : w2.set.n = w.set.n := x2.n
      have c := makeSuperset_chg (w := w2) (sup := sup) (sub := sub) (by rw [rt]; exact r1) (by rw [rt, r1, r2]; exact hne)
      have ok : SetOk (w2.makeSuperset sup sub).2.set := i2.ok.step (.makeSuperset sup sub) ⟨by show sup < w2.set.n; rw [hn2]; exact h1, by show sub < w2.set.n; rw [hn2]; exact h2⟩
      obtain ⟨i3, t3⟩ := c.pushed i2 (by rw [hn2]; exact h1) ok
      have g := makeSuperset_eff w2.set sup sub
      have hset : ∀ b : Bool, (if b then (w2.makeSuperset sup sub).2.push sup else (w2.makeSuperset sup sub).2).set = (w2.set.makeSuperset sup sub).2 := by
        intro b; cases b <;> rfl
      have hq : ∀ b : Bool, (if b then (w2.makeSuperset sup sub).2.push sup else (w2.makeSuperset sup sub).2).queue = w.queue := by
        intro b; cases b <;> · show w2.queue = _; rw [hw2]; exact q1
      generalize hw3 : (if (w2.makeSuperset sup sub).1 then (w2.makeSuperset sup sub).2.push sup else (w2.makeSuperset sup sub).2) = w3 at *
      have hset3 : w3.set = (w2.set.makeSuperset sup sub).2 := by rw [← hw3]; exact hset _
      have hq3 : w3.queue = w.queue := by rw [← hw3]; exact hq _
      have i4 : w3.Inv P none2 none none2 := by
        refine Inv.discharge (sub := sub) (sup := sup) i3 ?_ ?_
        · rw [hset3]
          intro x hx
          rcases hx with hx | ⟨hx1, hx2⟩
          · left
            rcases (g.pts sub x).1 hx with hx | ⟨_, hx⟩
            · exact (g.pts sup x).2 (.inr ⟨rfl, hx⟩)
            · exact (g.pts sup x).2 (.inr ⟨rfl, hx⟩)
          · right
            refine ⟨?_, hx2⟩
            rcases (g.pte sub).1 hx1 with hx | ⟨_, hx⟩
            · exact (g.pte sup).2 (.inr ⟨rfl, hx⟩)
            · exact (g.pte sup).2 (.inr ⟨rfl, hx⟩)
        · rw [hset3]
          intro hx1
          rcases (g.pte sub).1 hx1 with hx | ⟨_, hx⟩
          · exact (g.pte sup).2 (.inr ⟨rfl, hx⟩)
          · exact (g.pte sup).2 (.inr ⟨rfl, hx⟩)
      have x3 : Ext w w3 := x2.trans t3.toExt
      have s3 : w3.Sub0 sup sub := (by rw [hw2] at t3; exact ((det_tame (nd := none2) i1 d).2.toExt.trans t3.toExt).sub0 _ _ s1)
      split
      · have rt3 : w3.set.root = w.set.root := by rw [t3.same.root]; exact rt
        have e3 : w3.edges sub = (w.insEdge sup sub).edges sub := by
          rw [← hw3, hw2]
          cases (WS.makeSuperset sup sub { w.insEdge sup sub with det := d }).1 <;> rfl
        rcases detect_inv hd i4 (sub := sub) (sup := sup) (by rw [x3.n]; exact h2) (by rw [x3.n]; exact h1) (by rw [rt3]; exact r2) (by rw [rt3]; exact r1) (Ne.symm hne)
          ⟨sup, by rw [e3]; exact e1, by rw [rt3]; exact r1⟩ (fun m h => h.elim) with ⟨d1, d', d2⟩ | ⟨d1, d2, d3, d4, d5⟩
        · rw [d2]
          have tt := det_tame (nd := none2) i4 d'
          exact ⟨tt.1, x3.trans tt.2.toExt, tt.2.sub0 _ _ s3, hq3⟩
        · exact ⟨d2, x3.trans d3, .inl d4.symm, d5.trans hq3⟩
      · exact ⟨i4, x3, s3, hq3⟩

theorem Sub0.congr {w : WS σ} {a b c d : Nat} (h : w.Sub0 a b) (h1 : w.set.root a = w.set.root c) (h2 : w.set.root b = w.set.root d) : w.Sub0 c d := by
  unfold Sub0 at *
  rw [← h1, ← h2, ← pe_congr _ h2, ← pte_congr _ h1]; exact h

theorem markPE_queue (w : WS σ) (a : Nat) : (w.markPE a).queue = w.queue := by unfold markPE; dsimp only; split <;> rfl
theorem markPTE_queue (w : WS σ) (a : Nat) : (w.markPTE a).queue = w.queue := by unfold markPTE; dsimp only; split <;> rfl

theorem addEdge_inv {env : Env σ} (hd : DetOk env) {w : WS σ} (h : w.Inv P none2 none none2) {sup sub : Nat} (h1 : sup < w.set.n) (h2 : sub < w.set.n) :
    (w.addEdge env sup sub).Inv P none2 none none2 ∧ Ext w (w.addEdge env sup sub) ∧ (w.addEdge env sup sub).Sub0 sup sub ∧
    (w.addEdge env sup sub).queue = w.queue := by
  unfold addEdge
  simp only []
  split
  · rename_i hc; exact ⟨h, Ext.refl w, .inl hc, rfl⟩
  · rename_i hne
    split
    · rename_i hc
      simp only [Bool.and_eq_true] at hc
      refine ⟨h, Ext.refl w, .inr (.inr ⟨?_, ?_⟩), rfl⟩
      · rw [← pe_congr _ (h.idem sub)]; exact hc.2
      · rw [← pte_congr _ (h.idem sup)]; exact hc.1.2
    · split
      · rename_i hc
        simp only [Bool.and_eq_true] at hc
        obtain ⟨k1, k2, k3⟩ := markPE_tame (nd := none2) h (h.rlt h2)
        refine ⟨k1, k2.toExt, .inr (.inr ⟨?_, ?_⟩), markPE_queue _ _⟩
        · rw [pe_congr _ (show (w.markPE (w.set.root sub)).set.root sub = (w.markPE (w.set.root sub)).set.root (w.set.root sub) by rw [k2.same.root, h.idem])]
          exact k3
        · apply k2.pte
          rw [← pte_congr _ (h.idem sup)]; exact hc.1.2
      · obtain ⟨k1, k2, k3, k4⟩ := linkEdge_inv hd h (h.rlt h1) (h.rlt h2) (h.idem sup) (h.idem sub) hne
        exact ⟨k1, k2, k3.congr (k2.root _ _ (h.idem sup)) (k2.root _ _ (h.idem sub)), k4⟩

/-- which enumerations of hash sets are legal -/
def EnOk (env : Env σ) : Prop := ∀ {α : Type} (w : WS σ) (l : List α) (x : α), x ∈ env.en w l ↔ x ∈ l

theorem Inv.dropQueue {w : WS σ} (h : w.Inv P ex none exf) (hq : ∀ p ∈ w.queue, w.Sub0 p.1 p.2) :
    Inv P { w with queue := [] } ex none exf := by
  have hsub : ∀ a b, w.SubE a b → SubE { w with queue := [] } a b := by
    rintro a b (h1 | ⟨p, hp, h1, h2⟩)
    · exact .inl h1
    · exact .inl ((hq p hp).congr h1 h2)
  have hcall : ∀ c x, w.CallOk P.fn c x → CallOk P.fn { w with queue := [] } c x := fun c x hc =>
    ⟨hc.1, fun hk => ⟨fun k i a h1 h2 => hsub _ _ ((hc.2 hk).1 k i a h1 h2), fun k i a h1 h2 => hsub _ _ ((hc.2 hk).2 k i a h1 h2)⟩⟩
  refine { ok := h.ok, rng := { h.rng with queue := fun p hp => by cases hp }, n := h.n, kind := h.kind, basePts := h.basePts, basePE := h.basePE, basePTE := h.basePTE, baseSS := h.baseSS, baseLS := h.baseLS,
           baseEsc := h.baseEsc, baseConn := h.baseConn, newP := h.newP, xOk := h.xOk, peOk := h.peOk, obl := ?_, oblX := ?_, oblPE := h.oblPE, wlLt := h.wlLt,
           cover := ?_, cs := ?_, fns := h.fns }
  · intro m hr y hy
    have o := h.obl m hr y hy
    exact ⟨o.edges, fun v hv => hsub _ _ (o.stores v hv), fun v hv => hsub _ _ (o.loads v hv), fun c hc => hcall _ _ (o.calls c hc), o.ss, o.ls⟩
  · intro m hr hx
    have o := h.oblX m hr hx
    exact ⟨o.edges, o.stores, o.loads, o.calls⟩
  · intro m hm hr
    exact (h.cover m hm hr).imp id (fun hc => hc.imp id (fun hc => ⟨hc.pts, hc.pte, hc.pe⟩))
  · intro c hc
    have := h.cs c hc
    cases c with
    | superset a b => exact hsub _ _ this
    | store p v => exact this
    | load v p => exact this
    | call p c => exact this

theorem flush_inv {env : Env σ} (hd : DetOk env) (hen : EnOk env) {w : WS σ} (h : w.Inv P none2 none none2) :
    (w.flush env).Inv P none2 none none2 ∧ (w.flush env).queue = [] := by
  unfold flush
  simp only []
  have key : ∀ (l : List (Nat × Nat)) (w : WS σ), w.Inv P none2 none none2 → (∀ p ∈ l, p.1 < w.set.n ∧ p.2 < w.set.n) →
      (l.foldl (fun w p => w.addEdge env p.1 p.2) w).Inv P none2 none none2 ∧ Ext w (l.foldl (fun w p => w.addEdge env p.1 p.2) w) ∧
      (l.foldl (fun w p => w.addEdge env p.1 p.2) w).queue = w.queue ∧ ∀ p ∈ l, (l.foldl (fun w p => w.addEdge env p.1 p.2) w).Sub0 p.1 p.2 := by
    intro l
    induction l with
    | nil => intro w h _; exact ⟨h, Ext.refl w, rfl, fun p hp => by cases hp⟩
    | cons p l ih =>
      intro w h hl
      obtain ⟨k1, k2, k3, k4⟩ := addEdge_inv hd h (hl p (by simp)).1 (hl p (by simp)).2
      obtain ⟨g1, g2, g3, g4⟩ := ih _ k1 (fun q hq => by rw [k2.n]; exact hl q (by simp [hq]))
      refine ⟨g1, k2.trans g2, g3.trans k4, ?_⟩
      intro q hq
      rcases List.mem_cons.1 hq with rfl | hq
      · exact g2.sub0 _ _ k3
      · exact g4 q hq
  obtain ⟨g1, g2, g3, g4⟩ := key (env.en w w.queue) w h (fun p hp => h.rng.queue p ((hen w w.queue p).1 hp))
  exact ⟨g1.dropQueue fun p hp => g4 p ((hen w w.queue p).2 (by rw [g3] at hp; exact hp)), trivial⟩

end WS
end Jlm.Llvm.Aa
