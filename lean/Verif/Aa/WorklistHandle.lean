import Verif.Aa.WorklistSteps
/-
The handler of the worklist solver keeps the invariant.
-/
set_option linter.unusedSimpArgs false
set_option linter.unusedVariables false
set_option linter.unnecessarySeqFocus false
namespace Jlm.Llvm.Aa
namespace WS
variable {σ : Type}
variable {P : Problem} {ex : Nat → Prop} {e : Option (Nat × Nat)} {exf : Nat → Prop} {nd : Nat → Prop}

/-! ## The queue is only filled by the loops for stores, loads and calls -/

theorem foldl_queue {α : Type} {f : WS σ → α → WS σ} (h : ∀ w a, (f w a).queue = w.queue) : ∀ (l : List α) (w : WS σ), (l.foldl f w).queue = w.queue := by
  intro l
  induction l with
  | nil => intro w; rfl
  | cons a l ih => intro w; rw [List.foldl_cons, ih, h]

theorem escapedFn_queue (w : WS σ) (f : Fn) : (w.escapedFn f).queue = w.queue := by
  unfold escapedFn
  rw [foldl_queue, foldl_queue]
  · intro w a; split
    · rfl
    · exact markPTE_queue _ _
  · intro w a; split
    · rfl
    · exact markPE_queue _ _

theorem escapePointee_queue (env : Env σ) (w : WS σ) (x : Nat) : (w.escapePointee env x).queue = w.queue := by
  unfold escapePointee
  dsimp only
  split
  · rfl
  · split
    · split
      · exact escapedFn_queue _ _
      · rfl
    · show (ite _ _ _ : WS σ).queue = _
      split
      · exact escapedFn_queue _ _
      · rfl

theorem propagate_queue (env : Env σ) (w : WS σ) (r : Nat) (np : List Nat) (newX : Bool) : (w.propagate env r np newX).2.queue = w.queue := by
  unfold propagate
  simp only []
  have : ∀ (l : List Nat) (acc : Bool × WS σ), (l.foldl (fun (acc : Bool × WS σ) x => (acc.1 || (acc.2.addPointee env.opts.dp r x).1, (acc.2.addPointee env.opts.dp r x).2)) acc).2.queue = acc.2.queue := by
    intro l
    induction l with
    | nil => intro acc; rfl
    | cons a l ih => intro acc; rw [List.foldl_cons, ih]; rfl
  have h := this (env.en w np) (false, w)
  generalize (List.foldl _ (false, w) (env.en w np)) = p at h
  cases newX
  · simp only [Bool.false_eq_true, if_false]
    split <;> exact h
  · simp only [if_true]
    split <;> exact h

/-! ## The loop over the edges -/

theorem edgeLoop_inv {env : Env σ} (hd : DetOk env) (hen : EnOk env) {node : Nat} {np : List Nat} {newX pes : Bool} :
    ∀ (l : List Nat) {w : WS σ}, w.Inv P (· = node) none none2 → w.set.root node = node → node < w.set.n →
    (pes = true → w.set.pe node = true) → (∀ x ∈ np, x < w.set.n ∧ (w.set.obj x).kind ≠ .register) →
    (∀ s ∈ l, s < w.set.n) →
    (∀ s ∈ l, s ∈ w.edges node ∨ w.set.root s = node ∨ (env.opts.pip = true ∧ pes = true ∧ w.set.pte s = true)) →
    (edgeLoop env node np newX pes l w).2.queue = w.queue ∧
    (((edgeLoop env node np newX pes l w).1 = true ∧ (edgeLoop env node np newX pes l w).2.Inv P none2 none none2) ∨
     ((edgeLoop env node np newX pes l w).1 = false ∧ (edgeLoop env node np newX pes l w).2.Inv P (· = node) none none2 ∧
      Tame (· = node) w (edgeLoop env node np newX pes l w).2 ∧
      ∀ s ∈ l, s ∈ (edgeLoop env node np newX pes l w).2.edges node →
        (∀ x ∈ np, Has (edgeLoop env node np newX pes l w).2.set s x) ∧
        (newX = true → (edgeLoop env node np newX pes l w).2.set.pte s = true))) := by
  intro l
  induction l with
  | nil =>
    intro w h hr hn hpe hnp hl hs
    exact ⟨rfl, .inr ⟨rfl, h, Tame.refl _ w, fun s hs => by cases hs⟩⟩
  | cons s l ih =>
    intro w h hr hn hpe hnp hl hs
    -- continue in a state `w1`
    have cont : ∀ w1 : WS σ, w1.Inv P (· = node) none none2 → Tame (· = node) w w1 → w1.queue = w.queue →
        (∀ t ∈ l, t ∈ w.edges node → t ∈ w1.edges node ∨ t = s) →
        (∀ w2 : WS σ, Grow w1 w2 → s ∈ w2.edges node → (∀ x ∈ np, Has w2.set s x) ∧ (newX = true → w2.set.pte s = true)) →
        (s ∈ w1.edges node ∨ w.set.root s = node ∨ (env.opts.pip = true ∧ pes = true ∧ w.set.pte s = true)) →
        ((edgeLoop env node np newX pes l w1).2.queue = w.queue ∧
        (((edgeLoop env node np newX pes l w1).1 = true ∧ (edgeLoop env node np newX pes l w1).2.Inv P none2 none none2) ∨
         ((edgeLoop env node np newX pes l w1).1 = false ∧ (edgeLoop env node np newX pes l w1).2.Inv P (· = node) none none2 ∧
          Tame (· = node) w (edgeLoop env node np newX pes l w1).2 ∧
          ∀ t ∈ s :: l, t ∈ (edgeLoop env node np newX pes l w1).2.edges node →
            (∀ x ∈ np, Has (edgeLoop env node np newX pes l w1).2.set t x) ∧
            (newX = true → (edgeLoop env node np newX pes l w1).2.set.pte t = true)))) := by
      intro w1 i1 t1 q1 hk hF hsE
      have hpt : ∀ t, w.set.pte t = true → w1.set.pte t = true := t1.pte
      obtain ⟨q, k⟩ := ih i1 (by rw [t1.same.root]; exact hr) (by rw [t1.n]; exact hn) (fun hp => t1.pe _ (hpe hp))
        (fun x hx => by rw [t1.n, t1.kind]; exact hnp x hx) (fun t ht => by rw [t1.n]; exact hl t (by simp [ht])) (by
          intro t ht
          rw [t1.same.root]
          by_cases hts : t = s
          · subst hts
            exact hsE.imp id (fun h => h.imp id (fun h => ⟨h.1, h.2.1, hpt _ h.2.2⟩))
          · rcases hs t (by simp [ht]) with h | h | h
            · exact .inl ((hk t ht h).resolve_right hts)
            · exact .inr (.inl h)
            · exact .inr (.inr ⟨h.1, h.2.1, hpt _ h.2.2⟩))
      refine ⟨q.trans q1, k.imp id ?_⟩
      rintro ⟨k1, k2, k3, k4⟩
      refine ⟨k1, k2, t1.trans k3, ?_⟩
      intro t ht hte
      rcases List.mem_cons.1 ht with rfl | ht
      · exact hF _ k3.toGrow hte
      · exact k4 t ht hte
    have ersE : ∀ t ∈ l, t ∈ w.edges node → t ∈ (w.eraseEdge node s).edges node ∨ t = s := by
      intro t ht hte
      by_cases hts : t = s
      · exact .inr hts
      · left
        show t ∈ upd w.edges node ((w.edges node).filter (· ≠ s)) node
        rw [upd_same]; exact List.mem_filter.2 ⟨hte, by simpa using hts⟩
    have ersF : ∀ w2 : WS σ, Grow (w.eraseEdge node s) w2 → s ∈ w2.edges node → (∀ x ∈ np, Has w2.set s x) ∧ (newX = true → w2.set.pte s = true) := by
      intro w2 g hse
      have : s ∈ upd w.edges node ((w.edges node).filter (· ≠ s)) node := g.edges node s hse
      rw [upd_same] at this
      simp at this
    unfold edgeLoop
    simp only []
    split
    · rename_i hsp
      obtain ⟨i1, t1⟩ := eraseEdge_tame (nd := (· = node)) h hr (s := s) (.inl hsp)
      exact cont _ i1 t1 rfl ersE ersF (.inr (.inl hsp))
    · rename_i hsp
      have idem : w.set.root (w.set.root s) = w.set.root s := h.idem s
      split
      · rename_i hc
        simp only [Bool.and_eq_true] at hc
        have hps : w.set.pte s = true := by rw [← pte_congr _ idem]; exact hc.2
        obtain ⟨i1, t1⟩ := eraseEdge_tame (nd := (· = node)) h hr (s := s) (.inr ⟨hpe hc.1.2, hps⟩)
        exact cont _ i1 t1 rfl ersE ersF (.inr (.inr ⟨hc.1.1, hc.1.2, hps⟩))
      · rename_i hc
        obtain ⟨i1, t1, f1, f2⟩ := propagate_tame (nd := (· = node)) (env := env) (newX := newX) h idem (h.rlt (hl s (by simp))) hsp (np := np)
          (fun w x => hen w np x) hnp
        have qp := propagate_queue env w (w.set.root s) np newX
        generalize hb : (w.propagate env (w.set.root s) np newX).1 = b at *
        generalize hw1 : (w.propagate env (w.set.root s) np newX).2 = w1 at *
        have hse : s ∈ w.edges node := by
          rcases hs s (by simp) with h1 | h1 | h1
          · exact h1
          · exact absurd h1 hsp
          · exfalso; apply hc
            simp only [Bool.and_eq_true]
            exact ⟨⟨h1.1, h1.2.1⟩, by rw [pte_congr _ idem]; exact h1.2.2⟩
        have hed : w1.edges = w.edges := by
          rw [← hw1]
          unfold propagate
          simp only []
          have : ∀ (l : List Nat) (acc : Bool × WS σ), (l.foldl (fun (acc : Bool × WS σ) x => (acc.1 || (acc.2.addPointee env.opts.dp (w.set.root s) x).1, (acc.2.addPointee env.opts.dp (w.set.root s) x).2)) acc).2.edges = acc.2.edges := by
            intro l
            induction l with
            | nil => intro acc; rfl
            | cons a l ih => intro acc; rw [List.foldl_cons, ih]; rfl
          have h := this (env.en w np) (false, w)
          generalize (List.foldl _ (false, w) (env.en w np)) = p at h
          cases newX
          · simp only [Bool.false_eq_true, if_false]
            split <;> exact h
          · simp only [if_true]
            split <;> exact h
        have hF : ∀ w2 : WS σ, Grow w1 w2 → s ∈ w2.edges node → (∀ x ∈ np, Has w2.set s x) ∧ (newX = true → w2.set.pte s = true) := by
          intro w2 g _
          have hrr : w2.set.root (w.set.root s) = w2.set.root s := by rw [g.same.root, t1.same.root]; exact idem
          refine ⟨fun x hx => Has.congr hrr (g.has _ x (f1 x hx)), fun hx => ?_⟩
          rw [← pte_congr _ hrr]; exact g.pte _ (f2 hx)
        split
        · rename_i hlcd
          rcases detect_inv hd i1 (sub := node) (sup := w.set.root s) (by rw [t1.n]; exact hn) (by rw [t1.n]; exact h.rlt (hl s (by simp)))
            (by rw [t1.same.root]; exact hr) (by rw [t1.same.root]; exact idem) (Ne.symm hsp)
            ⟨s, by rw [hed]; exact hse, by rw [t1.same.root]⟩ (fun m h => h) with ⟨d1, d, d2⟩ | ⟨d1, d2, d3, d4, d5⟩
          · simp only [d1, Bool.false_eq_true, if_false]
            rw [d2]
            have tt := det_tame (nd := (· = node)) i1 d
            exact cont _ tt.1 (t1.trans tt.2) qp (fun t ht hte => .inl (by show t ∈ w1.edges node; rw [hed]; exact hte))
              (fun w2 g => hF w2 (tt.2.toGrow.trans g)) (.inl (by show s ∈ w1.edges node; rw [hed]; exact hse))
          · simp only [d1, if_true]
            exact ⟨d5.trans qp, .inl ⟨trivial, d2⟩⟩
        · simp only [Bool.false_eq_true, if_false]
          exact cont _ i1 t1 qp (fun t ht hte => .inl (by rw [hed]; exact hte)) hF (.inl (by rw [hed]; exact hse))

/-! ## The other loops -/

theorem storeLoop_inv {env : Env σ} (hen : EnOk env) {node : Nat} {np : List Nat} {newX : Bool} {w : WS σ} (h : w.Inv P ex e exf)
    (hnp : ∀ x ∈ np, x < w.set.n) :
    (w.storeLoop env node np newX).Inv P ex e exf ∧ Tame nd w (w.storeLoop env node np newX) ∧
    ∀ v ∈ w.stores node, (∀ x ∈ np, (w.storeLoop env node np newX).SubE x v) ∧ (newX = true → (w.storeLoop env node np newX).set.pe v = true) := by
  unfold storeLoop
  obtain ⟨h1, h2, h3⟩ := foldl_tame (P := P) (ex := ex) (e := e) (exf := exf) (nd := nd)
    (F := fun v (w : WS σ) => (∀ x ∈ np, w.SubE x v) ∧ (newX = true → w.set.pe v = true))
    (f := fun w v =>
      let w := (env.en w np).foldl (fun w x => w.queueEdge x v) w
      if newX then w.markPE v else w) (fun a w w' t ha => ⟨fun x hx => t.sub (ha.1 x hx), fun hx => t.pe _ (ha.2 hx)⟩) (env.en w (w.stores node)) h
    (fun v hv w' hw' t => by
      have hvn : v < w'.set.n := by rw [t.n]; exact h.rng.stores node v ((hen w _ v).1 hv)
      obtain ⟨g1, g2, g3⟩ := foldl_tame (P := P) (ex := ex) (e := e) (exf := exf) (nd := nd) (F := fun x (w : WS σ) => w.SubE x v)
        (f := fun w x => w.queueEdge x v) (fun a w w' t ha => t.sub ha) (env.en w' np) hw'
        (fun x hx w2 hw2 t2 => queueEdge_tame hw2 (by rw [t2.n, t.n]; exact hnp x ((hen w' _ x).1 hx)) (by rw [t2.n]; exact hvn))
      simp only []
      split
      · rename_i hx
        obtain ⟨k1, k2, k3⟩ := markPE_tame (nd := nd) g1 (a := v) (by rw [g2.n]; exact hvn)
        exact ⟨k1, g2.trans k2, fun x hx => k2.sub (g3 x ((hen w' _ x).2 hx)), fun _ => k3⟩
      · rename_i hx
        exact ⟨g1, g2, fun x hx => g3 x ((hen w' _ x).2 hx), fun h => absurd h hx⟩)
  exact ⟨h1, h2, fun v hv => h3 v ((hen w _ v).2 hv)⟩

theorem loadLoop_inv {env : Env σ} (hen : EnOk env) {node : Nat} {np : List Nat} {newX : Bool} {w : WS σ} (h : w.Inv P ex e exf)
    (hnp : ∀ x ∈ np, x < w.set.n) :
    (w.loadLoop env node np newX).Inv P ex e exf ∧ Tame nd w (w.loadLoop env node np newX) ∧
    ∀ v ∈ w.loads node, (∀ x ∈ np, (w.loadLoop env node np newX).SubE v x) ∧ (newX = true → (w.loadLoop env node np newX).set.pte v = true) := by
  unfold loadLoop
  obtain ⟨h1, h2, h3⟩ := foldl_tame (P := P) (ex := ex) (e := e) (exf := exf) (nd := nd)
    (F := fun v (w : WS σ) => (∀ x ∈ np, w.SubE v x) ∧ (newX = true → w.set.pte v = true))
    (f := fun w v =>
      let w := (env.en w np).foldl (fun w x => w.queueEdge v x) w
      if newX then w.markPTE v else w) (fun a w w' t ha => ⟨fun x hx => t.sub (ha.1 x hx), fun hx => t.pte _ (ha.2 hx)⟩) (env.en w (w.loads node)) h
    (fun v hv w' hw' t => by
      have hvn : v < w'.set.n := by rw [t.n]; exact h.rng.loads node v ((hen w _ v).1 hv)
      obtain ⟨g1, g2, g3⟩ := foldl_tame (P := P) (ex := ex) (e := e) (exf := exf) (nd := nd) (F := fun x (w : WS σ) => w.SubE v x)
        (f := fun w x => w.queueEdge v x) (fun a w w' t ha => t.sub ha) (env.en w' np) hw'
        (fun x hx w2 hw2 t2 => queueEdge_tame hw2 (by rw [t2.n]; exact hvn) (by rw [t2.n, t.n]; exact hnp x ((hen w' _ x).1 hx)))
      simp only []
      split
      · rename_i hx
        obtain ⟨k1, k2, k3⟩ := markPTE_tame (nd := nd) g1 (a := v) (by rw [g2.n]; exact hvn)
        exact ⟨k1, g2.trans k2, fun x hx => k2.sub (g3 x ((hen w' _ x).2 hx)), fun _ => k3⟩
      · rename_i hx
        exact ⟨g1, g2, fun x hx => g3 x ((hen w' _ x).2 hx), fun h => absurd h hx⟩)
  exact ⟨h1, h2, fun v hv => h3 v ((hen w _ v).2 hv)⟩

theorem callLoop_inv {env : Env σ} (hen : EnOk env) (hfn : env.fn = P.fn) (hr : P.InRange) {node : Nat} {np : List Nat} {newX : Bool} {w : WS σ} (h : w.Inv P ex e exf)
    (hnp : ∀ x ∈ np, x < w.set.n) :
    (w.callLoop env node np newX).Inv P ex e exf ∧ Tame nd w (w.callLoop env node np newX) ∧
    ∀ c ∈ w.calls node, (∀ x ∈ np, (w.callLoop env node np newX).CallOk P.fn c x) ∧ (newX = true → (w.callLoop env node np newX).CallExtOk c) := by
  unfold callLoop
  obtain ⟨h1, h2, h3⟩ := foldl_tame (P := P) (ex := ex) (e := e) (exf := exf) (nd := nd)
    (F := fun c (w : WS σ) => (∀ x ∈ np, w.CallOk P.fn c x) ∧ (newX = true → w.CallExtOk c))
    (f := fun w c =>
      let w := (env.en w np).foldl (fun w x => w.callTarget env c x) w
      if newX then w.callExternal c else w) (fun a w w' t ha => ⟨fun x hx => t.callOk (ha.1 x hx), fun hx => t.callExt (ha.2 hx)⟩) (env.en w (w.calls node)) h
    (fun c hc w' hw' t => by
      have hcn : c.InRange w'.set.n := by rw [t.n]; exact h.rng.calls node c ((hen w _ c).1 hc)
      obtain ⟨g1, g2, g3⟩ := foldl_tame (P := P) (ex := ex) (e := e) (exf := exf) (nd := nd) (F := fun x (w : WS σ) => w.CallOk P.fn c x)
        (f := fun w x => w.callTarget env c x) (fun a w w' t ha => t.callOk ha) (env.en w' np) hw'
        (fun x hx w2 hw2 t2 => callTarget_tame hw2 hfn hr (by rw [t2.n]; exact hcn) (by rw [t2.n, t.n]; exact hnp x ((hen w' _ x).1 hx)))
      simp only []
      split
      · rename_i hx
        obtain ⟨k1, k2, k3⟩ := callExternal_tame (nd := nd) g1 (c := c) (by rw [g2.n]; exact hcn)
        exact ⟨k1, g2.trans k2, fun x hx => k2.callOk (g3 x ((hen w' _ x).2 hx)), fun _ => k3⟩
      · rename_i hx
        exact ⟨g1, g2, fun x hx => g3 x ((hen w' _ x).2 hx), fun h => absurd h hx⟩)
  exact ⟨h1, h2, fun v hv => h3 v ((hen w _ v).2 hv)⟩

theorem ssLoop_inv {env : Env σ} (hen : EnOk env) {node : Nat} {np : List Nat} {w : WS σ} (h : w.Inv P ex e exf)
    (hnp : ∀ x ∈ np, x < w.set.n) :
    (w.ssLoop env node np).Inv P ex e exf ∧ Tame nd w (w.ssLoop env node np) ∧
    (w.set.ss node = true → ∀ x ∈ np, (w.ssLoop env node np).set.pte x = true ∨ (w.ssLoop env node np).set.pe node = true) := by
  unfold ssLoop
  split
  · obtain ⟨g1, g2, g3⟩ := foldl_tame (P := P) (ex := ex) (e := e) (exf := exf) (nd := nd) (F := fun x (w : WS σ) => w.set.pte x = true)
      (f := fun w x => w.markPTE x) (fun a w w' t ha => t.pte _ ha) (env.en w np) h
      (fun x hx w2 hw2 t2 => markPTE_tame hw2 (by rw [t2.n]; exact hnp x ((hen w _ x).1 hx)))
    exact ⟨g1, g2, fun _ x hx => .inl (g3 x ((hen w _ x).2 hx))⟩
  · rename_i hc
    refine ⟨h, Tame.refl nd w, fun hs x _ => .inr ?_⟩
    simpa [hs] using hc

theorem lsLoop_inv {env : Env σ} (hen : EnOk env) {node : Nat} {np : List Nat} {w : WS σ} (h : w.Inv P ex e exf)
    (hnp : ∀ x ∈ np, x < w.set.n) :
    (w.lsLoop env node np).Inv P ex e exf ∧ Tame nd w (w.lsLoop env node np) ∧
    (w.set.ls node = true → ∀ x ∈ np, (w.lsLoop env node np).set.pe x = true ∨ (w.lsLoop env node np).set.pe node = true) := by
  unfold lsLoop
  split
  · obtain ⟨g1, g2, g3⟩ := foldl_tame (P := P) (ex := ex) (e := e) (exf := exf) (nd := nd) (F := fun x (w : WS σ) => w.set.pe x = true)
      (f := fun w x => w.markPE x) (fun a w w' t ha => t.pe _ ha) (env.en w np) h
      (fun x hx w2 hw2 t2 => markPE_tame hw2 (by rw [t2.n]; exact hnp x ((hen w _ x).1 hx)))
    exact ⟨g1, g2, fun _ x hx => .inl (g3 x ((hen w _ x).2 hx))⟩
  · rename_i hc
    refine ⟨h, Tame.refl nd w, fun hs x _ => .inr ?_⟩
    simpa [hs] using hc

/-! ## The end of the handler -/

theorem settle_inv {w : WS σ} {node : Nat} {newX newPE : Bool} (h : w.Inv P (· = node) none none2) (hr : w.set.root node = node) (hn : node < w.set.n)
    (hobl : ∀ x ∈ w.set.pts node, w.Obl P.fn none node x)
    (hX : newX = true → w.OblX none node ∧ w.set.pte node = true)
    (hPE : newPE = true → w.set.pe node = true)
    (hesc : newPE = true ∨ w.peSeen node = true → ∀ x ∈ w.set.pts node, w.set.escaped x = true)
    (hx2 : newX = false → w.wl node = true ∨ w.set.pte node = false ∨ w.xSeen node = true)
    (hpe2 : newPE = false → w.wl node = true ∨ w.set.pe node = false ∨ w.peSeen node = true) :
    (w.settle node newX newPE).Inv P none2 none none2 := by
  have hnp : ∀ m, (w.settle node newX newPE).newP m = if m = node then [] else w.newP m := fun m => by
    show upd w.newP node [] m = _
    by_cases h : m = node
    · subst h; rw [upd_same, if_pos rfl]
    · rw [upd_ne _ _ h, if_neg h]
  have htr : ∀ m, (w.settle node newX newPE).tracked m = if m = node then true else w.tracked m := fun m => by
    show upd w.tracked node true m = _
    by_cases h : m = node
    · subst h; rw [upd_same, if_pos rfl]
    · rw [upd_ne _ _ h, if_neg h]
  have hxs : ∀ m, (w.settle node newX newPE).xSeen m = if m = node ∧ newX = true then true else w.xSeen m := fun m => by
    show (if newX = true then upd w.xSeen node true else w.xSeen) m = _
    by_cases h : m = node
    · subst h; cases newX <;> simp [upd_same]
    · cases newX <;> simp [h, upd_ne _ _ h]
  have hps : ∀ m, (w.settle node newX newPE).peSeen m = if m = node ∧ newPE = true then true else w.peSeen m := fun m => by
    show (if newPE = true then upd w.peSeen node true else w.peSeen) m = _
    by_cases h : m = node
    · subst h; cases newPE <;> simp [upd_same]
    · cases newPE <;> simp [h, upd_ne _ _ h]
  have hseen : ∀ m, m ≠ node → ∀ x, (w.settle node newX newPE).Seen m x ↔ w.Seen m x := by
    intro m hm x
    unfold Seen
    rw [htr, hnp, if_neg hm, if_neg hm]; rfl
  have x : Ext w (w.settle node newX newPE) :=
    ⟨rfl, fun _ => rfl, fun _ _ h => h, fun _ h => h, fun _ h => h, fun _ h => h, fun _ _ h => h, fun _ _ h => h, fun _ h => h⟩
  have ho : ∀ m y, w.Obl P.fn none m y → (w.settle node newX newPE).Obl P.fn none m y := fun m y o =>
    ⟨o.edges, fun v hv => x.sub (o.stores v hv), fun v hv => x.sub (o.loads v hv), fun c hc => x.callOk (o.calls c hc), o.ss, o.ls⟩
  refine { ok := h.ok, rng := ⟨h.rng.edges, h.rng.stores, h.rng.loads, h.rng.calls, h.rng.queue, h.rng.ref⟩, n := h.n, kind := h.kind, basePts := h.basePts, basePE := h.basePE, basePTE := h.basePTE, baseSS := h.baseSS, baseLS := h.baseLS,
           baseEsc := h.baseEsc, baseConn := h.baseConn, newP := ?_, xOk := ?_, peOk := ?_, obl := ?_, oblX := ?_, oblPE := ?_, wlLt := h.wlLt,
           cover := ?_, cs := ?_, fns := h.fns }
  · intro m hm y hy
    rw [hnp] at hy
    split at hy
    · cases hy
    · exact h.newP m hm y hy
  · intro m hm hy
    rw [hxs] at hy
    split at hy
    · rename_i hc; rw [hc.1]; exact (hX hc.2).2
    · exact h.xOk m hm hy
  · intro m hm hy
    rw [hps] at hy
    split at hy
    · rename_i hc; rw [hc.1]; exact hPE hc.2
    · exact h.peOk m hm hy
  · intro m hm y hy
    by_cases hc : m = node
    · subst hc; exact ho _ _ (hobl y hy.2.1)
    · exact ho _ _ (h.obl m hm y ((hseen m hc y).1 hy))
  · intro m hm hy
    rw [hxs] at hy
    have : w.OblX none m := by
      split at hy
      · rename_i hc; rw [hc.1]; exact (hX hc.2).1
      · exact h.oblX m hm hy
    exact ⟨this.edges, this.stores, this.loads, this.calls⟩
  · intro m hm hy y hs
    by_cases hc : m = node
    · subst hc
      rw [hps] at hy
      refine hesc ?_ y hs.2.1
      split at hy
      · rename_i hc; exact .inl hc.2
      · exact .inr hy
    · rw [hps, if_neg (fun h => hc h.1)] at hy
      exact h.oblPE m hm hy y ((hseen m hc y).1 hs)
  · intro m hm hmr
    by_cases hc : m = node
    · subst hc
      have k1 : w.wl m = true ∨ (w.set.pte m = true → (w.settle m newX newPE).xSeen m = true) := by
        rw [hxs]
        cases newX with
        | true => right; simp
        | false =>
          rcases hx2 rfl with h | h | h
          · exact .inl h
          · right; intro h2; rw [h] at h2; cases h2
          · right; simp [h]
      have k2 : w.wl m = true ∨ (w.set.pe m = true → (w.settle m newX newPE).peSeen m = true) := by
        rw [hps]
        cases newPE with
        | true => right; simp
        | false =>
          rcases hpe2 rfl with h | h | h
          · exact .inl h
          · right; intro h2; rw [h] at h2; cases h2
          · right; simp [h]
      rcases k1 with k1 | k1
      · exact .inl k1
      · rcases k2 with k2 | k2
        · exact .inl k2
        · refine .inr (.inr ⟨?_, k1, k2⟩)
          intro y hy
          exact ⟨by rw [htr, if_pos rfl], hy, by rw [hnp, if_pos rfl]; simp⟩
    · rcases h.cover m hm hmr with h1 | h1 | h1
      · exact .inl h1
      · exact absurd h1 hc
      · refine .inr (.inr ⟨fun y hy => (hseen m hc y).2 (h1.pts y hy), ?_, ?_⟩)
        · rw [hxs, if_neg (fun h => hc h.1)]; exact h1.pte
        · rw [hps, if_neg (fun h => hc h.1)]; exact h1.pe
  · intro c hc
    have := h.cs c hc
    cases c with
    | superset a b => exact x.sub this
    | store p v => exact this
    | load v p => exact this
    | call p c => exact this

theorem removeAll_inv {w : WS σ} {node : Nat} (h : w.Inv P (· = node) none none2) (hr : w.set.root node = node) (hn : node < w.set.n)
    (hp : w.set.pte node = true) (hesc : ∀ x ∈ w.set.pts node, w.set.escaped x = true) :
    (w.removeAll node).Inv P (· = node) none none2 ∧ Grow w (w.removeAll node) ∧ (w.removeAll node).set.pts node = [] := by
  have hpts : ∀ m, (w.removeAll node).set.pts m = if m = node then [] else w.set.pts m := fun m => by
    show upd w.set.pts (w.set.root node) [] m = _
    rw [hr]
    by_cases h : m = node
    · subst h; rw [upd_same, if_pos rfl]
    · rw [upd_ne _ _ h, if_neg h]
  have hnp : ∀ m, (w.removeAll node).newP m = if m = node then [] else w.newP m := fun m => by
    show upd w.newP node [] m = _
    by_cases h : m = node
    · subst h; rw [upd_same, if_pos rfl]
    · rw [upd_ne _ _ h, if_neg h]
  have htr : ∀ m, (w.removeAll node).tracked m = if m = node then false else w.tracked m := fun m => by
    show upd w.tracked node false m = _
    by_cases h : m = node
    · subst h; rw [upd_same, if_pos rfl]
    · rw [upd_ne _ _ h, if_neg h]
  have g : Grow w (w.removeAll node) := by
    refine grow_set (w := w) (w' := w.removeAll node) ⟨rfl, rfl, fun _ => rfl, fun _ => rfl, fun _ => rfl⟩ (fun _ h => h) (fun _ h => h) (fun _ h => h) ?_ rfl rfl rfl rfl rfl rfl rfl ?_
    · intro a x hx
      by_cases ha : w.set.root a = node
      · right
        have hx' : x ∈ w.set.pts (w.set.root a) := hx
        rw [ha] at hx'
        refine ⟨?_, hesc x hx'⟩
        show w.set.pte a = true
        rw [pte_congr _ (show w.set.root a = w.set.root node by rw [ha, hr])]; exact hp
      · left
        show x ∈ (w.removeAll node).set.pts (w.set.root a)
        rw [hpts, if_neg ha]; exact hx
    · intro m x hm hs
      unfold Seen at *
      rw [htr, hnp, hpts] at hs
      by_cases hc : m = node
      · simp [hc] at hs
      · simpa only [if_neg hc] using hs
  refine ⟨?_, g, by rw [hpts, if_pos rfl]⟩
  refine h.grow g (h.ok.step (.removeAll node) hn) h.rng.queue rfl ?_ h.wlLt ?_ (fun f hf _ _ hx => .inl ⟨hf, hx⟩)
  · intro m hm x hx
    rw [hnp] at hx
    rw [hpts]
    by_cases hc : m = node
    · simp [hc] at hx
    · rw [if_neg hc] at hx ⊢; exact h.newP m hm x hx
  · intro m _ hm hc
    by_cases hmn : m = node
    · exact .inr (.inl hmn)
    · refine hc.imp id (fun hc => hc.imp id (fun hc => hc.same g ⟨?_, ?_, ?_, rfl, rfl⟩))
      · rw [hpts, if_neg hmn]
      · rw [hnp, if_neg hmn]
      · rw [htr, if_neg hmn]

theorem handleRest_inv {env : Env σ} (hd : DetOk env) (hen : EnOk env) (hfn : env.fn = P.fn) (hrg : P.InRange) {w : WS σ} {node : Nat} {np : List Nat} {newX : Bool}
    (h : w.Inv P (· = node) none none2) (hr : w.set.root node = node) (hn : node < w.set.n) (hq : w.queue = [])
    (hnp : ∀ x ∈ np, x ∈ w.set.pts node) (hcov : ∀ x ∈ w.set.pts node, x ∈ np ∨ w.Seen node x)
    (hX1 : newX = true → w.set.pte node = true) (hX0 : newX = false → w.set.pte node = false ∨ w.xSeen node = true) :
    (w.handleRest env node np newX).Inv P none2 none none2 ∧ (w.handleRest env node np newX).queue = [] := by
  unfold handleRest
  simp only []
  -- the flag of prefer-implicit-pointees
  have st1 : (w.pipMark env node).Inv P (· = node) none none2 ∧ Grow w (w.pipMark env node) ∧ (w.pipMark env node).set.pts = w.set.pts ∧
      (w.pipMark env node).set.pte node = w.set.pte node ∧ (w.pipMark env node).queue = [] := by
    unfold pipMark
    split
    · rename_i hc
      simp only [Bool.and_eq_true, Bool.not_eq_true'] at hc
      have hs : w.set.setPE node = (w.set.markPE node).2 := by unfold RSet.markPE; rw [hc.1.2]; rfl
      have c := markPE_chg (nd := (· = node)) w node hr
      rw [hs]
      exact ⟨(h.chg c (h.ok.step (.markPE node) hn)).mono (fun m hm => hm.elim id And.right), c.toGrow, markPE_pts _ _, (markPE_eff w.set node).pte node, hq⟩
    · exact ⟨h, Grow.refl w, rfl, rfl, hq⟩
  generalize w.pipMark env node = w1 at st1
  obtain ⟨i1, g1, p1, x1, q1⟩ := st1
  have hr1 : w1.set.root node = node := by rw [g1.same.root]; exact hr
  have hn1 : node < w1.set.n := by rw [g1.n]; exact hn
  generalize hpes : w1.set.pe node = pes
  generalize hnewPE : (if env.opts.dp = true then pes && !w1.peSeen node else pes) = newPE
  have hPE1 : newPE = true → pes = true := by
    intro h1; rw [← hnewPE] at h1; split at h1
    · simp only [Bool.and_eq_true] at h1; exact h1.1
    · exact h1
  have hPE0 : newPE = false → pes = false ∨ w1.peSeen node = true := by
    intro h1; rw [← hnewPE] at h1; split at h1
    · simp only [Bool.and_eq_false_iff, Bool.not_eq_false'] at h1; exact h1
    · exact .inl h1
  have hmo : ∀ {w' : WS σ}, SetOk w'.set → w'.set.root node = node → ∀ x ∈ w'.set.pts node, x < w'.set.n ∧ (w'.set.obj x).kind ≠ .register := by
    intro w' ok hr' x hx
    refine ok.2.ptsLt node x ?_
    show x ∈ w'.set.pts (w'.set.root node)
    rw [hr']; exact hx
  -- escaping pointees
  have st2 : ∃ w2, (if pes = true then List.foldl (fun w x => escapePointee env x w) w1 (env.en w1 (if newPE = true then w1.set.pointees node else np)) else w1) = w2 ∧
      w2.Inv P (· = node) none none2 ∧ Tame (· = node) w1 w2 ∧ w2.queue = [] ∧ (pes = true → ∀ x ∈ w2.set.pts node, w2.set.escaped x = true) := by
    refine ⟨_, rfl, ?_⟩
    split
    · rename_i hp
      have hl : ∀ x ∈ (if newPE = true then w1.set.pointees node else np), x ∈ w1.set.pts node := by
        intro x hx
        split at hx
        · have hx' : x ∈ w1.set.pts (w1.set.root node) := hx
          rw [hr1] at hx'; exact hx'
        · rw [p1]; exact hnp x hx
      obtain ⟨k1, k2, k3⟩ := foldl_tame (P := P) (ex := (· = node)) (e := none) (exf := none2) (nd := (· = node)) (F := fun x (w : WS σ) => w.set.escaped x = true)
        (f := fun w x => w.escapePointee env x) (fun a w w' t ha => t.esc _ ha) (env.en w1 (if newPE = true then w1.set.pointees node else np)) i1
        (fun x hx w2 hw2 t2 => by
          have := hmo i1.ok hr1 x (hl x ((hen w1 _ x).1 hx))
          exact escapePointee_tame hw2 hfn hrg (by rw [t2.n]; exact this.1) (by rw [t2.kind]; exact this.2))
      refine ⟨k1, k2, ?_, fun _ => ?_⟩
      · rw [foldl_queue (fun w a => escapePointee_queue env w a)]; exact q1
      · intro x hx
        rw [k2.pts node rfl] at hx
        by_cases hne : newPE = true
        · refine k3 x ((hen w1 _ x).2 ?_)
          rw [if_pos hne]
          show x ∈ w1.set.pts (w1.set.root node)
          rw [hr1]; exact hx
        · rw [p1] at hx
          rcases hcov x hx with hc | hc
          · refine k3 x ((hen w1 _ x).2 ?_)
            rw [if_neg hne]; exact hc
          · have : w1.peSeen node = true := by
              rcases hPE0 (by simpa using hne) with h1 | h1
              · rw [h1] at hp; cases hp
              · exact h1
            rw [g1.peSeen] at this
            exact k2.esc x (g1.esc x (h.oblPE node hr this x hc))
    · rename_i hp
      exact ⟨i1, Tame.refl _ _, q1, fun h => absurd h hp⟩
  obtain ⟨w2, e2, i2, t2, q2, f2⟩ := st2
  rw [e2]
  have hr2 : w2.set.root node = node := by rw [t2.same.root]; exact hr1
  have hn2 : node < w2.set.n := by rw [t2.n]; exact hn1
  -- removal of the explicit pointees
  generalize hrem : (env.opts.pip && w2.set.pte node && w2.set.pe node) = rem
  have st3 : ∃ w3 np3, (if rem = true then WS.removeAll node w2 else w2) = w3 ∧ (if rem = true then [] else np) = np3 ∧
      w3.Inv P (· = node) none none2 ∧ Grow w2 w3 ∧ w3.queue = [] ∧ w3.wl = w2.wl ∧ w3.set.pte node = w2.set.pte node ∧ w3.set.pe node = w2.set.pe node ∧
      (∀ x ∈ np3, x ∈ w3.set.pts node) ∧ (∀ x ∈ w3.set.pts node, x ∈ np3 ∨ w.Seen node x) ∧ (∀ x ∈ w3.set.pts node, x ∈ w2.set.pts node) ∧
      ((w2.wl node = true ∨ pes = true) ∨ rem = false) := by
    refine ⟨_, _, rfl, rfl, ?_⟩
    cases rem with
    | true =>
      simp only [if_true]
      simp only [Bool.and_eq_true] at hrem
      have hpe2 : pes = true := by
        cases hp : pes with
        | true => rfl
        | false =>
          exfalso
          have : w2 = w1 := by rw [← e2, hp]; rfl
          rw [this, hpes, hp] at hrem
          exact absurd hrem.2 (by simp)
      obtain ⟨k1, k2, k3⟩ := removeAll_inv i2 hr2 hn2 hrem.1.2 (f2 hpe2)
      refine ⟨k1, k2, q2, rfl, rfl, rfl, (fun x hx => by cases hx), ?_, ?_, .inl (.inr hpe2)⟩
      · intro x hx; rw [k3] at hx; cases hx
      · intro x hx; rw [k3] at hx; cases hx
    | false =>
      simp only [Bool.false_eq_true, if_false]
      have hpp : w2.set.pts node = w.set.pts node := by rw [t2.pts node rfl, p1]
      refine ⟨i2, Grow.refl _, q2, trivial, trivial, trivial, fun x hx => by rw [hpp]; exact hnp x hx, fun x hx => ?_, fun x hx => hx, .inr trivial⟩
      rw [hpp] at hx; exact hcov x hx
  obtain ⟨w3, np3, e3, e3', i3, g3, q3, wl3, x3, pe3, hnp3, hcov3, hpts3, _⟩ := st3
  rw [e3, e3']
  have hr3 : w3.set.root node = node := by rw [g3.same.root]; exact hr2
  have hn3 : node < w3.set.n := by rw [g3.n]; exact hn2
  have hnpr : ∀ x ∈ np3, x < w3.set.n ∧ (w3.set.obj x).kind ≠ .register := fun x hx => hmo i3.ok hr3 x (hnp3 x hx)
  -- the edges
  obtain ⟨qe, he⟩ := edgeLoop_inv hd hen (node := node) (np := np3) (newX := newX) (pes := pes) (env.en w3 (w3.edges node)) i3 hr3 hn3
    (fun hp => by rw [pe3]; exact t2.pe _ (by rw [hpes]; exact hp)) hnpr (fun s hs => i3.rng.edges node s ((hen w3 _ s).1 hs))
    (fun s hs => .inl ((hen w3 _ s).1 hs))
  rcases he with ⟨he1, he2⟩ | ⟨he1, i4, t4, f4⟩
  · rw [if_pos he1]
    exact ⟨he2, qe.trans q3⟩
  · rw [if_neg (by rw [he1]; simp)]
    generalize (edgeLoop env node np3 newX pes (env.en w3 (w3.edges node)) w3).2 = w4 at *
    have hl : ∀ {w' : WS σ}, w'.set.n = w3.set.n → ∀ x ∈ np3, x < w'.set.n := fun hh x hx => by rw [hh]; exact (hnpr x hx).1
    obtain ⟨i5, t5, f5⟩ := storeLoop_inv (nd := (· = node)) hen (node := node) (np := np3) (newX := newX) i4 (hl t4.n)
    generalize w4.storeLoop env node np3 newX = w5 at *
    have t35 := t4.trans t5
    obtain ⟨i6, t6, f6⟩ := ssLoop_inv (nd := (· = node)) hen (node := node) (np := np3) i5 (hl t35.n)
    generalize w5.ssLoop env node np3 = w6 at *
    have t36 := t35.trans t6
    obtain ⟨i7, t7, f7⟩ := loadLoop_inv (nd := (· = node)) hen (node := node) (np := np3) (newX := newX) i6 (hl t36.n)
    generalize w6.loadLoop env node np3 newX = w7 at *
    have t37 := t36.trans t7
    obtain ⟨i8, t8, f8⟩ := lsLoop_inv (nd := (· = node)) hen (node := node) (np := np3) i7 (hl t37.n)
    generalize w7.lsLoop env node np3 = w8 at *
    have t38 := t37.trans t8
    obtain ⟨i9, t9, f9⟩ := callLoop_inv (nd := (· = node)) hen hfn hrg (node := node) (np := np3) (newX := newX) i8 (hl t38.n)
    generalize w8.callLoop env node np3 newX = w9 at *
    have t39 := t38.trans t9
    have t89 := t9
    have t79 := t8.trans t89
    have t69 := t7.trans t79
    have t59 := t6.trans t69
    have t49 := t5.trans t59
    -- growth from the beginning
    have g09 : Grow w w9 := (((g1.trans t2.toGrow).trans g3).trans t39.toGrow)
    have g19 : Grow w1 w9 := ((t2.toGrow).trans g3).trans t39.toGrow
    have hpts9 : w9.set.pts node = w3.set.pts node := t39.pts node rfl
    have hedges : ∀ s ∈ w9.edges node, (∀ x ∈ np3, Has w9.set s x) ∧ (newX = true → w9.set.pte s = true) := by
      intro s hs
      have h4 := t49.edges node s hs
      have := f4 s ((hen w3 _ s).2 (t4.edges node s h4)) h4
      exact ⟨fun x hx => t49.has s x (this.1 x hx), fun hx => t49.pte s (this.2 hx)⟩
    have hstores : ∀ v ∈ w9.stores node, (∀ x ∈ np3, w9.SubE x v) ∧ (newX = true → w9.set.pe v = true) := by
      intro v hv
      rw [t49.stores] at hv
      have := f5 v hv
      exact ⟨fun x hx => t59.sub (this.1 x hx), fun hx => t59.pe v (this.2 hx)⟩
    have hloads : ∀ v ∈ w9.loads node, (∀ x ∈ np3, w9.SubE v x) ∧ (newX = true → w9.set.pte v = true) := by
      intro v hv
      rw [t69.loads] at hv
      have := f7 v hv
      exact ⟨fun x hx => t79.sub (this.1 x hx), fun hx => t79.pte v (this.2 hx)⟩
    have hcalls : ∀ c ∈ w9.calls node, (∀ x ∈ np3, w9.CallOk P.fn c x) ∧ (newX = true → w9.CallExtOk c) := by
      intro v hv
      rw [t89.calls] at hv
      exact f9 v hv
    have i10 := settle_inv (w := w9) (newX := newX) (newPE := newPE) i9 (by rw [g09.same.root]; exact hr) (by rw [g09.n]; exact hn) (by
      intro x hx
      rw [hpts9] at hx
      rcases hcov3 x hx with hc | hc
      · refine ⟨fun s hs => .inl ((hedges s hs).1 x hc), fun v hv => (hstores v hv).1 x hc, fun v hv => (hloads v hv).1 x hc, fun v hv => (hcalls v hv).1 x hc, ?_, ?_⟩
        · intro hs
          rw [t59.same.ss] at hs
          exact (f6 hs x hc).imp (t69.pte x) (t69.pe node)
        · intro hs
          rw [t79.same.ls] at hs
          exact (f8 hs x hc).imp (t89.pe x) (t89.pe node)
      · exact (h.obl node hr x hc).grow g09) (by
      intro hx
      exact ⟨⟨fun s hs => .inl ((hedges s hs).2 hx), fun v hv => (hstores v hv).2 hx, fun v hv => (hloads v hv).2 hx, fun v hv => (hcalls v hv).2 hx⟩, g09.pte node (hX1 hx)⟩) (by
      intro hp
      exact g19.pe node (by rw [hpes]; exact hPE1 hp)) (by
      intro hp x hx
      rw [hpts9] at hx
      have : pes = true := by
        rcases hp with hp | hp
        · exact hPE1 hp
        · rw [g19.peSeen] at hp
          rw [← hpes]; exact i1.peOk node hr1 hp
      exact t39.esc x (g3.esc x (f2 this x (hpts3 x hx)))) (by
      intro hx
      rcases hX0 hx with h0 | h0
      · rcases t39.quiet node hr3 with k | k
        · exact .inl k
        · rcases t2.quiet node hr1 with k2 | k2
          · left; apply t39.wl; rw [wl3]; exact k2
          · right; left; rw [k.pte, x3, k2.pte, x1]; exact h0
      · right; right; rw [g09.xSeen]; exact h0) (by
      intro hx
      rcases hPE0 hx with h0 | h0
      · rcases t39.quiet node hr3 with k | k
        · exact .inl k
        · rcases t2.quiet node hr1 with k2 | k2
          · left; apply t39.wl; rw [wl3]; exact k2
          · right; left; rw [k.pe, pe3, k2.pe, hpes]; exact h0
      · right; right; rw [g19.peSeen]; exact h0)
    exact flush_inv hd hen i10

end WS
end Jlm.Llvm.Aa
