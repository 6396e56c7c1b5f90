import Verif.Aa.WorklistHandle
/-
The worklist solver keeps the invariant; when the worklist is empty, the constraints are satisfied.
-/
set_option linter.unusedSimpArgs false
set_option linter.unusedVariables false
set_option linter.unnecessarySeqFocus false
namespace Jlm.Llvm.Aa
namespace WS
variable {σ : Type} {P : Problem} {ex : Nat → Prop} {e : Option (Nat × Nat)} {exf : Nat → Prop} {nd : Nat → Prop}

/-- only `ref`, `det`, `scc` change -/
theorem Inv.other {w : WS σ} (h : w.Inv P ex e exf) {r : Nat → Option Nat} (hr : ∀ i a, r i = some a → a < w.set.n) (d : σ) (c : Nat → Nat) :
    Inv P { w with ref := r, det := d, scc := c } ex e exf :=
  { ok := h.ok, rng := ⟨h.rng.edges, h.rng.stores, h.rng.loads, h.rng.calls, h.rng.queue, hr⟩, n := h.n, kind := h.kind,
    basePts := h.basePts, basePE := h.basePE, basePTE := h.basePTE, baseSS := h.baseSS, baseLS := h.baseLS, baseEsc := h.baseEsc,
    baseConn := h.baseConn, newP := h.newP, xOk := h.xOk, peOk := h.peOk,
    obl := fun m hm x hx => ⟨(h.obl m hm x hx).edges, (h.obl m hm x hx).stores, (h.obl m hm x hx).loads, (h.obl m hm x hx).calls, (h.obl m hm x hx).ss, (h.obl m hm x hx).ls⟩,
    oblX := fun m hm hx => ⟨(h.oblX m hm hx).edges, (h.oblX m hm hx).stores, (h.oblX m hm hx).loads, (h.oblX m hm hx).calls⟩,
    oblPE := h.oblPE,
    cover := fun m hm hr => (h.cover m hm hr).imp id (fun h => h.imp id (fun h => ⟨h.pts, h.pte, h.pe⟩)),
    wlLt := h.wlLt, cs := fun c hc => by have := h.cs c hc; cases c <;> exact this, fns := h.fns }

/-! ## Hybrid cycle detection -/

/-- nothing has happened to `node` -/
structure Kept (w w' : WS σ) (node : Nat) : Prop where
  same : Same w w' node
  xSeen : w'.xSeen node = w.xSeen node
  peSeen : w'.peSeen node = w.peSeen node
  rt : w'.set.root node = node

theorem hybrid_fold {w0 : WS σ} {node : Nat} : ∀ (l : List Nat) {a : Nat} {b : Bool} {v : WS σ},
    v.Inv P (fun m => m = node ∨ (b = true ∧ m = a)) none none2 → a < v.set.n → v.set.root a = a → v.queue = [] →
    (∀ x ∈ l, x < v.set.n) → (Kept w0 v node ∨ (b = true ∧ v.set.root node = a)) →
    ∃ a' b' v', l.foldl (hybridStep node) ((a, b), v) = ((a', b'), v') ∧ v'.Inv P (fun m => m = node ∨ (b' = true ∧ m = a')) none none2 ∧
      a' < v'.set.n ∧ v'.set.root a' = a' ∧ v'.queue = [] ∧ v'.set.n = v.set.n ∧ (Kept w0 v' node ∨ (b' = true ∧ v'.set.root node = a')) := by
  intro l
  induction l with
  | nil => intro a b v hi ha hr hq _ hk; exact ⟨a, b, v, rfl, hi, ha, hr, hq, rfl, hk⟩
  | cons x l ih =>
    intro a b v hi ha hr hq hl hk
    rw [List.foldl_cons]
    by_cases hx : v.set.root x = a
    · have : hybridStep node ((a, b), v) x = ((a, b), v) := by unfold hybridStep; simp [hx]
      rw [this]
      exact ih hi ha hr hq (fun y hy => hl y (by simp [hy])) hk
    · have hxn := hl x (by simp)
      have hstep : hybridStep node ((a, b), v) x = (((v.unify true a (v.set.root x)).1, true),
          { (v.unify true a (v.set.root x)).2 with ref := upd (v.unify true a (v.set.root x)).2.ref node (some (v.unify true a (v.set.root x)).1) }) := by
        unfold hybridStep; simp [hx]
      rw [hstep]
      obtain ⟨g1, g2, g3, g4, g5, g6, g7, g8, g9⟩ := unify_inv (hcd := true) hi ha (hi.rlt hxn)
      obtain ⟨non, u, _, _⟩ := unify_ueff (hcd := true) (a := a) (b := v.set.root x) hi.idem (by rw [hr, hi.idem]; exact fun h => hx h.symm)
      have hroot : (v.unify true a (v.set.root x)).1 < (v.unify true a (v.set.root x)).2.set.n := by
        rw [← g3]; exact g1.rlt (by rw [g2.n]; exact ha)
      have g1' := g1.other (r := upd (v.unify true a (v.set.root x)).2.ref node (some (v.unify true a (v.set.root x)).1)) (by
        intro i c hc
        by_cases hin : i = node
        · subst hin; rw [upd_same] at hc; cases hc; exact hroot
        · rw [upd_ne _ _ hin] at hc; exact g1.rng.ref i c hc) (v.unify true a (v.set.root x)).2.det (v.unify true a (v.set.root x)).2.scc
      generalize hu1 : (v.unify true a (v.set.root x)).1 = c at *
      generalize hu2 : (v.unify true a (v.set.root x)).2 = v1 at *
      have hc : v1.set.root c = c := by rw [← g3]; exact g1.idem a
      have hkn : Kept w0 v1 node ∨ v1.set.root node = c := by
        rcases hk with hk | ⟨_, hk⟩
        · rcases g9 node hk.rt with ⟨h1, h2⟩ | ⟨h1, _⟩
          · left
            have hnon : node ≠ non := by
              intro hh
              rw [← hh] at u
              have := u.set.rt node
              rw [hk.rt, if_pos rfl, h1] at this
              exact h2 this
            refine ⟨?_, ?_, ?_, h1⟩
            · refine hk.same.trans ⟨u.set.pts node h2 hnon, u.newP node h2 hnon, u.tracked node h2, ?_, ?_⟩
              · unfold RSet.pte; rw [h1, hk.rt, u.set.obj node h2]
              · unfold RSet.pe; rw [h1, hk.rt, u.set.obj node h2]
            · rw [u.x node h2]; exact hk.xSeen
            · rw [u.peS node h2]; exact hk.peSeen
          · right; exact h1
        · right
          rw [← g3]
          exact g2.root _ _ (by rw [hk, hr])
      obtain ⟨a', b', v', e1, e2, e3, e4, e5, e6, e7⟩ := ih (b := true) (a := c) (v := { v1 with ref := upd v1.ref node (some c) })
        (g1'.mono' (by
          rintro m hm ((h | ⟨_, h⟩) | h)
          · exact .inl h
          · right
            refine ⟨rfl, ?_⟩
            rw [← g3, ← h]; exact hm.symm
          · exact .inr ⟨rfl, h⟩))
        hroot hc (g5.trans hq) (fun y hy => by show y < v1.set.n; rw [g2.n]; exact hl y (by simp [hy]))
        (hkn.imp (fun h => ⟨⟨h.same.pts, h.same.newP, h.same.tracked, h.same.pte, h.same.pe⟩, h.xSeen, h.peSeen, h.rt⟩) (fun h => ⟨rfl, h⟩))
      exact ⟨a', b', v', e1, e2, e3, e4, e5, e6.trans g2.n, e7⟩

theorem hybrid_inv {env : Env σ} (hen : EnOk env) {w : WS σ} {node : Nat} {np : List Nat} (h : w.Inv P (· = node) none none2)
    (hr : w.set.root node = node) (hq : w.queue = []) (hnp : ∀ x ∈ np, x < w.set.n) :
    ((w.hybrid env node np).1 = true ∧ (w.hybrid env node np).2.Inv P none2 none none2 ∧ (w.hybrid env node np).2.queue = []) ∨
    ((w.hybrid env node np).1 = false ∧ (w.hybrid env node np).2.Inv P (· = node) none none2 ∧ (w.hybrid env node np).2.queue = [] ∧
      (w.hybrid env node np).2.set.n = w.set.n ∧ Kept w (w.hybrid env node np).2 node) := by
  unfold hybrid
  cases ha : w.ref node with
  | none => right; exact ⟨rfl, h, hq, rfl, ⟨Same.refl w node, rfl, rfl, hr⟩⟩
  | some a =>
    simp only []
    have han := h.rng.ref node a ha
    have h0 := h.other (r := upd w.ref node (some (w.set.root a))) (by
      intro i c hc
      by_cases hin : i = node
      · subst hin; rw [upd_same] at hc; cases hc; exact h.rlt han
      · rw [upd_ne _ _ hin] at hc; exact h.rng.ref i c hc) w.det w.scc
    obtain ⟨a', b', v', e1, e2, e3, e4, e5, e6, e7⟩ := hybrid_fold (P := P) (w0 := w) (node := node)
      (env.en { w with ref := upd w.ref node (some (w.set.root a)) } np) (a := w.set.root a) (b := false)
      (v := { w with ref := upd w.ref node (some (w.set.root a)) }) (h0.mono fun m hm => .inl hm) (h.rlt han) (h.idem a) hq
      (fun x hx => hnp x ((hen _ _ x).1 hx)) (.inl ⟨⟨rfl, rfl, rfl, rfl, rfl⟩, rfl, rfl, hr⟩)
    rw [e1]
    simp only []
    cases b' with
    | false =>
      right
      simp only [Bool.false_eq_true, if_false]
      refine ⟨trivial, e2.mono (fun m hm => hm.elim id (fun h => by cases h.1)), e5, e6, ?_⟩
      rcases e7 with e7 | ⟨e7, _⟩
      · exact e7
      · cases e7
    | true =>
      simp only [if_true]
      by_cases hret : a' = v'.set.root node
      · left
        refine ⟨by simp [hret], ?_, e5⟩
        refine (e2.mono' (ex' := fun m => m = a') ?_).push a' e3 (fun m hm => .inr hm)
        rintro m hm (h | h)
        · rw [hret, ← h]; exact hm.symm
        · exact h.2
      · right
        refine ⟨by simp [hret], ?_, e5, e6, ?_⟩
        · refine e2.push a' e3 ?_
          rintro m (h | h)
          · exact .inl h
          · exact .inr h.2
        · rcases e7 with e7 | ⟨_, e7⟩
          · exact ⟨⟨e7.same.pts, e7.same.newP, e7.same.tracked, e7.same.pte, e7.same.pe⟩, e7.xSeen, e7.peSeen, e7.rt⟩
          · exact absurd e7.symm hret

/-! ## The handler and the loops -/

theorem handle_inv {env : Env σ} (hd : DetOk env) (hen : EnOk env) (hfn : env.fn = P.fn) (hrg : P.InRange) {w : WS σ} {node : Nat}
    (h : w.Inv P (· = node) none none2) (hn : node < w.set.n) (hq : w.queue = []) :
    (w.handle env node).Inv P none2 none none2 ∧ (w.handle env node).queue = [] := by
  unfold handle
  split
  · rename_i hr
    exact ⟨h.mono' (fun m hm hx => hr (hx ▸ hm)), hq⟩
  · rename_i hr
    rw [not_not] at hr
    simp only []
    have hpt : w.set.pointees node = w.set.pts node := by unfold RSet.pointees; rw [hr]
    have hnp : ∀ x ∈ w.newPointees env node, x ∈ w.set.pts node := by
      intro x hx
      unfold newPointees at hx
      split at hx
      · exact h.newP node hr x hx
      · rw [← hpt]; exact hx
    have hcov : ∀ x ∈ w.set.pts node, x ∈ w.newPointees env node ∨ w.Seen node x := by
      intro x hx
      unfold newPointees
      split
      · rename_i hc
        rw [Bool.and_eq_true] at hc
        by_cases hm : x ∈ w.newP node
        · exact .inl hm
        · exact .inr ⟨hc.2, hx, hm⟩
      · left; rw [hpt]; exact hx
    generalize hX : (if env.opts.dp = true then w.set.pte node && !w.xSeen node else w.set.pte node) = newX
    have hX1 : newX = true → w.set.pte node = true := by
      rw [← hX]; split
      · rw [Bool.and_eq_true]; exact And.left
      · exact id
    have hX0 : newX = false → w.set.pte node = false ∨ w.xSeen node = true := by
      rw [← hX]; split
      · rw [Bool.and_eq_false_iff]; exact fun h => h.imp id (by simp)
      · exact .inl
    generalize w.newPointees env node = np at *
    by_cases hh : env.opts.hcd = true
    · rw [hh]
      simp only [if_true]
      have hlt : ∀ x ∈ np, x < w.set.n := fun x hx => (h.ok.2.ptsLt node x (by show x ∈ w.set.pointees node; rw [hpt]; exact hnp x hx)).1
      rcases hybrid_inv hen h hr hq hlt with ⟨e1, e2, e3⟩ | ⟨e1, e2, e3, e4, e5⟩
      · rw [if_pos e1]; exact ⟨e2, e3⟩
      · rw [if_neg (by rw [e1]; simp)]
        refine handleRest_inv hd hen hfn hrg e2 e5.rt (by rw [e4]; exact hn) e3 ?_ ?_ ?_ ?_
        · rw [e5.same.pts]; exact hnp
        · intro x hx
          rw [e5.same.pts] at hx
          refine (hcov x hx).imp id ?_
          unfold Seen
          rw [e5.same.tracked, e5.same.pts, e5.same.newP]; exact id
        · rw [e5.same.pte]; exact hX1
        · rw [e5.same.pte, e5.xSeen]; exact hX0
    · rw [if_neg hh]
      simp only [Bool.false_eq_true, if_false]
      exact handleRest_inv hd hen hfn hrg h hr hn hq hnp hcov hX1 hX0

theorem sweepUnifyStep_inv {env : Env σ} {w : WS σ} {a b : Nat} (h : w.Inv P none2 none none2) (ha : a < w.set.n) (hb : b < w.set.n)
    (ra : w.set.root a = a) (rb : w.set.root b = b) (hne : a ≠ b) :
    (sweepUnifyStep env a b w).Inv P none2 none none2 ∧ (sweepUnifyStep env a b w).queue = w.queue := by
  unfold sweepUnifyStep
  simp only []
  obtain ⟨g1, g2, g3, g4, g5, g6, g7, g8, g9⟩ := unify_inv (hcd := env.opts.hcd) h ha hb
  obtain ⟨non, u, hp, _⟩ := unify_ueff (hcd := env.opts.hcd) (a := a) (b := b) h.idem (by rw [ra, rb]; exact hne)
  rw [ra, rb] at hp
  have hlt : (w.unify env.opts.hcd a b).1 < (w.unify env.opts.hcd a b).2.set.n := by rw [← g3]; exact g1.rlt (by rw [g2.n]; exact ha)
  generalize (w.unify env.opts.hcd a b).1 = c at *
  generalize (w.unify env.opts.hcd a b).2 = v at *
  have hold : (if c = a then b else a) = non := by
    rcases hp with ⟨h1, h2⟩ | ⟨h1, h2⟩
    · rw [if_pos h1, h2]
    · rw [if_neg (by rw [h1]; exact Ne.symm hne), h2]
  rw [hold]
  refine ⟨?_, g5⟩
  have hwl : ∀ m, upd (upd v.wl non false) c true m = true ↔ m = c ∨ (m ≠ non ∧ v.wl m = true) := by
    intro m
    by_cases h1 : m = c
    · subst h1; rw [upd_same]; simp
    · rw [upd_ne _ _ h1]
      by_cases h2 : m = non
      · subst h2; rw [upd_same]; simp [h1]
      · rw [upd_ne _ _ h2]; simp [h1, h2]
  have gr : Grow v { v with wl := upd (upd v.wl non false) c true } :=
    { same := SameObj.refl _, stores := rfl, loads := rfl, calls := rfl, edges := fun _ _ h => h, seen := fun _ _ _ h => h, xSeen := rfl, peSeen := rfl,
      n := rfl, kind := fun _ => rfl, root := fun _ _ h => h, pe := fun _ h => h, pte := fun _ h => h, esc := fun _ h => h, has := fun _ _ h => h,
      sub0 := fun _ _ h => h, queue := fun _ h => h }
  refine g1.grow gr g1.ok g1.rng.queue rfl g1.newP ?_ ?_ (fun f hf _ _ hx => .inl ⟨hf, hx⟩)
  · intro m hm
    rcases (hwl m).1 hm with rfl | ⟨_, h⟩
    · exact hlt
    · exact g1.wlLt m h
  · intro m hm hr hc
    have hmn : m ≠ non := by
      intro hh
      have := u.set.rt non
      rw [u.r1, if_pos rfl, ← hh, hr] at this
      rw [this] at hh; exact u.ne hh
    rcases hc with hc | (hc | hc) | hc
    · left; exact (hwl m).2 (.inr ⟨hmn, hc⟩)
    · exact absurd hc id
    · left; exact (hwl m).2 (.inl hc)
    · exact .inr (.inr ⟨hc.pts, hc.pte, hc.pe⟩)

/-- an item is popped: it is the only node that may have unhandled facts and is not in the worklist -/
theorem Inv.pop {w : WS σ} (h : w.Inv P none2 none none2) {i : Nat} (hi : w.wl i = true) : Inv P { w with wl := upd w.wl i false } (· = i) none none2 := by
  have gr : Grow w { w with wl := upd w.wl i false } :=
    { same := SameObj.refl _, stores := rfl, loads := rfl, calls := rfl, edges := fun _ _ h => h, seen := fun _ _ _ h => h, xSeen := rfl, peSeen := rfl,
      n := rfl, kind := fun _ => rfl, root := fun _ _ h => h, pe := fun _ h => h, pte := fun _ h => h, esc := fun _ h => h, has := fun _ _ h => h,
      sub0 := fun _ _ h => h, queue := fun _ h => h }
  have hu : ∀ m, m ≠ i → upd w.wl i false m = w.wl m := fun m hm => upd_ne _ _ hm
  refine h.grow gr h.ok h.rng.queue rfl h.newP ?_ ?_ (fun f hf _ _ hx => .inl ⟨hf, hx⟩)
  · intro m hm
    by_cases hmi : m = i
    · subst hmi; exact h.wlLt m hi
    · exact h.wlLt m (by rw [← hu m hmi]; exact hm)
  · intro m hm hr hc
    by_cases hmi : m = i
    · exact .inr (.inl hmi)
    · rcases hc with hc | hc | hc
      · left; show upd w.wl i false m = true; rw [hu m hmi]; exact hc
      · exact absurd hc id
      · exact .inr (.inr ⟨hc.pts, hc.pte, hc.pe⟩)

theorem trans_inv {env : Env σ} (hd : DetOk env) (hen : EnOk env) (hfn : env.fn = P.fn) (hrg : P.InRange) {w w' : WS σ} {c : Nat}
    (t : Trans env c w w') (h : w.Inv P none2 none none2) (hq : w.queue = []) : w'.Inv P none2 none none2 ∧ w'.queue = [] := by
  cases t with
  | pop i hi =>
    exact handle_inv hd hen hfn hrg (h.pop hi) (h.wlLt i hi) hq
  | sweep scc hs => exact ⟨h.other h.rng.ref w.det scc, hq⟩
  | sweepUnify a b ha hb ra rb hne hs =>
    have := sweepUnifyStep_inv (env := env) h ha hb ra rb hne
    exact ⟨this.1, this.2.trans hq⟩

/-! ## The start -/

/-- the effect of `PropagateEscapedFunctionsDirectly` on the set -/
structure EscEff (s s' : RSet) : Prop where
  same : SameObj s s'
  pts : s'.pts = s.pts
  esc : ∀ i, s'.escaped i = s.escaped i
  pe : ∀ i, s.pe i = true → s'.pe i = true
  pte : ∀ i, s.pte i = true → s'.pte i = true
  ok : SetOk s → SetOk s'

theorem EscEff.refl (s : RSet) : EscEff s s := ⟨SameObj.refl s, rfl, fun _ => rfl, fun _ h => h, fun _ h => h, id⟩

theorem EscEff.trans {s t u : RSet} (h : EscEff s t) (g : EscEff t u) : EscEff s u :=
  ⟨h.same.trans g.same, g.pts.trans h.pts, fun i => (g.esc i).trans (h.esc i), fun i x => g.pe i (h.pe i x), fun i x => g.pte i (h.pte i x), fun x => g.ok (h.ok x)⟩

theorem forEach_eff {α : Type} {f : α → RSet → Bool × RSet} {Q : α → RSet → Prop} {n : Nat}
    (hQ : ∀ a s s', EscEff s s' → Q a s → Q a s') : ∀ (l : List α) (s : RSet), s.n = n → (∀ a ∈ l, ∀ s, s.n = n → EscEff s (f a s).2 ∧ Q a (f a s).2) →
    EscEff s (forEach f l s).2 ∧ ∀ a ∈ l, Q a (forEach f l s).2 := by
  intro l
  induction l with
  | nil => intro s _ _; exact ⟨EscEff.refl s, fun a ha => by cases ha⟩
  | cons a l ih =>
    intro s hn hf
    have h1 := hf a (by simp) s hn
    have h2 := ih (f a s).2 (h1.1.same.n.trans hn) (fun b hb => hf b (by simp [hb]))
    have he : (forEach f (a :: l) s).2 = (forEach f l (f a s).2).2 := rfl
    rw [he]
    refine ⟨h1.1.trans h2.1, ?_⟩
    intro b hb
    rcases List.mem_cons.1 hb with rfl | hb
    · exact hQ _ _ _ h2.1 h1.2
    · exact h2.2 b hb

theorem markPE_esc {s : RSet} {a : Nat} (ha : a < s.n) : EscEff s (s.markPE a).2 ∧ (s.markPE a).2.pe a = true := by
  have g := markPE_eff s a
  exact ⟨⟨g.same, g.pts, g.esc, fun i h => (g.pe i).2 (.inl h), fun i h => by rw [g.pte]; exact h, fun h => h.step (.markPE a) ha⟩, (g.pe a).2 (.inr rfl)⟩

theorem markPTE_esc {s : RSet} {a : Nat} (ha : a < s.n) : EscEff s (s.markPTE a).2 ∧ (s.markPTE a).2.pte a = true := by
  have g := markPTE_eff s a
  exact ⟨⟨g.same, g.pts, g.esc, fun i h => by rw [g.pe]; exact h, fun i h => (g.pte i).2 (.inl h), fun h => h.step (.markPTE a) ha⟩, (g.pte a).2 (.inr rfl)⟩

end WS

theorem escapedFn_eff {f : Fn} {s : RSet} (hf : f.InRange s.n) : WS.EscEff s (escapedFn f s).2 ∧
    (∀ a, some a ∈ f.args → (escapedFn f s).2.pte a = true) ∧ (∀ r, some r ∈ f.results → (escapedFn f s).2.pe r = true) := by
  have h1 := WS.forEach_eff (n := s.n) (f := fun a s => whenB (!s.pte a) (fun s => s.markPTE a) s) (Q := fun a s => s.pte a = true)
    (fun a s s' h hq => h.pte a hq) (registers f.args) s rfl (by
      intro a ha s' hn
      rw [mem_registers] at ha
      unfold whenB
      cases hp : s'.pte a with
      | true => exact ⟨WS.EscEff.refl s', hp⟩
      | false => exact WS.markPTE_esc (by rw [hn]; exact hf.1 a ha))
  generalize hs1 : (forEach (fun a s => whenB (!s.pte a) (fun s => s.markPTE a) s) (registers f.args) s).2 = s1 at *
  have h2 := WS.forEach_eff (n := s.n) (f := fun a s => whenB (!s.pe a) (fun s => s.markPE a) s) (Q := fun a s => s.pe a = true)
    (fun a s s' h hq => h.pe a hq) (registers f.results) s1 h1.1.same.n (by
      intro a ha s' hn
      rw [mem_registers] at ha
      unfold whenB
      cases hp : s'.pe a with
      | true => exact ⟨WS.EscEff.refl s', hp⟩
      | false => exact WS.markPE_esc (by rw [hn]; exact hf.2 a ha))
  have he : (escapedFn f s).2 = (forEach (fun a s => whenB (!s.pe a) (fun s => s.markPE a) s) (registers f.results) s1).2 := by
    rw [← hs1]; rfl
  rw [he]
  exact ⟨h1.1.trans h2.1, fun a ha => h2.1.pte a (h1.2 a (mem_registers.2 ha)), fun a ha => h2.2 a (mem_registers.2 ha)⟩

theorem escapedFns_eff {P : Problem} (hr : P.InRange) {fns : List Nat} (hf : FnsOk P fns) {s : RSet} (hn : s.n = P.base.n) :
    WS.EscEff s (escapedFns P.fn fns s).2 ∧
    ∀ f ∈ fns, s.escaped f = true → (∀ a, some a ∈ (P.fn f).args → (escapedFns P.fn fns s).2.pte a = true) ∧ (∀ r, some r ∈ (P.fn f).results → (escapedFns P.fn fns s).2.pe r = true) := by
  have h := WS.forEach_eff (n := P.base.n) (f := fun f s => whenB (s.escaped f) (escapedFn (P.fn f)) s)
    (Q := fun f s => s.escaped f = true → (∀ a, some a ∈ (P.fn f).args → s.pte a = true) ∧ (∀ r, some r ∈ (P.fn f).results → s.pe r = true))
    (fun f s s' h hq he => by
      have := hq (by rw [← h.esc]; exact he)
      exact ⟨fun a ha => h.pte a (this.1 a ha), fun a ha => h.pe a (this.2 a ha)⟩) fns s hn (by
      intro f hfm s' hn'
      obtain ⟨h1, h2⟩ := (hf f).1 hfm
      unfold whenB
      cases he : s'.escaped f with
      | false => exact ⟨WS.EscEff.refl s', fun h => by have h : s'.escaped f = true := h; rw [he] at h; cases h⟩
      | true =>
        have := escapedFn_eff (f := P.fn f) (s := s') (by rw [hn']; exact hr.fn f h1 h2)
        exact ⟨this.1, fun _ => this.2⟩)
  refine ⟨h.1, fun f hfm he => h.2 f hfm (by rw [h.1.esc]; exact he)⟩

namespace WS

/-- the state while the subset graph is built -/
structure Built (P : Problem) (s : RSet) (l : List Constraint) (w : WS σ) : Prop where
  set : w.set = s
  rng : w.Range
  newP : ∀ m, w.newP m = []
  tracked : ∀ m, w.tracked m = false
  x : ∀ m, w.xSeen m = false
  p : ∀ m, w.peSeen m = false
  wl : ∀ m, w.wl m = false
  queue : w.queue = []
  cs : ∀ c ∈ l, w.Repr c

theorem Built.add {s : RSet} (hs : s.Wf) {l : List Constraint} {w : WS σ} (h : Built P s l w) (c : Constraint) (hc : c.InRange s.n) :
    Built P s (l ++ [c]) (w.addConstraint c) := by
  have hset := h.set
  cases c with
  | superset a b =>
    unfold addConstraint
    simp only []
    by_cases hab : w.set.root a = w.set.root b
    · rw [if_pos hab]
      refine { h with cs := ?_ }
      intro c hc
      rcases List.mem_append.1 hc with hc | hc
      · exact h.cs c hc
      · rw [List.mem_singleton] at hc; subst hc; exact .inl (.inl hab)
    · rw [if_neg hab]
      have hm : ∀ m t, t ∈ (w.insEdge (w.set.root a) (w.set.root b)).edges m ↔ t ∈ w.edges m ∨ (m = w.set.root b ∧ t = w.set.root a) := by
        intro m t
        show t ∈ upd w.edges (w.set.root b) (ins (w.edges (w.set.root b)) (w.set.root a)) m ↔ _
        by_cases hm : m = w.set.root b
        · subst hm; rw [upd_same, mem_ins]; simp
        · rw [upd_ne _ _ hm]; simp [hm]
      refine ⟨h.set, ⟨?_, h.rng.stores, h.rng.loads, h.rng.calls, h.rng.queue, h.rng.ref⟩, h.newP, h.tracked, h.x, h.p, h.wl, h.queue, ?_⟩
      · intro m t ht
        rcases (hm m t).1 ht with ht | ⟨_, ht⟩
        · exact h.rng.edges m t ht
        · rw [ht]; show w.set.root a < w.set.n; rw [hset]; exact hs.lt a hc.1
      · intro c' hc'
        rcases List.mem_append.1 hc' with hc' | hc'
        · have := h.cs c' hc'
          cases c' with
          | superset u v =>
            rcases this with (h1 | ⟨t, h1, h2⟩ | h1) | h1
            · exact .inl (.inl h1)
            · exact .inl (.inr (.inl ⟨t, (hm _ _).2 (.inl h1), h2⟩))
            · exact .inl (.inr (.inr h1))
            · exact .inr h1
          | store p v => exact this
          | load v p => exact this
          | call p c => exact this
        · rw [List.mem_singleton] at hc'; subst hc'
          exact .inl (.inr (.inl ⟨w.set.root a, (hm _ _).2 (.inr ⟨rfl, rfl⟩), by show w.set.root (w.set.root a) = w.set.root a; rw [hset]; exact hs.idem a⟩))
  | store p v =>
    have hm : ∀ m t, t ∈ (w.addConstraint (.store p v)).stores m ↔ t ∈ w.stores m ∨ (m = w.set.root p ∧ t = w.set.root v) := by
      intro m t
      show t ∈ upd w.stores (w.set.root p) (ins (w.stores (w.set.root p)) (w.set.root v)) m ↔ _
      by_cases hm : m = w.set.root p
      · subst hm; rw [upd_same, mem_ins]; simp
      · rw [upd_ne _ _ hm]; simp [hm]
    refine ⟨h.set, ⟨h.rng.edges, ?_, h.rng.loads, h.rng.calls, h.rng.queue, h.rng.ref⟩, h.newP, h.tracked, h.x, h.p, h.wl, h.queue, ?_⟩
    · intro m t ht
      rcases (hm m t).1 ht with ht | ⟨_, ht⟩
      · exact h.rng.stores m t ht
      · rw [ht]; show w.set.root v < w.set.n; rw [hset]; exact hs.lt v hc.2
    · intro c' hc'
      rcases List.mem_append.1 hc' with hc' | hc'
      · have := h.cs c' hc'
        cases c' with
        | superset u v => exact this
        | store p v => obtain ⟨t, h1, h2⟩ := this; exact ⟨t, (hm _ _).2 (.inl h1), h2⟩
        | load v p => exact this
        | call p c => exact this
      · rw [List.mem_singleton] at hc'; subst hc'
        exact ⟨w.set.root v, (hm _ _).2 (.inr ⟨rfl, rfl⟩), by show w.set.root (w.set.root v) = w.set.root v; rw [hset]; exact hs.idem v⟩
  | load v p =>
    have hm : ∀ m t, t ∈ (w.addConstraint (.load v p)).loads m ↔ t ∈ w.loads m ∨ (m = w.set.root p ∧ t = w.set.root v) := by
      intro m t
      show t ∈ upd w.loads (w.set.root p) (ins (w.loads (w.set.root p)) (w.set.root v)) m ↔ _
      by_cases hm : m = w.set.root p
      · subst hm; rw [upd_same, mem_ins]; simp
      · rw [upd_ne _ _ hm]; simp [hm]
    refine ⟨h.set, ⟨h.rng.edges, h.rng.stores, ?_, h.rng.calls, h.rng.queue, h.rng.ref⟩, h.newP, h.tracked, h.x, h.p, h.wl, h.queue, ?_⟩
    · intro m t ht
      rcases (hm m t).1 ht with ht | ⟨_, ht⟩
      · exact h.rng.loads m t ht
      · rw [ht]; show w.set.root v < w.set.n; rw [hset]; exact hs.lt v hc.1
    · intro c' hc'
      rcases List.mem_append.1 hc' with hc' | hc'
      · have := h.cs c' hc'
        cases c' with
        | superset u v => exact this
        | store p v => exact this
        | load v p => obtain ⟨t, h1, h2⟩ := this; exact ⟨t, (hm _ _).2 (.inl h1), h2⟩
        | call p c => exact this
      · rw [List.mem_singleton] at hc'; subst hc'
        exact ⟨w.set.root v, (hm _ _).2 (.inr ⟨rfl, rfl⟩), by show w.set.root (w.set.root v) = w.set.root v; rw [hset]; exact hs.idem v⟩
  | call p c =>
    have hm : ∀ m t, t ∈ (w.addConstraint (.call p c)).calls m ↔ t ∈ w.calls m ∨ (m = w.set.root p ∧ t = c) := by
      intro m t
      show t ∈ upd w.calls (w.set.root p) (w.calls (w.set.root p) ++ [c]) m ↔ _
      by_cases hm : m = w.set.root p
      · subst hm; rw [upd_same, List.mem_append, List.mem_singleton]; simp
      · rw [upd_ne _ _ hm]; simp [hm]
    refine ⟨h.set, ⟨h.rng.edges, h.rng.stores, h.rng.loads, ?_, h.rng.queue, h.rng.ref⟩, h.newP, h.tracked, h.x, h.p, h.wl, h.queue, ?_⟩
    · intro m t ht
      rcases (hm m t).1 ht with ht | ⟨_, ht⟩
      · exact h.rng.calls m t ht
      · rw [ht]; show c.InRange w.set.n; rw [hset]; exact hc.2
    · intro c' hc'
      rcases List.mem_append.1 hc' with hc' | hc'
      · have := h.cs c' hc'
        cases c' with
        | superset u v => exact this
        | store p v => exact this
        | load v p => exact this
        | call p c => exact (hm _ _).2 (.inl this)
      · rw [List.mem_singleton] at hc'; subst hc'
        exact (hm _ _).2 (.inr ⟨rfl, rfl⟩)

theorem Built.all {s : RSet} (hs : s.Wf) : ∀ (cs l : List Constraint) {w : WS σ}, Built P s l w → (∀ c ∈ cs, c.InRange s.n) →
    Built P s (l ++ cs) (cs.foldl addConstraint w) := by
  intro cs
  induction cs with
  | nil => intro l w h _; rw [List.append_nil]; exact h
  | cons c cs ih =>
    intro l w h hr
    have := ih (l ++ [c]) (h.add hs c (hr c (by simp))) (fun d hd => hr d (by simp [hd]))
    rw [List.append_assoc] at this; exact this

theorem init_inv {env : Env σ} (hfn : env.fn = P.fn) (hrg : P.InRange) {s : RSet} (hs : SetOk s) (hbase : s.abs = P.base) {fns : List Nat} (hfns : FnsOk P fns)
    {ref : Nat → Option Nat} (href : ∀ i a, ref i = some a → a < P.base.n) {d : σ} {u : List (Nat × Nat)} (hu : ∀ p ∈ u, p.1 < P.base.n ∧ p.2 < P.base.n) :
    (init env P.cs fns ref d u s).Inv P none2 none none2 ∧ (init env P.cs fns ref d u s).queue = [] := by
  unfold init graph
  simp only []
  have hn : s.n = P.base.n := by rw [← hbase]; rfl
  have b0 : Built (σ := σ) P s []
      { set := s, edges := fun _ => [], stores := fun _ => [], loads := fun _ => [], calls := fun _ => [],
        newP := fun _ => [], tracked := fun _ => false, xSeen := fun _ => false, peSeen := fun _ => false,
        wl := fun _ => false, queue := [], ref := ref, det := d, scc := id } :=
    ⟨rfl, ⟨by simp, by simp, by simp, by simp, by simp, by rw [← hn] at href; exact href⟩, fun _ => rfl, fun _ => rfl, fun _ => rfl, fun _ => rfl, fun _ => rfl, rfl, by simp⟩
  have b1 := b0.all hs.wf P.cs [] (by rw [hn]; exact hrg.cs)
  rw [List.nil_append] at b1
  generalize List.foldl addConstraint _ P.cs = w1 at b1
  have i1 : w1.Inv P (fun _ => True) none (fun _ => True) :=
    { ok := b1.set ▸ hs, rng := b1.rng, n := by rw [b1.set]; exact hn, kind := fun i => by rw [b1.set, ← hbase]; rfl,
      basePts := fun i x hx => by rw [← hbase] at hx; rw [b1.set]; exact .inl hx,
      basePE := fun i hx => by rw [← hbase] at hx; rw [b1.set]; exact hx,
      basePTE := fun i hx => by rw [← hbase] at hx; rw [b1.set]; exact hx,
      baseSS := fun i hx => by rw [← hbase] at hx; rw [b1.set]; exact hx,
      baseLS := fun i hx => by rw [← hbase] at hx; rw [b1.set]; exact hx,
      baseEsc := fun i hx => by rw [← hbase] at hx; rw [b1.set]; exact hx,
      baseConn := fun i j hx => by rw [← hbase] at hx; rw [b1.set]; exact hx,
      newP := fun m _ x hx => (by rw [b1.newP] at hx; cases hx),
      xOk := fun m _ hx => (by rw [b1.x] at hx; cases hx),
      peOk := fun m _ hx => (by rw [b1.p] at hx; cases hx),
      obl := fun m _ x hx => (by have := hx.1; rw [b1.tracked] at this; cases this),
      oblX := fun m _ hx => (by rw [b1.x] at hx; cases hx),
      oblPE := fun m _ hx => (by rw [b1.p] at hx; cases hx),
      cover := fun _ _ _ => .inr (.inl trivial),
      wlLt := fun m hm => (by rw [b1.wl] at hm; cases hm),
      cs := b1.cs, fns := fun _ _ _ _ h => absurd trivial h }
  obtain ⟨i2, x2, _, q2, _, _⟩ := unifyAll_inv (hcd := env.opts.hcd) u i1 (by rw [i1.n]; exact hu)
  rw [b1.queue] at q2
  generalize w1.unifyAll env.opts.hcd u = w2 at *
  obtain ⟨eff, hesc⟩ := escapedFns_eff hrg hfns i2.n
  rw [hfn]
  refine ⟨?_, q2⟩
  have gr : Grow w2 { w2 with wl := fun i => decide (i < w2.set.n) && (w2.set.root i == i), set := (escapedFns P.fn fns w2.set).2 } := by
    refine grow_set eff.same eff.pe eff.pte (fun i h => by show (escapedFns P.fn fns w2.set).2.escaped i = true; rw [eff.esc]; exact h) ?_ rfl rfl rfl rfl rfl rfl rfl ?_
    · intro a x hx
      left
      show x ∈ (escapedFns P.fn fns w2.set).2.pointees a
      unfold RSet.pointees; rw [eff.pts, eff.same.root]; exact hx
    · rintro m x _ ⟨h1, h2, h3⟩
      refine ⟨h1, ?_, h3⟩
      rw [← eff.pts]; exact h2
  refine i2.grow gr (eff.ok i2.ok) i2.rng.queue rfl ?_ ?_ ?_ ?_
  · intro m hm x hx
    show x ∈ (escapedFns P.fn fns w2.set).2.pts m
    rw [eff.pts]; exact i2.newP m hm x hx
  · intro m hm
    simp only [Bool.and_eq_true, decide_eq_true_eq] at hm
    exact hm.1
  · intro m hm hr _
    left
    simp [hm, hr]
  · intro f hf hfn hk _
    right
    refine hesc f ((hfns f).2 ⟨by rw [← i2.n]; exact hfn, by rw [← i2.kind]; exact hk⟩) ?_
    rw [← eff.esc]; exact hf

/-! ## The end -/

/-- **Main lemma**: when the worklist is empty, all constraints are satisfied. -/
theorem Inv.sat {w : WS σ} (hrg : P.InRange) (h : w.Inv P none2 none none2) (hq : w.queue = []) (hwl : ∀ i, i < w.set.n → w.wl i = false) :
    Sat P w.set.abs.sol := by
  have hall : ∀ i, i < w.set.n → w.AllSeen (w.set.root i) := by
    intro i hi
    rcases h.cover (w.set.root i) (h.rlt hi) (h.idem i) with hc | hc | hc
    · rw [hwl _ (h.rlt hi)] at hc; cases hc
    · exact absurd hc id
    · exact hc
  have hpte : ∀ i, w.set.pte (w.set.root i) = w.set.pte i := fun i => pte_congr _ (h.idem i)
  have hpe : ∀ i, w.set.pe (w.set.root i) = w.set.pe i := fun i => pe_congr _ (h.idem i)
  have hobl : ∀ i, i < w.set.n → ∀ x ∈ w.set.pointees i, w.Obl P.fn none (w.set.root i) x := fun i hi x hx =>
    h.obl _ (h.idem i) x ((hall i hi).pts x hx)
  have hoblX : ∀ i, i < w.set.n → w.set.pte i = true → w.OblX none (w.set.root i) := fun i hi hx =>
    h.oblX _ (h.idem i) ((hall i hi).pte ((hpte i).trans hx))
  have hpeOk : ∀ i, i < w.set.n → w.set.pe i = true → ∀ x, Has w.set i x → w.set.escaped x = true := by
    rintro i hi hx x (hp | hp)
    · exact h.oblPE _ (h.idem i) ((hall i hi).pe ((hpe i).trans hx)) x ((hall i hi).pts x hp)
    · exact hp.2
  have hesc : ∀ x, w.set.escaped x = true → x < w.set.n ∧ w.set.pe x = true ∧ w.set.pte x = true := fun x hx =>
    let e := h.ok.2.esc x hx
    ⟨e.1, e.2.2.1, e.2.2.2⟩
  have hex : ∀ m s, ¬ w.Exempt none m s := by rintro m s ⟨p, hp, _⟩; cases hp
  have hxlt : ∀ i x, x ∈ w.set.pointees i → x < w.set.n := fun i x hx => (h.ok.2.ptsLt i x hx).1
  have hhlt : ∀ i x, Has w.set i x → x < w.set.n := by
    rintro i x (hx | hx)
    · exact hxlt i x hx
    · exact (hesc x hx.2).1
  have hsub : ∀ a b, b < w.set.n → w.SubE a b → w.set.abs.sol.Sub a b := by
    rintro a b hb ((h1 | ⟨s, h1, h2⟩ | ⟨h1, h2⟩) | ⟨p, h1, _⟩)
    · exact ⟨fun x hx => Has.congr h1.symm hx, fun hx => by show w.set.pte a = true; rw [pte_congr _ h1]; exact hx⟩
    · have hx2 : w.set.pte b = true → w.set.pte s = true := fun hx =>
        ((hoblX b hb hx).edges s h1).elim id (fun h => absurd h (hex _ _))
      refine ⟨?_, fun hx => by show w.set.pte a = true; rw [← pte_congr _ h2]; exact hx2 hx⟩
      rintro x (hx | hx)
      · exact Has.congr h2 (((hobl b hb x hx).edges s h1).elim id (fun h => absurd h (hex _ _)))
      · exact Has.congr h2 (.inr ⟨hx2 hx.1, hx.2⟩)
    · exact ⟨fun x hx => .inr ⟨h2, hpeOk b hb h1 x hx⟩, fun _ => h2⟩
    · rw [hq] at h1; cases h1
  have hpes : ∀ i, i < w.set.n → w.set.pe i = true → w.set.abs.sol.PointeesEscape i := fun i hi hx x hp => hpeOk i hi hx x hp
  have hcext : ∀ c : Call, c.InRange w.set.n → w.CallExtOk c → w.set.abs.sol.CallsExternal c := fun c hr hc =>
    ⟨fun i hi => hpes i (hr.1 i hi) (hc.1 i hi), fun o ho => hc.2 o ho⟩
  refine ⟨h.basePts, h.baseEsc, h.basePTE, ?_, ?_, ?_, ?_, ?_, ?_, ?_, ?_⟩
  · intro i hi hx; exact hpes i (by rw [h.n]; exact hi) (h.basePE i hx)
  · intro i j hc
    have := h.baseConn i j hc
    exact ⟨fun x hx => Has.congr this hx, fun hx => by show w.set.pte j = true; rw [← pte_congr _ this]; exact hx⟩
  · intro i x h1 h2; exact .inr ⟨h1, h2⟩
  · intro x hx
    obtain ⟨h1, h2, h3⟩ := hesc x hx
    exact ⟨h3, hpes x h1 h2⟩
  · intro i x hi hs hx
    have hi' : i < w.set.n := by rw [h.n]; exact hi
    rcases hx with hx | hx
    · rcases (hobl i hi' x hx).ss (by rw [ss_congr _ (h.idem i)]; exact h.baseSS i hs) with h1 | h1
      · exact h1
      · exact (hesc x (hpeOk i hi' ((hpe i).symm.trans h1) x (.inl hx))).2.2
    · exact (hesc x hx.2).2.2
  · intro i x hi hs hx
    have hi' : i < w.set.n := by rw [h.n]; exact hi
    refine hpes x (hhlt i x hx) ?_
    rcases hx with hx | hx
    · rcases (hobl i hi' x hx).ls (by rw [ls_congr _ (h.idem i)]; exact h.baseLS i hs) with h1 | h1
      · exact h1
      · exact (hesc x (hpeOk i hi' ((hpe i).symm.trans h1) x (.inl hx))).2.1
    · exact (hesc x hx.2).2.1
  · intro c hc
    have hin := hrg.cs c hc
    rw [← h.n] at hin
    have hr := h.cs c hc
    cases c with
    | superset a b => exact hsub a b hin.2 hr
    | store p v =>
      obtain ⟨v', h1, h2⟩ := hr
      have hv' := h.rng.stores _ _ h1
      have cong : ∀ x, w.SubE x v' → w.set.abs.sol.Sub x v := by
        intro x hx
        have := hsub x v' hv' hx
        exact ⟨fun y hy => this.1 y (Has.congr h2.symm hy), fun hy => this.2 (by show w.set.pte v' = true; rw [pte_congr _ h2]; exact hy)⟩
      refine ⟨?_, ?_⟩
      · rintro x (hx | hx)
        · exact cong x ((hobl p hin.1 x hx).stores v' h1)
        · exact cong x (.inl (.inr (.inr ⟨(hoblX p hin.1 hx.1).stores v' h1, (hesc x hx.2).2.2⟩)))
      · intro hx
        refine hpes v hin.2 ?_
        rw [← pe_congr _ h2]; exact (hoblX p hin.1 hx).stores v' h1
    | load v p =>
      obtain ⟨v', h1, h2⟩ := hr
      have cong : ∀ x, x < w.set.n → w.SubE v' x → w.set.abs.sol.Sub v x := by
        intro x hxn hx
        have := hsub v' x hxn hx
        exact ⟨fun y hy => Has.congr h2 (this.1 y hy), fun hy => by show w.set.pte v = true; rw [← pte_congr _ h2]; exact this.2 hy⟩
      refine ⟨?_, ?_⟩
      · rintro x hx
        refine cong x (hhlt p x hx) ?_
        rcases hx with hx | hx
        · exact (hobl p hin.2 x hx).loads v' h1
        · exact .inl (.inr (.inr ⟨(hesc x hx.2).2.1, (hoblX p hin.2 hx.1).loads v' h1⟩))
      · intro hx
        show w.set.pte v = true
        rw [← pte_congr _ h2]; exact (hoblX p hin.2 hx).loads v' h1
    | call p c =>
      refine ⟨?_, fun hx => hcext c hin.2 ((hoblX p hin.1 hx).calls c hr)⟩
      intro x hx
      have hxn := hhlt p x hx
      have key : w.CallOk P.fn c x := by
        rcases hx with hx | hx
        · exact (hobl p hin.1 x hx).calls c hr
        · have hce := (hoblX p hin.1 hx.1).calls c hr
          refine ⟨fun _ => hce, fun hk => ?_⟩
          have hf := h.fns x hx.2 hxn hk id
          refine ⟨fun k i a h1 h2 => ?_, fun k o r h1 h2 => ?_⟩
          · exact .inl (.inr (.inr ⟨hce.1 i (List.mem_of_getElem? h1), hf.1 a (List.mem_of_getElem? h2)⟩))
          · exact .inl (.inr (.inr ⟨hf.2 r (List.mem_of_getElem? h2), hce.2 o (List.mem_of_getElem? h1)⟩))
      refine ⟨fun hk => hcext c hin.2 (key.1 (by rw [h.kind]; exact hk)), fun hk => ?_⟩
      have hk' := key.2 (by rw [h.kind]; exact hk)
      have hfr := hrg.fn x (by rw [← h.n]; exact hxn) hk
      rw [← h.n] at hfr
      exact ⟨fun k i a h1 h2 => hsub a i (hin.2.1 i (List.mem_of_getElem? h1)) (hk'.1 k i a h1 h2),
        fun k o r h1 h2 => hsub o r (hfr.2 r (List.mem_of_getElem? h2)) (hk'.2 k o r h1 h2)⟩
  · intro f hf hfn hk
    rw [← h.n] at hfn
    have := h.fns f hf hfn (by rw [h.kind]; exact hk) id
    have hfr := hrg.fn f (by rw [← h.n]; exact hfn) hk
    rw [← h.n] at hfr
    exact ⟨this.1, fun r hr => hpes r (hfr.2 r hr) (this.2 r hr)⟩

end WS
end Jlm.Llvm.Aa
