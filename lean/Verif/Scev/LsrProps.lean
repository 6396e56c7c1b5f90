import Verif.Scev.LsrChain
import Verif.Scev.LsrSpec

/-! # C56: loop strength reduction does not change what a loop computes -/

set_option linter.unusedSimpArgs false
set_option linter.unusedVariables false

namespace Jlm.Scev.Lsr

open Jlm.Scev

variable {R M : Type} [CommRing R]

/-! ## Hoisting -/

theorem foldl_add_eval (x₀ : Out → R) : ∀ (hs : List Hexp) (h : Hexp), (hs.foldl .add h).eval x₀ = h.eval x₀ + (hs.map (·.eval x₀)).sum
  | [], h => by simp
  | g :: hs, h => by
    rw [List.foldl_cons, foldl_add_eval x₀ hs]
    simp [Hexp.eval, add_assoc]

theorem foldl_mul_eval (x₀ : Out → R) : ∀ (hs : List Hexp) (h : Hexp), (hs.foldl .mul h).eval x₀ = h.eval x₀ * (hs.map (·.eval x₀)).prod
  | [], h => by simp
  | g :: hs, h => by
    rw [List.foldl_cons, foldl_mul_eval x₀ hs]
    simp [Hexp.eval, mul_assoc]

mutual

theorem hoist_ok (P : Out → Prop) (e : Env R) : ∀ x : S, sane P x → x.isUnknown = false → ∃ h : Hexp, hoist x = some h ∧ h.eval e.init = x.ev e
  | .unknown, _, h => by simp [S.isUnknown] at h
  | .init o, _, _ => ⟨.start o, by simp [hoist], by simp [Hexp.eval, S.ev]⟩
  | .const c, _, _ => ⟨.const c, by simp [hoist], by simp [Hexp.eval, S.ev]⟩
  | .nadd xs, hs, hu => by
    simp only [sane] at hs
    simp only [S.isUnknown] at hu
    obtain ⟨hl, h1, h2⟩ := hoists_ok P e xs hs.2 hu
    have hlen : 2 ≤ xs.length := by
      rcases hs.1 with h | h
      · exact h
      · rw [h] at hu; exact absurd hu (by simp)
    have hll : hl.length = xs.length := by
      have := congrArg List.length h2
      have hev : ∀ ys : List S, (evs e ys).length = ys.length := by
        intro ys
        induction ys with
        | nil => simp [evs]
        | cons y ys ih => simp [evs, ih]
      simpa [hev] using this
    match hl, hll with
    | [], h => simp at h; omega
    | [_], h => simp at h; omega
    | a :: b :: rest, _ =>
      refine ⟨(b :: rest).foldl .add a, by simp [hoist, h1], ?_⟩
      rw [foldl_add_eval]
      simp only [S.ev, ← h2, List.map_cons, List.sum_cons]
  | .nmul xs, hs, hu => by
    simp only [sane] at hs
    simp only [S.isUnknown] at hu
    obtain ⟨hl, h1, h2⟩ := hoists_ok P e xs hs.2 hu
    have hlen : 2 ≤ xs.length := by
      rcases hs.1 with h | h
      · exact h
      · rw [h] at hu; exact absurd hu (by simp)
    have hll : hl.length = xs.length := by
      have := congrArg List.length h2
      have hev : ∀ ys : List S, (evs e ys).length = ys.length := by
        intro ys
        induction ys with
        | nil => simp [evs]
        | cons y ys ih => simp [evs, ih]
      simpa [hev] using this
    match hl, hll with
    | [], h => simp at h; omega
    | [_], h => simp at h; omega
    | a :: b :: rest, _ =>
      refine ⟨(b :: rest).foldl .mul a, by simp [hoist, h1], ?_⟩
      rw [foldl_mul_eval]
      simp only [S.ev, ← h2, List.map_cons, List.prod_cons]
  | .ph _, h, _ => by simp [sane] at h
  | .add _ _, h, _ => by simp [sane] at h
  | .mul _ _, h, _ => by simp [sane] at h
  | .chrec _ _, h, _ => by simp [sane] at h

theorem hoists_ok (P : Out → Prop) (e : Env R) : ∀ xs : List S, sanes P xs → isUnknowns xs = false →
    ∃ hs : List Hexp, hoists xs = some hs ∧ hs.map (·.eval e.init) = evs e xs
  | [], _, _ => ⟨[], by simp [hoists], by simp [evs]⟩
  | x :: xs, hs, hu => by
    simp only [sanes] at hs
    simp only [isUnknowns, Bool.or_eq_false_iff] at hu
    obtain ⟨h, h1, h2⟩ := hoist_ok P e x hs.1 hu.1
    obtain ⟨hl, h3, h4⟩ := hoists_ok P e xs hs.2 hu.2
    exact ⟨h :: hl, by simp [hoists, h1, h3], by simp [evs, h2, h4]⟩

end

/-- What a new loop variable grows by in an iteration. -/
def growth (x₀ x : Out → R) : Step → R
  | .keep => 0
  | .const c => (c : R)
  | .cur o => x o
  | .hoisted h => h.eval x₀

theorem stepPlan_ok {xs : Nat → Out → R} (e : Env R) (he : e.init = xs 0) (b : S) (hb : sane (Inv xs) b) (hu : b.isUnknown = false) :
    ∃ s : Step, stepPlan b = some s ∧ s ≠ .keep ∧ ∀ j : Nat, growth (xs 0) (xs j) s = b.ev e := by
  cases b with
  | unknown => simp [S.isUnknown] at hu
  | init o =>
    refine ⟨.cur o, rfl, by simp, fun j => ?_⟩
    have : Inv xs o := by simpa [sane] using hb
    simp [growth, S.ev, he, this j]
  | const c => exact ⟨.const c, rfl, by simp, fun j => by simp [growth, S.ev]⟩
  | nadd ys =>
    obtain ⟨h, h1, h2⟩ := hoist_ok _ e _ hb hu
    exact ⟨.hoisted h, by simp [stepPlan, h1], by simp, fun j => by simp only [growth]; rw [← he, h2]⟩
  | nmul ys =>
    obtain ⟨h, h1, h2⟩ := hoist_ok _ e _ hb hu
    exact ⟨.hoisted h, by simp [stepPlan, h1], by simp, fun j => by simp only [growth]; rw [← he, h2]⟩
  | ph o => simp [sane] at hb
  | add l r => simp [sane] at hb
  | mul l r => simp [sane] at hb
  | chrec k ys => simp [sane] at hb

theorem planOf_ok {xs : Nat → Out → R} (e : Env R) (he : e.init = xs 0) (ws : List S) (hs : Short (Inv xs) ws) (h0 : ws ≠ [])
    (hu : isUnknowns ws = false) (hl : ws.length ≤ 2) :
    ∃ p : Plan, planOf ws = some p ∧ p.start.eval (xs 0) = cr 0 (evs e ws) ∧
      ∀ j : Nat, cr (j + 1) (evs e ws) = cr j (evs e ws) + growth (xs 0) (xs j) p.step := by
  match ws, h0, hl with
  | [a], _, _ =>
    have ha := hs.1
    simp only [sanes] at ha
    simp only [isUnknowns, Bool.or_false] at hu
    obtain ⟨h, h1, h2⟩ := hoist_ok _ e a ha.1 hu
    refine ⟨⟨h, .keep⟩, by simp [planOf, h1], by simp [evs, cr, ← he, h2], fun j => ?_⟩
    simp [evs, cr_single, growth]
  | [a, b], _, _ =>
    have ha := hs.1
    simp only [sanes] at ha
    have hb := (hs.2 hu).1 (by simp)
    simp only [List.tail_cons, sanes] at hb
    simp only [isUnknowns, Bool.or_false, Bool.or_eq_false_iff] at hu
    obtain ⟨h, h1, h2⟩ := hoist_ok _ e a ha.1 hu.1
    obtain ⟨s, h3, h4, h5⟩ := stepPlan_ok e he b hb.1 hu.2
    refine ⟨⟨h, s⟩, by simp [planOf, h1, h3], by simp [evs, cr, ← he, h2], fun j => ?_⟩
    simp only [h5 j, cr, evs, List.tail_cons, cr_single]

/-! ## One iteration -/

/-- The old and the new state belong together. -/
structure Rel (c : Ctx) (x₀ x : Out → R) (y : V → R) : Prop where
  old : ∀ o : Out, y (.old o) = x o
  iv : ∀ e : Expr, e.free c.out → isUnknowns (c.chrec e) = false → (c.chrec e).length ≤ 2 → ∀ opq : Nat → (Out → R) → R, y (.iv e) = e.eval opq x
  step : ∀ (e : Expr) (h h' : Hexp), planOf (c.chrec e) = some ⟨h', .hoisted h⟩ → y (.step e) = h.eval x₀

theorem embed_eval (ns : Nat → R) {x : Out → R} {y : V → R} (h : ∀ o : Out, y (.old o) = x o) :
    ∀ e : Expr, nev ns y (embed e) = ev ns x e
  | .var o => by simp [embed, nev, ev, Expr.eval, h]
  | .const c => by simp [embed, nev, ev, Expr.eval]
  | .add l r => by
    have hl := embed_eval ns h l
    have hr := embed_eval ns h r
    simp only [ev] at hl hr
    simp [embed, nev, ev, Expr.eval, hl, hr]
  | .sub l r => by
    have hl := embed_eval ns h l
    have hr := embed_eval ns h r
    simp only [ev] at hl hr
    simp [embed, nev, ev, Expr.eval, hl, hr]
  | .mul l r => by
    have hl := embed_eval ns h l
    have hr := embed_eval ns h r
    simp only [ev] at hl hr
    simp [embed, nev, ev, Expr.eval, hl, hr]
  | .shl l k => by
    have hl := embed_eval ns h l
    simp only [ev] at hl
    simp [embed, nev, ev, Expr.eval, hl]
  | .ext l => by
    have hl := embed_eval ns h l
    simp only [ev] at hl
    simp [embed, nev, ev, Expr.eval, hl]
  | .other i => by simp [embed, nev, ev, Expr.eval]

theorem candidate_known {c : Ctx} {e : Expr} (h : c.candidate e = true) : isUnknowns (c.chrec e) = false ∧ (c.chrec e).length ≤ 2 := by
  simp only [Ctx.candidate, Bool.and_eq_true, decide_eq_true_eq, Bool.not_eq_true'] at h
  exact ⟨h.2, h.1.2⟩

theorem replaced_eval {c : Ctx} {x₀ x : Out → R} {y : V → R} (h : Rel c x₀ x y) (ns : Nat → R) {e : Expr} (hf : e.free c.out)
    (hc : c.candidate e = true) : nev ns y (c.replaced e) = ev ns x e := by
  unfold Ctx.replaced
  split
  · simp only [nev, ev]
    exact h.iv e hf (candidate_known hc).1 (candidate_known hc).2 _
  · exact embed_eval ns h.old e

theorem rewrite_eval {c : Ctx} {x₀ x : Out → R} {y : V → R} (h : Rel c x₀ x y) (ns : Nat → R) :
    ∀ e : Expr, e.free c.out → nev ns y (c.rewrite e) = ev ns x e
  | .var o, _ => by simp [Ctx.rewrite, nev, ev, Expr.eval, h.old]
  | .const k, _ => by simp [Ctx.rewrite, nev, ev, Expr.eval]
  | .add l r, hf => by
    have hl := rewrite_eval h ns l hf.1
    have hr := rewrite_eval h ns r hf.2
    simp only [ev] at hl hr
    by_cases hc : c.candidate (.add l r) = true
    · simp only [Ctx.rewrite]; rw [if_pos hc]; exact replaced_eval h ns hf hc
    · simp only [Ctx.rewrite]; rw [if_neg hc]; simp [nev, ev, Expr.eval, hl, hr]
  | .sub l r, hf => by
    have hl := rewrite_eval h ns l hf.1
    have hr := rewrite_eval h ns r hf.2
    simp only [ev] at hl hr
    by_cases hc : c.candidate (.sub l r) = true
    · simp only [Ctx.rewrite]; rw [if_pos hc]; exact replaced_eval h ns hf hc
    · simp only [Ctx.rewrite]; rw [if_neg hc]; simp [nev, ev, Expr.eval, hl, hr]
  | .mul l r, hf => by
    have hl := rewrite_eval h ns l hf.1
    have hr := rewrite_eval h ns r hf.2
    simp only [ev] at hl hr
    by_cases hc : c.candidate (.mul l r) = true
    · simp only [Ctx.rewrite]; rw [if_pos hc]; exact replaced_eval h ns hf hc
    · simp only [Ctx.rewrite]; rw [if_neg hc]; simp [nev, ev, Expr.eval, hl, hr]
  | .shl l k, hf => by
    have hl := rewrite_eval h ns l hf
    simp only [ev] at hl
    by_cases hc : c.candidate (.shl l k) = true
    · simp only [Ctx.rewrite]; rw [if_pos hc]; exact replaced_eval h ns hf hc
    · simp only [Ctx.rewrite]; rw [if_neg hc]; simp [nev, ev, Expr.eval, hl]
  | .ext l, hf => by
    have hl := rewrite_eval h ns l hf
    simp only [ev] at hl
    simp [Ctx.rewrite, nev, ev, Expr.eval, hl]
  | .other i, _ => by simp [Ctx.rewrite, nev, ev, Expr.eval]

theorem nodes_eq {c : Ctx} (hfr : c.fresh) {x₀ x : Out → R} {y : V → R} (h : Rel c x₀ x y) (ops : Ops R M) (m : M) :
    ∀ d : Nat, nodes ops nev c.newBody m y d = nodes ops ev c.body m x d
  | 0 => rfl
  | d + 1 => by
    funext i
    simp only [nodes]
    congr 1
    funext a
    simp only [Ctx.newBody, Ctx.body, List.map_map]
    apply List.map_congr_left
    intro e he
    have := nodes_eq hfr h ops m d
    simp only [Ctx.newBody, Ctx.body] at this
    simp only [Function.comp, this]
    exact rewrite_eval h _ e (hfr.2.1 a e he)

theorem operands_eq {c : Ctx} (hfr : c.fresh) {x₀ x : Out → R} {y : V → R} (h : Rel c x₀ x y) (ops : Ops R M) (m : M) (d : Nat) :
    operands ops nev c.newBody d m y = operands ops ev c.body d m x := by
  funext i
  simp only [operands, nodes_eq hfr h ops m d]
  simp only [Ctx.newBody, Ctx.body, List.map_map]
  apply List.map_congr_left
  intro e he
  exact rewrite_eval h _ e (hfr.2.1 i e he)

/-- The hypotheses of the theorems: the constants the analysis has found are the start values, and the variables it has analysed are
incremented by the body. -/
structure Analysed (c : Ctx) (x₀ : Out → R) : Prop where
  starts : c.lp.starts x₀
  incs : ∀ v ∈ c.order, (c.lp.post v).increments v
  fresh : c.fresh

theorem run_states (c : Ctx) (ops : Ops R M) (d : Nat) (x₀ : Out → R) (m₀ : M) :
    Run c.lp (fun j => nodes ops ev c.body (states ops ev c.body d (x₀, m₀) j).2 (states ops ev c.body d (x₀, m₀) j).1 d)
      (fun j => (states ops ev c.body d (x₀, m₀) j).1) := by
  intro j o
  simp only [states, iter, ev, Ctx.body]

theorem rel_states {c : Ctx} {x₀ : Out → R} (hc : Analysed c x₀) (ops : Ops R M) (d : Nat) (m₀ : M) : ∀ j : Nat,
    Rel c x₀ (states ops ev c.body d (x₀, m₀) j).1 (states ops nev c.newBody d (c.newStart x₀, m₀) j).1 ∧
      (states ops nev c.newBody d (c.newStart x₀, m₀) j).2 = (states ops ev c.body d (x₀, m₀) j).2 := by
  have hrun := run_states c ops d x₀ m₀
  intro j
  let env : Env R := ⟨fun _ => 0, x₀, fun _ => 0⟩
  have plan : ∀ e : Expr, e.free c.out → isUnknowns (c.chrec e) = false → (c.chrec e).length ≤ 2 →
      ∃ p : Plan, planOf (c.chrec e) = some p ∧ p.start.eval x₀ = cr 0 (evs env (c.chrec e)) ∧
        ∀ j : Nat, cr (j + 1) (evs env (c.chrec e)) = cr j (evs env (c.chrec e)) + growth x₀ (states ops ev c.body d (x₀, m₀) j).1 p.step := by
    intro e hf hu hl
    obtain ⟨h1, h2, h3⟩ := chain_good hrun hc.starts c.n c.k hc.incs c.out e hf
    exact planOf_ok env rfl _ h1 h2 hu hl
  have val : ∀ e : Expr, e.free c.out → isUnknowns (c.chrec e) = false → ∀ (opq : Nat → (Out → R) → R) (j : Nat),
      e.eval opq (states ops ev c.body d (x₀, m₀) j).1 = cr j (evs env (c.chrec e)) := by
    intro e hf hu opq j
    obtain ⟨h1, h2, h3⟩ := chain_good hrun hc.starts c.n c.k hc.incs c.out e hf
    exact h3 hu env opq j rfl
  induction j with
  | zero =>
    refine ⟨⟨fun o => rfl, ?_, ?_⟩, rfl⟩
    · intro e hf hu hl opq
      obtain ⟨p, h1, h2, _⟩ := plan e hf hu hl
      rw [val e hf hu opq 0, ← h2]
      simp [states, Ctx.newStart, h1]
    · intro e h h' hp
      simp [states, Ctx.newStart, hp]
  | succ j ih =>
    obtain ⟨hr, hm⟩ := ih
    refine ⟨⟨?_, ?_, ?_⟩, ?_⟩
    · intro o
      simp only [states, iter, hm, nodes_eq hc.fresh hr ops]
      exact rewrite_eval hr _ _ (hc.fresh.1 o)
    · intro e hf hu hl opq
      obtain ⟨p, h1, h2, h3⟩ := plan e hf hu hl
      rw [val e hf hu opq (j + 1), h3 j, ← val e hf hu opq j, ← hr.iv e hf hu hl opq]
      have hpost : c.newBody.post (.iv e) = c.ivPost e := rfl
      simp only [states, iter, hpost, Ctx.ivPost]
      obtain ⟨st, sp⟩ := p
      rw [h1]
      cases sp with
      | keep => simp [nev, growth]
      | const k => simp [nev, growth]
      | cur o => simp [nev, growth, hr.old o]
      | hoisted h =>
        have := hr.step e h st h1
        simp only [nev, growth]
        rw [this]
    · intro e h h' hp
      have := hr.step e h h' hp
      simp only [states, iter, Ctx.newBody, nev]
      exact this
    · simp only [states, iter, hm, operands_eq hc.fresh hr ops]

/-- **C56** In every iteration of every loop: the variables have the same values as before, the rest of the program (memory) is the
same, all operations that are not arithmetic get the same operands, and every new induction variable has the value of the operation
it replaces. Missing: loops that contain other loops; conversions between widths; variables that the analysis accepts although they
are not incremented (`C45_reset_accepted`). -/
theorem C56_iteration_partial (c : Ctx) (x₀ : Out → R) (hc : Analysed c x₀) (ops : Ops R M) (d : Nat) (m₀ : M) (j : Nat) :
    (∀ o : Out, (states ops nev c.newBody d (c.newStart x₀, m₀) j).1 (.old o) = (states ops ev c.body d (x₀, m₀) j).1 o) ∧
      (states ops nev c.newBody d (c.newStart x₀, m₀) j).2 = (states ops ev c.body d (x₀, m₀) j).2 ∧
      (operands ops nev c.newBody d (states ops nev c.newBody d (c.newStart x₀, m₀) j).2 (states ops nev c.newBody d (c.newStart x₀, m₀) j).1 =
        operands ops ev c.body d (states ops ev c.body d (x₀, m₀) j).2 (states ops ev c.body d (x₀, m₀) j).1) ∧
      (∀ e : Expr, e.free c.out → c.candidate e = true → ∀ ns : Nat → R,
        (states ops nev c.newBody d (c.newStart x₀, m₀) j).1 (.iv e) = ev ns (states ops ev c.body d (x₀, m₀) j).1 e) := by
  obtain ⟨hr, hm⟩ := rel_states hc ops d m₀ j
  refine ⟨hr.old, hm, ?_, ?_⟩
  · rw [hm]
    exact operands_eq hc.fresh hr ops _ d
  · intro e hf hcand ns
    exact hr.iv e hf (candidate_known hcand).1 (candidate_known hcand).2 _

theorem states_shift {Var E : Type} (ops : Ops R M) (evl : Eval R Var E) (b : Body Var E) (d : Nat) (s : (Var → R) × M) : ∀ j : Nat,
    states ops evl b d (iter ops evl b d s) j = states ops evl b d s (j + 1)
  | 0 => rfl
  | j + 1 => by simp only [states, states_shift ops evl b d s j]

/-- **C56** The loop ends after as many iterations as before, with the same values of its variables and the same memory. -/
theorem C56_result_partial (c : Ctx) (x₀ : Out → R) (hc : Analysed c x₀) (ops : Ops R M) (d : Nat) (m₀ : M) (N : Nat) :
    (exec ops nev c.newBody d N (c.newStart x₀, m₀)).map (fun s => ((fun o => s.1 (.old o)), s.2)) =
      exec ops ev c.body d N (x₀, m₀) := by
  have key : ∀ (N j : Nat), (exec ops nev c.newBody d N (states ops nev c.newBody d (c.newStart x₀, m₀) j)).map
      (fun s => ((fun o => s.1 (.old o)), s.2)) = exec ops ev c.body d N (states ops ev c.body d (x₀, m₀) j) := by
    intro N
    induction N with
    | zero => intro j; rfl
    | succ N ih =>
      intro j
      obtain ⟨hr, hm⟩ := rel_states hc ops d m₀ j
      have hmore : more ops nev c.newBody d (states ops nev c.newBody d (c.newStart x₀, m₀) j) =
          more ops ev c.body d (states ops ev c.body d (x₀, m₀) j) := by
        simp only [more, hm, nodes_eq hc.fresh hr ops]
        congr 1
        exact rewrite_eval hr _ _ hc.fresh.2.2
      have h1 := ih (j + 1)
      obtain ⟨hr', hm'⟩ := rel_states hc ops d m₀ (j + 1)
      simp only [exec, hmore]
      by_cases hb : more ops ev c.body d (states ops ev c.body d (x₀, m₀) j) = true
      · rw [if_pos hb, if_pos hb]
        exact h1
      · rw [if_neg hb, if_neg hb]
        simp only [states] at hr' hm'
        simp only [Option.map_some, hm']
        congr 1
        refine Prod.ext ?_ rfl
        funext o
        exact hr'.old o
  exact key N 0

/-- **C56** Every candidate is replaced: hoisting never fails (and throws no exception). -/
theorem C56_replaced_partial (c : Ctx) (x₀ : Out → R) (hc : Analysed c x₀) (ops : Ops R M) (m₀ : M) (e : Expr) (hf : e.free c.out)
    (hcand : c.candidate e = true) : c.replaced e = .var (.iv e) ∧ c.rewrite e = .var (.iv e) := by
  have hrun := run_states c ops 0 x₀ m₀
  obtain ⟨h1, h2, h3⟩ := chain_good hrun hc.starts c.n c.k hc.incs c.out e hf
  obtain ⟨p, h4, _⟩ := planOf_ok (xs := fun j => (states ops ev c.body 0 (x₀, m₀) j).1) ⟨fun _ => 0, x₀, fun _ => 0⟩ rfl _ h1 h2
    (candidate_known hcand).1 (candidate_known hcand).2
  have hrep : c.replaced e = .var (.iv e) := by
    have h5 : planOf (c.chrec e) = some p := h4
    simp [Ctx.replaced, h5]
  refine ⟨hrep, ?_⟩
  cases e with
  | var o => simp [Ctx.candidate, isArith] at hcand
  | const k => simp [Ctx.candidate, isArith] at hcand
  | ext l => simp [Ctx.candidate, isArith] at hcand
  | other i => simp [Ctx.candidate, isArith] at hcand
  | add l r => simp only [Ctx.rewrite]; rw [if_pos hcand]; exact hrep
  | sub l r => simp only [Ctx.rewrite]; rw [if_pos hcand]; exact hrep
  | mul l r => simp only [Ctx.rewrite]; rw [if_pos hcand]; exact hrep
  | shl l k => simp only [Ctx.rewrite]; rw [if_pos hcand]; exact hrep

end Jlm.Scev.Lsr
