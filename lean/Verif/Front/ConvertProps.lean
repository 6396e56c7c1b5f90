import Verif.Front.ConvertLemmas

/-! # Conversion of aggregation trees preserves what they compute -/

set_option linter.unusedSimpArgs false
set_option linter.unusedVariables false

namespace Jlm.Front

open Jlm.Opt

variable {V : Type} {sem : Sem V} {truth : V → Bool}

/-- The result `r` of a conversion from `n` is right for the state `s'` on the variables `T`. -/
structure Good (sem : Sem V) (E : Env V) (n : Nat) (r : Res) (s' : St V) (T : Var → Prop) : Prop where
  le : n ≤ r.2.1
  bound : Bound r.2.2 r.2.1
  frame : ∀ o, o < n → evalNodes sem (nodesOf r.1) E o = E o
  agree : Agree (evalNodes sem (nodesOf r.1) E) r.2.2 s'.env T

/-- The value of `v` is the one that the branch at the end has evaluated. -/
def CtlAt (sem : Sem V) (E : Env V) (m : VMap) (s : St V) (v : Var) : Prop :=
  ∃ o, m v = some o ∧ alternative sem (E o) = s.ctl

theorem nodup_range' (n l : Nat) : (List.range' n l).Nodup := List.nodup_range'

theorem eval_single (E : Env V) (x : Node) :
    evalNodes sem (nodesOf [x]) E = upd E x.outs (nodeVals sem x E) := by simp [nodesOf, evalNodes]

theorem convTac_sound (hs : SelectSem sem truth) {t : Tac} {n : Nat} {m : VMap} {r : Res} {E : Env V}
    {s : St V} {T : Var → Prop} (h : convTac n m t = some r) (hb : Bound m n)
    (ha : Agree E m s.env fun v => v ∈ t.reads ∨ (T v ∧ v ∉ t.writes)) :
    Good sem E n r (step sem truth t s) T ∧
      ∀ v, t = .branch v → CtlAt sem (evalNodes sem (nodesOf r.1) E) r.2.2 (step sem truth t s) v := by
  cases t with
  | assign l rh =>
    simp only [convTac, Option.map_eq_some_iff] at h
    obtain ⟨o, h1, rfl⟩ := h
    obtain ⟨x, e1, e2⟩ := ha rh (.inl (by simp [Tac.reads]))
    rw [h1] at e1; cases e1
    refine ⟨⟨Nat.le_refl _, hb.insert (hb _ _ h1), fun _ _ => rfl, ?_⟩, fun v hv => by simp at hv⟩
    simp only [nodesOf, evalNodes, step]
    rw [← e2]
    exact Agree.insert (ha.mono fun u hu => .inr ⟨hu.1, by simp [Tac.writes, hu.2]⟩)
  | branch v =>
    simp only [convTac, Option.some.injEq] at h
    subst h
    refine ⟨⟨Nat.le_refl _, hb, fun _ _ => rfl, ?_⟩, fun u hu => ?_⟩
    · simp only [nodesOf, evalNodes, step]
      exact ha.mono fun u hu => .inr ⟨hu, by simp [Tac.writes]⟩
    · cases hu
      obtain ⟨x, e1, e2⟩ := ha v (.inl (by simp [Tac.reads]))
      exact ⟨x, e1, by simp only [nodesOf, evalNodes, step]; rw [e2]⟩
  | op o ins outs =>
    simp only [convTac, Option.map_eq_some_iff] at h
    obtain ⟨is, h1, rfl⟩ := h
    have hv := lookupAll_vals ha h1 fun v hv => .inl (by simpa [Tac.reads] using hv)
    have hf : ∀ x, x < n → evalNodes sem (nodesOf [.simple o is (List.range' n outs.length)]) E x = E x := by
      intro x hx
      rw [eval_single]
      refine upd_notin E _ _ _ fun h => ?_
      have := List.mem_range'_1.1 (by simpa [Node.outs] using h)
      exact absurd this.1 (Nat.not_le.2 hx)
    refine ⟨⟨Nat.le_add_right _ _, (hb.mono (Nat.le_add_right _ _)).inserts fun x hx =>
      (List.mem_range'_1.1 hx).2, hf, ?_⟩, fun v hv => by simp at hv⟩
    simp only [step]
    refine Agree.setAll ((ha.congr hb hf).mono fun u hu => .inr ⟨hu.1, by simpa [Tac.writes] using hu.2⟩)
      ?_ (by simp)
    have e : opVals sem o (ins.map s.env) = nodeVals sem (.simple o is (List.range' n outs.length)) E := by
      rw [nodeVals, hv, opVals]
    rw [e, eval_single]
    exact upd_vals E (nodup_range' _ _)
  | select c a b res =>
    simp only [convTac, Option.bind_eq_some_iff, Option.map_eq_some_iff] at h
    obtain ⟨p, hp, e1, he1, e2, he2, rfl⟩ := h
    obtain ⟨x, x1, x2⟩ := ha c (.inl (by simp [Tac.reads]))
    rw [hp] at x1; cases x1
    obtain ⟨x, x1, y2⟩ := ha b (.inl (by simp [Tac.reads]))
    rw [he1] at x1; cases x1
    obtain ⟨x, x1, z2⟩ := ha a (.inl (by simp [Tac.reads]))
    rw [he2] at x1; cases x1
    have l0 := hb _ _ hp
    have l1 := hb _ _ he1
    have l2 := hb _ _ he2
    generalize hE1 : upd E [n] (nodeVals sem (.simple selectMatch [p] [n]) E) = E1
    have f1 : ∀ x, x < n → E1 x = E x := by
      intro x hx
      rw [← hE1]
      exact upd_notin E _ _ _ (by simp; exact Nat.ne_of_lt hx)
    have c1 : alternative sem (E1 n) = (s.env c).map fun y => if truth y.1 then 1 else 0 := by
      have g2 := hs (s.env c)
      rw [← hE1, ← g2]
      have hk : selectMatch.kind ≠ .load := by simp [selectMatch]
      simp only [upd, if_true, nodeVals, List.map_cons, List.map_nil, x2, if_neg hk]
      rcases sem.apply selectMatch [s.env c] with _ | ⟨_ | x, xs⟩ <;> simp [lift, alternative]
    have hgv : ∀ subs : Regions, nodeVals sem (.gamma n [e1, e2] [n + 7] subs) E1 =
        match E1 n with
        | none => []
        | some q => regionVals sem subs (sem.ctl q.1) [some (sem.content q.1, none), s.env b, s.env a] := by
      intro subs
      simp only [nodeVals, List.map_cons, List.map_nil, f1 e1 l1, f1 e2 l2, y2, z2]
      cases E1 n <;> rfl
    have ev : ∀ subs : Regions, evalNodes sem (nodesOf [.simple selectMatch [p] [n],
        .gamma n [e1, e2] [n + 7] subs]) E =
        upd E1 [n + 7] (nodeVals sem (.gamma n [e1, e2] [n + 7] subs) E1) := by
      intro subs
      simp only [nodesOf, evalNodes, Node.outs, hE1]
    have fr : ∀ (subs : Regions) x, x < n → evalNodes sem (nodesOf [.simple selectMatch [p] [n],
        .gamma n [e1, e2] [n + 7] subs]) E x = E x := by
      intro subs x hx
      rw [ev, upd_notin _ _ _ _ (by simp; exact Nat.ne_of_lt (Nat.lt_add_right 7 hx)), f1 x hx]
    refine ⟨⟨Nat.le_add_right _ _, (hb.mono (Nat.le_add_right _ _)).insert
      (Nat.add_lt_add_left (by decide) n), fr _, ?_⟩, fun v hv => by simp at hv⟩
    have hval : evalNodes sem (nodesOf [.simple selectMatch [p] [n], .gamma n [e1, e2] [n + 7]
        (.cons [n + 1, n + 2, n + 3] [n + 2] .nil (.cons [n + 4, n + 5, n + 6] [n + 6] .nil .nil))]) E (n + 7)
        = (s.env c).bind fun x => if truth x.1 then s.env a else s.env b := by
      rw [ev, hgv]
      simp only [upd, if_true]
      cases hc : s.env c with
      | none =>
        rw [hc] at c1
        cases hq : E1 n with
        | none => simp
        | some q => rw [hq] at c1; simp [alternative] at c1
      | some y =>
        rw [hc] at c1
        cases hq : E1 n with
        | none => rw [hq] at c1; simp [alternative] at c1
        | some q =>
          rw [hq] at c1
          simp only [alternative, Option.map_some, Option.some.injEq] at c1
          simp only [c1, Option.bind_some]
          have d1 : n + 2 ≠ n + 1 := by simp
          have d2 : n + 6 ≠ n + 4 := by simp
          have d3 : n + 6 ≠ n + 5 := by simp
          by_cases ht : truth y.1 = true
          · simp [ht, regionVals, evalNodes, upd]
          · simp [ht, regionVals, evalNodes, upd]
    simp only [step]
    rw [← hval]
    exact Agree.insert ((ha.congr hb (fr _)).mono fun u hu => .inr ⟨hu.1, by simp [Tac.writes, hu.2]⟩)

theorem Good.trans {E : Env V} {n : Nat} {r r' : Res} {s t : St V} {T T' : Var → Prop}
    (h : Good sem E n r s T) (h' : Good sem (evalNodes sem (nodesOf r.1) E) r.2.1 r' t T') :
    Good sem E n (r.1 ++ r'.1, r'.2) t T' := by
  refine ⟨Nat.le_trans h.le h'.le, h'.bound, fun o ho => ?_, ?_⟩
  · show evalNodes sem (nodesOf (r.1 ++ r'.1)) E o = E o
    rw [evalNodes_append, h'.frame o (Nat.lt_of_lt_of_le ho h.le), h.frame o ho]
  · show Agree (evalNodes sem (nodesOf (r.1 ++ r'.1)) E) r'.2.2 t.env T'
    rw [evalNodes_append]
    exact h'.agree

theorem branchVar_cons {t t' : Tac} {ts : List Tac} : branchVar (t :: t' :: ts) = branchVar (t' :: ts) := by
  simp only [branchVar, List.getLast?_cons_cons]

theorem branchVar_single {t : Tac} {v : Var} (h : branchVar [t] = some v) : t = .branch v := by
  simp only [branchVar, List.getLast?_singleton] at h
  cases t <;> simp_all

theorem convBlock_sound (hs : SelectSem sem truth) : ∀ {ts : List Tac} {n : Nat} {m : VMap} {r : Res}
    {E : Env V} {s : St V} {T : Var → Prop}, convBlock ts n m = some r → Bound m n →
    Agree E m s.env (live (rwBlock ts) T) →
    Good sem E n r (steps sem truth ts s) T ∧ ∀ v, branchVar ts = some v →
      CtlAt sem (evalNodes sem (nodesOf r.1) E) r.2.2 (steps sem truth ts s) v
  | [], n, m, r, E, s, T, h, hb, ha => by
      simp only [convBlock, Option.some.injEq] at h
      subst h
      refine ⟨⟨Nat.le_refl _, hb, fun _ _ => rfl, ?_⟩, fun v hv => by simp [branchVar] at hv⟩
      simp only [nodesOf, evalNodes, steps, List.foldl_nil]
      exact ha.mono fun u hu => .inr ⟨hu, by simp [rwBlock]⟩
  | t :: ts, n, m, r, E, s, T, h, hb, ha => by
      simp only [convBlock, Option.bind_eq_some_iff, Option.map_eq_some_iff] at h
      obtain ⟨r1, h1, r2, h2, rfl⟩ := h
      have g1 := convTac_sound hs (T := live (rwBlock ts) T) h1 hb (ha.mono fun u hu => by
        simp only [live, rwBlock, mem_union, mem_diff, not_or] at hu ⊢
        rcases hu with hu | ⟨hu | hu, hw⟩
        · exact .inl (.inr hu)
        · exact .inl (.inl ⟨hu, hw⟩)
        · exact .inr ⟨hu.1, hu.2, hw⟩)
      have g2 := convBlock_sound hs (s := step sem truth t s) h2 g1.1.bound g1.1.agree
      refine ⟨g1.1.trans g2.1, fun v hv => ?_⟩
      show CtlAt sem (evalNodes sem (nodesOf (r1.1 ++ r2.1)) E) r2.2.2 _ v
      rw [evalNodes_append]
      cases ts with
      | nil =>
        simp only [convBlock, Option.some.injEq] at h2
        subst h2
        simpa [nodesOf, evalNodes, steps] using g1.2 v (branchVar_single hv)
      | cons t' ts => exact g2.2 v (by rw [← branchVar_cons]; exact hv)

mutual

theorem predicate_endsIn (strict : Bool) : ∀ (a : Agg) {W : List Var} {v : Var}, endsIn a = some v →
    (annotate strict a W).1.predicate = some v
  | .block ts, W, v, h => by simpa only [annotate, Ann.predicate, endsIn] using h
  | .linear cs, W, v, h => by
      simp only [annotate, Ann.predicate]
      exact predicate_endsInList strict cs (by simpa only [endsIn] using h)
  | .branch cs, W, v, h => by simp [endsIn] at h
  | .loop b, W, v, h => by simp [endsIn] at h

theorem predicate_endsInList (strict : Bool) : ∀ (cs : Aggs) {W : List Var} {v : Var},
    endsInList cs = some v → (annotateList strict cs W).1.predicate = some v
  | .nil, W, v, h => by simp [endsInList] at h
  | .cons c .nil, W, v, h => by
      simp only [annotateList, Anns.predicate]
      exact predicate_endsIn strict c (by simpa only [endsInList] using h)
  | .cons c (.cons c' cs), W, v, h => by
      rw [endsInList] at h
      have := predicate_endsInList strict (.cons c' cs) (W := W) h
      simp only [annotateList, Anns.predicate] at this ⊢
      exact this

end

theorem length_range' (n l : Nat) : (List.range' n l).length = l := by simp

/-- Undefined values for the new variables of a loop. -/
theorem undefs_sound (sem : Sem V) : ∀ (us : List Out) (E : Env V),
    (∀ x, x ∉ us → evalNodes sem (nodesOf (us.map fun u => Node.simple undefOp [] [u])) E x = E x) ∧
    (∀ x ∈ us, evalNodes sem (nodesOf (us.map fun u => Node.simple undefOp [] [u])) E x = undefVal sem)
  | [], E => by simp [nodesOf, evalNodes]
  | u :: us, E => by
      have ih := undefs_sound sem us (upd E [u] (nodeVals sem (.simple undefOp [] [u]) E))
      have hv : nodeVals sem (.simple undefOp [] [u]) E = lift (sem.apply undefOp []) := by
        simp [nodeVals, undefOp]
      constructor
      · intro x hx
        simp only [List.mem_cons, not_or] at hx
        simp only [List.map_cons, nodesOf, evalNodes, Node.outs]
        rw [ih.1 x hx.2]
        simp [upd, hx.1]
      · intro x hx
        simp only [List.map_cons, nodesOf, evalNodes, Node.outs]
        by_cases hu : x ∈ us
        · exact ih.2 x hu
        · rw [ih.1 x hu]
          have : x = u := by simpa [hu] using hx
          simp [upd, this, hv, undefVal]

theorem args_agree {E : Env V} {P : Var → Prop} {env : Var → W V} {vs : List Var} {os : List Out}
    {ws : List (W V)} (hl : vs.length = os.length) (hp : ∀ v, P v → v ∈ vs)
    (hf : List.Forall₂ (fun v w => P v → w = env v) vs ws) (hv : Vals E os ws) :
    Agree E (VMap.empty.inserts vs os) env P :=
  Agree.inserts (fun u hu => absurd (hp u hu.1) hu.2) (hv.forall₂ hl hf)

theorem iter_loop {R : St V → St V → Prop} {s s' : St V} (hi : Iter R s s')
    (f : List (W V) → List (W V)) (Inv Post : List (W V) → St V → Prop)
    (hstep : ∀ ws s t, R s t → Inv ws s → Post (f ws).tail t ∧ alternative sem ((f ws).headD none) = t.ctl)
    (hpost : ∀ ws s, Post ws s → Inv ws s) :
    ∀ init, Inv init s → ∃ n, loopExits sem f init n ∧ Post (loopState f init (n + 1)) s' := by
  induction hi with
  | exit hr hc =>
    intro init h
    have := hstep _ _ _ hr h
    refine ⟨0, ⟨?_, fun m hm => absurd hm (Nat.not_lt_zero m)⟩, this.1⟩
    rw [← hc, ← this.2]; rfl
  | again hr hc _ ih =>
    intro init h
    have h1 := hstep _ _ _ hr h
    obtain ⟨n, hn, hs⟩ := ih _ (hpost _ _ h1.1)
    have shift : ∀ k, loopState f init (k + 1) = loopState f (f init).tail k := by
      intro k
      induction k with
      | zero => rfl
      | succ k ih => rw [loopState, ih, loopState]
    have shiftP : ∀ k, loopPred sem f init (k + 1) = loopPred sem f (f init).tail k := by
      intro k; simp only [loopPred, shift]
    refine ⟨n + 1, ⟨?_, fun m hm => ?_⟩, ?_⟩
    · rw [shiftP]; exact hn.1
    · cases m with
      | zero => exact ⟨_, by rw [← hc, ← h1.2]; rfl⟩
      | succ m => rw [shiftP]; exact hn.2 m (Nat.lt_of_succ_lt_succ hm)
    · rw [shift]; exact hs

theorem forall₂_mem {α β : Type} {R S : α → β → Prop} : ∀ {vs : List α} {ws : List β},
    List.Forall₂ R vs ws → (∀ v ∈ vs, ∀ w, R v w → S v w) → List.Forall₂ S vs ws
  | [], [], _, _ => .nil
  | v :: vs, w :: ws, h, hm => by
      cases h with
      | cons h1 h2 => exact .cons (hm v (by simp) w h1) (forall₂_mem h2 fun u hu => hm u (by simp [hu]))

theorem forall₂_length {α β : Type} {S : α → β → Prop} : ∀ {vs : List α} {ws : List β},
    vs.length = ws.length → (∀ v ∈ vs, ∀ w, S v w) → List.Forall₂ S vs ws
  | [], [], _, _ => .nil
  | v :: vs, w :: ws, h, hm =>
      .cons (hm v (by simp) w) (forall₂_length (by simpa using h) fun u hu => hm u (by simp [hu]))

theorem convTac_le {t : Tac} {n : Nat} {m : VMap} {r : Res} (h : convTac n m t = some r) : n ≤ r.2.1 := by
  cases t <;> simp only [convTac, Option.bind_eq_some_iff, Option.map_eq_some_iff, Option.some.injEq] at h
  · obtain ⟨_, _, rfl⟩ := h; exact Nat.le_add_right _ _
  · obtain ⟨_, _, rfl⟩ := h; exact Nat.le_refl _
  · obtain ⟨_, _, _, _, _, _, rfl⟩ := h; exact Nat.le_add_right _ _
  · subst h; exact Nat.le_refl _

theorem convBlock_le : ∀ {ts : List Tac} {n : Nat} {m : VMap} {r : Res}, convBlock ts n m = some r → n ≤ r.2.1
  | [], n, m, r, h => by simp only [convBlock, Option.some.injEq] at h; subst h; exact Nat.le_refl _
  | t :: ts, n, m, r, h => by
      simp only [convBlock, Option.bind_eq_some_iff, Option.map_eq_some_iff] at h
      obtain ⟨r1, h1, r2, h2, rfl⟩ := h
      have := convBlock_le h2
      exact Nat.le_trans (convTac_le h1) this

mutual

theorem conv_le : ∀ (a : Ann) {prev : Option Var} {n : Nat} {m : VMap} {r : Res},
    conv a prev n m = some r → n ≤ r.2.1
  | .block ts, prev, n, m, r, h => convBlock_le (by simpa only [conv] using h)
  | .linear cs, prev, n, m, r, h => convList_le cs (by simpa only [conv] using h)
  | .branch ins outs cs, prev, n, m, r, h => by
      simp only [conv, Option.bind_eq_some_iff, Option.map_eq_some_iff] at h
      obtain ⟨p', hp', pred, hpred, is, his, rc, hrc, rfl⟩ := h
      exact Nat.le_trans (convCases_le cs hrc) (Nat.le_add_right _ _)
  | .loop vars b, prev, n, m, r, h => by
      simp only [conv, Option.bind_eq_some_iff, Option.map_eq_some_iff] at h
      obtain ⟨is, his, r0, hr0, posts, hposts, p, hp, pred, hpred, rfl⟩ := h
      exact Nat.le_trans (Nat.le_trans (Nat.le_trans (Nat.le_add_right _ _) (Nat.le_add_right _ _))
        (conv_le b hr0)) (Nat.le_add_right _ _)

theorem convList_le : ∀ (cs : Anns) {prev : Option Var} {n : Nat} {m : VMap} {r : Res},
    convList cs prev n m = some r → n ≤ r.2.1
  | .nil, prev, n, m, r, h => by
      simp only [convList, Option.some.injEq] at h; subst h; exact Nat.le_refl _
  | .cons c cs, prev, n, m, r, h => by
      simp only [convList, Option.bind_eq_some_iff, Option.map_eq_some_iff] at h
      obtain ⟨r1, h1, r2, h2, rfl⟩ := h
      have := convList_le cs h2
      exact Nat.le_trans (conv_le c h1) this

theorem convCases_le : ∀ (cs : Anns) {ins outs : List Var} {n : Nat} {r : Regions × Nat},
    convCases ins outs cs n = some r → n ≤ r.2
  | .nil, ins, outs, n, r, h => by
      simp only [convCases, Option.some.injEq] at h; subst h; exact Nat.le_refl _
  | .cons c cs, ins, outs, n, r, h => by
      simp only [convCases, Option.bind_eq_some_iff, Option.map_eq_some_iff] at h
      obtain ⟨r1, h1, res, hres, r2, h2, rfl⟩ := h
      have := convCases_le cs h2
      exact Nat.le_trans (Nat.le_trans (Nat.le_trans (Nat.le_add_right _ _) (Nat.le_add_right _ _))
        (conv_le c h1)) this

end

mutual

theorem conv_sound (hs : SelectSem sem truth) (strict : Bool) : ∀ (a : Agg) {W : List Var}
    {q prev : Option Var} {n : Nat} {m : VMap} {r : Res} {E : Env V} {s s' : St V} {T : Var → Prop},
    wf a q → (∀ p, q = some p → prev = some p ∧ CtlAt sem E m s p) →
    conv (annotate strict a W).1 prev n m = some r → Run sem truth a s s' → (∀ v, T v → v ∈ W) →
    Bound m n → Agree E m s.env (live (rw a) T) →
    Good sem E n r s' T ∧
      ∀ v, endsIn a = some v → CtlAt sem (evalNodes sem (nodesOf r.1) E) r.2.2 s' v
  | .block ts, W, q, prev, n, m, r, E, s, s', T, hw, hq, h, hr, hT, hb, ha => by
      simp only [annotate, conv] at h
      simp only [Run] at hr
      rw [rw] at ha
      subst hr
      exact convBlock_sound hs h hb ha
  | .linear cs, W, q, prev, n, m, r, E, s, s', T, hw, hq, h, hr, hT, hb, ha => by
      simp only [annotate, conv] at h
      simp only [Run] at hr
      rw [rw] at ha
      exact convList_sound hs strict cs (by simpa only [wf] using hw) (by simp) h hr hT hb ha
  | .branch cs, W, q, prev, n, m, r, E, s, s', T, hw, hq, h, hr, hT, hb, ha => by
      simp only [annotate, conv, Option.bind_eq_some_iff, Option.map_eq_some_iff] at h
      simp only [Run] at hr
      simp only [wf] at hw
      rw [rw] at ha
      obtain ⟨p, rfl⟩ := Option.isSome_iff_exists.1 hw.1
      obtain ⟨p', hp', pred, hpred, is, his, rc, hrc, rfl⟩ := h
      obtain ⟨hp1, o, ho1, ho2⟩ := hq p rfl
      rw [hp1] at hp'; cases hp'
      rw [hpred] at ho1; cases ho1
      obtain ⟨k, hk, hr⟩ := hr
      generalize houts : inter W (rwBranch cs).all = outs at *
      generalize hins : union (diff outs (rwBranch cs).full) (rwBranch cs).read = ins at *
      have hT' : ∀ v, (T v ∧ v ∈ (rwBranch cs).all) → v ∈ outs := by
        intro v hv; rw [← houts]; simp [hT v hv.1, hv.2]
      have hcase := convCases_sound hs strict cs (W := outs) (ins := ins) (outs := outs)
        (T := fun v => T v ∧ v ∈ (rwBranch cs).all) hw.2 hrc hr hT'
        (L := live (rwBranch cs) fun v => T v ∧ v ∈ (rwBranch cs).all) (fun v h => h)
        (fun v h => by
          rw [← hins]; simp only [mem_union, mem_diff]
          rcases h with h | h
          · exact .inr h
          · exact .inl ⟨hT' v h.1, h.2⟩)
        (lookupAll_agree (ha.mono fun v hv => hv.imp id fun x => ⟨x.1.1, x.2⟩) his)
      have hle := convCases_le _ hrc
      have hvals := hcase
      have hcont : ∃ y : Val V, E pred = some y ∧ sem.ctl y.1 = k := by
        rw [hk] at ho2
        cases hE : E pred with
        | none => rw [hE] at ho2; simp [alternative] at ho2
        | some y => rw [hE] at ho2; exact ⟨y, rfl, by simpa [alternative] using ho2⟩
      obtain ⟨y, hy, hck⟩ := hcont
      have hnv : nodeVals sem (.gamma pred is (List.range' rc.2 outs.length) rc.1) E =
          regionVals sem rc.1 k (some (sem.content y.1, none) :: is.map E) := by
        simp only [nodeVals, hy, hck]
      have hfr : ∀ x, x < rc.2 →
          evalNodes sem (nodesOf [.gamma pred is (List.range' rc.2 outs.length) rc.1]) E x = E x := by
        intro x hx
        rw [eval_single]
        refine upd_notin E _ _ _ fun h => ?_
        have := List.mem_range'_1.1 (by simpa [Node.outs] using h)
        exact absurd this.1 (Nat.not_le.2 hx)
      refine ⟨⟨Nat.le_trans hle (Nat.le_add_right _ _),
        (hb.mono (Nat.le_trans hle (Nat.le_add_right _ _))).inserts fun x hx => (List.mem_range'_1.1 hx).2,
        fun o ho => hfr o (Nat.lt_of_lt_of_le ho hle), ?_⟩, fun v hv => by simp [endsIn] at hv⟩
      refine Agree.inserts (fun u hu => ?_) ?_
      · have hna : u ∉ (rwBranch cs).all := fun h => hu.2 (hT' u ⟨hu.1, h⟩)
        obtain ⟨x, x1, x2⟩ := ha u (.inr ⟨hu.1, fun h => hna (full_all_branch cs h)⟩)
        refine ⟨x, x1, ?_⟩
        rw [hfr x (Nat.lt_of_lt_of_le (hb u x x1) hle), x2, runCase_frame sem truth cs hr hna]
      · have hv : Vals (evalNodes sem (nodesOf [.gamma pred is (List.range' rc.2 outs.length) rc.1]) E)
            (List.range' rc.2 outs.length)
            (regionVals sem rc.1 k (some (sem.content y.1, none) :: is.map E)) := by
          rw [eval_single, hnv]
          exact upd_vals E (nodup_range' _ _)
        refine forall₂_mem (hv.forall₂ (by simp) (hvals _)) fun v hv o h hT1 => h ⟨hT1, ?_⟩
        rw [← houts] at hv
        exact (mem_inter.1 hv).2
  | .loop b, W, q, prev, n, m, r, E, s, s', T, hw, hq, h, hr, hT, hb, ha => by
      simp only [annotate, conv, Option.bind_eq_some_iff, Option.map_eq_some_iff] at h
      simp only [Run] at hr
      simp only [wf] at hw
      rw [rw] at ha
      obtain ⟨is, his, r0, hr0, posts, hposts, p, hp, pred, hpred, rfl⟩ := h
      generalize hvars : union W (rw b).read = vars at *
      generalize hnew : (vars.filter fun v => (m v).isNone) = new at *
      generalize hus : List.range' n new.length = us at *
      generalize hn1 : n + new.length = n1 at *
      generalize has : List.range' n1 vars.length = as at *
      have lus : new.length = us.length := by rw [← hus]; simp
      have las : vars.length = as.length := by rw [← has]; simp
      have nas : as.Nodup := by rw [← has]; exact nodup_range' _ _
      have hn : n ≤ n1 := by rw [← hn1]; exact Nat.le_add_right _ _
      have husb : ∀ x ∈ us, n ≤ x ∧ x < n1 := by
        intro x hx; rw [← hus] at hx; rw [← hn1]; exact List.mem_range'_1.1 hx
      have hasb : ∀ x ∈ as, x < n1 + vars.length := by
        intro x hx; rw [← has] at hx; exact (List.mem_range'_1.1 hx).2
      have hle : n1 ≤ r0.2.1 := Nat.le_trans (Nat.le_add_right _ _) (conv_le _ hr0)
      obtain ⟨v, hv⟩ := Option.isSome_iff_exists.1 hw.2
      rw [predicate_endsIn strict b hv] at hp
      cases hp
      -- after the undefined values
      generalize hE1 : evalNodes sem (nodesOf (us.map fun u => Node.simple undefOp [] [u])) E = E1
      have hu := undefs_sound sem us E
      rw [hE1] at hu
      have f1 : ∀ x, x < n → E1 x = E x := fun x hx =>
        hu.1 x fun h => absurd (husb x h).1 (Nat.not_le.2 hx)
      have ha1 : Agree E1 (m.inserts new us) s.env (live (rw b) T) := by
        refine Agree.inserts ((ha.congr hb f1).mono fun u h => h.1) (forall₂_length lus fun u hu o h => ?_)
        obtain ⟨x, hx, _⟩ := ha u h
        rw [← hnew] at hu
        simp [hx] at hu
      have hb1 : Bound (m.inserts new us) n1 := (hb.mono hn).inserts fun x hx => (husb x hx).2
      -- the loop
      have hsub : ∀ u, live (rw b) T u → u ∈ vars := by
        intro u h
        rw [← hvars, mem_union]
        rcases h with h | h
        · exact .inr h
        · exact .inl (hT u h.1)
      have hrun := iter_loop (sem := sem) hr
        (fun ws => (pred :: posts).map (evalNodes sem (nodesOf r0.1) (upd emptyEnv as ws)))
        (fun ws t => List.Forall₂ (fun v w => live (rw b) T v → w = t.env v) vars ws)
        (fun ws t => List.Forall₂ (fun v w => (T v ∨ v ∈ (rw b).read) → w = t.env v) vars ws)
        (fun ws t t' hrt hinv => by
          have ag := args_agree las hsub hinv (upd_vals emptyEnv nas)
          have g := conv_sound hs strict b (T := fun v => T v ∨ v ∈ (rw b).read) hw.1 (by simp) hr0 hrt
            (fun u h => by
              rw [← hvars, mem_union]
              exact h.imp (hT u) id)
            ((bound_empty _).inserts hasb)
            (ag.mono fun u h => by
              rcases h with h | ⟨h | h, h2⟩
              · exact .inl h
              · exact .inr ⟨h, h2⟩
              · exact .inl h)
          refine ⟨by simpa using lookupAll_agree g.1.agree hposts, ?_⟩
          obtain ⟨o, o1, o2⟩ := g.2 _ hv
          rw [hpred] at o1
          cases o1
          exact o2)
        (fun ws t h => h.imp fun v w h h' => h (by
          rcases h' with h' | h'
          · exact .inr h'
          · exact .inl h'.1))
        (is.map E1) (lookupAll_agree ha1 his)
      obtain ⟨k, hk, hpost⟩ := hrun
      generalize hos : List.range' r0.2.1 vars.length = os at *
      have los : vars.length = os.length := by rw [← hos]; simp
      have nos : os.Nodup := by rw [← hos]; exact nodup_range' _ _
      have hosb : ∀ x ∈ os, r0.2.1 ≤ x ∧ x < r0.2.1 + vars.length := by
        intro x hx; rw [← hos] at hx; exact List.mem_range'_1.1 hx
      have hnv : nodeVals sem (.theta is os as pred posts (nodesOf r0.1)) E1 = loopState
          (fun ws => (pred :: posts).map (evalNodes sem (nodesOf r0.1) (upd emptyEnv as ws))) (is.map E1)
          (k + 1) := by
        rw [nodeVals]
        exact loopVals_at hk
      have hev : evalNodes sem (nodesOf (us.map (fun u => Node.simple undefOp [] [u]) ++
          [.theta is os as pred posts (nodesOf r0.1)])) E =
          upd E1 os (nodeVals sem (.theta is os as pred posts (nodesOf r0.1)) E1) := by
        rw [evalNodes_append, hE1, eval_single]; rfl
      refine ⟨⟨Nat.le_trans (Nat.le_trans hn hle) (Nat.le_add_right _ _),
        (hb1.mono (Nat.le_trans hle (Nat.le_add_right _ _))).inserts fun x hx => (hosb x hx).2,
        fun o ho => ?_, ?_⟩, fun v hv => by simp [endsIn] at hv⟩
      · rw [hev, upd_notin _ _ _ _ fun h => absurd (hosb o h).1
          (Nat.not_le.2 (Nat.lt_of_lt_of_le ho (Nat.le_trans hn hle)))]
        exact f1 o ho
      · rw [hev]
        refine Agree.inserts (fun u hu => ?_) ?_
        · refine absurd ?_ hu.2
          rw [← hvars, mem_union]
          exact .inl (hT u hu.1)
        · rw [hnv]
          exact (upd_vals E1 nos).forall₂ los (hpost.imp fun v w h h' => h (.inl h'))

theorem convList_sound (hs : SelectSem sem truth) (strict : Bool) : ∀ (cs : Aggs) {W : List Var}
    {q prev : Option Var} {n : Nat} {m : VMap} {r : Res} {E : Env V} {s s' : St V} {T : Var → Prop},
    wfList cs q → (∀ p, q = some p → prev = some p ∧ CtlAt sem E m s p) →
    convList (annotateList strict cs W).1 prev n m = some r → RunAll sem truth cs s s' →
    (∀ v, T v → v ∈ W) → Bound m n → Agree E m s.env (live (rwLinear cs) T) →
    Good sem E n r s' T ∧
      ∀ v, endsInList cs = some v → CtlAt sem (evalNodes sem (nodesOf r.1) E) r.2.2 s' v
  | .nil, W, q, prev, n, m, r, E, s, s', T, hw, hq, h, hr, hT, hb, ha => by
      simp only [annotateList, convList, Option.some.injEq] at h
      simp only [RunAll] at hr
      subst h hr
      refine ⟨⟨Nat.le_refl _, hb, fun _ _ => rfl, ?_⟩, fun v hv => by simp [endsInList] at hv⟩
      simp only [nodesOf, evalNodes]
      exact ha.mono fun u hu => .inr ⟨hu, by simp [rwLinear]⟩
  | .cons c cs, W, q, prev, n, m, r, E, s, s', T, hw, hq, h, hr, hT, hb, ha => by
      simp only [annotateList, convList, Option.bind_eq_some_iff, Option.map_eq_some_iff] at h
      simp only [RunAll] at hr
      simp only [wfList] at hw
      obtain ⟨r1, h1, r2, h2, rfl⟩ := h
      obtain ⟨t, hr1, hr2⟩ := hr
      have g1 := conv_sound hs strict c (T := live (rwLinear cs) T) hw.1 hq h1 hr1
        (fun v hv => live_annotateList strict cs (hv.imp id fun x => ⟨hT v x.1, x.2⟩)) hb
        (ha.mono fun u hu => by
          simp only [live, rwLinear, mem_union, mem_diff, not_or] at hu ⊢
          rcases hu with hu | ⟨hu | hu, hw⟩
          · exact .inl (.inr hu)
          · exact .inl (.inl ⟨hu, hw⟩)
          · exact .inr ⟨hu.1, hu.2, hw⟩)
      have g2 := convList_sound hs strict cs hw.2
        (fun p hp => ⟨predicate_endsIn strict c hp, g1.2 p hp⟩) h2 hr2 hT g1.1.bound g1.1.agree
      refine ⟨g1.1.trans g2.1, fun v hv => ?_⟩
      show CtlAt sem (evalNodes sem (nodesOf (r1.1 ++ r2.1)) E) r2.2.2 _ v
      rw [evalNodes_append]
      cases cs with
      | nil =>
        simp only [annotateList, convList, Option.some.injEq] at h2
        simp only [RunAll] at hr2
        subst h2 hr2
        simpa [nodesOf, evalNodes] using g1.2 v (by simpa only [endsInList] using hv)
      | cons c' cs => exact g2.2 v (by rw [endsInList] at hv; exact hv)

theorem convCases_sound (hs : SelectSem sem truth) (strict : Bool) : ∀ (cs : Aggs) {W ins outs : List Var}
    {n k : Nat} {r : Regions × Nat} {s s' : St V} {T L : Var → Prop} {ws : List (Opt.W V)},
    wfCases cs → convCases ins outs (annotateCases strict cs W) n = some r →
    RunCase sem truth cs k s s' → (∀ v, T v → v ∈ W) →
    (∀ v, live (rwBranch cs) T v → L v) → (∀ v, L v → v ∈ ins) →
    List.Forall₂ (fun v w => L v → w = s.env v) ins ws →
    ∀ c, List.Forall₂ (fun v w => T v → w = s'.env v) outs (regionVals sem r.1 k (c :: ws))
  | .nil, W, ins, outs, n, k, r, s, s', T, L, ws, hw, h, hr, hT, hL, hin, hf => by
      simp [RunCase] at hr
  | .cons c cs, W, ins, outs, n, k, r, s, s', T, L, ws, hw, h, hr, hT, hL, hin, hf => by
      simp only [annotateCases, convCases, Option.bind_eq_some_iff, Option.map_eq_some_iff] at h
      simp only [wfCases] at hw
      obtain ⟨r1, h1, results, hres, r2, h2, rfl⟩ := h
      intro d
      cases k with
      | zero =>
        simp only [RunCase] at hr
        generalize has : List.range' (n + 1) ins.length = as at *
        have las : ins.length = as.length := by rw [← has]; simp
        have nas : (n :: as).Nodup := by
          rw [← has]
          refine List.nodup_cons.2 ⟨fun h => ?_, nodup_range' _ _⟩
          exact absurd (List.mem_range'_1.1 h).1 (Nat.not_succ_le_self n)
        have hasb : ∀ x ∈ as, x < n + 1 + ins.length := by
          intro x hx; rw [← has] at hx; exact (List.mem_range'_1.1 hx).2
        have hL' : ∀ v, live (rw c) T v → L v := by
          intro v h
          refine hL v ?_
          cases cs with
          | nil => simpa only [rwBranch] using h
          | cons c' cs =>
            rw [rwBranch]
            simp only [live, mem_union, mem_inter] at h ⊢
            exact h.imp .inl fun h => ⟨h.1, fun h' => h.2 h'.1⟩
        have ag := args_agree las hin hf (upd_vals emptyEnv nas (ws := d :: ws)).2
        have g := conv_sound hs strict c hw.1 (by simp) h1 hr hT ((bound_empty _).inserts hasb) (ag.mono hL')
        simp only [regionVals]
        exact lookupAll_agree g.1.agree hres
      | succ k =>
        simp only [RunCase] at hr
        simp only [regionVals]
        refine convCases_sound hs strict cs hw.2 h2 hr hT (fun v h => ?_) hin hf d
        cases cs with
        | nil => simp [RunCase] at hr
        | cons c' cs =>
          refine hL v ?_
          rw [rwBranch]
          simp only [live, mem_union, mem_inter] at h ⊢
          exact h.imp .inr fun h => ⟨h.1, fun h' => h.2 h'.2⟩

end

end Jlm.Front
