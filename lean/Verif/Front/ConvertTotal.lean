import Verif.Front.ConvertProps

/-! # Conversion of aggregation trees: theorems about functions, and when conversion succeeds -/

set_option linter.unusedSimpArgs false
set_option linter.unusedVariables false

namespace Jlm.Front

open Jlm.Opt

variable {V : Type} {sem : Sem V} {truth : V → Bool}

theorem vals_upd_notin {E : Env V} {os ps : List Out} {ws xs : List (W V)} (h : Vals E os ws)
    (hd : ∀ o ∈ os, o ∉ ps) : Vals (upd E ps xs) os ws :=
  h.congr fun o ho => upd_notin E ps xs o (hd o ho)

/-- The conversion of a function, whenever it succeeds, gives a lambda node whose function returns what the
function returns. -/
theorem convFn_correct (hs : SelectSem sem truth) {strict : Bool} {f : Fn} (hw : f.wf) {outer : VMap} {n : Nat}
    {node : Node} (h : convFn strict f outer n = some node) {E : Env V} :
    ∃ a g, nodeVals sem node E = [some (a, some (.lam g))] ∧
      ∀ ps rs, Returns sem truth f outer E ps rs → g ps = rs := by
  simp only [convFn, Option.bind_eq_some_iff, Option.map_eq_some_iff] at h
  obtain ⟨is, his, r, hr, results, hres, rfl⟩ := h
  refine ⟨_, _, by rw [nodeVals], fun ps rs hret => ?_⟩
  obtain ⟨s, hrun, rfl⟩ := hret
  simp only [annotateFn] at *
  generalize hctx : ((diff (annotateList strict f.body f.results).2 f.args).filter fun v =>
    (outer v).isSome) = ctx at *
  generalize hund : ((diff (annotateList strict f.body f.results).2 f.args).filter fun v =>
    (outer v).isNone) = und at *
  generalize hps : List.range' n f.args.length = params at *
  generalize hn1 : n + f.args.length = n1 at *
  generalize has : List.range' n1 ctx.length = as at *
  generalize hn2 : n1 + ctx.length = n2 at *
  generalize hus : List.range' n2 und.length = us at *
  have bps : ∀ x ∈ params, n ≤ x ∧ x < n1 := by
    intro x hx; rw [← hps] at hx; rw [← hn1]; exact List.mem_range'_1.1 hx
  have bas : ∀ x ∈ as, n1 ≤ x ∧ x < n2 := by
    intro x hx; rw [← has] at hx; rw [← hn2]; exact List.mem_range'_1.1 hx
  have bus : ∀ x ∈ us, n2 ≤ x ∧ x < n2 + und.length := by
    intro x hx; rw [← hus] at hx; exact List.mem_range'_1.1 hx
  have lps : f.args.length = params.length := by rw [← hps]; simp
  have las : ctx.length = as.length := by rw [← has]; simp
  have lus : und.length = us.length := by rw [← hus]; simp
  have nps : params.Nodup := by rw [← hps]; exact nodup_range' _ _
  have nas : as.Nodup := by rw [← has]; exact nodup_range' _ _
  have h12 : n1 ≤ n2 := by rw [← hn2]; exact Nat.le_add_right _ _
  generalize hE0 : upd (upd emptyEnv as (is.map E)) params (lift ps) = E0
  generalize hE1 : evalNodes sem (nodesOf (us.map fun u => Node.simple undefOp [] [u])) E0 = E1
  have hu := undefs_sound sem us E0
  rw [hE1] at hu
  have vps : Vals E1 params (lift ps) := by
    refine (show Vals E0 params (lift ps) by rw [← hE0]; exact upd_vals _ nps).congr fun o ho => hu.1 o fun h => ?_
    exact absurd (bus o h).1 (Nat.not_le.2 (Nat.lt_of_lt_of_le (bps o ho).2 h12))
  have vas : Vals E1 as (is.map E) := by
    refine Vals.congr (E := E0) ?_ fun o ho => hu.1 o fun h => ?_
    · rw [← hE0]
      refine vals_upd_notin (upd_vals _ nas) fun o ho h => ?_
      exact absurd (bas o ho).1 (Nat.not_le.2 (bps o h).2)
    · exact absurd (bus o h).1 (Nat.not_le.2 (bas o ho).2)
  generalize henv : (fun v => match outer v with | some o => E o | none => undefVal sem : Var → W V) = env0
  have hinit : (initial sem f outer E ps).env = setAll env0 f.args (lift ps) := by rw [← henv]; rfl
  have nctx : ∀ v ∈ ctx, v ∉ f.args := by
    intro v hv; rw [← hctx] at hv; simp at hv; exact hv.1.2
  have nund : ∀ v ∈ und, v ∉ f.args ∧ outer v = none := by
    intro v hv; rw [← hund] at hv; simp at hv; exact ⟨hv.1.2, hv.2⟩
  have a1 : Agree E1 (VMap.empty.inserts f.args params) (initial sem f outer E ps).env (· ∈ f.args) := by
    rw [hinit]
    exact Agree.setAll (fun u hu => absurd hu.1 hu.2) vps lps
  have a2 : Agree E1 ((VMap.empty.inserts f.args params).inserts ctx as) (initial sem f outer E ps).env
      (fun v => v ∈ f.args ∨ v ∈ ctx) := by
    refine Agree.inserts (a1.mono fun v hv => hv.1.resolve_right hv.2) ?_
    have ho : Agree E outer env0 fun v => (outer v).isSome := by
      intro v hv
      obtain ⟨o, ho⟩ := Option.isSome_iff_exists.1 hv
      exact ⟨o, ho, by simp [← henv, ho]⟩
    refine forall₂_mem (vas.forall₂ las (lookupAll_agree ho his)) fun v hv o h _ => ?_
    rw [hinit, setAll_notin (nctx v hv)]
    refine h ?_
    rw [← hctx] at hv
    exact (List.mem_filter.1 hv).2
  have a3 : Agree E1 (((VMap.empty.inserts f.args params).inserts ctx as).inserts und us)
      (initial sem f outer E ps).env (fun v => v ∈ f.args ∨ v ∈ ctx ∨ v ∈ und) := by
    refine Agree.inserts (a2.mono fun v hv => ?_) ?_
    · rcases hv.1 with h | h | h
      · exact .inl h
      · exact .inr h
      · exact absurd h hv.2
    · have : ∀ {vs : List Var} {xs : List Out}, vs.length = xs.length → (∀ v ∈ vs, v ∈ und) →
          (∀ x ∈ xs, x ∈ us) → List.Forall₂ (fun v o => (v ∈ f.args ∨ v ∈ ctx ∨ v ∈ und) →
            E1 o = (initial sem f outer E ps).env v) vs xs := by
        intro vs
        induction vs with
        | nil => intro xs hl _ _; cases xs <;> simp_all
        | cons v vs ih =>
          intro xs hl hv hx
          cases xs with
          | nil => simp at hl
          | cons x xs =>
            refine .cons (fun _ => ?_) (ih (by simpa using hl) (fun u hu => hv u (by simp [hu]))
              fun u hu => hx u (by simp [hu]))
            have hvu := nund v (hv v (by simp))
            rw [hu.2 x (hx x (by simp)), hinit, setAll_notin hvu.1, ← henv]
            simp [hvu.2]
      exact this lus (fun _ h => h) fun _ h => h
  have hb : Bound (((VMap.empty.inserts f.args params).inserts ctx as).inserts und us) (n2 + und.length) := by
    refine ((((bound_empty _).inserts fun o ho => ?_).inserts fun o ho => ?_).inserts fun o ho => (bus o ho).2)
    · exact Nat.lt_of_lt_of_le (bps o ho).2 (Nat.le_trans h12 (Nat.le_add_right _ _))
    · exact Nat.lt_of_lt_of_le (bas o ho).2 (Nat.le_add_right _ _)
  have g := convList_sound hs strict f.body (T := (· ∈ f.results)) hw (by simp) hr hrun (fun v h => h) hb
    (a3.mono fun v hv => by
      have hv' := live_annotateList strict f.body (W := f.results) hv
      by_cases h1 : v ∈ f.args
      · exact .inl h1
      · rw [← hctx, ← hund]
        cases ho : outer v <;> simp [h1, hv', ho])
  have := lookupAll_vals g.1.agree hres fun v h => h
  show plain (results.map (evalNodes sem (nodesOf _) _)) = plain _
  rw [evalNodes_append, hE1, this]

/-! ### Success -/

mutual

/-- `P` holds for the sets of every branch node. -/
def branches (P : RW → Prop) : Agg → Prop
  | .block _ => True
  | .linear cs => branchesIn P cs
  | .branch cs => P (rwBranch cs) ∧ branchesIn P cs
  | .loop b => branches P b

def branchesIn (P : RW → Prop) : Aggs → Prop
  | .nil => True
  | .cons c cs => branches P c ∧ branchesIn P cs

end

/-- What success needs at every branch, for a set `Q` of variables: those of `Q` are removed from the working
set when all cases write them, the others are written by all cases or by none. -/
def Ok (strict : Bool) (Q : Var → Prop) (r : RW) : Prop :=
  (∀ v, v ∈ r.full → strict = true ∨ ¬ Q v) ∧ ∀ v, v ∈ r.all → Q v ∨ v ∈ r.full

mutual

theorem annotate_upper {strict : Bool} {Q : Var → Prop} : ∀ (a : Agg) {W : List Var} {v : Var},
    branches (Ok strict Q) a → Q v → v ∈ (annotate strict a W).2 → live (rw a) (· ∈ W) v
  | .block ts, W, v, ho, hq, h => by
      simp only [annotate, mem_union, mem_diff] at h; rw [rw]; exact h.symm
  | .linear cs, W, v, ho, hq, h => by
      simp only [annotate, mem_union, mem_diff] at h
      rw [rw]
      rcases h with ⟨h1, h2⟩ | h
      · exact annotateList_upper cs (by simpa only [branches] using ho) hq h1
      · exact .inl h
  | .branch cs, W, v, ho, hq, h => by
      simp only [branches] at ho
      simp only [annotate, mem_union, mem_diff, mem_inter] at h
      rw [rw]
      rcases h with h | ⟨⟨h1, h2⟩, h3⟩ | h
      · cases strict with
        | true => simp at h; exact .inr h
        | false =>
          simp at h
          exact .inr ⟨h, fun hf => (ho.1.1 v hf).elim (by simp) (absurd hq)⟩
      · exact .inr ⟨h1, h3⟩
      · exact .inl h
  | .loop b, W, v, ho, hq, h => by
      simp only [annotate] at h
      rw [rw]
      rcases annotate_upper b (by simpa only [branches] using ho) hq h with h | ⟨h1, h2⟩
      · exact .inl h
      · rcases mem_union.1 h1 with h1 | h1
        · exact .inr ⟨h1, h2⟩
        · exact .inl h1

theorem annotateList_upper {strict : Bool} {Q : Var → Prop} : ∀ (cs : Aggs) {W : List Var} {v : Var},
    branchesIn (Ok strict Q) cs → Q v → v ∈ (annotateList strict cs W).2 → live (rwLinear cs) (· ∈ W) v
  | .nil, W, v, ho, hq, h => by
      simp only [annotateList] at h
      exact .inr ⟨h, by simp [rwLinear]⟩
  | .cons c cs, W, v, ho, hq, h => by
      simp only [annotateList] at h
      simp only [branchesIn] at ho
      simp only [live, rwLinear, mem_union, mem_diff, not_or]
      rcases annotate_upper c ho.1 hq h with h | ⟨h1, h2⟩
      · exact .inl (.inr h)
      · rcases annotateList_upper cs ho.2 hq h1 with h | ⟨h3, h4⟩
        · exact .inl (.inl ⟨h, h2⟩)
        · exact .inr ⟨h3, h4, h2⟩

end

def Dom (m : VMap) (v : Var) : Prop := (m v).isSome

theorem dom_insert {m : VMap} {u v : Var} {o : Out} : Dom (m.insert v o) u ↔ u = v ∨ Dom m u := by
  simp only [Dom, VMap.insert]
  by_cases h : u = v <;> simp [h]

theorem dom_inserts {u : Var} : ∀ {vs : List Var} {os : List Out} {m : VMap}, vs.length = os.length →
    (Dom (m.inserts vs os) u ↔ u ∈ vs ∨ Dom m u)
  | [], [], m, _ => by simp [VMap.inserts]
  | v :: vs, o :: os, m, h => by
      rw [VMap.inserts, dom_inserts (by simpa using h), dom_insert]
      simp only [List.mem_cons]
      constructor
      · rintro (h | h | h) <;> simp [h]
      · rintro ((h | h) | h) <;> simp [h]

theorem lookupAll_dom {m : VMap} : ∀ {vs : List Var}, (∀ v ∈ vs, Dom m v) → ∃ os, lookupAll m vs = some os
  | [], _ => ⟨[], rfl⟩
  | v :: vs, h => by
      obtain ⟨os, hos⟩ := lookupAll_dom (m := m) (vs := vs) fun u hu => h u (by simp [hu])
      obtain ⟨o, ho⟩ := Option.isSome_iff_exists.1 (h v (by simp))
      exact ⟨o :: os, by simp [lookupAll, ho, hos]⟩

theorem convTac_total {t : Tac} {n : Nat} {m : VMap} (h : ∀ v ∈ t.reads, Dom m v) :
    ∃ r, convTac n m t = some r ∧ (∀ v, Dom m v → Dom r.2.2 v) ∧ ∀ v ∈ t.writes, Dom r.2.2 v := by
  cases t with
  | op o ins outs =>
    obtain ⟨is, his⟩ := lookupAll_dom (m := m) (vs := ins) h
    refine ⟨_, by simp only [convTac, his, Option.map_some]; rfl, fun v hv => ?_, fun v hv => ?_⟩
    · exact (dom_inserts (by simp)).2 (.inr hv)
    · exact (dom_inserts (by simp)).2 (.inl hv)
  | assign l r =>
    obtain ⟨o, ho⟩ := Option.isSome_iff_exists.1 (h r (by simp [Tac.reads]))
    refine ⟨_, by simp only [convTac, ho, Option.map_some]; rfl, fun v hv => ?_, fun v hv => ?_⟩
    · exact dom_insert.2 (.inr hv)
    · exact dom_insert.2 (.inl (by simpa [Tac.writes] using hv))
  | select c a b r =>
    obtain ⟨o1, h1⟩ := Option.isSome_iff_exists.1 (h c (by simp [Tac.reads]))
    obtain ⟨o2, h2⟩ := Option.isSome_iff_exists.1 (h a (by simp [Tac.reads]))
    obtain ⟨o3, h3⟩ := Option.isSome_iff_exists.1 (h b (by simp [Tac.reads]))
    refine ⟨_, by simp only [convTac, h1, h2, h3, Option.map_some, Option.bind_some]; rfl, fun v hv => ?_,
      fun v hv => ?_⟩
    · exact dom_insert.2 (.inr hv)
    · exact dom_insert.2 (.inl (by simpa [Tac.writes] using hv))
  | branch v => exact ⟨_, rfl, fun v hv => hv, fun v hv => by simp [Tac.writes] at hv⟩

theorem convBlock_total : ∀ {ts : List Tac} {n : Nat} {m : VMap}, (∀ v ∈ (rwBlock ts).read, Dom m v) →
    ∃ r, convBlock ts n m = some r ∧ (∀ v, Dom m v → Dom r.2.2 v) ∧ (∀ v ∈ (rwBlock ts).full, Dom r.2.2 v) ∧
      ∀ v, branchVar ts = some v → Dom r.2.2 v
  | [], n, m, h => ⟨_, rfl, fun v hv => hv, fun v hv => by simp [rwBlock] at hv, fun v hv => by
      simp [branchVar] at hv⟩
  | t :: ts, n, m, h => by
      simp only [rwBlock, mem_union, mem_diff] at h
      obtain ⟨r1, e1, k1, w1⟩ := convTac_total (n := n) (m := m) (t := t) fun v hv => h v (.inr hv)
      obtain ⟨r2, e2, k2, w2, b2⟩ := convBlock_total (ts := ts) (n := r1.2.1) (m := r1.2.2) fun v hv => by
        by_cases hw : v ∈ t.writes
        · exact w1 v hw
        · exact k1 v (h v (.inl ⟨hv, hw⟩))
      refine ⟨(r1.1 ++ r2.1, r2.2), by simp only [convBlock, e1, Option.bind_some, e2, Option.map_some],
        fun v hv => k2 v (k1 v hv), fun v hv => ?_, fun v hv => ?_⟩
      · simp only [rwBlock, mem_union] at hv
        exact hv.elim (w2 v) fun hv => k2 v (w1 v hv)
      · cases ts with
        | nil =>
          have := branchVar_single hv
          subst this
          exact k2 v (k1 v (h v (.inr (by simp [Tac.reads]))))
        | cons t' ts => exact b2 v (by rw [← branchVar_cons]; exact hv)

/-- What has to be in the map. -/
def Need (Q : Var → Prop) (r : RW) (W : List Var) (v : Var) : Prop :=
  v ∈ r.read ∨ (Q v ∧ v ∈ W ∧ v ∉ r.full)

mutual

theorem conv_total {strict : Bool} {Q : Var → Prop} : ∀ (a : Agg) {W : List Var} {q prev : Option Var} {n : Nat}
    {m : VMap}, branches (Ok strict Q) a → wf a q → (∀ p, q = some p → prev = some p ∧ Dom m p) →
    (∀ v, Need Q (rw a) W v → Dom m v) →
    ∃ r, conv (annotate strict a W).1 prev n m = some r ∧ (∀ v, Dom m v → Dom r.2.2 v) ∧
      (∀ v ∈ W, Q v ∨ v ∈ (rw a).full → Dom r.2.2 v) ∧ ∀ v, endsIn a = some v → Dom r.2.2 v
  | .block ts, W, q, prev, n, m, ho, hw, hq, hd => by
      rw [rw] at hd ⊢
      obtain ⟨r, e, k, w, b⟩ := convBlock_total (ts := ts) (n := n) (m := m) fun v hv => hd v (.inl hv)
      refine ⟨r, by simp only [annotate, conv, e], k, fun v hv h => ?_, fun v hv => b v (by
        simpa only [endsIn] using hv)⟩
      by_cases hf : v ∈ (rwBlock ts).full
      · exact w v hf
      · exact k v (hd v (.inr ⟨h.resolve_right hf, hv, hf⟩))
  | .linear cs, W, q, prev, n, m, ho, hw, hq, hd => by
      rw [rw] at hd ⊢
      obtain ⟨r, e, k, w, b⟩ := convList_total cs (n := n) (W := W) (prev := none)
        (by simpa only [branches] using ho) (by simpa only [wf] using hw) (by simp) hd
      exact ⟨r, by simp only [annotate, conv, e], k, w, fun v hv => b v (by simpa only [endsIn] using hv)⟩
  | .branch cs, W, q, prev, n, m, ho, hw, hq, hd => by
      rw [rw] at hd ⊢
      simp only [branches] at ho
      simp only [wf] at hw
      obtain ⟨p, rfl⟩ := Option.isSome_iff_exists.1 hw.1
      obtain ⟨hp, hdp⟩ := hq p rfl
      obtain ⟨pred, hpred⟩ := Option.isSome_iff_exists.1 hdp
      generalize houts : inter W (rwBranch cs).all = outs
      generalize hins : union (diff outs (rwBranch cs).full) (rwBranch cs).read = ins
      have hqs : ∀ v ∈ outs, Q v ∨ v ∈ (rwBranch cs).full := by
        intro v hv; rw [← houts] at hv; exact ho.1.2 v (mem_inter.1 hv).2
      obtain ⟨is, his⟩ := lookupAll_dom (m := m) (vs := ins) fun v hv => by
        refine hd v ?_
        rw [← hins, mem_union, mem_diff] at hv
        rcases hv with ⟨h1, h2⟩ | h
        · refine .inr ⟨(hqs v h1).resolve_right h2, ?_, h2⟩
          rw [← houts] at h1
          exact (mem_inter.1 h1).1
        · exact .inl h
      obtain ⟨rc, hrc⟩ := convCases_total cs (n := n) (W := outs) (ins := ins) (outs := outs) ho.2 hw.2
        (fun v hv => by
          rw [← hins, mem_union, mem_diff]
          rcases hv with h | ⟨_, h1, h2⟩
          · exact .inr h
          · exact .inl ⟨h1, h2⟩)
        (fun v hv => ⟨hv, hqs v hv⟩)
      refine ⟨_, by simp only [annotate, conv, hp, hpred, houts, hins, his, hrc, Option.bind_some,
        Option.map_some]; rfl, fun v hv => ?_, fun v hv h => ?_, fun v hv => by simp [endsIn] at hv⟩
      · exact (dom_inserts (by simp)).2 (.inr hv)
      · refine (dom_inserts (by simp)).2 ?_
        by_cases ha : v ∈ (rwBranch cs).all
        · left; rw [← houts]; simp [hv, ha]
        · right
          have hf : v ∉ (rwBranch cs).full := fun h => ha (full_all_branch cs h)
          exact hd v (.inr ⟨h.resolve_right hf, hv, hf⟩)
  | .loop b, W, q, prev, n, m, ho, hw, hq, hd => by
      simp only [branches] at ho
      simp only [wf] at hw
      generalize hvars : union W (rw b).read = vars
      obtain ⟨v0, hv0⟩ := Option.isSome_iff_exists.1 hw.2
      have dall : ∀ v ∈ vars, Dom (m.inserts (vars.filter fun v => (m v).isNone)
          (List.range' n (vars.filter fun v => (m v).isNone).length)) v := by
        intro v hv
        refine (dom_inserts (by simp)).2 ?_
        cases hm : m v with
        | none => left; simp [hv, hm]
        | some o => right; simp [Dom, hm]
      obtain ⟨is, his⟩ := lookupAll_dom dall
      obtain ⟨r, e, k, w, hb⟩ := conv_total b (strict := strict) (W := vars) (prev := none)
        (n := n + (vars.filter fun v => (m v).isNone).length + vars.length)
        (m := VMap.empty.inserts vars
          (List.range' (n + (vars.filter fun v => (m v).isNone).length) vars.length))
        ho hw.1 (by simp) fun v hv => by
          refine (dom_inserts (by simp)).2 (.inl ?_)
          rcases hv with h | h
          · rw [← hvars]; simp [h]
          · exact h.2.1
      obtain ⟨posts, hposts⟩ := lookupAll_dom (m := r.2.2) (vs := vars) fun v hv =>
        k v ((dom_inserts (by simp)).2 (.inl hv))
      obtain ⟨pred, hpred⟩ := Option.isSome_iff_exists.1 (hb v0 hv0)
      refine ⟨_, by simp only [annotate, conv, hvars, his, e, hposts, predicate_endsIn strict b hv0, hpred,
        Option.bind_some, Option.map_some]; rfl, fun v hv => ?_, fun v hv h => ?_, fun v hv => by
        simp [endsIn] at hv⟩
      · exact (dom_inserts (by simp)).2 (.inr ((dom_inserts (by simp)).2 (.inr hv)))
      · refine (dom_inserts (by simp)).2 (.inl ?_)
        rw [← hvars]; simp [hv]

theorem convList_total {strict : Bool} {Q : Var → Prop} : ∀ (cs : Aggs) {W : List Var} {q prev : Option Var}
    {n : Nat} {m : VMap}, branchesIn (Ok strict Q) cs → wfList cs q →
    (∀ p, q = some p → prev = some p ∧ Dom m p) → (∀ v, Need Q (rwLinear cs) W v → Dom m v) →
    ∃ r, convList (annotateList strict cs W).1 prev n m = some r ∧ (∀ v, Dom m v → Dom r.2.2 v) ∧
      (∀ v ∈ W, Q v ∨ v ∈ (rwLinear cs).full → Dom r.2.2 v) ∧ ∀ v, endsInList cs = some v → Dom r.2.2 v
  | .nil, W, q, prev, n, m, ho, hw, hq, hd => by
      refine ⟨_, rfl, fun v hv => hv, fun v hv h => ?_, fun v hv => by simp [endsInList] at hv⟩
      refine hd v (.inr ⟨h.resolve_right ?_, hv, ?_⟩) <;> simp [rwLinear]
  | .cons c cs, W, q, prev, n, m, ho, hw, hq, hd => by
      simp only [branchesIn] at ho
      simp only [wfList] at hw
      obtain ⟨r1, e1, k1, w1, b1⟩ := conv_total c (strict := strict) (W := (annotateList strict cs W).2)
        (prev := prev) (n := n) (m := m) ho.1 hw.1 hq fun v hv => by
          refine hd v ?_
          simp only [Need, rwLinear, mem_union, mem_diff, not_or]
          rcases hv with h | ⟨h1, h2, h3⟩
          · exact .inl (.inr h)
          · rcases annotateList_upper cs ho.2 h1 h2 with h | ⟨h4, h5⟩
            · exact .inl (.inl ⟨h, h3⟩)
            · exact .inr ⟨h1, h4, h5, h3⟩
      obtain ⟨r2, e2, k2, w2, b2⟩ := convList_total cs (strict := strict) (W := W)
        (prev := (annotate strict c (annotateList strict cs W).2).1.predicate) (n := r1.2.1) (m := r1.2.2)
        ho.2 hw.2 (fun p hp => ⟨predicate_endsIn strict c hp, b1 p hp⟩) fun v hv => by
          rcases hv with h | ⟨h1, h2, h3⟩
          · by_cases hf : v ∈ (rw c).full
            · exact w1 v (live_annotateList strict cs (.inl h)) (.inr hf)
            · refine k1 v (hd v (.inl ?_))
              simp [rwLinear, h, hf]
          · exact w1 v (live_annotateList strict cs (.inr ⟨h2, h3⟩)) (.inl h1)
      refine ⟨(r1.1 ++ r2.1, r2.2), by simp only [annotateList, convList, e1, Option.bind_some, e2, Option.map_some],
        fun v hv => k2 v (k1 v hv), fun v hv h => ?_, fun v hv => ?_⟩
      · by_cases hf : v ∈ (rwLinear cs).full
        · exact w2 v hv (.inr hf)
        · rcases h with h | h
          · exact w2 v hv (.inl h)
          · simp only [rwLinear, mem_union] at h
            exact k2 v (w1 v (live_annotateList strict cs (.inr ⟨hv, hf⟩)) (.inr (h.resolve_left hf)))
      · cases cs with
        | nil => exact k2 v (b1 v (by simpa only [endsInList] using hv))
        | cons c' cs => exact b2 v (by rw [endsInList] at hv; exact hv)

theorem convCases_total {strict : Bool} {Q : Var → Prop} : ∀ (cs : Aggs) {W ins outs : List Var} {n : Nat},
    branchesIn (Ok strict Q) cs → wfCases cs → (∀ v, Need Q (rwBranch cs) W v → v ∈ ins) →
    (∀ v ∈ outs, v ∈ W ∧ (Q v ∨ v ∈ (rwBranch cs).full)) →
    ∃ r, convCases ins outs (annotateCases strict cs W) n = some r
  | .nil, W, ins, outs, n, ho, hw, hin, hout => ⟨_, rfl⟩
  | .cons c cs, W, ins, outs, n, ho, hw, hin, hout => by
      simp only [branchesIn] at ho
      simp only [wfCases] at hw
      have hsub : (∀ v, Need Q (rw c) W v → Need Q (rwBranch (.cons c cs)) W v) ∧
          (∀ v, v ∈ (rwBranch (.cons c cs)).full → v ∈ (rw c).full) := by
        cases cs with
        | nil => simp only [rwBranch]; exact ⟨fun v h => h, fun v h => h⟩
        | cons c' cs =>
          rw [rwBranch]
          simp only [Need, mem_union, mem_inter]
          exact ⟨fun v h => h.imp .inl fun h => ⟨h.1, h.2.1, fun h' => h.2.2 h'.1⟩, fun v h => h.1⟩
      obtain ⟨r1, e1, k1, w1, b1⟩ := conv_total c (strict := strict) (W := W) (prev := none)
        (n := n + 1 + ins.length) (m := VMap.empty.inserts ins (List.range' (n + 1) ins.length)) ho.1 hw.1
        (by simp) fun v hv => (dom_inserts (by simp)).2 (.inl (hin v (hsub.1 v hv)))
      obtain ⟨results, hres⟩ := lookupAll_dom (m := r1.2.2) (vs := outs) fun v hv =>
        w1 v (hout v hv).1 ((hout v hv).2.imp id (hsub.2 v))
      have hrest : ∃ r, convCases ins outs (annotateCases strict cs W) r1.2.1 = some r := by
        cases cs with
        | nil => exact ⟨_, rfl⟩
        | cons c' cs =>
          refine convCases_total (.cons c' cs) ho.2 hw.2 (fun v hv => hin v ?_) fun v hv => ?_
          · rw [rwBranch]
            simp only [Need, mem_union, mem_inter] at hv ⊢
            exact hv.imp .inr fun h => ⟨h.1, h.2.1, fun h' => h.2.2 h'.2⟩
          · refine ⟨(hout v hv).1, (hout v hv).2.imp id fun h => ?_⟩
            rw [rwBranch] at h
            exact (mem_inter.1 h).2
      obtain ⟨r2, e2⟩ := hrest
      exact ⟨_, by simp only [annotateCases, convCases, e1, hres, e2, Option.bind_some, Option.map_some]; rfl⟩

end

theorem convFn_total {strict : Bool} {Q : Var → Prop} {f : Fn} (hw : f.wf)
    (ho : branchesIn (Ok strict Q) f.body)
    (outer : VMap) (n : Nat) : ∃ node, convFn strict f outer n = some node := by
  simp only [convFn, annotateFn]
  generalize hctx : ((diff (annotateList strict f.body f.results).2 f.args).filter fun v =>
    (outer v).isSome) = ctx
  generalize hund : ((diff (annotateList strict f.body f.results).2 f.args).filter fun v =>
    (outer v).isNone) = und
  obtain ⟨is, his⟩ := lookupAll_dom (m := outer) (vs := ctx) fun v hv => by
    rw [← hctx] at hv; exact (List.mem_filter.1 hv).2
  have hd : ∀ v ∈ (annotateList strict f.body f.results).2,
      Dom (((VMap.empty.inserts f.args (List.range' n f.args.length)).inserts ctx
        (List.range' (n + f.args.length) ctx.length)).inserts und
        (List.range' (n + f.args.length + ctx.length) und.length)) v := by
    intro v hv
    rw [dom_inserts (by simp), dom_inserts (by simp), dom_inserts (by simp)]
    by_cases h1 : v ∈ f.args
    · exact .inr (.inr (.inl h1))
    · rw [← hctx, ← hund]
      cases ho : outer v <;> simp [h1, hv, ho]
  obtain ⟨r, e, k, w, _⟩ := convList_total f.body (strict := strict) (W := f.results) (prev := none)
    (n := n + f.args.length + ctx.length + und.length) ho hw (by simp) fun v hv => hd v (by
      refine live_annotateList strict f.body ?_
      exact hv.imp id fun h => h.2)
  obtain ⟨results, hres⟩ := lookupAll_dom (m := r.2.2) (vs := f.results) fun v hv => by
    by_cases h : v ∈ (rwLinear f.body).full
    · exact w v hv (.inr h)
    · exact k v (hd v (live_annotateList strict f.body (.inr ⟨hv, h⟩)))
  exact ⟨_, by simp only [his, e, hres, Option.bind_some, Option.map_some]; rfl⟩

end Jlm.Front
