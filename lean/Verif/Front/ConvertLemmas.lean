import Verif.Front.ConvertSpec
import Verif.Opt.Refine
import Mathlib.Data.List.Forall2

/-! # Conversion of aggregation trees: lemmas -/

set_option linter.unusedSimpArgs false
set_option linter.unusedVariables false

namespace Jlm.Front

open Jlm.Opt

variable {V : Type}

@[simp] theorem mem_union {s t : List Var} {v : Var} : v ∈ union s t ↔ v ∈ s ∨ v ∈ t := by
  simp only [union, List.mem_append, List.mem_filter, decide_eq_true_eq]
  by_cases h : v ∈ s <;> simp [h]

@[simp] theorem mem_diff {s t : List Var} {v : Var} : v ∈ diff s t ↔ v ∈ s ∧ v ∉ t := by
  simp [diff]

@[simp] theorem mem_inter {s t : List Var} {v : Var} : v ∈ inter s t ↔ v ∈ s ∧ v ∈ t := by
  simp [inter]

/-! ### Evaluation -/

theorem evalNodes_append (sem : Sem V) : ∀ (xs ys : List Node) (E : Env V),
    evalNodes sem (nodesOf (xs ++ ys)) E = evalNodes sem (nodesOf ys) (evalNodes sem (nodesOf xs) E)
  | [], _, _ => by simp [nodesOf, evalNodes]
  | x :: xs, ys, E => by simp only [List.cons_append, nodesOf, evalNodes]; exact evalNodes_append sem xs ys _

/-- `os` have the values `ws`; missing values are undefined. -/
def Vals (E : Env V) : List Out → List (W V) → Prop
  | [], _ => True
  | o :: os, ws => E o = ws.headD none ∧ Vals E os ws.tail

theorem Vals.congr {E E' : Env V} : ∀ {os : List Out} {ws : List (W V)}, Vals E os ws →
    (∀ o ∈ os, E' o = E o) → Vals E' os ws
  | [], _, _, _ => trivial
  | o :: os, ws, h, he =>
      ⟨(he o (by simp)).trans h.1, h.2.congr fun x hx => he x (by simp [hx])⟩

theorem upd_vals (E : Env V) : ∀ {os : List Out} {ws : List (W V)}, os.Nodup → Vals (upd E os ws) os ws
  | [], _, _ => trivial
  | o :: os, ws, h => by
      have hn := List.nodup_cons.1 h
      refine ⟨by simp [upd], (upd_vals E hn.2).congr fun x hx => ?_⟩
      have : x ≠ o := fun e => hn.1 (e ▸ hx)
      simp [upd, this]

theorem Vals.forall₂ {E : Env V} {P : Var → Prop} {env : Var → W V} :
    ∀ {vs : List Var} {os : List Out} {ws : List (W V)}, Vals E os ws → vs.length = os.length →
    List.Forall₂ (fun v w => P v → w = env v) vs ws → List.Forall₂ (fun v o => P v → E o = env v) vs os
  | [], [], _, _, _, _ => .nil
  | v :: vs, o :: os, w :: ws, h, hl, hf => by
      cases hf with
      | cons h1 h2 =>
        exact .cons (fun hp => h.1.trans (h1 hp)) (h.2.forall₂ (by simpa using hl) h2)

/-! ### The map -/

def Bound (m : VMap) (n : Nat) : Prop := ∀ v o, m v = some o → o < n

theorem Bound.mono {m : VMap} {n n' : Nat} (h : Bound m n) (hn : n ≤ n') : Bound m n' :=
  fun v o e => Nat.lt_of_lt_of_le (h v o e) hn

theorem bound_empty (n : Nat) : Bound VMap.empty n := fun v o e => by simp [VMap.empty] at e

theorem Bound.insert {m : VMap} {n : Nat} (h : Bound m n) {v : Var} {o : Out} (ho : o < n) :
    Bound (m.insert v o) n := by
  intro u x e
  simp only [VMap.insert] at e
  by_cases hu : u = v
  · simp [hu] at e; exact e ▸ ho
  · simp [hu] at e; exact h u x e

theorem Bound.inserts {n : Nat} : ∀ {vs : List Var} {os : List Out} {m : VMap}, Bound m n →
    (∀ o ∈ os, o < n) → Bound (m.inserts vs os) n
  | [], _, m, h, _ => by simpa [VMap.inserts] using h
  | v :: vs, [], m, h, _ => by simpa [VMap.inserts] using h
  | v :: vs, o :: os, m, h, ho => by
      rw [VMap.inserts]
      exact (h.insert (ho o (by simp))).inserts fun x hx => ho x (by simp [hx])

/-- On `P` the map and the environment have the values of the variables. -/
def Agree (E : Env V) (m : VMap) (env : Var → W V) (P : Var → Prop) : Prop :=
  ∀ v, P v → ∃ o, m v = some o ∧ E o = env v

theorem Agree.mono {E : Env V} {m : VMap} {env : Var → W V} {P Q : Var → Prop} (h : Agree E m env P)
    (hq : ∀ v, Q v → P v) : Agree E m env Q := fun v hv => h v (hq v hv)

theorem Agree.congr {E E' : Env V} {m : VMap} {env : Var → W V} {P : Var → Prop} {n : Nat}
    (h : Agree E m env P) (hb : Bound m n) (he : ∀ o, o < n → E' o = E o) : Agree E' m env P := by
  intro v hv
  obtain ⟨o, h1, h2⟩ := h v hv
  exact ⟨o, h1, (he o (hb v o h1)).trans h2⟩

theorem Agree.insert {E : Env V} {m : VMap} {env : Var → W V} {P : Var → Prop} {v : Var} {o : Out}
    (h : Agree E m env fun u => P u ∧ u ≠ v) : Agree E (m.insert v o) (set env v (E o)) P := by
  intro u hu
  by_cases he : u = v
  · exact ⟨o, by simp [VMap.insert, he], by simp [set, he]⟩
  · obtain ⟨x, h1, h2⟩ := h u ⟨hu, he⟩
    exact ⟨x, by simp [VMap.insert, he, h1], by simp [set, he, h2]⟩

theorem Agree.inserts {E : Env V} {env : Var → W V} {P : Var → Prop} :
    ∀ {vs : List Var} {os : List Out} {m : VMap}, (Agree E m env fun u => P u ∧ u ∉ vs) →
    List.Forall₂ (fun v o => P v → E o = env v) vs os → Agree E (m.inserts vs os) env P
  | [], [], m, h, _ => by intro v hv; simpa [VMap.inserts] using h v ⟨hv, by simp⟩
  | v :: vs, o :: os, m, h, hf => by
      cases hf with
      | cons h1 h2 =>
        rw [VMap.inserts]
        refine Agree.inserts (fun u hu => ?_) h2
        by_cases he : u = v
        · exact ⟨o, by simp [VMap.insert, he], by rw [he]; exact h1 (he ▸ hu.1)⟩
        · obtain ⟨x, e1, e2⟩ := h u ⟨hu.1, by simp [he, hu.2]⟩
          exact ⟨x, by simp [VMap.insert, he, e1], e2⟩

theorem Agree.setAll {E : Env V} {P : Var → Prop} :
    ∀ {vs : List Var} {os : List Out} {ws : List (W V)} {m : VMap} {env : Var → W V},
    (Agree E m env fun u => P u ∧ u ∉ vs) → Vals E os ws → vs.length = os.length →
    Agree E (m.inserts vs os) (setAll env vs ws) P
  | [], [], _, m, env, h, _, _ => by intro v hv; simpa [VMap.inserts, Front.setAll] using h v ⟨hv, by simp⟩
  | v :: vs, o :: os, ws, m, env, h, hv, hl => by
      rw [VMap.inserts, Front.setAll]
      refine Agree.setAll ?_ hv.2 (by simpa using hl)
      have e := hv.1
      rw [← e]
      exact Agree.insert (h.mono fun u hu => ⟨hu.1.1, by simp [hu.1.2, hu.2]⟩)

theorem lookupAll_length {m : VMap} : ∀ {vs : List Var} {os : List Out}, lookupAll m vs = some os →
    os.length = vs.length
  | [], os, h => by simp only [lookupAll, Option.some.injEq] at h; simp [← h]
  | v :: vs, os, h => by
      simp only [lookupAll, Option.bind_eq_some_iff, Option.map_eq_some_iff] at h
      obtain ⟨o, _, os', h2, rfl⟩ := h
      simp [lookupAll_length h2]

theorem lookupAll_bound {m : VMap} {n : Nat} (hb : Bound m n) : ∀ {vs : List Var} {os : List Out},
    lookupAll m vs = some os → ∀ o ∈ os, o < n
  | [], os, h => by simp only [lookupAll, Option.some.injEq] at h; simp [← h]
  | v :: vs, os, h => by
      simp only [lookupAll, Option.bind_eq_some_iff, Option.map_eq_some_iff] at h
      obtain ⟨o, h1, os', h2, rfl⟩ := h
      intro x hx
      rcases List.mem_cons.1 hx with rfl | hx
      · exact hb _ _ h1
      · exact lookupAll_bound hb h2 x hx

theorem lookupAll_agree {E : Env V} {m : VMap} {env : Var → W V} {P : Var → Prop} (ha : Agree E m env P) :
    ∀ {vs : List Var} {os : List Out}, lookupAll m vs = some os →
    List.Forall₂ (fun v w => P v → w = env v) vs (os.map E)
  | [], os, h => by simp only [lookupAll, Option.some.injEq] at h; simp [← h]
  | v :: vs, os, h => by
      simp only [lookupAll, Option.bind_eq_some_iff, Option.map_eq_some_iff] at h
      obtain ⟨o, h1, os', h2, rfl⟩ := h
      rw [List.map_cons]
      refine .cons (fun hp => ?_) (lookupAll_agree ha h2)
      obtain ⟨x, e1, e2⟩ := ha v hp
      rw [h1] at e1
      cases e1
      exact e2

theorem forall₂_eq {P : Var → Prop} {env : Var → W V} : ∀ {vs : List Var} {ws : List (W V)},
    List.Forall₂ (fun v w => P v → w = env v) vs ws → (∀ v ∈ vs, P v) → ws = vs.map env
  | [], [], _, _ => rfl
  | v :: vs, w :: ws, h, hp => by
      cases h with
      | cons h1 h2 =>
        rw [List.map_cons, h1 (hp v (by simp)), forall₂_eq h2 fun u hu => hp u (by simp [hu])]

theorem lookupAll_vals {E : Env V} {m : VMap} {env : Var → W V} {P : Var → Prop} (ha : Agree E m env P)
    {vs : List Var} {os : List Out} (h : lookupAll m vs = some os) (hp : ∀ v ∈ vs, P v) :
    os.map E = vs.map env := forall₂_eq (lookupAll_agree ha h) hp

/-! ### Variables that a tree does not write -/

theorem setAll_notin : ∀ {vs : List Var} {ws : List (W V)} {env : Var → W V} {u : Var}, u ∉ vs →
    setAll env vs ws u = env u
  | [], _, _, _, _ => rfl
  | v :: vs, ws, env, u, h => by
      rw [List.mem_cons] at h
      have h1 : u ≠ v := fun e => h (.inl e)
      have h2 : u ∉ vs := fun e => h (.inr e)
      rw [setAll, setAll_notin h2]
      simp [set, h1]

theorem step_frame (sem : Sem V) (truth : V → Bool) (t : Tac) (s : St V) {v : Var} (h : v ∉ t.writes) :
    (step sem truth t s).env v = s.env v := by
  cases t with
  | op o ins outs => exact setAll_notin h
  | assign l r => simp [Tac.writes] at h; simp [step, set, h]
  | select c a b r => simp [Tac.writes] at h; simp [step, set, h]
  | branch v => rfl

theorem steps_frame (sem : Sem V) (truth : V → Bool) : ∀ (ts : List Tac) (s : St V) {v : Var},
    v ∉ (rwBlock ts).all → (steps sem truth ts s).env v = s.env v
  | [], _, _, _ => rfl
  | t :: ts, s, v, h => by
      simp only [rwBlock, mem_union, not_or] at h
      have := steps_frame sem truth ts (step sem truth t s) h.1
      rw [step_frame sem truth t s h.2] at this
      exact this

theorem Iter.frame {R : St V → St V → Prop} {v : Var} (h : ∀ s t, R s t → t.env v = s.env v) {s s' : St V}
    (hi : Iter R s s') : s'.env v = s.env v := by
  induction hi with
  | exit hr _ => exact h _ _ hr
  | again hr _ _ ih => exact ih.trans (h _ _ hr)

mutual

theorem run_frame (sem : Sem V) (truth : V → Bool) : ∀ (a : Agg) {s s' : St V} {v : Var},
    Run sem truth a s s' → v ∉ (rw a).all → s'.env v = s.env v
  | .block ts, s, s', v, h, hv => by
      simp only [Run] at h
      rw [rw] at hv
      rw [h]
      exact steps_frame sem truth ts s hv
  | .linear cs, s, s', v, h, hv => by
      simp only [Run] at h
      rw [rw] at hv
      exact runAll_frame sem truth cs h hv
  | .branch cs, s, s', v, h, hv => by
      simp only [Run] at h
      rw [rw] at hv
      obtain ⟨k, _, h⟩ := h
      exact runCase_frame sem truth cs h hv
  | .loop b, s, s', v, h, hv => by
      simp only [Run] at h
      rw [rw] at hv
      exact h.frame fun s t hr => run_frame sem truth b hr hv

theorem runAll_frame (sem : Sem V) (truth : V → Bool) : ∀ (cs : Aggs) {s s' : St V} {v : Var},
    RunAll sem truth cs s s' → v ∉ (rwLinear cs).all → s'.env v = s.env v
  | .nil, s, s', v, h, _ => by simp only [RunAll] at h; rw [h]
  | .cons c cs, s, s', v, h, hv => by
      simp only [RunAll] at h
      simp only [rwLinear, mem_union, not_or] at hv
      obtain ⟨t, h1, h2⟩ := h
      rw [runAll_frame sem truth cs h2 hv.1, run_frame sem truth c h1 hv.2]

theorem runCase_frame (sem : Sem V) (truth : V → Bool) : ∀ (cs : Aggs) {k : Nat} {s s' : St V} {v : Var},
    RunCase sem truth cs k s s' → v ∉ (rwBranch cs).all → s'.env v = s.env v
  | .nil, k, s, s', v, h, _ => by simp only [RunCase] at h
  | .cons c .nil, 0, s, s', v, h, hv => by
      simp only [RunCase] at h
      simp only [rwBranch] at hv
      exact run_frame sem truth c h hv
  | .cons c .nil, k + 1, s, s', v, h, hv => by simp only [RunCase] at h
  | .cons c (.cons c' cs), 0, s, s', v, h, hv => by
      simp only [RunCase] at h
      rw [rwBranch, mem_union, not_or] at hv
      exact run_frame sem truth c h hv.1
  | .cons c (.cons c' cs), k + 1, s, s', v, h, hv => by
      simp only [RunCase] at h
      rw [rwBranch, mem_union, not_or] at hv
      exact runCase_frame sem truth (.cons c' cs) (by simpa only [RunCase] using h) hv.2

end

theorem rwBlock_full : ∀ (ts : List Tac) {v : Var}, v ∈ (rwBlock ts).full ↔ v ∈ (rwBlock ts).all
  | [], v => by simp [rwBlock]
  | t :: ts, v => by simp [rwBlock, rwBlock_full ts]

mutual

theorem full_all : ∀ (a : Agg) {v : Var}, v ∈ (rw a).full → v ∈ (rw a).all
  | .block ts, v, h => by simp only [rw] at h ⊢; exact (rwBlock_full ts).1 h
  | .linear cs, v, h => by simp only [rw] at h ⊢; exact full_all_linear cs h
  | .branch cs, v, h => by simp only [rw] at h ⊢; exact full_all_branch cs h
  | .loop b, v, h => by simp only [rw] at h ⊢; exact full_all b h

theorem full_all_linear : ∀ (cs : Aggs) {v : Var}, v ∈ (rwLinear cs).full → v ∈ (rwLinear cs).all
  | .nil, v, h => by simp [rwLinear] at h
  | .cons c cs, v, h => by
      simp only [rwLinear, mem_union] at h ⊢
      exact h.imp (full_all_linear cs) (full_all c)

theorem full_all_branch : ∀ (cs : Aggs) {v : Var}, v ∈ (rwBranch cs).full → v ∈ (rwBranch cs).all
  | .nil, v, h => by simp [rwBranch] at h
  | .cons c .nil, v, h => by simp only [rwBranch] at h ⊢; exact full_all c h
  | .cons c (.cons c' cs), v, h => by
      rw [rwBranch] at h ⊢
      simp only [mem_inter, mem_union] at h ⊢
      exact .inl (full_all c h.1)

end

/-! ### Live variables -/

/-- The variables whose values matter before, if those of `T` matter after. -/
def live (r : RW) (T : Var → Prop) : Var → Prop := fun v => v ∈ r.read ∨ (T v ∧ v ∉ r.full)

mutual

theorem live_annotate (strict : Bool) : ∀ (a : Agg) {W : List Var} {v : Var},
    live (rw a) (· ∈ W) v → v ∈ (annotate strict a W).2
  | .block ts, W, v, h => by simp only [annotate, mem_union, mem_diff]; rw [rw] at h; exact h.symm
  | .linear cs, W, v, h => by
      simp only [annotate, mem_union, mem_diff]
      rw [rw] at h
      rcases h with h | ⟨h1, h2⟩
      · exact .inr h
      · exact .inl ⟨live_annotateList strict cs (.inr ⟨h1, h2⟩), h2⟩
  | .branch cs, W, v, h => by
      rw [rw] at h
      simp only [annotate, mem_union, mem_diff, mem_inter]
      rcases h with h | ⟨h1, h2⟩
      · exact .inr (.inr h)
      · left; cases strict <;> simp [h1, h2]
  | .loop b, W, v, h => by
      rw [rw] at h
      simp only [annotate]
      refine live_annotate strict b ?_
      rcases h with h | ⟨h1, h2⟩
      · exact .inl h
      · exact .inr ⟨by simp [h1], h2⟩

theorem live_annotateList (strict : Bool) : ∀ (cs : Aggs) {W : List Var} {v : Var},
    live (rwLinear cs) (· ∈ W) v → v ∈ (annotateList strict cs W).2
  | .nil, W, v, h => by
      rcases h with h | ⟨h1, h2⟩
      · simp [rwLinear] at h
      · simpa [annotateList] using h1
  | .cons c cs, W, v, h => by
      simp only [annotateList]
      refine live_annotate strict c ?_
      simp only [live, rwLinear, mem_union, mem_diff, not_or] at h ⊢
      rcases h with (⟨h1, h2⟩ | h) | ⟨h1, h2, h3⟩
      · exact .inr ⟨live_annotateList strict cs (.inl h1), h2⟩
      · exact .inl h
      · exact .inr ⟨live_annotateList strict cs (.inr ⟨h1, h2⟩), h3⟩

end

end Jlm.Front
