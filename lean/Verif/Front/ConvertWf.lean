import Verif.Front.ConvertTotal
import Verif.Opt.DneWf

/-! # Conversion of aggregation trees: the RVSDG is well-formed -/

set_option linter.unusedSimpArgs false
set_option linter.unusedVariables false

namespace Jlm.Front

open Jlm.Opt Jlm.Opt.Dne

/-- A load has an address and as many memory states as results (jlm/llvm/ir/operators/Load.hpp). -/
def Tac.loadOk : Tac → Prop
  | .op o ins outs => o.kind = .load → ins.length = outs.length ∧ ins.length ≠ 0
  | _ => True

mutual

def loadsOk : Agg → Prop
  | .block ts => ∀ t ∈ ts, t.loadOk
  | .linear cs => loadsOkAll cs
  | .branch cs => loadsOkAll cs
  | .loop b => loadsOk b

def loadsOkAll : Aggs → Prop
  | .nil => True
  | .cons c cs => loadsOk c ∧ loadsOkAll cs

end

def Scope (m : VMap) (A : List Out) : Prop := ∀ v o, m v = some o → o ∈ A

theorem Scope.insert {m : VMap} {A : List Out} (h : Scope m A) {v : Var} {o : Out} (ho : o ∈ A) :
    Scope (m.insert v o) A := by
  intro u x e
  simp only [VMap.insert] at e
  by_cases hu : u = v
  · simp [hu] at e; exact e ▸ ho
  · simp [hu] at e; exact h u x e

theorem Scope.inserts {A : List Out} : ∀ {vs : List Var} {os : List Out} {m : VMap}, Scope m A →
    (∀ o ∈ os, o ∈ A) → Scope (m.inserts vs os) A
  | [], _, m, h, _ => by simpa [VMap.inserts] using h
  | v :: vs, [], m, h, _ => by simpa [VMap.inserts] using h
  | v :: vs, o :: os, m, h, ho => by
      rw [VMap.inserts]
      exact (h.insert (ho o (by simp))).inserts fun x hx => ho x (by simp [hx])

theorem scope_empty (A : List Out) : Scope VMap.empty A := fun v o e => by simp [VMap.empty] at e

theorem Scope.mono {m : VMap} {A B : List Out} (h : Scope m A) (hs : ∀ x ∈ A, x ∈ B) : Scope m B :=
  fun v o e => hs o (h v o e)

theorem lookupAll_scope {m : VMap} {A : List Out} (hb : Scope m A) : ∀ {vs : List Var} {os : List Out},
    lookupAll m vs = some os → ∀ o ∈ os, o ∈ A
  | [], os, h => by simp only [lookupAll, Option.some.injEq] at h; simp [← h]
  | v :: vs, os, h => by
      simp only [lookupAll, Option.bind_eq_some_iff, Option.map_eq_some_iff] at h
      obtain ⟨o, h1, os', h2, rfl⟩ := h
      intro x hx
      rcases List.mem_cons.1 hx with rfl | hx
      · exact hb _ _ h1
      · exact lookupAll_scope hb h2 x hx

theorem outs_append : ∀ (xs ys : List Node), (nodesOf (xs ++ ys)).outs = (nodesOf xs).outs ++ (nodesOf ys).outs
  | [], _ => rfl
  | x :: xs, ys => by simp only [List.cons_append, nodesOf, Nodes.outs, outs_append xs ys, List.append_assoc]

theorem names_append : ∀ (xs ys : List Node),
    namesNodes (nodesOf (xs ++ ys)) = namesNodes (nodesOf xs) ++ namesNodes (nodesOf ys)
  | [], _ => rfl
  | x :: xs, ys => by simp only [List.cons_append, nodesOf, namesNodes, names_append xs ys, List.append_assoc]

theorem wfNodes_append : ∀ (xs ys : List Node) {A : List Out}, wfNodes A (nodesOf xs) = true →
    wfNodes ((nodesOf xs).outs ++ A) (nodesOf ys) = true → wfNodes A (nodesOf (xs ++ ys)) = true
  | [], _, A, _, h => h
  | x :: xs, ys, A, h1, h2 => by
      simp only [nodesOf, wfNodes, Bool.and_eq_true, List.cons_append, Nodes.outs] at h1 h2 ⊢
      refine ⟨h1.1, wfNodes_append xs ys h1.2 (wfNodes_mono _ _ _ (fun x _ hx => ?_) h2)⟩
      simp only [List.mem_append] at hx ⊢
      rcases hx with (h | h) | h <;> simp [h]

structure Shape (A : List Out) (n : Nat) (r : Res) : Prop where
  wf : wfNodes A (nodesOf r.1) = true
  scope : Scope r.2.2 ((nodesOf r.1).outs ++ A)
  names : ∀ x ∈ namesNodes (nodesOf r.1), n ≤ x ∧ x < r.2.1
  nodup : (namesNodes (nodesOf r.1)).Nodup
  le : n ≤ r.2.1

theorem Shape.trans {A : List Out} {n : Nat} {r r' : Res} (h : Shape A n r)
    (h' : Shape ((nodesOf r.1).outs ++ A) r.2.1 r') : Shape A n (r.1 ++ r'.1, r'.2) := by
  refine ⟨wfNodes_append _ _ h.wf h'.wf, ?_, ?_, ?_, Nat.le_trans h.le h'.le⟩
  · rw [outs_append]
    refine h'.scope.mono fun x hx => ?_
    simp only [List.mem_append] at hx ⊢
    rcases hx with h | h | h <;> simp [h]
  · rw [names_append]
    intro x hx
    rcases List.mem_append.1 hx with hx | hx
    · exact ⟨(h.names x hx).1, Nat.lt_of_lt_of_le (h.names x hx).2 h'.le⟩
    · exact ⟨Nat.le_trans h.le (h'.names x hx).1, (h'.names x hx).2⟩
  · rw [names_append, List.nodup_append]
    refine ⟨h.nodup, h'.nodup, fun x hx y hy e => ?_⟩
    subst e
    exact absurd (h'.names x hy).1 (Nat.not_le.2 (h.names x hx).2)

theorem Shape.nil {A : List Out} {n : Nat} {m : VMap} (h : Scope m A) : Shape A n ([], n, m) :=
  ⟨rfl, h.mono fun x hx => by simp [hx], fun x hx => by simp [nodesOf, namesNodes] at hx,
    by simp [nodesOf, namesNodes], Nat.le_refl n⟩

theorem convTac_shape {t : Tac} {n : Nat} {m : VMap} {r : Res} {A : List Out} (h : convTac n m t = some r)
    (hm : Scope m A) (hl : t.loadOk) : Shape A n r := by
  cases t with
  | assign l rh =>
    simp only [convTac, Option.map_eq_some_iff] at h
    obtain ⟨o, h1, rfl⟩ := h
    exact Shape.nil (hm.insert (hm _ _ h1))
  | branch v =>
    simp only [convTac, Option.some.injEq] at h
    subst h
    exact Shape.nil hm
  | op o ins outs =>
    simp only [convTac, Option.map_eq_some_iff] at h
    obtain ⟨is, h1, rfl⟩ := h
    have e1 := lookupAll_length h1
    refine ⟨?_, ?_, ?_, ?_, Nat.le_add_right _ _⟩
    · simp only [nodesOf, wfNodes, wfNode, Bool.and_true, Bool.and_eq_true, subset_iff, length_range', e1]
      refine ⟨lookupAll_scope hm h1, ?_⟩
      by_cases hk : o.kind = .load
      · have := hl hk
        simp only [length_range', Bool.or_eq_true, Bool.and_eq_true, beq_iff_eq, bne_iff_ne]
        exact .inr this
      · simp [hk]
    · refine (hm.mono fun x hx => by simp [hx]).inserts fun x hx => ?_
      simp only [nodesOf, Nodes.outs, Node.outs, List.mem_append]
      exact .inl (.inl hx)
    · intro x hx
      exact List.mem_range'_1.1 (by simpa [nodesOf, namesNodes, namesNode] using hx)
    · simpa [nodesOf, namesNodes, namesNode] using nodup_range' n outs.length
  | select c a b res =>
    simp only [convTac, Option.bind_eq_some_iff, Option.map_eq_some_iff] at h
    obtain ⟨p, hp, e1, he1, e2, he2, rfl⟩ := h
    have m0 := hm _ _ hp
    have m1 := hm _ _ he1
    have m2 := hm _ _ he2
    refine ⟨?_, ?_, ?_, ?_, Nat.le_add_right _ _⟩
    · simp [nodesOf, wfNodes, wfNode, wfRegions, subset, selectMatch, Node.outs, Nodes.outs, m0, m1, m2]
    · refine Scope.insert (hm.mono fun x hx => by simp [hx]) ?_
      simp [nodesOf, Nodes.outs, Node.outs]
    · intro x hx
      simp only [nodesOf, namesNodes, namesNode, namesRegions, List.append_nil, List.cons_append,
        List.nil_append, List.mem_cons, List.not_mem_nil, or_false] at hx
      show n ≤ x ∧ x < n + 8
      rcases hx with rfl | rfl | rfl | rfl | rfl | rfl | rfl | rfl <;>
        exact ⟨by first | exact Nat.le_refl _ | exact Nat.le_add_right _ _, by
          first | exact Nat.lt_add_of_pos_right (by decide) | exact Nat.add_lt_add_left (by decide) _⟩
    · simp [nodesOf, namesNodes, namesNode, namesRegions]

theorem convBlock_shape : ∀ {ts : List Tac} {n : Nat} {m : VMap} {r : Res} {A : List Out},
    convBlock ts n m = some r → Scope m A → (∀ t ∈ ts, t.loadOk) → Shape A n r
  | [], n, m, r, A, h, hm, hl => by
      simp only [convBlock, Option.some.injEq] at h
      subst h
      exact Shape.nil hm
  | t :: ts, n, m, r, A, h, hm, hl => by
      simp only [convBlock, Option.bind_eq_some_iff, Option.map_eq_some_iff] at h
      obtain ⟨r1, h1, r2, h2, rfl⟩ := h
      have g1 := convTac_shape h1 hm (hl t (by simp))
      exact g1.trans (convBlock_shape h2 g1.scope fun t ht => hl t (by simp [ht]))

theorem undefs_shape {A : List Out} : ∀ {l n : Nat} {m : VMap} {new : List Var}, Scope m A → new.length = l →
    Shape A n ((List.range' n l).map fun u => Node.simple undefOp [] [u], n + l,
      m.inserts new (List.range' n l)) := by
  intro l n m new hm hnew
  have base : ∀ (us : List Out) (A : List Out),
      wfNodes A (nodesOf (us.map fun u => Node.simple undefOp [] [u])) = true ∧
      (nodesOf (us.map fun u => Node.simple undefOp [] [u])).outs = us ∧
      namesNodes (nodesOf (us.map fun u => Node.simple undefOp [] [u])) = us := by
    intro us
    induction us with
    | nil => intro A; simp [nodesOf, wfNodes, Nodes.outs, namesNodes]
    | cons u us ih =>
      intro A
      obtain ⟨h1, h2, h3⟩ := ih ([u] ++ A)
      refine ⟨?_, ?_, ?_⟩
      · simpa [nodesOf, wfNodes, wfNode, subset, undefOp, Node.outs] using h1
      · simp [nodesOf, Nodes.outs, Node.outs, h2]
      · simp [nodesOf, namesNodes, namesNode, h3]
  obtain ⟨h1, h2, h3⟩ := base (List.range' n l) A
  refine ⟨h1, ?_, ?_, ?_, Nat.le_add_right _ _⟩
  · rw [h2]
    exact (hm.mono fun x hx => by simp [hx]).inserts fun x hx => by
      rw [List.mem_append]; exact .inl hx
  · rw [h3]; exact fun x hx => List.mem_range'_1.1 hx
  · rw [h3]; exact nodup_range' _ _

mutual

theorem conv_shape (strict : Bool) : ∀ (a : Agg) {W : List Var} {prev : Option Var} {n : Nat} {m : VMap}
    {r : Res} {A : List Out}, conv (annotate strict a W).1 prev n m = some r → Scope m A → loadsOk a →
    Shape A n r
  | .block ts, W, prev, n, m, r, A, h, hm, hl =>
      convBlock_shape (by simpa only [annotate, conv] using h) hm (by simpa only [loadsOk] using hl)
  | .linear cs, W, prev, n, m, r, A, h, hm, hl =>
      convList_shape strict cs (by simpa only [annotate, conv] using h) hm (by simpa only [loadsOk] using hl)
  | .branch cs, W, prev, n, m, r, A, h, hm, hl => by
      simp only [annotate, conv, Option.bind_eq_some_iff, Option.map_eq_some_iff] at h
      obtain ⟨p', hp', pred, hpred, is, his, rc, hrc, rfl⟩ := h
      obtain ⟨h1, h2, h3, h4⟩ := convCases_shape strict cs hrc (by simpa only [loadsOk] using hl)
      generalize houts : inter W (rwBranch cs).all = outs at *
      refine ⟨?_, ?_, ?_, ?_, Nat.le_trans h4 (Nat.le_add_right _ _)⟩
      · simp only [nodesOf, wfNodes, wfNode, Bool.and_true, Bool.and_eq_true, subset_iff, length_range',
          lookupAll_length his]
        refine ⟨fun x hx => ?_, h1⟩
        rcases List.mem_cons.1 hx with rfl | hx
        · exact hm _ _ hpred
        · exact lookupAll_scope hm his x hx
      · refine (hm.mono fun x hx => by simp [hx]).inserts fun x hx => ?_
        simp only [nodesOf, Nodes.outs, Node.outs, List.mem_append]
        exact .inl (.inl hx)
      · intro x hx
        simp only [nodesOf, namesNodes, namesNode, List.append_nil, List.mem_append] at hx
        rcases hx with hx | hx
        · have := List.mem_range'_1.1 hx
          exact ⟨Nat.le_trans h4 this.1, this.2⟩
        · exact ⟨(h2 x hx).1, Nat.lt_of_lt_of_le (h2 x hx).2 (Nat.le_add_right _ _)⟩
      · simp only [nodesOf, namesNodes, namesNode, List.append_nil]
        refine List.nodup_append.2 ⟨nodup_range' _ _, h3, fun x hx y hy e => ?_⟩
        subst e
        exact absurd (List.mem_range'_1.1 hx).1 (Nat.not_le.2 (h2 x hy).2)
  | .loop b, W, prev, n, m, r, A, h, hm, hl => by
      simp only [annotate, conv, Option.bind_eq_some_iff, Option.map_eq_some_iff] at h
      obtain ⟨is, his, r0, hr0, posts, hposts, p, hp, pred, hpred, rfl⟩ := h
      generalize hvars : union W (rw b).read = vars at *
      generalize hnew : (vars.filter fun v => (m v).isNone) = new at *
      have u := undefs_shape (n := n) (l := new.length) (new := new) hm rfl
      generalize hn1 : n + new.length = n1 at *
      have g := conv_shape strict b (A := List.range' n1 vars.length) hr0
        ((scope_empty _).inserts fun o ho => ho) (by simpa only [loadsOk] using hl)
      refine u.trans (r' := ([.theta is (List.range' r0.2.1 vars.length) (List.range' n1 vars.length) pred posts
        (nodesOf r0.1)], r0.2.1 + vars.length,
        (m.inserts new (List.range' n new.length)).inserts vars (List.range' r0.2.1 vars.length)))
        ⟨?_, ?_, ?_, ?_, ?_⟩
      · simp only [nodesOf, wfNodes, wfNode, Bool.and_true, Bool.and_eq_true, subset_iff, length_range',
          lookupAll_length his, lookupAll_length hposts, beq_self_eq_true, and_true, g.wf]
        refine ⟨lookupAll_scope u.scope his, fun x hx => ?_⟩
        have : x ∈ (nodesOf r0.1).outs ++ List.range' n1 vars.length := by
          rcases List.mem_cons.1 hx with rfl | hx
          · exact g.scope _ _ hpred
          · exact lookupAll_scope g.scope hposts x hx
        exact List.mem_append.2 (List.mem_append.1 this).symm
      · refine (u.scope.mono fun x hx => List.mem_append_right _ hx).inserts fun x hx => ?_
        simp only [nodesOf, Nodes.outs, Node.outs, List.mem_append]
        exact .inl (.inl hx)
      · intro x hx
        simp only [nodesOf, namesNodes, namesNode, List.append_nil, List.mem_append] at hx
        show n1 ≤ x ∧ x < r0.2.1 + vars.length
        have hle := g.le
        rcases hx with (hx | hx) | hx
        · have := List.mem_range'_1.1 hx
          exact ⟨Nat.le_trans (Nat.le_trans (Nat.le_add_right _ _) hle) this.1, this.2⟩
        · have := List.mem_range'_1.1 hx
          exact ⟨this.1, Nat.lt_of_lt_of_le this.2 (Nat.le_trans hle (Nat.le_add_right _ _))⟩
        · have := g.names x hx
          exact ⟨Nat.le_trans (Nat.le_add_right _ _) this.1, Nat.lt_of_lt_of_le this.2 (Nat.le_add_right _ _)⟩
      · simp only [nodesOf, namesNodes, namesNode, List.append_nil]
        have hle := g.le
        refine List.nodup_append.2 ⟨List.nodup_append.2 ⟨nodup_range' _ _, nodup_range' _ _,
          fun x hx y hy e => ?_⟩, g.nodup, fun x hx y hy e => ?_⟩
        · subst e
          exact absurd (Nat.le_trans hle (List.mem_range'_1.1 hx).1)
            (Nat.not_le.2 (List.mem_range'_1.1 hy).2)
        · subst e
          rcases List.mem_append.1 hx with hx | hx
          · exact absurd (List.mem_range'_1.1 hx).1 (Nat.not_le.2 (g.names x hy).2)
          · exact absurd (g.names x hy).1 (Nat.not_le.2 (List.mem_range'_1.1 hx).2)
      · exact Nat.le_trans (Nat.le_trans (Nat.le_add_right _ _) g.le) (Nat.le_add_right _ _)

theorem convList_shape (strict : Bool) : ∀ (cs : Aggs) {W : List Var} {prev : Option Var} {n : Nat} {m : VMap}
    {r : Res} {A : List Out}, convList (annotateList strict cs W).1 prev n m = some r → Scope m A →
    loadsOkAll cs → Shape A n r
  | .nil, W, prev, n, m, r, A, h, hm, hl => by
      simp only [annotateList, convList, Option.some.injEq] at h
      subst h
      exact Shape.nil hm
  | .cons c cs, W, prev, n, m, r, A, h, hm, hl => by
      simp only [annotateList, convList, Option.bind_eq_some_iff, Option.map_eq_some_iff] at h
      simp only [loadsOkAll] at hl
      obtain ⟨r1, h1, r2, h2, rfl⟩ := h
      have g1 := conv_shape strict c h1 hm hl.1
      exact g1.trans (convList_shape strict cs h2 g1.scope hl.2)

theorem convCases_shape (strict : Bool) : ∀ (cs : Aggs) {W ins outs : List Var} {n : Nat} {r : Regions × Nat},
    convCases ins outs (annotateCases strict cs W) n = some r → loadsOkAll cs →
    wfRegions (ins.length + 1) outs.length r.1 = true ∧ (∀ x ∈ namesRegions r.1, n ≤ x ∧ x < r.2) ∧
      (namesRegions r.1).Nodup ∧ n ≤ r.2
  | .nil, W, ins, outs, n, r, h, hl => by
      simp only [annotateCases, convCases, Option.some.injEq] at h
      subst h
      simp [wfRegions, namesRegions]
  | .cons c cs, W, ins, outs, n, r, h, hl => by
      simp only [annotateCases, convCases, Option.bind_eq_some_iff, Option.map_eq_some_iff] at h
      simp only [loadsOkAll] at hl
      obtain ⟨r1, h1, results, hres, r2, h2, rfl⟩ := h
      have g := conv_shape strict c (A := n :: List.range' (n + 1) ins.length) h1
        ((scope_empty _).inserts fun o ho => by simp [ho]) hl.1
      obtain ⟨k1, k2, k3, k4⟩ := convCases_shape strict cs h2 hl.2
      have hle := g.le
      have hargs : ∀ x ∈ n :: List.range' (n + 1) ins.length, n ≤ x ∧ x < n + 1 + ins.length := by
        intro x hx
        rcases List.mem_cons.1 hx with rfl | hx
        · exact ⟨Nat.le_refl _, Nat.lt_of_lt_of_le (Nat.lt_succ_self _) (Nat.le_add_right _ _)⟩
        · have := List.mem_range'_1.1 hx
          exact ⟨Nat.le_of_succ_le this.1, this.2⟩
      have hn : n ≤ n + 1 + ins.length := Nat.le_trans (Nat.le_succ n) (Nat.le_add_right _ _)
      refine ⟨?_, ?_, ?_, Nat.le_trans hn (Nat.le_trans hle k4)⟩
      · simp only [wfRegions, Bool.and_eq_true, beq_iff_eq, subset_iff, List.length_cons, length_range', k1, g.wf,
          lookupAll_length hres, and_true, true_and]
        intro x hx
        exact List.mem_append.2 (List.mem_append.1 (lookupAll_scope g.scope hres x hx)).symm
      · intro x hx
        simp only [namesRegions, List.mem_append] at hx
        show n ≤ x ∧ x < r2.2
        rcases hx with (hx | hx) | hx
        · exact ⟨(hargs x hx).1, Nat.lt_of_lt_of_le (hargs x hx).2 (Nat.le_trans hle k4)⟩
        · exact ⟨Nat.le_trans hn (g.names x hx).1, Nat.lt_of_lt_of_le (g.names x hx).2 k4⟩
        · exact ⟨Nat.le_trans hn (Nat.le_trans hle (k2 x hx).1), (k2 x hx).2⟩
      · simp only [namesRegions]
        refine List.nodup_append.2 ⟨List.nodup_append.2 ⟨List.nodup_cons.2 ⟨fun h => ?_, nodup_range' _ _⟩,
          g.nodup, fun x hx y hy e => ?_⟩, k3, fun x hx y hy e => ?_⟩
        · exact absurd (List.mem_range'_1.1 h).1 (Nat.not_succ_le_self n)
        · subst e
          exact absurd (g.names x hy).1 (Nat.not_le.2 (hargs x hx).2)
        · subst e
          have : x < r1.2.1 := by
            rcases List.mem_append.1 hx with hx | hx
            · exact Nat.lt_of_lt_of_le (hargs x hx).2 hle
            · exact (g.names x hx).2
          exact absurd (k2 x hy).1 (Nat.not_le.2 this)

end

/-- The lambda node is well-formed wherever the variables of the outer region are defined, and its outputs,
arguments and everything inside have different names that are not used yet. -/
theorem convFn_wf {strict : Bool} {f : Fn} (hl : loadsOkAll f.body) {outer : VMap} {n : Nat} {node : Node}
    (h : convFn strict f outer n = some node) {A : List Out} (ho : Scope outer A) :
    wfNode A node = true ∧ (namesNode node).Nodup ∧ ∀ x ∈ namesNode node, n ≤ x := by
  simp only [convFn, Option.bind_eq_some_iff, Option.map_eq_some_iff] at h
  obtain ⟨is, his, r, hr, results, hres, rfl⟩ := h
  simp only [annotateFn] at *
  generalize hctx : ((diff (annotateList strict f.body f.results).2 f.args).filter fun v =>
    (outer v).isSome) = ctx at *
  generalize hund : ((diff (annotateList strict f.body f.results).2 f.args).filter fun v =>
    (outer v).isNone) = und at *
  generalize hps : List.range' n f.args.length = params at *
  generalize hn1 : n + f.args.length = n1 at *
  generalize has : List.range' n1 ctx.length = as at *
  generalize hn2 : n1 + ctx.length = n2 at *
  have bps : ∀ x ∈ params, n ≤ x ∧ x < n1 := by
    intro x hx; rw [← hps] at hx; rw [← hn1]; exact List.mem_range'_1.1 hx
  have bas : ∀ x ∈ as, n1 ≤ x ∧ x < n2 := by
    intro x hx; rw [← has] at hx; rw [← hn2]; exact List.mem_range'_1.1 hx
  have nps : params.Nodup := by rw [← hps]; exact nodup_range' _ _
  have nas : as.Nodup := by rw [← has]; exact nodup_range' _ _
  have las : as.length = ctx.length := by rw [← has]; simp
  have h01 : n ≤ n1 := by rw [← hn1]; exact Nat.le_add_right _ _
  have h12 : n1 ≤ n2 := by rw [← hn2]; exact Nat.le_add_right _ _
  have u := undefs_shape (A := params ++ as) (n := n2) (l := und.length) (new := und)
    (m := (VMap.empty.inserts f.args params).inserts ctx as)
    (((scope_empty _).inserts fun o ho => by simp [ho]).inserts fun o ho => by simp [ho]) rfl
  have g := u.trans (convList_shape strict f.body hr u.scope hl)
  refine ⟨?_, ?_, ?_⟩
  · simp only [wfNode, Bool.and_eq_true, subset_iff, beq_iff_eq, las, lookupAll_length his, g.wf, and_true]
    refine ⟨lookupAll_scope ho his, fun x hx => ?_⟩
    exact List.mem_append.2 (List.mem_append.1 (lookupAll_scope g.scope hres x hx)).symm
  · simp only [namesNode, List.cons_append]
    refine List.nodup_cons.2 ⟨fun h => ?_, ?_⟩
    · rcases List.mem_append.1 h with h | h
      · have hle : n2 ≤ r.2.1 := g.le
        rcases List.mem_append.1 h with h | h
        · exact absurd (Nat.le_trans h12 hle) (Nat.not_le.2 (bps _ h).2)
        · exact absurd hle (Nat.not_le.2 (bas _ h).2)
      · exact absurd (g.names _ h).2 (Nat.lt_irrefl _)
    · refine List.nodup_append.2 ⟨List.nodup_append.2 ⟨nps, nas, fun x hx y hy e => ?_⟩, g.nodup,
        fun x hx y hy e => ?_⟩
      · subst e
        exact absurd (bas x hy).1 (Nat.not_le.2 (bps x hx).2)
      · subst e
        rcases List.mem_append.1 hx with h | h
        · exact absurd (Nat.le_trans h12 (g.names x hy).1) (Nat.not_le.2 (bps x h).2)
        · exact absurd (g.names x hy).1 (Nat.not_le.2 (bas x h).2)
  · intro x hx
    simp only [namesNode, List.cons_append, List.mem_cons, List.mem_append] at hx
    rcases hx with rfl | (h | h) | h
    · exact Nat.le_trans (Nat.le_trans h01 h12) g.le
    · exact (bps x h).1
    · exact Nat.le_trans h01 (bas x h).1
    · exact Nat.le_trans (Nat.le_trans h01 h12) (g.names x h).1

end Jlm.Front
