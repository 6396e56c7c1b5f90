import Verif.Opt.DneWf
import Verif.Opt.DneSpec

/-! # Dead node elimination keeps nothing the exports do not need -/

set_option linter.unusedSimpArgs false
set_option linter.unusedVariables false

namespace Jlm.Opt.Dne

theorem zip_mem_get {α β : Type} {xs : List α} {ys : List β} {p : α × β} (h : p ∈ xs.zip ys) :
    ∃ k : Nat, xs[k]? = some p.1 ∧ ys[k]? = some p.2 := by
  obtain ⟨k, hk, rfl⟩ := List.getElem_of_mem h
  simp only [List.length_zip] at hk
  exact ⟨k, by simp [show k < xs.length by omega], by simp [show k < ys.length by omega]⟩

theorem resultsAt_ports : ∀ (subs : Regions) (k : Nat) (x : Out), x ∈ Regions.resultsAt k subs →
    ∃ r ∈ subs.ports, r.2[k]? = some x
  | .nil, _, _, h => by simp [Regions.resultsAt] at h
  | .cons args results sub rest, k, x, h => by
      simp only [Regions.resultsAt, List.mem_append, Option.mem_toList] at h
      rcases h with h | h
      · exact ⟨(args, results), by simp [Regions.ports], h⟩
      · obtain ⟨r, hr, hx⟩ := resultsAt_ports rest k x h
        exact ⟨r, by simp [Regions.ports, hr], hx⟩

mutual

theorem defsNode_dep : ∀ (n : Node), ∀ p ∈ defsNode n, ∀ x ∈ p.2.deps,
    DependsOn n p.1 x ∨ ∃ m ∈ nestedNodes n, DependsOn m p.1 x
  | .simple op ins outs, p, hp, x, hx => by
      simp only [defsNode] at hp
      split at hp
      case isTrue hk =>
        cases outs with
        | nil => simp [loadDefs] at hp
        | cons o os =>
          cases ins with
          | nil =>
            simp only [loadDefs, List.mem_singleton] at hp
            subst hp
            simp [Def.deps] at hx
          | cons i is =>
            simp only [loadDefs, List.mem_cons, List.mem_map] at hp
            rcases hp with rfl | ⟨q, hq, rfl⟩
            · exact .inl (.loadValue hk rfl hx)
            · simp only [Def.deps, List.mem_singleton] at hx
              subst hx
              obtain ⟨k, h1, h2⟩ := zip_mem_get hq
              exact .inl (.loadState (k := k) hk (by simpa using h1) (by simpa using h2))
      case isFalse hk =>
        simp only [simpleDefs, List.mem_map] at hp
        obtain ⟨o, ho, rfl⟩ := hp
        exact .inl (.simple hk ho hx)
  | .gamma pred ins outs subs, p, hp, x, hx => by
      simp only [defsNode, List.mem_append, List.mem_map] at hp
      rcases hp with ⟨q, hq, rfl⟩ | hp
      · rw [List.mem_zipIdx_iff_getElem?] at hq
        simp only [Def.deps, List.mem_cons] at hx
        rcases hx with rfl | hx
        · exact .inl (.gammaPred (List.mem_of_getElem? hq))
        · obtain ⟨r, hr, hx⟩ := resultsAt_ports subs _ x hx
          exact .inl (.gammaResult hq hr hx)
      · rcases defsRegions_dep subs (pred :: ins) p hp x hx with ⟨r, hr, k, h1, h2⟩ | h
        · exact .inl (.gammaArg hr h1 h2)
        · exact .inr h
  | .theta ins outs args pred posts sub, p, hp, x, hx => by
      simp only [defsNode, List.mem_append, List.mem_map] at hp
      rcases hp with (⟨q, hq, rfl⟩ | ⟨q, hq, rfl⟩) | hp
      · obtain ⟨k, h1, h2⟩ := zip_mem_get hq
        have h3 : posts[k]? = some q.2.1 ∧ ins[k]? = some q.2.2 := by
          rw [List.getElem?_zip_eq_some] at h2
          exact h2
        simp only [Def.deps, List.mem_cons, List.not_mem_nil, or_false] at hx
        rcases hx with rfl | rfl | rfl
        · exact .inl (.thetaPred (List.mem_of_getElem? h1))
        · exact .inl (.thetaPost h1 h3.1)
        · exact .inl (.thetaInput h1 h3.2)
      · obtain ⟨k, h1, h2⟩ := zip_mem_get hq
        have h3 : outs[k]? = some q.2.1 ∧ ins[k]? = some q.2.2 := by
          rw [List.getElem?_zip_eq_some] at h2
          exact h2
        simp only [Def.deps, List.mem_cons, List.not_mem_nil, or_false] at hx
        rcases hx with rfl | rfl
        · exact .inl (.thetaPre h1 h3.1)
        · exact .inl (.thetaArg h1 h3.2)
      · exact .inr (defsNodes_dep sub p hp x hx)
  | .lambda ins args params results out sub, p, hp, x, hx => by
      simp only [defsNode, List.mem_append, List.mem_map, List.mem_cons] at hp
      rcases hp with ((rfl | ⟨q, hq, rfl⟩) | ⟨q, hq, rfl⟩) | hp
      · exact .inl (.lambdaResult hx)
      · simp [Def.deps] at hx
      · simp only [Def.deps, List.mem_singleton] at hx
        subst hx
        obtain ⟨k, h1, h2⟩ := zip_mem_get hq
        exact .inl (.lambdaCtx h1 h2)
      · exact .inr (defsNodes_dep sub p hp x hx)
  | .phi ins args recs results outs sub, p, hp, x, hx => by
      simp only [defsNode, List.mem_append, List.mem_map] at hp
      rcases hp with ((⟨q, hq, rfl⟩ | ⟨q, hq, rfl⟩) | ⟨q, hq, rfl⟩) | hp
      · simp only [Def.deps, List.mem_singleton] at hx
        subst hx
        obtain ⟨k, h1, h2⟩ := zip_mem_get hq
        exact .inl (.phiOut h1 h2)
      · simp only [Def.deps, List.mem_singleton] at hx
        subst hx
        obtain ⟨k, h1, h2⟩ := zip_mem_get hq
        exact .inl (.phiRec h1 h2)
      · simp only [Def.deps, List.mem_singleton] at hx
        subst hx
        obtain ⟨k, h1, h2⟩ := zip_mem_get hq
        exact .inl (.phiCtx h1 h2)
      · exact .inr (defsNodes_dep sub p hp x hx)
  | .delta ins args result out sub, p, hp, x, hx => by
      simp only [defsNode, List.mem_append, List.mem_map, List.mem_cons] at hp
      rcases hp with (rfl | ⟨q, hq, rfl⟩) | hp
      · simp only [Def.deps, List.mem_singleton] at hx
        subst hx
        exact .inl .deltaResult
      · simp only [Def.deps, List.mem_singleton] at hx
        subst hx
        obtain ⟨k, h1, h2⟩ := zip_mem_get hq
        exact .inl (.deltaCtx h1 h2)
      · exact .inr (defsNodes_dep sub p hp x hx)

theorem defsNodes_dep : ∀ (ns : Nodes), ∀ p ∈ defsNodes ns, ∀ x ∈ p.2.deps,
    ∃ m ∈ nodesIn ns, DependsOn m p.1 x
  | .nil, p, hp, _, _ => by simp [defsNodes] at hp
  | .cons n ns, p, hp, x, hx => by
      simp only [defsNodes, List.mem_append] at hp
      simp only [nodesIn, List.mem_cons, List.mem_append]
      rcases hp with hp | hp
      · rcases defsNode_dep n p hp x hx with h | ⟨m, hm, h⟩
        · exact ⟨n, .inl rfl, h⟩
        · exact ⟨m, .inr (.inl hm), h⟩
      · obtain ⟨m, hm, h⟩ := defsNodes_dep ns p hp x hx
        exact ⟨m, .inr (.inr hm), h⟩

theorem defsRegions_dep : ∀ (subs : Regions) (ins : List Out), ∀ p ∈ defsRegions ins subs,
    ∀ x ∈ p.2.deps, (∃ r ∈ subs.ports, ∃ k : Nat, r.1[k]? = some p.1 ∧ ins[k]? = some x) ∨
      ∃ m ∈ branchNodes subs, DependsOn m p.1 x
  | .nil, ins, p, hp, _, _ => by simp [defsRegions] at hp
  | .cons args results sub rest, ins, p, hp, x, hx => by
      simp only [defsRegions, List.mem_append, List.mem_map] at hp
      simp only [branchNodes, List.mem_append]
      rcases hp with (⟨q, hq, rfl⟩ | hp) | hp
      · simp only [Def.deps, List.mem_singleton] at hx
        subst hx
        obtain ⟨k, h1, h2⟩ := zip_mem_get hq
        exact .inl ⟨(args, results), by simp [Regions.ports], k, h1, h2⟩
      · obtain ⟨m, hm, h⟩ := defsNodes_dep sub p hp x hx
        exact .inr ⟨m, .inl hm, h⟩
      · rcases defsRegions_dep rest ins p hp x hx with ⟨r, hr, h⟩ | ⟨m, hm, h⟩
        · exact .inl ⟨r, by simp [Regions.ports, hr], h⟩
        · exact .inr ⟨m, .inr hm, h⟩

end

/-- What the mark phase follows is what the exports depend on. -/
theorem needed_needs {g : Graph} {o : Out} (h : Needed (defsGraph g) g.exports o) : g.Needs o := by
  induction h with
  | root h => exact .export h
  | @dep o x d _ hd hx ih =>
    simp only [defsGraph, List.mem_append, List.mem_map] at hd
    rcases hd with ⟨q, _, hq⟩ | hd
    · simp only [Prod.mk.injEq] at hq
      rw [← hq.2] at hx
      simp [Def.deps] at hx
    · obtain ⟨m, hm, h⟩ := defsNodes_dep g.body _ hd x hx
      exact .dep ih hm h

/-! ## kept parts are needed -/

/-- The marked simple nodes defined in `D` have an output in `D` that satisfies `N`. -/
def JustIn (S : Marks) (N : Out → Prop) (D : List (Out × Def)) : Prop :=
  ∀ key ∈ S.nodes, key ∈ D.map (·.1) → ∃ o ins, N o ∧ (o, Def.node key ins) ∈ D

theorem JustIn.left {S : Marks} {N : Out → Prop} {A B : List (Out × Def)} (hB : KeysOk B)
    (hn : ((A ++ B).map (·.1)).Nodup) (h : JustIn S N (A ++ B)) : JustIn S N A := by
  intro key hk hA
  obtain ⟨o, ins, hN, hm⟩ := h key hk (by simp only [List.map_append, List.mem_append]; exact .inl hA)
  rcases List.mem_append.1 hm with hm | hm
  · exact ⟨o, ins, hN, hm⟩
  · exfalso
    rw [List.map_append] at hn
    exact (List.nodup_append.1 hn).2.2 key hA key
      (List.mem_map_of_mem (f := Prod.fst) (hB.1 _ _ _ hm)) rfl

theorem JustIn.right {S : Marks} {N : Out → Prop} {A B : List (Out × Def)} (hA : KeysOk A)
    (hn : ((A ++ B).map (·.1)).Nodup) (h : JustIn S N (A ++ B)) : JustIn S N B := by
  intro key hk hB
  obtain ⟨o, ins, hN, hm⟩ := h key hk (by simp only [List.map_append, List.mem_append]; exact .inr hB)
  rcases List.mem_append.1 hm with hm | hm
  · exfalso
    rw [List.map_append] at hn
    exact (List.nodup_append.1 hn).2.2 key
      (List.mem_map_of_mem (f := Prod.fst) (hA.1 _ _ _ hm)) key hB rfl
  · exact ⟨o, ins, hN, hm⟩

/-- All units of the nodes contain something in `N`. -/
def UnitsOk (N : Out → Prop) (l : List Node) : Prop := ∀ n ∈ l, ∀ u ∈ n.units, ∃ o ∈ u, N o

theorem UnitsOk.append {N : Out → Prop} {l l' : List Node} (h : UnitsOk N l) (h' : UnitsOk N l') :
    UnitsOk N (l ++ l') := by
  intro n hn
  rcases List.mem_append.1 hn with hn | hn
  · exact h n hn
  · exact h' n hn

theorem nodesIn_divert_units {N : Out → Prop} (τ : Out → Out) : ∀ (ns : Nodes),
    UnitsOk N (nodesIn ns) → UnitsOk N (nodesIn (ns.divert τ))
  | .nil, h => h
  | .cons n ns, h => by
      simp only [Nodes.divert, nodesIn]
      have hn : nestedNodes (n.divert τ) = nestedNodes n := by cases n <;> simp [Node.divert, nestedNodes]
      have hu : (n.divert τ).units = n.units := by cases n <;> simp [Node.divert, Node.units]
      intro m hm
      simp only [List.mem_cons, List.mem_append] at hm
      simp only [nodesIn] at h
      rcases hm with rfl | hm | hm
      · rw [hu]
        exact h n (by simp)
      · rw [hn] at hm
        exact h m (by simp [hm])
      · exact nodesIn_divert_units τ ns (fun m hm => h m (by simp [hm])) m hm

theorem branchNodes_maskArgs (bs : List Bool) : ∀ rs : Regions,
    branchNodes (maskArgs bs rs) = branchNodes rs
  | .nil => rfl
  | .cons args results sub rest => by
      simp [maskArgs, branchNodes, branchNodes_maskArgs bs rest]

/-- A marked simple node has a needed output that makes its unit needed. -/
theorem simple_unit {S : Marks} {N : Out → Prop} {op : Op} {ins outs : List Out}
    (hj : JustIn S N (defsNode (.simple op ins outs)))
    (ha : S.aliveNode (.simple op ins outs) = true) :
    ∀ u ∈ (Node.simple op ins outs).units, ∃ o ∈ u, N o := by
  simp only [Marks.aliveNode] at ha
  cases outs with
  | nil => simp at ha
  | cons k os =>
    simp only [List.head?_cons, Option.any_some] at ha
    have hk : k ∈ S.nodes := by simpa using ha
    by_cases hl : op.kind = .load
    · obtain ⟨o, ins', hN, hm⟩ := hj k hk (by
        simp only [defsNode, hl, if_true]
        cases ins <;> simp [loadDefs])
      simp only [defsNode, hl, if_true] at hm
      have ho : o = k := by
        cases ins <;> simp [loadDefs] at hm <;> exact hm.1
      intro u hu
      simp only [Node.units, hl, if_true, List.take_succ_cons, List.take_zero,
        List.mem_singleton] at hu
      exact ⟨o, by simp [hu, ho], hN⟩
    · obtain ⟨o, ins', hN, hm⟩ := hj k hk (by simp [defsNode, hl, simpleDefs])
      simp only [defsNode, hl, if_false, simpleDefs, List.mem_map] at hm
      obtain ⟨o', ho', heq⟩ := hm
      simp only [Prod.mk.injEq] at heq
      intro u hu
      simp only [Node.units, hl, if_false, List.mem_singleton] at hu
      exact ⟨o, by rw [hu, ← heq.1]; exact ho', hN⟩

/-- A plain node that survives pruning is marked. -/
theorem prune_units {S : Marks} {P N : Out → Prop} : ∀ (ns : Nodes) (rs : List Out),
    ns.allPlain = true → (∀ p ∈ defsNodes ns, Coh S P p) → (∀ r ∈ rs, P r) →
    ((defsNodes ns).map (·.1)).Nodup → JustIn S N (defsNodes ns) →
    UnitsOk N (nodesIn (prune ns rs))
  | .nil, _, _, _, _, _, _ => by simp [prune, nodesIn, UnitsOk]
  | .cons n ns, rs, hp, hc, hr, hn, hj => by
      cases n with
      | simple op ins outs =>
        simp only [Nodes.allPlain, Bool.and_eq_true, bne_iff_ne] at hp
        have hcs : ∀ p ∈ defsNodes ns, Coh S P p := fun p hp => hc p (by simp [defsNodes, hp])
        simp only [defsNodes] at hn hj
        have ih := prune_units ns rs hp.2 hcs hr (by
          rw [List.map_append] at hn
          exact (List.nodup_append.1 hn).2.1) (hj.right (defsNode_keys _) hn)
        simp only [prune]
        by_cases hu : (Node.simple op ins outs).outs.any (used (prune ns rs) rs) = true
        · rw [if_pos hu]
          simp only [nodesIn, nestedNodes, List.nil_append]
          refine fun m hm => ?_
          rcases List.mem_cons.1 hm with rfl | hm
          · refine simple_unit (S := S) (hj.left (defsNodes_keys ns) hn) ?_
            simp only [Node.outs, List.any_eq_true, used_iff] at hu
            obtain ⟨o, ho, hu⟩ := hu
            have hPo : P o := by
              rcases hu with hu | hu
              · exact prune_uses ns [] rs hp.2 hcs hr o hu
              · exact hr o hu
            have := hc (o, .node (outs.headD 0) ins)
              (by simp [defsNodes, defsNode, hp.1, simpleDefs, ho])
            have hk := this.1.1 hPo
            cases outs with
            | nil => simp at ho
            | cons k os =>
              simp only [List.headD_cons] at hk
              simp [Marks.aliveNode, hk]
          · exact ih m hm
        · rw [if_neg hu]
          exact ih
      | _ => simp [Nodes.allPlain] at hp

theorem mem_mask_map {f : Out → Bool} {args : List Out} {a : Out}
    (h : a ∈ mask (args.map f) args) : a ∈ args ∧ f a = true := by
  obtain ⟨b, hb, hf⟩ := mask_zip_mem _ _ _ h
  obtain ⟨k, h1, h2⟩ := zip_mem_get hb
  rw [h1] at h2
  simp only [Option.some.injEq] at h2
  exact ⟨mem_mask h, h2 ▸ hf⟩

/-- Where an element of a masked list comes from. -/
theorem mask_get {α : Type} : ∀ (bs : List Bool) (xs : List α) (j : Nat) (x : α),
    (mask bs xs)[j]? = some x → ∃ k : Nat, bs[k]? = some true ∧ xs[k]? = some x ∧
      ∀ (ys : List Out) (y : Out), ys[k]? = some y → (mask bs ys)[j]? = some y
  | [], xs, j, x, h => by simp [mask] at h
  | b :: bs, [], j, x, h => by simp [mask_nil] at h
  | true :: bs, z :: xs, 0, x, h => by
      refine ⟨0, rfl, by simpa [mask] using h, fun ys y hy => ?_⟩
      cases ys with
      | nil => simp at hy
      | cons w ws => simpa [mask] using hy
  | true :: bs, z :: xs, j + 1, x, h => by
      obtain ⟨k, h1, h2, h3⟩ := mask_get bs xs j x (by simpa [mask] using h)
      refine ⟨k + 1, by simpa using h1, by simpa using h2, fun ys y hy => ?_⟩
      cases ys with
      | nil => simp at hy
      | cons w ws => simpa [mask] using h3 ws y (by simpa using hy)
  | false :: bs, z :: xs, j, x, h => by
      obtain ⟨k, h1, h2, h3⟩ := mask_get bs xs j x (by simpa [mask] using h)
      refine ⟨k + 1, by simpa using h1, by simpa using h2, fun ys y hy => ?_⟩
      cases ys with
      | nil => simp at hy
      | cons w ws => simpa [mask] using h3 ws y (by simpa using hy)

/-- A set bit of the argument mask comes from some branch. -/
theorem argMask_branch {S : Marks} : ∀ (subs : Regions) (n k : Nat),
    (argMask S n subs)[k]? = some true → ∃ r ∈ subs.ports, ∃ a, r.1[k]? = some a ∧ a ∈ S.outs
  | .nil, n, k, h => by
      simp only [argMask, List.getElem?_replicate] at h
      split at h <;> simp at h
  | .cons args results sub rest, n, k, h => by
      simp only [argMask, List.getElem?_zipWith] at h
      cases h1 : (args.map S.alive)[k]? with
      | none => simp [h1] at h
      | some b =>
        cases h2 : (argMask S n rest)[k]? with
        | none => simp [h1, h2] at h
        | some c =>
          simp only [h1, h2, Option.some.injEq, Bool.or_eq_true] at h
          rcases h with rfl | rfl
          · rw [List.getElem?_map, Option.map_eq_some_iff] at h1
            obtain ⟨a, ha, hb⟩ := h1
            exact ⟨(args, results), by simp [Regions.ports], a, ha, (S.alive_iff a).1 hb⟩
          · obtain ⟨r, hr, h⟩ := argMask_branch rest n k h2
            exact ⟨r, by simp [Regions.ports, hr], h⟩

theorem ports_maskArgs (bs : List Bool) (S : Marks) (ko : List Bool) : ∀ (subs : Regions),
    ∀ r ∈ subs.ports, ∃ r' ∈ (maskArgs bs (sweepRegions S ko subs)).ports, r'.1 = mask bs r.1
  | .nil, r, hr => by simp [Regions.ports] at hr
  | .cons args results sub rest, r, hr => by
      simp only [Regions.ports, List.mem_cons] at hr
      rcases hr with rfl | hr
      · exact ⟨_, by simp only [sweepRegions, maskArgs, Regions.ports]; exact List.mem_cons_self, rfl⟩
      · obtain ⟨r', h1, h2⟩ := ports_maskArgs bs S ko rest r hr
        exact ⟨r', by simp [sweepRegions, maskArgs, Regions.ports, h1], h2⟩

mutual

theorem sweepNode_units {S : Marks} {P N : Out → Prop} {top : Nodes}
    (hN : ∀ o ∈ S.outs, N o)
    (hdep : ∀ m o x, N o → DependsOn m o x → m ∈ nodesIn top → N x) :
    ∀ (n : Node) (avail : List Out), wfNode avail n = true → (namesNode n).Nodup →
    (∀ p ∈ defsNode n, Coh S P p) → S.aliveNode n = true → JustIn S N (defsNode n) →
    (∀ m ∈ n :: nestedNodes n, m ∈ nodesIn top) →
    UnitsOk N (sweepNode S n :: nestedNodes (sweepNode S n))
  | .simple op ins outs, avail, hwf, hn, hc, ha, hj, ht => by
      intro m hm
      simp only [sweepNode, nestedNodes, List.mem_singleton] at hm
      subst hm
      exact simple_unit hj ha
  | .gamma pred ins outs subs, avail, hwf, hn, hc, ha, hj, ht => by
      simp only [wfNode, Bool.and_eq_true] at hwf
      have hnn : ((defsNode (.gamma pred ins outs subs)).map (·.1)).Nodup := by
        rw [defsNode_names _ avail (by simp only [wfNode, Bool.and_eq_true]; exact hwf)]
        exact hn
      simp only [namesNode] at hn
      simp only [defsNode] at hj hnn
      have hcr : ∀ p ∈ defsRegions (pred :: ins) subs, Coh S P p :=
        fun p hp => hc p (by simp [defsNode, hp])
      have ih := sweepRegions_units (P := P) hN hdep subs (pred :: ins) outs.length (outs.map S.alive)
        (by simpa using hwf.2) (List.nodup_append.1 hn).2.1 hcr
        (hj.right (keysOk_others (by
          simp only [List.mem_map]
          rintro p ⟨q, _, rfl⟩
          exact ⟨_, rfl⟩)) hnn)
        (fun m hm => ht m (by simp [nestedNodes, hm]))
      intro m hm
      simp only [sweepNode, nestedNodes, branchNodes_maskArgs, List.mem_cons] at hm
      rcases hm with rfl | hm
      · simp only [Node.units, List.mem_map, List.mem_append, List.mem_range]
        rintro u (⟨o, ho, rfl⟩ | ⟨j, hj, rfl⟩)
        · refine ⟨o, by simp, hN o ?_⟩
          exact (S.alive_iff o).1 (mem_mask_map ho).2
        · obtain ⟨k, h1, h2, h3⟩ := mask_get _ _ j _ (List.getElem?_eq_getElem hj)
          rw [List.getElem?_tail] at h1
          obtain ⟨r, hr, a, ha, hao⟩ := argMask_branch subs _ _ h1
          obtain ⟨r', hr', hra⟩ := ports_maskArgs
            (true :: (argMask S (ins.length + 1) subs).tail) S (outs.map S.alive) subs r hr
          refine ⟨a, ?_, hN a hao⟩
          rw [List.mem_filterMap]
          refine ⟨r', hr', ?_⟩
          rw [hra]
          cases h : r.1 with
          | nil => simp [h] at ha
          | cons z zs =>
            rw [h] at ha
            simp only [mask, List.getElem?_cons_succ]
            exact h3 zs a (by simpa using ha)
      · exact ih m hm
  | .theta ins outs args pred posts sub, avail, hwf, hn, hc, ha, hj, ht => by
      have hwf0 := hwf
      simp only [wfNode, Bool.and_eq_true, beq_iff_eq] at hwf
      obtain ⟨⟨⟨⟨⟨h0, h1⟩, h2⟩, h3⟩, h4⟩, h5⟩ := hwf
      have hnn : ((defsNode (.theta ins outs args pred posts sub)).map (·.1)).Nodup := by
        rw [defsNode_names _ avail hwf0]
        exact hn
      simp only [namesNode] at hn
      simp only [defsNode] at hj hnn
      have ih := sweepNodes_units (P := P) hN hdep sub args h4 (List.nodup_append.1 hn).2.1
        (fun p hp => hc p (by simp [defsNode, hp]))
        (hj.right ((keysOk_others (by
          simp only [List.mem_map]
          rintro p ⟨q, _, rfl⟩
          exact ⟨_, rfl⟩)).append (keysOk_others (by
          simp only [List.mem_map]
          rintro p ⟨q, _, rfl⟩
          exact ⟨_, rfl⟩))) hnn)
        (fun m hm => ht m (by simp [nestedNodes, hm]))
      intro m hm
      simp only [sweepNode, nestedNodes, List.mem_cons] at hm
      rcases hm with rfl | hm
      · simp only [Node.units, List.mem_map]
        rintro u ⟨o, ho, rfl⟩
        refine ⟨o, by simp, ?_⟩
        have hz := mem_mask_zip _ _ _ ho
        obtain ⟨k, hk, hxk⟩ := List.getElem_of_mem hz
        simp only [List.length_zip, List.length_zipWith] at hk
        simp only [List.getElem_zip, List.getElem_zipWith, Prod.mk.injEq, Bool.or_eq_true,
          Marks.alive_iff] at hxk
        rcases hxk.2 with h | h
        · refine hdep (.theta ins outs args pred posts sub) _ o (hN _ h)
            (.thetaPre (k := k) (by simp [show k < args.length by omega]) ?_)
            (ht _ (by simp))
          rw [← hxk.1]
          simp [show k < outs.length by omega]
        · exact hxk.1 ▸ hN _ h
      · exact ih m hm
  | .lambda ins args params results out sub, avail, hwf, hn, hc, ha, hj, ht => by
      have hwf0 := hwf
      simp only [wfNode, Bool.and_eq_true, beq_iff_eq] at hwf
      obtain ⟨⟨⟨h0, h1⟩, h2⟩, h5⟩ := hwf
      have hnn : ((defsNode (.lambda ins args params results out sub)).map (·.1)).Nodup := by
        rw [defsNode_names _ avail hwf0]
        exact hn
      simp only [namesNode] at hn
      simp only [defsNode] at hj hnn
      have ih := sweepNodes_units (P := P) hN hdep sub _ h2 (List.nodup_append.1 hn).2.1
        (fun p hp => hc p (by simp [defsNode, hp]))
        (hj.right ((keysOk_others (by
          simp only [List.mem_map, List.mem_cons]
          rintro p (rfl | ⟨q, _, rfl⟩)
          · exact ⟨_, rfl⟩
          · exact ⟨_, rfl⟩)).append (keysOk_others (by
          simp only [List.mem_map]
          rintro p ⟨q, _, rfl⟩
          exact ⟨_, rfl⟩))) hnn)
        (fun m hm => ht m (by simp [nestedNodes, hm]))
      intro m hm
      simp only [sweepNode, nestedNodes, List.mem_cons] at hm
      rcases hm with rfl | hm
      · simp only [Marks.aliveNode, Node.outs, List.any_cons, List.any_nil, Bool.or_false,
          Marks.alive_iff] at ha
        simp only [Node.units, List.mem_cons, List.mem_map]
        rintro u (rfl | ⟨a, hma, rfl⟩)
        · exact ⟨out, by simp, hN _ ha⟩
        · obtain ⟨haa, hu⟩ := mem_mask_map hma
          obtain ⟨u1, u2⟩ := sweepNodes_uses (S := S) (P := P) sub (params ++ args) h2
            (List.nodup_append.1 hn).2.1 (fun p hp => hc p (by simp [defsNode, hp]))
          have ho := hc (out, .other results) (by simp [defsNode])
          have hPa : P a := by
            rw [used_iff] at hu
            rcases hu with hu | hu
            · exact u1 a hu
            · obtain ⟨r, hr, rfl⟩ := List.mem_map.1 hu
              exact u2 r (ho.2 (ho.1.2 ha) r hr)
          obtain ⟨x, haz⟩ := zip_fst_mem (ys := ins) (by omega) a haa
          have hd := hc (a, .other [x]) (by
            simp only [defsNode, List.mem_append, List.mem_map, List.mem_cons]
            exact .inl (.inr ⟨(a, x), haz, rfl⟩))
          exact ⟨a, by simp, hN a (hd.1.1 hPa)⟩
      · exact ih m hm
  | .phi ins args recs results outs sub, avail, hwf, hn, hc, ha, hj, ht => by
      have hwf0 := hwf
      simp only [wfNode, Bool.and_eq_true, beq_iff_eq] at hwf
      obtain ⟨⟨⟨⟨⟨h0, h1⟩, h2⟩, h3⟩, h4⟩, h5⟩ := hwf
      have hnn : ((defsNode (.phi ins args recs results outs sub)).map (·.1)).Nodup := by
        rw [defsNode_names _ avail hwf0]
        exact hn
      simp only [namesNode] at hn
      simp only [defsNode] at hj hnn
      have ih := sweepNodes_units (P := P) hN hdep sub _ h4 (List.nodup_append.1 hn).2.1
        (fun p hp => hc p (by simp [defsNode, hp]))
        (hj.right (((keysOk_others (by
          simp only [List.mem_map]
          rintro p ⟨q, _, rfl⟩
          exact ⟨_, rfl⟩)).append (keysOk_others (by
          simp only [List.mem_map]
          rintro p ⟨q, _, rfl⟩
          exact ⟨_, rfl⟩))).append (keysOk_others (by
          simp only [List.mem_map]
          rintro p ⟨q, _, rfl⟩
          exact ⟨_, rfl⟩))) hnn)
        (fun m hm => ht m (by simp [nestedNodes, hm]))
      intro m hm
      simp only [sweepNode, nestedNodes, List.mem_cons] at hm
      rcases hm with rfl | hm
      · simp only [Node.units, List.mem_map, List.mem_append]
        rintro u (⟨q, hq, rfl⟩ | ⟨a, hma, rfl⟩)
        · rw [mask_zip] at hq
          have hz := mem_mask_zip _ _ _ hq
          obtain ⟨k, hk, hxk⟩ := List.getElem_of_mem hz
          simp only [List.length_zip, List.length_zipWith] at hk
          simp only [List.getElem_zip, List.getElem_zipWith, Prod.mk.injEq, Bool.or_eq_true,
            Marks.alive_iff] at hxk
          rcases hxk.2 with h | h
          · exact ⟨q.1, by simp, by rw [← hxk.1]; exact hN _ h⟩
          · exact ⟨q.2, by simp, by rw [← hxk.1]; exact hN _ h⟩
        · obtain ⟨haa, hu⟩ := mem_mask_map hma
          obtain ⟨u1, u2⟩ := sweepNodes_uses (S := S) (P := P) sub (recs ++ args) h4
            (List.nodup_append.1 hn).2.1 (fun p hp => hc p (by simp [defsNode, hp]))
          obtain ⟨x, haz⟩ := zip_fst_mem (ys := ins) (by omega) a haa
          have hd := hc (a, .other [x]) (by
            simp only [defsNode, List.mem_append, List.mem_map, List.mem_cons]
            exact .inl (.inr ⟨(a, x), haz, rfl⟩))
          refine ⟨a, by simp, hN a (hd.1.1 ?_)⟩
          rw [used_iff] at hu
          rcases hu with hu | hu
          · exact u1 a hu
          · obtain ⟨r, hr, hra⟩ := List.mem_map.1 hu
            rcases divertMasked_mem _ _ _ _ hr with hr | hr
            · rw [← hra]
              exact u2 r (fix_alive hc h2 h3 _ (mem_mask_zip _ _ _ hr) rfl)
            · exfalso
              have hn1 := (List.nodup_append.1 hn).2.2
              have hrs : r ∉ sub.outs := fun hc' =>
                hn1 r (by simp [hr]) r (Nodes_outs_subset_names sub r hc') rfl
              rw [sweepNodes_fix S sub r hrs] at hra
              have hn2 := (List.nodup_append.1 (List.nodup_append.1 hn).1).2.2
              exact hn2 r (by simp [hr]) a haa hra
      · exact ih m hm
  | .delta ins args result out sub, avail, hwf, hn, hc, ha, hj, ht => by
      have hwf0 := hwf
      simp only [wfNode, Bool.and_eq_true, beq_iff_eq] at hwf
      obtain ⟨⟨⟨⟨h0, h1⟩, h2⟩, h5⟩, h6⟩ := hwf
      have hnn : ((defsNode (.delta ins args result out sub)).map (·.1)).Nodup := by
        rw [defsNode_names _ avail hwf0]
        exact hn
      simp only [defsNode] at hj hnn
      simp only [Marks.aliveNode, Node.outs, List.any_cons, List.any_nil, Bool.or_false,
          Marks.alive_iff] at ha
      have ho := hc (out, .other [result]) (by simp [defsNode])
      have ih := prune_units (S := S) (P := P) (N := N) sub [result] h6
        (fun p hp => hc p (by simp [defsNode, hp])) (fun r hr => ho.2 (ho.1.2 ha) r hr)
        (by
          rw [List.map_append] at hnn
          exact (List.nodup_append.1 hnn).2.1)
        (hj.right (keysOk_others (by
          simp only [List.mem_map, List.mem_cons]
          rintro p (rfl | ⟨q, _, rfl⟩)
          · exact ⟨_, rfl⟩
          · exact ⟨_, rfl⟩)) hnn)
      intro m hm
      simp only [sweepNode, nestedNodes, List.mem_cons] at hm
      rcases hm with rfl | hm
      · simp only [Node.units, List.mem_cons, List.mem_map]
        rintro u (rfl | ⟨a, hma, rfl⟩)
        · exact ⟨out, by simp, hN _ ha⟩
        · obtain ⟨haa, hu⟩ := mem_mask_map hma
          have hPr : ∀ r ∈ [result], P r := fun r hr => ho.2 (ho.1.2 ha) r hr
          have hpu := prune_uses (S := S) (P := P) sub args [result] h6
            (fun p hp => hc p (by simp [defsNode, hp])) hPr
          obtain ⟨x, haz⟩ := zip_fst_mem (ys := ins) (by omega) a haa
          have hd := hc (a, .other [x]) (by
            simp only [defsNode, List.mem_append, List.mem_map, List.mem_cons]
            exact .inl (.inr ⟨(a, x), haz, rfl⟩))
          refine ⟨a, by simp, hN a (hd.1.1 ?_)⟩
          rw [used_iff] at hu
          rcases hu with hu | hu
          · exact hpu a hu
          · exact hPr a hu
      · exact ih m hm

theorem sweepNodes_units {S : Marks} {P N : Out → Prop} {top : Nodes}
    (hN : ∀ o ∈ S.outs, N o)
    (hdep : ∀ m o x, N o → DependsOn m o x → m ∈ nodesIn top → N x) :
    ∀ (ns : Nodes) (avail : List Out), wfNodes avail ns = true → (namesNodes ns).Nodup →
    (∀ p ∈ defsNodes ns, Coh S P p) → JustIn S N (defsNodes ns) →
    (∀ m ∈ nodesIn ns, m ∈ nodesIn top) →
    UnitsOk N (nodesIn (sweepNodes S ns).1)
  | .nil, avail, hwf, hn, hc, hj, ht => by simp [sweepNodes, nodesIn, UnitsOk]
  | .cons n ns, avail, hwf, hn, hc, hj, ht => by
      have hnn : ((defsNodes (.cons n ns)).map (·.1)).Nodup := by
        rw [defsNodes_names _ avail hwf]
        exact hn
      simp only [wfNodes, Bool.and_eq_true] at hwf
      simp only [namesNodes] at hn
      simp only [defsNodes] at hj hnn
      have hn' := List.nodup_append.1 hn
      have ih := sweepNodes_units (P := P) hN hdep ns _ hwf.2 hn'.2.1
        (fun p hp => hc p (by simp [defsNodes, hp])) (hj.right (defsNode_keys n) hnn)
        (fun m hm => ht m (by simp [nodesIn, hm]))
      simp only [sweepNodes]
      by_cases ha : S.aliveNode n = true
      · rw [if_pos ha]
        have h1 := sweepNode_units (P := P) hN hdep n avail hwf.1 hn'.1
          (fun p hp => hc p (by simp [defsNodes, hp])) ha (hj.left (defsNodes_keys ns) hnn)
          (fun m hm => ht m (by
            simp only [nodesIn, List.mem_cons, List.mem_append] at hm ⊢
            tauto))
        have := h1.append ih
        simpa [nodesIn] using this
      · rw [if_neg ha]
        cases n with
        | simple op ins outs =>
          simp only [removeNode]
          split
          · exact nodesIn_divert_units _ _ ih
          · exact ih
        | _ => exact ih

theorem sweepRegions_units {S : Marks} {P N : Out → Prop} {top : Nodes}
    (hN : ∀ o ∈ S.outs, N o)
    (hdep : ∀ m o x, N o → DependsOn m o x → m ∈ nodesIn top → N x) :
    ∀ (subs : Regions) (ins : List Out) (nr : Nat) (ko : List Bool),
    wfRegions ins.length nr subs = true → (namesRegions subs).Nodup →
    (∀ p ∈ defsRegions ins subs, Coh S P p) → JustIn S N (defsRegions ins subs) →
    (∀ m ∈ branchNodes subs, m ∈ nodesIn top) →
    UnitsOk N (branchNodes (sweepRegions S ko subs))
  | .nil, ins, nr, ko, hwf, hn, hc, hj, ht => by simp [sweepRegions, branchNodes, UnitsOk]
  | .cons args results sub rest, ins, nr, ko, hwf, hn, hc, hj, ht => by
      have hnn : ((defsRegions ins (.cons args results sub rest)).map (·.1)).Nodup := by
        rw [defsRegions_names _ ins nr hwf]
        exact hn
      simp only [wfRegions, Bool.and_eq_true, beq_iff_eq] at hwf
      obtain ⟨⟨⟨⟨h1, h2⟩, h3⟩, h4⟩, h5⟩ := hwf
      simp only [namesRegions] at hn
      have hn1 := List.nodup_append.1 (List.nodup_append.1 hn).1
      simp only [defsRegions] at hj hnn
      have hka : KeysOk ((args.zip ins).map fun p => (p.1, Def.other [p.2])) := keysOk_others (by
        simp only [List.mem_map]
        rintro p ⟨q, _, rfl⟩
        exact ⟨_, rfl⟩)
      have hnl := hnn
      rw [List.map_append] at hnl
      simp only [sweepRegions, branchNodes]
      refine UnitsOk.append ?_ ?_
      · exact sweepNodes_units (P := P) hN hdep sub args h3 hn1.2.1
          (fun p hp => hc p (by simp [defsRegions, hp]))
          ((hj.left (defsRegions_keys rest ins) hnn).right hka (List.nodup_append.1 hnl).1)
          (fun m hm => ht m (by simp [branchNodes, hm]))
      · exact sweepRegions_units (P := P) hN hdep rest ins nr ko h5 (List.nodup_append.1 hn).2.1
          (fun p hp => hc p (by simp [defsRegions, hp]))
          (hj.right (hka.append (defsNodes_keys sub)) hnn)
          (fun m hm => ht m (by simp [branchNodes, hm]))

end

end Jlm.Opt.Dne
