import Verif.Opt.TreeLemmas

/-! # The sweep phase of dead node elimination preserves the meaning of what is alive -/

set_option linter.unusedSimpArgs false
set_option linter.unusedVariables false

namespace Jlm.Opt.Dne

variable {V : Type}

/-- `P` is the set of outputs that the marks `S` consider alive, and everything that an alive
output depends on is alive. -/
def Coh (S : Marks) (P : Out → Prop) (p : Out × Def) : Prop :=
  match p.2 with
  | .node key ins => (P p.1 ↔ key ∈ S.nodes) ∧ (key ∈ S.nodes → ∀ i ∈ ins, P i)
  | .loadState key origin => (P p.1 ↔ key ∈ S.nodes ∨ p.1 ∈ S.outs) ∧ (P p.1 → P origin)
  | .other deps => (P p.1 ↔ p.1 ∈ S.outs) ∧ (P p.1 → ∀ d ∈ deps, P d)

theorem Marks.alive_iff (S : Marks) (o : Out) : S.alive o = true ↔ o ∈ S.outs := by
  simp [Marks.alive]

theorem subset_iff (xs ys : List Out) : subset xs ys = true ↔ ∀ x ∈ xs, x ∈ ys := by
  simp [subset]

/-! ## outputs only disappear -/

theorem mem_mask {α : Type} {bs : List Bool} {xs : List α} {x : α} (h : x ∈ mask bs xs) : x ∈ xs :=
  (mask_sublist bs xs).subset h

theorem sweepNode_outs (S : Marks) (n : Node) : ∀ o ∈ (sweepNode S n).outs, o ∈ n.outs := by
  cases n <;> simp only [sweepNode, Node.outs] <;> intro o ho <;>
    first
    | exact ho
    | exact mem_mask ho

theorem sweepNodes_outs (S : Marks) : ∀ (ns : Nodes), ∀ o ∈ (sweepNodes S ns).1.outs, o ∈ ns.outs
  | .nil => by simp [sweepNodes]
  | .cons n ns => by
      intro o ho
      have ih := sweepNodes_outs S ns
      simp only [sweepNodes] at ho
      split at ho
      · simp only [Nodes.outs, List.mem_append] at ho ⊢
        rcases ho with h | h
        · exact .inl (sweepNode_outs S n o h)
        · exact .inr (ih o h)
      · simp only [removeNode] at ho
        simp only [Nodes.outs, List.mem_append]
        refine .inr (ih o ?_)
        split at ho
        · split at ho
          · simpa [Nodes.divert_outs] using ho
          · exact ho
        · exact ho

/-! ## dead nodes -/

/-- All cases of `removeNode` that only drop the node. -/
def isLoadNode : Node → Bool
  | .simple op _ _ => op.kind = .load
  | _ => false

theorem removeNode_other (n : Node) (h : isLoadNode n = false) (rest : Nodes × (Out → Out)) :
    removeNode n rest = rest := by
  cases n <;> simp_all [removeNode, isLoadNode]

theorem zip_fst_mem {α β : Type} : ∀ {xs : List α} {ys : List β}, xs.length ≤ ys.length →
    ∀ x ∈ xs, ∃ y, (x, y) ∈ xs.zip ys
  | [], _, _, x, hx => by simp at hx
  | x :: xs, y :: ys, h, z, hz => by
      simp only [List.mem_cons] at hz
      rcases hz with rfl | hz
      · exact ⟨y, by simp⟩
      · obtain ⟨w, hw⟩ := zip_fst_mem (by simpa using h) z hz
        exact ⟨w, by simp [hw]⟩

/-- The outputs of a structural node are marked individually. -/
theorem outs_def {avail : List Out} {n : Node} (hwf : wfNode avail n = true)
    (hs : ∀ op ins outs, n ≠ .simple op ins outs) :
    ∀ o ∈ n.outs, ∃ deps, (o, Def.other deps) ∈ defsNode n := by
  intro o ho
  cases n with
  | simple op ins outs => exact absurd rfl (hs op ins outs)
  | gamma pred ins outs subs =>
    simp only [Node.outs] at ho
    obtain ⟨k, hk, rfl⟩ := List.getElem_of_mem ho
    refine ⟨pred :: Regions.resultsAt k subs, ?_⟩
    simp only [defsNode, List.mem_append, List.mem_map]
    refine .inl ⟨(outs[k], k), ?_, rfl⟩
    simp [List.mem_zipIdx_iff_getElem?, hk]
  | theta ins outs args pred posts sub =>
    simp only [wfNode, Bool.and_eq_true, beq_iff_eq] at hwf
    obtain ⟨⟨⟨⟨⟨_, h1⟩, h2⟩, h3⟩, _⟩, _⟩ := hwf
    obtain ⟨y, hy⟩ := zip_fst_mem (ys := posts.zip ins) (by simp [h1, h3, Node.outs]) o ho
    exact ⟨_, by simp only [defsNode, List.mem_append, List.mem_map]; exact .inl (.inl ⟨_, hy, rfl⟩)⟩
  | lambda ins args params results out sub =>
    simp only [Node.outs, List.mem_singleton] at ho
    exact ⟨results, by simp [defsNode, ho]⟩
  | phi ins args recs results outs sub =>
    simp only [wfNode, Bool.and_eq_true, beq_iff_eq] at hwf
    obtain ⟨⟨⟨⟨⟨_, h1⟩, h2⟩, h3⟩, _⟩, _⟩ := hwf
    obtain ⟨y, hy⟩ := zip_fst_mem (ys := results) (by simp [h3, Node.outs]) o ho
    exact ⟨_, by
      simp only [defsNode, List.mem_append, List.mem_map]
      exact .inl (.inl (.inl ⟨_, hy, rfl⟩))⟩
  | delta ins args result out sub =>
    simp only [Node.outs, List.mem_singleton] at ho
    exact ⟨[result], by simp [defsNode, ho]⟩

/-- No output of a dead node that is not a load is alive. -/
theorem dead_outs {S : Marks} {P : Out → Prop} {avail : List Out} {n : Node}
    (hwf : wfNode avail n = true) (hc : ∀ p ∈ defsNode n, Coh S P p)
    (hl : isLoadNode n = false) (hd : S.aliveNode n = false) : ∀ o ∈ n.outs, ¬ P o := by
  intro o ho hP
  by_cases hs : ∃ op ins outs, n = .simple op ins outs
  · obtain ⟨op, ins, outs, rfl⟩ := hs
    simp only [isLoadNode, decide_eq_false_iff_not] at hl
    simp only [Node.outs] at ho
    have := hc (o, .node (outs.headD 0) ins) (by simp [defsNode, hl, simpleDefs, ho])
    simp only [Coh] at this
    have hk := this.1.1 hP
    cases outs with
    | nil => simp at ho
    | cons k os =>
      simp only [Marks.aliveNode, List.head?_cons, Option.any_some, List.headD_cons] at hd hk
      simp [hk] at hd
  · have hs' : ∀ op ins outs, n ≠ .simple op ins outs := fun a b c h => hs ⟨a, b, c, h⟩
    obtain ⟨deps, hdep⟩ := outs_def hwf hs' o ho
    have := hc _ hdep
    simp only [Coh] at this
    have hk := this.1.1 hP
    have : S.aliveNode n = true := by
      cases n with
      | simple op ins outs => exact absurd rfl (hs' op ins outs)
      | _ =>
        simp only [Marks.aliveNode, List.any_eq_true]
        exact ⟨o, ho, (S.alive_iff o).2 hk⟩
    simp [this] at hd

/-! ## loads -/

theorem lookup_mem {α β : Type} [BEq α] [LawfulBEq α] : ∀ {l : List (α × β)} {a : α} {b : β},
    l.lookup a = some b → (a, b) ∈ l
  | [], a, b, h => by simp at h
  | (c, d) :: l, a, b, h => by
      rw [List.lookup_cons] at h
      by_cases hac : a == c
      · simp only [hac] at h
        have : a = c := by simpa using hac
        simp_all
      · simp only [Bool.not_eq_true] at hac
        simp only [hac] at h
        exact List.mem_cons_of_mem _ (lookup_mem h)

theorem lookup_none {α β : Type} [BEq α] [LawfulBEq α] : ∀ {l : List (α × β)} {a : α},
    a ∉ l.map (·.1) → l.lookup a = none
  | [], a, _ => by simp
  | (c, d) :: l, a, h => by
      simp only [List.map_cons, List.mem_cons, not_or] at h
      rw [List.lookup_cons]
      have : (a == c) = false := by simpa using h.1
      simp only [this]
      exact lookup_none h.2

theorem loadDivert_cases (i0 : Out) (is : List Out) (o0 : Out) (os : List Out) (x : Out) :
    (loadDivert (i0 :: is) (o0 :: os) x = x ∧ (os.zip is).lookup x = none) ∨
      ∃ i, (x, i) ∈ os.zip is ∧ loadDivert (i0 :: is) (o0 :: os) x = i := by
  simp only [loadDivert, List.tail_cons]
  cases h : (os.zip is).lookup x with
  | none => exact .inl ⟨rfl, rfl⟩
  | some i => exact .inr ⟨i, lookup_mem h, rfl⟩

theorem upd_lookup (env e' : Env V) (h : ∀ x, e' x = env x) : ∀ (os is : List Out) (x : Out),
    os.length = is.length →
    upd e' os (is.map env) x = env (((os.zip is).lookup x).getD x)
  | [], _, x, _ => by simpa [upd] using h x
  | o :: os, i :: is, x, hl => by
      simp only [upd, List.map_cons, List.headD_cons, List.tail_cons, List.zip_cons_cons,
        List.lookup_cons]
      by_cases hx : x = o
      · simp [hx]
      · simp only [if_neg hx]
        have : (x == o) = false := by simpa using hx
        rw [this]
        exact upd_lookup env e' h os is x (by simpa using hl)

/-- Shape of a well-formed load. -/
theorem load_shape {avail : List Out} {op : Op} {ins outs : List Out} (hk : op.kind = .load)
    (hwf : wfNode avail (.simple op ins outs) = true) :
    ∃ i is o os, ins = i :: is ∧ outs = o :: os ∧ os.length = is.length ∧ ∀ x ∈ ins, x ∈ avail := by
  simp only [wfNode, Bool.and_eq_true, subset_iff, hk] at hwf
  obtain ⟨h1, h2⟩ := hwf
  simp only [bne_self_eq_false, Bool.false_or, Bool.and_eq_true, beq_iff_eq, bne_iff_ne] at h2
  obtain ⟨h2, h3⟩ := h2
  cases ins with
  | nil => simp at h3
  | cons i is =>
    cases outs with
    | nil => simp at h2
    | cons o os => exact ⟨i, is, o, os, rfl, rfl, by simpa using h2.symm, h1⟩

/-- A dead load: its value is not needed, and its needed states lead to needed states. -/
theorem dead_load {S : Marks} {P : Out → Prop} {op : Op} {i o : Out} {is os : List Out}
    (hk : op.kind = .load) (hc : ∀ p ∈ defsNode (.simple op (i :: is) (o :: os)), Coh S P p)
    (hd : S.aliveNode (.simple op (i :: is) (o :: os)) = false) :
    ¬ P o ∧ ∀ p ∈ os.zip is, P p.1 → P p.2 := by
  simp only [Marks.aliveNode, List.head?_cons, Option.any_some] at hd
  have hd' : o ∉ S.nodes := by simpa using hd
  refine ⟨fun hP => ?_, fun p hp hP => ?_⟩
  · have := hc (o, .node o (i :: is)) (by simp [defsNode, hk, loadDefs])
    exact hd' (this.1.1 hP)
  · have := hc (p.1, .loadState o p.2) (by
      simp only [defsNode, hk, if_true, loadDefs, List.mem_cons, List.mem_map]
      exact .inr ⟨p, hp, rfl⟩)
    exact this.2 hP

theorem loadDivert_alive {P : Out → Prop} {i o : Out} {is os : List Out}
    (h : ∀ p ∈ os.zip is, P p.1 → P p.2) (x : Out) (hx : P x) :
    P (loadDivert (i :: is) (o :: os) x) := by
  rcases loadDivert_cases i is o os x with ⟨h', _⟩ | ⟨j, hj, h'⟩
  · rw [h']; exact hx
  · rw [h']; exact h _ hj hx

/-! ## what is used after the sweep is alive -/

theorem divertMasked_mem : ∀ (bs : List Bool) (xs ys : List Out) (z : Out),
    z ∈ divertMasked bs xs ys → z ∈ mask bs xs ∨ z ∈ ys
  | [], _, _, z, h => by simp [divertMasked] at h
  | b :: bs, [], _, z, h => by simp [divertMasked] at h
  | b :: bs, x :: xs, [], z, h => by simp [divertMasked] at h
  | b :: bs, x :: xs, y :: ys, z, h => by
      simp only [divertMasked, List.mem_cons] at h
      rcases h with rfl | h
      · cases b
        · simp
        · simp [mask]
      · rcases divertMasked_mem bs xs ys z h with h | h
        · cases b
          · simp [mask, h]
          · simp [mask, h]
        · simp [h]

theorem mask_divertMasked : ∀ (bs : List Bool) (xs ys : List Out), xs.length = ys.length →
    mask bs (divertMasked bs xs ys) = mask bs xs
  | [], _, _, _ => by simp [mask]
  | b :: bs, [], _, _ => by simp [divertMasked, mask_nil]
  | true :: bs, x :: xs, y :: ys, h => by
      simp [divertMasked, mask, mask_divertMasked bs xs ys (by simpa using h)]
  | false :: bs, x :: xs, y :: ys, h => by
      simp [divertMasked, mask, mask_divertMasked bs xs ys (by simpa using h)]

theorem used_iff (ns : Nodes) (rs : List Out) (o : Out) :
    used ns rs o = true ↔ o ∈ ns.ins ∨ o ∈ rs := by simp [used]

/-- An input kept because the corresponding argument satisfies `f`. -/
theorem mask_zip_mem {f : Out → Bool} : ∀ (args ins : List Out) (x : Out),
    x ∈ mask (args.map f) ins → ∃ a, (a, x) ∈ args.zip ins ∧ f a = true
  | [], ins, x, h => by simp [mask] at h
  | a :: args, [], x, h => by simp [mask_nil] at h
  | a :: args, i :: ins, x, h => by
      by_cases hf : f a = true
      · simp only [List.map_cons, hf, mask, List.mem_cons] at h
        rcases h with rfl | h
        · exact ⟨a, by simp, hf⟩
        · obtain ⟨b, hb, hb'⟩ := mask_zip_mem args ins x h
          exact ⟨b, by simp [hb], hb'⟩
      · simp only [Bool.not_eq_true] at hf
        simp only [List.map_cons, hf, mask] at h
        obtain ⟨b, hb, hb'⟩ := mask_zip_mem args ins x h
        exact ⟨b, by simp [hb], hb'⟩

/-- Uses of a pruned list of plain nodes are alive. -/
theorem prune_uses {S : Marks} {P : Out → Prop} : ∀ (ns : Nodes) (avail rs : List Out),
    ns.allPlain = true → (∀ p ∈ defsNodes ns, Coh S P p) → (∀ r ∈ rs, P r) →
    ∀ x ∈ (prune ns rs).ins, P x
  | .nil, _, _, _, _, _, x, hx => by simp [prune, Nodes.ins] at hx
  | .cons n ns, avail, rs, hp, hc, hr, x, hx => by
      cases n with
      | simple op ins outs =>
        simp only [Nodes.allPlain, Bool.and_eq_true, bne_iff_ne] at hp
        simp only [defsNodes, List.mem_append] at hc
        have ih := prune_uses ns avail rs hp.2 (fun p hp => hc p (.inr hp)) hr
        simp only [prune] at hx
        split at hx
        case isTrue hu =>
          simp only [Nodes.ins, List.mem_append, Node.ins] at hx
          rcases hx with hx | hx
          · simp only [Node.outs, List.any_eq_true, used_iff] at hu
            obtain ⟨o, ho, hu⟩ := hu
            have hPo : P o := by
              rcases hu with hu | hu
              · exact ih o hu
              · exact hr o hu
            have := hc (o, .node (outs.headD 0) ins)
              (.inl (by simp [defsNode, hp.1, simpleDefs, ho]))
            exact this.2 (this.1.1 hPo) x hx
          · exact ih x hx
        case isFalse hu => exact ih x hx
      | _ => simp [Nodes.allPlain] at hp

/-- If a bit of the mask is set, the corresponding input of the gamma is alive. -/
theorem argMask_alive {S : Marks} {P : Out → Prop} : ∀ (subs : Regions) (n : Nat) (ins : List Out)
    (k : Nat) (hk : k < (argMask S n subs).length), (argMask S n subs)[k] = true →
    (hi : k < ins.length) → (∀ p ∈ defsRegions ins subs, Coh S P p) → P ins[k]
  | .nil, n, ins, k, hk, hb, hi, hc => by simp [argMask] at hb
  | .cons args results sub rest, n, ins, k, hk, hb, hi, hc => by
      simp only [argMask, List.length_zipWith, List.length_map] at hk
      simp only [argMask, List.getElem_zipWith, List.getElem_map, Bool.or_eq_true,
        Marks.alive_iff] at hb
      have hka : k < args.length := by omega
      rcases hb with hb | hb
      · have := hc (args[k], .other [ins[k]]) (by
          simp only [defsRegions, List.mem_append, List.mem_map]
          refine .inl (.inl ⟨(args[k], ins[k]), ?_, rfl⟩)
          exact List.mem_iff_getElem.2 ⟨k, by simp; omega, by simp⟩)
        exact this.2 (this.1.2 hb) _ (by simp)
      · exact argMask_alive rest n ins k (by omega) hb hi
          (fun p hp => hc p (by simp [defsRegions, hp]))

theorem outs_subset_names (n : Node) : ∀ o ∈ n.outs, o ∈ namesNode n := by
  cases n <;> simp +contextual [Node.outs, namesNode]

theorem Nodes_outs_subset_names : ∀ (ns : Nodes), ∀ o ∈ ns.outs, o ∈ namesNodes ns
  | .nil => by simp [Nodes.outs]
  | .cons n ns => by
      intro o ho
      simp only [Nodes.outs, List.mem_append] at ho
      simp only [namesNodes, List.mem_append]
      rcases ho with h | h
      · exact .inl (outs_subset_names n o h)
      · exact .inr (Nodes_outs_subset_names ns o h)

/-- Results that are not outputs of nodes of the region stay where they are. -/
theorem sweepNodes_fix (S : Marks) : ∀ (ns : Nodes) (x : Out), x ∉ ns.outs →
    (sweepNodes S ns).2 x = x
  | .nil, x, _ => by simp [sweepNodes]
  | .cons n ns, x, hx => by
      simp only [Nodes.outs, List.mem_append, not_or] at hx
      have ih := sweepNodes_fix S ns x hx.2
      simp only [sweepNodes]
      split
      · exact ih
      · cases n with
        | simple op ins outs =>
          simp only [removeNode]
          split
          · simp only [ih, loadDivert]
            rw [lookup_none]
            · rfl
            · intro hc
              simp only [List.mem_map, Prod.exists] at hc
              obtain ⟨a, b, hab, rfl⟩ := hc
              exact hx.1 (List.mem_of_mem_tail (List.of_mem_zip hab).1)
          · exact ih
        | _ => simpa [removeNode] using ih

/-- A kept fix variable has an alive result. -/
theorem fix_alive {S : Marks} {P : Out → Prop} {ins args recs results outs : List Out} {sub : Nodes}
    (hc : ∀ p ∈ defsNode (.phi ins args recs results outs sub), Coh S P p)
    (h2 : recs.length = outs.length) (h3 : results.length = outs.length) :
    ∀ p ∈ results.zip (List.zipWith (fun o r => S.alive o || S.alive r) outs recs),
      p.2 = true → P p.1 := by
  intro p hp ht
  obtain ⟨k, hk, rfl⟩ := List.getElem_of_mem hp
  simp only [List.length_zip, List.length_zipWith] at hk
  simp only [List.getElem_zip, List.getElem_zipWith, Bool.or_eq_true, Marks.alive_iff] at ht ⊢
  have hko : k < outs.length := by omega
  have hkr : k < recs.length := by omega
  have hkr' : k < results.length := by omega
  rcases ht with h | h
  · have := hc (outs[k], .other [results[k]]) (by
      simp only [defsNode, List.mem_append, List.mem_map]
      refine .inl (.inl (.inl ⟨(outs[k], results[k]), ?_, rfl⟩))
      exact List.mem_iff_getElem.2 ⟨k, by simp; omega, by simp⟩)
    exact this.2 (this.1.2 h) _ (by simp)
  · have := hc (recs[k], .other [results[k]]) (by
      simp only [defsNode, List.mem_append, List.mem_map]
      refine .inl (.inl (.inr ⟨(recs[k], results[k]), ?_, rfl⟩))
      exact List.mem_iff_getElem.2 ⟨k, by simp; omega, by simp⟩)
    exact this.2 (this.1.2 h) _ (by simp)

mutual

theorem sweepNode_uses {S : Marks} {P : Out → Prop} : ∀ (n : Node) (avail : List Out),
    wfNode avail n = true → (namesNode n).Nodup → (∀ p ∈ defsNode n, Coh S P p) →
    S.aliveNode n = true → ∀ x ∈ (sweepNode S n).ins, P x
  | .simple op ins outs, avail, hwf, hn, hc, ha, x, hx => by
      simp only [sweepNode, Node.ins] at hx
      simp only [Marks.aliveNode] at ha
      cases outs with
      | nil => simp at ha
      | cons o os =>
        simp only [List.head?_cons, Option.any_some] at ha
        have ha' : o ∈ S.nodes := by simpa using ha
        have hd : (o, Def.node o ins) ∈ defsNode (.simple op ins (o :: os)) := by
          simp only [defsNode]
          split
          · cases ins <;> simp [loadDefs]
          · simp [simpleDefs]
        exact (hc _ hd).2 ha' x hx
  | .gamma pred ins outs subs, avail, hwf, hn, hc, ha, x, hx => by
      simp only [sweepNode, Node.ins, List.mem_cons] at hx
      rcases hx with rfl | hx
      · simp only [Marks.aliveNode, List.any_eq_true, Node.outs] at ha
        obtain ⟨o, ho, ha⟩ := ha
        obtain ⟨k, hk, rfl⟩ := List.getElem_of_mem ho
        have hd : (outs[k], Def.other (x :: Regions.resultsAt k subs)) ∈
            defsNode (.gamma x ins outs subs) := by
          simp only [defsNode, List.mem_append, List.mem_map]
          refine .inl ⟨(outs[k], k), ?_, rfl⟩
          simp [List.mem_zipIdx_iff_getElem?, hk]
        have := hc _ hd
        exact this.2 (this.1.2 ((S.alive_iff _).1 ha)) x (by simp)
      · have hz := mem_mask_zip _ _ _ hx
        obtain ⟨k, hk, hxk⟩ := List.getElem_of_mem hz
        simp only [List.length_zip] at hk
        simp only [List.getElem_zip, Prod.mk.injEq] at hxk
        have hk1 : k < ins.length := by omega
        have hk2 : k + 1 < (argMask S (ins.length + 1) subs).length := by
          have := hk; simp at this; omega
        have hb : (argMask S (ins.length + 1) subs)[k + 1] = true := by
          rw [← hxk.2]; simp
        have key := argMask_alive subs (ins.length + 1) (pred :: ins) (k + 1) hk2 hb (by
          simp; omega) (fun p hp => hc p (by simp [defsNode, hp]))
        rw [← hxk.1]
        simpa using key
  | .theta ins outs args pred posts sub, avail, hwf, hn, hc, ha, x, hx => by
      simp only [sweepNode, Node.ins] at hx
      simp only [wfNode, Bool.and_eq_true, beq_iff_eq] at hwf
      obtain ⟨⟨⟨⟨⟨_, h1⟩, h2⟩, h3⟩, _⟩, _⟩ := hwf
      have hz := mem_mask_zip _ _ _ hx
      obtain ⟨k, hk, hxk⟩ := List.getElem_of_mem hz
      simp only [List.length_zip, List.length_zipWith] at hk
      simp only [List.getElem_zip, List.getElem_zipWith, Prod.mk.injEq, Bool.or_eq_true,
        Marks.alive_iff] at hxk
      have hki : k < ins.length := by omega
      have hko : k < outs.length := by omega
      have hka : k < args.length := by omega
      have hkp : k < posts.length := by omega
      have ho := hc (outs[k], .other [pred, posts[k], ins[k]]) (by
        simp only [defsNode, List.mem_append, List.mem_map]
        refine .inl (.inl ⟨(outs[k], posts[k], ins[k]), ?_, rfl⟩)
        exact List.mem_iff_getElem.2 ⟨k, by simp; omega, by simp⟩)
      have haa := hc (args[k], .other [outs[k], ins[k]]) (by
        simp only [defsNode, List.mem_append, List.mem_map]
        refine .inl (.inr ⟨(args[k], outs[k], ins[k]), ?_, rfl⟩)
        exact List.mem_iff_getElem.2 ⟨k, by simp; omega, by simp⟩)
      rw [← hxk.1]
      rcases hxk.2 with h | h
      · exact haa.2 (haa.1.2 h) _ (by simp)
      · exact ho.2 (ho.1.2 h) _ (by simp)
  | .lambda ins args params results out sub, avail, hwf, hn, hc, ha, x, hx => by
      simp only [sweepNode, Node.ins] at hx
      simp only [wfNode, Bool.and_eq_true, beq_iff_eq] at hwf
      obtain ⟨⟨⟨_, h1⟩, h2⟩, _⟩ := hwf
      obtain ⟨a, haz, hu⟩ := mask_zip_mem _ _ _ hx
      obtain ⟨ih1, ih2⟩ := sweepNodes_uses sub (params ++ args) h2
        (by simp only [namesNode] at hn; exact (List.nodup_append.1 hn).2.1)
        (fun p hp => hc p (by simp [defsNode, hp]))
      simp only [Marks.aliveNode, Node.outs, List.any_cons, List.any_nil, Bool.or_false,
        Marks.alive_iff] at ha
      have ho := hc (out, .other results) (by simp [defsNode])
      have hPr : ∀ r ∈ results, P r := fun r hr => ho.2 (ho.1.2 ha) r hr
      have hPa : P a := by
        rw [used_iff] at hu
        rcases hu with hu | hu
        · exact ih1 a hu
        · obtain ⟨r, hr, rfl⟩ := List.mem_map.1 hu
          exact ih2 r (hPr r hr)
      have hd := hc (a, .other [x]) (by
        simp only [defsNode, List.mem_append, List.mem_map, List.mem_cons]
        exact .inl (.inr ⟨(a, x), haz, rfl⟩))
      exact hd.2 hPa x (by simp)
  | .phi ins args recs results outs sub, avail, hwf, hn, hc, ha, x, hx => by
      simp only [sweepNode, Node.ins] at hx
      simp only [wfNode, Bool.and_eq_true, beq_iff_eq] at hwf
      obtain ⟨⟨⟨⟨⟨_, h1⟩, h2⟩, h3⟩, h4⟩, _⟩ := hwf
      obtain ⟨a, haz, hu⟩ := mask_zip_mem _ _ _ hx
      obtain ⟨ih1, ih2⟩ := sweepNodes_uses sub (recs ++ args) h4
        (by simp only [namesNode] at hn; exact (List.nodup_append.1 hn).2.1)
        (fun p hp => hc p (by simp [defsNode, hp]))
      have hd := hc (a, .other [x]) (by
        simp only [defsNode, List.mem_append, List.mem_map, List.mem_cons]
        exact .inl (.inr ⟨(a, x), haz, rfl⟩))
      refine hd.2 ?_ x (by simp)
      rw [used_iff] at hu
      rcases hu with hu | hu
      · exact ih1 a hu
      · obtain ⟨r, hr, hra⟩ := List.mem_map.1 hu
        rcases divertMasked_mem _ _ _ _ hr with hr | hr
        · rw [← hra]
          exact ih2 r (fix_alive hc h2 h3 _ (mem_mask_zip _ _ _ hr) rfl)
        · exfalso
          simp only [namesNode] at hn
          have hn1 := (List.nodup_append.1 hn).2.2
          have hrs : r ∉ sub.outs := fun hc' =>
            hn1 r (by simp [hr]) r (Nodes_outs_subset_names sub r hc') rfl
          rw [sweepNodes_fix S sub r hrs] at hra
          have haa : a ∈ args := (List.of_mem_zip haz).1
          have hn2 := (List.nodup_append.1 (List.nodup_append.1 hn).1).2.2
          exact hn2 r (by simp [hr]) a haa hra
  | .delta ins args result out sub, avail, hwf, hn, hc, ha, x, hx => by
      simp only [sweepNode, Node.ins] at hx
      simp only [wfNode, Bool.and_eq_true, beq_iff_eq] at hwf
      obtain ⟨⟨⟨⟨_, h1⟩, h2⟩, _⟩, h5⟩ := hwf
      obtain ⟨a, haz, hu⟩ := mask_zip_mem _ _ _ hx
      simp only [Marks.aliveNode, Node.outs, List.any_cons, List.any_nil, Bool.or_false,
        Marks.alive_iff] at ha
      have ho := hc (out, .other [result]) (by simp [defsNode])
      have hPr : ∀ r ∈ [result], P r := fun r hr => ho.2 (ho.1.2 ha) r hr
      have hpu := prune_uses sub args [result] h5 (fun p hp => hc p (by simp [defsNode, hp])) hPr
      have hd := hc (a, .other [x]) (by
        simp only [defsNode, List.mem_append, List.mem_map, List.mem_cons]
        exact .inl (.inr ⟨(a, x), haz, rfl⟩))
      refine hd.2 ?_ x (by simp)
      rw [used_iff] at hu
      rcases hu with hu | hu
      · exact hpu a hu
      · exact hPr a hu

theorem sweepNodes_uses {S : Marks} {P : Out → Prop} : ∀ (ns : Nodes) (avail : List Out),
    wfNodes avail ns = true → (namesNodes ns).Nodup → (∀ p ∈ defsNodes ns, Coh S P p) →
    (∀ x ∈ (sweepNodes S ns).1.ins, P x) ∧ ∀ r, P r → P ((sweepNodes S ns).2 r)
  | .nil, avail, hwf, hn, hc => by simp [sweepNodes, Nodes.ins]
  | .cons n ns, avail, hwf, hn, hc => by
      simp only [wfNodes, Bool.and_eq_true] at hwf
      simp only [namesNodes] at hn
      have hn' := List.nodup_append.1 hn
      obtain ⟨ih1, ih2⟩ := sweepNodes_uses ns _ hwf.2 hn'.2.1
        (fun p hp => hc p (by simp [defsNodes, hp]))
      have hcn : ∀ p ∈ defsNode n, Coh S P p := fun p hp => hc p (by simp [defsNodes, hp])
      simp only [sweepNodes]
      by_cases ha : S.aliveNode n = true
      · rw [if_pos ha]
        refine ⟨fun x hx => ?_, ih2⟩
        simp only [Nodes.ins, List.mem_append] at hx
        rcases hx with hx | hx
        · exact sweepNode_uses n avail hwf.1 hn'.1 hcn ha x hx
        · exact ih1 x hx
      · rw [if_neg ha]
        simp only [Bool.not_eq_true] at ha
        by_cases hl : isLoadNode n = true
        · cases n with
          | simple op ins outs =>
            simp only [isLoadNode, decide_eq_true_eq] at hl
            obtain ⟨i, is, o, os, rfl, rfl, hlen, hav⟩ := load_shape hl hwf.1
            obtain ⟨_, hst⟩ := dead_load hl hcn ha
            simp only [removeNode, hl, if_true, Nodes.divert_ins, List.mem_map]
            refine ⟨?_, fun r hr => loadDivert_alive hst _ (ih2 r hr)⟩
            rintro x ⟨y, hy, rfl⟩
            exact loadDivert_alive hst y (ih1 y hy)
          | _ => simp [isLoadNode] at hl
        · simp only [Bool.not_eq_true] at hl
          rw [removeNode_other n hl]
          exact ⟨ih1, ih2⟩

end

end Jlm.Opt.Dne
