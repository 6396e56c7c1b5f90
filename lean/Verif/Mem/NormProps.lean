import Verif.Mem.NormLemmas
/-
C38: the normalizations of memory operations are correct.
-/
set_option linter.unusedSimpArgs false
set_option linter.unusedVariables false
namespace Jlm.Mem

variable {V B : Type} {sem : Sem V B} {s : State V B} {vis : Nat → Prop} {G : Graph} {n : Node}

/-- The result of a normalization in the place of node `n`. -/
def Res.apply (G : Graph) (n : Node) : Res → Graph
  | .becomes new vouts souts => G.replace n.id new vouts souts
  | _ => G

theorem correct_refl (hw : G.Wf) (hr : RaceFree sem s vis G) : Correct sem s vis G G := by
  refine ⟨hw, hr, ?_⟩
  intro l l' hl hl'
  rw [C38_schedules s vis G hw hr l hl, C38_schedules s vis G hw hr l' hl']
  exact ⟨rfl, fun _ _ => rfl⟩

/-! ### Duplicate states -/

theorem firsts_mem (l seen : List SOut) : ∀ o, o ∈ firsts seen l ↔ o ∈ seen ∨ o ∈ l := by
  induction l generalizing seen with
  | nil => simp [firsts]
  | cons a l ih =>
    intro o
    rw [firsts]
    split
    · rename_i h
      rw [ih, List.mem_cons]
      constructor
      · rintro (h1 | h1)
        · exact Or.inl h1
        · exact Or.inr (Or.inr h1)
      · rintro (h1 | rfl | h1)
        · exact Or.inl h1
        · exact Or.inl h
        · exact Or.inr h1
    · rw [ih, List.mem_append, List.mem_singleton, List.mem_cons, or_assoc]

theorem dup_correct (hw : G.Wf) (hr : RaceFree sem s vis G) (hn : n ∈ G.nodes)
    (hop : (∃ t, n.op = .load t) ∨ ∃ t, n.op = .store t) :
    Correct sem s vis G (G.replace n.id [⟨n.id, n.op, n.vals, firsts [] n.states⟩]
      (ownVals n.op n.id) (dupOuts n.id n.states)) := by
  have hm : ∀ o, o ∈ firsts [] n.states ↔ o ∈ n.states := fun o => by
    rw [firsts_mem]; simp
  have hget : ∀ (k : Nat) (o : SOut), n.states[k]? = some o → (dupOuts n.id n.states)[k]? =
      some (SOut.res n.id ((firsts [] n.states).idxOf o)) := by
    intro k o hk
    simp [dupOuts, hk]
  have hstate : ∀ k o, G.usedS o → Flow G.nodes (.res n.id k) o →
      ∃ k', (dupOuts n.id n.states)[k]? = some (.res n.id k') := by
    intro k o hu hf
    have hu1 : G.usedS (.res n.id k) := by
      cases hf with
      | refl => exact hu
      | step hz hk _ _ => exact Or.inr ⟨_, hz, List.mem_of_getElem? hk⟩
    have h1 := hw.states n hn k hu1
    have h2 : k < n.states.length := by
      rcases hop with ⟨t, h⟩ | ⟨t, h⟩ <;> simp only [Node.hasState, h] at h1 <;> exact h1
    exact ⟨_, hget k n.states[k] (by simp [h2])⟩
  refine narrow_correct hw hr hn hop _ _ (fun o ho => (hm o).mp ho) (by simp [dupOuts]) ?_ ?_ ?_ ?_
  · intro k o o' hk hk'
    rw [hget k o hk] at hk'
    simp only [Option.some.injEq] at hk'
    left
    refine ⟨_, hk'.symm, ?_⟩
    have : o ∈ firsts [] n.states := (hm o).mpr (List.mem_of_getElem? hk)
    rw [List.getElem?_eq_getElem (List.idxOf_lt_length_iff.mpr this), List.getElem_idxOf]
  · rintro x hx _ ⟨j, o, ho, hf⟩
    exact ⟨j, o, (hm o).mpr ho, hf⟩
  · rintro y hy _ ⟨k, o, ho, hf⟩
    obtain ⟨k', h⟩ := hstate k o (Or.inr ⟨y, live_mem hy, ho⟩) hf
    exact ⟨k, k', h, o, ho, hf⟩
  · rintro b _ _ ⟨k, o, ho, hf⟩
    obtain ⟨k', h⟩ := hstate k o (Or.inl ho) hf
    exact ⟨k, k', h, o, ho, hf⟩

/-- **Loads: duplicate states.** -/
theorem C38_load_duplicate (hw : G.Wf) (hr : RaceFree sem s vis G) (hn : n ∈ G.nodes) (t : Nat)
    (hop : n.op = .load t) : Correct sem s vis G ((loadDuplicate n t).apply G n) := by
  unfold loadDuplicate
  split
  · exact correct_refl hw hr
  · have := dup_correct (sem := sem) (s := s) (vis := vis) hw hr hn (Or.inl ⟨t, hop⟩)
    rw [hop] at this
    exact this

/-- **Stores: duplicate states.** -/
theorem C38_store_duplicate (hw : G.Wf) (hr : RaceFree sem s vis G) (hn : n ∈ G.nodes) (t : Nat)
    (hop : n.op = .store t) : Correct sem s vis G ((storeDuplicate n t).apply G n) := by
  unfold storeDuplicate
  split
  · exact correct_refl hw hr
  · have := dup_correct (sem := sem) (s := s) (vis := vis) hw hr hn (Or.inr ⟨t, hop⟩)
    rw [hop] at this
    exact this

/-! ### Using fewer states -/

/-- The accesses that conflict with `n`, and the exit of the region if `n` writes something visible,
are ordered with respect to `n` by the states in `keep`. -/
structure OrderedBy (sem : Sem V B) (s : State V B) (vis : Nat → Prop) (G : Graph) (n : Node)
    (keep : SOut → Bool) : Prop where
  into : ∀ x ∈ G.live, Conflict sem (G.final sem s).env x n → Before G.nodes x n →
    ∃ j, ∃ o ∈ n.states, keep o = true ∧ Flow G.nodes (.res x.id j) o
  out : ∀ y ∈ G.live, Conflict sem (G.final sem s).env n y → Before G.nodes n y →
    ∃ k o, n.states[k]? = some o ∧ keep o = true ∧ ∃ o1 ∈ y.states, Flow G.nodes (.res n.id k) o1
  exit : ∀ b, vis b → sem.writes n.op (n.vals.map (G.final sem s).env) b →
    (∃ k, ∃ o ∈ G.sres, Flow G.nodes (.res n.id k) o) →
    ∃ k o, n.states[k]? = some o ∧ keep o = true ∧ ∃ o1 ∈ G.sres, Flow G.nodes (.res n.id k) o1

theorem around_length (keep : SOut → Bool) (i : Nat) (l : List SOut) : ∀ k,
    (around keep i k l).length = l.length := by
  induction l with
  | nil => intro k; rfl
  | cons o l ih =>
    intro k
    rw [around]
    split <;> simp [ih]

theorem around_get (keep : SOut → Bool) (i : Nat) (l : List SOut) : ∀ (k0 k : Nat) (o : SOut),
    l[k]? = some o → ∃ o', (around keep i k0 l)[k]? = some o' ∧
      ((keep o = true ∧ ∃ k', o' = .res i (k0 + k') ∧ (l.filter keep)[k']? = some o) ∨
        (keep o = false ∧ o' = o)) := by
  induction l with
  | nil => intro k0 k o h; simp at h
  | cons a l ih =>
    intro k0 k o h
    rw [around]
    cases k with
    | zero =>
      simp only [List.getElem?_cons_zero, Option.some.injEq] at h
      subst h
      cases hk : keep a with
      | true =>
        exact ⟨.res i k0, by simp, Or.inl ⟨rfl, 0, by simp, by simp [hk]⟩⟩
      | false => exact ⟨a, by simp, Or.inr ⟨rfl, rfl⟩⟩
    | succ k =>
      simp only [List.getElem?_cons_succ] at h
      cases hk : keep a with
      | true =>
        obtain ⟨o', h1, h2⟩ := ih (k0 + 1) k o h
        refine ⟨o', by simpa using h1, ?_⟩
        rcases h2 with ⟨hko, k', h3, h4⟩ | h2
        · refine Or.inl ⟨hko, k' + 1, by rw [h3]; congr 1; omega, ?_⟩
          rw [List.filter_cons, if_pos hk]
          simpa using h4
        · exact Or.inr h2
      | false =>
        obtain ⟨o', h1, h2⟩ := ih k0 k o h
        refine ⟨o', by simpa using h1, ?_⟩
        rw [List.filter_cons, if_neg (by simp [hk])]
        exact h2

theorem around_correct (hw : G.Wf) (hr : RaceFree sem s vis G) (hn : n ∈ G.nodes)
    (hop : (∃ t, n.op = .load t) ∨ ∃ t, n.op = .store t) (keep : SOut → Bool)
    (ho : OrderedBy sem s vis G n keep) :
    Correct sem s vis G (G.replace n.id [⟨n.id, n.op, n.vals, n.states.filter keep⟩]
      (ownVals n.op n.id) (around keep n.id 0 n.states)) := by
  refine narrow_correct hw hr hn hop _ _ (fun o ho => (List.mem_filter.mp ho).1)
    (around_length _ _ _ _) ?_ ?_ ?_ ?_
  · intro k o o' hk hk'
    obtain ⟨o2, h1, h2⟩ := around_get keep n.id n.states 0 k o hk
    rw [h1] at hk'
    simp only [Option.some.injEq] at hk'
    subst hk'
    rcases h2 with ⟨_, k', h3, h4⟩ | ⟨_, h2⟩
    · exact Or.inl ⟨k', by rw [h3]; simp, h4⟩
    · exact Or.inr h2
  · intro x hx hc hb
    obtain ⟨j, o, ho1, ho2, hf⟩ := ho.into x hx hc hb
    exact ⟨j, o, by simp [ho1, ho2], hf⟩
  · intro y hy hc hb
    obtain ⟨k, o, hk, hko, h⟩ := ho.out y hy hc hb
    obtain ⟨o2, h1, h2⟩ := around_get keep n.id n.states 0 k o hk
    rcases h2 with ⟨_, k', h3, h4⟩ | ⟨h2, _⟩
    · exact ⟨k, 0 + k', by rw [h1, h3], h⟩
    · rw [hko] at h2; simp at h2
  · intro b hb hwr hf
    obtain ⟨k, o, hk, hko, h⟩ := ho.exit b hb hwr hf
    obtain ⟨o2, h1, h2⟩ := around_get keep n.id n.states 0 k o hk
    rcases h2 with ⟨_, k', h3, h4⟩ | ⟨h2, _⟩
    · exact ⟨k, 0 + k', by rw [h1, h3], h⟩
    · rw [hko] at h2; simp at h2

theorem alloca_some {v : VOut} {A : Node} (h : G.allocaOf v = some A) :
    A ∈ G.nodes ∧ A.op.isAlloca = true ∧ ∃ k, v = .res A.id k := by
  unfold Graph.allocaOf at h
  rw [Option.filter_eq_some_iff] at h
  obtain ⟨h1, h2⟩ := vowner_some h.1
  exact ⟨h1, h.2, h2⟩

/-- A load without the states of other allocas (in the order of the operands): correct if what
conflicts with the load behind it is ordered by the remaining states. What precedes the load never
comes through the state of an alloca. -/
theorem C38_load_alloca_fixed (hw : G.Wf) (hr : RaceFree sem s vis G) (hn : n ∈ G.nodes) (t : Nat)
    (hop : n.op = .load t)
    (hout : ∀ A y, G.allocaOf (n.vals.headD (.arg 0)) = some A → y ∈ G.live →
      Conflict sem (G.final sem s).env n y → Before G.nodes n y →
      ∃ k o, n.states[k]? = some o ∧ G.ownOr A o = true ∧
        ∃ o1 ∈ y.states, Flow G.nodes (.res n.id k) o1) :
    Correct sem s vis G ((loadAllocaFixed G n t).apply G n) := by
  unfold loadAllocaFixed
  split
  · rename_i address hv
    split
    · rename_i A hA
      simp only
      split
      · exact correct_refl hw hr
      · have ho : OrderedBy sem s vis G n (G.ownOr A) := by
          constructor
          · rintro x hx hc ⟨j, o, ho, hf⟩
            refine ⟨j, o, ho, ?_, hf⟩
            unfold Graph.ownOr
            split
            · rename_i y hy
              obtain ⟨hyN, k, rfl⟩ := owner_some hy
              by_cases hya : y.op.isAlloca = true
              · exfalso
                have hxw : ∃ b, sem.writes x.op (x.vals.map (G.final sem s).env) b := by
                  obtain ⟨b, ⟨h, _⟩ | ⟨_, h⟩⟩ := hc
                  · exact ⟨b, h⟩
                  · rw [hop, hv] at h
                    exact h.elim
                obtain ⟨b, hb⟩ := hxw
                by_cases hxy : x.id = y.id
                · have := eq_of_id hw (live_mem hx) hyN hxy
                  subst this
                  cases hxo : x.op <;> simp_all [Op.isAlloca, Sem.writes]
                · obtain ⟨i, o, _, _, hp⟩ := flow_through hw hyN hxy hf
                  cases hyo : y.op <;> simp_all [Op.isAlloca, passes]
              · simp [hya]
            · rfl
          · intro y hy hc hb
            exact hout A y (by rw [hv]; exact hA) hy hc hb
          · intro b _ hwr
            rw [hop, hv] at hwr
            exact hwr.elim
        have := around_correct hw hr hn (Or.inl ⟨t, hop⟩) _ ho
        rw [hop] at this
        exact this
    · exact correct_refl hw hr
  · exact correct_refl hw hr

/-- **Loads without the states of stores to other allocas**: correct if the conflicting accesses are
ordered by the remaining states. -/
theorem C38_load_store_state_partial (hw : G.Wf) (hr : RaceFree sem s vis G) (hn : n ∈ G.nodes)
    (t : Nat) (hop : n.op = .load t)
    (ho : ∀ A, G.allocaOf (n.vals.headD (.arg 0)) = some A →
      OrderedBy sem s vis G n (fun o => !G.otherStore A o)) :
    Correct sem s vis G ((loadStoreState G n t).apply G n) := by
  unfold loadStoreState
  split
  · rename_i address hv
    split
    · exact correct_refl hw hr
    · split
      · rename_i A hA
        simp only
        split
        · exact correct_refl hw hr
        · have := around_correct hw hr hn (Or.inl ⟨t, hop⟩) _ (ho A (by rw [hv]; exact hA))
          rw [hop] at this
          exact this
      · exact correct_refl hw hr
  · exact correct_refl hw hr

/-- A store with the state of the alloca only (results in the order of the operands): correct if the
conflicting accesses are ordered by that state. -/
theorem C38_store_alloca_fixed (hw : G.Wf) (hr : RaceFree sem s vis G) (hn : n ∈ G.nodes)
    (t : Nat) (hop : n.op = .store t) (hnd : n.states.Nodup)
    (ho : ∀ o, G.storeAllocaState n = some o → OrderedBy sem s vis G n (fun o' => o' = o)) :
    Correct sem s vis G ((storeAllocaFixed G n t).apply G n) := by
  unfold storeAllocaFixed
  split
  · rename_i o hs
    have hmem : o ∈ n.states := by
      unfold Graph.storeAllocaState at hs
      split at hs
      · split at hs
        · split at hs
          · rename_i h
            simp only [Option.some.injEq] at hs
            exact hs ▸ h.2.1
          · simp at hs
        · simp at hs
      · simp at hs
    have := around_correct hw hr hn (Or.inr ⟨t, hop⟩) _ (ho o hs)
    have hfil : n.states.filter (fun o' => decide (o' = o)) = [o] := by
      have h1 : n.states.filter (fun o' => decide (o' = o)) = n.states.filter (· == o) :=
        List.filter_congr fun a _ => by simp [beq_eq_decide]
      rw [h1, List.filter_beq, List.count_eq_one_of_mem hnd hmem]
      rfl
    rw [hop, hfil] at this
    exact this
  · exact correct_refl hw hr

/-! ### Merges, joins and splits -/

/-- **Merges and joins with one operand.** -/
theorem C38_single_operand (hw : G.Wf) (hr : RaceFree sem s vis G) (hn : n ∈ G.nodes)
    (hop : n.op = .merge ∨ n.op = .join) : Correct sem s vis G ((singleOperand n).apply G n) := by
  have hm : n.op.isMerge = true := by rcases hop with h | h <;> rw [h] <;> rfl
  unfold singleOperand
  split
  · rename_i h
    refine plain_correct hw hr (merge_plain hm) (forward_fits hn _ (fun o ho => .own hn ho) ?_
      (merge_hasValue hm)) (by simp) ?_
    · intro k hk
      rw [merge_hasState hm] at hk
      omega
    · intro x hx hxe j hup k o k1 o1 hk hf hp hs
      have := merge_passes' hm hp
      subst this
      have hk0 : k = 0 := by
        have := (List.getElem?_eq_some_iff.mp hk).1
        omega
      subst hk0
      rw [hs] at hk
      simp only [Option.some.injEq] at hk
      subst hk
      exact hup _ (.own hn (List.mem_of_getElem? hs)) hf
  · exact correct_refl hw hr

/-- **Merges: duplicate operands.** Whatever the order in which the set of operands is listed. -/
theorem C38_merge_duplicate (hw : G.Wf) (hr : RaceFree sem s vis G) (hn : n ∈ G.nodes)
    (hop : n.op = .merge) (ord : List SOut → List SOut) (hord : ∀ l o, o ∈ ord l ↔ o ∈ l) :
    Correct sem s vis G ((mergeDuplicate ord n).apply G n) := by
  unfold mergeDuplicate
  split
  · exact correct_refl hw hr
  · have := remerge_correct (sem := sem) (s := s) (vis := vis) hw hr hn (by rw [hop]; rfl)
      (ord n.states)
      (fun o ho => .own hn ((hord _ o).mp ho))
      (fun o ho x _ _ j hf => ⟨o, (hord _ o).mpr ho, hf⟩)
    rw [hop] at this
    exact this

/-- **Joins: duplicate operands.** -/
theorem C38_join_duplicate (hw : G.Wf) (hr : RaceFree sem s vis G) (hn : n ∈ G.nodes)
    (hop : n.op = .join) : Correct sem s vis G ((joinDuplicate n).apply G n) := by
  have hm : ∀ o, o ∈ firsts [] n.states ↔ o ∈ n.states := fun o => by
    rw [firsts_mem]; simp
  unfold joinDuplicate
  simp only
  split
  · exact correct_refl hw hr
  · split
    · rename_i h1
      obtain ⟨a, ha⟩ := List.length_eq_one_iff.mp h1
      refine plain_correct hw hr (by rw [hop]; rfl) (forward_fits hn _
        (fun o ho => .own hn ((hm o).mp ho)) ?_ (merge_hasValue (by rw [hop]; rfl))) (by simp) ?_
      · intro k hk
        rw [merge_hasState (by rw [hop]; rfl)] at hk
        omega
      · intro x hx hxe j hup k o k1 o1 hk hf hp hs
        have := merge_passes' (by rw [hop]; rfl) hp
        subst this
        have ho : o ∈ firsts [] n.states := (hm o).mpr (List.mem_of_getElem? hk)
        rw [ha] at hs ho
        simp only [List.mem_singleton] at ho
        simp only [List.getElem?_cons_zero, Option.some.injEq] at hs
        subst hs
        subst ho
        exact hup _ (.own hn (List.mem_of_getElem? hk)) hf
    · have := remerge_correct (sem := sem) (s := s) (vis := vis) hw hr hn (by rw [hop]; rfl)
        (firsts [] n.states)
        (fun o ho => .own hn ((hm o).mp ho)) (fun o ho x _ _ j hf => ⟨o, (hm o).mpr ho, hf⟩)
      rw [hop] at this
      exact this

theorem collect_old {op : Op} : ∀ (nodes : List Node), (∀ z ∈ nodes, z ∈ G.nodes) → ∀ o,
    OldS G n o → ∀ o2 ∈ collect op nodes o, OldS G n o2 := by
  intro nodes
  induction nodes with
  | nil => intro _ o ho o2 h2; simp only [collect, List.mem_singleton] at h2; exact h2 ▸ ho
  | cons z nodes ih =>
    intro hz o ho o2 h2
    have hz' := fun w hw => hz w (List.mem_cons_of_mem _ hw)
    cases o with
    | arg i => simp only [collect, List.mem_singleton] at h2; exact h2 ▸ ho
    | res i k =>
      rw [collect] at h2
      split at h2
      · rename_i hid
        split at h2
        · obtain ⟨o3, h3, h4⟩ := List.mem_flatMap.mp h2
          refine ih hz' o3 (.of (hz z (by simp)) ?_ h3) o2 h4
          exact hid ▸ ho.anc i (by simp [SOut.owners])
        · simp only [List.mem_singleton] at h2; exact h2 ▸ ho
      · exact ih hz' _ ho o2 h2

theorem collect_flow (hw : G.Wf) {op : Op} (hop : op.isEff = false) {x : Node} (hx : x ∈ G.nodes)
    (hxe : x.op.isEff = true) (j : Nat) : ∀ (nodes : List Node), (∀ z ∈ nodes, z ∈ G.nodes) → ∀ o,
    Flow G.nodes (.res x.id j) o → ∃ o2 ∈ collect op nodes o, Flow G.nodes (.res x.id j) o2 := by
  intro nodes
  induction nodes with
  | nil => intro _ o hf; exact ⟨o, by simp [collect], hf⟩
  | cons z nodes ih =>
    intro hz o hf
    have hz' := fun w hw => hz w (List.mem_cons_of_mem _ hw)
    cases o with
    | arg i => exact ⟨_, by simp [collect], hf⟩
    | res i k =>
      rw [collect]
      split
      · rename_i hid
        split
        · rename_i hzo
          subst hid
          have hzN := hz z (by simp)
          obtain ⟨k0, o0, h1, h2, _⟩ := flow_through hw hzN
            (eff_ne hw hx hzN hxe (by rw [hzo]; exact hop)) hf
          obtain ⟨o2, h3, h4⟩ := ih hz' o0 h2
          exact ⟨o2, List.mem_flatMap.mpr ⟨o0, List.mem_of_getElem? h1, h3⟩, h4⟩
        · exact ⟨_, by simp, hf⟩
      · exact ih hz' _ hf

/-- **Nested merges.** -/
theorem C38_nested_merges (hw : G.Wf) (hr : RaceFree sem s vis G) (hn : n ∈ G.nodes)
    (hop : n.op = .merge) : Correct sem s vis G ((nestedMerges G n).apply G n) := by
  unfold nestedMerges
  simp only
  split
  · exact correct_refl hw hr
  · have := remerge_correct (sem := sem) (s := s) (vis := vis) hw hr hn (by rw [hop]; rfl)
      (n.states.flatMap (collect .merge G.nodes.reverse))
      (by
        intro o ho
        obtain ⟨o1, h1, h2⟩ := List.mem_flatMap.mp ho
        exact collect_old _ (by simp) o1 (.own hn h1) o h2)
      (by
        intro o ho x hx hxe j hf
        obtain ⟨o2, h1, h2⟩ := collect_flow hw (op := .merge) rfl hx hxe j G.nodes.reverse (by simp)
          o hf
        exact ⟨o2, List.mem_flatMap.mpr ⟨o, ho, h1⟩, h2⟩)
    rw [hop] at this
    exact this

/-- **Merges of splits.** -/
theorem C38_merge_split (hw : G.Wf) (hr : RaceFree sem s vis G) (hn : n ∈ G.nodes)
    (hop : n.op = .merge) : Correct sem s vis G ((mergeSplit G n).apply G n) := by
  have hun : ∀ o, G.unsplit o = o ∨ ∃ y ∈ G.nodes, (∃ r, y.op = .split r) ∧ (∃ k, o = .res y.id k) ∧
      y.states = [G.unsplit o] := by
    intro o
    unfold Graph.unsplit
    split
    · rename_i y hy
      split
      · rename_i r s hop hst
        obtain ⟨h1, h2⟩ := owner_some hy
        exact Or.inr ⟨y, h1, ⟨r, hop⟩, h2, hst⟩
      · exact Or.inl rfl
    · exact Or.inl rfl
  unfold mergeSplit
  simp only
  split
  · exact correct_refl hw hr
  · have := remerge_correct (sem := sem) (s := s) (vis := vis) hw hr hn (by rw [hop]; rfl)
      (n.states.map G.unsplit)
      (by
        intro o ho
        obtain ⟨o1, h1, rfl⟩ := List.mem_map.mp ho
        rcases hun o1 with h | ⟨y, hy, _, ⟨k, hk⟩, hst⟩
        · rw [h]; exact .own hn h1
        · refine .of hy (.base (mem_needs_states h1 ?_)) (by rw [hst]; simp)
          rw [hk]; simp [SOut.owners])
      (by
        intro o ho x hx hxe j hf
        refine ⟨G.unsplit o, List.mem_map_of_mem ho, ?_⟩
        rcases hun o with h | ⟨y, hy, ⟨r, hyo⟩, ⟨k, hk⟩, hst⟩
        · rw [h]; exact hf
        · rw [hk] at hf
          obtain ⟨i, o0, h1, h2, _⟩ := flow_through hw hy
            (eff_ne hw hx hy hxe (by rw [hyo]; rfl)) hf
          have := List.mem_of_getElem? h1
          rw [hst, List.mem_singleton] at this
          exact this ▸ h2)
    rw [hop] at this
    exact this

/-- **Splits with one result.** -/
theorem C38_split_single (hw : G.Wf) (hr : RaceFree sem s vis G) (hn : n ∈ G.nodes) (r : Nat)
    (hop : n.op = .split r) (harity : n.states.length = 1) :
    Correct sem s vis G ((splitSingle n r).apply G n) := by
  unfold splitSingle
  split
  · rename_i h
    refine plain_correct hw hr (by rw [hop]; rfl) (forward_fits hn _ (fun o ho => .own hn ho) ?_ ?_)
      (by simp) ?_
    · intro k hk
      simp only [Node.hasState, hop] at hk
      omega
    · intro k hk
      simp only [Node.hasValue, hop] at hk
    · intro x hx hxe j hup k o k1 o1 hk hf hp hs
      have h1 := (List.getElem?_eq_some_iff.mp hk).1
      have h2 := (List.getElem?_eq_some_iff.mp hs).1
      have : k = k1 := by omega
      subst this
      rw [hs] at hk
      simp only [Option.some.injEq] at hk
      subst hk
      exact hup _ (.own hn (List.mem_of_getElem? hs)) hf
  · exact correct_refl hw hr

end Jlm.Mem
