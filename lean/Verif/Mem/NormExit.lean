import Verif.Mem.NormStores
/-
C38, continued: the operands of the merge at the exit of a lambda.
-/
set_option linter.unusedSimpArgs false
set_option linter.unusedVariables false
namespace Jlm.Mem

variable {V B : Type} {sem : Sem V B} {s : State V B} {vis : Nat → Prop} {G : Graph} {n : Node}

theorem ssub_exit (i : Nat) (o : SOut) : ssub i [.res i 0] o = o := by
  cases o with
  | arg j => rfl
  | res j k =>
    by_cases h : j = i
    · subst h
      cases k <;> simp [ssub]
    · simp [ssub, h]

theorem vsub_exit (i : Nat) (o : VOut) : vsub i [] o = o := by
  cases o with
  | arg j => rfl
  | res j k => by_cases h : j = i <;> simp [vsub, h]

theorem map_exit (i : Nat) (x : Node) : x.map (vsub i []) (ssub i [.res i 0]) = x := by
  cases x
  have h1 : vsub i [] = id := funext (vsub_exit i)
  have h2 : ssub i [.res i 0] = id := funext (ssub_exit i)
  simp [Node.map, h1, h2]

/-- Replacing the merge at the exit. Only what is visible afterwards has to reach the new operands. -/
theorem exit_correct (hw : G.Wf) (hr : RaceFree sem s vis G) (hop : n.op = .exitMerge)
    {new : List Node} {n' : Node} (hf : Fits G n new [] [.res n.id 0])
    (hnew : ∀ x ∈ new, x.op.isEff = false) (hn' : n' ∈ new) (hid : n'.id = n.id)
    (hop' : n'.op = .exitMerge)
    (honly : ∀ k, ∀ y ∈ G.nodes, SOut.res n.id k ∉ y.states)
    (hreach : ∀ x ∈ G.live, ∀ b, vis b → sem.writes x.op (x.vals.map (G.final sem s).env) b →
      ∀ j, ∀ o ∈ n.states, Flow G.nodes (.res x.id j) o →
      ∃ o' ∈ n'.states, OldS G n o' ∧ Flow G.nodes (.res x.id j) o') :
    Correct sem s vis G (G.replace n.id new [] [.res n.id 0]) := by
  have hne : n.op.isEff = false := by rw [hop]; rfl
  have hw' := replace_wf hw hf
  have hn'N := new_mem hf hn'
  have hmap : ∀ x ∈ G.nodes, x.id ≠ n.id → x ∈ (G.replace n.id new [] [.res n.id 0]).nodes := by
    intro x hx h
    have := map_mem (new := new) (vouts := []) (souts := [.res n.id 0]) hx h
    rwa [map_exit] at this
  have hmono : ∀ a o, Flow G.nodes a o → n.id ∉ o.owners →
      Flow (G.replace n.id new [] [.res n.id 0]).nodes a o := by
    intro a o h
    induction h with
    | refl o => exact fun _ => .refl _
    | @step o o' o'' x k hx hk hp hfl ih =>
      intro hno
      by_cases e : x.id = n.id
      · exfalso
        obtain ⟨k', rfl⟩ := passes_owner hp
        rw [e] at hfl
        cases hfl with
        | refl => simp [SOut.owners] at hno
        | step hy hk2 _ _ => exact honly _ _ hy (List.mem_of_getElem? hk2)
      · exact .step (hmap x hx e) hk hp (ih hno)
  have hxn : ∀ x ∈ G.live, x.op.isEff = true → x.id ≠ n.id :=
    fun x hx h => eff_ne hw (live_mem hx) hf.mem h hne
  have hrepl : ∀ x : Node, x.id ≠ n.id → repl n new [] [.res n.id 0] x = [x] := by
    intro x h
    rw [repl_ne h, map_exit]
  have hsres : (G.replace n.id new [] [.res n.id 0]).sres = G.sres := by
    show G.sres.map _ = _
    rw [List.map_congr_left (fun o _ => ssub_exit n.id o), List.map_id']
  have := core s vis G (G.replace n.id new [] [.res n.id 0]) (repl n new [] [.res n.id 0])
    (fun _ => False) hw hw' hr rfl
    (by
      intro x hx x' hx'
      by_cases e : x.id = n.id
      · rw [repl, if_pos e] at hx'
        rw [e]
        exact hf.ids x' hx'
      · rw [hrepl x e] at hx'
        simp only [List.mem_singleton] at hx'
        exact Or.inl (by rw [hx']))
    (by
      intro x hx x' hx' hnx y hy hye e
      by_cases e2 : x.id = n.id
      · rw [repl, if_pos e2] at hx'
        rcases hf.ids x' hx' with h | h
        · exact eff_ne hw hy hf.mem hye hne (e.trans h)
        · exact h (e ▸ List.mem_map_of_mem hy)
      · rw [hrepl x e2] at hx'
        simp only [List.mem_singleton] at hx'
        subst hx'
        exact eff_ne hw hy hx hye hnx e)
    (by
      intro x hx x' hx' hlx' hex'
      have hlx := replace_live hw hf hx hx' hlx'
      by_cases e : x.id = n.id
      · rw [repl, if_pos e] at hx'
        rw [hnew x' hx'] at hex'
        simp at hex'
      · rw [hrepl x e] at hx' ⊢
        simp only [List.mem_singleton] at hx'
        subst hx'
        exact ⟨rfl, rfl, rfl, hlx, by simpa using hex'⟩)
    (by
      show (G.vres.map _).map _ = _
      rw [List.map_congr_left (fun o _ => vsub_exit n.id o), List.map_id'])
    (by
      intro x hx y hy _ y' hy' hly' hey hc hbf
      have hxn' := hxn x hx (conflict_eff hc).1
      have hyn' := hxn y hy (conflict_eff hc).2
      rw [hrepl y hyn'] at hy'
      simp only [List.mem_singleton] at hy'
      subst hy'
      rw [hrepl x hxn']
      obtain ⟨k, o, ho, hfl⟩ := hbf
      refine ⟨x, by simp, (conflict_eff hc).1, k, o, ho, hmono _ _ hfl ?_⟩
      cases o with
      | arg i => simp [SOut.owners]
      | res i k1 =>
        intro h
        simp only [SOut.owners, List.mem_singleton] at h
        subst h
        exact honly _ _ (live_mem hy) ho)
    (by
      intro x hx _ b hb hwr hbf
      have hxn' := hxn x hx (writes_eff hwr)
      rw [hrepl x hxn', hsres]
      refine ⟨x, by simp, writes_eff hwr, ?_⟩
      obtain ⟨k, o, ho, hfl⟩ := hbf
      by_cases hno : n.id ∈ o.owners
      · cases o with
        | arg i => simp [SOut.owners] at hno
        | res i k1 =>
          simp only [SOut.owners, List.mem_singleton] at hno
          subst hno
          have h0 := hw.states n hf.mem k1 (Or.inl ho)
          simp only [Node.hasState, hop] at h0
          subst h0
          obtain ⟨i, o1, h1, h2, _⟩ := flow_through hw hf.mem hxn' hfl
          obtain ⟨o', h3, h4, h5⟩ := hreach x hx b hb hwr k o1 (List.mem_of_getElem? h1) h2
          obtain ⟨i', hi'⟩ := List.mem_iff_getElem?.mp h3
          refine ⟨k, _, ho, (hmono _ _ h5 ?_).trans
            (.step hn'N (k := i') (o' := .res n.id 0) hi' ?_ (.refl _))⟩
          · intro h
            exact anc_ne hw hf.mem (h4.anc _ h) rfl
          · rw [hop', hid]
            exact ⟨rfl, rfl⟩
      · exact ⟨k, o, ho, hmono _ _ hfl hno⟩)
    (fun _ _ h => h.elim) (fun _ _ _ _ _ _ _ h => h.elim) (fun _ _ _ _ _ h => h.elim)
  exact ⟨hw', this.1, this.2⟩

/-- new operands for the merge at the exit -/
theorem exitWith_correct (hw : G.Wf) (hr : RaceFree sem s vis G) (hn : n ∈ G.nodes)
    (hop : n.op = .exitMerge) {ops : List SOut} (hold : ∀ o ∈ ops, OldS G n o)
    (honly : ∀ k, ∀ y ∈ G.nodes, SOut.res n.id k ∉ y.states)
    (hreach : ∀ x ∈ G.live, ∀ b, vis b → sem.writes x.op (x.vals.map (G.final sem s).env) b →
      ∀ j, ∀ o ∈ n.states, Flow G.nodes (.res x.id j) o →
      ∃ o' ∈ ops, Flow G.nodes (.res x.id j) o') :
    Correct sem s vis G ((exitWith n ops).apply G n) := by
  unfold exitWith
  split
  · exact correct_refl hw hr
  · let n' : Node := ⟨n.id, .exitMerge, [], ops⟩
    show Correct sem s vis G (G.replace n.id [n'] [] [.res n.id 0])
    have hf : Fits G n [n'] [] [.res n.id 0] := by
      refine ⟨hn, ?_, by simp, ?_, ?_, ?_, by simp, ?_, ?_, ?_, ?_⟩
      · intro x hx
        simp only [List.mem_singleton] at hx
        exact Or.inl (by rw [hx])
      · intro a x b e o ho
        have hx : x ∈ [n'] := by rw [e]; simp
        simp only [List.mem_singleton] at hx
        rw [hx] at ho
        exact Or.inl (hold o ho)
      · intro x hx v hv
        simp only [List.mem_singleton] at hx
        rw [hx] at hv
        simp [n'] at hv
      · intro o ho
        simp only [List.mem_singleton] at ho
        exact Or.inr ⟨n', by simp, 0, ho, rfl⟩
      · intro k hk
        simp only [Node.hasState, hop] at hk
        simp [hk]
      · intro k hk
        simp only [Node.hasValue, hop] at hk
      · left
        simp [n', Op.isEff]
      · intro _ _ _ _
        rw [hop]; rfl
    refine exit_correct (n' := n') hw hr hop hf (by simp [n', Op.isEff]) (by simp) rfl rfl honly ?_
    intro x hx b hb hwr j o ho hfl
    obtain ⟨o', h1, h2⟩ := hreach x hx b hb hwr j o ho hfl
    exact ⟨o', h1, hold o' h1, h2⟩

theorem bypass_cases (hw : G.Wf) (which : Op → Bool)
    (hwhich : ∀ op, which op = true → op.isLoad = true ∨ op.isStore = true) (o : SOut) :
    G.bypass which o = o ∨ ∃ x ∈ G.nodes, which x.op = true ∧
      (∃ address vs, x.vals = address :: vs ∧ (G.allocaOf address).isSome) ∧
      ∃ (k : Nat) (o1 : SOut), o = .res x.id k ∧ x.states[k]? = some o1 ∧ G.bypass which o = o1 := by
  unfold Graph.bypass
  split
  · rename_i x hx
    split
    · rename_i address vs hvals
      split
      · rename_i h
        obtain ⟨h1, k, rfl⟩ := owner_some hx
        simp only [inputOf, if_true]
        cases hk : x.states[k]? with
        | none => exact Or.inl rfl
        | some o1 => exact Or.inr ⟨x, h1, h.1, ⟨address, vs, hvals, h.2⟩, k, o1, rfl, hk, rfl⟩
      · exact Or.inl rfl
    · exact Or.inl rfl
  · exact Or.inl rfl

theorem bypass_old (hw : G.Wf) (hn : n ∈ G.nodes) (which : Op → Bool)
    (hwhich : ∀ op, which op = true → op.isLoad = true ∨ op.isStore = true) {o : SOut}
    (ho : o ∈ n.states) : OldS G n (G.bypass which o) := by
  rcases bypass_cases hw which hwhich o with h | ⟨x, hx, _, _, k, o1, h1, h2, h3⟩
  · rw [h]; exact .own hn ho
  · rw [h3]
    exact .of hx (.base (mem_needs_states ho (by rw [h1]; simp [SOut.owners])))
      (List.mem_of_getElem? h2)

theorem bypass_flow (hw : G.Wf) (which : Op → Bool)
    (hwhich : ∀ op, which op = true → op.isLoad = true ∨ op.isStore = true) {o : SOut} {x : Node}
    {j : Nat} (hfl : Flow G.nodes (.res x.id j) o)
    (hno : ∀ z ∈ G.nodes, x.id = z.id → which z.op = true →
      (∃ address vs, z.vals = address :: vs ∧ (G.allocaOf address).isSome) → False) :
    Flow G.nodes (.res x.id j) (G.bypass which o) := by
  rcases bypass_cases hw which hwhich o with h | ⟨z, hz, hwz, hal, k, o1, rfl, h2, h3⟩
  · rw [h]; exact hfl
  · rw [h3]
    by_cases e : x.id = z.id
    · exact (hno z hz e hwz hal).elim
    · obtain ⟨i, o2, h4, h5, h6⟩ := flow_through hw hz e hfl
      have : i = k := by
        have := hwhich _ hwz
        cases hop : z.op <;> rw [hop] at h6 this <;> simp [Op.isLoad, Op.isStore] at this
        · exact h6.2.symm
        · exact h6.2.symm
      subst this
      rw [h2] at h4
      simp only [Option.some.injEq] at h4
      rw [h4]; exact h5

/-- **Loads from allocas before the exit.** The merge takes the state before the load. -/
theorem C38_exit_load (hw : G.Wf) (hr : RaceFree sem s vis G) (hn : n ∈ G.nodes)
    (hop : n.op = .exitMerge) (honly : ∀ k, ∀ y ∈ G.nodes, SOut.res n.id k ∉ y.states) :
    Correct sem s vis G ((exitLoad G n).apply G n) := by
  have hwhich : ∀ op, Op.isLoad op = true → op.isLoad = true ∨ op.isStore = true :=
    fun op h => Or.inl h
  refine exitWith_correct hw hr hn hop ?_ honly ?_
  · intro o ho
    obtain ⟨o1, h1, rfl⟩ := List.mem_map.mp ho
    exact bypass_old hw hn _ hwhich h1
  · intro x hx b hb hwr j o ho hfl
    refine ⟨_, List.mem_map_of_mem ho, bypass_flow hw _ hwhich hfl ?_⟩
    intro z hz e hl _
    have := eq_of_id hw (live_mem hx) hz e
    subst this
    cases hx : x.op <;> rw [hx] at hl hwr <;> simp [Op.isLoad] at hl
    simp [Sem.writes] at hwr

/-- **Stores to allocas before the exit.** The memory of allocas must not be visible after the
lambda. -/
theorem C38_exit_store (hw : G.Wf) (hr : RaceFree sem s vis G) (hn : n ∈ G.nodes)
    (hop : n.op = .exitMerge) (honly : ∀ k, ∀ y ∈ G.nodes, SOut.res n.id k ∉ y.states)
    (hgone : ∀ x ∈ G.live, ∀ t address value, x.op = .store t → x.vals = [address, value] →
      (G.allocaOf address).isSome → ∀ b, vis b →
      ¬ sem.writes x.op (x.vals.map (G.final sem s).env) b) :
    Correct sem s vis G ((exitStore G n).apply G n) := by
  have hwhich : ∀ op, Op.isStore op = true → op.isLoad = true ∨ op.isStore = true :=
    fun op h => Or.inr h
  refine exitWith_correct hw hr hn hop ?_ honly ?_
  · intro o ho
    obtain ⟨o1, h1, rfl⟩ := List.mem_map.mp ho
    exact bypass_old hw hn _ hwhich h1
  · intro x hx b hb hwr j o ho hfl
    refine ⟨_, List.mem_map_of_mem ho, bypass_flow hw _ hwhich hfl ?_⟩
    rintro z hz e hl ⟨address, vs, hv, hal⟩
    have := eq_of_id hw (live_mem hx) hz e
    subst this
    obtain ⟨t, ht⟩ : ∃ t, x.op = .store t := by
      cases ht : x.op <;> rw [ht] at hl <;> simp [Op.isStore] at hl
      exact ⟨_, rfl⟩
    have hv2 : ∃ value, x.vals = [address, value] := by
      rw [ht, hv] at hwr
      match vs, hv, hwr with
      | [], hv, hwr => simp [Sem.writes] at hwr
      | [v], hv, hwr => exact ⟨v, hv⟩
      | a :: b :: vs, hv, hwr => simp [Sem.writes] at hwr
    obtain ⟨value, hv2⟩ := hv2
    exact hgone x hx t address value ht hv2 hal b hb hwr

/-- **Unused states of allocas at the exit.** -/
theorem C38_exit_alloca (hw : G.Wf) (hr : RaceFree sem s vis G) (hn : n ∈ G.nodes)
    (hop : n.op = .exitMerge) (honly : ∀ k, ∀ y ∈ G.nodes, SOut.res n.id k ∉ y.states)
    (fresh : Nat) (hfresh : fresh ∉ G.nodes.map Node.id) :
    Correct sem s vis G ((exitAlloca G fresh n).apply G n) := by
  unfold exitAlloca
  simp only
  split
  · exact correct_refl hw hr
  · let u : Node := ⟨fresh, .undef, [], []⟩
    generalize hops : (n.states.map fun o =>
      if (G.owner o).any (fun x => x.op.isAlloca) = true then SOut.res fresh 0 else o) = ops
    let n' : Node := ⟨n.id, .exitMerge, [], ops⟩
    have hid : fresh ≠ n.id := fun h => hfresh (h ▸ List.mem_map_of_mem hn)
    show Correct sem s vis G (G.replace n.id [u, n'] [] [.res n.id 0])
    have hold : ∀ o ∈ ops, OldS G n o ∨ o = .res fresh 0 := by
      intro o ho
      rw [← hops] at ho
      obtain ⟨o1, h1, rfl⟩ := List.mem_map.mp ho
      split
      · exact Or.inr rfl
      · exact Or.inl (.own hn h1)
    have hf : Fits G n [u, n'] [] [.res n.id 0] := by
      refine ⟨hn, ?_, by simp [u, n', hid], ?_, ?_, ?_, by simp, ?_, ?_, ?_, ?_⟩
      · intro x hx
        simp only [List.mem_cons, List.not_mem_nil, or_false] at hx
        rcases hx with rfl | rfl
        · exact Or.inr hfresh
        · exact Or.inl rfl
      · intro a x b e o ho
        match a, e with
        | [], e =>
          simp only [List.nil_append, List.cons.injEq] at e
          rw [← e.1] at ho
          simp [u] at ho
        | [y], e =>
          simp only [List.cons_append, List.nil_append, List.cons.injEq] at e
          rw [← e.2.1] at ho
          rcases hold o ho with h | h
          · exact Or.inl h
          · exact Or.inr ⟨u, by rw [← e.1]; simp, 0, h, rfl⟩
        | y :: z :: a, e =>
          exfalso
          have := congrArg List.length e
          simp at this
      · intro x hx v hv
        simp only [List.mem_cons, List.not_mem_nil, or_false] at hx
        rcases hx with rfl | rfl <;> simp [u, n'] at hv
      · intro o ho
        simp only [List.mem_singleton] at ho
        exact Or.inr ⟨n', by simp, 0, ho, rfl⟩
      · intro k hk
        simp only [Node.hasState, hop] at hk
        simp [hk]
      · intro k hk
        simp only [Node.hasValue, hop] at hk
      · left
        simp [u, n', Op.isEff]
      · intro _ _ _ _
        rw [hop]; rfl
    refine exit_correct (n' := n') hw hr hop hf (by simp [u, n', Op.isEff]) (by simp) rfl rfl honly ?_
    intro x hx b hb hwr j o ho hfl
    have hna : (G.owner o).any (fun x => x.op.isAlloca) = false := by
      rw [← Bool.not_eq_true]
      intro h
      cases hz : G.owner o with
      | none => rw [hz] at h; simp at h
      | some z =>
        rw [hz] at h
        simp only [Option.any_some] at h
        obtain ⟨hzN, k, rfl⟩ := owner_some hz
        have hne : x.id ≠ z.id := by
          intro e
          have := eq_of_id hw (live_mem hx) hzN e
          subst this
          cases hx : x.op <;> rw [hx] at h hwr <;> simp [Op.isAlloca] at h
          simp [Sem.writes] at hwr
        obtain ⟨i, o1, _, _, hp⟩ := flow_through hw hzN hne hfl
        cases hx : z.op <;> rw [hx] at h hp <;> simp [Op.isAlloca] at h
        exact hp.2
    refine ⟨o, ?_, .own hn ho, hfl⟩
    show o ∈ ops
    rw [← hops]
    exact List.mem_map.mpr ⟨o, ho, by rw [hna]; simp⟩

end Jlm.Mem
