import Verif.Mem.Replace
/-
The replacements that the normalizations of memory operations have in common.
-/
set_option linter.unusedSimpArgs false
set_option linter.unusedVariables false
namespace Jlm.Mem

variable {V B : Type} {sem : Sem V B} {s : State V B} {vis : Nat → Prop} {G : Graph} {n : Node}

theorem OldS.own (hn : n ∈ G.nodes) {o : SOut} (ho : o ∈ n.states) : OldS G n o :=
  ⟨n, hn, ho, Or.inl rfl⟩

theorem OldS.of {y : Node} (hy : y ∈ G.nodes) (ha : Anc G n y.id) {o : SOut} (ho : o ∈ y.states) :
    OldS G n o := ⟨y, hy, ho, Or.inr ha⟩

theorem owner_some {o : SOut} {x : Node} (h : G.owner o = some x) :
    x ∈ G.nodes ∧ ∃ k, o = .res x.id k := by
  cases o with
  | arg i => simp [Graph.owner] at h
  | res i k =>
    simp only [Graph.owner, Graph.node?] at h
    have h1 := List.mem_of_find?_eq_some h
    have h2 := List.find?_some h
    simp only [decide_eq_true_eq] at h2
    exact ⟨h1, k, by rw [h2]⟩

theorem vowner_some {o : VOut} {x : Node} (h : G.vowner o = some x) :
    x ∈ G.nodes ∧ ∃ k, o = .res x.id k := by
  cases o with
  | arg i => simp [Graph.vowner] at h
  | res i k =>
    simp only [Graph.vowner, Graph.node?] at h
    have h1 := List.mem_of_find?_eq_some h
    have h2 := List.find?_some h
    simp only [decide_eq_true_eq] at h2
    exact ⟨h1, k, by rw [h2]⟩

/-- what flows to an output of a node that does not compute anything came through it -/
theorem flow_through (hw : G.Wf) {x m : Node} (hm : m ∈ G.nodes) (hne : x.id ≠ m.id) {j k : Nat}
    (h : Flow G.nodes (.res x.id j) (.res m.id k)) :
    ∃ i o, m.states[i]? = some o ∧ Flow G.nodes (.res x.id j) o ∧ passes m.op m.id i (.res m.id k) := by
  rcases h.last with h | ⟨y, hy, i, o, h1, h2, h3⟩
  · simp only [SOut.res.injEq] at h
    exact absurd h.1 hne
  · have : y = m := eq_of_id hw hy hm h3.1.symm
    subst this
    exact ⟨i, o, h1, h2, h3⟩

theorem eff_ne (hw : G.Wf) {x m : Node} (hx : x ∈ G.nodes) (hm : m ∈ G.nodes)
    (hxe : x.op.isEff = true) (hme : m.op.isEff = false) : x.id ≠ m.id := by
  intro e
  have := eq_of_id hw hx hm e
  subst this
  rw [hxe] at hme
  simp at hme

/-- the values of a load or store -/
def ownVals : Op → Nat → List VOut
  | .load _, i => [.res i 0]
  | _, _ => []

/-- Using some of the state operands of a load or store only. -/
theorem narrow_correct (hw : G.Wf) (hr : RaceFree sem s vis G) (hn : n ∈ G.nodes)
    (hop : (∃ t, n.op = .load t) ∨ ∃ t, n.op = .store t) (st souts : List SOut)
    (hst : ∀ o ∈ st, o ∈ n.states) (hlen : souts.length = n.states.length)
    (hso : ∀ (k : Nat) (o o' : SOut), n.states[k]? = some o → souts[k]? = some o' →
      (∃ k', o' = SOut.res n.id k' ∧ st[k']? = some o) ∨ o' = o)
    (hinto : ∀ x ∈ G.live, Conflict sem (G.final sem s).env x n → Before G.nodes x n →
      ∃ j, ∃ o ∈ st, Flow G.nodes (.res x.id j) o)
    (hout : ∀ y ∈ G.live, Conflict sem (G.final sem s).env n y → Before G.nodes n y →
      ∃ k k', souts[k]? = some (.res n.id k') ∧ ∃ o1 ∈ y.states, Flow G.nodes (.res n.id k) o1)
    (hexit : ∀ b, vis b → sem.writes n.op (n.vals.map (G.final sem s).env) b →
      (∃ k, ∃ o ∈ G.sres, Flow G.nodes (.res n.id k) o) →
      ∃ k k', souts[k]? = some (.res n.id k') ∧ ∃ o1 ∈ G.sres, Flow G.nodes (.res n.id k) o1) :
    Correct sem s vis G
      (G.replace n.id [⟨n.id, n.op, n.vals, st⟩] (ownVals n.op n.id) souts) := by
  have heff : n.op.isEff = true := by
    rcases hop with ⟨t, h⟩ | ⟨t, h⟩ <;> rw [h] <;> rfl
  have hpk : ∀ k k1, passes n.op n.id k (.res n.id k1) → k1 = k := by
    rcases hop with ⟨t, h⟩ | ⟨t, h⟩ <;> rw [h] <;> exact fun k k1 h => h.2
  have hpk' : ∀ k, passes n.op n.id k (.res n.id k) := by
    rcases hop with ⟨t, h⟩ | ⟨t, h⟩ <;> rw [h] <;> exact fun k => ⟨rfl, rfl⟩
  have hhas : ∀ (l : List SOut) k, (⟨n.id, n.op, n.vals, l⟩ : Node).hasState k ↔ k < l.length := by
    rcases hop with ⟨t, h⟩ | ⟨t, h⟩ <;> rw [h] <;> exact fun l k => Iff.rfl
  have hfits : Fits G n [⟨n.id, n.op, n.vals, st⟩] (ownVals n.op n.id) souts := by
    refine ⟨hn, ?_, by simp, ?_, ?_, ?_, ?_, ?_, ?_, ?_, ?_⟩
    · intro x hx; simp only [List.mem_singleton] at hx; subst hx; exact Or.inl rfl
    · intro a x b e o ho
      have hx : x ∈ [(⟨n.id, n.op, n.vals, st⟩ : Node)] := by rw [e]; simp
      simp only [List.mem_singleton] at hx
      subst hx
      exact Or.inl (.own hn (hst o ho))
    · intro x hx v hv
      simp only [List.mem_singleton] at hx
      subst hx
      exact ⟨n, hn, hv, Or.inl rfl⟩
    · intro o ho
      obtain ⟨k, hk, e⟩ := List.mem_iff_getElem.mp ho
      have hk2 : k < n.states.length := hlen ▸ hk
      rcases hso k n.states[k] o (by simp [hk2]) (by rw [List.getElem?_eq_getElem hk, e]) with
        ⟨k', rfl, h⟩ | rfl
      · right
        refine ⟨⟨n.id, n.op, n.vals, st⟩, by simp, k', rfl, ?_⟩
        rw [hhas]
        exact (List.getElem?_eq_some_iff.mp h).1
      · exact Or.inl (.own hn (List.getElem_mem hk2))
    · intro v hv
      right
      rcases hop with ⟨t, h⟩ | ⟨t, h⟩
      · rw [h] at hv
        simp only [ownVals, List.mem_singleton] at hv
        exact ⟨⟨n.id, n.op, n.vals, st⟩, by simp, 0, hv, by simp only [Node.hasValue, h]⟩
      · rw [h] at hv
        simp [ownVals] at hv
    · intro k hk
      rw [hlen]
      exact (hhas n.states k).mp hk
    · intro k hk
      rcases hop with ⟨t, h⟩ | ⟨t, h⟩
      · simp only [Node.hasValue, h] at hk
        rw [h, hk]; simp [ownVals]
      · simp only [Node.hasValue, h] at hk
    · right
      exact ⟨⟨n.id, n.op, n.vals, st⟩, by simp [heff], rfl, rfl, rfl⟩
    · intro x hx hxe
      simp only [List.mem_singleton] at hx
      subst hx
      exact fun _ => hxe
  have hmem : (⟨n.id, n.op, n.vals, st⟩ : Node) ∈
      (G.replace n.id [⟨n.id, n.op, n.vals, st⟩] (ownVals n.op n.id) souts).nodes :=
    new_mem hfits (by simp)
  refine replace_correct (E := fun _ => False) s vis hw hr hfits ?_
  refine ⟨?_, ?_, ?_, ?_, ?_, ?_, by simp, by simp, by simp⟩
  · intro _ k v hk
    rcases hop with ⟨t, h⟩ | ⟨t, h⟩
    · rw [h] at hk
      match k with
      | 0 => simp only [ownVals, List.getElem?_cons_zero, Option.some.injEq] at hk; rw [← hk]
      | k + 1 => simp [ownVals] at hk
    · rw [h] at hk
      simp [ownVals] at hk
  · intro x hx hxe _ j hup k o k1 o1 hk hf hp hs
    have := hpk _ _ hp
    subst this
    have h1 := hup o (.own hn (List.mem_of_getElem? hk)) hf
    rcases hso _ o o1 hk hs with ⟨k', rfl, h⟩ | rfl
    · exact h1.trans (.step hmem h (hpk' k') (.refl _))
    · exact h1
  · intro n' hn' _ x hx _ hc hb
    simp only [List.mem_singleton] at hn'
    subst hn'
    obtain ⟨j, o, ho, hf⟩ := hinto x hx hc hb
    exact ⟨j, o, hst o ho, hf, fun hup => ⟨o, ho, hup o (.own hn (hst o ho)) hf⟩⟩
  · intro n' hn' _ y hy hc hb
    obtain ⟨k, k', hk, h⟩ := hout y hy hc hb
    exact ⟨k, _, k', hk, .refl _, h⟩
  · intro n' hn' _ b hb hwr hf
    obtain ⟨k, k', hk, h⟩ := hexit b hb hwr hf
    exact ⟨k, _, k', hk, .refl _, h⟩
  · simp [heff]

/-- Replacing a merge, join or split. -/
theorem plain_correct (hw : G.Wf) (hr : RaceFree sem s vis G) (hne : n.op.isEff = false)
    {new : List Node} {souts : List SOut} (hf : Fits G n new [] souts)
    (hnew : ∀ x ∈ new, x.op.isEff = false)
    (hpass : ∀ x ∈ G.nodes, x.op.isEff = true → ∀ j,
      Upstream G n (G.replace n.id new [] souts).nodes (.res x.id j) →
      ∀ k o k1 o1, n.states[k]? = some o → Flow G.nodes (.res x.id j) o →
      passes n.op n.id k (.res n.id k1) → souts[k1]? = some o1 →
      Flow (G.replace n.id new [] souts).nodes (.res x.id j) o1) :
    Correct sem s vis G (G.replace n.id new [] souts) := by
  refine replace_correct (E := fun x => x = n) s vis hw hr hf ?_
  refine ⟨by simp, fun x hx hxe _ => hpass x hx hxe, ?_, ?_, ?_, fun _ => rfl, ?_, ?_, ?_⟩
  · intro n' hn' he
    rw [hnew n' hn'] at he
    simp at he
  · intro n' hn' he
    rw [hnew n' hn'] at he
    simp at he
  · intro n' hn' he
    rw [hnew n' hn'] at he
    simp at he
  · rintro x hx rfl ⟨x', hx', _, he⟩
    rw [repl_self] at hx'
    rw [hnew x' hx'] at he
    simp at he
  · rintro p z q y r b _ rfl hwr
    exact absurd hwr (not_eff_writes hne _ _)
  · rintro p z q b _ rfl hwr
    exact absurd hwr (not_eff_writes hne _ _)

/-- operations with one state output that collects all operands -/
def Op.isMerge : Op → Bool
  | .merge => true
  | .join => true
  | .exitMerge => true
  | _ => false

theorem merge_plain {op : Op} (h : op.isMerge = true) : op.isEff = false := by
  cases op <;> simp_all [Op.isMerge, Op.isEff]

theorem merge_passes {op : Op} (h : op.isMerge = true) (i k : Nat) :
    passes op i k (.res i 0) := by
  cases op <;> simp_all [Op.isMerge, passes]

theorem merge_passes' {op : Op} (h : op.isMerge = true) {i k k1 : Nat}
    (hp : passes op i k (.res i k1)) : k1 = 0 := by
  cases op <;> simp_all [Op.isMerge, passes]

theorem merge_hasState {x : Node} (h : x.op.isMerge = true) (k : Nat) : x.hasState k ↔ k = 0 := by
  cases ho : x.op <;> simp_all [Op.isMerge, Node.hasState]

theorem merge_hasValue {x : Node} (h : x.op.isMerge = true) (k : Nat) : ¬ x.hasValue k := by
  cases ho : x.op <;> simp_all [Op.isMerge, Node.hasValue]

/-- A merge with other operands: whatever flows to an old operand flows to a new one. -/
theorem remerge_correct (hw : G.Wf) (hr : RaceFree sem s vis G) (hn : n ∈ G.nodes)
    (hop : n.op.isMerge = true) (ops : List SOut) (hold : ∀ o ∈ ops, OldS G n o)
    (hflow : ∀ o ∈ n.states, ∀ x ∈ G.nodes, x.op.isEff = true → ∀ j,
      Flow G.nodes (.res x.id j) o → ∃ o' ∈ ops, Flow G.nodes (.res x.id j) o') :
    Correct sem s vis G (G.replace n.id [⟨n.id, n.op, [], ops⟩] [] [.res n.id 0]) := by
  have hfits : Fits G n [⟨n.id, n.op, [], ops⟩] [] [.res n.id 0] := by
    refine ⟨hn, ?_, by simp, ?_, ?_, ?_, by simp, ?_, ?_, ?_, ?_⟩
    · intro x hx; simp only [List.mem_singleton] at hx; subst hx; exact Or.inl rfl
    · intro a x b e o ho
      have hx : x ∈ [(⟨n.id, n.op, [], ops⟩ : Node)] := by rw [e]; simp
      simp only [List.mem_singleton] at hx
      subst hx
      exact Or.inl (hold o ho)
    · intro x hx v hv
      simp only [List.mem_singleton] at hx
      subst hx
      simp at hv
    · intro o ho
      simp only [List.mem_singleton] at ho
      exact Or.inr ⟨⟨n.id, n.op, [], ops⟩, by simp, 0, ho,
        (merge_hasState (x := ⟨n.id, n.op, [], ops⟩) hop 0).mpr rfl⟩
    · intro k hk
      rw [merge_hasState hop] at hk
      simp [hk]
    · intro k hk
      exact absurd hk (merge_hasValue hop k)
    · left; simp [merge_plain hop]
    · intro x hx hxe _
      exact merge_plain hop
  refine plain_correct hw hr (merge_plain hop) hfits ?_ ?_
  · intro x hx
    simp only [List.mem_singleton] at hx
    subst hx
    exact merge_plain hop
  · intro x hx hxe j hup k o k1 o1 hk hf hp hs
    have := merge_passes' hop hp
    subst this
    simp only [List.getElem?_cons_zero, Option.some.injEq] at hs
    subst hs
    obtain ⟨o', ho', hf'⟩ := hflow o (List.mem_of_getElem? hk) x hx hxe j hf
    obtain ⟨i, hi⟩ := List.mem_iff_getElem?.mp ho'
    exact (hup o' (hold o' ho') hf').trans
      (.step (x := ⟨n.id, n.op, [], ops⟩) (new_mem hfits (by simp)) hi (merge_passes hop n.id i) (.refl _))

/-- Passing the operands on. -/
theorem forward_fits (hn : n ∈ G.nodes) (souts : List SOut) (hold : ∀ o ∈ souts, OldS G n o)
    (hlen : ∀ k, n.hasState k → k < souts.length) (hval : ∀ k, ¬ n.hasValue k) :
    Fits G n [] [] souts :=
  ⟨hn, by simp, by simp, by simp, by simp, fun o ho => Or.inl (hold o ho), by simp, hlen,
    fun k hk => absurd hk (hval k), Or.inl rfl, by simp⟩

/-! ### The value of a node -/

/-- the operands of an executed node have their final values -/
theorem final_operands (hw : G.Wf) {p q : List Node} {x : Node} (e : G.live = p ++ x :: q) :
    x.vals.map (exec sem s p).env = x.vals.map (G.final sem s).env := by
  apply map_env_congr
  intro v hv
  have h : (G.final sem s).env v = (exec sem (exec sem s p) (x :: q)).env v := by
    show (exec sem s G.live).env v = _
    rw [e, exec_append]
  rw [h]
  symm
  apply exec_env_other
  intro i hi hin
  have h1 := live_topo hw p x q e i (mem_needs_vals hv hi)
  have nd := live_nodup hw
  rw [e, List.map_append, List.nodup_append] at nd
  exact nd.2.2 _ h1 _ hin rfl

/-- the outputs of an executed node -/
theorem final_output (hw : G.Wf) {p q : List Node} {x : Node} (e : G.live = p ++ x :: q) (k : Nat) :
    (G.final sem s).env (.res x.id k) =
      ((sem.apply x.op (x.vals.map (G.final sem s).env) (exec sem s p).mem).1[k]?).getD
        ((exec sem s p).env (.res x.id k)) := by
  have h : (G.final sem s).env (.res x.id k) = (step sem (exec sem s p) x).env (.res x.id k) := by
    show (exec sem s G.live).env _ = _
    rw [e, exec_append, exec_cons, exec_env_other]
    intro i hi hin
    simp only [VOut.owners, List.mem_singleton] at hi
    subst hi
    have nd := live_nodup hw
    rw [e, List.map_append, List.nodup_append] at nd
    exact (List.nodup_cons.mp nd.2.1).1 hin
  rw [h]
  show (if x.id = x.id then _ else _) = _
  rw [if_pos rfl, final_operands hw e]

/-- a byte that nobody writes in between -/
theorem mem_unchanged (hw : G.Wf) {p q r : List Node} (e : G.live = p ++ (q ++ r)) {b : Nat}
    (h : ∀ w ∈ q, ¬ sem.writes w.op (w.vals.map (G.final sem s).env) b) :
    (exec sem s (p ++ q)).mem b = (exec sem s p).mem b := by
  induction q using List.reverseRecOn generalizing r with
  | nil => simp
  | append_singleton q x ih =>
    have e1 : G.live = p ++ (q ++ (x :: r)) := by rw [e]; simp
    have e2 : G.live = (p ++ q) ++ x :: r := by rw [e1]; simp
    rw [← List.append_assoc, exec_append]
    show (sem.apply x.op (x.vals.map (exec sem s (p ++ q)).env) (exec sem s (p ++ q)).mem).2 b = _
    rw [final_operands hw e2, apply_frame _ _ _ _ (h x (by simp))]
    exact ih e1 fun w hw' => h w (by simp [hw'])

end Jlm.Mem
