import Verif.Mem.NormExit
/-
C38, examples: regions that meet the hypotheses of the theorems, and regions for which the
normalizations of /repo are wrong.
-/
set_option linter.unusedSimpArgs false
set_option linter.unusedVariables false
namespace Jlm.Mem

/-! ### Checks -/

def topoB : List Nat → List Node → Bool
  | _, [] => true
  | seen, x :: l => x.needs.all (fun i => decide (i ∈ seen)) && topoB (x.id :: seen) l

theorem topo_of : ∀ (l : List Node) (seen : List Nat), topoB seen l = true →
    ∀ p x q, l = p ++ x :: q → ∀ i ∈ x.needs, i ∈ seen ∨ i ∈ p.map Node.id := by
  intro l
  induction l with
  | nil =>
    intro seen _ p x q e
    simp at e
  | cons y l ih =>
    intro seen h p x q e i hi
    simp only [topoB, Bool.and_eq_true, List.all_eq_true, decide_eq_true_eq] at h
    match p, e with
    | [], e =>
      simp only [List.nil_append, List.cons.injEq] at e
      rw [← e.1] at hi
      exact Or.inl (h.1 i hi)
    | z :: p, e =>
      simp only [List.cons_append, List.cons.injEq] at e
      rcases ih _ h.2 p x q e.2 i hi with h1 | h1
      · rcases List.mem_cons.mp h1 with h2 | h2
        · exact Or.inr (by rw [h2, e.1]; simp)
        · exact Or.inl h2
      · exact Or.inr (List.mem_cons_of_mem _ h1)

theorem topo_check {l : List Node} (h : topoB [] l = true) : Topo l := by
  intro p x q e i hi
  rcases topo_of l [] h p x q e i hi with h1 | h1
  · simp at h1
  · exact h1

instance (x : Node) (k : Nat) : Decidable (x.hasState k) := by
  unfold Node.hasState; split <;> infer_instance

instance (x : Node) (k : Nat) : Decidable (x.hasValue k) := by
  unfold Node.hasValue; split <;> infer_instance

def okS (G : Graph) : SOut → Bool
  | .arg _ => true
  | .res i k => G.nodes.all fun x => decide (x.id = i → x.hasState k)

def okV (G : Graph) : VOut → Bool
  | .arg _ => true
  | .res i k => G.nodes.all fun x => decide (x.id = i → x.hasValue k)

def wfB (G : Graph) : Bool :=
  decide (G.nodes.map Node.id).Nodup && topoB [] G.nodes &&
  G.needs.all (fun i => decide (i ∈ G.nodes.map Node.id)) &&
  G.sres.all (okS G) && G.nodes.all (fun y => y.states.all (okS G)) &&
  G.vres.all (okV G) && G.nodes.all (fun y => y.vals.all (okV G))

theorem wf_check {G : Graph} (h : wfB G = true) : G.Wf := by
  simp only [wfB, Bool.and_eq_true, List.all_eq_true, decide_eq_true_eq] at h
  obtain ⟨⟨⟨⟨⟨⟨h1, h2⟩, h3⟩, h4⟩, h5⟩, h6⟩, h7⟩ := h
  refine ⟨h1, topo_check h2, h3, ?_, ?_⟩
  · intro x hx k hk
    have : okS G (.res x.id k) = true := by
      rcases hk with h | ⟨y, hy, h⟩
      · exact h4 _ h
      · exact h5 y hy _ h
    simp only [okS, List.all_eq_true, decide_eq_true_eq] at this
    exact this x hx rfl
  · intro x hx k hk
    have : okV G (.res x.id k) = true := by
      rcases hk with h | ⟨y, hy, h⟩
      · exact h6 _ h
      · exact h7 y hy _ h
    simp only [okV, List.all_eq_true, decide_eq_true_eq] at this
    exact this x hx rfl

theorem schedule_check {G : Graph} {l : List Node} (h : decide (l.Perm G.live) && topoB [] l = true) :
    Schedule G l := by
  simp only [Bool.and_eq_true, decide_eq_true_eq] at h
  exact ⟨h.1, topo_check h.2⟩

theorem pairs_check {R : Node → Node → Prop} {l : List Node} (h : l.Pairwise R) :
    ∀ p x q y r, l = p ++ x :: (q ++ y :: r) → R x y := by
  intro p x q y r e
  rw [e, List.pairwise_append] at h
  exact (List.pairwise_cons.mp h.2.1).1 y (by simp)

/-! ### A semantics -/

/-- One byte is a number; a value of type `t` has `t + 1` bytes, of which the first one counts. The
alloca `a` is at address `100 + a`. The other operations do nothing. -/
def exSem : Sem Nat Nat where
  addr := id
  size := fun t => t + 1
  enc := fun _ v _ => v
  dec := fun _ f => f 0
  dec_local := fun t f g h => h 0 (Nat.succ_pos t)
  place := fun a => 100 + a
  other := fun _ _ m => ([], m)
  rd := fun _ _ _ => False
  wr := fun _ _ _ => False
  frame := fun _ _ _ _ _ => rfl
  local_values := fun _ _ _ _ _ => rfl
  local_memory := fun _ _ _ _ _ _ h => h.elim

/-- the arguments are `7, 8, 9, …`, the memory is `0` -/
def exState : State Nat Nat where
  env := fun o => match o with
    | .arg i => 7 + i
    | .res _ _ => 0
  mem := fun _ => 0

def nowhere : Nat → Prop := fun _ => False
def everywhere : Nat → Prop := fun _ => True

/-! ### Loads from allocas -/

/-- a load from the first alloca followed by a store to it -/
def exLoad : Node := ⟨3, .load 0, [.res 1 0], [.res 2 0, .res 1 0]⟩
def exAllocas : Graph where
  nodes := [⟨1, .alloca 1, [], []⟩, ⟨2, .alloca 2, [], []⟩, exLoad,
    ⟨4, .store 0, [.res 1 0, .arg 0], [.res 3 1]⟩]
  vres := [.res 3 0]
  sres := [.res 3 0, .res 4 0]

theorem exAllocas_wf : exAllocas.Wf := wf_check (by decide +kernel)

theorem exAllocas_free : RaceFree exSem exState nowhere exAllocas := by
  refine ⟨?_, fun x _ b hb => hb.elim⟩
  have e : exAllocas.live = exAllocas.nodes := by decide +kernel
  rw [e]
  apply pairs_check (R := fun x y => Conflict exSem (exAllocas.final exSem exState).env x y →
    Before exAllocas.nodes x y)
  simp only [exAllocas, List.pairwise_cons, List.mem_cons, List.not_mem_nil, or_false,
    forall_eq_or_imp, forall_eq, exLoad]
  refine ⟨⟨?_, ?_, ?_⟩, ⟨?_, ?_⟩, ?_, by simp, by simp⟩
  · rintro ⟨b, h⟩; simp [Sem.reads, Sem.writes] at h
  · rintro ⟨b, h⟩; simp [Sem.reads, Sem.writes] at h
  · rintro ⟨b, h⟩; simp [Sem.reads, Sem.writes] at h
  · rintro ⟨b, h⟩; simp [Sem.reads, Sem.writes] at h
  · rintro ⟨b, h⟩; simp [Sem.reads, Sem.writes] at h
  · intro _
    exact ⟨1, .res 3 1, by simp, .refl _⟩

/-- **NormalizeLoadAlloca of /repo permutes the states**: the store may overwrite what the load
reads. -/
theorem C38_load_alloca_wrong :
    ¬ Correct exSem exState nowhere exAllocas ((loadAlloca exAllocas exLoad 0).apply exAllocas exLoad) := by
  rintro ⟨_, _, h⟩
  have h1 := (h [⟨1, .alloca 1, [], []⟩, ⟨2, .alloca 2, [], []⟩, exLoad,
      ⟨4, .store 0, [.res 1 0, .arg 0], [.res 3 1]⟩]
    [⟨1, .alloca 1, [], []⟩, ⟨2, .alloca 2, [], []⟩,
      ⟨4, .store 0, [.res 1 0, .arg 0], [.res 2 0]⟩, ⟨3, .load 0, [.res 1 0], [.res 1 0]⟩]
    (schedule_check (by decide +kernel)) (schedule_check (by decide +kernel))).1
  revert h1
  decide +kernel

/-- with the results in the order of the operands it is correct for this region -/
theorem C38_load_alloca_fixed_applies :
    Correct exSem exState nowhere exAllocas
        ((loadAllocaFixed exAllocas exLoad 0).apply exAllocas exLoad) ∧
      (loadAllocaFixed exAllocas exLoad 0).apply exAllocas exLoad ≠ exAllocas := by
  refine ⟨C38_load_alloca_fixed exAllocas_wf exAllocas_free (by simp [exAllocas]) 0 rfl ?_,
    by decide +kernel⟩
  intro A y hA hy hc hb
  refine ⟨1, .res 1 0, rfl, ?_, ?_⟩
  · have : A = ⟨1, .alloca 1, [], []⟩ := by
      have h : exAllocas.allocaOf (exLoad.vals.headD (.arg 0)) = some ⟨1, .alloca 1, [], []⟩ := by
        decide +kernel
      rw [h] at hA
      simpa using hA.symm
    subst this
    decide +kernel
  · have hy' := live_mem hy
    simp only [exAllocas, List.mem_cons, List.not_mem_nil, or_false] at hy'
    rcases hy' with rfl | rfl | rfl | rfl
    · obtain ⟨b, h⟩ := hc; simp [Sem.reads, Sem.writes, exLoad] at h
    · obtain ⟨b, h⟩ := hc; simp [Sem.reads, Sem.writes, exLoad] at h
    · obtain ⟨b, h⟩ := hc; simp [Sem.reads, Sem.writes, exLoad] at h
    · exact ⟨.res 3 1, by simp, .refl _⟩

/-! ### Stores to allocas -/

def exStore : Node := ⟨3, .store 0, [.res 1 0, .arg 0], [.res 2 0, .res 1 0]⟩
def exStored : Graph where
  nodes := [⟨1, .alloca 1, [], []⟩, ⟨2, .alloca 2, [], []⟩, exStore,
    ⟨4, .load 0, [.res 1 0], [.res 3 1]⟩]
  vres := [.res 4 0]
  sres := [.res 3 0, .res 4 0]

theorem exStored_wf : exStored.Wf := wf_check (by decide +kernel)

theorem exStored_free : RaceFree exSem exState nowhere exStored := by
  refine ⟨?_, fun x _ b hb => hb.elim⟩
  have e : exStored.live = exStored.nodes := by decide +kernel
  rw [e]
  apply pairs_check (R := fun x y => Conflict exSem (exStored.final exSem exState).env x y →
    Before exStored.nodes x y)
  simp only [exStored, List.pairwise_cons, List.mem_cons, List.not_mem_nil, or_false,
    forall_eq_or_imp, forall_eq, exStore]
  refine ⟨⟨?_, ?_, ?_⟩, ⟨?_, ?_⟩, ?_, by simp, by simp⟩
  · rintro ⟨b, h⟩; simp [Sem.reads, Sem.writes] at h
  · rintro ⟨b, h⟩; simp [Sem.reads, Sem.writes] at h
  · rintro ⟨b, h⟩; simp [Sem.reads, Sem.writes] at h
  · rintro ⟨b, h⟩; simp [Sem.reads, Sem.writes] at h
  · rintro ⟨b, h⟩; simp [Sem.reads, Sem.writes] at h
  · intro _
    exact ⟨1, .res 3 1, by simp, .refl _⟩

/-- **NormalizeStoreAlloca of /repo returns the states in any order**: for the order of insertion
into the set the load may come before the store. -/
theorem C38_store_alloca_wrong :
    ¬ Correct exSem exState nowhere exStored
      ((storeAlloca exStored id exStore 0).apply exStored exStore) := by
  rintro ⟨_, _, h⟩
  have h1 := (h exStored.nodes
    [⟨1, .alloca 1, [], []⟩, ⟨2, .alloca 2, [], []⟩,
      ⟨4, .load 0, [.res 1 0], [.res 2 0]⟩, ⟨3, .store 0, [.res 1 0, .arg 0], [.res 1 0]⟩]
    (schedule_check (by decide +kernel)) (schedule_check (by decide +kernel))).1
  revert h1
  decide +kernel

/-- with the results in the order of the operands it is correct for this region -/
theorem C38_store_alloca_fixed_applies :
    Correct exSem exState nowhere exStored
        ((storeAllocaFixed exStored exStore 0).apply exStored exStore) ∧
      (storeAllocaFixed exStored exStore 0).apply exStored exStore ≠ exStored := by
  refine ⟨C38_store_alloca_fixed exStored_wf exStored_free (by simp [exStored]) 0 rfl
    (by decide +kernel) ?_, by decide +kernel⟩
  intro o ho
  have : o = .res 1 0 := by
    have h : exStored.storeAllocaState exStore = some (.res 1 0) := by decide +kernel
    rw [h] at ho
    simpa using ho.symm
  subst this
  refine ⟨?_, ?_, ?_⟩
  · intro x hx hc hb
    have hx' := live_mem hx
    simp only [exStored, List.mem_cons, List.not_mem_nil, or_false] at hx'
    rcases hx' with rfl | rfl | rfl | rfl
    · obtain ⟨b, h⟩ := hc; simp [Sem.reads, Sem.writes, exStore] at h
    · obtain ⟨b, h⟩ := hc; simp [Sem.reads, Sem.writes, exStore] at h
    · exfalso
      obtain ⟨k, o, ho, hf⟩ := hb
      simp only [exStore, List.mem_cons, List.not_mem_nil, or_false] at ho
      rcases ho with rfl | rfl
      · rcases hf.last with h | ⟨y, hy, i, o1, h1, h2, h3⟩
        · simp [exStore] at h
        · simp only [exStored, List.mem_cons, List.not_mem_nil, or_false] at hy
          rcases hy with rfl | rfl | rfl | rfl <;> simp [passes, exStore] at h3
      · rcases hf.last with h | ⟨y, hy, i, o1, h1, h2, h3⟩
        · simp [exStore] at h
        · simp only [exStored, List.mem_cons, List.not_mem_nil, or_false] at hy
          rcases hy with rfl | rfl | rfl | rfl <;> simp [passes, exStore] at h3
    · exfalso
      obtain ⟨k, o, ho, hf⟩ := hb
      simp only [exStore, List.mem_cons, List.not_mem_nil, or_false] at ho
      rcases ho with rfl | rfl
      · rcases hf.last with h | ⟨y, hy, i, o1, h1, h2, h3⟩
        · simp [exStore] at h
        · simp only [exStored, List.mem_cons, List.not_mem_nil, or_false] at hy
          rcases hy with rfl | rfl | rfl | rfl <;> simp [passes, exStore] at h3
      · rcases hf.last with h | ⟨y, hy, i, o1, h1, h2, h3⟩
        · simp [exStore] at h
        · simp only [exStored, List.mem_cons, List.not_mem_nil, or_false] at hy
          rcases hy with rfl | rfl | rfl | rfl <;> simp [passes, exStore] at h3
  · intro y hy hc hb
    have hy' := live_mem hy
    simp only [exStored, List.mem_cons, List.not_mem_nil, or_false] at hy'
    rcases hy' with rfl | rfl | rfl | rfl
    · obtain ⟨b, h⟩ := hc; simp [Sem.reads, Sem.writes, exStore] at h
    · obtain ⟨b, h⟩ := hc; simp [Sem.reads, Sem.writes, exStore] at h
    · exfalso
      obtain ⟨k, o, ho, hf⟩ := hb
      simp only [exStore, List.mem_cons, List.not_mem_nil, or_false] at ho
      rcases ho with rfl | rfl
      · rcases hf.last with h | ⟨y, hy, i, o1, h1, h2, h3⟩
        · simp [exStore] at h
        · simp only [exStored, List.mem_cons, List.not_mem_nil, or_false] at hy
          rcases hy with rfl | rfl | rfl | rfl <;> simp [passes, exStore] at h3
      · rcases hf.last with h | ⟨y, hy, i, o1, h1, h2, h3⟩
        · simp [exStore] at h
        · simp only [exStored, List.mem_cons, List.not_mem_nil, or_false] at hy
          rcases hy with rfl | rfl | rfl | rfl <;> simp [passes, exStore] at h3
    · exact ⟨1, .res 1 0, rfl, by simp, .res 3 1, by simp, .refl _⟩
  · intro b hb
    exact hb.elim

/-! ### Loads behind stores to other allocas -/

def exLast : Node := ⟨5, .load 0, [.res 1 0], [.res 4 0, .res 1 0]⟩
/-- stores to both allocas on one chain of states, then a load from the first one -/
def exChain : Graph where
  nodes := [⟨1, .alloca 1, [], []⟩, ⟨2, .alloca 2, [], []⟩,
    ⟨3, .store 0, [.res 1 0, .arg 0], [.arg 0]⟩, ⟨4, .store 0, [.res 2 0, .arg 0], [.res 3 0]⟩,
    exLast]
  vres := [.res 5 0]
  sres := [.res 5 0, .res 5 1]

theorem exChain_wf : exChain.Wf := wf_check (by decide +kernel)

theorem exChain_free : RaceFree exSem exState nowhere exChain := by
  refine ⟨?_, fun x _ b hb => hb.elim⟩
  have e : exChain.live = exChain.nodes := by decide +kernel
  rw [e]
  apply pairs_check (R := fun x y => Conflict exSem (exChain.final exSem exState).env x y →
    Before exChain.nodes x y)
  simp only [exChain, List.pairwise_cons, List.mem_cons, List.not_mem_nil, or_false,
    forall_eq_or_imp, forall_eq, exLast]
  refine ⟨⟨?_, ?_, ?_, ?_⟩, ⟨?_, ?_, ?_⟩, ⟨?_, ?_⟩, ?_, by simp, by simp⟩
  · rintro ⟨b, h⟩; simp [Sem.reads, Sem.writes] at h
  · rintro ⟨b, h⟩; simp [Sem.reads, Sem.writes] at h
  · rintro ⟨b, h⟩; simp [Sem.reads, Sem.writes] at h
  · rintro ⟨b, h⟩; simp [Sem.reads, Sem.writes] at h
  · rintro ⟨b, h⟩; simp [Sem.reads, Sem.writes] at h
  · rintro ⟨b, h⟩; simp [Sem.reads, Sem.writes] at h
  · rintro ⟨b, h⟩; simp [Sem.reads, Sem.writes] at h
  · intro _
    exact ⟨0, .res 3 0, by simp, .refl _⟩
  · intro _
    exact ⟨0, .res 4 0, by simp, .step (x := ⟨4, .store 0, [.res 2 0, .arg 0], [.res 3 0]⟩) (k := 0)
      (o' := .res 4 0) (by simp) rfl ⟨rfl, rfl⟩ (.refl _)⟩
  · intro _
    exact ⟨0, .res 4 0, by simp, .refl _⟩

/-- **NormalizeLoadStoreState of /repo**: the dropped state may order other accesses, too. -/
theorem C38_load_store_state_wrong :
    ¬ Correct exSem exState nowhere exChain
      ((loadStoreState exChain exLast 0).apply exChain exLast) := by
  rintro ⟨_, _, h⟩
  have h1 := (h exChain.nodes
    [⟨1, .alloca 1, [], []⟩, ⟨2, .alloca 2, [], []⟩, ⟨5, .load 0, [.res 1 0], [.res 1 0]⟩,
      ⟨3, .store 0, [.res 1 0, .arg 0], [.arg 0]⟩, ⟨4, .store 0, [.res 2 0, .arg 0], [.res 3 0]⟩]
    (schedule_check (by decide +kernel)) (schedule_check (by decide +kernel))).1
  revert h1
  decide +kernel

/-! ### Two stores to the same address -/

def exSecond : Node := ⟨2, .store 0, [.arg 5, .arg 1], [.res 1 0]⟩
/-- two stores to the same address; the first one has two states -/
def exTwice : Graph where
  nodes := [⟨1, .store 0, [.arg 5, .arg 0], [.arg 0, .arg 1]⟩, exSecond]
  vres := []
  sres := [.res 2 0, .res 1 1]

theorem exTwice_wf : exTwice.Wf := wf_check (by decide +kernel)

theorem exTwice_free : RaceFree exSem exState everywhere exTwice := by
  have e : exTwice.live = exTwice.nodes := by decide +kernel
  refine ⟨?_, ?_⟩
  · rw [e]
    apply pairs_check (R := fun x y => Conflict exSem (exTwice.final exSem exState).env x y →
      Before exTwice.nodes x y)
    simp only [exTwice, List.pairwise_cons, List.mem_cons, List.not_mem_nil, or_false,
      forall_eq_or_imp, forall_eq, exSecond]
    refine ⟨?_, by simp, by simp⟩
    intro _
    exact ⟨0, .res 1 0, by simp, .refl _⟩
  · intro x hx b _ _
    have hx' := live_mem hx
    simp only [exTwice, List.mem_cons, List.not_mem_nil, or_false] at hx'
    rcases hx' with rfl | rfl
    · exact ⟨1, .res 1 1, by simp [exTwice], .refl _⟩
    · exact ⟨0, .res 2 0, by simp [exTwice], .refl _⟩

/-- **normalizeStoreStore of /repo** looks only at the users of the states of the second store: if
the first one has a further output, it stays, and may come last. -/
theorem C38_store_store_wrong :
    ¬ Correct exSem exState everywhere exTwice
      ((storeStore exTwice id exSem.size exSecond 0).apply exTwice exSecond) := by
  rintro ⟨_, _, h⟩
  have h1 := (h exTwice.nodes
    [⟨2, .store 0, [.arg 5, .arg 1], [.arg 0]⟩, ⟨1, .store 0, [.arg 5, .arg 0], [.arg 0, .arg 1]⟩]
    (schedule_check (by decide +kernel)) (schedule_check (by decide +kernel))).2 12 trivial
  revert h1
  decide +kernel

/-- two stores to the same address, the second one larger -/
def exOver : Graph where
  nodes := [⟨1, .store 0, [.arg 5, .arg 0], [.arg 0]⟩, ⟨2, .store 1, [.arg 5, .arg 1], [.res 1 0]⟩]
  vres := []
  sres := [.res 2 0]

theorem exOver_wf : exOver.Wf := wf_check (by decide +kernel)

theorem exOver_free : RaceFree exSem exState everywhere exOver := by
  have e : exOver.live = exOver.nodes := by decide +kernel
  refine ⟨?_, ?_⟩
  · rw [e]
    apply pairs_check (R := fun x y => Conflict exSem (exOver.final exSem exState).env x y →
      Before exOver.nodes x y)
    simp only [exOver, List.pairwise_cons, List.mem_cons, List.not_mem_nil, or_false,
      forall_eq_or_imp, forall_eq]
    refine ⟨?_, by simp, by simp⟩
    intro _
    exact ⟨0, .res 1 0, by simp, .refl _⟩
  · intro x hx b _ _
    have hx' := live_mem hx
    simp only [exOver, List.mem_cons, List.not_mem_nil, or_false] at hx'
    rcases hx' with rfl | rfl
    · exact ⟨0, .res 2 0, by simp [exOver], .step (x := ⟨2, .store 1, [.arg 5, .arg 1], [.res 1 0]⟩)
        (k := 0) (o' := .res 2 0) (by simp [exOver]) rfl ⟨rfl, rfl⟩ (.refl _)⟩
    · exact ⟨0, .res 2 0, by simp [exOver], .refl _⟩

/-- here the first store is removed, correctly -/
theorem C38_store_store_applies :
    let n : Node := ⟨2, .store 1, [.arg 5, .arg 1], [.res 1 0]⟩
    Correct exSem exState everywhere exOver ((storeStore exOver id exSem.size n 1).apply exOver n) ∧
      ((storeStore exOver id exSem.size n 1).apply exOver n).live =
        [⟨2, .store 1, [.arg 5, .arg 1], [.arg 0]⟩] := by
  refine ⟨C38_store_store_partial exOver_wf exOver_free (by simp [exOver]) 1 rfl id _ rfl
    (fun a b h => by rw [id, id] at h; rw [h]) ?_, by decide +kernel⟩
  intro st hst o k ho hown
  simp only [List.mem_singleton] at ho
  subst ho
  have : st = ⟨1, .store 0, [.arg 5, .arg 0], [.arg 0]⟩ := by
    have h : exOver.owner (.res 1 0) = some ⟨1, .store 0, [.arg 5, .arg 0], [.arg 0]⟩ := by
      decide +kernel
    rw [h] at hown
    simpa using hown.symm
  subst this
  refine ⟨by simp [exOver], ?_⟩
  intro y hy hk
  simp only [exOver, List.mem_cons, List.not_mem_nil, or_false] at hy
  rcases hy with rfl | rfl
  · simp at hk
  · rfl

/-! ### Stores of merged states -/

/-- **NormalizeStoreMux of /repo** returns one state, whatever the number of states of the store. -/
theorem C38_store_mux_wrong :
    let n : Node := ⟨2, .store 0, [.arg 5, .arg 0], [.res 1 0, .res 1 0]⟩
    let G : Graph := ⟨[⟨1, .merge, [], [.arg 0, .arg 1]⟩, n], [], [.res 2 0, .res 2 1]⟩
    G.Wf ∧ ∃ new, storeMux G 3 n 0 = .becomes new [] [.res 3 0] ∧ n.states.length = 2 :=
  ⟨wf_check (by decide +kernel), _, rfl, rfl⟩

/-- **NormalizeStoreMux of /repo** fails an assertion for a store without memory states. -/
theorem C38_store_mux_crash (G : Graph) (fresh t : Nat) (n : Node) (h : n.states = []) :
    storeMux G fresh n t = .crash := by
  simp [storeMux, h]

/-! ### Splits of merges -/

def exSplit : Node := ⟨3, .split 2, [], [.res 2 0]⟩
/-- a store, then a load on the other result of a split -/
def exSplits : Graph where
  nodes := [⟨1, .store 0, [.arg 5, .arg 0], [.arg 0]⟩, ⟨2, .merge, [], [.res 1 0, .arg 1]⟩, exSplit,
    ⟨4, .load 0, [.arg 5], [.res 3 1]⟩]
  vres := [.res 4 0]
  sres := [.res 3 0, .res 4 0]

theorem exSplits_wf : exSplits.Wf := wf_check (by decide +kernel)

theorem exSplits_free : RaceFree exSem exState nowhere exSplits := by
  refine ⟨?_, fun x _ b hb => hb.elim⟩
  have e : exSplits.live = exSplits.nodes := by decide +kernel
  rw [e]
  apply pairs_check (R := fun x y => Conflict exSem (exSplits.final exSem exState).env x y →
    Before exSplits.nodes x y)
  simp only [exSplits, List.pairwise_cons, List.mem_cons, List.not_mem_nil, or_false,
    forall_eq_or_imp, forall_eq, exSplit]
  refine ⟨⟨?_, ?_, ?_⟩, ⟨?_, ?_⟩, ?_, by simp, by simp⟩
  · rintro ⟨b, h⟩; simp [Sem.reads, Sem.writes] at h
  · rintro ⟨b, h⟩; simp [Sem.reads, Sem.writes] at h
  · intro _
    refine ⟨0, .res 3 1, by simp, ?_⟩
    refine .step (x := ⟨2, .merge, [], [.res 1 0, .arg 1]⟩) (k := 0) (o' := .res 2 0) (by simp) rfl
      ⟨rfl, rfl⟩ ?_
    exact .step (x := ⟨3, .split 2, [], [.res 2 0]⟩) (k := 0) (o' := .res 3 1) (by simp) rfl
      ⟨rfl, trivial⟩ (.refl _)
  · rintro ⟨b, h⟩; simp [Sem.reads, Sem.writes] at h
  · rintro ⟨b, h⟩; simp [Sem.reads, Sem.writes] at h
  · rintro ⟨b, h⟩; simp [Sem.reads, Sem.writes] at h

/-- **NormalizeSplitMerge of /repo** loses the order between an access on one operand of the merge
and an access on another result of the split. -/
theorem C38_split_merge_wrong :
    ¬ Correct exSem exState nowhere exSplits
      ((splitMerge exSplits exSplit 2).apply exSplits exSplit) := by
  rintro ⟨_, _, h⟩
  have h1 := (h exSplits.nodes
    [⟨4, .load 0, [.arg 5], [.arg 1]⟩, ⟨1, .store 0, [.arg 5, .arg 0], [.arg 0]⟩]
    (schedule_check (by decide +kernel)) (schedule_check (by decide +kernel))).1
  revert h1
  decide +kernel

/-! ### Forwarding and the exit -/

/-- a store to an alloca, a load from it, and the exit -/
def exExit : Graph where
  nodes := [⟨1, .alloca 1, [], []⟩, ⟨2, .store 0, [.res 1 0, .arg 0], [.res 1 0]⟩,
    ⟨3, .load 0, [.res 1 0], [.res 2 0]⟩, ⟨4, .exitMerge, [], [.res 3 0, .arg 0]⟩]
  vres := [.res 3 0]
  sres := [.res 4 0]

def notAlloca : Nat → Prop := fun b => b < 100

theorem exExit_wf : exExit.Wf := wf_check (by decide +kernel)

theorem exExit_addr : (exExit.final exSem exState).env (.res 1 0) = 101 := by decide +kernel

theorem exExit_free : RaceFree exSem exState notAlloca exExit := by
  have e : exExit.live = exExit.nodes := by decide +kernel
  refine ⟨?_, ?_⟩
  · rw [e]
    apply pairs_check (R := fun x y => Conflict exSem (exExit.final exSem exState).env x y →
      Before exExit.nodes x y)
    simp only [exExit, List.pairwise_cons, List.mem_cons, List.not_mem_nil, or_false,
      forall_eq_or_imp, forall_eq]
    refine ⟨⟨?_, ?_, ?_⟩, ⟨?_, ?_⟩, ?_, by simp, by simp⟩
    · rintro ⟨b, h⟩; simp [Sem.reads, Sem.writes] at h
    · rintro ⟨b, h⟩; simp [Sem.reads, Sem.writes] at h
    · rintro ⟨b, h⟩; simp [Sem.reads, Sem.writes] at h
    · intro _
      exact ⟨0, .res 2 0, by simp, .refl _⟩
    · rintro ⟨b, h⟩; simp [Sem.reads, Sem.writes] at h
    · rintro ⟨b, h⟩; simp [Sem.reads, Sem.writes] at h
  · intro x hx b hb hwr
    exfalso
    have hx' := live_mem hx
    simp only [exExit, List.mem_cons, List.not_mem_nil, or_false] at hx'
    rcases hx' with rfl | rfl | rfl | rfl
    · exact hwr.elim
    · have h : 101 ≤ b := by
        have := hwr.1
        rw [exExit_addr] at this
        exact this
      have : b < 100 := hb
      omega
    · exact hwr.elim
    · exact hwr.elim

theorem C38_load_store_applies :
    let n : Node := ⟨3, .load 0, [.res 1 0], [.res 2 0]⟩
    Correct exSem exState notAlloca exExit ((loadStore exExit n 0).apply exExit n) ∧
      ((loadStore exExit n 0).apply exExit n).vres = [.arg 0] :=
  ⟨C38_load_store exExit_wf exExit_free (by simp [exExit]) 0 rfl (fun _ _ _ _ _ _ => rfl),
    by decide +kernel⟩

theorem C38_exit_applies :
    let n : Node := ⟨4, .exitMerge, [], [.res 3 0, .arg 0]⟩
    Correct exSem exState notAlloca exExit ((exitLoad exExit n).apply exExit n) ∧
      (exitLoad exExit n).apply exExit n ≠ exExit := by
  refine ⟨C38_exit_load exExit_wf exExit_free (by simp [exExit]) rfl ?_, by decide +kernel⟩
  intro k y hy
  simp only [exExit, List.mem_cons, List.not_mem_nil, or_false] at hy
  rcases hy with rfl | rfl | rfl | rfl <;> simp

/-- the other normalizations of the exit: their hypotheses hold for the region after the first one -/
theorem C38_exit_store_applies :
    let n : Node := ⟨4, .exitMerge, [], [.res 2 0, .arg 0]⟩
    let G : Graph := ⟨[⟨1, .alloca 1, [], []⟩, ⟨2, .store 0, [.res 1 0, .arg 0], [.res 1 0]⟩,
      ⟨3, .load 0, [.res 1 0], [.res 2 0]⟩, n], [.res 3 0], [.res 4 0]⟩
    Correct exSem exState notAlloca G ((exitStore G n).apply G n) ∧
      (exitStore G n).apply G n ≠ G := by
  have h0 : (⟨[⟨1, .alloca 1, [], []⟩, ⟨2, .store 0, [.res 1 0, .arg 0], [.res 1 0]⟩,
      ⟨3, .load 0, [.res 1 0], [.res 2 0]⟩, ⟨4, .exitMerge, [], [.res 2 0, .arg 0]⟩],
      [.res 3 0], [.res 4 0]⟩ : Graph) = (exitLoad exExit ⟨4, .exitMerge, [], [.res 3 0, .arg 0]⟩).apply
        exExit ⟨4, .exitMerge, [], [.res 3 0, .arg 0]⟩ := by decide +kernel
  have h1 := C38_exit_applies.1
  rw [← h0] at h1
  refine ⟨C38_exit_store h1.1 h1.2.1 (by simp) rfl ?_ ?_, by decide +kernel⟩
  · intro k y hy
    simp only [List.mem_cons, List.not_mem_nil, or_false] at hy
    rcases hy with rfl | rfl | rfl | rfl <;> simp
  · intro x hx t address value hop hv hal b hb hwr
    have hx' := live_mem hx
    simp only [List.mem_cons, List.not_mem_nil, or_false] at hx'
    rcases hx' with rfl | rfl | rfl | rfl
    · simp at hop
    · have e : (Graph.final exSem (⟨[⟨1, .alloca 1, [], []⟩,
        ⟨2, .store 0, [.res 1 0, .arg 0], [.res 1 0]⟩, ⟨3, .load 0, [.res 1 0], [.res 2 0]⟩,
        ⟨4, .exitMerge, [], [.res 2 0, .arg 0]⟩], [.res 3 0], [.res 4 0]⟩ : Graph) exState).env
          (.res 1 0) = 101 := by decide +kernel
      have h : 101 ≤ b := by
        have := hwr.1
        rw [e] at this
        exact this
      have : b < 100 := hb
      omega
    · simp at hop
    · simp at hop

end Jlm.Mem
