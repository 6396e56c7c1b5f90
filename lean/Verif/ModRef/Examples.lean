import Verif.ModRef.Sound

set_option linter.unusedSimpArgs false

/-! # C49: examples -/

namespace Jlm.ModRef

structure Rec where
  kind : Kind
  targets : List Nat := []
  all : Bool := false
  ext : Bool := false
  size : Option Nat := none
  const : Bool := false

def ptgOf (l : List Rec) : Ptg where
  num := l.length
  kind m := (l[m]?.map Rec.kind).getD .register
  targets m := (l[m]?.map Rec.targets).getD []
  all m := (l[m]?.map Rec.all).getD false
  ext m := (l[m]?.map Rec.ext).getD false
  size m := (l[m]?.bind Rec.size)
  const m := (l[m]?.map Rec.const).getD false

/-- One run of the solver, with given blocklists. -/
def edgeB (P : Prog) (blk : Nat → Nat → Bool) (i : Nat) (s : Solver) (t : Nat) : Solver :=
  let new := (s.sets t).propagate P.ptg (blk t) (s.sets i)
  { sets := fun k => if k = t then new else s.sets k
    work := if MRSet.differ P.ptg.num new (s.sets t) && !s.work.contains t then t :: s.work else s.work }

def runList (P : Prog) (blk : Nat → Nat → Bool) : Nat → Solver → Solver
  | 0, s => s
  | n + 1, s => match s.work with
    | [] => s
    | i :: _ => runList P blk n ((P.targetsOf i).foldl (edgeB P blk i) { s with work := s.work.filter (· != i) })

theorem runList_run (P : Prog) : ∀ n s, P.Run s (runList P P.block n s)
  | 0, s => .done s
  | n + 1, s => by
      unfold runList
      split
      · exact .done s
      · next i w h => exact .pop i (by rw [h]; simp) (runList_run P n _)

/-- A check for well-formed programs. -/
def check (l : List Rec) (nodes : List PNode) : Bool :=
  let P : Prog := ⟨ptgOf l, nodes⟩
  (match l[0]? with | some r => r.kind == .external && r.ext && r.size == none | none => false) &&
  l.all (fun r => r.targets.all fun m => decide (m < l.length) && (ptgOf l).kind m != .register) &&
  l.all (fun r => !r.ext || r.kind != .register) &&
  (List.range l.length).all (fun m => match (ptgOf l).kind m with | .lambda f => P.lambda f == some m | _ => true) &&
  (List.range nodes.length).all (fun i => match nodes[i]? with
    | some n => (match n.parent with
      | none => (match n.kind with | .lambda _ => n.fn == i | _ => false)
      | some p => (match n.kind with | .lambda _ => false | _ => true) && decide (p < i) && (match nodes[p]? with
        | some np => np.fn == n.fn && (match np.kind with | .simple _ => false | _ => true)
        | none => false)) &&
      (match n.kind with | .simple (.alloca m) => decide (m < l.length) | .simple (.malloc m) => decide (m < l.length) | _ => true)
    | none => true)

theorem check_wf {l : List Rec} {nodes : List PNode} (h : check l nodes = true) : Prog.WF ⟨ptgOf l, nodes⟩ := by
  unfold check at h
  simp only [Bool.and_eq_true, List.all_eq_true, List.mem_range] at h
  obtain ⟨⟨⟨⟨h0, h1⟩, h2⟩, h3⟩, h4⟩ := h
  refine ⟨?_, ?_, ?_, ?_, ?_, ?_, ?_⟩
  · cases hr : l[0]? with
    | none => rw [hr] at h0; cases h0
    | some r =>
        rw [hr] at h0
        simp only [Bool.and_eq_true, beq_iff_eq] at h0
        simp [ptgOf, hr, h0.1.1, h0.1.2, h0.2]
  · intro r m hm
    simp only [ptgOf] at hm ⊢
    cases hr : l[r]? with
    | none => rw [hr] at hm; simp at hm
    | some q =>
        rw [hr] at hm
        have := h1 q (List.mem_of_getElem? hr) m hm
        simp only [decide_eq_true_eq, bne_iff_ne, ne_eq, Bool.and_eq_true] at this
        exact this
  · intro m hm
    simp only [ptgOf] at hm ⊢
    cases hr : l[m]? with
    | none => rw [hr] at hm; simp at hm
    | some q =>
        rw [hr] at hm
        have := h2 q (List.mem_of_getElem? hr)
        refine ⟨getElem?_lt hr, ?_⟩
        simp at hm
        simpa [hm] using this
  · intro m hm f hf
    have := h3 m hm
    rw [hf] at this
    simpa using this
  · intro i n hn hp
    have := h4 i (getElem?_lt hn)
    simp only at hn
    rw [hn] at this
    simp only [hp, Bool.and_eq_true] at this
    cases hk : n.kind with
    | lambda m => rw [hk] at this; exact ⟨⟨m, rfl⟩, by simpa using this.1⟩
    | struct => rw [hk] at this; simp at this
    | simple op => rw [hk] at this; simp at this
  · intro i n p hn hp
    have := h4 i (getElem?_lt hn)
    simp only at hn
    rw [hn] at this
    simp only [hp, Bool.and_eq_true, decide_eq_true_eq] at this
    obtain ⟨⟨⟨a, b⟩, c⟩, _⟩ := this
    refine ⟨?_, b, ?_⟩
    · intro m hk; rw [hk] at a; cases a
    · cases hnp : nodes[p]? with
      | none => rw [hnp] at c; cases c
      | some np =>
          rw [hnp] at c
          simp only [Bool.and_eq_true, beq_iff_eq] at c
          refine ⟨np, rfl, c.1, ?_⟩
          intro op hk
          rw [hk] at c; cases c.2
  · intro i m h
    have key : ∀ op, Prog.op ⟨ptgOf l, nodes⟩ i = some op → ∃ n, nodes[i]? = some n ∧ n.kind = .simple op := fun op h => op_iff.1 h
    rcases h with h | h
    · obtain ⟨n, hn, hk⟩ := key _ h
      have := h4 i (getElem?_lt hn)
      rw [hn] at this
      simp only [hk, Bool.and_eq_true, decide_eq_true_eq] at this
      exact this.2
    · obtain ⟨n, hn, hk⟩ := key _ h
      have := h4 i (getElem?_lt hn)
      rw [hn] at this
      simp only [hk, Bool.and_eq_true, decide_eq_true_eq] at this
      exact this.2

/-! ## An alloca in a gamma node -/

/-- `f() { gamma { p = alloca; *p = 1; return p }; return *p }` -/
def nestedRecs : List Rec :=
  [{ kind := .external, ext := true }, { kind := .lambda 0, ext := true }, { kind := .alloca, size := some 4 },
   { kind := .register, targets := [2] }, { kind := .register, targets := [2] }]

def nestedNodes : List PNode :=
  [⟨.lambda 1, none, 0, []⟩, ⟨.struct, some 0, 0, []⟩, ⟨.simple (.alloca 2), some 1, 0, []⟩, ⟨.simple (.store 3 4), some 1, 0, []⟩,
   ⟨.simple (.load 4 4), some 0, 0, []⟩]

def nested : Prog := ⟨ptgOf nestedRecs, nestedNodes⟩

theorem nested_wf : nested.WF := check_wf (by decide +kernel)

theorem nested_calls (b : Option Nat) : ¬ nested.Calls (some 0) b := by
  have h : ∀ n ∈ nested.nodes, ∀ t args sj, n.kind ≠ .simple (.call t args sj) := by
    intro n hn t args sj
    simp only [nested, nestedNodes, List.mem_cons, List.not_mem_nil, or_false] at hn
    rcases hn with rfl | rfl | rfl | rfl | rfl <;> simp
  intro hc
  generalize ha : some 0 = a at hc
  cases hc with
  | call hn hk => exact h _ hn _ _ _ hk
  | out hn hk => exact h _ hn _ _ _ hk
  | back => cases ha
  | outside => cases ha

theorem nested_hidden : nested.Hidden 1 2 := by
  refine ⟨⟨by decide, by decide, ?_⟩, Or.inr ⟨rfl, ⟨.simple (.alloca 2), some 1, 0, []⟩, by simp [nested, nestedNodes], rfl, rfl, Or.inl ?_⟩⟩
  · exact (C49_simple_allocas _ nested_wf.targets 2).1 (by decide +kernel) |>.2.2
  · intro h
    obtain ⟨b, hc, _⟩ := Relation.TransGen.head'_iff.1 h
    exact nested_calls b hc

theorem nested_block : nested.block = fun k m => decide (k = 2 ∧ m = 2) := by
  funext k m
  cases k with
  | zero => simp [Prog.block]
  | succ i =>
      have h := C49_blocked_iff nested nested_wf i m
      have : nested.Hidden i m ↔ i = 1 ∧ m = 2 := by
        constructor
        · rintro ⟨_, ⟨t, args, sj, ho, _⟩ | ⟨_, n, hn, hk, hp, _⟩⟩
          · obtain ⟨n, hn, hk⟩ := op_iff.1 ho
            have hn := List.mem_of_getElem? hn
            simp only [nested, nestedNodes, List.mem_cons, List.not_mem_nil, or_false] at hn
            rcases hn with rfl | rfl | rfl | rfl | rfl <;> simp at hk
          · simp only [nested, nestedNodes, List.mem_cons, List.not_mem_nil, or_false] at hn
            rcases hn with rfl | rfl | rfl | rfl | rfl <;> simp at hk hp
            exact ⟨hp.symm, hk.symm⟩
        · rintro ⟨rfl, rfl⟩; exact nested_hidden
      rw [this] at h
      simp only [Prog.block]
      rw [Bool.eq_iff_iff, h]
      simp

/-- **C49** An alloca in a gamma or theta node is taken for hidden although a pointer to it leaves the node: the gamma node `1` writes to the
alloca, the load `4` after it reads it, and their summaries have no memory node in common. -/
theorem C49_nested_alloca :
    nested.WF ∧ nested.Live 0 ∧ nested.Hidden 1 2 ∧
    MayTouch nested (fun _ _ => False) 1 2 .write ∧ MayTouch nested nested.Hidden 4 2 .read ∧
    ∃ s, nested.Run nested.initialState s ∧ s.work = [] ∧ (nested.final s.sets 0 4 2).has .read = true ∧
      ∀ k < 5, nested.final s.sets 0 1 k = .none := by
  refine ⟨nested_wf, .entry (m := 1) (by decide) (by decide), nested_hidden, ?_, ?_, ?_⟩
  · refine .inner (i := 3) (n := ⟨.simple (.store 3 4), some 1, 0, []⟩) rfl rfl ?_ id
    exact .access (op := .store 3 4) (r := 3) (bytes := some 4) rfl (by simp [Op.accesses]) (Or.inl (by decide)) (by decide)
      (by intro b k h1 h2; cases h1; simp [nested, ptgOf, nestedRecs] at h2; omega)
  · exact .access (op := .load 4 4) (r := 4) (bytes := some 4) rfl (by simp [Op.accesses]) (Or.inl (by decide)) (by decide)
      (by intro b k h1 h2; cases h1; simp [nested, ptgOf, nestedRecs] at h2; omega)
  · refine ⟨runList nested nested.block 20 nested.initialState, runList_run _ _ _, ?_⟩
    rw [nested_block]
    decide +kernel

/-! ## A call that comes back -/

/-- `static int x; int f() { x = 1; ext(); alloca a; g(&a) }  int g(p) { *p = x; f() }` -/
def backRecs : List Rec :=
  [{ kind := .external, ext := true }, { kind := .lambda 0, ext := true }, { kind := .delta, size := some 4 }, { kind := .import_, ext := true },
   { kind := .lambda 5, ext := true }, { kind := .register, targets := [2] }, { kind := .register, targets := [3] },
   { kind := .alloca, size := some 4 }, { kind := .register, targets := [4] }, { kind := .register, targets := [7] },
   { kind := .register, targets := [1] }]

def backNodes : List PNode :=
  [⟨.lambda 1, none, 0, []⟩, ⟨.simple (.store 5 4), some 0, 0, []⟩, ⟨.simple (.call 6 [] false), some 0, 0, []⟩,
   ⟨.simple (.alloca 7), some 0, 0, []⟩, ⟨.simple (.call 8 [9] false), some 0, 0, []⟩,
   ⟨.lambda 4, none, 5, [9]⟩, ⟨.simple (.load 5 4), some 5, 5, [9]⟩, ⟨.simple (.store 9 4), some 5, 5, [9]⟩,
   ⟨.simple (.call 10 [] false), some 5, 5, [9]⟩]

def backProg : Prog := ⟨ptgOf backRecs, backNodes⟩

theorem back_wf : backProg.WF := check_wf (by decide +kernel)

theorem back_store : MayTouch backProg backProg.Hidden 1 2 .write :=
  .access (op := .store 5 4) (r := 5) (bytes := some 4) rfl (by simp [Op.accesses]) (Or.inl (by decide)) (by decide)
    (by intro b k h1 h2; cases h1; simp [backProg, ptgOf, backRecs] at h2; omega)

theorem back_visible (i : Nat) : ¬ backProg.Hidden i 2 := fun h => by
  have := hidden_alloca h
  simp [backProg, ptgOf, backRecs] at this

/-- The call out of the module may read `x`: `g` may be called from there. -/
theorem back_call : MayTouch backProg backProg.Hidden 2 2 .read := by
  refine .back (t := 6) (args := []) (setjmp := false) (f := 5) rfl (Or.inl ⟨3, by decide, by decide⟩)
    (Or.inl ⟨4, by decide, by decide⟩) ?_ (back_visible 2)
  refine .inner (i := 6) (n := ⟨.simple (.load 5 4), some 5, 5, [9]⟩) rfl rfl ?_ (back_visible 5)
  exact .access (op := .load 5 4) (r := 5) (bytes := some 4) rfl (by simp [Op.accesses]) (Or.inl (by decide)) (by decide)
    (by intro b k h1 h2; cases h1; simp [backProg, ptgOf, backRecs] at h2; omega)

example (s : Solver) (hr : backProg.Run backProg.initialState s) (hd : s.work = []) :
    ∃ k, (backProg.final s.sets 0 2 k).has .read = true ∧ (backProg.final s.sets 0 1 k).has .write = true :=
  C49_conflicts_partial backProg back_wf s hr hd 0 2 2 1 _ _ rfl rfl rfl rfl (.entry (m := 1) (by decide) (by decide)) .read back_call back_store

example : ∃ s, backProg.Run backProg.initialState s ∧ s.work = [] := (C49_terminates backProg back_wf).2

/-- `f` is recursive, and the alloca is simple; the call of `g` gets a pointer to it, the call out of the module does not. -/
example : backProg.Recursive 0 ∧ backProg.ptg.Simple 7 ∧ ¬ backProg.Hidden 4 7 ∧ backProg.Hidden 2 7 := by
  have hs : backProg.ptg.Simple 7 := (C49_simple_allocas _ back_wf.targets 7).1 (by decide +kernel)
  refine ⟨?_, hs, ?_, ⟨hs, Or.inl ⟨6, [], false, rfl, ?_⟩⟩⟩
  · refine .tail (.single (b := some 5) ?_) ?_
    · exact .call (n := ⟨.simple (.call 8 [9] false), some 0, 0, []⟩) (t := 8) (k := 4) (by simp [backProg, backNodes]) rfl (by decide) (by decide)
    · exact .call (n := ⟨.simple (.call 10 [] false), some 5, 5, [9]⟩) (t := 10) (k := 1) (by simp [backProg, backNodes]) rfl (by decide) (by decide)
  · rintro ⟨_, ⟨t, args, sj, ho, hl⟩ | ⟨ho, _⟩⟩
    · have : backProg.op 4 = some (.call 8 [9] false) := rfl
      rw [this] at ho; cases ho
      exact hl (.root (r := 9) (by simp) (by decide) hs)
    · have : backProg.op 4 = some (.call 8 [9] false) := rfl
      rw [this] at ho; cases ho
  · intro h
    generalize hm : 7 = m at h
    cases h with
    | root h _ _ => simp at h
    | step h hmem _ =>
        subst hm
        clear hs
        have : ∀ k, ¬ backProg.ptg.Leads [] k := by
          intro k hk
          induction hk with
          | root h _ _ => simp at h
          | step _ _ _ ih => exact ih
        exact this _ h

end Jlm.ModRef
