import Verif.ModRef.Main

set_option linter.unusedSimpArgs false
set_option linter.unusedVariables false

/-! # C49: the solution and the summaries made from it -/

namespace Jlm.ModRef

/-! ## The solution -/

theorem start_inv {P : Prog} (hw : P.WF) (i : Nat) : SInv P i [] P.initialState := by
  refine ⟨start_ok hw, ?_⟩
  intro a b hab
  left
  obtain ⟨j, n, hn, h⟩ := constraint_cases hab
  have hj := getElem?_lt hn
  simp only [Prog.initialState, List.mem_range]
  rcases h with ⟨_, _, _, rfl, _⟩ | ⟨t, args, sj, f, hk, hf, rfl, _⟩ | ⟨_, rfl, _⟩
  · omega
  · obtain ⟨k, hk, hl⟩ := mem_callees.1 hf
    obtain ⟨m, hm⟩ := WF.functions hw t k hk f hl
    obtain ⟨n', hn', _⟩ := lambda_iff.1 hm
    have := getElem?_lt hn'
    omega
  · omega

theorem edges_le {P : Prog} {i : Nat} (ts : List Nat) : ∀ {s : Solver}, SInv P i ts s → ∀ k, Le (s.sets k) ((ts.foldl (P.edge i) s).sets k) := by
  induction ts with
  | nil => intro s h k; exact Le.refl _
  | cons t ts ih =>
      intro s h k
      have h1 := ih (edge_inv h) k
      have h2 : Le (s.sets k) ((P.edge i s t).sets k) := by
        unfold Prog.edge
        simp only
        split
        · next hk => subst hk; exact (propagate_spec (h.ok i) (h.ok k)).2.2
        · exact Le.refl _
      exact ⟨⟨fun x => Nat.le_trans (h1.1.1 x) (h2.1.1 x), fun hc => h1.1.2 (h2.1.2 hc)⟩, fun m x hx => h1.2 m x (h2.2 m x hx)⟩

theorem visit_start {P : Prog} {i j : Nat} {s : Solver} (h : SInv P j [] s) :
    SInv P i (P.targetsOf i) { s with work := s.work.filter (· != i) } := by
  refine ⟨h.ok, ?_⟩
  intro a b hab
  simp only
  rcases h.sat a b hab with hw | hs | ⟨_, hb⟩
  · by_cases ha : a = i
    · exact Or.inr (Or.inr ⟨ha, List.mem_map.2 ⟨(a, b), by subst ha; simp [hab], rfl⟩⟩)
    · exact Or.inl (by simp [hw, ha])
  · exact Or.inr (Or.inl hs)
  · simp at hb

theorem run_le {P : Prog} {s s' : Solver} (hr : P.Run s s') : ∀ {i : Nat}, SInv P i [] s → ∀ k, Le (s.sets k) (s'.sets k) := by
  induction hr with
  | done s => intro _ _ k; exact Le.refl _
  | pop j _ _ ih =>
      intro i h k
      have h1 : Le _ _ := edges_le _ (visit_start (i := j) h) k
      have h2 := ih (visit_inv (i := j) h) k
      exact ⟨⟨fun x => Nat.le_trans (h2.1.1 x) (h1.1.1 x), fun hc => h2.1.2 (h1.1.2 hc)⟩, fun m x hx => h2.2 m x (h1.2 m x hx)⟩

/-- The end of a run of the solver. -/
structure Solved (P : Prog) (sets : Nat → MRSet) : Prop where
  ok : ∀ k, Ok P.ptg.num (sets k)
  sat : ∀ a b, (a, b) ∈ P.constraints → Sat P.ptg (P.block b) (sets a) (sets b)
  start : ∀ k, Le (P.start k) (sets k)

theorem solved {P : Prog} (hw : P.WF) {s : Solver} (hr : P.Run P.initialState s) (hd : s.work = []) : Solved P s.sets := by
  have h := run_inv hr (start_inv hw 0)
  refine ⟨h.ok, ?_, run_le hr (start_inv hw 0)⟩
  intro a b hab
  rcases h.sat a b hab with h1 | h1 | ⟨_, h1⟩
  · rw [hd] at h1; simp at h1
  · exact h1
  · simp at h1

/-- The set of the node `i` covers an access, by itself or through the calls out of the module. -/
def Covers (P : Prog) (sets : Nat → MRSet) (i m : Nat) (x : Acc) : Prop :=
  Cov P.ptg (sets (i + 1)) m x ∨ ((sets (i + 1)).calls = true ∧ Cov P.ptg (sets 0) m x)

theorem Cov.of_calls {P : Prog} {sets : Nat → MRSet} (h : Solved P sets) {k m : Nat} (hc : (sets k).calls = true) (he : P.ptg.ext m = true)
    (x : Acc) : Cov P.ptg (sets k) m x := by
  refine Or.inr ⟨he, ?_⟩
  rw [implicit_has, (h.ok k).calls hc x]
  exact ⟨by decide, by omega⟩

theorem pointer_cov {g : Ptg} {s : MRSet} {r m : Nat} {bytes : Option Nat} {e : Eff} {x : Acc} (hx : e.has x = true) (hp : g.pointee r m)
    (hc : g.const m = false) (hf : g.fits bytes m) : Cov g (s.pointer g r bytes e) m x := by
  obtain ⟨h1, h2, h3⟩ := pointer_spec g r bytes e s
  rcases hp with hp | ⟨ha, he⟩
  · exact Or.inl ((h3 m x).2 (Or.inr ⟨hp, hc, hf, hx⟩))
  · refine Or.inr ⟨he, ?_⟩
    rw [implicit_has, h1, if_pos ⟨ha, hx⟩]
    have hpos : 0 < noneSize := by decide
    refine ⟨by omega, ?_⟩
    cases hs : g.size m with
    | none => simp only [Option.getD_none]; omega
    | some k =>
        simp only [Option.getD_some]
        cases bytes with
        | none => simp
        | some b => have := hf b k rfl hs; simp only [Option.getD_some]; omega

theorem pointer_keeps {g : Ptg} {s : MRSet} (hb : ∀ x, s.min x ≤ noneSize) (r : Nat) (bytes : Option Nat) (e : Eff) {m : Nat} {x : Acc} (h : Cov g s m x) :
    Cov g (s.pointer g r bytes e) m x := by
  obtain ⟨h1, h2, h3⟩ := pointer_spec g r bytes e s
  rcases h with h | ⟨he, h⟩
  · exact Or.inl ((h3 m x).2 (Or.inl h))
  · refine Or.inr ⟨he, ?_⟩
    rw [implicit_has] at h ⊢
    rw [h1]
    have := hb x
    split
    · exact ⟨by omega, by omega⟩
    · exact h

theorem initial_access {g : Ptg} (htgt : ∀ r, ∀ m ∈ g.targets r, m < g.num) {op : Op} {r m : Nat} {bytes : Option Nat} {x : Acc}
    (h : (r, bytes, x) ∈ op.accesses) (hp : g.pointee r m)
    (hc : g.const m = false) (hf : g.fits bytes m) : Cov g (initial g op) m x := by
  cases op with
  | load r size => simp [Op.accesses] at h; obtain ⟨rfl, rfl, rfl⟩ := h; exact pointer_cov rfl hp hc hf
  | store r size => simp [Op.accesses] at h; obtain ⟨rfl, rfl, rfl⟩ := h; exact pointer_cov rfl hp hc hf
  | free r => simp [Op.accesses] at h; obtain ⟨rfl, rfl, rfl⟩ := h; exact pointer_cov rfl hp hc hf
  | memset d c => simp [Op.accesses] at h; obtain ⟨rfl, rfl, rfl⟩ := h; exact pointer_cov rfl hp hc hf
  | memcpy d s c =>
      simp [Op.accesses] at h
      rcases h with ⟨rfl, rfl, rfl⟩ | ⟨rfl, rfl, rfl⟩
      · refine pointer_keeps ?_ _ _ _ (pointer_cov rfl hp hc hf)
        exact (ok_pointer htgt (ok_empty g.num) rfl _ _ _).1.bound
      · exact pointer_cov rfl hp hc hf
  | alloca m => simp [Op.accesses] at h
  | malloc m => simp [Op.accesses] at h
  | call t a s => simp [Op.accesses] at h
  | other => simp [Op.accesses] at h

theorem start_op {P : Prog} {i : Nat} {op : Op} (h : P.op i = some op) : P.start (i + 1) = initial P.ptg op := by
  simp [Prog.start, h]

theorem touch_not_other {P : Prog} {hidden : Nat → Nat → Prop} (hw : P.WF) {i m : Nat} {x : Acc} (h : MayTouch P hidden i m x) :
    P.op i ≠ some .other := by
  intro ho
  cases h with
  | access h1 h2 => rw [ho] at h1; cases h1; simp [Op.accesses] at h2
  | allocate h1 => rw [ho] at h1; simp at h1
  | @inner j _ _ n _ h1 h2 _ _ =>
      obtain ⟨n', hn', hk⟩ := op_iff.1 ho
      obtain ⟨_, _, np, hnp, _, hns⟩ := hw.nested j n i h1 h2
      rw [hn'] at hnp; cases hnp
      exact hns _ hk
  | call h1 => rw [ho] at h1; cases h1
  | external _ h1 => rw [ho] at h1; cases h1
  | back h1 => rw [ho] at h1; cases h1

theorem block_false {P : Prog} (hw : P.WF) {i m : Nat} (h : ¬ P.Hidden i m) : P.block (i + 1) m = false := by
  cases hb : P.block (i + 1) m with
  | false => rfl
  | true => exact absurd ((C49_blocked_iff P hw i m).1 hb) h

theorem calls_out {P : Prog} {sets : Nat → MRSet} (hs : Solved P sets) {i t : Nat} {args : List Nat} {sj : Bool}
    (ho : P.op i = some (.call t args sj)) (hc : (∃ k ∈ P.ptg.targets t, P.ptg.kind k = .import_) ∨ P.ptg.all t = true) :
    (sets (i + 1)).calls = true := by
  refine (hs.start (i + 1)).1.2 ?_
  rw [start_op ho]
  simp only [initial, callsOut_iff.2 hc, if_true]
  rfl

theorem touch_covers {P : Prog} (hw : P.WF) {sets : Nat → MRSet} (hs : Solved P sets) {i m : Nat} {x : Acc}
    (h : MayTouch P P.Hidden i m x) : Covers P sets i m x := by
  have htgt : ∀ r, ∀ m ∈ P.ptg.targets r, m < P.ptg.num := fun r m h => (hw.targets r m h).1
  induction h with
  | access h1 h2 h3 h4 h5 =>
      left
      refine (hs.start _).cov (start_ok hw _) ?_
      rw [start_op h1]
      exact initial_access htgt h2 h3 h4 h5
  | @allocate j m h1 =>
      left
      refine (hs.start _).cov (start_ok hw _) ?_
      left
      rcases h1 with h1 | h1
      · rw [start_op h1]; exact (addExplicit_has _ _ _ _ _).2 (Or.inr ⟨rfl, rfl⟩)
      · rw [start_op h1]; exact (addExplicit_has _ _ _ _ _).2 (Or.inr ⟨rfl, rfl⟩)
  | @inner j p m n x h1 h2 h3 h4 ih =>
      have hk : n.kind ≠ .simple .other := by
        intro hk
        exact touch_not_other hw h3 (op_iff.2 ⟨n, h1, hk⟩)
      have hsat := hs.sat _ _ (constraint_parent h1 h2 hk)
      rcases ih with ih | ⟨hc, ih⟩
      · exact Or.inl (hsat.cov (hs.ok _) (block_false hw h4) ih)
      · exact Or.inr ⟨hsat.1.2 hc, ih⟩
  | @call j t f k m args sj x h1 h2 h3 h4 h5 ih =>
      have hsat := hs.sat _ _ (constraint_call h1 (mem_callees.2 ⟨k, h2, h3⟩))
      rcases ih with ih | ⟨hc, ih⟩
      · exact Or.inl (hsat.cov (hs.ok _) (block_false hw h5) ih)
      · exact Or.inr ⟨hsat.1.2 hc, ih⟩
  | external x h1 h2 h3 => exact Or.inl (Cov.of_calls hs (calls_out hs h1 h2) h3 x)
  | @back j t f m args sj x h1 h2 h3 h4 h5 ih =>
      refine Or.inr ⟨calls_out hs h1 h2, ?_⟩
      rcases ih with ih | ⟨hc, ih⟩
      · exact (hs.sat _ _ (constraint_ext h3)).cov (hs.ok _) rfl ih
      · exact ih

/-! ## Summaries -/

theorem implicit_large {P : Prog} {sets : Nat → MRSet} (hs : Solved P sets) {k : Nat} {size : Option Nat} {x : Acc}
    (h : ((sets k).implicit size).has x = true) : ((sets k).implicit none).has x = true := by
  rw [implicit_has] at h ⊢
  exact ⟨h.1, (hs.ok k).bound x⟩

theorem implicit_calls {P : Prog} {sets : Nat → MRSet} (hs : Solved P sets) {k : Nat} (hc : (sets k).calls = true) (size : Option Nat) (x : Acc) :
    ((sets k).implicit size).has x = true := by
  rw [implicit_has, (hs.ok k).calls hc x]
  exact ⟨by decide, by omega⟩

theorem final_kept {P : Prog} {sets : Nat → MRSet} (hs : Solved P sets) {f i m : Nat} {x : Acc} (hk : P.keep sets f m = true)
    (h : Covers P sets i m x) : (P.final sets f i m).has x = true := by
  have hcase : ((sets (i + 1)).nodes m).has x = true ∨ (P.ptg.ext m = true ∧ ((sets (i + 1)).implicit (P.ptg.size m)).has x = true) ∨
      (P.ptg.ext m = false ∧ (sets (i + 1)).calls = true ∧ ((sets 0).nodes m).has x = true) := by
    rcases h with (h | h) | ⟨hc, h⟩
    · exact Or.inl h
    · exact Or.inr (Or.inl h)
    · cases he : P.ptg.ext m with
      | true => exact Or.inr (Or.inl ⟨rfl, implicit_calls hs hc _ _⟩)
      | false =>
          rcases h with h | ⟨h, _⟩
          · exact Or.inr (Or.inr ⟨rfl, hc, h⟩)
          · rw [he] at h; cases h
  unfold Prog.final
  simp only [hk, if_true, Bool.true_and, Bool.and_true]
  by_cases hl : (sets (i + 1)).implicit none = .none
  · rw [if_pos hl]
    have hno : ((sets (i + 1)).implicit none).has x = true → False := by rw [hl, has_none]; intro h; cases h
    rcases hcase with h | ⟨_, h⟩ | ⟨_, hc, _⟩
    · exact h
    · exact absurd (implicit_large hs h) hno
    · exact absurd (implicit_calls hs hc none x) hno
  · rw [if_neg hl]
    have hbig : ((sets (i + 1)).implicit (P.ptg.size m)).has x = true →
        (if (sets (i + 1)).implicit none = (sets (i + 1)).implicit (some 1) then (sets (i + 1)).implicit none
          else (sets (i + 1)).implicit (P.ptg.size m)).has x = true := by
      intro h
      split
      · exact implicit_large hs h
      · exact h
    rcases hcase with h | ⟨he, h⟩ | ⟨he, hc, h⟩
    · split <;> split <;> simp [has_or, h]
    · have := hbig h
      simp only [he, if_true, Bool.not_true, Bool.and_false, Bool.false_eq_true, if_false, has_or, this, Bool.or_true]
    · simp [he, hc, has_or, h]

theorem final_dropped {P : Prog} (hw : P.WF) {sets : Nat → MRSet} (hs : Solved P sets) {i m : Nat} {n : PNode} {x : Acc}
    (hn : P.nodes[i]? = some n) (hr : P.readOnly sets m = false) (hk : P.keep sets n.fn m = false)
    (h : Covers P sets i m x) : (P.final sets n.fn i 0).has x = true := by
  have hlarge : ((sets (i + 1)).implicit none).has x = true := by
    rcases h with (h | ⟨_, h⟩) | ⟨hc, _⟩
    · unfold Prog.keep at hk
      rw [hr] at hk
      simp only [Bool.not_false, Bool.true_and, Bool.or_eq_false_iff] at hk
      have := List.any_eq_false.1 hk.2 i (List.mem_range.2 (getElem?_lt hn))
      rw [hn] at this
      simp only [beq_self_eq_true, Bool.true_and] at this
      by_cases hb : (sets (i + 1)).implicit none = .both
      · rw [hb]; exact has_both x
      · have hb' : ((sets (i + 1)).implicit none != .both) = true := by simpa using hb
        rw [hb'] at this
        simp only [Bool.true_and, Bool.not_eq_true', Bool.not_eq_true, Bool.not_eq_false'] at this
        exact (sub_iff _ _).1 (by simpa using this) x h
    · exact implicit_large hs h
    · exact implicit_calls hs hc none x
  refine final_kept hs ?_ (Or.inl (Or.inr ⟨hw.zero.2.1, by rw [hw.zero.2.2]; exact hlarge⟩))
  unfold Prog.keep Prog.readOnly
  simp [hw.zero.2.1]

/-! ## Read-only memory -/

theorem hidden_alloca {P : Prog} {i m : Nat} (h : P.Hidden i m) : P.ptg.kind m = .alloca := h.1.2.1

theorem touch_climb {P : Prog} (hw : P.WF) {m : Nat} (hm : P.ptg.kind m ≠ .alloca) {x : Acc} : ∀ (i : Nat) (n : PNode),
    P.nodes[i]? = some n → MayTouch P P.Hidden i m x → MayTouch P P.Hidden n.fn m x := by
  intro i
  induction i using Nat.strongRecOn with
  | ind i ih =>
      intro n hn h
      cases hp : n.parent with
      | none => rw [(hw.outer i n hn hp).2]; exact h
      | some p =>
          obtain ⟨_, hlt, np, hnp, hf, _⟩ := hw.nested i n p hn hp
          rw [← hf]
          exact ih p hlt np hnp (.inner hn hp h fun hh => hm (hidden_alloca hh))

theorem live_climb {P : Prog} (hw : P.WF) {m : Nat} (hm : P.ptg.kind m ≠ .alloca) {x : Acc} {f : Nat} (hl : P.Live f) :
    MayTouch P P.Hidden f m x → ∃ e, P.enterable e ∧ MayTouch P P.Hidden e m x := by
  induction hl with
  | @entry f k h1 h2 => intro h; exact ⟨f, Or.inl ⟨k, h1, h2⟩, h⟩
  | @call i t f k n args sj h1 h2 h3 h4 h5 ih =>
      intro h
      refine ih (touch_climb hw hm i n h1 ?_)
      exact .call (op_iff.2 ⟨n, h1, h3⟩) h4 h5 h fun hh => hm (hidden_alloca hh)

theorem not_readOnly {P : Prog} (hw : P.WF) {sets : Nat → MRSet} (hs : Solved P sets) {m c : Nat} {n : PNode} (hn : P.nodes[c]? = some n)
    (hl : P.Live n.fn) (h : MayTouch P P.Hidden c m .write) : P.readOnly sets m = false := by
  cases hr : P.readOnly sets m with
  | false => rfl
  | true =>
      unfold Prog.readOnly at hr
      simp only [Bool.and_eq_true, bne_iff_ne, ne_eq, Bool.not_eq_true'] at hr
      obtain ⟨⟨⟨_, h2⟩, h3⟩, h4⟩ := hr
      obtain ⟨e, he, ht⟩ := live_climb hw h4 hl (touch_climb hw h4 c n hn h)
      have hcov : Cov P.ptg (sets 0) m .write := by
        rcases touch_covers hw hs ht with h' | ⟨_, h'⟩
        · exact (hs.sat _ _ (constraint_ext he)).cov (hs.ok _) rfl h'
        · exact h'
      rcases hcov with h' | ⟨h', _⟩
      · rw [show ((sets 0).nodes m).has .write = ((sets 0).nodes m).mod from rfl, h2] at h'; cases h'
      · rw [h3] at h'; cases h'

/-- **C49** In every function, one memory node stands for all accesses to `m`: itself or the external memory node. `m` has to be externally
available, an alloca, or written to in a function that is run (otherwise it is read-only and no order is needed).
Partial: `P.Hidden` is what the analysis takes for invisible, which is wrong for allocas in gamma and theta nodes (`C49_nested_alloca`). -/
theorem C49_memory_node_partial (P : Prog) (hw : P.WF) (s : Solver) (hr : P.Run P.initialState s) (hd : s.work = []) (f m : Nat)
    (hm : P.ptg.ext m = true ∨ P.ptg.kind m = .alloca ∨
      ∃ c n, P.nodes[c]? = some n ∧ P.Live n.fn ∧ MayTouch P P.Hidden c m .write) :
    ∃ k, (k = m ∨ k = 0) ∧ ∀ i n x, P.nodes[i]? = some n → n.fn = f → MayTouch P P.Hidden i m x → (P.final s.sets f i k).has x = true := by
  have hs := solved hw hr hd
  have hro : P.readOnly s.sets m = false := by
    rcases hm with hm | hm | ⟨c, n, hn, hl, ht⟩
    · simp [Prog.readOnly, hm]
    · simp [Prog.readOnly, hm]
    · exact not_readOnly hw hs hn hl ht
  cases hk : P.keep s.sets f m with
  | true => exact ⟨m, Or.inl rfl, fun i n x hn hf ht => final_kept hs hk (touch_covers hw hs ht)⟩
  | false =>
      refine ⟨0, Or.inr rfl, fun i n x hn hf ht => ?_⟩
      subst hf
      exact final_dropped hw hs hn hro hk (touch_covers hw hs ht)

/-- **C49** Two nodes of a function that is run, of which one may write to memory that the other one may access, have a memory node in common
in their summaries. Partial: see `C49_memory_node_partial`. -/
theorem C49_conflicts_partial (P : Prog) (hw : P.WF) (s : Solver) (hr : P.Run P.initialState s) (hd : s.work = []) (f m a b : Nat)
    (na nb : PNode) (ha : P.nodes[a]? = some na) (hb : P.nodes[b]? = some nb) (hfa : na.fn = f) (hfb : nb.fn = f) (hl : P.Live f)
    (x : Acc) (h1 : MayTouch P P.Hidden a m x) (h2 : MayTouch P P.Hidden b m .write) :
    ∃ k, (P.final s.sets f a k).has x = true ∧ (P.final s.sets f b k).has .write = true := by
  obtain ⟨k, _, h⟩ := C49_memory_node_partial P hw s hr hd f m (Or.inr (Or.inr ⟨b, nb, hb, by rw [hfb]; exact hl, h2⟩))
  exact ⟨k, h a na x ha hfa h1, h b nb _ hb hfb h2⟩

/-! ## Termination, blocklists, precision -/

/-- **C49** Solving ends, whatever item the worklist hands out, and some run ends. -/
theorem C49_terminates (P : Prog) (hw : P.WF) :
    _root_.Acc (fun s' s : Solver => ∃ i ∈ s.work, s' = P.visit i s) P.initialState ∧
    ∃ s, P.Run P.initialState s ∧ s.work = [] := by
  have h := terminates (inRange hw) _ _ P.initialState (Nat.le_refl _) (Nat.le_refl _) ⟨0, start_inv hw 0⟩
  exact ⟨h, run_exists h⟩

theorem initial_nodes {P : Prog} {hidden : Nat → Nat → Prop} {i : Nat} {op : Op} (ho : P.op i = some op) {m : Nat} {x : Acc}
    (h : ((initial P.ptg op).nodes m).has x = true) : (∀ t args sj, op ≠ .call t args sj) ∧ MayTouch P hidden i m x := by
  have key : ∀ (r : Nat) (bytes : Option Nat) (e : Eff) (s : MRSet) (y : Acc), (∀ z, e.has z = true → z = y) → (r, bytes, y) ∈ op.accesses →
      ((s.pointer P.ptg r bytes e).nodes m).has x = true → (s.nodes m).has x = true ∨ MayTouch P hidden i m x := by
    intro r bytes e s y he hmem h
    rcases ((pointer_spec P.ptg r bytes e s).2.2 m x).1 h with h | ⟨h1, h2, h3, h4⟩
    · exact Or.inl h
    · have := he x h4; subst this
      exact Or.inr (.access ho hmem (Or.inl h1) h2 h3)
  have er : ∀ z, Eff.refOnly.has z = true → z = .read := by intro z; cases z <;> simp [Eff.has, Eff.refOnly]
  have em : ∀ z, Eff.modOnly.has z = true → z = .write := by intro z; cases z <;> simp [Eff.has, Eff.modOnly]
  have done : (MRSet.empty.nodes m).has x = true ∨ MayTouch P hidden i m x → MayTouch P hidden i m x := by
    rintro (h | h)
    · rw [empty_nodes] at h; cases h
    · exact h
  cases op with
  | load r size => exact ⟨by intros; simp, done (key _ _ _ _ _ er (by simp [Op.accesses]) h)⟩
  | store r size => exact ⟨by intros; simp, done (key _ _ _ _ _ em (by simp [Op.accesses]) h)⟩
  | free r => exact ⟨by intros; simp, done (key r none .modOnly .empty _ em (by simp [Op.accesses]) h)⟩
  | memset d c => exact ⟨by intros; simp, done (key _ _ _ _ _ em (by simp [Op.accesses]) h)⟩
  | memcpy d s c =>
      refine ⟨by intros; simp, ?_⟩
      rcases key _ _ _ _ _ er (by simp [Op.accesses]) h with h | h
      · exact done (key _ _ _ _ _ em (by simp [Op.accesses]) h)
      · exact h
  | alloca k =>
      refine ⟨by intros; simp, done ?_⟩
      rcases (addExplicit_has _ _ _ _ _).1 h with h | ⟨rfl, h'⟩
      · exact Or.inl h
      · have := er x h'; subst this; exact Or.inr (.allocate (Or.inl ho))
  | malloc k =>
      refine ⟨by intros; simp, done ?_⟩
      rcases (addExplicit_has _ _ _ _ _).1 h with h | ⟨rfl, h'⟩
      · exact Or.inl h
      · have := er x h'; subst this; exact Or.inr (.allocate (Or.inr ho))
  | call t args sj =>
      simp only [initial] at h
      split at h
      · rw [show (MRSet.empty.markCalls.nodes m) = .none from rfl, has_none] at h; cases h
      · rw [empty_nodes] at h; cases h
  | other => rw [show (initial P.ptg .other) = .empty from rfl, empty_nodes] at h; cases h

theorem start_nodes {P : Prog} {hidden : Nat → Nat → Prop} {k m : Nat} {x : Acc} (h : ((P.start k).nodes m).has x = true) :
    ∃ i op, k = i + 1 ∧ P.op i = some op ∧ (∀ t args sj, op ≠ .call t args sj) ∧ MayTouch P hidden i m x := by
  cases k with
  | zero => rw [show ((P.start 0).nodes m) = .none from rfl, has_none] at h; cases h
  | succ i =>
      cases ho : P.op i with
      | none => simp [Prog.start, ho, empty_nodes] at h
      | some op =>
          rw [start_op ho] at h
          exact ⟨i, op, rfl, ho, initial_nodes ho h⟩

/-- **C49** `VerifyBlocklists`: hidden memory nodes are never in a set. -/
theorem C49_blocklists (P : Prog) (hw : P.WF) (s : Solver) (hr : P.Run P.initialState s) (i m : Nat) (h : P.Hidden i m) :
    (s.sets (i + 1)).nodes m = .none := by
  have := run_keeps (P := P) (fun k m _ => P.block k m = false) (fun a b _ m x hb _ => hb) hr ?_
  · refine nodes_none fun x => ?_
    cases hx : ((s.sets (i + 1)).nodes m).has x with
    | false => rfl
    | true =>
        have h1 := this _ _ _ hx
        have h2 : P.block (i + 1) m = true := (C49_blocked_iff P hw i m).2 h
        rw [h1] at h2; cases h2
  · intro k m x hx
    obtain ⟨i, op, rfl, ho, hne, _⟩ := start_nodes (hidden := P.Hidden) hx
    obtain ⟨n, hn, hk⟩ := op_iff.1 ho
    cases op with
    | call t args sj => exact absurd rfl (hne t args sj)
    | _ => simp only [Prog.block, Prog.blocked, hn, hk]

theorem MayTouch.mono {P : Prog} {h1 h2 : Nat → Nat → Prop} (hh : ∀ i m, h2 i m → h1 i m) {i m : Nat} {x : Acc} (h : MayTouch P h1 i m x) :
    MayTouch P h2 i m x := by
  induction h with
  | access a b c d e => exact .access a b c d e
  | allocate a => exact .allocate a
  | inner a b c d ih => exact .inner a b ih fun h => d (hh _ _ h)
  | call a b c d e ih => exact .call a b c ih fun h => e (hh _ _ h)
  | external x a b c => exact .external x a b c
  | back a b c d e ih => exact .back a b c ih fun h => e (hh _ _ h)

/-- A property of every set with the flag for calls. -/
theorem run_calls {P : Prog} (K : Nat → Prop) (hK : ∀ a b, (a, b) ∈ P.constraints → K a → K b) {s s' : Solver} (hr : P.Run s s') :
    (∀ k, (s.sets k).calls = true → K k) → ∀ k, (s'.sets k).calls = true → K k := by
  have hedges : ∀ (i : Nat) (ts : List Nat), (∀ t ∈ ts, (i, t) ∈ P.constraints) → ∀ s : Solver,
      (∀ k, (s.sets k).calls = true → K k) → ∀ k, ((ts.foldl (P.edge i) s).sets k).calls = true → K k := by
    intro i ts
    induction ts with
    | nil => intro _ s h; exact h
    | cons t ts ih =>
        intro hts s h
        refine ih (fun u hu => hts u (by simp [hu])) _ ?_
        intro k hx
        unfold Prog.edge at hx
        simp only at hx
        split at hx
        · next hk =>
          subst hk
          have hx' : ((s.sets k).flags (s.sets i)).calls = true := hx
          unfold MRSet.flags at hx'
          split at hx'
          · next hc => exact hK i k (hts k (by simp)) (h i hc)
          · split at hx'
            · exact h k hx'
            · split at hx'
              · exact h k hx'
              · exact h k hx'
        · exact h k hx
  induction hr with
  | done s => exact fun h => h
  | pop i _ _ ih => exact fun h => ih (hedges i _ (fun t ht => targetsOf_mem ht) _ h)

/-- **C49** Precision: memory that is not externally available is only in the summary of a node that may access it. -/
theorem C49_precise (P : Prog) (hw : P.WF) (s : Solver) (hr : P.Run P.initialState s) (f i m : Nat) (x : Acc)
    (he : P.ptg.ext m = false) (h : (P.final s.sets f i m).has x = true) : MayTouch P (fun _ _ => False) i m x := by
  have hblock : ∀ i m, P.block (i + 1) m = false → ¬ P.Hidden i m := by
    intro i m hb hh
    have : P.block (i + 1) m = true := (C49_blocked_iff P hw i m).2 hh
    rw [hb] at this; cases this
  -- explicit memory nodes
  have hnodes := run_keeps (P := P)
    (fun k m x => match k with
      | 0 => ∃ f, P.enterable f ∧ MayTouch P (fun _ _ => False) f m x
      | i + 1 => MayTouch P (fun _ _ => False) i m x)
    (by
      intro a b hab m x hb ha
      obtain ⟨j, n, hn, hc⟩ := constraint_cases hab
      rcases hc with ⟨p, hp, _, rfl, rfl⟩ | ⟨t, args, sj, g, hk, hg, rfl, rfl⟩ | ⟨hent, rfl, rfl⟩
      · exact .inner hn hp ha id
      · obtain ⟨k, hk1, hk2⟩ := mem_callees.1 hg
        exact .call (op_iff.2 ⟨n, hn, hk⟩) hk1 hk2 ha id
      · exact ⟨j, hent, ha⟩) hr
    (by
      intro k m x hx
      obtain ⟨i, op, rfl, _, _, ht⟩ := start_nodes (hidden := fun _ _ => False) hx
      exact ht)
  -- calls out of the module
  have hcalls := run_calls (P := P)
    (fun k => match k with
      | 0 => True
      | i + 1 => ∀ g m x, P.enterable g → MayTouch P (fun _ _ => False) g m x → MayTouch P (fun _ _ => False) i m x)
    (by
      intro a b hab ha
      obtain ⟨j, n, hn, hc⟩ := constraint_cases hab
      rcases hc with ⟨p, hp, _, rfl, rfl⟩ | ⟨t, args, sj, g, hk, hg, rfl, rfl⟩ | ⟨hent, rfl, rfl⟩
      · intro g m x hg ht; exact .inner hn hp (ha g m x hg ht) id
      · obtain ⟨k, hk1, hk2⟩ := mem_callees.1 hg
        intro g m x hg ht
        exact .call (op_iff.2 ⟨n, hn, hk⟩) hk1 hk2 (ha g m x hg ht) id
      · trivial) hr
    (by
      intro k hx
      cases k with
      | zero => trivial
      | succ j =>
          intro g m x hg ht
          have hx' : (P.start (j + 1)).calls = true := hx
          have hcf : ∀ (r : Nat) (b : Option Nat) (e : Eff) (s : MRSet), (s.pointer P.ptg r b e).calls = s.calls := fun r b e s =>
            (pointer_spec P.ptg r b e s).2.1
          cases ho : P.op j with
          | none => simp [Prog.start, ho, MRSet.empty] at hx'
          | some op =>
              rw [start_op ho] at hx'
              cases op with
              | call t args sj =>
                  simp only [initial] at hx'
                  split at hx'
                  · next hc => exact .back ho (callsOut_iff.1 hc) hg ht id
                  · cases hx'
              | load => simp only [initial] at hx'; rw [hcf] at hx'; cases hx'
              | store => simp only [initial] at hx'; rw [hcf] at hx'; cases hx'
              | free => simp only [initial] at hx'; rw [hcf] at hx'; cases hx'
              | memset => simp only [initial] at hx'; rw [hcf] at hx'; cases hx'
              | memcpy => simp only [initial] at hx'; rw [hcf, hcf] at hx'; cases hx'
              | alloca => cases hx'
              | malloc => cases hx'
              | other => cases hx')
  unfold Prog.final at h
  simp only [he, Bool.and_false, Bool.false_eq_true, if_false, Bool.not_false, Bool.and_true] at h
  have hkept : (if P.keep s.sets f m then (s.sets (i + 1)).nodes m else Eff.none).has x = true → MayTouch P (fun _ _ => False) i m x := by
    intro h
    split at h
    · exact hnodes (i + 1) m x h
    · rw [has_none] at h; cases h
  split at h
  · exact hkept h
  · split at h
    · next hc =>
      rw [Bool.and_eq_true] at hc
      rw [has_or, Bool.or_eq_true] at h
      rcases h with h | h
      · exact hkept h
      · obtain ⟨g, hg, ht⟩ := hnodes 0 m x h
        exact hcalls (i + 1) hc.1 g m x hg ht
    · exact hkept h

end Jlm.ModRef
