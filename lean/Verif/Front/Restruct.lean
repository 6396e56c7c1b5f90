import Verif.Front.RestructExtract
import Verif.Front.Clean
import Verif.Front.Agg

/-!
# Control flow restructuring: main theorems
-/

set_option linter.unusedSimpArgs false
set_option linter.unusedVariables false

namespace Jlm.Front

open Jlm.Opt

variable {V : Type} {sem : Sem V} {truth : V → Bool} {K : Nat → Prop} {fix : Bool} {v0 : Nat} {st0 st : RSt}

theorem adjust_nodes {t i : Nat} {st' : RSt} (he : st.adjust fix t i = some st') : st'.C.nodes = st.C.nodes := by
  unfold RSt.adjust at he
  split at he
  · cases he; rfl
  · split at he
    · split at he
      · rw [Option.map_eq_some_iff] at he
        obtain ⟨code, _, rfl⟩ := he
        rfl
      · cases he
    · cases he

theorem extract_mem {h t : Nat} {st' : RSt} (he : st.extract h t = some st') : t ∈ st.C.nodes := by
  unfold RSt.extract at he
  split at he
  · rename_i hh; exact hh.2
  · cases he

/-- Restructuring of a region does not change what the graph computes, when the loops that have been taken out are
imagined to be in their place. -/
theorem restructure_good (hc : CtlSem sem) {ch : Choice} (hl : ch.Legal) : ∀ (fuel entry exit : Nat) (st st' : RSt),
    Inv K fix v0 st → restructure ch fix fuel entry exit st = some st' → Keeps sem truth K fix v0 st st'
  | 0, _, _, _, _, _, he => by cases he
  | fuel + 1, entry, exit, st, st', h, he => by
      have ih := restructure_good hc hl fuel
      unfold restructure at he
      simp only [Option.bind_eq_some_iff] at he
      obtain ⟨s1, h1, h2⟩ := he
      have g1 : Keeps sem truth K fix v0 st s1 := by
        refine foldlM_good (fun s S s' hs hf => ?_) h h1
        split at hf
        · rename_i hd t i _
          simp only [Option.bind_eq_some_iff] at hf
          obtain ⟨r1, e1, r2, e2, e3⟩ := hf
          have k1 := ih hd t s r1 hs e1
          have k2 : Keeps sem truth K fix v0 r1 r2 :=
            adjust_good hc k1.inv (by rw [← adjust_nodes e2]; exact extract_mem e3) e2
          exact (k1.trans k2).trans (extract_good k2.inv e3)
        · simp only [Option.bind_eq_some_iff] at hf
          obtain ⟨r1, e1, r2, e2, e3⟩ := hf
          have k1 : Keeps sem truth K fix v0 s r1 := loopStage_good hc hl hs e1
          have k2 := ih _ _ r1 r2 k1.inv e2
          exact (k1.trans k2).trans (extract_good k2.inv e3)
      exact g1.trans (branches_good hc hl _ _ _ _ _ g1.inv h2)

theorem reinsertAll_good : ∀ (ls : List TcLoop) (st st' : RSt), Inv K fix v0 st → st.loops = ls → reinsertAll ls st = some st' →
    Keeps sem truth K fix v0 st st' ∧ st'.loops = []
  | [], st, st', h, hl, he => by
      cases he
      exact ⟨.refl h, hl⟩
  | l :: ls, st, st', h, hl, he => by
      simp only [reinsertAll, Option.bind_eq_some_iff] at he
      obtain ⟨s1, e1, e2⟩ := he
      obtain ⟨g1, g2⟩ := reinsert_good (sem := sem) (truth := truth) h hl e1
      obtain ⟨g3, g4⟩ := reinsertAll_good ls s1 st' g1.inv g2 e2
      exact ⟨g1.trans g3, g4⟩

theorem ghost_nil {C : Cfg} {n v : Nat} : (RSt.mk C n v []).ghost = C := rfl

theorem ghost_noLoops (h : st.loops = []) : st.ghost = st.C := by
  show ({ st.C with succs := gs st.loops st.C.succs } : Cfg) = _
  rw [h]; rfl

theorem inv_initial {C : Cfg} (hv : C.noPhis.Valid) {n v : Nat} (hs : C.noPhis.Small n v) (hm : C.Matches fix) :
    Inv (fun u => ∃ x m d, C.Decides x u m d) fix v ⟨C, n, v, []⟩ where
  entry := hv.entry
  exit := hv.exit
  closed := hv.closed
  last := hv.last
  branch := hv.branch
  nodup := hv.nodup
  differ := hv.differ
  noPred := hv.noPred
  first := hv.first
  succ := fun x hx h1 _ => hv.succ x hx h1
  small := hs.nodes
  below := hs.code
  old := Nat.le_refl _
  klt := by
    rintro u ⟨x, m, d, h1, _, _, c, w, h2⟩
    exact (hs.code x h1 _ h2).2 u (by simp [Tac.writes])
  kread := by
    rintro u ⟨x, m, d, h⟩
    exact ⟨x, fun y hy t ht hr => (hm x u m d h).2 y hy t ht hr⟩
  kmatch := fun x u m d h => ⟨⟨x, m, d, h⟩, (hm x u m d h).1⟩
  loopNodup := List.nodup_nil
  loop := fun l hl => by cases hl

theorem valid_noPhis {C : Cfg} (h : Inv K fix v0 ⟨C, n, v, []⟩) : C.noPhis.Valid where
  entry := h.entry
  exit := h.exit
  closed := h.closed
  last := h.last
  branch := h.branch
  nodup := h.nodup
  differ := h.differ
  noPred := h.noPred
  first := h.first
  succ := fun x hx h1 => h.succ x hx h1 fun l hl => by cases hl
  noPhi := ⟨rfl, rfl⟩
  phis := fun x hx p hp => by cases hp

/-- Both directions, for either version of `invertMatchOperation`. -/
theorem restructure_correct (hc : CtlSem sem) {ch : Choice} (hl : ch.Legal) {C : Cfg} (hv : C.noPhis.Valid) {n v : Nat}
    (hs : C.noPhis.Small n v) (hm : C.Matches fix) {fuel : Nat} {D : Cfg}
    (he : restructureCfg ch fix fuel n v C = some D) :
    D.noPhis.Valid ∧ D.entry = C.entry ∧ D.exit = C.exit ∧ ∀ s : St V,
      (∀ s', C.Exec sem truth C.entry s s' → ∃ t', D.Exec sem truth D.entry s t' ∧ AgreeOff (C.Touched v) s' t') ∧
      (∀ t', D.Exec sem truth D.entry s t' → ∃ s', C.Exec sem truth C.entry s s' ∧ AgreeOff (C.Touched v) s' t') := by
  unfold restructureCfg at he
  simp only [Option.bind_eq_some_iff, Option.map_eq_some_iff] at he
  obtain ⟨s1, h1, s2, h2, rfl⟩ := he
  have g1 := restructure_good (truth := truth) hc hl fuel C.entry C.exit _ s1 (inv_initial hv hs hm) h1
  obtain ⟨g2, g3⟩ := reinsertAll_good (sem := sem) (truth := truth) s1.loops s1 s2 g1.inv rfl h2
  obtain ⟨hinv, hE, hX, F, hF, hsame⟩ := g1.trans g2
  have hv' : s2.C.noPhis.Valid := valid_noPhis (n := s2.n) (v := s2.v) (by
    have : (⟨s2.C, s2.n, s2.v, []⟩ : RSt) = s2 := by rw [← g3]
    rw [this]; exact hinv)
  refine ⟨hv', hE, hX, fun s => ?_⟩
  rw [ghost_nil, ghost_noLoops g3] at hsame
  have hsub : ∀ {a b : St V}, AgreeOff F a b → AgreeOff (C.Touched v) a b := fun h u hu =>
    h u fun hf => hu (hF u hf).symm
  obtain ⟨a, b⟩ := hsame s s fun _ _ => rfl
  refine ⟨fun s' h => ?_, fun t' h => ?_⟩
  · obtain ⟨t', k1, k2⟩ := a s' h
    exact ⟨t', k1, hsub k2⟩
  · obtain ⟨s', k1, k2⟩ := b t' h
    exact ⟨s', k1, hsub k2⟩

/-- **C36.** Restructuring of a valid graph without phi operations, as in /repo, for any order in which sets are
traversed and any strongly connected components: if it succeeds, the result is a valid graph with the same entry and
exit; from the same state the two graphs reach their exits or not, and the final states differ in new variables and in
the results of match operations that decide between two successors only. `Matches false`: such a match operation has
a single mapping, to the alternative that is not the default, and its result is only used by the branch.
Missing: match operations with several mappings (`C36_restructure_counterexample`). -/
theorem C36_restructure_partial (hc : CtlSem sem) {ch : Choice} (hl : ch.Legal) {C : Cfg} (hv : C.noPhis.Valid)
    {n v : Nat} (hs : C.noPhis.Small n v) (hm : C.Matches false) {fuel : Nat} {D : Cfg}
    (he : restructureCfg ch false fuel n v C = some D) :
    D.noPhis.Valid ∧ D.entry = C.entry ∧ D.exit = C.exit ∧ ∀ s : St V,
      (∀ s', C.Exec sem truth C.entry s s' → ∃ t', D.Exec sem truth D.entry s t' ∧ AgreeOff (C.Touched v) s' t') ∧
      (∀ t', D.Exec sem truth D.entry s t' → ∃ s', C.Exec sem truth C.entry s s' ∧ AgreeOff (C.Touched v) s' t') :=
  restructure_correct hc hl hv hs hm he

/-- **C36.** The same when `invertMatchOperation` inverts all mappings, for all match operations with two
alternatives. -/
theorem C36_restructure_fixed (hc : CtlSem sem) {ch : Choice} (hl : ch.Legal) {C : Cfg} (hv : C.noPhis.Valid)
    {n v : Nat} (hs : C.noPhis.Small n v) (hm : C.Matches true) {fuel : Nat} {D : Cfg}
    (he : restructureCfg ch true fuel n v C = some D) :
    D.noPhis.Valid ∧ D.entry = C.entry ∧ D.exit = C.exit ∧ ∀ s : St V,
      (∀ s', C.Exec sem truth C.entry s s' → ∃ t', D.Exec sem truth D.entry s t' ∧ AgreeOff (C.Touched v) s' t') ∧
      (∀ t', D.Exec sem truth D.entry s t' → ∃ s', C.Exec sem truth C.entry s s' ∧ AgreeOff (C.Touched v) s' t') :=
  restructure_correct hc hl hv hs hm he

/-! ### From the graph of the LLVM conversion to the lambda node -/

/-- **C36.** `ConvertControlFlowGraph` (jlm/llvm/frontend/InterProceduralGraphConversion.cpp:943-977), including the
steps before it: a function whose control flow graph, with phi operations, is `C`, and that returns the variables
`results`. If all steps succeed, the lambda node that they give returns, for all arguments, what the graph returns. -/
theorem C36_function_partial (hsel : SelectSem sem truth) (hc : CtlSem sem) {ch : Choice} (hl : ch.Legal) {C : PCfg}
    (hv : C.Valid) {n v f : Nat} (hs : C.Small n v) (hf : C.First f) {D : PCfg} (hD : prepare n v C = some D)
    (hm : D.Matches false) {n' v' : Nat} (hs' : D.Small n' v') {fuel : Nat} {R : Cfg}
    (hR : restructureCfg ch false fuel n' v' D.toCfg = some R)
    {sccs : Flow → Nat → Nat → List (List Nat)} {fuel' : Nat} {tree : Agg}
    (ha : (straighten R.noPhis).aggregate sccs fuel' = some tree) {args results : List Var} {outer : VMap} {k : Nat}
    {node : Node} (hk : convFn false (fnOf args results (normalize tree)) outer k = some node)
    (hres : ∀ u : Nat, u ∈ results → u < v ∧ ¬ D.Touched v' u) (E : Env V) :
    ∃ symbol g, nodeVals sem node E = [some (symbol, some (.lam g))] ∧
      ∀ ps s, C.Exec sem truth C.entry
          (undefs sem (prune (straighten C)).phiResults (initial sem ⟨args, .nil, results⟩ outer E ps)) s →
        g ps = plain (results.map s.env) := by
  obtain ⟨D', p1, p2, p3, p4, _, p5⟩ := C35_prepare (V := V) hv hs hf
  rw [hD] at p1
  cases p1
  have hvD : D.toCfg.noPhis.Valid := ⟨⟨p2.entry, p2.exit, p2.closed, p2.last, p2.branch⟩, p2.nodup, p2.differ, p2.noPred, p2.first, p2.succ,
    ⟨rfl, rfl⟩, fun x hx p hp => by cases hp⟩
  have hsD : D.toCfg.noPhis.Small n' v' := ⟨hs'.nodes, hs'.code, fun x hx p hp => by cases hp⟩
  obtain ⟨q1, q2, q3, q4⟩ := C36_restructure_partial (sem := sem) (truth := truth) hc hl hvD hsD hm hR
  obtain ⟨r1, _, r2, r3, _, r4⟩ := C35_straighten (V := V) q1
  have rn := straighten_inv (P := fun C => ∀ z ∈ C.nodes, C.phis z = []) (fun C x y hv hx e => merge_noPhis hx) q1 fun _ _ => rfl
  obtain ⟨symbol, g, g1, g2⟩ := C34_graph_to_lambda hsel r1.toWf ha hk E
  refine ⟨symbol, g, g1, fun ps s hx => ?_⟩
  obtain ⟨t1, a1, a2⟩ := (p5 sem truth _).1 s hx
  obtain ⟨t2, b1, b2⟩ := (q4 _).1 t1 a1
  have b3 : R.noPhis.Exec sem truth R.noPhis.entry _ t2 := (noPhi_exec q1.toWf (fun _ _ => rfl) q1.entry).2 b1
  have b4 := (r4 sem truth _ _).2 b3
  rw [← r2] at b4
  have b5 := (noPhi_exec r1.toWf rn r1.entry).1 b4
  rw [g2 ps (plain (results.map t2.env)) ⟨t2, b5, rfl⟩]
  have : ∀ u ∈ results, t2.env u = s.env u := fun u hu => by
    rw [← b2 u (hres u hu).2, a2.1 u (hres u hu).1]
  congr 1
  exact List.map_congr_left this


/-! ### Examples -/

/-- `TwoWay`, as a program. -/
def twoWayB (fix : Bool) (m : List (Nat × Nat)) (d : Nat) : Bool :=
  decide (d ≤ 1) && m.all (fun p => decide (p.2 ≤ 1)) && (fix || match m with | [(_, a)] => decide (a ≠ d) | _ => false)

/-- `Matches`, as a program. -/
def Cfg.matchesB (fix : Bool) (C : Cfg) : Bool :=
  C.nodes.all fun x => (C.code x).all fun t => match t with
    | .op ⟨.matchOp m d, _⟩ [_] [u] =>
        if branchVar (C.code x) = some u ∧ (C.succs x).length = 2 then
          twoWayB fix m d && C.nodes.all fun y => (C.code y).all fun t => match t with
            | .branch w => !(w == u) || y == x
            | t => !t.reads.contains u
        else true
    | _ => true

theorem matches_of {C : Cfg} (h : C.matchesB fix = true) : C.Matches fix := by
  intro x u m d ⟨h1, h2, h3, c, w, h4⟩
  have h' := List.all_eq_true.1 (List.all_eq_true.1 h x h1) _ h4
  simp only [h2, h3, and_self, if_true, Bool.and_eq_true] at h'
  obtain ⟨k1, k2⟩ := h'
  refine ⟨?_, fun y hy t ht hr => ?_⟩
  · simp only [twoWayB, Bool.and_eq_true, decide_eq_true_eq, List.all_eq_true, Bool.or_eq_true] at k1
    obtain ⟨⟨a, b⟩, c⟩ := k1
    refine ⟨a, b, fun hf => ?_⟩
    rcases c with c | c
    · rw [hf] at c; cases c
    · split at c
      · rename_i v a
        exact ⟨v, a, rfl, by simpa using c⟩
      · cases c
  · have := List.all_eq_true.1 (List.all_eq_true.1 k2 y hy) t ht
    split at this
    · rename_i b
      simp only [Tac.reads, List.mem_singleton] at hr
      simp only [hr, beq_self_eq_true, Bool.not_true, Bool.false_or, beq_iff_eq] at this
      exact ⟨this, by rw [hr]⟩
    · rw [Bool.not_eq_true', ← Bool.not_eq_true, List.contains_iff_mem] at this
      exact absurd hr this

/-- The components found by Tarjan's algorithm, and no reordering. -/
def exChoice : Choice := ⟨fun C a b => C.flow.sccs a b, id, id⟩

theorem exChoice_legal : exChoice.Legal := ⟨fun _ _ => id, fun _ _ => id⟩

theorem exSem_ctl : CtlSem exSem where
  const c := rfl
  matchOp m d c w := by cases w <;> rfl

/-- An irreducible graph: the loop {2, 3} has two entries and two exits.
`k = 0; if (x == 1) goto 3; 2: k += x; if (k == 2) { u = k; return } 3: k += x; if (k == 3) { w = k; return } goto 2`
Variables: x = 1, k = 2, u = 20, w = 21. -/
def exIrr : PCfg where
  nodes := [0, 9, 1, 2, 3, 4, 5]
  code x := match x with
    | 1 => [.op (cvConst 0) [] [2], .op (cvMatch [(1, 1)] 0) [1] [3], .branch 3]
    | 2 => [.op cvAdd [2, 1] [2], .op (cvMatch [(2, 1)] 0) [2] [4], .branch 4]
    | 3 => [.op cvAdd [2, 1] [2], .op (cvMatch [(3, 1)] 0) [2] [5], .branch 5]
    | 4 => [.assign 20 2]
    | 5 => [.assign 21 2]
    | _ => []
  succs x := match x with
    | 0 => [1] | 1 => [2, 3] | 2 => [3, 4] | 3 => [2, 5] | 4 => [9] | 5 => [9] | _ => []
  entry := 0
  exit := 9
  phis _ := []

theorem exIrr_valid : exIrr.Valid where
  entry := by decide
  exit := by decide
  closed := by decide
  last := rfl
  branch := by decide
  nodup := by decide
  differ := by decide
  noPred := by decide
  first := rfl
  succ := by decide
  noPhi := ⟨rfl, rfl⟩
  phis := fun x hx p hp => by cases hp

theorem exIrr_small : exIrr.Small 10 100 where
  nodes := by decide
  code := by
    intro x hx t ht
    refine ⟨?_, ?_⟩ <;> (revert x t; decide)
  phis := fun x hx p hp => by cases hp

theorem exIrr_first : exIrr.First 1 := ⟨rfl, rfl, by decide, rfl, by decide⟩

/-- With x = 1, blocks 3 and 2 are executed. -/
theorem exIrr_exec : ∃ s', exIrr.Exec exSem (fun v => v == 1) 0
    (undefs exSem (prune (straighten exIrr)).phiResults (initial exSem ⟨[1], .nil, [2, 20]⟩ exOuter exOuterEnv [some 1])) s' ∧
    plain ([2, 20].map s'.env) = [some 2, some 2] :=
  ⟨_, .step (y := 1) (by decide) rfl (.step (y := 3) (by decide) rfl (.step (y := 2) (by decide) rfl
    (.step (y := 4) (by decide) rfl (.step (y := 9) (by decide) rfl .stop)))), rfl⟩

/-- The restructured graph: 10, 11 and 12 are the entry, exit and repetition block of the loop; 13 to 16 and 17, 18
set the variables for entry, repetition and exit; 19 and 20 join the alternatives of the branches 2 and 3. -/
theorem exIrr_restructure : (restructureCfg exChoice false 50 10 100 exIrr.toCfg).map (fun D =>
      D.nodes.map fun x => (x, D.succs x)) =
    some [(0, [1]), (9, []), (1, [13, 14]), (2, [17, 15]), (3, [18, 16]), (4, [9]), (5, [9]), (10, [2, 3]), (11, [4, 5]),
      (12, [11, 10]), (13, [10]), (14, [10]), (15, [19]), (16, [20]), (17, [19]), (18, [20]), (19, [12]), (20, [12])] := by
  decide +kernel

/-- All steps together: the lambda node returns what the irreducible graph returns. -/
theorem exIrr_lambda : ∃ D R tree node symbol g, prepare 10 100 exIrr = some D ∧
    restructureCfg exChoice false 50 10 100 D.toCfg = some R ∧ (straighten R.noPhis).aggregate Flow.sccs 100 = some tree ∧
    convFn false (fnOf [1] [2, 20] (normalize tree)) exOuter 100 = some node ∧
    nodeVals exSem node exOuterEnv = [some (symbol, some (.lam g))] ∧ g [some 1] = [some 2, some 2] := by
  have h1 : ((prepare 10 100 exIrr).bind fun D => (restructureCfg exChoice false 50 10 100 D.toCfg).bind fun R =>
      ((straighten R.noPhis).aggregate Flow.sccs 100).bind fun tree =>
      convFn false (fnOf [1] [2, 20] (normalize tree)) exOuter 100).isSome = true := by decide +kernel
  obtain ⟨node, h1⟩ := Option.isSome_iff_exists.1 h1
  simp only [Option.bind_eq_some_iff] at h1
  obtain ⟨D, e1, R, e2, tree, e3, e4⟩ := h1
  have hD : (prepare 10 100 exIrr).all (fun D => D.matchesB false && D.nodes.all (fun x => decide (x < 10) &&
      (D.code x).all (fun t => t.reads.all (fun u => decide (u < 100)) && t.writes.all (fun u => decide (u < 100))) &&
      (D.phis x).isEmpty && decide (branchVar (D.code x) ≠ some 2 ∧ branchVar (D.code x) ≠ some 20))) = true := by
    decide +kernel
  rw [e1] at hD
  simp only [Option.all_some, Bool.and_eq_true, List.all_eq_true, decide_eq_true_eq, List.isEmpty_iff] at hD
  obtain ⟨k1, k2⟩ := hD
  have hs : D.Small 10 100 := ⟨fun x hx => (k2 x hx).1.1.1, fun x hx t ht => (k2 x hx).1.1.2 t ht,
    fun x hx p hp => by rw [(k2 x hx).1.2] at hp; cases hp⟩
  obtain ⟨symbol, g, g1, g2⟩ := C36_function_partial exSelect exSem_ctl exChoice_legal exIrr_valid exIrr_small exIrr_first e1
    (matches_of k1) hs e2 e3 e4 (fun u hu => by
      have hu' : u = 2 ∨ u = 20 := by simpa using hu
      refine ⟨by rcases hu' with h | h <;> omega, ?_⟩
      rintro (h | ⟨x, m, d, h1, h2, _⟩)
      · rcases hu' with h' | h' <;> omega
      · rcases hu' with h' | h'
        · exact (k2 x h1).2.1 (h' ▸ h2)
        · exact (k2 x h1).2.2 (h' ▸ h2)) exOuterEnv
  obtain ⟨s, a, b⟩ := exIrr_exec
  exact ⟨D, R, tree, node, symbol, g, e1, e2, e3, e4, g1, (g2 _ _ a).trans b⟩

/-- `s = 0; do { s = s + x } while (s == 1 || s == 2)`, as a switch with two cases. -/
def exSwitch : Cfg where
  nodes := [0, 9, 1, 2]
  code x := match x with
    | 1 => [.op (cvConst 0) [] [2]]
    | 2 => [.op cvAdd [2, 1] [2], .op (cvMatch [(1, 0), (2, 0)] 1) [2] [3], .branch 3]
    | _ => []
  succs x := match x with
    | 0 => [1] | 1 => [2] | 2 => [2, 9] | _ => []
  entry := 0
  exit := 9

theorem exSwitch_valid : exSwitch.noPhis.Valid where
  entry := by decide
  exit := by decide
  closed := by decide
  last := rfl
  branch := by decide
  nodup := by decide
  differ := by decide
  noPred := by decide
  first := rfl
  succ := by decide
  noPhi := ⟨rfl, rfl⟩
  phis := fun x hx p hp => by cases hp

/-- What /repo does to the loop: the edges are exchanged, but of the two mappings only the first one is kept. -/
def exSwitchBad : Cfg where
  nodes := [0, 9, 1, 2]
  code x := match x with
    | 1 => [.op (cvConst 0) [] [2]]
    | 2 => [.op cvAdd [2, 1] [2], .op (cvMatch [(1, 1)] 0) [2] [3], .branch 3]
    | _ => []
  succs x := match x with
    | 0 => [1] | 1 => [2] | 2 => [9, 2] | _ => []
  entry := 0
  exit := 9

theorem exSwitch_restructure : (restructureCfg exChoice false 50 10 100 exSwitch).map (fun D =>
    (D.nodes.map fun x => (x, D.code x, D.succs x), D.entry, D.exit)) =
      some (exSwitchBad.nodes.map fun x => (x, exSwitchBad.code x, exSwitchBad.succs x), 0, 9) := by
  decide +kernel

/-- **C36, counterexample.** A switch with two cases that both continue the loop: restructuring, as in /repo, gives a
graph that leaves the loop too early. Called with x = 1, the graph returns s = 3, the restructured one s = 2. -/
theorem C36_restructure_counterexample : exSwitch.noPhis.Valid ∧ exSwitch.Matches true ∧ ∃ D s s' t',
    restructureCfg exChoice false 50 10 100 exSwitch = some D ∧
    exSwitch.Exec exSem (fun v => v == 1) 0 s s' ∧ s'.env 2 = some (3, none) ∧
    D.Exec exSem (fun v => v == 1) 0 s t' ∧ t'.env 2 = some (2, none) := by
  have h : (restructureCfg exChoice false 50 10 100 exSwitch).isSome = true := by decide +kernel
  obtain ⟨D, hD⟩ := Option.isSome_iff_exists.1 h
  have h' := exSwitch_restructure
  rw [hD] at h'
  simp only [Option.map_some, Option.some.injEq, Prod.mk.injEq] at h'
  obtain ⟨h1, h2, h3⟩ := h'
  have hn : D.nodes = [0, 9, 1, 2] := by
    have := congrArg (List.map Prod.fst) h1
    simpa [List.map_map, Function.comp_def, exSwitchBad] using this
  rw [hn] at h1
  simp only [exSwitchBad, List.map_cons, List.map_nil, List.cons.injEq, Prod.mk.injEq, true_and, and_true] at h1
  obtain ⟨⟨c0, s0⟩, ⟨c9, s9⟩, ⟨c1, s1⟩, ⟨c2, s2⟩⟩ := h1
  refine ⟨exSwitch_valid, matches_of (by decide +kernel), D, ⟨fun u => if u = 1 then some (1, none) else none, none⟩, _, _, hD,
    .step (y := 1) (by decide) rfl (.step (y := 2) (by decide) rfl (.step (y := 2) (by decide) rfl
      (.step (y := 2) (by decide) rfl (.step (y := 9) (by decide) rfl .stop)))), rfl,
    .step (y := 1) (by rw [h3]; decide) (by rw [s0, c0]; rfl) (.step (y := 2) (by rw [h3]; decide) (by rw [s1, c1, c0]; rfl)
      (.step (y := 2) (by rw [h3]; decide) (by rw [s2, c2, c1, c0]; rfl)
        (.step (y := 9) (by rw [h3]; decide) (by rw [s2, c2, c1, c0]; rfl) (.stop' h3.symm rfl)))), ?_⟩
  rw [c9, c2, c1, c0]
  rfl

end Jlm.Front
