import Verif.Front.SsaProps
import Verif.Front.Agg

/-!
# C35: the transformations that prepare control flow graphs preserve what they compute
-/

set_option linter.unusedSimpArgs false
set_option linter.unusedVariables false

namespace Jlm.Front

open Jlm.Opt

variable {V : Type}

/-- **C35.** `straighten` keeps valid graphs valid, does not change what they compute, and afterwards no block
can be merged into its successor. -/
theorem C35_straighten {C : PCfg} (hv : C.Valid) : (straighten C).Valid ∧ (straighten C).Straight ∧
    (straighten C).entry = C.entry ∧ (straighten C).exit = C.exit ∧ (∀ x ∈ (straighten C).nodes, x ∈ C.nodes) ∧
    ∀ (sem : Sem V) (truth : V → Bool) (s s' : St V),
      (straighten C).Exec sem truth C.entry s s' ↔ C.Exec sem truth C.entry s s' := by
  have h := fun (sem : Sem V) (truth : V → Bool) => straightenOver_exec (sem := sem) (truth := truth) hv
    (blocks_nodup hv) fun x hx => hx
  obtain ⟨h1, h2, h3, h4, _⟩ := straightenOver_exec (sem := exSem) (truth := fun _ => true) hv
    (blocks_nodup hv) fun x hx => hx
  refine ⟨h1, fun x hx y hy hs hp => ?_, h2, h3, h4, fun sem truth => (h sem truth).2.2.2.2⟩
  have := straightenOver_straight hv (blocks_nodup hv) (fun x hx => hx) (fun z hz hn => absurd hz hn) x hx
  rw [merges_none] at this
  exact this y hs (mem_blocks.1 hy).2.1 (mem_blocks.1 hy).2.2 hp

/-- **C35.** `prune` keeps valid graphs valid, does not change what they compute, removes exactly the blocks that
cannot be reached from the entry. -/
theorem C35_prune {C : PCfg} (hv : C.Valid) : (prune C).Valid ∧
    (prune C).entry = C.entry ∧ (prune C).exit = C.exit ∧
    (∀ x ∈ (prune C).blocks, (prune C).toCfg.Reach x) ∧
    (∀ x, x ∈ (prune C).nodes ↔ x ∈ C.nodes ∧ (C.Reach x ∨ x = C.exit)) ∧
    ∀ (sem : Sem V) (truth : V → Bool) (s s' : St V),
      (prune C).Exec sem truth C.entry s s' ↔ C.Exec sem truth C.entry s s' := by
  refine ⟨prune_valid hv, rfl, rfl, fun x hx => prune_reach.2 (prune_live hv hx), fun x => ?_,
    fun sem truth s s' => prune_exec hv .entry⟩
  have : x ∈ (prune C).nodes ↔ x ∈ C.nodes ∧ x ∉ C.dead := by simp [prune]
  rw [this, mem_dead hv.toWf, mem_blocks]
  refine and_congr_right fun hx => ⟨fun h => ?_, ?_⟩
  · by_cases e : x = C.exit
    · exact .inr e
    · left
      by_cases e2 : x = C.entry
      · rw [e2]; exact .entry
      · by_cases r : C.Reach x
        · exact r
        · exact absurd ⟨⟨hx, e2, e⟩, r⟩ h
  · rintro (h | h) ⟨h1, h2⟩
    · exact h2 h
    · exact h1.2.2 h

/-- **C35.** `purge` of a valid graph without phi operations does not fail, keeps it valid and does not change
what it computes; only blocks that are endless loops are empty afterwards. -/
theorem C35_purge {C : PCfg} (hv : C.Valid) (hn : ∀ x ∈ C.nodes, C.phis x = []) : ∃ D, purge C = some D ∧ D.Valid ∧
    D.entry = C.entry ∧ D.exit = C.exit ∧ (∀ x ∈ D.nodes, x ∈ C.nodes ∧ D.phis x = []) ∧
    (∀ x ∈ D.blocks, D.code x ≠ [] ∨ D.succs x = [x]) ∧
    ∀ (sem : Sem V) (truth : V → Bool) (s s' : St V),
      D.Exec sem truth C.entry s s' ↔ C.Exec sem truth C.entry s s' := by
  have h := fun (sem : Sem V) (truth : V → Bool) => purgeOver_exec (sem := sem) (truth := truth) hv hn
    (blocks_nodup hv) (fun x hx => hx) fun z hz hn => absurd hz hn
  obtain ⟨D, h1, h2, h3, h4, h5, h6, h7, _⟩ := purgeOver_exec (sem := exSem) (truth := fun _ => true) hv hn
    (blocks_nodup hv) (fun x hx => hx) fun z hz hn => absurd hz hn
  refine ⟨D, h1, h2, h4, h5, fun x hx => ⟨h6 x hx, h3 x hx⟩, h7, fun sem truth s s' => ?_⟩
  obtain ⟨D', h1', _, _, _, _, _, _, h8⟩ := h sem truth
  rw [h1] at h1'
  injection h1' with e
  subst e
  exact h8 s s'

/-- **C35.** `destruct_ssa` of a valid graph, when new blocks are counted from `n` and new variables from `v` on:
there are no phi operations left, the graph is valid, and started in `s` it ends in a state that agrees, on the
variables that were there before, with the one in which the old graph ends when it is started with all results
of phi operations undefined. -/
theorem C35_destruct_ssa {C : PCfg} (hv : C.Valid) {n v f : Nat} (hs : C.Small n v) (hf : C.First f) :
    ∃ D, destructSsa n v C = some D ∧ D.Valid ∧ D.entry = C.entry ∧ D.exit = C.exit ∧
      (∀ x ∈ D.nodes, D.phis x = []) ∧
      ∀ (sem : Sem V) (truth : V → Bool) (s : St V),
        (∀ s', C.Exec sem truth C.entry (undefs sem C.phiResults s) s' →
          ∃ t', D.Exec sem truth C.entry s t' ∧ AgreeBelow v s' t') ∧
        (∀ t', D.Exec sem truth C.entry s t' →
          ∃ s', C.Exec sem truth C.entry (undefs sem C.phiResults s) s' ∧ AgreeBelow v s' t') := by
  obtain ⟨f1, f2, f3, f4, f5⟩ := hf
  have hb : ∀ b ∈ C.phiBlocks, b ∈ C.blocks ∧ C.phis b ≠ [] := fun b hb => by
    simpa [PCfg.phiBlocks] using hb
  have hall : ∀ x ∈ C.nodes, C.phis x ≠ [] → x ∈ C.phiBlocks := fun x hx hp => by
    have h1 : x ≠ C.entry := fun e => hp (by rw [e]; exact hv.noPhi.1)
    have h2 : x ≠ C.exit := fun e => hp (by rw [e]; exact hv.noPhi.2)
    simp [PCfg.phiBlocks, mem_blocks, hx, h1, h2, hp]
  have hfb : f ∉ C.phiBlocks := fun h => (hb f h).2 f4
  have hund : ∀ (sem : Sem V) (s : St V), undefs sem C.phiResults.reverse s = undefs sem C.phiResults s := fun sem s => by
    simp [undefs]
  have hsm := undefs_small hs (f := f) (vs := C.phiResults.reverse) (fun u hu => by
    simp only [List.mem_reverse, PCfg.phiResults, List.mem_flatMap, List.mem_map] at hu
    obtain ⟨b, h1, p, h2, rfl⟩ := hu
    exact (hs.phis b (mem_blocks.1 (hb b h1).1).1 p h2).1)
  have hval := undefs_valid hv (f := f) (vs := C.phiResults.reverse)
  have hex := fun (sem : Sem V) (truth : V → Bool) => splitAll_exec (sem := sem) (truth := truth)
    (bs := C.phiBlocks) hval hsm (fun b h => (hb b h).1) hall
  have hD : destructSsa n v C = some (splitAll (C.withUndefs f C.phiResults.reverse) n v C.phiBlocks) := by
    unfold destructSsa
    split
    · rename_i e
      have : C.phiResults = [] := by simp [PCfg.phiResults, e]
      have e2 : C.withUndefs f [] = C := by
        cases C; simp [PCfg.withUndefs]
      rw [e, this, List.reverse_nil, e2]; rfl
    · rw [f2]
      simp only [hfb, f3, or_self, if_false]
  obtain ⟨h1, h2, h3, h4, _⟩ := splitAll_exec (sem := exSem) (truth := fun _ => true)
    (bs := C.phiBlocks) hval hsm (fun b h => (hb b h).1) hall
  refine ⟨_, hD, h1, h3, h4, h2, fun sem truth s => ⟨fun s' he => ?_, fun t' he => ?_⟩⟩
  · obtain ⟨_, _, e1, _, _, r1, _⟩ := hex sem truth
    have := (undefs_exec hv f2 f5 f3 f4 f1 (vs := C.phiResults.reverse) (s := s)).2 (by rw [hund]; exact he)
    obtain ⟨t', a, b⟩ := r1 s s s' (AgreeBelow.refl _ _) this
    rw [e1] at a
    exact ⟨t', a, b⟩
  · obtain ⟨_, _, e1, _, _, _, r2⟩ := hex sem truth
    obtain ⟨s', a, b⟩ := r2 s s t' (AgreeBelow.refl _ _) (by rw [e1]; exact he)
    have := (undefs_exec hv f2 f5 f3 f4 f1 (vs := C.phiResults.reverse) (s := s)).1 a
    rw [hund] at this
    exact ⟨s', this, b⟩

/-! ### The transformations in a row -/

theorem straightenOver_inv {P : PCfg → Prop}
    (hm : ∀ (C : PCfg) (x y : Nat), C.Valid → x ∈ C.blocks → C.merges x = some y → P C → P (C.merge x y)) :
    ∀ {xs : List Nat} {C : PCfg}, C.Valid → xs.Nodup → (∀ x ∈ xs, x ∈ C.blocks) → P C → P (straightenOver C xs)
  | [], C, _, _, _, h => h
  | x :: xs, C, hv, hn, hb, h => by
      rw [List.nodup_cons] at hn
      have hx := hb x (by simp)
      rw [straightenOver]
      split
      · rename_i y e
        refine straightenOver_inv hm (merge_valid hv hx e) hn.2 (fun z hz => ?_) (hm C x y hv hx e h)
        have := mem_blocks.1 (hb z (by simp [hz]))
        rw [mem_blocks]
        refine ⟨?_, this.2⟩
        have : z ≠ x := fun e => hn.1 (e ▸ hz)
        simp [PCfg.merge, *]
      · exact straightenOver_inv hm hv hn.2 (fun z hz => hb z (by simp [hz])) h

theorem straighten_inv {P : PCfg → Prop}
    (hm : ∀ (C : PCfg) (x y : Nat), C.Valid → x ∈ C.blocks → C.merges x = some y → P C → P (C.merge x y))
    {C : PCfg} (hv : C.Valid) (h : P C) : P (straighten C) :=
  straightenOver_inv hm hv (blocks_nodup hv) (fun _ hx => hx) h

theorem merge_first {C : PCfg} {x y : Nat} (hv : C.Valid) (hx : x ∈ C.blocks) (h : C.merges x = some y)
    (hf : ∃ f, C.First f) : ∃ f, (C.merge x y).First f := by
  obtain ⟨f, f1, f2, f3, f4, f5⟩ := hf
  obtain ⟨h1, h2, h3, h4, h5⟩ := merges_some h
  obtain ⟨x1, x2, x3⟩ := mem_blocks.1 hx
  have hp : ∀ z ∈ C.nodes, y ∈ C.succs z → z = x := fun z hz hy => Cfg.indeg_one h2 hz x1 hy (by simp [h1])
  have hfy : f ≠ y := fun e => x2 (hp C.entry hv.entry (by rw [f2, e]; simp)).symm
  have hm : ∀ z, z ∈ (C.merge x y).nodes ↔ z ∈ C.nodes ∧ z ≠ x := fun z => by simp [PCfg.merge]
  refine ⟨ren x y f, ?_, ?_, ?_, ?_, fun z hz hy => ?_⟩
  · show (if C.entry = y then C.code x ++ C.code y else C.code C.entry) = []
    rw [if_neg (Ne.symm h3)]; exact f1
  · show divert x y (C.succs C.entry) = _
    rw [f2]; rfl
  · show ren x y f ≠ C.exit
    unfold ren; split
    · exact h4
    · exact f3
  · show (if ren x y f = y then C.phis x else C.phis (ren x y f)) = []
    unfold ren
    by_cases e : f = x
    · rw [if_pos e, if_pos rfl, ← e]; exact f4
    · rw [if_neg e, if_neg hfy]; exact f4
  · obtain ⟨z1, z2⟩ := (hm z).1 hz
    have hy : ren x y f ∈ divert x y (C.succs z) := hy
    show z = C.entry
    have hyz : y ∉ C.succs z := fun e => z2 (hp z z1 e)
    rcases mem_divert.1 hy with ⟨a, b⟩ | ⟨a, b⟩
    · unfold ren at a
      split at a
      · exact absurd a hyz
      · exact f5 z z1 a
    · unfold ren at a
      split at a
      · rename_i e; exact f5 z z1 (e ▸ b)
      · exact absurd a hfy

theorem merge_small {C : PCfg} {x y n v : Nat} (hv : C.Valid) (hx : x ∈ C.blocks) (h : C.merges x = some y)
    (hs : C.Small n v) : (C.merge x y).Small n v := by
  obtain ⟨x1, x2, x3⟩ := mem_blocks.1 hx
  have yn := hv.closed x x1 y (by simp [(merges_some h).1])
  have hm : ∀ z, z ∈ (C.merge x y).nodes → z ∈ C.nodes := fun z hz => (List.mem_filter.1 hz).1
  refine ⟨fun z hz => hs.nodes z (hm z hz), fun z hz t ht => ?_, fun z hz p hp => ?_⟩
  · simp only [PCfg.merge] at ht
    split at ht
    · rcases List.mem_append.1 ht with e | e
      · exact hs.code x x1 t e
      · exact hs.code y yn t e
    · exact hs.code z (hm z hz) t ht
  · simp only [PCfg.merge] at hp
    split at hp
    · exact hs.phis x x1 p hp
    · exact hs.phis z (hm z hz) p hp

theorem merge_noPhis {C : PCfg} {x y : Nat} (hx : x ∈ C.blocks) (h : ∀ z ∈ C.nodes, C.phis z = []) :
    ∀ z ∈ (C.merge x y).nodes, (C.merge x y).phis z = [] := fun z hz => by
  simp only [PCfg.merge]
  split
  · exact h x (mem_blocks.1 hx).1
  · exact h z (List.mem_filter.1 hz).1

theorem prune_first {C : PCfg} (hf : ∃ f, C.First f) : ∃ f, (prune C).First f := by
  obtain ⟨f, f1, f2, f3, f4, f5⟩ := hf
  refine ⟨f, f1, f2, f3, ?_, fun z hz hy => f5 z (List.mem_filter.1 hz).1 hy⟩
  simp only [prune, f4]
  split <;> rfl

theorem prune_small {C : PCfg} {n v : Nat} (hs : C.Small n v) : (prune C).Small n v := by
  have hm : ∀ z, z ∈ (prune C).nodes → z ∈ C.nodes := fun z hz => (List.mem_filter.1 hz).1
  refine ⟨fun z hz => hs.nodes z (hm z hz), fun z hz => hs.code z (hm z hz), fun z hz p hp => ?_⟩
  simp only [prune] at hp
  split at hp
  · obtain ⟨q, hq, rfl⟩ := List.mem_map.1 hp
    have := hs.phis z (hm z hz) q hq
    exact ⟨this.1, fun i hi => this.2 i (List.mem_filter.1 hi).1⟩
  · exact hs.phis z (hm z hz) p hp

/-- From the graph that the LLVM conversion has built to the one that is restructured: `straighten` and `prune`
(jlm/llvm/frontend/LlvmModuleConversion.cpp:2500-2502), `destruct_ssa`, `straighten` and `purge`
(jlm/llvm/frontend/InterProceduralGraphConversion.cpp:953-955). -/
def prepare (n v : Nat) (C : PCfg) : Option PCfg :=
  (destructSsa n v (prune (straighten C))).bind fun D => purge (straighten D)

/-- **C35.** All transformations that precede control flow restructuring, in the order of /repo: they do not fail
on a valid graph whose first block is entered from the entry only; the result is a valid graph without phi
operations in which only endless loops are empty; and it computes, on the old variables, what the given graph
computes when the results of phi operations are undefined at the start. -/
theorem C35_prepare {C : PCfg} (hv : C.Valid) {n v f : Nat} (hs : C.Small n v) (hf : C.First f) :
    ∃ D, prepare n v C = some D ∧ D.Valid ∧ D.entry = C.entry ∧
      (∀ x ∈ D.nodes, D.phis x = []) ∧ (∀ x ∈ D.blocks, D.code x ≠ [] ∨ D.succs x = [x]) ∧
      ∀ (sem : Sem V) (truth : V → Bool) (s : St V),
        (∀ s', C.Exec sem truth C.entry (undefs sem (prune (straighten C)).phiResults s) s' →
          ∃ t', D.toCfg.Exec sem truth D.entry s t' ∧ AgreeBelow v s' t') ∧
        (∀ t', D.toCfg.Exec sem truth D.entry s t' →
          ∃ s', C.Exec sem truth C.entry (undefs sem (prune (straighten C)).phiResults s) s' ∧ AgreeBelow v s' t') := by
  obtain ⟨a1, _, a2, a3, _, a4⟩ := C35_straighten (V := V) hv
  have ff := straighten_inv (P := fun C => ∃ f, C.First f) (fun C x y hv hx e => merge_first hv hx e) hv ⟨f, hf⟩
  have fs := straighten_inv (P := fun C => C.Small n v) (fun C x y hv hx e => merge_small hv hx e) hv hs
  obtain ⟨b1, b2, b3, _, _, b4⟩ := C35_prune (V := V) a1
  obtain ⟨f', hf'⟩ := prune_first ff
  obtain ⟨D1, c0, c1, c2, c3, c4, c5⟩ := C35_destruct_ssa (V := V) b1 (prune_small fs) hf'
  obtain ⟨d1, _, d2, d3, _, d4⟩ := C35_straighten (V := V) c1
  have dn := straighten_inv (P := fun C => ∀ z ∈ C.nodes, C.phis z = []) (fun C x y hv hx e => merge_noPhis hx) c1 c4
  obtain ⟨D2, e0, e1, e2, e3, e4, e5, e6⟩ := C35_purge (V := V) d1 dn
  have hent : D2.entry = C.entry := e2.trans (d2.trans (c2.trans (b2.trans a2)))
  refine ⟨D2, by rw [prepare, c0]; exact e0, e1, hent, fun x hx => (e4 x hx).2, e5,
    fun sem truth s => ?_⟩
  have hx : ∀ t', D2.toCfg.Exec sem truth D2.entry s t' ↔ D1.Exec sem truth (prune (straighten C)).entry s t' := fun t' => by
    rw [← noPhi_exec e1.toWf (fun x hx => (e4 x hx).2) e1.entry, e2, e6, d2, d4, c2]
  have hy : ∀ t s', (prune (straighten C)).Exec sem truth (prune (straighten C)).entry t s' ↔
      C.Exec sem truth C.entry t s' := fun t s' => by rw [b2, b4, a2, a4]
  obtain ⟨r1, r2⟩ := c5 sem truth s
  refine ⟨fun s' h => ?_, fun t' h => ?_⟩
  · obtain ⟨t', q1, q2⟩ := r1 s' ((hy _ _).2 h)
    exact ⟨t', (hx t').2 q1, q2⟩
  · obtain ⟨s', q1, q2⟩ := r2 t' ((hx t').1 h)
    exact ⟨s', (hy _ _).1 q1, q2⟩

/-! ### Examples -/

/-- `a = c0; b = x; k = c0; do { (a, b) = (b, a); k = k + x } while (k != 2)`: a loop whose phi operations swap two
variables, an unreachable block (5), an empty block (6) and two blocks that are merged (1 into 2).
Variables: x = 1; phi results a = 10, b = 11, k = 12; k' = 13. -/
def exPhi : PCfg where
  nodes := [0, 9, 1, 2, 3, 4, 5, 6]
  code x := match x with
    | 1 => [.op (cvConst 0) [] [2]]
    | 2 => [.op (cvConst 0) [] [3]]
    | 3 => [.op cvAdd [12, 1] [13], .op (cvMatch [(2, 0)] 1) [13] [4], .branch 4]
    | 4 => [.assign 20 10, .assign 21 11]
    | 5 => [.op (cvConst 0) [] [5]]
    | _ => []
  succs x := match x with
    | 0 => [1] | 1 => [2] | 2 => [3] | 3 => [4, 6] | 4 => [9] | 5 => [3] | 6 => [3] | _ => []
  entry := 0
  exit := 9
  phis x := match x with
    | 3 => [⟨10, [(2, 2), (5, 5), (6, 11)]⟩, ⟨11, [(2, 1), (5, 5), (6, 10)]⟩, ⟨12, [(2, 3), (5, 5), (6, 13)]⟩]
    | _ => []

theorem exPhi_valid : exPhi.Valid where
  entry := by decide
  exit := by decide
  closed := by decide
  last := rfl
  branch := by decide
  nodup := by decide
  differ := by decide
  noPred := by decide
  first := rfl
  succ := by decide
  noPhi := ⟨rfl, rfl⟩
  phis := by
    intro x hx p hp
    have h : x = 3 ∨ exPhi.phis x = [] := by
      have : ∀ x ∈ exPhi.nodes, x = 3 ∨ exPhi.phis x = [] := by decide
      exact this x hx
    rcases h with rfl | h
    · refine ⟨by revert p; decide, fun z => ?_⟩
      have : p.ins.map Prod.fst = [2, 5, 6] := by revert p; decide
      rw [this]
      constructor
      · intro hz
        revert z; decide
      · rintro ⟨hz, h3⟩
        revert z; decide
    · rw [h] at hp; cases hp

theorem exPhi_small : exPhi.Small 10 30 where
  nodes := by decide
  code := by
    intro x hx t ht
    refine ⟨?_, ?_⟩ <;> (revert x t; decide)
  phis := by
    intro x hx p hp
    refine ⟨?_, ?_⟩ <;> (revert x p; decide)

theorem exPhi_first : exPhi.First 1 := ⟨rfl, rfl, by decide, rfl, by decide⟩

/-- Two iterations: the results have been swapped once. -/
theorem exPhi_exec : ∃ s', exPhi.Exec exSem (fun v => v == 1) 0 ⟨fun u => if u = 1 then some (1, none) else none, none⟩ s' ∧
    s'.env 20 = some (1, none) ∧ s'.env 21 = some (0, none) ∧ s'.env 13 = some (2, none) :=
  ⟨_, .step (y := 1) (by decide) rfl (.step (y := 2) (by decide) rfl (.step (y := 3) (by decide) rfl
    (.step (y := 6) (by decide) rfl (.step (y := 3) (by decide) rfl (.step (y := 4) (by decide) rfl
      (.step (y := 9) (by decide) rfl .stop)))))), rfl, rfl, rfl⟩

/-- The blocks after each transformation. -/
theorem exPhi_straighten : (straighten exPhi).nodes = [0, 9, 2, 3, 4, 5, 6] ∧ (prune (straighten exPhi)).nodes = [0, 9, 2, 3, 4, 6] ∧
    ((prune (straighten exPhi)).phis 3).map Phi.ins = [[(2, 2), (6, 11)], [(2, 1), (6, 10)], [(2, 3), (6, 13)]] := by
  decide +kernel

/-- The prepared graph: the phi operations have become assignments. -/
theorem exPhi_prepared : (prepare 10 30 exPhi).map (fun D => D.nodes.map fun x => (x, D.code x, D.succs x)) = some [
    (0, [], [11]), (9, [], []),
    (3, [.assign 10 30, .assign 11 31, .assign 12 32,
      .op cvAdd [12, 1] [13], .op (cvMatch [(2, 0)] 1) [13] [4], .branch 4], [4, 12]),
    (4, [.assign 20 10, .assign 21 11], [9]),
    (11, [.op undefOp [] [12], .op undefOp [] [11], .op undefOp [] [10], .op (cvConst 0) [] [2], .op (cvConst 0) [] [3],
      .assign 30 2, .assign 31 1, .assign 32 3], [3]),
    (12, [.assign 30 11, .assign 31 10, .assign 32 13], [3])] := by
  decide +kernel

/-- A valid graph with a phi operation in which an empty block (2) tells the operands apart. -/
def exPurge : PCfg where
  nodes := [0, 9, 1, 2, 3]
  code x := match x with
    | 1 => [.op (cvConst 5) [] [2], .op (cvMatch [(1, 0)] 1) [1] [4], .branch 4]
    | 3 => [.assign 5 3]
    | _ => []
  succs x := match x with | 0 => [1] | 1 => [2, 3] | 2 => [3] | 3 => [9] | _ => []
  entry := 0
  exit := 9
  phis x := match x with | 3 => [⟨3, [(1, 2), (2, 1)]⟩] | _ => []

/-- **C35 (limit).** `purge` must not be used while there are phi operations: it removes the block by which the phi
operation of a valid graph tells its operands apart, and the graph computes something else. (/repo only calls it
after `destruct_ssa`; with assertions enabled, the check at its end fails in such a case.) -/
theorem C35_purge_phis_counterexample : ∃ D s s1 s2, purge exPurge = some D ∧
    exPurge.Exec exSem (fun v => v == 1) 0 s s1 ∧ s1.env 5 = some (1, none) ∧
    D.Exec exSem (fun v => v == 1) 0 s s2 ∧ s2.env 5 = some (5, none) :=
  ⟨exPurge.skip 2 3, ⟨fun u => if u = 1 then some (1, none) else none, none⟩, _, _, rfl,
    .step (y := 1) (by decide) rfl (.step (y := 2) (by decide) rfl (.step (y := 3) (by decide) rfl
      (.step (y := 9) (by decide) rfl .stop))), rfl,
    .step (y := 1) (by decide) rfl (.step (y := 3) (by decide) rfl (.step (y := 9) (by decide) rfl
      (.stop' rfl rfl))), rfl⟩

theorem exPurge_valid : exPurge.Valid where
  entry := by decide
  exit := by decide
  closed := by decide
  last := rfl
  branch := by decide
  nodup := by decide
  differ := by decide
  noPred := by decide
  first := rfl
  succ := by decide
  noPhi := ⟨rfl, rfl⟩
  phis := by
    intro x hx p hp
    have h : x = 3 ∨ exPurge.phis x = [] := by
      have : ∀ x ∈ exPurge.nodes, x = 3 ∨ exPurge.phis x = [] := by decide
      exact this x hx
    rcases h with rfl | h
    · refine ⟨by revert p; decide, fun z => ?_⟩
      have : p.ins.map Prod.fst = [1, 2] := by revert p; decide
      rw [this]
      constructor
      · intro hz
        revert z; decide
      · rintro ⟨hz, h3⟩
        revert z; decide
    · rw [h] at hp; cases hp

end Jlm.Front
