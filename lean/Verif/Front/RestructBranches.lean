import Verif.Front.RestructLoops

/-!
# Control flow restructuring: branches
-/

set_option linter.unusedSimpArgs false
set_option linter.unusedVariables false

namespace Jlm.Front

open Jlm.Opt

variable {V : Type} {sem : Sem V} {truth : V → Bool} {K : Nat → Prop} {fix : Bool} {v0 : Nat} {st0 st : RSt}

/-- A new block that is left alone. -/
structure Keep (st0 st : RSt) (x : Nat) (c : List Tac) (ss : List Nat) : Prop where
  new : st0.n ≤ x
  lt : x < st.n
  mem : x ∈ st.C.nodes
  code : st.C.code x = c
  succs : st.C.succs x = ss

variable {x : Nat} {c : List Tac} {ss : List Nat}

theorem Keep.addBlock (h : Keep st0 st x c ss) (c' : List Tac) (ss' : List Nat) : Keep st0 (st.addBlock c' ss') x c ss :=
  ⟨h.new, Nat.lt_succ_of_lt h.lt, mem_addBlock.2 (.inl h.mem), (if_neg (Nat.ne_of_lt h.lt)).trans h.code,
    (if_neg (Nat.ne_of_lt h.lt)).trans h.succs⟩

theorem Keep.divert (h : Keep st0 st x c ss) (h0 : Inv K fix v0 st0) {e : Edge} {y : Nat} (he : e.1 ∈ st0.C.nodes) :
    Keep st0 (st.divertEdge e y) x c ss :=
  ⟨h.new, h.lt, h.mem, h.code, (if_neg (by have := h0.small _ he; have := h.new; omega)).trans h.succs⟩

theorem Keep.route (h : Keep st0 st x c ss) (h0 : Inv K fix v0 st0) {e : Edge} {as : List (Nat × Nat)} {target : Nat}
    (he : e.1 ∈ st0.C.nodes) : Keep st0 (st.route e as target) x c ss :=
  Keep.divert (st := (st.bump as.length).addBlock (constAssigns st.v as) [target])
    (Keep.addBlock (st := st.bump as.length) ⟨h.new, h.lt, h.mem, h.code, h.succs⟩ _ _) h0 he

theorem SI.keepNew (h : SI sem truth K fix v0 st0 st) (c : List Tac) (ss : List Nat) :
    Keep st0 (st.addBlock c ss) st.n c ss :=
  ⟨h.stage.n, Nat.lt_succ_self _, mem_addBlock.2 (.inr rfl), if_pos rfl, if_pos rfl⟩

theorem SI.ne_exit (h : SI sem truth K fix v0 st0 st) {x : Nat} (hx : st0.n ≤ x) : x ≠ st.C.exit := fun e => by
  have := h.inv0.small _ h.inv0.exit
  rw [h.stage.exit] at e
  omega

theorem SI.ne_entry (h : SI sem truth K fix v0 st0 st) {x : Nat} (hx : st0.n ≤ x) : x ≠ st.C.entry := fun e => by
  have := h.inv0.small _ h.inv0.entry
  rw [h.stage.entry] at e
  omega

/-- Through an empty block. -/
theorem Keep.arr (h : SI sem truth K fix v0 st0 st) {y : Nat} (hk : Keep st0 st x [] [y]) :
    Arr sem truth (fun u => st0.v ≤ u) st.C (fun b => st0.n ≤ b ∧ b < st.n) x y := fun t =>
  ⟨t, .step (b := y) ⟨hk.new, hk.lt⟩ (h.ne_exit hk.new) (by rw [hk.succs]; rfl) (by rw [hk.code]; exact .refl), .refl _⟩

theorem fresh_nil {v : Nat} : Fresh v0 v [] := ⟨nofun, nofun, nofun⟩

/-! ### The continuation -/

theorem mem_contEdges {C : Cfg} {e e' : Edge} (he : e.1 ∈ C.nodes) (h : e' ∈ contEdges C e) : e'.1 ∈ C.nodes := by
  unfold contEdges at h
  split at h
  · rw [List.mem_singleton.1 h]; exact he
  · exact (mem_allEdges.1 (List.mem_filter.1 h).1).1

theorem mem_edgesOf {C : Cfg} {x : Nat} {e : Edge} (h : e ∈ C.edgesOf x) : e.1 = x := by
  unfold Cfg.edgesOf at h
  obtain ⟨i, _, rfl⟩ := List.mem_map.1 h
  rfl

theorem mem_contPoints {C : Cfg} {hb y : Nat} (hh : hb ∈ C.nodes) (h : y ∈ contPoints C hb) :
    ∃ x ∈ C.nodes, y ∈ C.succs x := by
  unfold contPoints at h
  rw [List.mem_eraseDups, List.mem_filterMap] at h
  obtain ⟨e, h1, h2⟩ := h
  obtain ⟨e', h3, h4⟩ := List.mem_flatMap.1 h1
  exact ⟨e.1, mem_contEdges (by rw [mem_edgesOf h3]; exact hh) h4, sink_mem h2⟩

theorem branchFold_inv {P : RSt → Prop} {f : RSt → Edge → Option (RSt × Option (Edge × Nat))} :
    ∀ {es : List Edge} {s : RSt} {r : RSt × List (Edge × Nat)},
      (∀ s e r, e ∈ es → P s → f s e = some r → P r.1) → P s → branchFold f s es = some r → P r.1
  | [], s, r, _, h, he => by
      simp only [branchFold, Option.some.injEq] at he
      rw [← he]; exact h
  | e :: es, s, r, hf, h, he => by
      simp only [branchFold, Option.bind_eq_some_iff, Option.map_eq_some_iff] at he
      obtain ⟨r1, h1, r2, h2, rfl⟩ := he
      exact branchFold_inv (r := r2) (fun s e' r he' => hf s e' r (List.mem_cons_of_mem _ he')) (hf s e r1 (by simp) h h1) h2

theorem headBranch_spec {C : Cfg} {exit : Nat} : ∀ {fuel x hb : Nat}, headBranch C exit fuel x = some hb →
    1 < (C.succs hb).length ∨ hb = exit
  | 0, x, hb, h => by cases h
  | fuel + 1, x, hb, h => by
      rw [headBranch] at h
      split at h
      · rename_i hx
        cases h; exact hx
      · split at h
        · exact headBranch_spec h
        · cases h

theorem Inv.not_stub (h : Inv K fix v0 st) {x : Nat} (hx : 1 < (st.C.succs x).length) : x ∉ stubs st.loops := fun hs => by
  obtain ⟨l, hl, e | e⟩ := mem_stubs.1 hs
  · rw [e, (h.loop l hl).2.2.2.2.2.1] at hx; simp at hx
  · rw [e, (h.loop l hl).2.2.2.2.2.2.1] at hx; omega

/-- One continuation point. -/
theorem branchOne_spec (h : SI sem truth K fix v0 st0 st) {cp : Nat} (hcp : ∃ x ∈ st0.C.nodes, cp ∈ st0.C.succs x) {e : Edge}
    {es : List Edge} (he : e.1 ∈ st0.C.nodes) (hes : ∀ e' ∈ es, e'.1 ∈ st0.C.nodes) {r : RSt × Option (Edge × Nat)}
    (hr : st.branchOne cp e es = some r) : SI sem truth K fix v0 st0 r.1 := by
  obtain ⟨z, hz, hcz⟩ := hcp
  have hin : cp ∈ st.C.nodes := h.stage.nodes _ (h.inv0.closed z hz cp hcz)
  have hen : cp ≠ st.C.entry := fun e => h.inv0.noPred z hz (by rw [← h.stage.entry, ← e]; exact hcz)
  have k1 : SI sem truth K fix v0 st0 (st.addBlock [] [cp]) :=
    h.addBlock (fun y hy => by rw [List.mem_singleton.1 hy]; exact ⟨hin, hen⟩) (by simp) (fun h2 => by simp at h2) fresh_nil
  have k2 := h.keepNew [] [cp]
  have hn : ∀ e' : Edge, e'.1 ∈ st0.C.nodes → e'.1 ≠ st.n := fun e' h' x => by
    have := h.inv0.small _ h'
    have := h.stage.n
    omega
  unfold RSt.branchOne at hr
  split at hr
  · rename_i hs
    cases hr
    refine k1.divertEdge he (w := cp) ?_ k2.mem (k1.ne_entry k2.new) (k2.arr k1)
    unfold Cfg.sink
    rw [addBlock_succs, if_neg (hn e he)]; exact hs
  · split at hr
    · cases hr; exact h
    · rw [Option.map_eq_some_iff] at hr
      obtain ⟨s', hs, rfl⟩ := hr
      unfold RSt.divertAll at hs
      refine (foldlM_inv (P := fun s => SI sem truth K fix v0 st0 s ∧ Keep st0 s st.n [] [cp])
        (fun s e' s' hm hp hf => ?_) ⟨k1, k2⟩ hs).1
      obtain ⟨p1, p2⟩ := hp
      split at hf
      · rename_i hsink
        cases hf
        exact ⟨p1.divertEdge (hes e' hm) hsink p2.mem (p1.ne_entry p2.new) (p2.arr p1), p2.divert p1.inv0 (hes e' hm)⟩
      · cases hf

/-- Several continuation points: the state of the new continuation point. -/
structure ContFacts (st0 st : RSt) (points : List Nat) : Prop where
  keep : Keep st0 st st0.n [.branch st0.v] points
  v : st0.v < st.v

theorem branchMany_spec (hc : CtlSem sem) (h : SI sem truth K fix v0 st0 st) {points : List Nat} (hf : ContFacts st0 st points)
    {e : Edge} {es : List Edge} (he : e.1 ∈ st0.C.nodes) (hes : ∀ e' ∈ es, e'.1 ∈ st0.C.nodes) {r : RSt × Option (Edge × Nat)}
    (hr : st.branchMany points st0.v st0.n e es = some r) : SI sem truth K fix v0 st0 r.1 ∧ ContFacts st0 r.1 points := by
  have k1 : SI sem truth K fix v0 st0 (st.addBlock [] [st0.n]) :=
    h.addBlock (fun y hy => by rw [List.mem_singleton.1 hy]; exact ⟨hf.keep.mem, h.ne_entry (Nat.le_refl _)⟩) (by simp)
      (fun h2 => by simp at h2) fresh_nil
  have k2 := h.keepNew [] [st0.n]
  unfold RSt.branchMany at hr
  rw [Option.map_eq_some_iff] at hr
  obtain ⟨s', hs, rfl⟩ := hr
  have := foldlM_inv (P := fun s => SI sem truth K fix v0 st0 s ∧ ContFacts st0 s points ∧ Keep st0 s st.n [] [st0.n])
    (fun s e' s' hm hp hf => ?_) ⟨k1, ⟨hf.keep.addBlock _ _, hf.v⟩, k2⟩ hs
  · exact ⟨this.1, this.2.1⟩
  · obtain ⟨p1, p2, p3⟩ := hp
    rw [Option.map_eq_some_iff] at hf
    obtain ⟨i, hi, hf⟩ := hf
    rw [Option.bind_eq_some_iff] at hi
    obtain ⟨w, hw, hi⟩ := hi
    have hi := idxOf_get hi
    subst hf
    refine ⟨p1.route hc (hes e' hm) hw p3.mem (p1.ne_entry p3.new) (by simp) (fun p hp => ?_) (fun t ht => ?_),
      ⟨p2.keep.route p1.inv0 (hes e' hm), ?_⟩, p3.route p1.inv0 (hes e' hm)⟩
    · rw [List.mem_singleton.1 hp]
      exact ⟨Nat.le_refl _, p2.v⟩
    · have e1 : steps sem truth (s.C.code st.n) t = t := by rw [p3.code]; rfl
      refine ⟨steps sem truth (s.C.code st0.n) t, .step (b := st0.n) ⟨p3.new, p3.lt⟩ (p1.ne_exit p3.new)
        (by rw [p3.succs]; rfl) ?_, fun u hu => by rw [p2.keep.code]; rfl⟩
      rw [e1]
      refine .step (b := w) ⟨p2.keep.new, p2.keep.lt⟩ (p1.ne_exit p2.keep.new) ?_ .refl
      rw [p2.keep.succs, p2.keep.code]
      exact goes_get hi fun _ => ht (st0.v, i) (by simp)
    · exact Nat.lt_of_lt_of_le p2.v (Nat.le_add_right _ _)


theorem foldlM_good {α : Type} {f : RSt → α → Option RSt}
    (hf : ∀ s a s', Inv K fix v0 s → f s a = some s' → Keeps sem truth K fix v0 s s') {as : List α} {s s' : RSt}
    (h : Inv K fix v0 s) (he : as.foldlM f s = some s') : Keeps sem truth K fix v0 s s' :=
  foldlM_inv (P := fun r => Keeps sem truth K fix v0 s r) (fun r a r' _ hr e => hr.trans (hf r a r' hr.inv e)) (.refl h) he

/-- `RestructureBranches` does not change what the graph computes. -/
theorem branches_good (hc : CtlSem sem) {ch : Choice} (hl : ch.Legal) : ∀ (fuel entry exit : Nat) (st st' : RSt),
    Inv K fix v0 st → branches' ch fuel entry exit st = some st' → Keeps sem truth K fix v0 st st'
  | 0, _, _, _, _, _, he => by cases he
  | fuel + 1, entry, exit, st, st', h, he => by
      have ih := branches_good hc hl fuel
      have regs : ∀ (regs : List (Edge × Nat)) (s s' : RSt), Inv K fix v0 s →
          regs.foldlM (fun (s : RSt) (reg : Edge × Nat) => (s.C.sink reg.1).bind fun y => branches' ch fuel y reg.2 s) s =
            some s' → Keeps sem truth K fix v0 s s' := fun regs s s' hs he =>
        foldlM_good (fun s reg s' hs e => by
          rw [Option.bind_eq_some_iff] at e
          obtain ⟨y, _, e⟩ := e
          exact ih _ _ _ _ hs e) hs he
      rw [branches', Option.bind_eq_some_iff] at he
      obtain ⟨hb, hhb, he⟩ := he
      split at he
      · cases he; exact .refl h
      · rename_i hne
        have hlen := (headBranch_spec hhb).resolve_right hne
        split at he
        · rename_i hin
          have hes : ∀ e ∈ st.C.edgesOf hb, e.1 ∈ st.C.nodes := fun e hm => by rw [mem_edgesOf hm]; exact hin.1
          have hce : ∀ e ∈ st.C.edgesOf hb, ∀ e' ∈ ch.edges (contEdges st.C e), e'.1 ∈ st.C.nodes := fun e hm e' hm' =>
            mem_contEdges (hes e hm) (hl.2 _ _ hm')
          have hpt : ∀ y ∈ ch.nodes (contPoints st.C hb), ∃ x ∈ st.C.nodes, y ∈ st.C.succs x := fun y hy =>
            mem_contPoints hin.1 (hl.1 _ _ hy)
          split at he
          · cases he
          · rename_i cp hcp
            split at he
            · simp only [Option.bind_eq_some_iff] at he
              obtain ⟨r, h1, s2, h2, h3⟩ := he
              have g1 := branchFold_inv (P := fun s => SI sem truth K fix v0 st s) (fun s e r hm hs hr =>
                branchOne_spec hs (hpt cp (by rw [hcp]; simp)) (hes e hm) (hce e hm) hr) (.refl h) h1
              have g2 := regs _ _ _ g1.inv h2
              exact (g1.good.trans g2).trans (ih _ _ _ _ g2.inv h3)
            · cases he
          · rename_i points h1' h2'
            split at he
            · simp only [Option.bind_eq_some_iff] at he
              obtain ⟨r, h1, s2, h2, h3⟩ := he
              have k0 : SI sem truth K fix v0 st (st.insertUndef hb) := (SI.refl h).insertUndef hin.1 (h.not_stub hlen)
              have k1 : SI sem truth K fix v0 st ((st.insertUndef hb).addBlock [.branch st.v] (ch.nodes (contPoints st.C hb))) := by
                refine k0.addBlock (fun y hy => ?_) h1' (fun _ => rfl) ⟨fun t ht => ?_, fun t ht u hu => ?_, fun m d c w u ht => ?_⟩
                · obtain ⟨x, x1, x2⟩ := hpt y hy
                  exact ⟨h.closed x x1 y x2, fun e => h.noPred x x1 (e ▸ x2)⟩
                · rw [List.mem_singleton.1 ht]
                  exact ⟨fun u hu => by
                    have : u = st.v := by simpa [Tac.reads] using hu
                    rw [this]; exact Nat.lt_succ_self _, by simp [Tac.writes]⟩
                · rw [List.mem_singleton.1 ht] at hu
                  have : u = st.v := by simpa [Tac.reads] using hu
                  rw [this]; exact h.old
                · simp at ht
              have g1 := branchFold_inv (P := fun s => SI sem truth K fix v0 st s ∧ ContFacts st s (ch.nodes (contPoints st.C hb)))
                (fun s e r hm hs hr => branchMany_spec hc hs.1 hs.2 (hes e hm) (hce e hm) hr)
                ⟨k1, k0.keepNew _ _, Nat.lt_succ_self _⟩ h1
              have g2 := regs _ _ _ g1.1.inv h2
              exact (g1.1.good.trans g2).trans (ih _ _ _ _ g2.inv h3)
            · cases he
        · cases he

end Jlm.Front
