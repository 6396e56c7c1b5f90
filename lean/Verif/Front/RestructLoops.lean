import Verif.Front.RestructStage

/-!
# Control flow restructuring: loops
-/

set_option linter.unusedSimpArgs false
set_option linter.unusedVariables false

namespace Jlm.Front

open Jlm.Opt

variable {V : Type} {sem : Sem V} {truth : V → Bool} {K : Nat → Prop} {fix : Bool} {v0 : Nat} {st0 st : RSt}

theorem foldlM_inv {α β : Type} {P : β → Prop} {f : β → α → Option β} : ∀ {es : List α} {s s' : β},
    (∀ s e s', e ∈ es → P s → f s e = some s' → P s') → P s → es.foldlM f s = some s' → P s'
  | [], s, s', _, h, he => by
      simp only [List.foldlM_nil] at he
      cases he; exact h
  | e :: es, s, s', hf, h, he => by
      rw [List.foldlM_cons] at he
      rcases h1 : f s e with _ | s1
      · rw [h1] at he; cases he
      · rw [h1] at he
        exact foldlM_inv (fun s e' s' he' => hf s e' s' (List.mem_cons_of_mem _ he')) (hf s e s1 (by simp) h h1) he

theorem idxOf_get {l : List Nat} {w i : Nat} (h : l.idxOf? w = some i) : l[i]? = some w := by
  unfold List.idxOf? at h
  rw [List.findIdx?_eq_some_iff_getElem] at h
  obtain ⟨h1, h2, _⟩ := h
  rw [List.getElem?_eq_getElem h1]
  simpa using h2

theorem goes_get {l : List Nat} {k : Option Nat} {i w : Nat} (h : l[i]? = some w) (hk : 1 < l.length → k = some i) :
    goes l k = some w := by
  rcases l with _ | ⟨a, _ | ⟨b, l⟩⟩
  · simp at h
  · rcases i with _ | i
    · simpa [goes] using h
    · simp at h
  · rw [hk (by simp)]
    exact h

/-- The result of a part of the algorithm. -/
structure Keeps (sem : Sem V) (truth : V → Bool) (K : Nat → Prop) (fix : Bool) (v0 : Nat) (st st' : RSt) : Prop where
  inv : Inv K fix v0 st'
  entry : st'.C.entry = st.C.entry
  exit : st'.C.exit = st.C.exit
  same : ∃ F : Nat → Prop, (∀ u, F u → K u ∨ v0 ≤ u) ∧ SameOff sem truth F st.ghost st'.ghost

theorem Keeps.trans {st st' st'' : RSt} (h : Keeps sem truth K fix v0 st st') (h' : Keeps sem truth K fix v0 st' st'') :
    Keeps sem truth K fix v0 st st'' := by
  obtain ⟨F, f1, f2⟩ := h.same
  obtain ⟨G, g1, g2⟩ := h'.same
  exact ⟨h'.inv, h'.entry.trans h.entry, h'.exit.trans h.exit, _, fun u hu => hu.elim (f1 u) (g1 u), f2.trans g2⟩

theorem SI.good (h : SI sem truth K fix v0 st0 st) : Keeps sem truth K fix v0 st0 st :=
  ⟨h.inv, h.stage.entry, h.stage.exit, _, fun u hu => .inr (Nat.le_trans h.inv0.old hu), (h.stage.detour h.inv0).same⟩

theorem Keeps.refl (h : Inv K fix v0 st) : Keeps sem truth K fix v0 st st := (SI.refl h).good

/-! ### Edges and nodes of a strongly connected component -/

theorem mem_allEdges {C : Cfg} {e : Edge} : e ∈ C.allEdges ↔ e.1 ∈ C.nodes ∧ e.2 < (C.succs e.1).length := by
  obtain ⟨x, i⟩ := e
  simp only [Cfg.allEdges, Cfg.edgesOf, List.mem_flatMap, List.mem_map, List.mem_range, Prod.mk.injEq]
  constructor
  · rintro ⟨a, h1, j, h2, h3, h4⟩
    subst h3; subst h4; exact ⟨h1, h2⟩
  · rintro ⟨h1, h2⟩
    exact ⟨x, h1, i, h2, rfl, rfl⟩

theorem sink_mem {C : Cfg} {e : Edge} {y : Nat} (h : C.sink e = some y) : y ∈ C.succs e.1 := List.mem_of_getElem? h

theorem mem_entryNodes {C : Cfg} {S : List Nat} {y : Nat} (h : y ∈ C.entryNodes S) : ∃ x ∈ C.nodes, y ∈ C.succs x := by
  unfold Cfg.entryNodes at h
  rw [List.mem_eraseDups, List.mem_filter] at h
  obtain ⟨_, h⟩ := h
  rw [List.any_eq_true] at h
  obtain ⟨e, h1, h2⟩ := h
  exact ⟨e.1, (mem_allEdges.1 (List.mem_filter.1 h1).1).1, sink_mem (by simpa using h2)⟩

theorem mem_exitNodes {C : Cfg} {S : List Nat} {y : Nat} (h : y ∈ C.exitNodes S) : ∃ x ∈ C.nodes, y ∈ C.succs x := by
  unfold Cfg.exitNodes at h
  rw [List.mem_eraseDups, List.mem_filterMap] at h
  obtain ⟨e, h1, h2⟩ := h
  exact ⟨e.1, (mem_allEdges.1 (List.mem_filter.1 h1).1).1, sink_mem h2⟩

/-! ### Loops that are not tail-controlled -/

/-- The new blocks of a loop. -/
structure LoopFacts (st0 st : RSt) (ens xns : List Nat) (regionExit : Nat) : Prop where
  n : st0.n + 3 ≤ st.n
  v : st0.v + 3 ≤ st.v
  mem : st0.n ∈ st.C.nodes ∧ st0.n + 1 ∈ st.C.nodes ∧ st0.n + 2 ∈ st.C.nodes
  entry : st.C.code st0.n = [undefTac (st0.v + 1)] ++ (if 1 < xns.length then [undefTac (st0.v + 2)] else [])
    ++ (if 1 < ens.length then [.branch st0.v] else []) ∧ st.C.succs st0.n = ens
  leave : st.C.code (st0.n + 1) = (if 1 < xns.length then [.branch (st0.v + 2)] else []) ∧
    st.C.succs (st0.n + 1) = if xns = [] then [regionExit] else xns
  rep : st.C.code (st0.n + 2) = [.branch (st0.v + 1)] ∧ st.C.succs (st0.n + 2) = [st0.n + 1, st0.n]

theorem LoopFacts.route {ens xns : List Nat} {rx : Nat} (h : LoopFacts st0 st ens xns rx) (h0 : Inv K fix v0 st0) {e : Edge}
    {as : List (Nat × Nat)} {target : Nat} (he : e.1 ∈ st0.C.nodes) :
    LoopFacts st0 (st.route e as target) ens xns rx := by
  have hlt := h0.small _ he
  have hn := h.n
  have old : ∀ x, st0.n ≤ x → x < st0.n + 3 → (st.route e as target).C.code x = st.C.code x ∧
      (st.route e as target).C.succs x = st.C.succs x := fun x h1 h2 => route_old (by omega) (by omega)
  have mem : ∀ x ∈ st.C.nodes, x ∈ (st.route e as target).C.nodes := fun x hx =>
    List.mem_append.2 (.inl hx)
  obtain ⟨a1, a2⟩ := old st0.n (by omega) (by omega)
  obtain ⟨b1, b2⟩ := old (st0.n + 1) (by omega) (by omega)
  obtain ⟨c1, c2⟩ := old (st0.n + 2) (by omega) (by omega)
  exact ⟨Nat.le_succ_of_le hn, Nat.le_trans h.v (Nat.le_add_right _ _), ⟨mem _ h.mem.1, mem _ h.mem.2.1, mem _ h.mem.2.2⟩,
    ⟨a1.trans h.entry.1, a2.trans h.entry.2⟩, ⟨b1.trans h.leave.1, b2.trans h.leave.2⟩, ⟨c1.trans h.rep.1, c2.trans h.rep.2⟩⟩

theorem LoopFacts.divert {ens xns : List Nat} {rx : Nat} (h : LoopFacts st0 st ens xns rx) (h0 : Inv K fix v0 st0) {e : Edge}
    {y : Nat} (he : e.1 ∈ st0.C.nodes) : LoopFacts st0 (st.divertEdge e y) ens xns rx := by
  have hlt := h0.small _ he
  have old : ∀ x, st0.n ≤ x → (st.divertEdge e y).C.succs x = st.C.succs x := fun x h1 => by
    rw [sink_divertEdge, if_neg (by omega)]
  exact ⟨h.n, h.v, h.mem, ⟨h.entry.1, (old _ (by omega)).trans h.entry.2⟩, ⟨h.leave.1, (old _ (by omega)).trans h.leave.2⟩,
    ⟨h.rep.1, (old _ (by omega)).trans h.rep.2⟩⟩

theorem entry_steps {ens xns : List Nat} (v : Nat) (t : St V) :
    AgreeOff (fun u => v ≤ u) t (steps sem truth ([undefTac (v + 1)] ++ (if 1 < xns.length then [undefTac (v + 2)] else [])
      ++ (if 1 < ens.length then [.branch v] else [])) t) ∧
    (1 < ens.length → (steps sem truth ([undefTac (v + 1)] ++ (if 1 < xns.length then [undefTac (v + 2)] else [])
      ++ (if 1 < ens.length then [.branch v] else [])) t).ctl = alternative sem (t.env v)) := by
  have h1 : ∀ (s : St V) (b : Prop) [Decidable b], ∀ u : Nat, u ≠ v + 2 →
      (steps sem truth (if b then [undefTac (v + 2)] else []) s).env u = s.env u := fun s b _ u hu => by
    split
    · exact (steps_undef s).2 u hu
    · rfl
  have h2 : ∀ u : Nat, u ≠ v + 1 → u ≠ v + 2 → (steps sem truth ([undefTac (v + 1)] ++
      (if 1 < xns.length then [undefTac (v + 2)] else [])) t).env u = t.env u := fun u hu hu' => by
    rw [steps_append, h1 _ _ u hu', (steps_undef t).2 u hu]
  refine ⟨fun u hu => ?_, fun hl => ?_⟩
  · rw [steps_append]
    split
    · show _ = (steps sem truth _ t).env u
      rw [h2 u (by omega) (by omega)]
    · show _ = (steps sem truth _ t).env u
      rw [h2 u (by omega) (by omega)]
  · rw [steps_append, if_pos hl]
    show alternative sem ((steps sem truth _ t).env v) = _
    rw [h2 v (by omega) (by omega)]

variable {ens xns : List Nat} {rx : Nat}

/-- From the new entry to an entry node. -/
theorem LoopFacts.toEntry (h : LoopFacts st0 st ens xns rx) (hi : Inv K fix v0 st0) (hx : st.C.exit = st0.C.exit) {i w : Nat}
    (hw : ens[i]? = some w) (t : St V) (ht : 1 < ens.length → alternative sem (t.env st0.v) = some i) :
    ∃ t', Chain sem truth st.C (fun b => st0.n ≤ b ∧ b < st.n) st0.n t w t' ∧ AgreeOff (fun u => st0.v ≤ u) t t' := by
  have hn := h.n
  obtain ⟨h1, h2⟩ := entry_steps (sem := sem) (truth := truth) (ens := ens) (xns := xns) st0.v t
  rw [← h.entry.1] at h1 h2
  refine ⟨_, .step (b := w) ⟨Nat.le_refl _, by omega⟩ (fun e => ?_) ?_ .refl, h1⟩
  · have := hi.small _ hi.exit
    rw [hx] at e
    omega
  · rw [h.entry.2]
    exact goes_get hw fun hl => (h2 hl).trans (ht hl)

/-- From the repetition block to an exit node. -/
theorem LoopFacts.toExit (h : LoopFacts st0 st ens xns rx) (hi : Inv K fix v0 st0) (hx : st.C.exit = st0.C.exit) {i w : Nat}
    (hw : xns[i]? = some w) (t : St V) (ht : 1 < xns.length → alternative sem (t.env (st0.v + 2)) = some i)
    (hr : alternative sem (t.env (st0.v + 1)) = some 0) :
    ∃ t', Chain sem truth st.C (fun b => st0.n ≤ b ∧ b < st.n) (st0.n + 2) t w t' ∧ AgreeOff (fun u => st0.v ≤ u) t t' := by
  have hn := h.n
  have hlt := hi.small _ hi.exit
  have hne : xns ≠ [] := fun e => by rw [e] at hw; simp at hw
  have ha : AgreeOff (fun u => st0.v ≤ u) t (steps sem truth (st.C.code (st0.n + 1)) (steps sem truth (st.C.code (st0.n + 2)) t)) := by
    intro u hu
    rw [h.leave.1, h.rep.1]
    split <;> rfl
  refine ⟨_, .step (b := st0.n + 1) ⟨by omega, by omega⟩ (by rw [hx]; omega) ?_
    (.step (b := w) ⟨by omega, by omega⟩ (by rw [hx]; omega) ?_ .refl), ha⟩
  · rw [h.rep.2]
    refine goes_get (i := 0) rfl fun _ => ?_
    rw [h.rep.1]; exact hr
  · rw [h.leave.2, if_neg hne]
    refine goes_get hw fun hl => ?_
    rw [h.leave.1, if_pos hl, h.rep.1]
    exact ht hl

/-- From the repetition block to an entry node. -/
theorem LoopFacts.toRep (h : LoopFacts st0 st ens xns rx) (hi : Inv K fix v0 st0) (hx : st.C.exit = st0.C.exit) {i w : Nat}
    (hw : ens[i]? = some w) (t : St V) (ht : 1 < ens.length → alternative sem (t.env st0.v) = some i)
    (hr : alternative sem (t.env (st0.v + 1)) = some 1) :
    ∃ t', Chain sem truth st.C (fun b => st0.n ≤ b ∧ b < st.n) (st0.n + 2) t w t' ∧ AgreeOff (fun u => st0.v ≤ u) t t' := by
  have hn := h.n
  have hlt := hi.small _ hi.exit
  obtain ⟨t', h1, h2⟩ := h.toEntry (sem := sem) (truth := truth) hi hx hw (steps sem truth (st.C.code (st0.n + 2)) t)
    (fun hl => by rw [h.rep.1]; exact ht hl)
  refine ⟨t', .step (b := st0.n) ⟨by omega, by omega⟩ (by rw [hx]; omega) ?_ h1, fun u hu => ?_⟩
  · rw [h.rep.2]
    refine goes_get (i := 1) rfl fun _ => ?_
    rw [h.rep.1]; exact hr
  · rw [← h2 u hu, h.rep.1]; rfl

/-- Elementary steps and the blocks of a loop. -/
def SL (sem : Sem V) (truth : V → Bool) (K : Nat → Prop) (fix : Bool) (v0 : Nat) (st0 : RSt) (ens xns : List Nat) (rx : Nat)
    (st : RSt) : Prop := SI sem truth K fix v0 st0 st ∧ LoopFacts st0 st ens xns rx

theorem SL.loopEntry (hc : CtlSem sem) (h : SL sem truth K fix v0 st0 ens xns rx st) {es : List Edge} {st' : RSt}
    (hes : ∀ e ∈ es, e.1 ∈ st0.C.nodes) (he : st.loopEntry ens st0.n st0.v es = some st') :
    SL sem truth K fix v0 st0 ens xns rx st' := by
  unfold RSt.loopEntry at he
  refine foldlM_inv (P := SL sem truth K fix v0 st0 ens xns rx) (fun s e s' hm hs hf => ?_) h he
  obtain ⟨hs, hl⟩ := hs
  rw [Option.map_eq_some_iff] at hf
  obtain ⟨i, hi, hf⟩ := hf
  rw [Option.bind_eq_some_iff] at hi
  obtain ⟨w, hw, hi⟩ := hi
  have hi := idxOf_get hi
  have hx : s.C.exit = st0.C.exit := hs.stage.exit
  have hent : st0.n ≠ s.C.entry := fun e' => by
    have := hs.inv0.small _ hs.inv0.entry
    rw [hs.stage.entry] at e'
    omega
  split at hf
  · rename_i hl1
    subst hf
    refine ⟨hs.route hc (hes e hm) hw hl.mem.1 hent (by simp) (fun p hp => ?_) (fun t ht => ?_), hl.route hs.inv0 (hes e hm)⟩
    · rw [List.mem_singleton.1 hp]
      have := hl.v
      exact ⟨Nat.le_refl _, by show st0.v < s.v; omega⟩
    · exact hl.toEntry hs.inv0 hx hi t fun _ => ht (st0.v, i) (by simp)
  · rename_i hl1
    subst hf
    refine ⟨hs.divertEdge (hes e hm) hw hl.mem.1 hent fun t => ?_, hl.divert hs.inv0 (hes e hm)⟩
    exact hl.toEntry hs.inv0 hx hi t fun h => absurd h hl1

theorem SL.loopExit (hc : CtlSem sem) (h : SL sem truth K fix v0 st0 ens xns rx st) {es : List Edge} {st' : RSt}
    (hes : ∀ e ∈ es, e.1 ∈ st0.C.nodes) (he : st.loopExit xns (st0.n + 2) (st0.v + 1) (st0.v + 2) es = some st') :
    SL sem truth K fix v0 st0 ens xns rx st' := by
  unfold RSt.loopExit at he
  refine foldlM_inv (P := SL sem truth K fix v0 st0 ens xns rx) (fun s e s' hm hs hf => ?_) h he
  obtain ⟨hs, hl⟩ := hs
  rw [Option.map_eq_some_iff] at hf
  obtain ⟨i, hi, hf⟩ := hf
  rw [Option.bind_eq_some_iff] at hi
  obtain ⟨w, hw, hi⟩ := hi
  have hi := idxOf_get hi
  have hx : s.C.exit = st0.C.exit := hs.stage.exit
  have hent : st0.n + 2 ≠ s.C.entry := fun e' => by
    have := hs.inv0.small _ hs.inv0.entry
    rw [hs.stage.entry] at e'
    omega
  have hv := hl.v
  subst hf
  refine ⟨hs.route hc (hes e hm) hw hl.mem.2.2 hent ?_ (fun p hp => ?_) (fun t ht => ?_), hl.route hs.inv0 (hes e hm)⟩
  · split <;> simp
  · rcases List.mem_append.1 hp with hp | hp
    · split at hp
      · rw [List.mem_singleton.1 hp]
        exact ⟨by show st0.v ≤ st0.v + 2; omega, by show st0.v + 2 < s.v; omega⟩
      · cases hp
    · rw [List.mem_singleton.1 hp]
      exact ⟨by show st0.v ≤ st0.v + 1; omega, by show st0.v + 1 < s.v; omega⟩
  · exact hl.toExit hs.inv0 hx hi t (fun h => ht (st0.v + 2, i) (by simp [h])) (ht (st0.v + 1, 0) (by simp))

theorem SL.loopRep (hc : CtlSem sem) (h : SL sem truth K fix v0 st0 ens xns rx st) {es : List Edge} {st' : RSt}
    (hes : ∀ e ∈ es, e.1 ∈ st0.C.nodes) (he : st.loopRep ens (st0.n + 2) (st0.v + 1) st0.v es = some st') :
    SL sem truth K fix v0 st0 ens xns rx st' := by
  unfold RSt.loopRep at he
  refine foldlM_inv (P := SL sem truth K fix v0 st0 ens xns rx) (fun s e s' hm hs hf => ?_) h he
  obtain ⟨hs, hl⟩ := hs
  rw [Option.map_eq_some_iff] at hf
  obtain ⟨i, hi, hf⟩ := hf
  rw [Option.bind_eq_some_iff] at hi
  obtain ⟨w, hw, hi⟩ := hi
  have hi := idxOf_get hi
  have hx : s.C.exit = st0.C.exit := hs.stage.exit
  have hent : st0.n + 2 ≠ s.C.entry := fun e' => by
    have := hs.inv0.small _ hs.inv0.entry
    rw [hs.stage.entry] at e'
    omega
  have hv := hl.v
  subst hf
  refine ⟨hs.route hc (hes e hm) hw hl.mem.2.2 hent ?_ (fun p hp => ?_) (fun t ht => ?_), hl.route hs.inv0 (hes e hm)⟩
  · split <;> simp
  · rcases List.mem_append.1 hp with hp | hp
    · split at hp
      · rw [List.mem_singleton.1 hp]
        exact ⟨Nat.le_refl _, by show st0.v < s.v; omega⟩
      · cases hp
    · rw [List.mem_singleton.1 hp]
      exact ⟨by show st0.v ≤ st0.v + 1; omega, by show st0.v + 1 < s.v; omega⟩
  · exact hl.toRep hs.inv0 hx hi t (fun h => ht (st0.v, i) (by simp [h])) (ht (st0.v + 1, 1) (by simp))

theorem stub_false {x : Nat} : st.stub x = false ↔ x ∉ stubs st.loops := by
  rw [mem_stubs, RSt.stub, Bool.eq_false_iff, Ne, List.any_eq_true]
  simp

theorem loopVar_spec (h : Inv K fix v0 st) {re : Nat} {st' : RSt} (he : st.loopVar re ens = some st') :
    SI sem truth K fix v0 st st' ∧ st'.v = st.v + 1 ∧ st'.n = st.n ∧ st'.C.nodes = st.C.nodes ∧
      st'.C.entry = st.C.entry := by
  unfold RSt.loopVar at he
  split at he
  · rw [Option.bind_eq_some_iff] at he
    obtain ⟨x, _, he⟩ := he
    split at he
    · rename_i hx
      cases he
      exact ⟨(SI.refl h).insertUndef hx.1 (stub_false.1 hx.2.2), rfl, rfl, rfl, rfl⟩
    · cases he
  · cases he
    exact ⟨(SI.refl h).bump 1, rfl, rfl, rfl, rfl⟩

theorem loopBlocks_spec (h : Inv K fix v0 st) {re : Nat} {st' : RSt} (hens : ∀ y ∈ ens, ∃ x ∈ st.C.nodes, y ∈ st.C.succs x)
    (hxns : ∀ y ∈ xns, ∃ x ∈ st.C.nodes, y ∈ st.C.succs x) (he : st.loopBlocks re rx ens xns = some st') :
    SL sem truth K fix v0 st ens xns rx st' := by
  have good : ∀ y, (∃ x ∈ st.C.nodes, y ∈ st.C.succs x) → y ∈ st.C.nodes ∧ y ≠ st.C.entry := fun y ⟨x, h1, h2⟩ =>
    ⟨h.closed x h1 y h2, fun e => h.noPred x h1 (e ▸ h2)⟩
  unfold RSt.loopBlocks at he
  split at he
  · rename_i hg
    obtain ⟨g1, g2, g3⟩ := hg
    rw [Option.map_eq_some_iff] at he
    obtain ⟨s1, he, hs⟩ := he
    obtain ⟨h1, hv, hn, hN, hE⟩ := loopVar_spec (sem := sem) (truth := truth) h he
    have hv0 := h.old
    have k1 : SI sem truth K fix v0 st ((s1.bump 2).addBlock ([undefTac (st.v + 1)] ++
        (if 1 < xns.length then [undefTac (st.v + 2)] else []) ++ (if 1 < ens.length then [.branch st.v] else [])) ens) := by
      refine (h1.bump 2).addBlock (fun y hy => ?_) g1 (fun h2 => ?_) ⟨fun t ht => ?_, fun t ht u hu => ?_, fun m d c w u ht => ?_⟩
      · obtain ⟨a, b⟩ := good y (hens y hy)
        exact ⟨by show y ∈ s1.C.nodes; rw [hN]; exact a, by show y ≠ s1.C.entry; rw [hE]; exact b⟩
      · rw [if_pos (show 1 < ens.length from h2), branchVar_concat]; rfl
      · have hv : (s1.bump 2).v = st.v + 3 := by show s1.v + 2 = _; omega
        rw [hv]
        rcases List.mem_append.1 ht with ht | ht
        · rcases List.mem_append.1 ht with ht | ht
          · rw [List.mem_singleton.1 ht]
            exact ⟨by simp [undefTac, Tac.reads], by simp [undefTac, Tac.writes]⟩
          · split at ht
            · rw [List.mem_singleton.1 ht]
              exact ⟨by simp [undefTac, Tac.reads], by simp [undefTac, Tac.writes]⟩
            · cases ht
        · split at ht
          · rw [List.mem_singleton.1 ht]
            exact ⟨by simp [Tac.reads], by simp [Tac.writes]⟩
          · cases ht
      · rcases List.mem_append.1 ht with ht | ht
        · rcases List.mem_append.1 ht with ht | ht
          · rw [List.mem_singleton.1 ht] at hu
            simp [undefTac, Tac.reads] at hu
          · split at ht
            · rw [List.mem_singleton.1 ht] at hu
              simp [undefTac, Tac.reads] at hu
            · cases ht
        · split at ht
          · rw [List.mem_singleton.1 ht] at hu
            have : u = st.v := by simpa [Tac.reads] using hu
            omega
          · cases ht
      · rcases List.mem_append.1 ht with ht | ht
        · rcases List.mem_append.1 ht with ht | ht
          · simp [undefTac, undefOp] at ht
          · split at ht
            · simp [undefTac, undefOp] at ht
            · cases ht
        · split at ht
          · simp at ht
          · cases ht
    generalize hs2 : (s1.bump 2).addBlock ([undefTac (st.v + 1)] ++
        (if 1 < xns.length then [undefTac (st.v + 2)] else []) ++ (if 1 < ens.length then [.branch st.v] else [])) ens = s2 at *
    have n2 : s2.n = st.n + 1 := by rw [← hs2]; show s1.n + 1 = _; omega
    have v2 : s2.v = st.v + 3 := by rw [← hs2]; show s1.v + 2 = _; omega
    have m2 : ∀ x, x ∈ s2.C.nodes ↔ x ∈ st.C.nodes ∨ x = st.n := fun x => by
      rw [← hs2, mem_addBlock]; show x ∈ s1.C.nodes ∨ x = s1.n ↔ _; rw [hN, hn]
    have e2 : s2.C.entry = st.C.entry := by rw [← hs2]; exact hE
    have k2 : SI sem truth K fix v0 st (s2.addBlock
        (if 1 < xns.length then [.branch (st.v + 2)] else []) (if xns = [] then [rx] else xns)) := by
      refine k1.addBlock (fun y hy => ?_) ?_ (fun h2 => ?_) ⟨fun t ht => ?_, fun t ht u hu => ?_, fun m d c w u ht => ?_⟩
      · rw [m2, e2]
        split at hy
        · rw [List.mem_singleton.1 hy]; exact ⟨.inl g2, g3⟩
        · obtain ⟨a, b⟩ := good y (hxns y hy)
          exact ⟨.inl a, b⟩
      · split
        · simp
        · assumption
      · split at h2
        · simp at h2
        · rw [if_pos (show 1 < xns.length from h2)]; rfl
      · rw [v2]
        split at ht
        · rw [List.mem_singleton.1 ht]
          exact ⟨by simp [Tac.reads], by simp [Tac.writes]⟩
        · cases ht
      · split at ht
        · rw [List.mem_singleton.1 ht] at hu
          have : u = st.v + 2 := by simpa [Tac.reads] using hu
          omega
        · cases ht
      · split at ht
        · simp at ht
        · cases ht
    generalize hs3 : s2.addBlock (if 1 < xns.length then [.branch (st.v + 2)] else []) (if xns = [] then [rx] else xns) = s3 at *
    have n3 : s3.n = st.n + 2 := by rw [← hs3]; show s2.n + 1 = _; omega
    have v3 : s3.v = st.v + 3 := by rw [← hs3]; exact v2
    have m3 : ∀ x, x ∈ s3.C.nodes ↔ (x ∈ st.C.nodes ∨ x = st.n) ∨ x = st.n + 1 := fun x => by
      rw [← hs3, mem_addBlock, m2, n2]
    have e3 : s3.C.entry = st.C.entry := by rw [← hs3]; exact e2
    have hlt := h.small _ h.entry
    have k3 : SI sem truth K fix v0 st (s3.addBlock [.branch (st.v + 1)] [st.n + 1, st.n]) := by
      refine k2.addBlock (fun y hy => ?_) (by simp) (fun _ => rfl) ⟨fun t ht => ?_, fun t ht u hu => ?_, fun m d c w u ht => ?_⟩
      · rw [m3, e3]
        simp only [List.mem_cons, List.not_mem_nil, or_false] at hy
        rcases hy with hy | hy
        · exact ⟨.inr hy, by omega⟩
        · exact ⟨.inl (.inr hy), by omega⟩
      · rw [List.mem_singleton.1 ht, v3]
        exact ⟨by simp [Tac.reads], by simp [Tac.writes]⟩
      · rw [List.mem_singleton.1 ht] at hu
        have : u = st.v + 1 := by simpa [Tac.reads] using hu
        omega
      · simp at ht
    subst hs
    refine ⟨k3, ?_, ?_, ⟨?_, ?_, ?_⟩, ⟨?_, ?_⟩, ⟨?_, ?_⟩, ⟨?_, ?_⟩⟩
    · show st.n + 3 ≤ s3.n + 1; omega
    · show st.v + 3 ≤ s3.v; omega
    · rw [mem_addBlock, m3]; exact .inl (.inl (.inr rfl))
    · rw [mem_addBlock, m3]; exact .inl (.inr rfl)
    · rw [mem_addBlock, n3]; exact .inr rfl
    · rw [addBlock_code, if_neg (by omega), ← hs3, addBlock_code, if_neg (by omega), ← hs2, addBlock_code,
        if_pos (by show st.n = s1.n; omega)]
    · rw [addBlock_succs, if_neg (by omega), ← hs3, addBlock_succs, if_neg (by omega), ← hs2, addBlock_succs,
        if_pos (by show st.n = s1.n; omega)]
    · rw [addBlock_code, if_neg (by omega), ← hs3, addBlock_code, if_pos (by omega)]
    · rw [addBlock_succs, if_neg (by omega), ← hs3, addBlock_succs, if_pos (by omega)]
    · rw [addBlock_code, if_pos (by omega)]
    · rw [addBlock_succs, if_pos (by omega)]
  · cases he

/-- A loop that is not tail-controlled becomes one. -/
theorem loopStage_good (hc : CtlSem sem) {ch : Choice} (hl : ch.Legal) (h : Inv K fix v0 st) {re : Nat} {S : List Nat} {st' : RSt}
    (he : st.loopStage ch re rx S = some st') : Keeps sem truth K fix v0 st st' := by
  unfold RSt.loopStage at he
  simp only [Option.bind_eq_some_iff] at he
  obtain ⟨s1, h1, s2, h2, s3, h3, h4⟩ := he
  have hens : ∀ y ∈ ch.nodes (st.C.entryNodes S), ∃ x ∈ st.C.nodes, y ∈ st.C.succs x := fun y hy =>
    mem_entryNodes (hl.1 _ _ hy)
  have hxns : ∀ y ∈ ch.nodes (st.C.exitNodes S), ∃ x ∈ st.C.nodes, y ∈ st.C.succs x := fun y hy =>
    mem_exitNodes (hl.1 _ _ hy)
  have hedge : ∀ (p : Edge → Bool), ∀ e ∈ ch.edges (st.C.allEdges.filter p), e.1 ∈ st.C.nodes := fun p e hm =>
    (mem_allEdges.1 (List.mem_filter.1 (hl.2 _ _ hm)).1).1
  have k1 := loopBlocks_spec (sem := sem) (truth := truth) h hens hxns h1
  have k2 := k1.loopEntry hc (hedge _) h2
  have k3 := k2.loopExit hc (hedge _) h3
  have k4 := k3.loopRep hc (hedge _) h4
  exact k4.1.good

end Jlm.Front
