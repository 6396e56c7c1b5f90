import Verif.Aa.PtgBuild
set_option linter.unusedVariables false
set_option linter.unusedSimpArgs false
/-
C60: the points-to graph answers what it was told, and alias queries on it mean what they say.
-/
namespace Jlm.Llvm.Aa.Ptg
open Jlm.Llvm.Aa

/-- **C60, nodes.** After any accepted sequence of calls, every node has the kind, the flags, the
object and the size of the call that created it, and is found under its object. -/
theorem C60_nodes (ops : List Op) (g : Graph) (h : Graph.empty.run ops = some g) :
    g.n = (created ops).length ∧
    ∀ i x, (created ops)[i]? = some x →
      (g.data i).kind = x.kind ∧ (g.data i).ext = x.ext ∧ (g.data i).const = x.const ∧ g.obj i = x.obj ∧
      ((∀ z, x.size = some z → z < 2 ^ 64) → g.nodeSize i = reported x.size) ∧
      (x.kind ≠ .register → x.kind ≠ .external → g.node? (.mem x.kind x.obj) = some i) := by
  have H := hist_run h
  have I := inv_run h
  refine ⟨H.n, fun i x hx => ?_⟩
  obtain ⟨h1, h2, h3, h4⟩ := H.node i x hx
  refine ⟨h1, h2, h3, h4, ?_, ?_⟩
  · intro hz
    unfold Graph.nodeSize
    rw [H.size i x hx hz]
    unfold NodeData.new reported unknownSize
    cases x.size with
    | none => rfl
    | some z =>
      dsimp only
      by_cases hlt : z < 1023
      · simp only [if_pos hlt, if_neg (show ¬z = 1023 by omega), Option.filter_some, decide_eq_true hlt, if_true]
      · simp [hlt, Option.filter_some]
  · intro hr he
    show (if _ then _ else _) = _
    rw [if_neg (by rintro (h' | h'); exacts [hr h', he h'])]
    refine I.lookup_iff.2 ⟨hr, he, ?_, h1, h4⟩
    rw [H.n]; exact (List.getElem?_eq_some_iff.1 hx).1

/-- **C60, targets.** A node targets exactly the nodes it was told to target, explicitly or because
it targets everything that is externally available. -/
theorem C60_targets (ops : List Op) (g : Graph) (h : Graph.empty.run ops = some g) (s t : Nat) (hs : s < g.n) :
    g.isTargeting s t = true ↔ Targets ops s t := by
  have H := hist_run h
  have I := inv_run h
  rw [H.tgt, H.all s hs]
  unfold Targets
  have he : (g.data t).ext = true ↔ ∃ x, (created ops)[t]? = some x ∧ x.ext = true := by
    by_cases ht : t < g.n
    · have hx : (created ops)[t]? = some ((created ops)[t]'(by rw [← H.n]; exact ht)) := List.getElem?_eq_getElem _
      rw [(H.node t _ hx).2.1]
      constructor
      · intro h; exact ⟨_, hx, h⟩
      · rintro ⟨x, h1, h2⟩
        rw [hx] at h1; cases h1; exact h2
    · rw [I.beyond t (by omega)]
      constructor
      · intro h; cases h
      · rintro ⟨x, h1, _⟩
        have := (List.getElem?_eq_some_iff.1 h1).1
        rw [← H.n] at this; omega
  rw [he]
  constructor
  · rintro (⟨h1, h2⟩ | h)
    · exact Or.inr ⟨h1, h2⟩
    · exact Or.inl h
  · rintro (h | ⟨h1, h2⟩)
    · exact Or.inr h
    · exact Or.inl ⟨h1, h2⟩

/-- **C60, registers.** A register has the node it was mapped to. -/
theorem C60_registers (ops : List Op) (g : Graph) (h : Graph.empty.run ops = some g) (o i : Nat) :
    g.node? (.reg o) = some i ↔ .mapRegister o i ∈ ops :=
  (Ptg.lookup_iff (inv_run h).regNodup).trans ((hist_run h).reg o i)

/-- **C60, lists and counters.** The list of externally available nodes, the list of register nodes
and the number of nodes that target everything external are those of the flags; the numbers of
edges are the numbers of pairs (source, explicit target) and (source, target). -/
theorem C60_counts (ops : List Op) (g : Graph) (h : Graph.empty.run ops = some g) :
    g.extNodes = (List.range g.n).filter (fun i => (g.data i).ext) ∧
    g.regNodes = (List.range g.n).filter (fun i => (g.data i).kind == .register) ∧
    g.numAll = ((List.range g.n).filter fun i => (g.data i).all).length ∧
    g.numEdges.1 = ((List.range g.n).map fun i => ((List.range g.n).filter fun t => (g.targets i).contains t).length).sum ∧
    g.numEdges.2 = ((List.range g.n).map fun i => ((List.range g.n).filter fun t => g.isTargeting i t).length).sum := by
  have I := inv_run h
  rw [I.numEdges]
  exact ⟨I.extNodes, I.regNodes, I.numAll, rfl, rfl⟩

theorem created_mem {ops : List Op} {g : Graph} (H : Hist ops g) {k : NodeKind} {o : Nat} :
    (∃ y ∈ created ops, y.kind = k ∧ y.obj = o) ↔ ∃ i, i < g.n ∧ (g.data i).kind = k ∧ g.obj i = o := by
  constructor
  · rintro ⟨y, hy, h1, h2⟩
    obtain ⟨i, hi⟩ := List.getElem?_of_mem hy
    have := H.node i y hi
    exact ⟨i, by rw [H.n]; exact (List.getElem?_eq_some_iff.1 hi).1, by rw [this.1]; exact h1, by rw [this.2.2.2]; exact h2⟩
  · rintro ⟨i, hi, h1, h2⟩
    have hx : (created ops)[i]? = some ((created ops)[i]'(by rw [← H.n]; exact hi)) := List.getElem?_eq_getElem _
    have := H.node i _ hx
    exact ⟨_, List.mem_of_getElem? hx, by rw [← this.1]; exact h1, by rw [← this.2.2.2]; exact h2⟩

theorem legal_object {ops : List Op} {g : Graph} (h : Graph.empty.run ops = some g) {o : Op} {x : Info} (hx : o.info = some x)
    (hr : x.kind ≠ .register) (he : x.kind ≠ .external) (hst : (g.step o).isSome ↔ ¬((g.map x.kind).lookup x.obj).isSome)
    (hl : Legal ops o ↔ ∀ x, o.info = some x → ∀ y ∈ created ops, ¬(y.kind = x.kind ∧ y.obj = x.obj)) :
    (g.step o).isSome ↔ Legal ops o := by
  have H := hist_run h
  have I := inv_run h
  rw [hst, hl]
  have key : ((g.map x.kind).lookup x.obj).isSome ↔ ∃ y ∈ created ops, y.kind = x.kind ∧ y.obj = x.obj := by
    rw [created_mem H, Option.isSome_iff_exists]
    refine exists_congr fun i => ?_
    rw [I.lookup_iff]
    exact ⟨fun h => h.2.2, fun h => ⟨hr, he, h⟩⟩
  rw [key]
  constructor
  · intro hn x' hx' y hy hk
    rw [hx] at hx'; cases hx'
    exact hn ⟨y, hy, hk⟩
  · rintro hn ⟨y, hy, hk⟩
    exact hn x hx y hy hk

/-- **C60, rejected calls.** Exactly the illegal calls throw or fail an assertion. -/
theorem C60_legal (ops : List Op) (g : Graph) (h : Graph.empty.run ops = some g) (o : Op) :
    (g.step o).isSome ↔ Legal ops o := by
  have H := hist_run h
  have I := inv_run h
  have hadd : ∀ k e c z o, (g.addObject k e c z o).isSome ↔ ¬((g.map k).lookup o).isSome := by
    intro k e c z o
    unfold Graph.addObject
    by_cases hs : ((g.map k).lookup o).isSome = true
    · rw [if_pos hs]; simp [hs]
    · rw [if_neg hs]; simp [hs]
  have hkind : ∀ i k, (i < g.n ∧ (g.data i).kind = k) ↔ ∃ x, (created ops)[i]? = some x ∧ x.kind = k := by
    intro i k
    constructor
    · rintro ⟨hi, h1⟩
      have hx : (created ops)[i]? = some ((created ops)[i]'(by rw [← H.n]; exact hi)) := List.getElem?_eq_getElem _
      exact ⟨_, hx, by rw [← (H.node i _ hx).1]; exact h1⟩
    · rintro ⟨x, hx, h1⟩
      exact ⟨by rw [H.n]; exact (List.getElem?_eq_some_iff.1 hx).1, by rw [(H.node i x hx).1]; exact h1⟩
  cases o with
  | alloca o e c z => exact legal_object h rfl (by dsimp only; decide) (by dsimp only; decide) (hadd _ _ _ _ _) Iff.rfl
  | delta o e c z => exact legal_object h rfl (by dsimp only; decide) (by dsimp only; decide) (hadd _ _ _ _ _) Iff.rfl
  | imported o e l =>
    cases l with
    | none => exact legal_object h rfl (by dsimp only; decide) (by dsimp only; decide) (hadd _ _ _ _ _) Iff.rfl
    | some l =>
      obtain ⟨c, z⟩ := l
      exact legal_object h rfl (by dsimp only; decide) (by dsimp only; decide) (hadd _ _ _ _ _) Iff.rfl
  | lambda o e => exact legal_object h rfl (by dsimp only; decide) (by dsimp only; decide) (hadd _ _ _ _ _) Iff.rfl
  | malloc o e z => exact legal_object h rfl (by dsimp only; decide) (by dsimp only; decide) (hadd _ _ _ _ _) Iff.rfl
  | registers => exact ⟨fun _ => trivial, fun _ => rfl⟩
  | mapRegister o i =>
    show ((g.mapRegister o i).map _).isSome ↔ (∃ x, (created ops)[i]? = some x ∧ x.kind = .register) ∧ _
    rw [Option.isSome_map, ← hkind]
    unfold Graph.mapRegister
    have hl : (g.regMap.lookup o).isSome ↔ ∃ j, .mapRegister o j ∈ ops := by
      rw [Ptg.lookup_isSome I.regNodup]
      exact exists_congr fun j => H.reg o j
    by_cases hc : i < g.n ∧ (g.data i).kind = .register
    · rw [if_pos hc]
      by_cases hs : (g.regMap.lookup o).isSome = true
      · rw [if_pos hs]
        obtain ⟨j, hj⟩ := hl.1 hs
        exact ⟨(fun h => by cases h), fun h => absurd hj (h.2 j)⟩
      · rw [if_neg hs]
        exact ⟨fun _ => ⟨hc, fun j hj => hs (hl.2 ⟨j, hj⟩)⟩, fun _ => rfl⟩
    · rw [if_neg hc]
      exact ⟨(fun h => by cases h), fun h => absurd h.1 hc⟩
  | mark i =>
    show ((g.mark i).map _).isSome ↔ i < (created ops).length
    rw [Option.isSome_map, ← H.n]
    unfold Graph.mark
    by_cases hi : i < g.n
    · rw [if_pos hi]; exact ⟨fun _ => hi, fun _ => rfl⟩
    · rw [if_neg hi]; exact ⟨(fun h => by cases h), fun h => absurd h hi⟩
  | target s t =>
    show ((g.addTarget s t).map _).isSome ↔ s ≠ 0 ∧ s < (created ops).length ∧ t ≠ 0 ∧ ∃ x, (created ops)[t]? = some x ∧ x.kind ≠ .register
    rw [Option.isSome_map, ← H.n]
    have hk : (∃ x, (created ops)[t]? = some x ∧ x.kind ≠ .register) ↔ t < g.n ∧ (g.data t).kind ≠ .register := by
      constructor
      · rintro ⟨x, hx, hne⟩
        have := (hkind t x.kind).2 ⟨x, hx, rfl⟩
        exact ⟨this.1, by rw [this.2]; exact hne⟩
      · rintro ⟨h1, h2⟩
        obtain ⟨x, hx, hxk⟩ := (hkind t _).1 ⟨h1, rfl⟩
        exact ⟨x, hx, by rw [hxk]; exact h2⟩
    rw [hk]
    unfold Graph.addTarget
    by_cases hc : s < g.n ∧ t < g.n ∧ t ≠ Graph.externalNode ∧ s ≠ Graph.externalNode ∧ (g.data t).kind ≠ .register
    · rw [if_pos hc]
      have : ∀ (b : Bool) (a a' : Option (Bool × Graph)), a.isSome → a'.isSome → (if b then a else a').isSome := by
        intro b a a' h h'; cases b <;> assumption
      exact ⟨fun _ => ⟨hc.2.2.2.1, hc.1, hc.2.2.1, hc.2.1, hc.2.2.2.2⟩, fun _ => this _ _ _ rfl rfl⟩
    · rw [if_neg hc]
      exact ⟨(fun h => by cases h), fun h => absurd ⟨h.2.1, h.2.2.2.1, h.2.2.1, h.1, h.2.2.2.2⟩ hc⟩

/-- **C60, results of calls.** A call that creates a node returns its index, and `addTarget` tells
whether the edge is new. -/
theorem C60_results (ops : List Op) (g : Graph) (h : Graph.empty.run ops = some g) (o : Op) (r : Nat) (g' : Graph)
    (hs : g.step o = some (r, g')) :
    (∀ x, o.info = some x → r = (created ops).length) ∧
    (∀ s t, o = .target s t → (r = 1 ↔ ¬Targets ops s t) ∧ (r = 0 ↔ Targets ops s t)) := by
  obtain ⟨hc, h1, h2⟩ := step_change hs
  refine ⟨fun x hx => by rw [← (hist_run h).n]; exact h1 (by rw [hx]; rfl), ?_⟩
  intro s t e
  subst e
  have hlt : s < g.n := by
    cases hc with
    | add _ x z _ hx => cases hx
    | implicit _ _ hx => exact hx.1
    | explicit _ _ hx => exact hx.1
  rw [h2 s t rfl, ← C60_targets ops g h s t hlt]
  by_cases ht : g.isTargeting s t = true
  · simp [ht]
  · simp [ht]

/-! ## Queries -/

/-- **C60, queries.** `Query` answers `NoAlias` exactly for different registers that are in the
graph and share no target with room for both accesses, and `MustAlias` exactly for the same register and
for registers whose only target with room for the accesses is one and the same global variable, function
or import, of the size of both accesses. -/
theorem C60_query (ops : List Op) (g : Graph) (h : Graph.empty.run ops = some g) (p1 s1 p2 s2 : Nat) :
    (g.query p1 s1 p2 s2 = .noAlias ↔ p1 ≠ p2 ∧ ∃ a b, g.node? (.reg p1) = some a ∧ g.node? (.reg p2) = some b ∧
      ¬g.Share a b (max s1 s2)) ∧
    (g.query p1 s1 p2 s2 = .mustAlias ↔ p1 = p2 ∨ (s1 = s2 ∧ ∃ a b t, g.node? (.reg p1) = some a ∧
      g.node? (.reg p2) = some b ∧ g.OnlyTarget a s1 t ∧ g.OnlyTarget b s2 t ∧ g.nodeSize t = some s1 ∧
      ((g.data t).kind = .delta ∨ (g.data t).kind = .lambda ∨ (g.data t).kind = .imported))) :=
  (inv_run h).query_iff

theorem share_symm {g : Graph} {a b s : Nat} : g.Share a b s ↔ g.Share b a s := by
  constructor <;> rintro ⟨t, h1, h2, h3, h4⟩ <;> exact ⟨t, h1, h3, h2, h4⟩

/-- **C60, symmetry.** The order of the accesses does not matter. -/
theorem C60_query_symmetric (ops : List Op) (g : Graph) (h : Graph.empty.run ops = some g) (p1 s1 p2 s2 : Nat) :
    g.query p1 s1 p2 s2 = g.query p2 s2 p1 s1 := by
  have h1 := C60_query ops g h p1 s1 p2 s2
  have h2 := C60_query ops g h p2 s2 p1 s1
  have e1 : g.query p1 s1 p2 s2 = .noAlias ↔ g.query p2 s2 p1 s1 = .noAlias := by
    rw [h1.1, h2.1, Nat.max_comm s2 s1]
    constructor
    · rintro ⟨hn, a, b, ha, hb, hs⟩; exact ⟨hn.symm, b, a, hb, ha, fun h => hs (share_symm.1 h)⟩
    · rintro ⟨hn, a, b, ha, hb, hs⟩; exact ⟨hn.symm, b, a, hb, ha, fun h => hs (share_symm.1 h)⟩
  have e2 : g.query p1 s1 p2 s2 = .mustAlias ↔ g.query p2 s2 p1 s1 = .mustAlias := by
    rw [h1.2, h2.2]
    constructor
    · rintro (e | ⟨e, a, b, t, ha, hb, h3, h4, h5, h6⟩)
      · exact Or.inl e.symm
      · exact Or.inr ⟨e.symm, b, a, t, hb, ha, h4, h3, by rw [← e]; exact h5, h6⟩
    · rintro (e | ⟨e, a, b, t, ha, hb, h3, h4, h5, h6⟩)
      · exact Or.inl e.symm
      · exact Or.inr ⟨e.symm, b, a, t, hb, ha, h4, h3, by rw [← e]; exact h5, h6⟩
  cases ha : g.query p1 s1 p2 s2 with
  | noAlias => exact (e1.1 ha).symm
  | mustAlias => exact (e2.1 ha).symm
  | mayAlias =>
    cases hb : g.query p2 s2 p1 s1 with
    | noAlias => rw [e1.2 hb] at ha; cases ha
    | mustAlias => rw [e2.2 hb] at ha; cases ha
    | mayAlias => rfl

/-- **C60, soundness of queries.** If every pointer points into an object that the graph lists as a
target and both accesses are in bounds, then `NoAlias` means that the accesses touch no common
byte, and `MustAlias` that they start at the same address (and, for different registers, have the same size). -/
theorem C60_query_sound (ops : List Op) (g : Graph) (h : Graph.empty.run ops = some g) (M : Memory) (hM : Describes g M)
    (v : Values) (hv : Follows g M v) (p1 s1 p2 s2 : Nat) (b1 : InBounds M v p1 s1) (b2 : InBounds M v p2 s2) :
    (g.query p1 s1 p2 s2 = .noAlias → Disjoint (address M v p1) s1 (address M v p2) s2) ∧
    (g.query p1 s1 p2 s2 = .mustAlias → address M v p1 = address M v p2 ∧ (p1 ≠ p2 → s1 = s2)) := by
  obtain ⟨hq1, hq2⟩ := C60_query ops g h p1 s1 p2 s2
  have hroom : ∀ p s, InBounds M v p s → ∀ z, g.nodeSize (M.node (v p).1) = some z → s ≤ z := by
    intro p s hb z hz
    have := hM.size _ z hb.1 hz
    have := hb.2
    omega
  constructor
  · intro hq
    obtain ⟨hne, a, b, ha, hb, hs⟩ := hq1.1 hq
    have hobj : (v p1).1 ≠ (v p2).1 := by
      intro e
      refine hs ⟨M.node (v p1).1, hM.node _ b1.1, hv p1 a ha, by rw [e]; exact hv p2 b hb, ?_⟩
      intro z hz
      have h1 := hroom p1 s1 b1 z hz
      have h2 := hroom p2 s2 b2 z (by rw [← e]; exact hz)
      omega
    intro x hx
    have h1 := b1.2
    have h2 := b2.2
    unfold address at hx
    rcases M.apart _ _ b1.1 b2.1 hobj with h | h <;> omega
  · intro hq
    rcases hq2.1 hq with e | ⟨e, a, b, t, ha, hb, h3, h4, h5, h6⟩
    · subst e; exact ⟨rfl, fun h => absurd rfl h⟩
    · have n1 : M.node (v p1).1 = t := (h3 _).1 ⟨hM.node _ b1.1, hv p1 a ha, hroom p1 s1 b1⟩
      have n2 : M.node (v p2).1 = t := (h4 _).1 ⟨hM.node _ b2.1, hv p2 b hb, hroom p2 s2 b2⟩
      have hobj : (v p1).1 = (v p2).1 := hM.single _ _ b1.1 b2.1 (by rw [n1, n2]) (by rw [n1]; exact h6)
      have z1 := hM.size _ s1 b1.1 (by rw [n1]; exact h5)
      have z2 := hM.size _ s1 b2.1 (by rw [n2]; exact h5)
      have h1 := b1.2
      have h2 := b2.2
      refine ⟨?_, fun _ => e⟩
      unfold address
      rw [hobj] at h1 z1 ⊢
      omega

/-! ## Supergraphs -/

/-- **C60, supergraphs.** `isSupergraphOf` answers true exactly if every node of the subgraph has a
counterpart, and all availability and all edges, explicit or implicit, carry over. -/
theorem C60_supergraph (ops1 ops2 : List Op) (super sub : Graph) (h1 : Graph.empty.run ops1 = some super)
    (h2 : Graph.empty.run ops2 = some sub) : super.isSupergraphOf sub = true ↔ Supergraph super sub :=
  supergraph_iff (inv_run h2) (inv_run h1)

/-- **C60, order.** `isSupergraphOf` is reflexive and transitive. -/
theorem C60_supergraph_order (o1 o2 o3 : List Op) (g1 g2 g3 : Graph) (h1 : Graph.empty.run o1 = some g1)
    (h2 : Graph.empty.run o2 = some g2) (h3 : Graph.empty.run o3 = some g3) :
    g1.isSupergraphOf g1 = true ∧ (g1.isSupergraphOf g2 = true → g2.isSupergraphOf g3 = true → g1.isSupergraphOf g3 = true) := by
  rw [C60_supergraph o1 o1 g1 g1 h1 h1, C60_supergraph o1 o2 g1 g2 h1 h2, C60_supergraph o2 o3 g2 g3 h2 h3,
    C60_supergraph o1 o3 g1 g3 h1 h3]
  exact ⟨⟨fun _ h => h, fun _ h => h, fun _ _ h => h⟩,
    fun a b => ⟨fun e h => a.node e (b.node e h), fun e h => a.available e (b.available e h), fun e t h => a.points e t (b.points e t h)⟩⟩

/-- **C60, precision.** What a supergraph excludes, the subgraph excludes: if the supergraph answers
`NoAlias`, so does the subgraph (for registers it knows, and with the same object sizes). -/
theorem C60_supergraph_query (o1 o2 : List Op) (super sub : Graph) (h1 : Graph.empty.run o1 = some super)
    (h2 : Graph.empty.run o2 = some sub) (hsup : super.isSupergraphOf sub = true)
    (hsize : ∀ e a b, sub.node? e = some a → super.node? e = some b → super.nodeSize b = sub.nodeSize a)
    (p1 s1 p2 s2 : Nat) (hp1 : (sub.node? (.reg p1)).isSome) (hp2 : (sub.node? (.reg p2)).isSome)
    (hq : super.query p1 s1 p2 s2 = .noAlias) : sub.query p1 s1 p2 s2 = .noAlias := by
  have I := inv_run h2
  have hS := (C60_supergraph o1 o2 super sub h1 h2).1 hsup
  obtain ⟨hne, a, b, ha, hb, hs⟩ := (C60_query o1 super h1 p1 s1 p2 s2).1.1 hq
  obtain ⟨a', ha'⟩ := Option.isSome_iff_exists.1 hp1
  obtain ⟨b', hb'⟩ := Option.isSome_iff_exists.1 hp2
  refine (C60_query o2 sub h2 p1 s1 p2 s2).1.2 ⟨hne, a', b', ha', hb', ?_⟩
  rintro ⟨t, ht, hta, htb, hf⟩
  have hk : (sub.data t).kind ≠ .register := by
    rcases isTargeting_iff.1 hta with h | h
    · intro hr
      rw [I.reg t ht hr] at h; exact Bool.noConfusion h.2
    · exact (I.tgt _ _ h).2.2.2
  have he := I.node_ent ht hk
  obtain ⟨x, u, hx, hu, hxu⟩ := hS.points (.reg p1) (sub.ent t) ⟨a', t, ha', he, hta⟩
  obtain ⟨y, w, hy, hw, hyw⟩ := hS.points (.reg p2) (sub.ent t) ⟨b', t, hb', he, htb⟩
  rw [ha] at hx; cases hx
  rw [hb] at hy; cases hy
  rw [hu] at hw; cases hw
  refine hs ⟨u, (inv_run h1).node_bound hu, hxu, hyw, ?_⟩
  rw [hsize _ _ _ he hu]; exact hf

/-! ## The graph of a solved pointer object set -/

/-- **C60, construction (partial).** The graph that is built from a pointer object set has a node for
every memory object and every register, marked and connected as the set says, if the root of the
unification of a register can point. The full claim is the same without that condition; it is false:
`C60_construct_counterexample`. -/
theorem C60_construct_partial (s : RSet) (M : Maps) (hok : M.Ok s) (g : Graph) (h : construct s M = some g) :
    (∀ src x, (src, x) ∈ M.mems → (g.node? src.ent).isSome ∧ (g.Available src.ent ↔ s.escaped x = true) ∧
      (g.Points src.ent .outside ↔ (s.obj x).canPoint = true ∧ s.pte x = true) ∧
      ∀ src' y, (src', y) ∈ M.mems → (g.Points src.ent src'.ent ↔ (s.obj x).canPoint = true ∧ s.isPointingTo x y = true)) ∧
    (∀ o r, (o, r) ∈ M.regs → (g.node? (.reg o)).isSome ∧
      ((s.obj (s.root r)).canPoint = true →
        (g.Points (.reg o) .outside ↔ s.pte r = true) ∧
        ∀ src y, (src, y) ∈ M.mems → (g.Points (.reg o) src.ent ↔ s.isPointingTo r y = true))) := by
  have hr := construct_run s h
  have I := inv_run hr
  constructor
  · intro src x hx
    obtain ⟨k, hk⟩ := List.getElem?_of_mem hx
    obtain ⟨hn, hm, he⟩ := node_of_mem h hk
    obtain ⟨h1, h2⟩ := owner_targets h hok (Or.inl hm)
    refine ⟨by rw [hn]; rfl, ?_, ?_, ?_⟩
    · unfold Graph.Available
      rw [← he]
      exact ⟨fun ⟨a, ha, h⟩ => by rw [hn] at ha; cases ha; exact h, fun h => ⟨_, hn, h⟩⟩
    · rw [I.points_outside hn]; exact h1
    · intro src' y hy
      obtain ⟨k', hk'⟩ := List.getElem?_of_mem hy
      obtain ⟨hn', hm', he'⟩ := node_of_mem h hk'
      rw [← h2 src' y k' hk']
      exact ⟨fun ⟨a, b, ha, hb, h⟩ => by rw [hn] at ha; cases ha; rw [hn'] at hb; cases hb; exact h, fun h => ⟨_, _, hn, hn', h⟩⟩
  · intro o r hm
    obtain ⟨b, hb, ho⟩ := node_of_reg h hok hm
    obtain ⟨h1, h2⟩ := owner_targets h hok ho
    refine ⟨by rw [hb]; rfl, fun hc => ⟨?_, ?_⟩⟩
    · rw [I.points_outside hb, h1]
      unfold RSet.pte
      rw [hok.root]
      exact ⟨fun h => h.2, fun h => ⟨hc, h⟩⟩
    · intro src y hy
      obtain ⟨k', hk'⟩ := List.getElem?_of_mem hy
      obtain ⟨hn', hm', he'⟩ := node_of_mem h hk'
      have h3 := h2 src y k' hk'
      have e : s.isPointingTo (s.root r) y = s.isPointingTo r y := by
        unfold RSet.isPointingTo RSet.pte RSet.pointees
        rw [hok.root]
      rw [e] at h3
      constructor
      · rintro ⟨a', b', ha, hb', h⟩
        rw [hb] at ha; cases ha
        rw [hn'] at hb'; cases hb'
        exact (h3.1 h).2
      · intro h
        exact ⟨b, k' + 1, hb, hn', h3.2 ⟨hc, h⟩⟩

/-- **C60, the whole way (partial).** If the pointer object set is right about where pointers point,
the alias queries on its graph are right about memory. Again under the condition that no register
is unified into an object that cannot point. -/
theorem C60_pipeline_sound_partial (s : RSet) (M : Maps) (hok : M.Ok s) (g : Graph) (h : construct s M = some g)
    (hcan : ∀ o r, (o, r) ∈ M.regs → (s.obj (s.root r)).canPoint = true)
    (mem : Memory) (hM : Describes g mem) (v : Values)
    (hv : ∀ o r, (o, r) ∈ M.regs → (mem.node (v o).1 = 0 ∧ s.pte r = true) ∨
      ∃ src y, (src, y) ∈ M.mems ∧ g.node? src.ent = some (mem.node (v o).1) ∧ s.isPointingTo r y = true)
    (p1 s1 p2 s2 : Nat) (b1 : InBounds mem v p1 s1) (b2 : InBounds mem v p2 s2) :
    (g.query p1 s1 p2 s2 = .noAlias → Disjoint (address mem v p1) s1 (address mem v p2) s2) ∧
    (g.query p1 s1 p2 s2 = .mustAlias → address mem v p1 = address mem v p2 ∧ (p1 ≠ p2 → s1 = s2)) := by
  have hr := construct_run s h
  have I := inv_run hr
  obtain ⟨_, hC⟩ := C60_construct_partial s M hok g h
  refine C60_query_sound _ g hr mem hM v ?_ p1 s1 p2 s2 b1 b2
  intro p a ha
  have hm := ((hist_run hr).reg p a).1 ((Ptg.lookup_iff I.regNodup).1 ha)
  obtain ⟨_, r', os, h1, h2⟩ := (mem_buildOps_map s).1 hm
  rcases (mem_groups s (r := r') (o := p) (l := M.regs) (a := [])).1 ⟨os, List.mem_of_getElem? h1, h2⟩ with ⟨_, h3, _⟩ | ⟨r, h3, h4⟩
  · cases h3
  · obtain ⟨_, h5⟩ := hC p r h3
    obtain ⟨h6, h7⟩ := h5 (hcan p r h3)
    have hreg : g.node? (.reg p) = some a := ha
    rcases hv p r h3 with ⟨e1, e2⟩ | ⟨src, y, e1, e2, e3⟩
    · obtain ⟨a', b', ha', hb', ht⟩ := h6.2 e2
      rw [hreg] at ha'; cases ha'
      cases hb'
      rw [e1]; exact ht
    · obtain ⟨a', b', ha', hb', ht⟩ := (h7 src y e1).2 e3
      rw [hreg] at ha'; cases ha'
      rw [e2] at hb'; cases hb'
      exact ht

end Jlm.Llvm.Aa.Ptg
