import Verif.Aa.PtgSpec
import Verif.Aa.PointerSetProps
set_option linter.unusedVariables false
set_option linter.unusedSimpArgs false
namespace Jlm.Llvm.Aa.Ptg
open Jlm.Llvm.Aa

/-- what holds of every graph that can be built -/
structure Inv (g : Graph) : Prop where
  pos : 0 < g.n
  zero : (g.data 0).kind = .external ∧ (g.data 0).ext = true ∧ (g.data 0).all = true ∧ (g.data 0).size = unknownSize
  notZero : ∀ i, i < g.n → (g.data i).kind = .external → i = 0
  reg : ∀ i, i < g.n → (g.data i).kind = .register → (g.data i).ext = false
  beyond : ∀ i, g.n ≤ i → (g.data i).ext = false
  tzero : g.targets 0 = []
  tnodup : ∀ i, (g.targets i).Nodup
  tgt : ∀ i t, t ∈ g.targets i → i < g.n ∧ t < g.n ∧ t ≠ 0 ∧ (g.data t).kind ≠ .register
  mapIff : ∀ k o i, (o, i) ∈ g.map k ↔ (k ≠ .register ∧ k ≠ .external ∧ i < g.n ∧ (g.data i).kind = k ∧ g.obj i = o)
  mapNodup : ∀ k, ((g.map k).map Prod.fst).Nodup
  regMap : ∀ o i, (o, i) ∈ g.regMap → i < g.n ∧ (g.data i).kind = .register
  regNodup : (g.regMap.map Prod.fst).Nodup
  regNodes : g.regNodes = (List.range g.n).filter fun i => (g.data i).kind == .register
  extNodes : g.extNodes = (List.range g.n).filter fun i => (g.data i).ext
  numAll : g.numAll = ((List.range g.n).filter fun i => (g.data i).all).length

/-! ## Lists -/

theorem lookup_iff {l : List (Nat × Nat)} (h : (l.map Prod.fst).Nodup) {o i : Nat} : l.lookup o = some i ↔ (o, i) ∈ l := by
  induction l with
  | nil => simp
  | cons e l ih =>
    obtain ⟨a, b⟩ := e
    rw [List.map_cons, List.nodup_cons] at h
    rw [List.lookup_cons]
    by_cases he : o = a
    · subst he
      have : ∀ j, (o, j) ∉ l := fun j hj => h.1 (List.mem_map.2 ⟨(o, j), hj, rfl⟩)
      simp [this]
      exact eq_comm
    · have hb : (o == a) = false := by simpa using he
      rw [hb, List.mem_cons]
      simp only [Prod.mk.injEq, he, false_and, false_or]
      exact ih h.2

theorem lookup_isSome {l : List (Nat × Nat)} (h : (l.map Prod.fst).Nodup) {o : Nat} : (l.lookup o).isSome ↔ ∃ i, (o, i) ∈ l := by
  rw [Option.isSome_iff_exists]
  exact exists_congr fun i => lookup_iff h

theorem nodup_snoc {l : List (Nat × Nat)} (h : (l.map Prod.fst).Nodup) {o i : Nat} (hn : ¬(l.lookup o).isSome) :
    ((l ++ [(o, i)]).map Prod.fst).Nodup := by
  rw [List.map_append, List.nodup_append]
  refine ⟨h, by simp, ?_⟩
  intro a ha b hb
  simp at hb
  subst hb
  intro e; subst e
  obtain ⟨⟨x, y⟩, hm, e⟩ := List.mem_map.1 ha
  simp at e; subst e
  exact hn ((lookup_isSome h).2 ⟨y, hm⟩)

theorem nodup_ins {l : List Nat} {x : Nat} (h : l.Nodup) : (ins l x).Nodup := by
  unfold ins
  split
  · exact h
  · rename_i hx
    rw [List.nodup_append]
    refine ⟨h, by simp, ?_⟩
    intro a ha b hb e
    simp at hb; subst hb; subst e; exact hx ha

/-! ## The operations keep the invariant -/

theorem inv_empty : Inv Graph.empty where
  pos := by decide
  zero := by decide
  notZero := by
    intro i hi _
    have : Graph.empty.n = 1 := rfl
    omega
  reg := by
    intro i hi h
    have : Graph.empty.n = 1 := rfl
    have : i = 0 := by omega
    subst this; revert h; decide
  beyond := by
    intro i hi
    have hn : Graph.empty.n = 1 := rfl
    have : i ≠ 0 := by omega
    show ((upd (upd _ 0 _) 0 _) i : NodeData).ext = false
    rw [upd_ne _ _ this, upd_ne _ _ this]; rfl
  tzero := rfl
  tnodup := by
    intro i
    have : Graph.empty.targets i = [] := by
      show upd _ 0 [] i = []
      unfold upd; split <;> rfl
    rw [this]; exact List.nodup_nil
  tgt := by
    intro i t h
    have : Graph.empty.targets i = [] := by
      show upd _ 0 [] i = []
      unfold upd; split <;> rfl
    rw [this] at h; cases h
  mapIff := by
    intro k o i
    constructor
    · intro h; cases h
    · rintro ⟨h1, h2, h3, h4, h5⟩
      have hn : Graph.empty.n = 1 := rfl
      have : i = 0 := by omega
      subst this
      exact absurd h4.symm (by rw [show (Graph.empty.data 0).kind = NodeKind.external from rfl]; exact h2)
  mapNodup := fun k => List.nodup_nil
  regMap := by intro o i h; cases h
  regNodup := List.nodup_nil
  regNodes := by decide
  extNodes := by decide
  numAll := by decide

/-- creating a node -/
structure Added (g : Graph) (x : NodeData) (o : Nat) (g' : Graph) : Prop where
  n : g'.n = g.n + 1
  data : g'.data = upd g.data g.n x
  targets : g'.targets = upd g.targets g.n []
  obj : g'.obj = upd g.obj g.n o
  regMap : g'.regMap = g.regMap
  regNodes : g'.regNodes = if x.kind = .register then g.regNodes ++ [g.n] else g.regNodes
  extNodes : g'.extNodes = if x.ext then g.extNodes ++ [g.n] else g.extNodes
  numAll : g'.numAll = g.numAll
  map : ∀ k, g'.map k = if k = x.kind ∧ k ≠ .register then g.map k ++ [(o, g.n)] else g.map k

theorem range_filter_succ (n : Nat) (f f' : Nat → Bool) (h : ∀ i, i < n → f' i = f i) :
    (List.range (n + 1)).filter f' = if f' n then (List.range n).filter f ++ [n] else (List.range n).filter f := by
  have e : (List.range n).filter f' = (List.range n).filter f :=
    List.filter_congr fun i hi => h i (List.mem_range.1 hi)
  rw [List.range_succ, List.filter_append, e]
  by_cases hf : f' n = true
  · rw [if_pos hf]; simp [hf]
  · rw [if_neg hf]; simp [hf]

theorem Inv.added {g g' : Graph} {x : NodeData} {o : Nat} (I : Inv g) (A : Added g x o g') (hk : x.kind ≠ .external)
    (ha : x.all = false) (hr : x.kind = .register → x.ext = false) (hfresh : x.kind ≠ .register → ¬((g.map x.kind).lookup o).isSome) : Inv g' := by
  have hd : ∀ i, i < g.n → g'.data i = g.data i := fun i hi => by rw [A.data, upd_ne _ _ (by omega)]
  have hdn : g'.data g.n = x := by rw [A.data, upd_same]
  have ht : ∀ i, i < g.n → g'.targets i = g.targets i := fun i hi => by rw [A.targets, upd_ne _ _ (by omega)]
  have hI0 := I.pos
  refine ⟨by rw [A.n]; omega, by rw [hd 0 hI0]; exact I.zero, ?_, ?_, ?_, by rw [ht 0 hI0]; exact I.tzero, ?_, ?_, ?_, ?_, ?_, ?_, ?_, ?_, ?_⟩
  · intro i hi h
    rw [A.n] at hi
    by_cases e : i = g.n
    · subst e; rw [hdn] at h; exact absurd h hk
    · rw [hd i (by omega)] at h; exact I.notZero i (by omega) h
  · intro i hi h
    rw [A.n] at hi
    by_cases e : i = g.n
    · subst e; rw [hdn] at h ⊢; exact hr h
    · rw [hd i (by omega)] at h ⊢; exact I.reg i (by omega) h
  · intro i hi
    rw [A.n] at hi
    rw [A.data, upd_ne _ _ (by omega)]
    exact I.beyond i (by omega)
  · intro i
    rw [A.targets]; unfold upd; split
    · exact List.nodup_nil
    · exact I.tnodup i
  · intro i t h
    rw [A.targets] at h; unfold upd at h
    split at h
    · cases h
    · have := I.tgt i t h
      rw [A.n, hd t this.2.1]
      exact ⟨by omega, by omega, this.2.2⟩
  · intro k p i
    rw [A.map k]
    have hpe : (p, i) ∈ (if k = x.kind ∧ k ≠ NodeKind.register then g.map k ++ [(o, g.n)] else g.map k) ↔
        (p, i) ∈ g.map k ∨ (k = x.kind ∧ k ≠ .register ∧ p = o ∧ i = g.n) := by
      by_cases hc : k = x.kind ∧ k ≠ .register
      · rw [if_pos hc, List.mem_append]
        have h2 := hc.2
        simp only [List.mem_singleton, Prod.mk.injEq, hc.1, true_and, ne_eq]
        rw [hc.1] at h2
        simp [h2]
      · rw [if_neg hc]
        constructor
        · exact Or.inl
        · rintro (h | ⟨h1, h2, _⟩)
          · exact h
          · exact absurd ⟨h1, h2⟩ hc
    rw [hpe, I.mapIff, A.n]
    by_cases e : i = g.n
    · subst e
      rw [hdn, A.obj, upd_same]
      constructor
      · rintro (⟨_, _, h, _⟩ | ⟨h1, h2, h3, _⟩)
        · omega
        · exact ⟨h2, by rw [h1]; exact hk, by omega, h1.symm, h3.symm⟩
      · rintro ⟨h1, h2, h3, h4, h5⟩
        exact Or.inr ⟨h4.symm, h1, h5.symm, rfl⟩
    · constructor
      · rintro (⟨h1, h2, h3, h4, h5⟩ | ⟨_, _, _, h⟩)
        · refine ⟨h1, h2, by omega, by rw [hd i h3]; exact h4, by rw [A.obj, upd_ne _ _ e]; exact h5⟩
        · exact absurd h e
      · rintro ⟨h1, h2, h3, h4, h5⟩
        have hi : i < g.n := by omega
        rw [hd i hi] at h4
        rw [A.obj, upd_ne _ _ e] at h5
        exact Or.inl ⟨h1, h2, hi, h4, h5⟩
  · intro k
    rw [A.map k]
    split
    · rename_i hc
      exact nodup_snoc (I.mapNodup k) (by rw [hc.1]; exact hfresh (hc.1 ▸ hc.2))
    · exact I.mapNodup k
  · intro p i h
    rw [A.regMap] at h
    have := I.regMap p i h
    rw [A.n, hd i this.1]
    exact ⟨by omega, this.2⟩
  · rw [A.regMap]; exact I.regNodup
  · rw [A.regNodes, A.n, I.regNodes,
      range_filter_succ g.n (fun i => (g.data i).kind == .register) (fun i => (g'.data i).kind == .register)
        (fun i hi => by rw [hd i hi]), hdn]
    by_cases h : x.kind = .register
    · simp [h]
    · simp [h]
  · rw [A.extNodes, A.n, I.extNodes,
      range_filter_succ g.n (fun i => (g.data i).ext) (fun i => (g'.data i).ext) (fun i hi => by rw [hd i hi]), hdn]
  · rw [A.numAll, A.n, I.numAll,
      range_filter_succ g.n (fun i => (g.data i).all) (fun i => (g'.data i).all) (fun i hi => by rw [hd i hi]), hdn, ha]
    rfl

/-- what `addObject` does -/
theorem addObject_spec {g g' : Graph} {k : NodeKind} {e c : Bool} {z : Option Nat} {o i : Nat} (hk : k ≠ .register)
    (h : g.addObject k e c z o = some (i, g')) :
    i = g.n ∧ ¬((g.map k).lookup o).isSome ∧ Added g (NodeData.new k e false c z) o g' := by
  unfold Graph.addObject at h
  by_cases hs : ((g.map k).lookup o).isSome = true
  · rw [if_pos hs] at h; cases h
  · rw [if_neg hs] at h
    simp only [Graph.addNode, Option.some.injEq, Prod.mk.injEq] at h
    obtain ⟨h1, h2⟩ := h
    subst h2
    refine ⟨h1.symm, hs, rfl, rfl, rfl, rfl, rfl, ?_, rfl, rfl, ?_⟩
    · show g.regNodes = _
      rw [if_neg (show (NodeData.new k e false c z).kind ≠ .register from hk)]
    · intro k'
      show (if k' = k then g.map k' ++ [(o, g.n)] else g.map k') = _
      by_cases e' : k' = k
      · subst e'; rw [if_pos rfl, if_pos ⟨rfl, hk⟩]
      · rw [if_neg e', if_neg (fun h => e' h.1)]

theorem addRegisters_spec (g : Graph) :
    g.addRegisters.1 = g.n ∧ Added g (NodeData.new .register false false true none) 0 g.addRegisters.2 := by
  refine ⟨rfl, rfl, rfl, rfl, rfl, rfl, rfl, rfl, rfl, ?_⟩
  intro k
  rw [if_neg (fun h => h.2 h.1)]
  rfl

/-- how each call changes the graph -/
inductive Change (g : Graph) : Op → Graph → Prop where
  | add (o : Op) (x : Info) (z : Option Nat) (g' : Graph) (hx : o.info = some x) (hk : x.kind ≠ .external)
      (hr : x.kind = .register → x.ext = false)
      (hz : (∀ y, x.size = some y → y < 2 ^ 64) → z = x.size) (hf : x.kind ≠ .register → ¬((g.map x.kind).lookup x.obj).isSome)
      (A : Added g (NodeData.new x.kind x.ext false x.const z) x.obj g') : Change g o g'
  | map (out i : Nat) (hi : i < g.n) (hr : (g.data i).kind = .register) (hf : ¬(g.regMap.lookup out).isSome) :
      Change g (.mapRegister out i) { g with regMap := g.regMap ++ [(out, i)] }
  | marked (i : Nat) (hi : i < g.n) (ha : (g.data i).all = true) : Change g (.mark i) g
  | mark (i : Nat) (hi : i < g.n) (ha : (g.data i).all = false) :
      Change g (.mark i) { g with numAll := g.numAll + 1, data := upd g.data i { g.data i with all := true } }
  | implicit (s t : Nat) (hs : s < g.n ∧ t < g.n ∧ t ≠ 0 ∧ s ≠ 0 ∧ (g.data t).kind ≠ .register)
      (ha : (g.data s).all = true ∧ (g.data t).ext = true) : Change g (.target s t) g
  | explicit (s t : Nat) (hs : s < g.n ∧ t < g.n ∧ t ≠ 0 ∧ s ≠ 0 ∧ (g.data t).kind ≠ .register) :
      Change g (.target s t) { g with targets := upd g.targets s (ins (g.targets s) t) }

theorem step_change {g g' : Graph} {o : Op} {r : Nat} (h : g.step o = some (r, g')) :
    Change g o g' ∧ (o.info.isSome → r = g.n) ∧
      (∀ s t, o = .target s t → r = if g.isTargeting s t then 0 else 1) := by
  cases o with
  | alloca o e c z =>
    obtain ⟨h1, h2, h3⟩ := addObject_spec (by decide) h
    refine ⟨.add _ _ _ _ rfl (by dsimp only; decide) (by dsimp only; intro h; cases h) ?_ (fun _ => h2) h3, fun _ => h1, by intros; contradiction⟩
    dsimp only [Graph.allocaSize]
    cases c with
    | none => intro _; rfl
    | some c =>
      dsimp only
      by_cases hc : 0 ≤ c
      · rw [if_pos hc, if_pos hc]
        intro hy
        unfold Graph.mulSize
        rw [Nat.mod_eq_of_lt (hy _ rfl)]
      · rw [if_neg hc, if_neg hc]; intro _; rfl
  | delta o e c z =>
    obtain ⟨h1, h2, h3⟩ := addObject_spec (by decide) h
    exact ⟨.add _ _ _ _ rfl (by dsimp only; decide) (by dsimp only; intro h; cases h) (fun _ => rfl) (fun _ => h2) h3, fun _ => h1, by intros; contradiction⟩
  | imported o e l =>
    obtain ⟨h1, h2, h3⟩ := addObject_spec (by decide) h
    cases l with
    | none =>
      exact ⟨.add _ _ _ _ rfl (by dsimp only; decide) (by dsimp only; intro h; cases h) (fun _ => rfl) (fun _ => h2) h3, fun _ => h1, by intros; contradiction⟩
    | some l =>
      obtain ⟨c, z⟩ := l
      refine ⟨.add _ _ _ _ rfl (by dsimp only; decide) (by dsimp only; intro h; cases h) (fun _ => ?_) (fun _ => h2) h3, fun _ => h1, by intros; contradiction⟩
      show (if z ≠ 0 then some z else none) = if z = 0 then none else some z
      by_cases hz : z = 0 <;> simp [hz]
  | lambda o e =>
    obtain ⟨h1, h2, h3⟩ := addObject_spec (by decide) h
    exact ⟨.add _ _ _ _ rfl (by dsimp only; decide) (by dsimp only; intro h; cases h) (fun _ => rfl) (fun _ => h2) h3, fun _ => h1, by intros; contradiction⟩
  | malloc o e z =>
    obtain ⟨h1, h2, h3⟩ := addObject_spec (by decide) h
    refine ⟨.add _ _ _ _ rfl (by dsimp only; decide) (by dsimp only; intro h; cases h) (fun _ => ?_) (fun _ => h2) h3, fun _ => h1, by intros; contradiction⟩
    cases z with
    | none => rfl
    | some c => rfl
  | registers =>
    cases h
    exact ⟨.add _ _ _ _ rfl (by dsimp only; decide) (by dsimp only; intro _; rfl) (fun _ => rfl) (by dsimp only; intro h; exact absurd rfl h) (addRegisters_spec g).2, fun _ => rfl, by intros; contradiction⟩
  | mapRegister o i =>
    simp only [Graph.step, Graph.mapRegister, Option.map_eq_some_iff, Prod.mk.injEq] at h
    obtain ⟨a, h, hr, e⟩ := h
    by_cases hc : i < g.n ∧ (g.data i).kind = .register
    · rw [if_pos hc] at h
      by_cases hl : (g.regMap.lookup o).isSome = true
      · rw [if_pos hl] at h; cases h
      · rw [if_neg hl] at h
        cases h; subst e
        exact ⟨.map o i hc.1 hc.2 hl, (fun h => by cases h), by intros; contradiction⟩
    · rw [if_neg hc] at h; cases h
  | mark i =>
    simp only [Graph.step, Graph.mark, Option.map_eq_some_iff, Prod.mk.injEq] at h
    obtain ⟨a, h, hr, e⟩ := h
    by_cases hc : i < g.n
    · rw [if_pos hc] at h
      cases h; subst e
      refine ⟨?_, (fun h => by cases h), by intros; contradiction⟩
      by_cases ha : (g.data i).all = true
      · rw [if_pos ha]; exact .marked i hc ha
      · rw [if_neg ha]; exact .mark i hc (by simpa using ha)
    · rw [if_neg hc] at h; cases h
  | target s t =>
    simp only [Graph.step, Graph.addTarget, Option.map_eq_some_iff, Prod.mk.injEq] at h
    obtain ⟨⟨b, a⟩, h, hr, e⟩ := h
    by_cases hc : s < g.n ∧ t < g.n ∧ t ≠ Graph.externalNode ∧ s ≠ Graph.externalNode ∧ (g.data t).kind ≠ .register
    · rw [if_pos hc] at h
      by_cases ha : ((g.data s).all && (g.data t).ext) = true
      · rw [if_pos ha] at h
        cases h; subst e
        refine ⟨.implicit s t hc (by simpa using ha), (fun h => by cases h), ?_⟩
        intro s' t' he
        cases he
        rw [← hr]
        unfold Graph.isTargeting
        rw [if_pos ha]; rfl
      · rw [if_neg ha] at h
        cases h; subst e
        refine ⟨.explicit s t hc, (fun h => by cases h), ?_⟩
        intro s' t' he
        cases he
        rw [← hr]
        unfold Graph.isTargeting
        rw [if_neg ha]
        cases (g.targets s).contains t <;> rfl
    · rw [if_neg hc] at h; cases h

end Jlm.Llvm.Aa.Ptg
