import Verif.Aa.PtgGraph
set_option linter.unusedVariables false
set_option linter.unusedSimpArgs false
/-
`Andersen::ConstructPointsToGraphFromPointerObjectSet`, Andersen.cpp:1684-1770: the points-to graph
is built from the solved `PointerObjectSet` (here `RSet`, PointerSetModel.lean).

Simplification: the maps of the set (`GetAllocaMap` ... `GetRegisterMap`, PointerObjectSet.hpp) are
lists, in the order in which the C++ iterates over them; the statistics are dropped.
-/
namespace Jlm.Llvm.Aa.Ptg
open Jlm.Llvm.Aa

/-- an RVSDG object that owns memory, with the facts that the graph asks it for -/
inductive Src where
  | alloca (obj : Nat) (count : Option Int) (elem : Nat)
  | delta (obj : Nat) (const : Bool) (size : Nat)
  | imported (obj : Nat) (llvm : Option (Bool × Nat))
  | lambda (obj : Nat)
  | malloc (obj : Nat) (size : Option Int)
deriving DecidableEq, Repr

/-- the call `addNodeFor...` for an object, Andersen.cpp:1696-1723 -/
def Src.op (ext : Bool) : Src → Op
  | .alloca o c z => .alloca o ext c z
  | .delta o c z => .delta o ext c z
  | .imported o l => .imported o ext l
  | .lambda o => .lambda o ext
  | .malloc o z => .malloc o ext z

/-- the thing that an object is in the graph -/
def Src.ent : Src → Ent
  | .alloca o _ _ => .mem .alloca o
  | .delta o _ _ => .mem .delta o
  | .imported o _ => .mem .imported o
  | .lambda o => .mem .lambda o
  | .malloc o _ => .mem .malloc o

/-- the maps of the pointer object set: from RVSDG objects (allocas, then deltas, imports, lambdas
and mallocs) and from registers to pointer objects -/
structure Maps where
  mems : List (Src × Nat)
  regs : List (Nat × Nat)

variable (s : RSet)

/-- the five loops that create memory nodes, Andersen.cpp:1693-1724; `m` is `memoryNodeMapping` -/
def createMem (s : RSet) : Graph → List (Nat × Nat) → List (Src × Nat) → Option (Graph × List (Nat × Nat))
  | g, m, [] => some (g, m)
  | g, m, (src, x) :: l => (g.step (src.op (s.escaped x))).bind fun (i, g) => createMem s g ((x, i) :: m) l

/-- `outputsInRegister[root].insert(outputNode)` -/
def insGroup (r o : Nat) : List (Nat × List Nat) → List (Nat × List Nat)
  | [] => [(r, [o])]
  | (r', os) :: l => if r' = r then (r', ins os o) :: l else (r', os) :: insGroup r o l

/-- the loop that groups the registers, Andersen.cpp:1751-1756 -/
def groups (s : RSet) : List (Nat × List Nat) → List (Nat × Nat) → List (Nat × List Nat)
  | a, [] => a
  | a, (o, x) :: l => groups s (insGroup (s.root x) o a) l

/-- the loop over the explicit pointees in `applyPointsToSet`, Andersen.cpp:1742-1745 -/
def addTargets (m : List (Nat × Nat)) (node : Nat) : Graph → List Nat → Option Graph
  | g, [] => some g
  | g, t :: l => (g.addTarget node ((m.lookup t).getD 0)).bind fun (_, g) => addTargets m node g l

/-- `applyPointsToSet`, Andersen.cpp:1727-1746 -/
def applyPts (s : RSet) (m : List (Nat × Nat)) (g : Graph) (node x : Nat) : Option Graph :=
  if !(s.obj x).canPoint then some g
  else if s.pte x then (g.mark node).bind fun g => addTargets m node g (s.pointees x)
  else addTargets m node g (s.pointees x)

/-- `mapRegisterToNode` for all outputs of a group -/
def mapOuts (node : Nat) : Graph → List Nat → Option Graph
  | g, [] => some g
  | g, o :: l => (g.mapRegister o node).bind fun g => mapOuts node g l

/-- the loop over the groups of registers, Andersen.cpp:1759-1765 -/
def createRegs (s : RSet) (m : List (Nat × Nat)) : Graph → List (Nat × List Nat) → Option Graph
  | g, [] => some g
  | g, (r, os) :: l =>
    (mapOuts g.addRegisters.1 g.addRegisters.2 os).bind fun h =>
      (applyPts s m h g.addRegisters.1 r).bind fun h => createRegs s m h l

/-- the loop over the memory nodes, Andersen.cpp:1768-1771 -/
def applyMems (s : RSet) (m : List (Nat × Nat)) : Graph → List (Nat × Nat) → Option Graph
  | g, [] => some g
  | g, (x, node) :: l => (applyPts s m g node x).bind fun g => applyMems s m g l

/-- `ConstructPointsToGraphFromPointerObjectSet` -/
def construct (s : RSet) (M : Maps) : Option Graph :=
  (createMem s Graph.empty [] M.mems).bind fun (g, m) =>
    (createRegs s m g (groups s [] M.regs)).bind fun g => applyMems s m g m

/-! ## The calls that are made -/

def numbered : Nat → List Nat → List (Nat × Nat)
  | _, [] => []
  | i, x :: l => (x, i) :: numbered (i + 1) l

theorem mem_numbered {x i : Nat} : ∀ {k : Nat} {l : List Nat}, (x, i) ∈ numbered k l ↔ k ≤ i ∧ l[i - k]? = some x
  | k, [] => by simp [numbered]
  | k, y :: l => by
    rw [numbered, List.mem_cons, mem_numbered]
    by_cases h : i = k
    · subst h
      rw [Nat.sub_self]
      constructor
      · rintro (h | h)
        · cases h; exact ⟨Nat.le_refl _, rfl⟩
        · omega
      · rintro ⟨_, h⟩
        simp at h
        rw [h]; exact Or.inl rfl
    · simp only [Prod.mk.injEq, h, and_false, false_or]
      constructor
      · rintro ⟨h1, h2⟩
        refine ⟨by omega, ?_⟩
        rw [show i - k = (i - (k + 1)) + 1 by omega, List.getElem?_cons_succ]; exact h2
      · rintro ⟨h1, h2⟩
        refine ⟨by omega, ?_⟩
        rw [show i - k = (i - (k + 1)) + 1 by omega, List.getElem?_cons_succ] at h2; exact h2

theorem numbered_length : ∀ (k : Nat) (l : List Nat), (numbered k l).length = l.length
  | _, [] => rfl
  | k, _ :: l => by rw [numbered, List.length_cons, List.length_cons, numbered_length (k + 1) l]

theorem numbered_fst : ∀ (k : Nat) (l : List Nat), (numbered k l).map Prod.fst = l
  | _, [] => rfl
  | k, _ :: l => by rw [numbered, List.map_cons, numbered_fst (k + 1) l]

theorem Src.info (src : Src) (e : Bool) : ∃ x, (src.op e).info = some x ∧ x.ext = e ∧ x.kind ≠ .register ∧ src.ent = .mem x.kind x.obj ∧ x.kind ≠ .external := by
  cases src with
  | imported o l =>
    cases l with
    | none => exact ⟨_, rfl, rfl, by dsimp only; decide, rfl, by dsimp only; decide⟩
    | some l => obtain ⟨c, z⟩ := l; exact ⟨_, rfl, rfl, by dsimp only; decide, rfl, by dsimp only; decide⟩
  | _ => exact ⟨_, rfl, rfl, by dsimp only; decide, rfl, by dsimp only; decide⟩

def memOps (l : List (Src × Nat)) : List Op := l.map fun e => e.1.op (s.escaped e.2)

def applyOps (m : List (Nat × Nat)) (node x : Nat) : List Op :=
  if !(s.obj x).canPoint then []
  else (if s.pte x then [.mark node] else []) ++ (s.pointees x).map fun t => .target node ((m.lookup t).getD 0)

def regOps (m : List (Nat × Nat)) : Nat → List (Nat × List Nat) → List Op
  | _, [] => []
  | i, (r, os) :: l => .registers :: (os.map (fun o => .mapRegister o i) ++ (applyOps s m i r ++ regOps m (i + 1) l))

theorem Change.n {g g' : Graph} {o : Op} (C : Change g o g') : g'.n = g.n + o.info.toList.length := by
  cases C with
  | add _ x z _ hx hk hr hz hf A => rw [hx, A.n]; rfl
  | _ => rfl

theorem createMem_spec : ∀ (l : List (Src × Nat)) (g : Graph) (m : List (Nat × Nat)) (g' : Graph) (m' : List (Nat × Nat)),
    createMem s g m l = some (g', m') →
    g.run (memOps s l) = some g' ∧ m' = (numbered g.n (l.map Prod.snd)).reverse ++ m ∧ g'.n = g.n + l.length
  | [], g, m, g', m', h => by cases h; exact ⟨rfl, rfl, rfl⟩
  | (src, x) :: l, g, m, g', m', h => by
    rw [createMem] at h
    cases hs : g.step (src.op (s.escaped x)) with
    | none => rw [hs] at h; cases h
    | some r =>
      obtain ⟨i, g1⟩ := r
      rw [hs] at h
      obtain ⟨hc, hi, _⟩ := step_change hs
      obtain ⟨y, hy, _⟩ := src.info (s.escaped x)
      have hi := hi (by rw [hy]; rfl)
      have hn : g1.n = g.n + 1 := by rw [hc.n, hy]; rfl
      obtain ⟨h1, h2, h3⟩ := createMem_spec l g1 ((x, i) :: m) g' m' h
      refine ⟨?_, ?_, ?_⟩
      · show Graph.run g (src.op (s.escaped x) :: memOps s l) = _
        rw [Graph.run, hs]; exact h1
      · rw [h2, hn, hi]
        simp [numbered]
      · rw [h3, hn, List.length_cons]; omega

theorem addTargets_spec (m : List (Nat × Nat)) (node : Nat) : ∀ (l : List Nat) (g : Graph),
    addTargets m node g l = g.run (l.map fun t => .target node ((m.lookup t).getD 0))
  | [], g => rfl
  | t :: l, g => by
    rw [addTargets, List.map_cons, Graph.run, Graph.step]
    cases g.addTarget node ((m.lookup t).getD 0) with
    | none => rfl
    | some r => obtain ⟨b, g1⟩ := r; exact addTargets_spec m node l g1

theorem applyPts_spec (m : List (Nat × Nat)) (g : Graph) (node x : Nat) : applyPts s m g node x = g.run (applyOps s m node x) := by
  unfold applyPts applyOps
  by_cases hc : (!(s.obj x).canPoint) = true
  · rw [if_pos hc, if_pos hc]; rfl
  · rw [if_neg hc, if_neg hc]
    by_cases hp : s.pte x = true
    · rw [if_pos hp, if_pos hp, List.singleton_append, Graph.run, Graph.step]
      cases g.mark node with
      | none => rfl
      | some g1 => exact addTargets_spec m node _ g1
    · rw [if_neg hp, if_neg hp]; exact addTargets_spec m node _ g

theorem mapOuts_spec (node : Nat) : ∀ (l : List Nat) (g : Graph), mapOuts node g l = g.run (l.map fun o => .mapRegister o node)
  | [], g => rfl
  | o :: l, g => by
    rw [mapOuts, List.map_cons, Graph.run, Graph.step]
    cases g.mapRegister o node with
    | none => rfl
    | some g1 => exact mapOuts_spec node l g1

theorem run_n : ∀ (l : List Op) (g g' : Graph), g.run l = some g' → (∀ o ∈ l, o.info = none) → g'.n = g.n
  | [], g, g', h, _ => by cases h; rfl
  | o :: l, g, g', h, hl => by
    rw [Graph.run] at h
    cases hs : g.step o with
    | none => rw [hs] at h; cases h
    | some r =>
      obtain ⟨i, g1⟩ := r
      rw [hs] at h
      have := (step_change hs).1.n
      rw [hl o List.mem_cons_self] at this
      rw [run_n l g1 g' h (fun o ho => hl o (List.mem_cons_of_mem _ ho)), this]; rfl

theorem applyOps_info {m : List (Nat × Nat)} {node x : Nat} : ∀ o ∈ applyOps s m node x, o.info = none := by
  intro o ho
  unfold applyOps at ho
  split at ho
  · cases ho
  · rcases List.mem_append.1 ho with h | h
    · split at h
      · simp at h; rw [h]; rfl
      · cases h
    · obtain ⟨t, _, e⟩ := List.mem_map.1 h
      rw [← e]; rfl

theorem createRegs_spec (m : List (Nat × Nat)) : ∀ (l : List (Nat × List Nat)) (g g' : Graph),
    createRegs s m g l = some g' → g.run (regOps s m g.n l) = some g'
  | [], g, g', h => h
  | (r, os) :: l, g, g', h => by
    rw [createRegs, mapOuts_spec] at h
    rw [regOps, Graph.run]
    show (g.addRegisters.2.run _) = _
    have hn : g.addRegisters.1 = g.n := rfl
    rw [hn] at h
    rw [run_append]
    cases h1 : g.addRegisters.2.run (os.map fun o => .mapRegister o g.n) with
    | none => rw [h1] at h; cases h
    | some g1 =>
      rw [h1] at h
      have h : (applyPts s m g1 g.n r).bind (fun h => createRegs s m h l) = some g' := h
      rw [applyPts_spec] at h
      show g1.run _ = _
      rw [run_append]
      cases h2 : g1.run (applyOps s m g.n r) with
      | none => rw [h2] at h; cases h
      | some g2 =>
        rw [h2] at h
        have e1 := run_n _ _ _ h1 (by
          intro o ho
          obtain ⟨p, _, e⟩ := List.mem_map.1 ho
          rw [← e]; rfl)
        have e2 := run_n _ _ _ h2 (applyOps_info s)
        have := createRegs_spec m l g2 g' h
        rw [e2, e1] at this
        exact this

theorem applyMems_spec (m : List (Nat × Nat)) : ∀ (l : List (Nat × Nat)) (g : Graph),
    applyMems s m g l = g.run (l.flatMap fun e => applyOps s m e.2 e.1)
  | [], g => rfl
  | (x, node) :: l, g => by
    rw [applyMems, List.flatMap_cons, run_append, applyPts_spec]
    cases g.run (applyOps s m node x) with
    | none => rfl
    | some g1 => exact applyMems_spec m l g1

/-- the mapping from pointer objects to nodes -/
def mapping (M : Maps) : List (Nat × Nat) := (numbered 1 (M.mems.map Prod.snd)).reverse

def buildOps (M : Maps) : List Op :=
  memOps s M.mems ++ (regOps s (mapping M) (1 + M.mems.length) (groups s [] M.regs) ++
    (mapping M).flatMap fun e => applyOps s (mapping M) e.2 e.1)

theorem construct_run {M : Maps} {g : Graph} (h : construct s M = some g) : Graph.empty.run (buildOps s M) = some g := by
  unfold construct at h
  cases h1 : createMem s Graph.empty [] M.mems with
  | none => rw [h1] at h; cases h
  | some r =>
    obtain ⟨g1, m⟩ := r
    rw [h1] at h
    have h : (createRegs s m g1 (groups s [] M.regs)).bind (fun g => applyMems s m g m) = some g := h
    obtain ⟨e1, e2, e3⟩ := createMem_spec s _ _ _ _ _ h1
    have hm : m = mapping M := by rw [e2, List.append_nil]; rfl
    have hn : g1.n = 1 + M.mems.length := e3
    cases h2 : createRegs s m g1 (groups s [] M.regs) with
    | none => rw [h2] at h; cases h
    | some g2 =>
      rw [h2] at h
      have h : applyMems s m g2 m = some g := h
      have e4 := createRegs_spec s m _ _ _ h2
      unfold buildOps
      rw [run_append, e1]
      show g1.run _ = _
      rw [run_append, ← hm, ← hn, e4]
      show g2.run _ = _
      rw [← applyMems_spec]; exact h

/-! ## Groups -/

theorem mem_insGroup {r o r' o' : Nat} : ∀ {l : List (Nat × List Nat)},
    (∃ os, (r', os) ∈ insGroup r o l ∧ o' ∈ os) ↔ (∃ os, (r', os) ∈ l ∧ o' ∈ os) ∨ (r' = r ∧ o' = o)
  | [] => by
    simp only [insGroup, List.mem_singleton, Prod.mk.injEq, List.not_mem_nil, false_and, exists_false, false_or]
    constructor
    · rintro ⟨os, ⟨h1, h2⟩, h3⟩
      rw [h2] at h3; simp at h3; exact ⟨h1, h3⟩
    · rintro ⟨h1, h2⟩
      exact ⟨_, ⟨h1, rfl⟩, by simp [h2]⟩
  | (q, os) :: l => by
    rw [insGroup]
    by_cases h : q = r
    · subst h
      rw [if_pos rfl]
      constructor
      · rintro ⟨os', hm, ho⟩
        rcases List.mem_cons.1 hm with e | hm
        · cases e
          rcases mem_ins.1 ho with ho | ho
          · exact Or.inl ⟨os, List.mem_cons_self, ho⟩
          · exact Or.inr ⟨rfl, ho⟩
        · exact Or.inl ⟨os', List.mem_cons_of_mem _ hm, ho⟩
      · rintro (⟨os', hm, ho⟩ | ⟨h1, h2⟩)
        · rcases List.mem_cons.1 hm with e | hm
          · cases e; exact ⟨_, List.mem_cons_self, mem_ins.2 (Or.inl ho)⟩
          · exact ⟨os', List.mem_cons_of_mem _ hm, ho⟩
        · subst h1; subst h2
          exact ⟨_, List.mem_cons_self, mem_ins.2 (Or.inr rfl)⟩
    · rw [if_neg h]
      have ih := mem_insGroup (r := r) (o := o) (r' := r') (o' := o') (l := l)
      constructor
      · rintro ⟨os', hm, ho⟩
        rcases List.mem_cons.1 hm with e | hm
        · cases e; exact Or.inl ⟨os, List.mem_cons_self, ho⟩
        · rcases ih.1 ⟨os', hm, ho⟩ with ⟨os2, hm2, ho2⟩ | h2
          · exact Or.inl ⟨os2, List.mem_cons_of_mem _ hm2, ho2⟩
          · exact Or.inr h2
      · rintro (⟨os', hm, ho⟩ | h2)
        · rcases List.mem_cons.1 hm with e | hm
          · cases e; exact ⟨os, List.mem_cons_self, ho⟩
          · obtain ⟨os2, hm2, ho2⟩ := ih.2 (Or.inl ⟨os', hm, ho⟩)
            exact ⟨os2, List.mem_cons_of_mem _ hm2, ho2⟩
        · obtain ⟨os2, hm2, ho2⟩ := ih.2 (Or.inr h2)
          exact ⟨os2, List.mem_cons_of_mem _ hm2, ho2⟩

theorem mem_groups {r o : Nat} : ∀ {l : List (Nat × Nat)} {a : List (Nat × List Nat)},
    (∃ os, (r, os) ∈ groups s a l ∧ o ∈ os) ↔ (∃ os, (r, os) ∈ a ∧ o ∈ os) ∨ ∃ x, (o, x) ∈ l ∧ s.root x = r
  | [], a => by simp [groups]
  | (p, x) :: l, a => by
    rw [groups, mem_groups, mem_insGroup]
    constructor
    · rintro ((h | ⟨h1, h2⟩) | ⟨y, h1, h2⟩)
      · exact Or.inl h
      · subst h2; exact Or.inr ⟨x, List.mem_cons_self, h1.symm⟩
      · exact Or.inr ⟨y, List.mem_cons_of_mem _ h1, h2⟩
    · rintro (h | ⟨y, h1, h2⟩)
      · exact Or.inl (Or.inl h)
      · rcases List.mem_cons.1 h1 with e | h1
        · cases e; exact Or.inl (Or.inr ⟨h2.symm, rfl⟩)
        · exact Or.inr ⟨y, h1, h2⟩

/-! ## Which calls are made -/

theorem mem_applyOps {m : List (Nat × Nat)} {node x : Nat} {o : Op} : o ∈ applyOps s m node x ↔
    (s.obj x).canPoint = true ∧ ((s.pte x = true ∧ o = .mark node) ∨ ∃ t ∈ s.pointees x, o = .target node ((m.lookup t).getD 0)) := by
  unfold applyOps
  cases hc : (s.obj x).canPoint with
  | false => simp
  | true =>
    simp only [Bool.not_true, Bool.false_eq_true, if_false, List.mem_append, List.mem_map, true_and]
    by_cases hp : s.pte x = true
    · simp [hp, eq_comm]
    · simp [hp, eq_comm]

theorem mem_regOps {m : List (Nat × Nat)} {o : Op} : ∀ {l : List (Nat × List Nat)} {i : Nat}, o ∈ regOps s m i l ↔
    (∃ r os k, l[k]? = some (r, os) ∧ (o = .registers ∨ (∃ p ∈ os, o = .mapRegister p (i + k)) ∨ o ∈ applyOps s m (i + k) r))
  | [], i => by simp [regOps]
  | (r, os) :: l, i => by
    rw [regOps, List.mem_cons, List.mem_append, List.mem_append, mem_regOps]
    constructor
    · rintro (h | h | h | ⟨r', os', k, h1, h2⟩)
      · exact ⟨r, os, 0, rfl, Or.inl h⟩
      · obtain ⟨p, hp, e⟩ := List.mem_map.1 h
        exact ⟨r, os, 0, rfl, Or.inr (Or.inl ⟨p, hp, e.symm⟩)⟩
      · exact ⟨r, os, 0, rfl, Or.inr (Or.inr h)⟩
      · refine ⟨r', os', k + 1, by rw [List.getElem?_cons_succ]; exact h1, ?_⟩
        rw [show i + (k + 1) = i + 1 + k by omega]; exact h2
    · rintro ⟨r', os', k, h1, h2⟩
      cases k with
      | zero =>
        simp at h1
        obtain ⟨e1, e2⟩ := h1
        subst e1; subst e2
        rcases h2 with h | ⟨p, hp, e⟩ | h
        · exact Or.inl h
        · exact Or.inr (Or.inl (List.mem_map.2 ⟨p, hp, e.symm⟩))
        · exact Or.inr (Or.inr (Or.inl h))
      | succ k =>
        rw [List.getElem?_cons_succ] at h1
        rw [show i + (k + 1) = i + 1 + k by omega] at h2
        exact Or.inr (Or.inr (Or.inr ⟨r', os', k, h1, h2⟩))

theorem mem_memOps {l : List (Src × Nat)} {o : Op} (h : o ∈ memOps s l) : ∃ x, o.info = some x := by
  obtain ⟨e, _, h⟩ := List.mem_map.1 h
  obtain ⟨x, hx, _⟩ := e.1.info (s.escaped e.2)
  exact ⟨x, by rw [← h]; exact hx⟩

/-- the pointer object whose points-to set node `i` gets -/
def Owner (M : Maps) (x i : Nat) : Prop :=
  (x, i) ∈ mapping M ∨ (1 + M.mems.length ≤ i ∧ ∃ os, (groups s [] M.regs)[i - (1 + M.mems.length)]? = some (x, os))

theorem mem_mapping {M : Maps} {x i : Nat} : (x, i) ∈ mapping M ↔ 1 ≤ i ∧ (M.mems.map Prod.snd)[i - 1]? = some x := by
  unfold mapping
  rw [List.mem_reverse, mem_numbered]

theorem mapping_bound {M : Maps} {x i : Nat} (h : (x, i) ∈ mapping M) : 1 ≤ i ∧ i < 1 + M.mems.length := by
  obtain ⟨h1, h2⟩ := mem_mapping.1 h
  have := (List.getElem?_eq_some_iff.1 h2).1
  rw [List.length_map] at this
  omega

theorem owner_unique {M : Maps} {x y i : Nat} (h : Owner s M x i) (h' : Owner s M y i) : x = y := by
  rcases h with h | ⟨h1, os, h2⟩
  · have hb := mapping_bound h
    rcases h' with h' | ⟨h1', _, _⟩
    · rw [mem_mapping] at h h'
      have := h.2.symm.trans h'.2
      exact (Option.some.inj this)
    · omega
  · rcases h' with h' | ⟨h1', os', h2'⟩
    · have hb := mapping_bound h'; omega
    · have := h2.symm.trans h2'
      simp at this; exact this.1

theorem mem_buildOps {M : Maps} {o : Op} (hi : o.info = none) (hr : ∀ p i, o ≠ .mapRegister p i) : o ∈ buildOps s M ↔
    ∃ x i, Owner s M x i ∧ o ∈ applyOps s (mapping M) i x := by
  unfold buildOps
  rw [List.mem_append, List.mem_append, mem_regOps, List.mem_flatMap]
  constructor
  · rintro (h | ⟨r, os, k, h1, h2⟩ | ⟨e, he, h⟩)
    · obtain ⟨x, hx⟩ := mem_memOps s h; rw [hi] at hx; cases hx
    · rcases h2 with h2 | ⟨p, _, h2⟩ | h2
      · subst h2; cases hi
      · exact absurd h2 (hr _ _)
      · refine ⟨r, _, Or.inr ⟨by omega, os, ?_⟩, h2⟩
        rw [Nat.add_sub_cancel_left]; exact h1
    · exact ⟨e.1, e.2, Or.inl he, h⟩
  · rintro ⟨x, i, h' | ⟨h1, os, h2⟩, h⟩
    · exact Or.inr (Or.inr ⟨(x, i), h', h⟩)
    · refine Or.inr (Or.inl ⟨x, os, _, h2, Or.inr (Or.inr ?_)⟩)
      rw [show 1 + M.mems.length + (i - (1 + M.mems.length)) = i by omega]; exact h

theorem mem_buildOps_map {M : Maps} {p i : Nat} : Op.mapRegister p i ∈ buildOps s M ↔
    1 + M.mems.length ≤ i ∧ ∃ r os, (groups s [] M.regs)[i - (1 + M.mems.length)]? = some (r, os) ∧ p ∈ os := by
  unfold buildOps
  rw [List.mem_append, List.mem_append, mem_regOps, List.mem_flatMap]
  constructor
  · rintro (h | ⟨r, os, k, h1, h2⟩ | ⟨e, he, h⟩)
    · obtain ⟨x, hx⟩ := mem_memOps s h; cases hx
    · rcases h2 with h2 | ⟨q, hq, h2⟩ | h2
      · cases h2
      · cases h2
        refine ⟨by omega, r, os, ?_, hq⟩
        rw [Nat.add_sub_cancel_left]; exact h1
      · rw [mem_applyOps] at h2
        rcases h2.2 with ⟨_, h⟩ | ⟨_, _, h⟩ <;> cases h
    · rw [mem_applyOps] at h
      rcases h.2 with ⟨_, h⟩ | ⟨_, _, h⟩ <;> cases h
  · rintro ⟨h1, r, os, h2, h3⟩
    refine Or.inr (Or.inl ⟨r, os, _, h2, Or.inr (Or.inl ⟨p, h3, ?_⟩)⟩)
    rw [show 1 + M.mems.length + (i - (1 + M.mems.length)) = i by omega]

/-! ## What the graph says -/

/-- the maps belong to the pointer object set: a pointer object stands for one object, all pointees
are in the maps, a register has one pointer object -/
structure Maps.Ok (s : RSet) (M : Maps) : Prop where
  nodup : (M.mems.map Prod.snd).Nodup
  pointees : ∀ i t, t ∈ s.pointees i → t ∈ M.mems.map Prod.snd
  regs : (M.regs.map Prod.fst).Nodup
  root : ∀ i, s.root (s.root i) = s.root i

variable {s} {M : Maps} {g : Graph}

theorem lookup_mapping (hok : M.Ok s) {x i : Nat} (h : (x, i) ∈ mapping M) : (mapping M).lookup x = some i := by
  refine (Ptg.lookup_iff ?_).2 h
  unfold mapping
  rw [List.map_reverse, numbered_fst]
  exact List.pairwise_reverse.2 (hok.nodup.imp fun h => h.symm)

/-- the node of a memory object -/
theorem node_of_mem (h : construct s M = some g) {src : Src} {x k : Nat} (hk : M.mems[k]? = some (src, x)) :
    g.node? src.ent = some (k + 1) ∧ (x, k + 1) ∈ mapping M ∧ (g.data (k + 1)).ext = s.escaped x := by
  have hr := construct_run s h
  have H := hist_run hr
  have I := inv_run hr
  obtain ⟨y, hy, hy2, hy3, hy4, hy5⟩ := src.info (s.escaped x)
  have hlen := (List.getElem?_eq_some_iff.1 hk).1
  have hcr : (created (buildOps s M))[k + 1]? = some y := by
    unfold created buildOps
    rw [List.getElem?_cons_succ, List.filterMap_append, List.getElem?_append_left]
    · have : ∀ (l : List (Src × Nat)) (k : Nat), l[k]? = some (src, x) → ((memOps s l).filterMap Op.info)[k]? = some y := by
        intro l
        induction l with
        | nil => intro k h; simp at h
        | cons e l ih =>
          intro k h
          obtain ⟨z, hz, _⟩ := e.1.info (s.escaped e.2)
          show ((e.1.op (s.escaped e.2) :: memOps s l).filterMap Op.info)[k]? = _
          rw [List.filterMap_cons_some hz]
          cases k with
          | zero =>
            simp at h; subst h
            rw [hy] at hz; cases hz; rfl
          | succ k =>
            rw [List.getElem?_cons_succ] at h ⊢
            exact ih k h
      exact this _ _ hk
    · have : ∀ (l : List (Src × Nat)), ((memOps s l).filterMap Op.info).length = l.length := by
        intro l
        induction l with
        | nil => rfl
        | cons e l ih =>
          obtain ⟨z, hz, _⟩ := e.1.info (s.escaped e.2)
          show ((e.1.op (s.escaped e.2) :: memOps s l).filterMap Op.info).length = _
          rw [List.filterMap_cons_some hz, List.length_cons, List.length_cons, ih]
      rw [this]; exact hlen
  obtain ⟨n1, n2, n3, n4⟩ := H.node _ _ hcr
  have hlt : k + 1 < g.n := by rw [H.n]; exact (List.getElem?_eq_some_iff.1 hcr).1
  refine ⟨?_, ?_, by rw [n2, hy2]⟩
  · rw [hy4]
    have := I.node_ent (i := k + 1) hlt (by rw [n1]; exact hy3)
    unfold Graph.ent at this
    rw [if_neg (by rw [n1]; exact hy5), n1, n4] at this
    exact this
  · rw [mem_mapping]
    exact ⟨by omega, by rw [Nat.add_sub_cancel, List.getElem?_map, hk]; rfl⟩

/-- what the node of pointer object `x` targets -/
theorem owner_targets (h : construct s M = some g) (hok : M.Ok s) {x i : Nat} (hi : Owner s M x i) :
    ((g.data i).all = true ↔ (s.obj x).canPoint = true ∧ s.pte x = true) ∧
    ∀ (src : Src) (y k : Nat), M.mems[k]? = some (src, y) →
      (g.isTargeting i (k + 1) = true ↔ (s.obj x).canPoint = true ∧ s.isPointingTo x y = true) := by
  have hr := construct_run s h
  have H := hist_run hr
  have I := inv_run hr
  have hmark : Op.mark i ∈ buildOps s M ↔ (s.obj x).canPoint = true ∧ s.pte x = true := by
    rw [mem_buildOps s rfl (by intros; simp)]
    constructor
    · rintro ⟨x', i', ho, hm⟩
      rw [mem_applyOps] at hm
      rcases hm.2 with ⟨hp, e⟩ | ⟨_, _, e⟩
      · cases e
        have := owner_unique s ho hi; subst this
        exact ⟨hm.1, hp⟩
      · cases e
    · rintro ⟨h1, h2⟩
      exact ⟨x, i, hi, (mem_applyOps s).2 ⟨h1, Or.inl ⟨h2, rfl⟩⟩⟩
  have hpos : 1 ≤ i := by
    rcases hi with hi | hi
    · exact (mapping_bound hi).1
    · omega
  have hlt : i < g.n := by
    rcases hi with hi | ⟨h1, os, h2⟩
    · have hb := mapping_bound hi
      obtain ⟨e, he⟩ : ∃ e, M.mems[i - 1]? = some e := by
        rw [List.getElem?_eq_getElem (by omega)]; exact ⟨_, rfl⟩
      obtain ⟨src, y⟩ := e
      have := I.node_bound (node_of_mem h he).1
      omega
    · have hreg : ∀ (l : List (Nat × List Nat)) (k j : Nat) (m : List (Nat × Nat)), j < l.length → ((regOps s m k l).filterMap Op.info).length ≥ l.length := by
        intro l
        induction l with
        | nil => intro k j m h; simp
        | cons e l ih =>
          intro k j m h
          obtain ⟨r, os⟩ := e
          rw [regOps, List.filterMap_cons_some (f := Op.info) (a := Op.registers) (b := { kind := .register, ext := false, const := true, size := none, obj := 0 }) rfl, List.filterMap_append, List.filterMap_append, List.length_cons, List.length_append, List.length_append, List.length_cons]
          by_cases hl : 0 < l.length
          · have := ih (k + 1) 0 m hl
            omega
          · omega
      have hlen := (List.getElem?_eq_some_iff.1 h2).1
      rw [H.n]
      unfold created buildOps
      rw [List.length_cons, List.filterMap_append, List.filterMap_append, List.length_append, List.length_append]
      have h3 := hreg (groups s [] M.regs) (1 + M.mems.length) _ (mapping M) hlen
      have h4 : ∀ (l : List (Src × Nat)), ((memOps s l).filterMap Op.info).length = l.length := by
        intro l
        induction l with
        | nil => rfl
        | cons e l ih =>
          obtain ⟨z, hz, _⟩ := e.1.info (s.escaped e.2)
          show ((e.1.op (s.escaped e.2) :: memOps s l).filterMap Op.info).length = _
          rw [List.filterMap_cons_some hz, List.length_cons, List.length_cons, ih]
      rw [h4]
      omega
  have hall : (g.data i).all = true ↔ (s.obj x).canPoint = true ∧ s.pte x = true := by
    rw [H.all i hlt, hmark]
    constructor
    · rintro (h | h)
      · omega
      · exact h
    · exact Or.inr
  refine ⟨hall, ?_⟩
  intro src y k hk
  obtain ⟨hn, hm, he⟩ := node_of_mem h hk
  have htgt : Op.target i (k + 1) ∈ buildOps s M ↔ (s.obj x).canPoint = true ∧ y ∈ s.pointees x := by
    rw [mem_buildOps s rfl (by intros; simp)]
    constructor
    · rintro ⟨x', i', ho, hm'⟩
      rw [mem_applyOps] at hm'
      rcases hm'.2 with ⟨hp, e⟩ | ⟨t, ht, e⟩
      · cases e
      · simp only [Op.target.injEq] at e
        obtain ⟨e1, e2⟩ := e
        subst e1
        have := owner_unique s ho hi; subst this
        refine ⟨hm'.1, ?_⟩
        have htm := hok.pointees x' t ht
        obtain ⟨j, hj⟩ := List.getElem?_of_mem htm
        have hj' : (t, j + 1) ∈ mapping M := mem_mapping.2 ⟨by omega, by rw [Nat.add_sub_cancel]; exact hj⟩
        rw [lookup_mapping hok hj'] at e2
        simp at e2
        rw [← e2] at hj'
        have := owner_unique s (Or.inl hj') (Or.inl hm)
        rw [← this]; exact ht
    · rintro ⟨h1, h2⟩
      refine ⟨x, i, hi, (mem_applyOps s).2 ⟨h1, Or.inr ⟨y, h2, ?_⟩⟩⟩
      rw [lookup_mapping hok hm]; rfl
  rw [H.tgt, hall, htgt, he]
  unfold RSet.isPointingTo
  simp only [Bool.or_eq_true, Bool.and_eq_true, List.contains_iff_mem]
  constructor
  · rintro (⟨⟨h1, h2⟩, h3⟩ | ⟨h1, h2⟩)
    · exact ⟨h1, Or.inl ⟨h2, h3⟩⟩
    · exact ⟨h1, Or.inr h2⟩
  · rintro ⟨h1, ⟨h2, h3⟩ | h2⟩
    · exact Or.inl ⟨⟨h1, h2⟩, h3⟩
    · exact Or.inr ⟨h1, h2⟩

/-- the node of a register -/
theorem node_of_reg (h : construct s M = some g) (hok : M.Ok s) {o r : Nat} (hm : (o, r) ∈ M.regs) :
    ∃ b, g.node? (.reg o) = some b ∧ Owner s M (s.root r) b := by
  have hr := construct_run s h
  have H := hist_run hr
  have I := inv_run hr
  obtain ⟨os, h1, h2⟩ := (mem_groups s (r := s.root r) (o := o) (l := M.regs) (a := [])).2 (Or.inr ⟨r, hm, rfl⟩)
  obtain ⟨k, hk⟩ := List.getElem?_of_mem h1
  refine ⟨1 + M.mems.length + k, ?_, Or.inr ⟨by omega, os, by rw [Nat.add_sub_cancel_left]; exact hk⟩⟩
  refine (Ptg.lookup_iff I.regNodup).2 ((H.reg _ _).2 ((mem_buildOps_map s).2 ⟨by omega, s.root r, os, ?_, h2⟩))
  rw [Nat.add_sub_cancel_left]; exact hk

end Jlm.Llvm.Aa.Ptg
