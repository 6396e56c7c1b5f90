import Verif.Aa.PtgTotal
set_option linter.unusedVariables false
set_option linter.unusedSimpArgs false
/-
Examples for C60: the hypotheses of the theorems are met by concrete graphs and memories, and the
two claims that are false of the code.
-/
namespace Jlm.Llvm.Aa.Ptg.Examples
open Jlm.Llvm.Aa Jlm.Llvm.Aa.Ptg

/-- node 1: a global of 8 bytes, 2: an escaped alloca of 4 × 4 bytes, 3: an alloca of 4 bytes,
4, 5, 6: registers; register node 4 points to the global, 5 to the escaped alloca and everything
external, 6 to both allocas -/
def ops : List Op :=
  [.delta 10 false false 8, .alloca 11 true (some 4) 4, .alloca 12 false (some 1) 4,
   .registers, .registers, .registers,
   .target 4 1, .mark 5, .target 5 2, .target 6 2, .target 6 3,
   .mapRegister 20 4, .mapRegister 21 5, .mapRegister 22 6, .mapRegister 23 4]

def g : Graph := (Graph.empty.run ops).getD Graph.empty

theorem run : Graph.empty.run ops = some g := by
  have h : (Graph.empty.run ops).isSome = true := by decide +kernel
  unfold g
  obtain ⟨x, hx⟩ := Option.isSome_iff_exists.1 h
  rw [hx, Option.getD_some]

/-- sizes, edges, counters -/
theorem facts : g.nodeSize 2 = some 16 ∧ g.nodeSize 5 = none ∧ g.isTargeting 5 2 = true ∧ g.isTargeting 5 3 = false ∧
    g.isTargeting 5 0 = true ∧ g.numAll = 2 ∧ g.numEdges = (3, 7) ∧ g.extNodes = [0, 2] ∧ g.regNodes = [4, 5, 6] := by
  decide +kernel

/-- all three answers; the last accesses are too large for the small alloca -/
theorem answers :
    g.query 20 8 21 8 = .noAlias ∧ g.query 21 4 22 4 = .mayAlias ∧ g.query 20 8 23 8 = .mustAlias ∧
    g.query 20 4 23 4 = .mayAlias ∧ g.query 20 4 99 4 = .mayAlias ∧ g.query 20 4 22 4 = .noAlias ∧
    g.query 22 4 21 8 = .mayAlias ∧ g.query 21 17 22 17 = .noAlias := by decide +kernel

/-- illegal calls: a second node for an object, an edge to a register, an edge from the external
node, a register mapped twice or to a memory node -/
theorem illegal : (g.step (.delta 10 true true 1)).isSome = false ∧ (g.step (.target 4 5)).isSome = false ∧
    (g.step (.target 0 1)).isSome = false ∧ (g.step (.mapRegister 20 5)).isSome = false ∧ (g.step (.mapRegister 30 1)).isSome = false ∧
    (g.step (.mapRegister 30 5)).isSome = true ∧ (g.step (.alloca 10 false none 4)).isSome = true := by decide +kernel

theorem results : (g.step (.target 5 2)).map Prod.fst = some 0 ∧ (g.step (.target 5 3)).map Prod.fst = some 1 ∧
    (g.step (.registers)).map Prod.fst = some 7 := by decide +kernel

/-- memory: object 0 is the global, object 1 the escaped alloca, object 2 the other alloca -/
def memory : Memory where
  Live o := o < 3
  base o := if o = 0 then 1000 else if o = 1 then 2000 else 3000
  size o := if o = 0 then 8 else if o = 1 then 16 else 4
  node o := o + 1
  apart := by
    intro o p ho hp hn
    have : o = 0 ∨ o = 1 ∨ o = 2 := by omega
    have : p = 0 ∨ p = 1 ∨ p = 2 := by omega
    rcases ‹o = 0 ∨ _› with rfl | rfl | rfl <;> rcases ‹p = 0 ∨ _› with rfl | rfl | rfl <;> first | (exfalso; exact hn rfl) | decide

def values : Values := fun p => if p = 20 ∨ p = 23 then (0, 0) else if p = 21 then (1, 8) else (2, 0)

theorem describes : Describes g memory where
  node := by
    intro o ho
    have h : g.n = 7 := by decide +kernel
    show o + 1 < g.n
    have : o < 3 := ho
    omega
  size := by
    intro o z ho hz
    have : o = 0 ∨ o = 1 ∨ o = 2 := by have : o < 3 := ho; omega
    have h1 : g.nodeSize 1 = some 8 := by decide +kernel
    have h2 : g.nodeSize 2 = some 16 := by decide +kernel
    have h3 : g.nodeSize 3 = some 4 := by decide +kernel
    rcases this with rfl | rfl | rfl
    · have hz : g.nodeSize 1 = some z := hz
      rw [h1] at hz; cases hz; decide
    · have hz : g.nodeSize 2 = some z := hz
      rw [h2] at hz; cases hz; decide
    · have hz : g.nodeSize 3 = some z := hz
      rw [h3] at hz; cases hz; decide
  single := by
    intro o p _ _ h _
    have : o + 1 = p + 1 := h
    omega

theorem follows : Follows g memory values := by
  intro p a ha
  have hm := (C60_registers ops g run p a).1 ha
  simp only [ops, List.mem_cons, List.not_mem_nil, or_false, reduceCtorEq, Op.mapRegister.injEq, false_or] at hm
  rcases hm with ⟨rfl, rfl⟩ | ⟨rfl, rfl⟩ | ⟨rfl, rfl⟩ | ⟨rfl, rfl⟩ <;> decide +kernel

theorem inBounds : InBounds memory values 20 8 ∧ InBounds memory values 21 8 ∧ InBounds memory values 22 4 ∧ InBounds memory values 23 8 := by
  refine ⟨⟨?_, ?_⟩, ⟨?_, ?_⟩, ⟨?_, ?_⟩, ⟨?_, ?_⟩⟩ <;> first | (show (_ : Nat) < 3; decide) | decide

/-- the theorem applies, to both answers -/
theorem sound : Disjoint (address memory values 20) 8 (address memory values 21) 8 ∧ address memory values 20 = address memory values 23 :=
  ⟨(C60_query_sound ops g run memory describes values follows 20 8 21 8 inBounds.1 inBounds.2.1).1 answers.1,
   ((C60_query_sound ops g run memory describes values follows 20 8 23 8 inBounds.1 inBounds.2.2.2).2 answers.2.2.1).1⟩

/-- a less precise graph: everything may point to everything -/
def ops' : List Op :=
  [.alloca 12 true (some 1) 4, .alloca 11 true (some 4) 4, .delta 10 true false 8,
   .registers, .mark 4, .mapRegister 23 4, .mapRegister 20 4, .mapRegister 21 4, .mapRegister 22 4]

def g' : Graph := (Graph.empty.run ops').getD Graph.empty

theorem run' : Graph.empty.run ops' = some g' := by
  have h : (Graph.empty.run ops').isSome = true := by decide +kernel
  unfold g'
  obtain ⟨x, hx⟩ := Option.isSome_iff_exists.1 h
  rw [hx, Option.getD_some]

theorem super : g'.isSupergraphOf g = true ∧ g.isSupergraphOf g' = false := by decide +kernel

/-! ## Pointer object sets -/

/-- what holds for the indices of the objects, and for the ones after them, holds for all -/
theorem all_of {P : Nat → Prop} (n : Nat) (h : ∀ i < n, P i) (h' : ∀ i, P (n + i)) (i : Nat) : P i := by
  by_cases hi : i < n
  · exact h i hi
  · have := h' (i - n)
    rwa [show n + (i - n) = i by omega] at this

/-- the conditions on the set, for the indices after the objects, follow from the history: nothing
happened there. The history `l` works on objects below `n`. -/
def below (n : Nat) : POp → Bool
  | .add _ _ => true
  | .unify a b => decide (a < n ∧ b < n)
  | .addPointee p _ => decide (p < n)
  | .markEscaped i => decide (i < n)
  | _ => false

structure Quiet (n : Nat) (s : RSet) : Prop where
  root : ∀ i, s.root (n + i) = n + i
  lt : ∀ i, i < n → s.root i < n
  pts : ∀ i, s.pts (n + i) = []
  n : s.n ≤ n

theorem quiet_mark {n : Nat} {s : RSet} (h : Quiet n s) (o : Nat → Obj) : Quiet n { s with obj := o } := ⟨h.root, h.lt, h.pts, h.n⟩

theorem quiet_step {n : Nat} {s : RSet} (h : Quiet n s) (o : POp) (hb : below n o = true)
    (hn : (∀ k c, o = .add k c → s.n < n)) : Quiet n (s.step o).2 := by
  cases o with
  | add k c =>
    have := hn k c rfl
    refine ⟨fun i => ?_, fun i hi => ?_, fun i => ?_, this⟩
    · show upd s.root s.n s.n (n + i) = n + i
      rw [upd_ne _ _ (by omega)]; exact h.root i
    · show upd s.root s.n s.n i < n
      unfold upd; split
      · omega
      · exact h.lt i hi
    · show upd s.pts s.n [] (n + i) = []
      rw [upd_ne _ _ (by omega)]; exact h.pts i
  | unify a b =>
    have hb := of_decide_eq_true hb
    have ha := h.lt a hb.1
    have hb := h.lt b hb.2
    show Quiet n (s.unify a b).2
    unfold RSet.unify
    dsimp only
    split
    · exact h
    · have key : ∀ new old : Nat, new < n → old < n → ∀ (o : Nat → Obj) (k : Nat → Nat),
          Quiet n { n := s.n, obj := o, root := fun i => if s.root i = old then new else s.root i, rank := k,
                    pts := upd (upd s.pts new (uni (s.pts new) (s.pts old))) old [] } := by
        intro new old h1 h2 o k
        refine ⟨fun i => ?_, fun i hi => ?_, fun i => ?_, h.n⟩
        · show (if s.root (n + i) = old then new else s.root (n + i)) = n + i
          rw [h.root, if_neg (by omega)]
        · show (if s.root i = old then new else s.root i) < n
          split
          · exact h1
          · exact h.lt i hi
        · show upd (upd s.pts new _) old [] (n + i) = []
          rw [upd_ne _ _ (by omega), upd_ne _ _ (by omega)]; exact h.pts i
      by_cases hr : s.rank (s.root a) < s.rank (s.root b)
      · simp only [if_pos hr]; exact key _ _ hb ha _ _
      · simp only [if_neg hr]; exact key _ _ ha hb _ _
  | addPointee p x =>
    have hb := of_decide_eq_true hb
    refine ⟨h.root, h.lt, fun i => ?_, h.n⟩
    show upd s.pts (s.root p) _ (n + i) = []
    rw [upd_ne _ _ (by have := h.lt p hb; omega)]; exact h.pts i
  | markEscaped i =>
    show Quiet n (s.markEscaped i).2
    unfold RSet.markEscaped RSet.markPE RSet.markPTE
    split
    · exact h
    · dsimp only
      split <;> split <;> exact ⟨h.root, h.lt, h.pts, h.n⟩
  | _ => cases hb

theorem quiet_run {n : Nat} : ∀ (l : List POp) (s : RSet), Quiet n s → l.all (below n) = true →
    s.n + l.countP (fun o => match o with | .add _ _ => true | _ => false) ≤ n → Quiet n (s.run l)
  | [], s, h, _, _ => h
  | o :: l, s, h, hb, hn => by
    rw [List.all_cons, Bool.and_eq_true] at hb
    have hn' : (s.step o).2.n + l.countP (fun o => match o with | .add _ _ => true | _ => false) ≤ n := by
      rw [List.countP_cons] at hn
      cases o with
      | add k c => show s.n + 1 + _ ≤ n; simp at hn ⊢; omega
      | unify a b =>
        have e : (s.step (.unify a b)).2.n = s.n := by
          show (s.unify a b).2.n = s.n
          unfold RSet.unify; dsimp only; split <;> rfl
        rw [e]; simp at hn; exact hn
      | addPointee p x => show s.n + _ ≤ n; simp at hn; exact hn
      | markEscaped i =>
        have e : (s.step (.markEscaped i)).2.n = s.n := by
          show (s.markEscaped i).2.n = s.n
          unfold RSet.markEscaped RSet.markPE RSet.markPTE
          split
          · rfl
          · dsimp only
            split <;> split <;> rfl
        rw [e]; simp at hn; exact hn
      | _ => cases hb.1
    refine quiet_run l _ (quiet_step h o hb.1 ?_) hb.2 hn'
    rintro k c rfl
    rw [List.countP_cons] at hn
    simp at hn; omega

theorem quiet_empty (n : Nat) : Quiet n RSet.empty := ⟨fun _ => rfl, fun _ h => h, fun _ => rfl, Nat.zero_le n⟩

/-- the conditions on the maps, by computation -/
theorem maps_ok_of {n : Nat} {l : List POp} (M : Maps) (hb : l.all (below n) = true)
    (hn : l.countP (fun o => match o with | .add _ _ => true | _ => false) ≤ n)
    (hc : (decide (M.mems.map Prod.snd).Nodup && decide (M.regs.map Prod.fst).Nodup &&
      (List.range n).all (fun i => (RSet.empty.run l).root ((RSet.empty.run l).root i) == (RSet.empty.run l).root i &&
        ((RSet.empty.run l).pointees i).all fun t => (M.mems.map Prod.snd).contains t)) = true) : M.Ok (RSet.empty.run l) := by
  have Q := quiet_run l _ (quiet_empty n) hb (by simpa [RSet.empty] using hn)
  rw [Bool.and_eq_true, Bool.and_eq_true, decide_eq_true_iff, decide_eq_true_iff, List.all_eq_true] at hc
  obtain ⟨⟨h1, h2⟩, h3⟩ := hc
  have h3 : ∀ i < n, _ := fun i hi => h3 i (List.mem_range.2 hi)
  simp only [Bool.and_eq_true, beq_iff_eq, List.all_eq_true, List.contains_iff_mem] at h3
  refine ⟨h1, ?_, h2, ?_⟩
  · refine all_of n (fun i hi => (h3 i hi).2) (fun i t ht => ?_)
    unfold RSet.pointees at ht
    rw [Q.root, Q.pts] at ht; cases ht
  · exact all_of n (fun i hi => (h3 i hi).1) (fun i => by rw [Q.root, Q.root])

/-- a global that cannot point, three registers and an escaped alloca; registers 1 and 3 are unified -/
def history : List POp :=
  [.add .global false, .add .register true, .add .alloca true, .add .register true, .add .register true,
   .addPointee 1 0, .addPointee 3 2, .addPointee 4 0, .addPointee 2 0, .markEscaped 2, .unify 1 3]

def set : RSet := RSet.empty.run history

def maps : Maps :=
  { mems := [(.alloca 7 (some 1) 8, 2), (.delta 8 false 4, 0)], regs := [(20, 1), (21, 3), (22, 4)] }

theorem maps_ok : maps.Ok set := maps_ok_of (n := 5) maps (by decide) (by decide) (by decide +kernel)

theorem built : (construct set maps).isSome = true ∧
    (construct set maps).map (fun g => (g.n, g.query 20 4 21 4, g.query 20 4 22 4, g.query 22 8 20 8, g.numEdges)) =
      some (5, .mayAlias, .mayAlias, .noAlias, (4, 8)) := by decide +kernel

/-- the construction succeeds because the conditions of the theorem hold -/
theorem total : (construct set maps).isSome := C60_construct_total set maps maps_ok (by decide)

theorem roots : ∀ o r, (o, r) ∈ maps.regs → (set.obj (set.root r)).canPoint = true := by
  intro o r h
  have : ∀ e ∈ maps.regs, (set.obj (set.root e.2)).canPoint = true := by decide +kernel
  exact this _ h

/-! ## What is false -/

/-- an alloca that cannot point is unified with a register and becomes the root of both -/
def badHistory : List POp :=
  [.add .alloca false, .add .register true, .add .register true, .add .alloca true,
   .addPointee 1 3, .addPointee 2 3, .unify 0 1]

def badSet : RSet := RSet.empty.run badHistory

def badMaps : Maps :=
  { mems := [(.alloca 7 (some 1) 8, 0), (.alloca 8 (some 1) 8, 3)], regs := [(20, 1), (21, 2)] }

/-- **C60, counterexample.** The construction loses the pointees of a register whose unification has
a root that cannot point: both registers point to the same alloca, and the graph answers `NoAlias`. -/
theorem C60_construct_counterexample : badMaps.Ok badSet ∧ badSet.isPointingTo 1 3 = true ∧ badSet.isPointingTo 2 3 = true ∧
    (construct badSet badMaps).map (fun g => g.query 20 8 21 8) = some .noAlias :=
  ⟨maps_ok_of (n := 4) badMaps (by decide) (by decide) (by decide +kernel), by decide +kernel⟩

/-- an import whose declared type has 4 bytes and two registers that point to it -/
def declared : List Op :=
  [.imported 10 true (some (false, 4)), .registers, .registers, .target 2 1, .target 3 1, .mapRegister 20 2, .mapRegister 21 3]

/-- **C60, counterexample.** The condition on the sizes in `Describes` cannot be dropped: the definition
of an imported variable in another module may be larger than the type it is declared with. Here it has 8
bytes, two accesses of 8 bytes at its start are in bounds, and the answer is `NoAlias`. -/
theorem C60_declared_size_counterexample : ∃ (g : Graph) (M : Memory) (v : Values), Graph.empty.run declared = some g ∧
    (∀ o, M.Live o → M.node o < g.n) ∧ Follows g M v ∧ InBounds M v 20 8 ∧ InBounds M v 21 8 ∧
    g.query 20 8 21 8 = .noAlias ∧ ¬Disjoint (address M v 20) 8 (address M v 21) 8 := by
  have h : (Graph.empty.run declared).isSome = true := by decide +kernel
  obtain ⟨g, hg⟩ := Option.isSome_iff_exists.1 h
  have e : ∀ {α} (f : Graph → α) (a : α), (Graph.empty.run declared).map f = some a → f g = a := by
    intro α f a ha
    rw [hg] at ha
    exact Option.some.inj ha
  let M : Memory :=
    { Live := fun o => o = 0, base := fun _ => 1000, size := fun _ => 8, node := fun _ => 1
      apart := fun o p ho hp hn => absurd (ho.trans hp.symm) hn }
  refine ⟨g, M, fun _ => (0, 0), hg, ?_, ?_, ⟨rfl, by decide⟩, ⟨rfl, by decide⟩, ?_, ?_⟩
  · intro o _
    have := e (fun g => g.n) 4 (by decide +kernel)
    show 1 < g.n
    have : g.n = 4 := this
    omega
  · intro p a ha
    have hm := (C60_registers declared g hg p a).1 ha
    simp only [declared, List.mem_cons, List.not_mem_nil, or_false, reduceCtorEq, Op.mapRegister.injEq, false_or] at hm
    rcases hm with ⟨rfl, rfl⟩ | ⟨rfl, rfl⟩
    · exact e (fun g => g.isTargeting 2 1) true (by decide +kernel)
    · exact e (fun g => g.isTargeting 3 1) true (by decide +kernel)
  · exact e (fun g => g.query 20 8 21 8) .noAlias (by decide +kernel)
  · intro hd
    exact hd 1000 ⟨⟨Nat.le_refl _, by decide⟩, ⟨Nat.le_refl _, by decide⟩⟩

end Jlm.Llvm.Aa.Ptg.Examples
