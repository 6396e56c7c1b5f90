import Verif.Aa.OvsExact
import Verif.Aa.WorklistExample
/-
Concrete runs of offline variable substitution: one where it unifies without changing the solution,
and three where it (or hybrid cycle detection with what it leaves behind) adds pointees.
-/
namespace Jlm.Llvm.Aa
open Jlm.Util

/-! The inner loop of the computation of components is defined by well-founded recursion, which the
kernel does not evaluate. With fuel it does. -/

def innerF (g : Tarjan.Graph) : Nat → Tarjan.St → Option Tarjan.St
  | 0, _ => none
  | k + 1, s =>
    match s.dfsStack with
    | [] => some s
    | node :: _ =>
      if node < g.numNodes then
        match Tarjan.step g s node with
        | none => none
        | some s' => innerF g k s'
      else none

theorem innerF_eq (g : Tarjan.Graph) : ∀ (k : Nat) (s r : Tarjan.St), innerF g k s = some r → Tarjan.inner g s = some r
  | 0, _, _, h => by cases h
  | k + 1, s, r, h => by
    unfold innerF at h
    rw [Tarjan.inner.eq_def]
    split
    · rename_i hd; rw [hd] at h; exact h
    · rename_i node rest hd
      rw [hd] at h
      dsimp only at h
      split
      · rename_i hn
        rw [if_pos hn] at h
        split
        · rename_i hs; rw [hs] at h; cases h
        · rename_i s' hs; rw [hs] at h; exact innerF_eq g k s' r h
      · rename_i hn; rw [if_neg hn] at h; cases h

def outerF (g : Tarjan.Graph) (k : Nat) : List Nat → Tarjan.St → Option Tarjan.St
  | [], s => some s
  | startNode :: rest, s =>
    if g.unificationRoot startNode ≠ startNode then outerF g k rest s
    else if s.order startNode ≠ .notVisited then outerF g k rest s
    else
      match innerF g k { s with dfsStack := startNode :: s.dfsStack } with
      | none => none
      | some s => outerF g k rest s

theorem outerF_eq (g : Tarjan.Graph) (k : Nat) : ∀ (l : List Nat) (s r : Tarjan.St), outerF g k l s = some r → Tarjan.outer g l s = some r
  | [], s, r, h => h
  | a :: l, s, r, h => by
    unfold outerF at h
    unfold Tarjan.outer
    by_cases h1 : g.unificationRoot a ≠ a
    · rw [if_pos h1] at h ⊢; exact outerF_eq g k l s r h
    · rw [if_neg h1] at h ⊢
      by_cases h2 : s.order a ≠ .notVisited
      · rw [if_pos h2] at h ⊢; exact outerF_eq g k l s r h
      · rw [if_neg h2] at h ⊢
        split at h
        · cases h
        · rename_i s' hs
          rw [innerF_eq g k _ _ hs]
          exact outerF_eq g k l s' r h

def findSccsF (g : Tarjan.Graph) (k : Nat) : Option Tarjan.Result :=
  match outerF g k (List.range g.numNodes)
    { order := fun _ => .notVisited, lowLink := fun _ => 0, dfsStack := [], sccStack := [],
      nextOrder := 0, sccsFinished := 0, sccIndex := fun _ => 0, reverseTopologicalOrder := [] } with
  | none => none
  | some s =>
    if s.sccStack = [] then
      some { numSccs := s.sccsFinished, sccIndex := s.sccIndex, reverseTopologicalOrder := s.reverseTopologicalOrder }
    else none

theorem findSccsF_eq {g : Tarjan.Graph} {k : Nat} (h : (findSccsF g k).isSome) : Tarjan.findSccs g (fun _ => 0) = findSccsF g k := by
  unfold findSccsF at h ⊢
  unfold Tarjan.findSccs
  split at h
  · cases h
  · rename_i s hs
    rw [outerF_eq g k _ _ _ hs]

def Ovs.performF (k : Nat) (s : RSet) (I : Ovs.In) : Option Ovs.Out :=
  (findSccsF ⟨2 * s.n, id, Ovs.succs s I.cs⟩ k).map (Ovs.finish s I)

theorem performF_eq {k : Nat} {s : RSet} {I : Ovs.In} (h : (findSccsF ⟨2 * s.n, id, Ovs.succs s I.cs⟩ k).isSome) :
    Ovs.perform s I = Ovs.performF k s I := by
  unfold Ovs.perform Ovs.performF
  rw [findSccsF_eq h]

/-- solve with the naive solver and ask whether `i` points to `x` -/
def naivePt (cs : List Constraint) (k : Nat) (s : RSet) (q : List (Nat × Nat)) : Option (List Bool) :=
  (solveNaively exOrder (fun _ => ⟨[], []⟩) [] cs k s).map fun r => q.map fun p => r.isPointingTo p.1 p.2

/-- `a = alloca; b = inttoptr(..) merged with a` -/
def exFlagOps : List POp := [.add .register true, .add .register true, .add .alloca true, .addPointee 0 2, .markPTE 1]
def exFlagIn : Ovs.In := ⟨[0, 1], [], fun _ => ⟨[], []⟩, [.superset 1 0]⟩

/-- **C23, counterexample**: a register that is flagged as pointing to external but has no explicit
pointees counts as direct. It is unified with its only predecessor, which becomes external as well. -/
theorem C23_ovs_flag_counterexample :
    (solveNaively exOrder (fun _ => ⟨[], []⟩) [] exFlagIn.cs 30 (RSet.empty.run exFlagOps)).map (fun r => r.pte 0) = some false ∧
    ((Ovs.perform (RSet.empty.run exFlagOps) exFlagIn).bind fun o =>
      solveNaively exOrder (fun _ => ⟨[], []⟩) [] exFlagIn.cs 30 o.set).map (fun r => r.pte 0) = some true := by
  rw [performF_eq (k := 40) (by decide +kernel)]
  constructor <;> decide +kernel

/-- `i` = 0, `j` = 1, `v` = 2, `u` = 3; `v = *i; *j = v; u = *j; *i = u` where `j` points to nothing -/
def exEmptyOps : List POp :=
  [.add .register true, .add .register true, .add .register true, .add .register true, .add .alloca true, .add .alloca true,
   .addPointee 0 4, .addPointee 4 5]
def exEmptyIn : Ovs.In := ⟨[0, 1, 2, 3], [], fun _ => ⟨[], []⟩, [.load 2 0, .store 1 2, .load 3 1, .store 0 3]⟩

/-- **C23, counterexample**: a cycle through `*j` where `j` has no pointees is no cycle, but
everything on it is unified. -/
theorem C23_ovs_empty_counterexample :
    naivePt exEmptyIn.cs 60 (RSet.empty.run exEmptyOps) [(2, 5), (3, 5)] = some [true, false] ∧
    ((Ovs.perform (RSet.empty.run exEmptyOps) exEmptyIn).bind fun o => naivePt exEmptyIn.cs 60 o.set [(2, 5), (3, 5)]) =
      some [true, true] := by
  rw [performF_eq (k := 40) (by decide +kernel)]
  constructor <;> decide +kernel

/-- `i` = 0 points to `y` = 4, `j` = 1 points to `x` = 3, `v` = 2 points to `z` = 5;
`i = j; *j = v; v = *i` -/
def exHybridOps : List POp :=
  [.add .register true, .add .register true, .add .register true, .add .alloca true, .add .alloca true, .add .alloca true,
   .addPointee 1 3, .addPointee 0 4, .addPointee 2 5]
def exHybridIn : Ovs.In := ⟨[0, 1, 2], [], fun _ => ⟨[], []⟩, [.superset 0 1, .store 1 2, .load 2 0]⟩

/-- what the substitution leaves for hybrid cycle detection -/
def exHybrid : Input (List (Nat × Nat)) where
  ops := exHybridOps
  cs := exHybridIn.cs
  env := { opts := ⟨false, true, false, false, false⟩, fn := fun _ => ⟨[], []⟩, en := fun _ l => l, det := fun d _ _ _ _ => (d, []) }
  fns := []
  ref := ((Ovs.perform (RSet.empty.run exHybridOps) exHybridIn).map Ovs.Out.ref).getD fun _ => none
  det := []
  cycles := []

/-- **C22, counterexample**: here the substitution itself unifies nothing, but it records that all
pointees of `i` shall be unified with `v`, because of the edge from `*j` to `*i`. Nothing is ever
stored in `y`, and yet `y` points to `z` when hybrid cycle detection is used. -/
theorem C22_hybrid_counterexample :
    (Ovs.perform (RSet.empty.run exHybridOps) exHybridIn).map Ovs.Out.pairs = some [] ∧
    naivePt exHybridIn.cs 60 (RSet.empty.run exHybridOps) [(3, 5), (4, 5)] = some [true, false] ∧
    (let w := popMany exHybrid.env 6 40 exHybrid.start
     ((List.range 6).map w.wl, exHybrid.ref 0, [w.set.isPointingTo 3 5, w.set.isPointingTo 4 5])) =
      (List.replicate 6 false, some 2, [true, true]) := by
  unfold exHybrid
  rw [performF_eq (k := 40) (by decide +kernel)]
  refine ⟨?_, ?_, ?_⟩ <;> decide +kernel


/-- `a` = 0 points to `x` = 3; `b = a; c = b; *c = a; d = *b` with `b` = 1, `c` = 2, `d` = 4, and a
function 5 with argument 6 -/
def exOvsOps : List POp :=
  [.add .register true, .add .register true, .add .register true, .add .alloca true, .add .register true, .add .function false, .add .register true,
   .addPointee 0 3, .markPTE 6, .addPointee 6 5]
def exOvsIn : Ovs.In := ⟨[0, 1, 2, 4, 6], [5], fun _ => ⟨[some 6], [some 4]⟩, [.superset 1 0, .superset 2 1, .store 2 0, .load 4 1, .call 1 ⟨[some 0], []⟩]⟩

/-- the conditions for exactness are met, and something is unified: `b` and `c` with `a` -/
theorem C23_ovs_example :
    (∃ o, Ovs.perform (RSet.empty.run exOvsOps) exOvsIn = some o ∧ o.set = RSet.empty.run (exOvsOps ++ unifyOps o.pairs) ∧
      ∀ K, IsLeast ⟨Abs.empty.run (exOvsOps ++ unifyOps o.pairs), exOvsIn.cs, exOvsIn.fn⟩ K ↔ IsLeast ⟨Abs.empty.run exOvsOps, exOvsIn.cs, exOvsIn.fn⟩ K) ∧
    (Ovs.perform (RSet.empty.run exOvsOps) exOvsIn).map Ovs.Out.pairs = some [(1, 0), (2, 1)] := by
  constructor
  · have hok : Abs.empty.OkAll exOvsOps := by
      simp [exOvsOps, Abs.OkAll, Abs.Ok, Abs.step, Abs.empty]
    have hn : (Abs.empty.run exOvsOps).n = 7 := by simp [exOvsOps, Abs.run, Abs.step, Abs.empty]
    have hpts : (Abs.empty.run exOvsOps).pts 0 3 := by simp [exOvsOps, Abs.run, Abs.step, Abs.empty]
    refine C23_ovs_exact_partial exOvsOps hok ?_ exOvsIn ?_ ?_ ?_ ?_ ?_
    · intro a b h; simp [exOvsOps] at h
    · refine ⟨?_, ?_⟩
      · rw [hn]; intro c hc
        simp only [exOvsIn, List.mem_cons, List.not_mem_nil, or_false] at hc
        rcases hc with rfl | rfl | rfl | rfl | rfl <;> simp [Constraint.InRange, Call.InRange]
      · intro f hf hk; rw [hn] at *; simp [exOvsIn, Fn.InRange]
    · intro f
      show f ∈ [5] ↔ f < (Abs.empty.run exOvsOps).n ∧ (Abs.empty.run exOvsOps).kind f = .function
      rw [hn]
      constructor
      · intro h; simp at h; subst h; simp [exOvsOps, Abs.run, Abs.step, Abs.empty]
      · rintro ⟨h, hk⟩
        revert hk
        have : f = 0 ∨ f = 1 ∨ f = 2 ∨ f = 3 ∨ f = 4 ∨ f = 5 ∨ f = 6 := by omega
        rcases this with rfl | rfl | rfl | rfl | rfl | rfl | rfl <;> simp [exOvsOps, Abs.run, Abs.step, Abs.empty]
    · intro i hi
      simp [exOvsIn] at hi
      rcases hi with rfl | rfl | rfl | rfl | rfl <;> simp [exOvsOps, Abs.run, Abs.step, Abs.empty]
    · intro i hi
      simp [exOvsIn] at hi
      rcases hi with rfl | rfl | rfl | rfl | rfl <;> simp [exOvsOps, Abs.run, Abs.step, Abs.empty]
    · intro K hK p v h
      simp [exOvsIn] at h
      obtain ⟨rfl, rfl⟩ := h
      have h0 := hK.1.pts 0 3 hpts
      have h1 : K.Sub 1 0 := hK.1.cs (.superset 1 0) (by simp [exOvsIn])
      have h2 : K.Sub 2 1 := hK.1.cs (.superset 2 1) (by simp [exOvsIn])
      exact Or.inl ⟨3, h2.1 3 (h1.1 3 h0)⟩
  · rw [performF_eq (k := 60) (by decide +kernel)]
    decide +kernel

end Jlm.Llvm.Aa
