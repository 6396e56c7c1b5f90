import Verif.Aa.WorklistTerm
import Verif.Aa.NaiveSpec
set_option linter.unusedVariables false
/-
C22: `PointerObjectConstraintSet::SolveUsingWorklist` computes the same solution as `SolveNaively`,
for every worklist policy and every combination of online techniques.
-/
namespace Jlm.Llvm.Aa
variable {σ : Type}

/-- What a caller of the worklist solver provides: a legal history of a pointer object set,
constraints over its objects, the environment of the solver (options, orders of enumeration, cycle
detector), the list of all functions, what offline variable substitution left for hybrid cycle
detection, and the unifications made while the topological order of online cycle detection is
initialized. -/
structure Input (σ : Type) where
  ops : List POp
  cs : List Constraint
  env : Env σ
  fns : List Nat
  ref : Nat → Option Nat
  det : σ
  cycles : List (Nat × Nat)

namespace Input

/-- the constraint problem of the caller -/
def problem (I : Input σ) : Problem := ⟨Abs.empty.run I.ops, I.cs, I.env.fn⟩

/-- the number of pointer objects -/
def n (I : Input σ) : Nat := (Abs.empty.run I.ops).n

/-- the state in which the solver starts to handle work items -/
def start (I : Input σ) : WS σ := WS.init I.env I.cs I.fns I.ref I.det I.cycles (RSet.empty.run I.ops)

/-- the subset graph that the solver starts with -/
def graph (I : Input σ) : WS σ := WS.graph I.cs I.ref I.det (RSet.empty.run I.ops)

/-- legal inputs -/
structure Ok (I : Input σ) : Prop where
  ops : Abs.empty.OkAll I.ops
  inRange : I.problem.InRange
  fns : FnsOk I.problem I.fns
  det : WS.DetOk I.env
  en : WS.EnOk I.env
  ref : ∀ i a, I.ref i = some a → a < I.n
  cyclesLt : ∀ p ∈ I.cycles, p.1 < I.n ∧ p.2 < I.n
  cycles : ∀ p ∈ I.cycles, WS.Path (RSet.empty.run I.ops) I.graph.edges p.1 p.2 ∧
    WS.Path (RSet.empty.run I.ops) I.graph.edges p.2 p.1

/-- the entries for hybrid cycle detection are right: in every solution, each pointee of `i` has the
same points-to set as `ref i`. Trivial if hybrid cycle detection is disabled. -/
def HybridOk (I : Input σ) : Prop :=
  I.env.opts.hcd = true → ∀ L, Sat I.problem L → ∀ i a, I.ref i = some a → ∀ x, L.pt i x → L.Sub x a ∧ L.Sub a x

/-- the execution has reached its end: the worklist is empty -/
def Done (I : Input σ) (w : WS σ) : Prop := ∀ i, i < I.n → w.wl i = false

theorem Ok.setOk {I : Input σ} (h : I.Ok) : SetOk (RSet.empty.run I.ops) := by
  have g := good_start I.ops h.ops I.cs I.env.fn
  refine ⟨g.1, ?_⟩
  rw [abs_run_empty I.ops h.ops]
  exact C20_wf I.ops h.ops

theorem Ok.init {I : Input σ} (h : I.Ok) : I.start.Inv I.problem WS.none2 none WS.none2 ∧ I.start.queue = [] :=
  WS.init_inv (P := I.problem) rfl h.inRange h.setOk (abs_run_empty I.ops h.ops) h.fns h.ref h.cyclesLt

theorem Ok.run {I : Input σ} (h : I.Ok) {k : Nat} {w : WS σ} (t : WS.Run I.env I.start k w) :
    w.Inv I.problem WS.none2 none WS.none2 ∧ w.queue = [] ∧ WS.Rg I.problem w ∧
    WS.fuel I.env.opts.pip I.n w + k ≤ WS.fuel I.env.opts.pip I.n I.start ∧
    ∀ L, Sat I.problem L → WS.MW I.problem L I.env.opts.hcd I.start → WS.MW I.problem L I.env.opts.hcd w :=
  WS.run_inv (P := I.problem) h.det h.en rfl h.inRange h.init.1 h.init.2
    (WS.init_rg (P := I.problem) rfl h.inRange h.setOk (abs_run_empty I.ops h.ops) h.fns h.ref h.cyclesLt) t

end Input

/-- **C22, termination**: no execution handles more than `(n² + 4n)(n + 1) + n` work items,
whatever the policy, the options, the orders of enumeration and the cycle detector. -/
theorem C22_terminates (I : Input σ) (h : I.Ok) (k : Nat) (w : WS σ) (t : WS.Run I.env I.start k w) :
    k ≤ (I.n * I.n + 4 * I.n) * (I.n + 1) + I.n := by
  have a := (h.run t).2.2.2.1
  have b := WS.fuel_init (pip := I.env.opts.pip) I.n I.start
  omega

/-- **C22, completion**: an execution can always be continued until the worklist is empty. -/
theorem C22_completes (I : Input σ) (h : I.Ok) (k : Nat) (w : WS σ) (t : WS.Run I.env I.start k w) :
    ∃ k' w', WS.Run I.env I.start k' w' ∧ k ≤ k' ∧ I.Done w' := by
  have key : ∀ (m k : Nat) (w : WS σ), WS.Run I.env I.start k w → (I.n * I.n + 4 * I.n) * (I.n + 1) + I.n - k < m →
      ∃ k' w', WS.Run I.env I.start k' w' ∧ k ≤ k' ∧ I.Done w' := by
    intro m
    induction m with
    | zero => intro k w _ hm; omega
    | succ m ih =>
      intro k w t hm
      by_cases hd : I.Done w
      · exact ⟨k, w, t, Nat.le_refl _, hd⟩
      · have : ∃ i, w.wl i = true := by
          refine Classical.byContradiction fun hne => hd fun i _ => ?_
          exact Bool.eq_false_iff.2 fun hi => hne ⟨i, hi⟩
        obtain ⟨i, hi⟩ := this
        have t' := t.step (.pop i hi)
        have b := C22_terminates I h _ _ t'
        obtain ⟨k', w', r, hk, hd'⟩ := ih (k + 1) _ t' (by omega)
        exact ⟨k', w', r, by omega, hd'⟩
  exact key _ k w t (Nat.lt_succ_self _)

/-- **C22, soundness**: when the worklist is empty the solution satisfies all constraints, even when
the entries used by hybrid cycle detection are arbitrary. -/
theorem C22_sound (I : Input σ) (h : I.Ok) (k : Nat) (w : WS σ) (t : WS.Run I.env I.start k w) (hd : I.Done w) :
    Sat I.problem w.set.abs.sol := by
  obtain ⟨a, b, _⟩ := h.run t
  exact a.sat h.inRange b (fun i hi => hd i (by rw [← show w.set.n = I.n from a.n]; exact hi))

/-- **C22, precision**: at no time does the state contain a fact that is not true of every solution. -/
theorem C22_precise (I : Input σ) (h : I.Ok) (hh : I.HybridOk) (k : Nat) (w : WS σ)
    (t : WS.Run I.env I.start k w) (L : Sol) (hL : Sat I.problem L) : w.set.abs.sol.Le L := by
  refine WS.MW.le hL ((h.run t).2.2.2.2 L hL ?_)
  refine WS.MW.init (P := I.problem) hL rfl h.setOk (abs_run_empty I.ops h.ops) (Abs.Dom.run _ .empty h.ops) h.fns ?_ h.cycles
  exact fun hc => hh hc L hL

/-- **C22**: when the worklist is empty, what the set answers is the least solution. -/
theorem C22_worklist (I : Input σ) (h : I.Ok) (hh : I.HybridOk) (k : Nat) (w : WS σ)
    (t : WS.Run I.env I.start k w) (hd : I.Done w) : IsLeast I.problem w.set.abs.sol :=
  ⟨C22_sound I h k w t hd, fun L hL => C22_precise I h hh k w t L hL⟩

/-- **C22**: `SolveUsingWorklist` and `SolveNaively` answer every query in the same way. -/
theorem C22_same_as_naive (I : Input σ) (h : I.Ok) (hh : I.HybridOk) (k : Nat) (w : WS σ)
    (t : WS.Run I.env I.start k w) (hd : I.Done w)
    (fns : List Nat) (hf : FnsOk I.problem fns) (ord : Order) (ho : OrderOk ord)
    (fuel : Nat) (hfuel : I.n * I.n + 3 * I.n < fuel) :
    ∃ r, solveNaively ord I.env.fn fns I.cs fuel (RSet.empty.run I.ops) = some r ∧
      ∀ i x, w.set.isPointingTo i x = r.isPointingTo i x ∧ w.set.escaped i = r.escaped i ∧ w.set.pte i = r.pte i := by
  obtain ⟨r, e, hr⟩ := C21_naive I.ops h.ops I.cs I.env.fn h.inRange fns hf ord ho fuel hfuel
  refine ⟨r, e, fun i x => ?_⟩
  have u := (C22_worklist I h hh k w t hd).unique hr
  have hq : ∀ (r : RSet), r.isPointingTo i x = true ↔ r.abs.sol.pt i x := by
    intro r; simp [RSet.isPointingTo, Abs.sol, RSet.abs]; exact Or.comm
  exact ⟨Bool.eq_iff_iff.2 (by rw [hq, hq]; exact u.1 i x), Bool.eq_iff_iff.2 (u.2.1 i), Bool.eq_iff_iff.2 (u.2.2 i)⟩

/-- **C22**: two executions of the worklist solver on the same problem answer every query in the
same way, although they may differ in the policy, in the options, in the orders of enumeration, in
the cycle detectors and in the order of the constraints. -/
theorem C22_config_independent {τ : Type} (I : Input σ) (J : Input τ) (hI : I.Ok) (hJ : J.Ok)
    (hhI : I.HybridOk) (hhJ : J.HybridOk)
    (hops : I.ops = J.ops) (hcs : ∀ c, c ∈ I.cs ↔ c ∈ J.cs) (hfn : I.env.fn = J.env.fn)
    (k k' : Nat) (w : WS σ) (w' : WS τ) (t : WS.Run I.env I.start k w) (t' : WS.Run J.env J.start k' w')
    (hd : I.Done w) (hd' : J.Done w') (i x : Nat) :
    w.set.isPointingTo i x = w'.set.isPointingTo i x ∧ w.set.escaped i = w'.set.escaped i ∧ w.set.pte i = w'.set.pte i := by
  have a := C22_worklist I hI hhI k w t hd
  have b := C22_worklist J hJ hhJ k' w' t' hd'
  have b' : IsLeast I.problem w'.set.abs.sol := by
    unfold Input.problem at b ⊢
    rw [hops, hfn]
    exact ⟨b.1.congr fun c => (hcs c).symm, fun L hL => b.2 L (hL.congr hcs)⟩
  have u := a.unique b'
  have hq : ∀ (r : RSet), r.isPointingTo i x = true ↔ r.abs.sol.pt i x := by
    intro r; simp [RSet.isPointingTo, Abs.sol, RSet.abs]; exact Or.comm
  exact ⟨Bool.eq_iff_iff.2 (by rw [hq, hq]; exact u.1 i x), Bool.eq_iff_iff.2 (u.2.1 i), Bool.eq_iff_iff.2 (u.2.2 i)⟩

end Jlm.Llvm.Aa
