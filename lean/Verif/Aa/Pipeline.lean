import Verif.Aa.OvsExamples
set_option linter.unusedVariables false
/-
C31: the whole pipeline of `Andersen::SolveConstraints` (Andersen.cpp): offline variable
substitution, normalization of the constraints, then a worklist solver.
-/
namespace Jlm.Llvm.Aa
open Jlm.Util
variable {σ : Type}

/-- `J` is what the worklist solver is given after substitution (with result `o`) and normalization -/
structure AfterOffline (ops : List POp) (I : Ovs.In) (o : Ovs.Out) (J : Input σ) : Prop where
  ops : J.ops = ops ++ unifyOps o.pairs
  cs : J.cs = normalize o.set I.cs
  fn : J.env.fn = I.fn
  fns : J.fns = I.fns
  ref : J.ref = o.ref

/-- the problem of the solver has the same solutions as the one before normalization -/
theorem AfterOffline.sat_iff {ops : List POp} {I : Ovs.In} {o : Ovs.Out} {J : Input σ} (h : AfterOffline ops I o J)
    (ho : o.set = RSet.empty.run (ops ++ unifyOps o.pairs)) (hok : Abs.empty.OkAll (ops ++ unifyOps o.pairs)) (L : Sol) :
    Sat J.problem L ↔ Sat ⟨Abs.empty.run (ops ++ unifyOps o.pairs), I.cs, I.fn⟩ L := by
  unfold Input.problem
  rw [h.ops, h.cs, h.fn]
  have ha := abs_run_empty _ hok
  rw [← ho] at ha
  rw [← ha]
  obtain ⟨_, _, hrel, _⟩ := run_rel _ rel_empty (by rw [abs_empty]; exact hok)
  rw [← ho] at hrel
  exact C23_normalize o.set hrel.wf.idem I.cs I.fn L

/-- **C31, soundness**: substitution, normalization and any worklist solver, also with hybrid cycle
detection, give a solution that satisfies the constraints of the caller. Hence it contains
everything that `SolveNaively` finds. -/
theorem C31_pipeline_sound (ops : List POp) (hok : Abs.empty.OkAll ops) (I : Ovs.In)
    (hr : (Problem.mk (Abs.empty.run ops) I.cs I.fn).InRange) :
    ∃ o, Ovs.perform (RSet.empty.run ops) I = some o ∧
      ∀ (J : Input σ), AfterOffline ops I o J → J.Ok → ∀ k w, WS.Run J.env J.start k w → J.Done w →
        Sat ⟨Abs.empty.run ops, I.cs, I.fn⟩ w.set.abs.sol := by
  obtain ⟨o, h1, h2, h3, _, h4⟩ := C23_ovs_sound ops hok I hr
  refine ⟨o, h1, fun J hJ hJok k w t hd => ?_⟩
  exact h4 _ ((hJ.sat_iff h2 h3 _).1 (C22_sound J hJok k w t hd))

/-- **C31, exactness**: without hybrid cycle detection, and when substitution is exact, the pipeline
computes the least solution of the constraints of the caller. -/
theorem C31_pipeline_exact_partial (ops : List POp) (hok : Abs.empty.OkAll ops) (hu : ∀ a b, .unify a b ∉ ops) (I : Ovs.In)
    (hr : (Problem.mk (Abs.empty.run ops) I.cs I.fn).InRange) (hf : FnsOk ⟨Abs.empty.run ops, I.cs, I.fn⟩ I.fns)
    (hregs : ∀ i ∈ I.regs, i < (Abs.empty.run ops).n ∧ (Abs.empty.run ops).kind i = .register)
    (hflag : ∀ i ∈ I.regs, (Abs.empty.run ops).pte i → ∃ x, (Abs.empty.run ops).pts i x)
    (hlive : ∀ K, IsLeast ⟨Abs.empty.run ops, I.cs, I.fn⟩ K → ∀ p v, .store p v ∈ I.cs → (∃ x, K.pt p x) ∨ K.ext p) :
    ∃ o, Ovs.perform (RSet.empty.run ops) I = some o ∧
      ∀ (J : Input σ), AfterOffline ops I o J → J.Ok → J.env.opts.hcd = false → ∀ k w, WS.Run J.env J.start k w → J.Done w →
        IsLeast ⟨Abs.empty.run ops, I.cs, I.fn⟩ w.set.abs.sol := by
  obtain ⟨o, h1, h2, h3, _, h4⟩ := C23_ovs_sound ops hok I hr
  obtain ⟨o', e1, e2, e3⟩ := C23_ovs_exact_partial ops hok hu I hr hf hregs hflag hlive
  rw [h1] at e1; cases e1
  refine ⟨o, h1, fun J hJ hJok hc k w t hd => ?_⟩
  refine (e3 _).1 ?_
  have := C22_worklist J hJok (fun h => by rw [hc] at h; cases h) k w t hd
  exact ⟨(hJ.sat_iff h2 h3 _).1 this.1, fun L hL => this.2 L ((hJ.sat_iff h2 h3 _).2 hL)⟩


theorem unifyOps_n : ∀ (l : List (Nat × Nat)) (A : Abs), (A.run (unifyOps l)).n = A.n ∧ (A.run (unifyOps l)).kind = A.kind
  | [], _ => ⟨rfl, rfl⟩
  | _ :: l, _ => unifyOps_n l _

/-- the input of the solver is always legal when its cycle detector and its enumeration are -/
theorem C31_pipeline_runs (ops : List POp) (hok : Abs.empty.OkAll ops) (I : Ovs.In)
    (hr : (Problem.mk (Abs.empty.run ops) I.cs I.fn).InRange) (hf : FnsOk ⟨Abs.empty.run ops, I.cs, I.fn⟩ I.fns) :
    ∃ o, Ovs.perform (RSet.empty.run ops) I = some o ∧
      ∀ (J : Input σ), AfterOffline ops I o J → WS.DetOk J.env → WS.EnOk J.env → J.cycles = [] → J.Ok := by
  obtain ⟨o, h1, h2, h3, h4, h5⟩ := C23_ovs_sound ops hok I hr
  refine ⟨o, h1, fun J hJ hd he hc => ?_⟩
  have hn : (Abs.empty.run (ops ++ unifyOps o.pairs)).n = (Abs.empty.run ops).n := by rw [Abs.run_append]; exact (unifyOps_n _ _).1
  have hk : (Abs.empty.run (ops ++ unifyOps o.pairs)).kind = (Abs.empty.run ops).kind := by rw [Abs.run_append]; exact (unifyOps_n _ _).2
  have hJn : J.n = (Abs.empty.run ops).n := by unfold Input.n; rw [hJ.ops]; exact hn
  have hJk : J.problem.base.kind = (Abs.empty.run ops).kind := by unfold Input.problem; rw [hJ.ops]; exact hk
  obtain ⟨_, _, hrel, _⟩ := run_rel _ rel_empty (by rw [abs_empty]; exact h3)
  rw [← h2] at hrel
  have hsn : o.set.n = (Abs.empty.run ops).n := by
    have := abs_run_empty _ h3
    rw [← h2] at this
    rw [← hn, ← this]; rfl
  have hlt : ∀ i, i < (Abs.empty.run ops).n → o.set.root i < (Abs.empty.run ops).n := by rw [← hsn]; exact hrel.wf.lt
  refine ⟨by rw [hJ.ops]; exact h3, ⟨?_, ?_⟩, ?_, hd, he, ?_, by simp [hc], by simp [hc]⟩
  · intro c hcm
    have hcm : c ∈ J.cs := hcm
    rw [hJ.cs] at hcm
    obtain ⟨d, hd, rfl, _⟩ := mem_normalize.1 hcm
    have := hr.cs d hd
    show Constraint.InRange J.n _
    rw [hJn]
    cases d with
    | superset a b => exact ⟨hlt a this.1, hlt b this.2⟩
    | store a b => exact ⟨hlt a this.1, hlt b this.2⟩
    | load a b => exact ⟨hlt a this.1, hlt b this.2⟩
    | call p c => exact ⟨hlt p this.1, this.2⟩
  · intro f hfl hfk
    have hfl : f < J.n := hfl
    rw [hJn] at hfl
    rw [hJk] at hfk
    show Fn.InRange J.n (J.env.fn f)
    rw [hJn, hJ.fn]
    exact hr.fn f hfl hfk
  · intro f
    rw [hJ.fns, hf f]
    show _ ↔ f < J.n ∧ J.problem.base.kind f = .function
    rw [hJn, hJk]
  · intro i a e
    rw [hJ.ref] at e
    rw [hJn]
    exact h4 i a e

end Jlm.Llvm.Aa
