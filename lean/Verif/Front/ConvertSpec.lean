import Verif.Front.ConvertModel

/-!
# What an aggregation tree computes

The specification of the conversion: an interpreter for aggregation trees that knows nothing of
annotations and of RVSDG. A state has the values of all variables and the alternative that the last branch
operation selected. Only terminating executions are described.
-/

namespace Jlm.Front

open Jlm.Opt

variable {V : Type}

structure St (V : Type) where
  env : Var → W V
  /-- the alternative that the last `BranchOperation` selected -/
  ctl : Option Nat

def set (env : Var → W V) (v : Var) (w : W V) : Var → W V := fun u => if u = v then w else env u

/-- One assignment after the other. -/
def setAll (env : Var → W V) : List Var → List (W V) → Var → W V
  | [], _ => env
  | v :: vs, ws => setAll (set env v (ws.headD none)) vs ws.tail

/-- The results of an operation: the same as those of a simple node of an RVSDG. -/
def opVals (sem : Sem V) (o : Op) (ws : List (W V)) : List (W V) :=
  if o.kind = .load then (lift (sem.apply o ws)).headD none :: ws.tail else lift (sem.apply o ws)

/-- The value of an undefined variable. -/
def undefVal (sem : Sem V) : W V := (lift (sem.apply undefOp [])).headD none

/-- The alternative that a control value selects. -/
def alternative (sem : Sem V) (w : W V) : Option Nat := w.map fun x => sem.ctl x.1

/-- A three address code: `truth` tells whether a condition is true. -/
def step (sem : Sem V) (truth : V → Bool) : Tac → St V → St V
  | .op o ins outs, s => ⟨setAll s.env outs (opVals sem o (ins.map s.env)), s.ctl⟩
  | .assign lhs rhs, s => ⟨set s.env lhs (s.env rhs), s.ctl⟩
  | .select c a b res, s =>
      ⟨set s.env res ((s.env c).bind fun x => if truth x.1 then s.env a else s.env b), s.ctl⟩
  | .branch v, s => ⟨s.env, alternative sem (s.env v)⟩

def steps (sem : Sem V) (truth : V → Bool) (ts : List Tac) (s : St V) : St V :=
  ts.foldl (fun s t => step sem truth t s) s

/-- Tail-controlled repetition: left when the branch at the end of the body selects alternative 0, repeated
when it selects alternative 1 (there are no others). -/
inductive Iter (R : St V → St V → Prop) : St V → St V → Prop
  | exit {s t : St V} : R s t → t.ctl = some 0 → Iter R s t
  | again {s t u : St V} : R s t → t.ctl = some 1 → Iter R t u → Iter R s u

mutual

/-- `Run a s s'`: the execution of `a` from `s` ends in `s'`. -/
def Run (sem : Sem V) (truth : V → Bool) : Agg → St V → St V → Prop
  | .block ts, s, s' => s' = steps sem truth ts s
  | .linear cs, s, s' => RunAll sem truth cs s s'
  | .branch cs, s, s' => ∃ k, s.ctl = some k ∧ RunCase sem truth cs k s s'
  | .loop b, s, s' => Iter (Run sem truth b) s s'

def RunAll (sem : Sem V) (truth : V → Bool) : Aggs → St V → St V → Prop
  | .nil, s, s' => s' = s
  | .cons c cs, s, s' => ∃ t, Run sem truth c s t ∧ RunAll sem truth cs t s'

def RunCase (sem : Sem V) (truth : V → Bool) : Aggs → Nat → St V → St V → Prop
  | .nil, _, _, _ => False
  | .cons c _, 0, s, s' => Run sem truth c s s'
  | .cons _ cs, k + 1, s, s' => RunCase sem truth cs k s s'

end

/-! ### Trees that aggregation produces -/

mutual

/-- The operand of the branch at the end of a block or of a linear node that ends with such a block. -/
def endsIn : Agg → Option Var
  | .block ts => branchVar ts
  | .linear cs => endsInList cs
  | .branch _ => none
  | .loop _ => none

def endsInList : Aggs → Option Var
  | .nil => none
  | .cons c .nil => endsIn c
  | .cons _ (.cons c' cs) => endsInList (.cons c' cs)

end

mutual

/-- A branch node comes directly after a node that ends in a branch (`prev`), and a loop body ends in a
branch: the assertions of CV:681 and CV:690, CV:806. -/
def wf : Agg → Option Var → Prop
  | .block _, _ => True
  | .linear cs, _ => wfList cs none
  | .branch cs, prev => prev.isSome ∧ wfCases cs
  | .loop b, _ => wf b none ∧ (endsIn b).isSome

def wfList : Aggs → Option Var → Prop
  | .nil, _ => True
  | .cons c cs, prev => wf c prev ∧ wfList cs (endsIn c)

def wfCases : Aggs → Prop
  | .nil => True
  | .cons c cs => wf c none ∧ wfCases cs

end

/-- A well-formed function. -/
def Fn.wf (f : Fn) : Prop := wfList f.body none

/-- The meaning of the match operation that a select is turned into: alternative 1 if the condition is
true, alternative 0 if it is false. -/
def SelectSem (sem : Sem V) (truth : V → Bool) : Prop :=
  ∀ w : W V, ((sem.apply selectMatch [w]).headD none).map sem.ctl = w.map fun y => if truth y.1 then 1 else 0

/-- The state in which the body of a function starts: the arguments have the values `ps`, a variable of
the outer region (a global or a function) has its value there, every other variable is undefined. -/
def initial (sem : Sem V) (f : Fn) (outer : VMap) (E : Env V) (ps : List (Option V)) : St V :=
  ⟨setAll (fun v => match outer v with | some o => E o | none => undefVal sem) f.args (lift ps), none⟩

/-- `f`, called with `ps`, returns `rs`. -/
def Returns (sem : Sem V) (truth : V → Bool) (f : Fn) (outer : VMap) (E : Env V) (ps rs : List (Option V)) :
    Prop :=
  ∃ s, RunAll sem truth f.body (initial sem f outer E ps) s ∧ rs = plain (f.results.map s.env)

end Jlm.Front
