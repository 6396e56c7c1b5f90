import Verif.Scev.LsrModel
import Verif.Scev.Spec

/-!
# What loops do

The specification of the theorems on loop strength reduction. The loops before and after the transformation are run by the same
function `exec`.
-/

namespace Jlm.Scev.Lsr

open Jlm.Scev

variable {R M Var E : Type}

/-- The meaning of the nodes the analysis does not look at. `M` is everything else in the program, memory included. -/
structure Ops (R M : Type) where
  /-- the value of node `i`, given the rest of the program at the beginning of the iteration and the operands of all nodes -/
  res : Nat → M → (Nat → List R) → R
  /-- what the nodes do to the rest of the program, given their operands -/
  effect : M → (Nat → List R) → M
  /-- which values of the predicate lead to another iteration -/
  again : R → Bool

/-- How expressions are evaluated, given the values of the nodes that are not looked at and the values of the variables. -/
abbrev Eval (R Var E : Type) := (Nat → R) → (Var → R) → E → R

/-- The values of the nodes that are not looked at; `d` is how deep they depend on each other. -/
def nodes (ops : Ops R M) (ev : Eval R Var E) (b : Body Var E) (m : M) (x : Var → R) : Nat → Nat → R
  | 0, i => ops.res i m fun _ => []
  | d + 1, i => ops.res i m fun a => (b.args a).map (ev (nodes ops ev b m x d) x)

/-- The operands of the nodes that are not looked at. -/
def operands (ops : Ops R M) (ev : Eval R Var E) (b : Body Var E) (d : Nat) (m : M) (x : Var → R) (i : Nat) : List R :=
  (b.args i).map (ev (nodes ops ev b m x d) x)

/-- One iteration. -/
def iter (ops : Ops R M) (ev : Eval R Var E) (b : Body Var E) (d : Nat) (s : (Var → R) × M) : (Var → R) × M :=
  (fun v => ev (nodes ops ev b s.2 s.1 d) s.1 (b.post v), ops.effect s.2 (operands ops ev b d s.2 s.1))

/-- Is there another iteration? -/
def more (ops : Ops R M) (ev : Eval R Var E) (b : Body Var E) (d : Nat) (s : (Var → R) × M) : Bool :=
  ops.again (ev (nodes ops ev b s.2 s.1 d) s.1 b.pred)

/-- The state at the beginning of iteration `j` (if the loop gets that far). -/
def states (ops : Ops R M) (ev : Eval R Var E) (b : Body Var E) (d : Nat) (s : (Var → R) × M) : Nat → (Var → R) × M
  | 0 => s
  | j + 1 => iter ops ev b d (states ops ev b d s j)

/-- The state after the loop, if it ends after at most `N` iterations. -/
def exec (ops : Ops R M) (ev : Eval R Var E) (b : Body Var E) (d : Nat) : Nat → (Var → R) × M → Option ((Var → R) × M)
  | 0, _ => none
  | N + 1, s => if more ops ev b d s then exec ops ev b d N (iter ops ev b d s) else some (iter ops ev b d s)

section
variable [CommRing R]

/-- Evaluation of expressions of the old loop. -/
def ev : Eval R Out Expr := fun ns x e => e.eval (fun i _ => ns i) x

/-- Evaluation of expressions of the new loop. -/
def nev (ns : Nat → R) (x : V → R) : NE → R
  | .var v => x v
  | .const c => (c : R)
  | .add l r => nev ns x l + nev ns x r
  | .sub l r => nev ns x l - nev ns x r
  | .mul l r => nev ns x l * nev ns x r
  | .shl l k => nev ns x l * 2 ^ k
  | .ext l => nev ns x l
  | .other i => ns i

/-- Evaluation in front of the loop. -/
def Hexp.eval (x₀ : Out → R) : Hexp → R
  | .const c => (c : R)
  | .start o => x₀ o
  | .add l r => l.eval x₀ + r.eval x₀
  | .mul l r => l.eval x₀ * r.eval x₀

/-- The start values of the new loop. -/
def Ctx.newStart (c : Ctx) (x₀ : Out → R) : V → R
  | .old o => x₀ o
  | .iv e =>
    match planOf (c.chrec e) with
    | some p => p.start.eval x₀
    | none => 0
  | .step e =>
    match planOf (c.chrec e) with
    | some ⟨_, .hoisted h⟩ => h.eval x₀
    | _ => 0

end

/-- No expression of the body is called `out`. -/
def Ctx.fresh (c : Ctx) : Prop :=
  (∀ o : Out, (c.lp.post o).free c.out) ∧ (∀ (i : Nat) (e : Expr), e ∈ c.args i → e.free c.out) ∧ c.pred.free c.out

end Jlm.Scev.Lsr
