import Verif.Scev.Model
import Mathlib.Tactic.Ring

/-!
# What chain recurrences mean

The specification of the theorems on scalar evolution. Values are elements of a commutative ring: the integers (no overflow), or
the integers modulo `2^n` (wrap-around).
-/

namespace Jlm.Scev

variable {R : Type} [CommRing R]

/-- The value of `{a,+,b,+,c,...}` in iteration `j`: the first operand in iteration 0, and from one iteration to the next it
grows by the value of `{b,+,c,...}`. -/
def cr : Nat → List R → R
  | 0, vs => vs.headD 0
  | j + 1, vs => cr j vs + cr j vs.tail

/-- An interpretation of the leaves. -/
structure Env (R : Type) where
  /-- the number of the current iteration of every loop -/
  it : Lp → Nat
  /-- values of the loop variables before the first iteration -/
  init : Out → R
  /-- values of the loop variables at the beginning of the current iteration -/
  ph : Out → R

mutual

/-- The value of a tree. Where it contains `unknown` the value means nothing. -/
def S.ev (e : Env R) : S → R
  | .unknown => 0
  | .init o => e.init o
  | .ph o => e.ph o
  | .const c => (c : R)
  | .add l r => l.ev e + r.ev e
  | .mul l r => l.ev e * r.ev e
  | .chrec k xs => cr (e.it k) (evs e xs)
  | .nadd xs => (evs e xs).sum
  | .nmul xs => (evs e xs).prod

def evs (e : Env R) : List S → List R
  | [] => []
  | x :: xs => x.ev e :: evs e xs

end

/-- The value of an expression, given the values of the loop variables; `opq` are the values of what the analysis does not look
at. -/
def Expr.eval (opq : Nat → (Out → R) → R) (x : Out → R) : Expr → R
  | .var o => x o
  | .const c => (c : R)
  | .add l r => l.eval opq x + r.eval opq x
  | .sub l r => l.eval opq x - r.eval opq x
  | .mul l r => l.eval opq x * r.eval opq x
  | .shl l k => l.eval opq x * 2 ^ k
  | .ext l => l.eval opq x
  | .other i => opq i x

/-- The values of the loop variables at the beginning of iteration `n`. -/
def Loop.run (lp : Loop) (opq : Nat → (Out → R) → R) (x₀ : Out → R) : Nat → Out → R
  | 0, o => x₀ o
  | n + 1, o => (lp.post o).eval opq (lp.run opq x₀ n)

/-- `v` does not occur in the expression. -/
def Expr.free (v : Out) : Expr → Prop
  | .var o => o ≠ v
  | .const _ => True
  | .add l r => l.free v ∧ r.free v
  | .sub l r => l.free v ∧ r.free v
  | .mul l r => l.free v ∧ r.free v
  | .shl l _ => l.free v
  | .ext l => l.free v
  | .other _ => True

/-- The expression is `v` plus or minus something in which `v` does not occur. -/
def Expr.increments (v : Out) : Expr → Prop
  | .var o => o = v
  | .add l r => (l.increments v ∧ r.free v) ∨ (l.free v ∧ r.increments v)
  | .sub l r => l.increments v ∧ r.free v
  | .ext l => l.increments v
  | _ => False

end Jlm.Scev
