import Verif.Back.DestructSpec
import Verif.Front.CfgProps

/-!
# Executions of control flow graphs one three address code at a time
-/

namespace Jlm.Back

open Jlm.Opt Jlm.Front

variable {V : Type}

/-- Block, three address codes that are left, state. -/
abbrev Conf (V : Type) := Nat × List Tac × St V

def next (sem : Sem V) (truth : V → Bool) (B : Nat → Block) : Conf V → Option (Conf V)
  | (b, t :: r, s) => some (b, r, Front.step sem truth t s)
  | (b, [], s) => (goes (B b).succs s.ctl).map fun y => (y, (B y).code, enter (B y).phis b s)

def iter (sem : Sem V) (truth : V → Bool) (B : Nat → Block) : Nat → Conf V → Option (Conf V)
  | 0, c => some c
  | n + 1, c => (next sem truth B c).bind (iter sem truth B n)

variable {sem : Sem V} {truth : V → Bool} {B : Nat → Block}

theorem iter_add : ∀ (n k : Nat) (c : Conf V),
    iter sem truth B (n + k) c = (iter sem truth B n c).bind (iter sem truth B k)
  | 0, k, c => by simp [iter]
  | n + 1, k, c => by
    have : n + 1 + k = (n + k) + 1 := by omega
    rw [this, iter, iter]
    cases next sem truth B c with
    | none => rfl
    | some c' => exact iter_add n k c'

theorem iter_trans {n k : Nat} {c c' c'' : Conf V} (h : iter sem truth B n c = some c')
    (h' : iter sem truth B k c' = some c'') : iter sem truth B (n + k) c = some c'' := by
  rw [iter_add, h]; exact h'

theorem iter_code : ∀ (a r : List Tac) (b : Nat) (s : St V),
    iter sem truth B a.length (b, a ++ r, s) = some (b, r, steps sem truth a s)
  | [], r, b, s => rfl
  | t :: a, r, b, s => by
    simp only [List.length_cons, iter, List.cons_append, next, Option.bind_some]
    exact iter_code a r b _

theorem iter_jump {b y : Nat} {s : St V} (h : goes (B b).succs s.ctl = some y) :
    iter sem truth B 1 (b, [], s) = some (y, (B y).code, enter (B y).phis b s) := by
  simp [iter, next, h]

theorem iter_jump1 {b y : Nat} {s : St V} (h : (B b).succs = [y]) :
    iter sem truth B 1 (b, [], s) = some (y, (B y).code, enter (B y).phis b s) :=
  iter_jump (by rw [h]; rfl)

/-- Executions are deterministic. -/
theorem iter_ends {x k M : Nat} {c c' : Conf V} {s' : St V} (hx : (B x).succs = [])
    (h : iter sem truth B k c = some c') (he : iter sem truth B M c = some (x, [], s')) :
    k ≤ M ∧ iter sem truth B (M - k) c' = some (x, [], s') := by
  by_cases hk : k ≤ M
  · refine ⟨hk, ?_⟩
    have : M = k + (M - k) := by omega
    rw [this, iter_add, h] at he
    exact he
  · exfalso
    have : k = M + ((k - M - 1) + 1) := by omega
    rw [this, iter_add, he] at h
    simp [iter, next, hx, goes] at h

theorem iter_goes {x M b : Nat} {s s' : St V} (hx : (B x).succs = []) (hb : (B b).succs ≠ [])
    (he : iter sem truth B M (b, [], s) = some (x, [], s')) :
    ∃ y, goes (B b).succs s.ctl = some y := by
  cases M with
  | zero =>
    simp only [iter, Option.some.injEq, Prod.mk.injEq] at he
    exact absurd (he.1 ▸ hx) hb
  | succ M =>
    simp only [iter, next] at he
    cases h : goes (B b).succs s.ctl with
    | none => simp [h] at he
    | some y => exact ⟨y, rfl⟩

/-- The same executions as those of `Verif/Front/CfgSpec.lean`. -/
theorem exec_iff (C : PCfg) (hC : C.succs C.exit = []) (x : Nat) (s s' : St V) :
    C.Exec sem truth x s s' ↔
      ∃ M, iter sem truth (fun b => ⟨C.phis b, C.code b, C.succs b⟩) M (x, C.code x, s) = some (C.exit, [], s') := by
  constructor
  · intro h
    induction h with
    | @stop s => exact ⟨_, by simpa using iter_code (C.code C.exit) [] C.exit s⟩
    | @step x y s s' hx hg _ ih =>
      obtain ⟨M, hM⟩ := ih
      exact ⟨_, iter_trans (by simpa using iter_code (C.code x) [] x s) (iter_trans (iter_jump hg) hM)⟩
  · rintro ⟨M, hM⟩
    induction M using Nat.strongRecOn generalizing x s with
    | ind M ih =>
      have h1 := iter_code (sem := sem) (truth := truth) (B := fun b => ⟨C.phis b, C.code b, C.succs b⟩) (C.code x) [] x s
      rw [List.append_nil] at h1
      obtain ⟨hk, hM'⟩ := iter_ends (B := fun b => ⟨C.phis b, C.code b, C.succs b⟩) hC h1 hM
      by_cases hx : x = C.exit
      · subst hx
        cases hj : M - (C.code C.exit).length with
        | zero =>
          rw [hj] at hM'
          simp only [iter, Option.some.injEq, Prod.mk.injEq, true_and] at hM'
          exact .stop' rfl hM'.symm
        | succ j =>
          rw [hj] at hM'
          simp [iter, next, hC, goes] at hM'
      · cases hj : M - (C.code x).length with
        | zero =>
          rw [hj] at hM'
          simp only [iter, Option.some.injEq, Prod.mk.injEq, true_and] at hM'
          exact absurd hM'.1 hx
        | succ j =>
          rw [hj] at hM'
          simp only [iter, next] at hM'
          cases hg : goes (C.succs x) (steps sem truth (C.code x) s).ctl with
          | none => simp [hg] at hM'
          | some y =>
            rw [hg] at hM'
            exact .step hx hg (ih j (by omega) y _ hM')

end Jlm.Back
