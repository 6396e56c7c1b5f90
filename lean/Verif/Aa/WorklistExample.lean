import Verif.Aa.SccSpec
/-
A concrete input of the worklist solver that meets the hypotheses of C22: lazy and hybrid cycle
detection, difference propagation and implicit pointees, on a problem with a cycle.
-/
namespace Jlm.Llvm.Aa

/-- the policy that pops the smallest item -/
def popFirst {σ : Type} (env : Env σ) (n : Nat) (w : WS σ) : WS σ :=
  match (List.range n).find? w.wl with
  | none => w
  | some i => WS.handle env i { w with wl := upd w.wl i false }

def popMany {σ : Type} (env : Env σ) (n : Nat) : Nat → WS σ → WS σ
  | 0, w => w
  | k + 1, w => popMany env n k (popFirst env n w)

theorem popMany_run {σ : Type} (env : Env σ) (n : Nat) (w0 : WS σ) : ∀ (k : Nat) {j : Nat} {w : WS σ}, WS.Run env w0 j w →
    ∃ j', WS.Run env w0 j' (popMany env n k w)
  | 0, j, w, h => ⟨j, h⟩
  | k + 1, j, w, h => by
    unfold popMany popFirst
    cases hf : (List.range n).find? w.wl with
    | none => exact popMany_run env n w0 k h
    | some i => exact popMany_run env n w0 k (h.step (.pop i (List.find?_some hf)))

/-- registers 2 and 6 are in a cycle of superset constraints; all pointees of register 0 are in a
cycle with register 2 through loads and stores -/
def exWl : Input (List (Nat × Nat)) where
  ops := exOps
  cs := [.store 0 1, .load 2 0, .store 0 2, .superset 2 6, .superset 6 2, .call 8 ⟨[some 0, none], []⟩]
  env := { opts := ⟨false, true, true, true, true⟩, fn := exFn, en := fun _ l => l, det := Lcd.det fun _ l => l }
  fns := [5]
  ref := fun i => if i = 0 then some 2 else none
  det := []
  cycles := []

theorem exWl_ok : exWl.Ok where
  ops := exOps_ok
  inRange := by
    constructor
    · intro c hc
      simp [exWl, Input.problem] at hc
      rcases hc with rfl | rfl | rfl | rfl | rfl | rfl <;>
        simp [Constraint.InRange, Call.InRange, exWl, Input.problem, exOps, Abs.run, Abs.step, Abs.empty]
    · exact exInRange.fn
  fns := exFnsOk
  det := C22_lcd _ _ (fun _ _ => .refl _) rfl
  en := fun _ _ _ => Iff.rfl
  ref := by
    intro i a h
    simp only [exWl] at h
    split at h
    · cases h; simp [Input.n, exWl, exOps, Abs.run, Abs.step, Abs.empty]
    · cases h
  cyclesLt := by simp [exWl]
  cycles := by simp [exWl]

theorem exWl_hybrid : exWl.HybridOk := by
  intro _ L hL i a h x hx
  simp only [exWl] at h
  split at h
  · cases h
    rename_i hi
    subst hi
    have h1 := hL.cs (.load 2 0) (by simp [exWl, Input.problem])
    have h2 := hL.cs (.store 0 2) (by simp [exWl, Input.problem])
    exact ⟨h2.1 x hx, h1.1 x hx⟩
  · cases h

/-- after 40 work items the worklist is empty; registers 2 and 6 and the alloca 3 are unified -/
theorem C22_example :
    (let w := popMany exWl.env 9 40 exWl.start
     ((List.range 9).map w.wl, [w.set.root 2 == w.set.root 6, w.set.root 2 == w.set.root 3, w.set.root 0 == w.set.root 1],
      [w.set.isPointingTo 2 4, w.set.escaped 3, w.set.escaped 4, w.set.pte 2, w.set.pte 1, w.set.escaped 5, w.set.isPointingTo 6 3])) =
    (List.replicate 9 false, [true, true, false], [true, true, true, true, false, false, true]) := by
  decide +kernel

end Jlm.Llvm.Aa
