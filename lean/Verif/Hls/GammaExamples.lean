import Verif.Hls.GammaOnly
set_option linter.unusedSimpArgs false
/-
C63: nested gammas, one of them with a loop.
-/
namespace Jlm.Hls.Gam.Ex

/-- values are numbers; operation 0 adds, operation 1 doubles, operation 2 is the constant 7 -/
def I : Interp Nat where
  dflt := 0
  fn f l := match f with
    | 0 => l.sum
    | 1 => 2 * l.sum
    | _ => 7
  ctl k v := v % k
  ctl_lt := fun _ _ h => Nat.mod_lt _ h

/-- the inner gamma: arguments `p`, `x`; alternative 0 gives `x + x`, alternative 1 the constant -/
def inner : Node := .gamma 0 [1] false 1
  (.cons (.cons (.op 0 false [0, 0]) (.nil [1])) (.cons (.cons (.op 2 false []) (.nil [1])) .nil))

/-- the outer gamma is not speculated because of the loop: alternative 0 holds the inner gamma, alternative 1 a loop -/
def outer : Nodes := .cons (.gamma 0 [1, 2] false 1
    (.cons (.cons inner (.nil [2])) (.cons (.cons (.op 1 true [1]) (.nil [2])) .nil))) (.nil [3])

theorem wf : outer.wf 3 1 := by
  refine ⟨1, ⟨by decide, by decide, rfl, by decide, ?_, ?_, trivial⟩, by decide, rfl⟩
  · exact ⟨1, ⟨by decide, by decide, rfl, by decide, ⟨1, ⟨by decide, rfl⟩, by decide, rfl⟩, ⟨1, ⟨by decide, rfl⟩, by decide, rfl⟩, trivial⟩, by decide, rfl⟩
  · exact ⟨1, ⟨by decide, rfl⟩, by decide, rfl⟩

/-- instance `i`: predicate `i`, `x = 10 i`, `y = i` -/
def vals (i : Nat) : List Nat := [i, 10 * i, i]

noncomputable def ss : List (Stream Nat) := [fun i => some i, fun i => some (10 * i), fun i => some i]

theorem count_true (i : Nat) : count (fun _ => true) i = i := by
  induction i with
  | zero => rfl
  | succ i ih => show count _ i + 1 = _; rw [ih]

theorem reps : Reps I (fun _ => true) vals ss [0, 1, 2] where
  length := fun _ => rfl
  lt := by
    intro j hj
    match j, hj with
    | 0, _ | 1, _ | 2, _ => decide
  rep := by
    intro j hj i _
    rw [count_true]
    match j, hj with
    | 0, _ | 1, _ | 2, _ => rfl

/-- the hypotheses are met; the outer gamma becomes branches and a mux, the inner one a discarding mux only -/
theorem ex_convert : Reps I (fun _ => true) (fun i => outer.eval I (vals i)) (run I (outer.convert [0, 1, 2] ss.length).1 ss) (outer.convert [0, 1, 2] ss.length).2 :=
  (C63_convert I outer 1 _ vals ss [0, 1, 2] wf reps).1

theorem onlys : Onlys (fun _ => true) ss [true, true, true] [0, 1, 2] where
  len := rfl
  lt := reps.lt
  only := fun _ _ _ j _ => ⟨j, rfl, count_true j⟩

/-- the result has one token per instance, although the inner gamma holds a constant -/
theorem ex_only : Onlys (fun _ => true) (run I (outer.convert [0, 1, 2] ss.length).1 ss) (flags (outer.convert [0, 1, 2] ss.length).1 [true, true, true])
    (outer.convert [0, 1, 2] ss.length).2 := (C63_convert I outer 1 _ vals ss [0, 1, 2] wf reps).2 _ onlys

theorem ex_flags : flags (outer.convert [0, 1, 2] 3).1 [true, true, true] =
    [true, true, true, true, true, true, false, true, true, true, true, true] := by decide +kernel

theorem ex_nodes : (outer.convert [0, 1, 2] 3).1 = [.branch 2 0 0 1, .branch 2 0 0 2, .op 0 [4, 4], .op 2 [], .mux true 3 [5, 6],
    .branch 2 1 0 1, .branch 2 1 0 2, .op 1 [9], .mux false 0 [7, 10]] ∧ (outer.convert [0, 1, 2] 3).2 = [11] := ⟨rfl, rfl⟩

theorem ex_values : outer.eval I (vals 4) = [8] ∧ outer.eval I (vals 3) = [6] ∧ inner.eval I [1, 5] = [7] := by decide +kernel

theorem ex_speculate : inner.canSpeculate = true ∧ outer.canSpeculate = false := by decide

end Jlm.Hls.Gam.Ex
