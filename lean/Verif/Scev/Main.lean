import Verif.Scev.Step

/-! # C45: chain recurrences predict the values of loop variables -/

set_option linter.unusedSimpArgs false
set_option linter.unusedVariables false

namespace Jlm.Scev

variable {R : Type} [CommRing R]

/-- The start values: where the analysis has found a constant, the variable starts with it. -/
def Loop.starts (lp : Loop) (x₀ : Out → R) : Prop := ∀ (v : Out) (c : Int), lp.start v = some c → x₀ v = (c : R)

theorem chrecOf_good {lp : Loop} {opq : Nat → (Out → R) → R} {x₀ : Out → R} (hs : lp.starts x₀) {m : Chrecs}
    (hm : Good R m x₀ (lp.run opq x₀)) (n : Nat) (k : Lp) {v : Out} (hv : (lp.post v).increments v) :
    Good R (fun o => if o = v then some (lp.chrecOf n k m v) else m o) x₀ (lp.run opq x₀) := by
  obtain ⟨h1, h2⟩ := stepOf_inc hm n k v (scevOf (lp.post v)) (scevOf_inc v _ hv)
  refine ⟨?_, ?_⟩
  · intro o ws ho
    try dsimp only at ho
    split at ho
    · injection ho with ho
      subst ho
      refine ⟨?_, by simp [Loop.chrecOf]⟩
      simp only [Loop.chrecOf, flats, h1, Bool.and_true]
      split <;> rfl
    · exact hm.flat o ws ho
  · intro o ws ho hu e j he
    try dsimp only at ho
    split at ho
    · rename_i hov
      subst hov
      injection ho with ho
      subst ho
      simp only [Loop.chrecOf, isUnknowns, Bool.or_eq_false_iff] at hu
      obtain ⟨hc, h3⟩ := h2 hu.2
      simp only [Loop.chrecOf, evs]
      induction j with
      | zero =>
        cases hst : lp.start o with
        | none => simp [cr, Loop.run, S.ev, he]
        | some c => simp [cr, Loop.run, S.ev, hs o c hst]
      | succ j ih =>
        simp only [cr, List.tail_cons, Loop.run, ← ih]
        have h4 := h3 e ⟨e.it, e.init, lp.run opq x₀ j⟩ j he rfl
        rw [scevOf_ev opq _ _ hc] at h4
        exact h4.symm
    · exact hm.val o ws ho hu e j he

theorem analyze_good {lp : Loop} {opq : Nat → (Out → R) → R} {x₀ : Out → R} (hs : lp.starts x₀) (n : Nat) (k : Lp) :
    ∀ (order : List Out) (m : Chrecs), Good R m x₀ (lp.run opq x₀) → (∀ v ∈ order, (lp.post v).increments v) →
      Good R (lp.analyze n k order m) x₀ (lp.run opq x₀)
  | [], m, hm, _ => hm
  | v :: vs, m, hm, h => by
    simp only [Loop.analyze]
    exact analyze_good hs n k vs _ (chrecOf_good hs hm n k (h v (by simp))) fun w hw => h w (by simp [hw])

theorem chrecs_good {lp : Loop} {opq : Nat → (Out → R) → R} {x₀ : Out → R} (hs : lp.starts x₀) (n : Nat) (k : Lp) {order : List Out}
    (h : ∀ v ∈ order, (lp.post v).increments v) : Good R (lp.chrecs n k order) x₀ (lp.run opq x₀) := by
  have hg : Good R (lp.analyze n k order fun _ => none) x₀ (lp.run opq x₀) :=
    analyze_good hs n k order _ ⟨by simp, by simp⟩ h
  refine ⟨?_, ?_⟩
  · intro o ws ho
    simp only [Loop.chrecs] at ho
    split at ho
    · exact hg.flat o ws ho
    · split at ho
      · injection ho with ho
        subst ho
        simp [flats, S.flat]
      · exact absurd ho (by simp)
  · intro o ws ho hu
    simp only [Loop.chrecs] at ho
    split at ho
    · exact hg.val o ws ho hu
    · split at ho
      · injection ho with ho
        subst ho
        simp [isUnknowns, S.isUnknown] at hu
      · exact absurd ho (by simp)

/-- **C45** For every loop, all start values, every order of the variables and every meaning of the operations the analysis does
not look at: the chain recurrence of a loop variable, if it is known, is the value of the variable in every iteration. Missing:
the analysis also accepts variables that the body does not increment (`C45_reset_accepted`, `C45_geometric_accepted`); chain
recurrences across loops. -/
theorem C45_variable_partial (lp : Loop) (opq : Nat → (Out → R) → R) (x₀ : Out → R) (hs : lp.starts x₀) (n : Nat) (k : Lp)
    (order : List Out) (hinc : ∀ v ∈ order, (lp.post v).increments v) (v : Out) (ws : List S)
    (hv : lp.chrecs n k order v = some ws) (hu : isUnknowns ws = false) (e : Env R) (he : e.init = x₀) (j : Nat) :
    lp.run opq x₀ j v = cr j (evs e ws) :=
  (chrecs_good hs n k hinc).val v ws hv hu e j he

/-- **C45** The same for everything the body computes. -/
theorem C45_expression_partial (lp : Loop) (opq : Nat → (Out → R) → R) (x₀ : Out → R) (hs : lp.starts x₀) (n : Nat) (k : Lp)
    (order : List Out) (hinc : ∀ v ∈ order, (lp.post v).increments v) (out : Out) (x : Expr) (hx : x.free out)
    (hu : isUnknowns (lp.chrecOfExpr n k order out x) = false) (e : Env R) (he : e.init = x₀) (j : Nat) :
    x.eval opq (lp.run opq x₀ j) = cr j (evs e (lp.chrecOfExpr n k order out x)) := by
  obtain ⟨_, _, h3⟩ := stepOf_free (chrecs_good (opq := opq) hs n k hinc) n k out (scevOf x) (scevOf_free out x hx)
  obtain ⟨hc, hval⟩ := h3 hu
  rw [Loop.chrecOfExpr, hval e ⟨e.it, e.init, lp.run opq x₀ j⟩ j he rfl, scevOf_ev opq _ _ hc]

/-- **C45** Folding of a product of two chains of one loop: the result is the product in every iteration. -/
theorem C45_product (n : Nat) (k : Lp) (xs ys : List S) (hx : flats xs = true) (hy : flats ys = true) (hx0 : xs ≠ []) (hy0 : ys ≠ [])
    (hu : (mulFold n (.chrec k xs) (.chrec k ys)).isUnknown = false) (e : Env R) :
    (mulFold n (.chrec k xs) (.chrec k ys)).ev e = (S.chrec k xs).ev e * (S.chrec k ys).ev e := by
  cases n with
  | zero => simp [mulFold, S.isUnknown] at hu
  | succ n =>
    obtain ⟨h1, h2, h3, h4⟩ := prod_sound (R := R) n k xs ys hx hy hx0 hy0
    have hred : mulFold (n + 1) (.chrec k xs) (.chrec k ys) = .chrec k (prodFold n (k, xs) (k, ys)).2 := by
      simp [mulFold, h1]
    rw [hred] at hu ⊢
    simp only [S.isUnknown] at hu
    simp only [S.ev]
    exact (h4 hu).2.2 e _

/-- **C45** Folding of a sum: for all trees, chains of different loops included. -/
theorem C45_sum (n : Nat) (x y : S) (hx : x.good = true) (hy : y.good = true) (hu : (addFold n (some x) (some y)).isUnknown = false)
    (e : Env R) : (addFold n (some x) (some y)).ev e = x.ev e + y.ev e :=
  (addFold_sound (R := R) n e (some x) (some y) hx hy hu).2.2.2

/-! ## Examples -/

/-- `do { s = s + i * i; i = i + 1; p = p + 4 - k; k = k } while (...)` with `i` starting at 0. -/
def exLoop : Loop where
  vars := [0, 1, 2, 3]
  start v := if v = 0 then some 0 else if v = 3 then some 7 else none
  post v := match v with
    | 0 => .add (.var 0) (.const 1)
    | 1 => .add (.var 1) (.mul (.var 0) (.var 0))
    | 2 => .sub (.add (.var 2) (.const 4)) (.var 3)
    | v => .var v

example : (∀ v ∈ [0, 3, 1, 2], (exLoop.post v).increments v) ∧ (∀ v ∈ [0, 3, 1, 2], exLoop.canCreate v = true) := by
  refine ⟨by simp [exLoop, Expr.increments, Expr.free], by decide +kernel⟩

/-- The chain recurrences of the example: `{0,+,1}`, `{s,+,0,+,1,+,2}`, `{p,+,-3}`, `{7}`. -/
example : exLoop.chrecs 20 9 [0, 3, 1, 2] 0 = some [.const 0, .const 1] ∧
    exLoop.chrecs 20 9 [0, 3, 1, 2] 1 = some [.init 1, .const 0, .const 1, .const 2] ∧
    exLoop.chrecs 20 9 [0, 3, 1, 2] 2 = some [.init 2, .const (-3)] ∧ exLoop.chrecs 20 9 [0, 3, 1, 2] 3 = some [.const 7] := by
  refine ⟨?_, ?_, ?_, ?_⟩ <;> rfl

/-- The sum of the squares, for all starting values and iterations. -/
example (x₀ : Out → Int) (h0 : x₀ 0 = 0) (h3 : x₀ 3 = 7) (j : Nat) :
    exLoop.run (fun _ _ => 0) x₀ j 1 = cr j [x₀ 1, 0, 1, 2] := by
  have := C45_variable_partial exLoop (fun _ _ => 0) x₀ (by
      intro v c hc
      simp only [exLoop] at hc
      split at hc
      · injection hc with hc; subst hc; rename_i h; subst h; exact h0
      · split at hc
        · injection hc with hc; subst hc; rename_i h; subst h; exact h3
        · simp at hc)
    20 9 [0, 3, 1, 2] (by simp [exLoop, Expr.increments, Expr.free]) 1 [.init 1, .const 0, .const 1, .const 2] rfl rfl
    ⟨fun _ => 0, x₀, fun _ => 0⟩ rfl j
  simpa [evs, S.ev] using this

/-- `do { x = 5 } while (...)` -/
def exReset : Loop where
  vars := [0]
  start _ := some 0
  post _ := .const 5

/-- The analysis accepts a variable that is overwritten: `x = 5` gets the chain `{0,+,5}`. -/
theorem C45_reset_accepted : exReset.canCreate 0 = true ∧ exReset.chrecs 9 0 [0] 0 = some [.const 0, .const 5] ∧
    exReset.starts (fun _ => (0 : Int)) ∧ exReset.run (fun _ _ => 0) (fun _ => (0 : Int)) 2 0 = 5 ∧ cr 2 [(0 : Int), 5] = 10 := by
  refine ⟨by decide +kernel, rfl, ?_, by decide, by decide⟩
  intro v c hc
  have hc' : (0 : Int) = c := by simpa [exReset] using hc
  subst hc'
  rfl

/-- `do { x = (x + 1) * 2 } while (...)` -/
def exGeo : Loop where
  vars := [0]
  start _ := some 1
  post _ := .mul (.add (.var 0) (.const 1)) (.const 2)

/-- Only the innermost operation around the variable is looked at: `x = (x + 1) * 2` gets the chain `{1,+,2}`. -/
theorem C45_geometric_accepted : exGeo.canCreate 0 = true ∧ exGeo.chrecs 9 0 [0] 0 = some [.const 1, .const 2] ∧
    exGeo.starts (fun _ => (1 : Int)) ∧ exGeo.run (fun _ _ => 0) (fun _ => (1 : Int)) 1 0 = 4 ∧ cr 1 [(1 : Int), 2] = 3 := by
  refine ⟨by decide +kernel, rfl, ?_, by decide, by decide⟩
  intro v c hc
  have hc' : (1 : Int) = c := by simpa [exGeo] using hc
  subst hc'
  simp

/-- The product of a chain whose step is a chain of another loop: for `{0,+,{0,+,1}<1>}<0>` squared the recurrence of the inner loop
is taken as the step, and the result is wrong. Loop 0 in iteration 2, loop 1 in iteration 1. -/
theorem C45_nested_product : ∃ e : Env Int, ∃ x : S, x.good = true ∧ (mulFold 12 x x).isUnknown = false ∧ (mulFold 12 x x).ev e ≠ x.ev e * x.ev e := by
  refine ⟨⟨fun l => if l = 0 then 2 else 1, fun _ => 0, fun _ => 0⟩, .chrec 0 [.const 0, .chrec 1 [.const 0, .const 1]], ?_, ?_, ?_⟩
  · decide +kernel
  · decide +kernel
  · decide +kernel

end Jlm.Scev
