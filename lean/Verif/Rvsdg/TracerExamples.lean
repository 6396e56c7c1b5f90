import Verif.Rvsdg.TracerTheorems

/-!
# Examples and counterexamples for the output tracer
-/

set_option linter.unusedSimpArgs false
set_option linter.unusedVariables false

namespace Jlm.Rvsdg.Tracer

instance {ε α : Type} [DecidableEq ε] [DecidableEq α] : DecidableEq (Except ε α)
  | .error a, .error b => if h : a = b then isTrue (by rw [h]) else isFalse (by intro e; injection e; contradiction)
  | .ok a, .ok b => if h : a = b then isTrue (by rw [h]) else isFalse (by intro e; injection e; contradiction)
  | .error _, .ok _ => isFalse (by intro e; cases e)
  | .ok _, .error _ => isFalse (by intro e; cases e)

namespace Ex

/-- A function (node 0) with one parameter and one context variable, in it a loop (node 1) over both, in the loop a gamma node (node 2)
that gives back the first loop variable in both branches, in the second one through a barrier (node 4). -/
def G : Graph where
  kind n := match n with
    | 0 => .lambda 1
    | 1 => .theta
    | 2 => .gamma
    | 4 => .simple .barrier
    | _ => .simple .other
  region n := match n with
    | 1 => some (0, 0)
    | 2 | 3 => some (1, 0)
    | 4 => some (2, 1)
    | _ => none
  origin n i := match n, i with
    | 0, _ => .arg none 0
    | 1, 0 => .arg (some (0, 0)) 0
    | 1, _ => .arg (some (0, 0)) 1
    | 2, 0 => .out 3 0
    | 2, _ => .arg (some (1, 0)) 0
    | _, 0 => .arg (some (2, 1)) 2
    | _, _ => .arg (some (2, 1)) 1
  result r i := match r, i with
    | some (0, _), _ => .out 1 0
    | some (1, _), 0 => .out 3 0
    | some (1, _), 1 => .out 2 0
    | some (1, _), _ => .arg (some (1, 0)) 1
    | some (2, 0), _ => .arg (some (2, 0)) 1
    | some (2, _), _ => .out 4 0
    | _, _ => .arg none 0
  nin n := match n with
    | 0 => 1
    | 1 => 2
    | 2 => 3
    | 4 => 2
    | _ => 0
  nout n := match n with
    | 0 => 1
    | 1 => 2
    | 2 => 1
    | 3 => 1
    | 4 => 1
    | _ => 0
  nsub n := match n with
    | 0 => 1
    | 1 => 1
    | 2 => 2
    | _ => 0
  narg r := match r with
    | none => 1
    | some (0, _) => 2
    | some (1, _) => 2
    | some (2, _) => 3
    | _ => 0
  nres r := match r with
    | some (0, _) => 1
    | some (1, _) => 3
    | some (2, _) => 1
    | _ => 0
  isMem _ := false

def rank : Out → Nat
  | .arg none _ => 0
  | .arg (some (0, _)) _ => 1
  | .arg (some (1, _)) _ => 2
  | .out 3 _ => 3
  | .arg (some (2, _)) _ => 4
  | .out 4 _ => 5
  | .out 2 _ => 6
  | .out 1 _ => 7
  | .out 0 _ => 8
  | _ => 9

def depth : Rg → Nat
  | none => 0
  | some (0, _) => 1
  | some (1, _) => 2
  | some (2, _) => 3
  | some (4, _) => 4
  | some (3, _) => 3
  | some _ => 1

theorem kind_cases {n : Nd} {k : Kind} (h : G.kind n = k) :
    (n = 0 ∧ k = .lambda 1) ∨ (n = 1 ∧ k = .theta) ∨ (n = 2 ∧ k = .gamma) ∨ (n = 4 ∧ k = .simple .barrier) ∨
      (n ≠ 0 ∧ n ≠ 1 ∧ n ≠ 2 ∧ n ≠ 4 ∧ k = .simple .other) := by
  subst h
  match n with
  | 0 => exact Or.inl ⟨rfl, rfl⟩
  | 1 => exact Or.inr (Or.inl ⟨rfl, rfl⟩)
  | 2 => exact Or.inr (Or.inr (Or.inl ⟨rfl, rfl⟩))
  | 3 => exact Or.inr (Or.inr (Or.inr (Or.inr ⟨by decide, by decide, by decide, by decide, rfl⟩)))
  | 4 => exact Or.inr (Or.inr (Or.inr (Or.inl ⟨rfl, rfl⟩)))
  | n + 5 => exact Or.inr (Or.inr (Or.inr (Or.inr ⟨by simp, by simp, by simp, by simp, rfl⟩)))

theorem lt1 {j : Nat} (h : j < 1) : j = 0 := by omega
theorem lt2 {j : Nat} (h : j < 2) : j = 0 ∨ j = 1 := by omega
theorem lt3 {j : Nat} (h : j < 3) : j = 0 ∨ j = 1 ∨ j = 2 := by omega

theorem wf : G.Wf rank depth where
  depth n k := by
    match n with
    | 0 => rfl
    | 1 => rfl
    | 2 => rfl
    | 3 => rfl
    | 4 => rfl
    | n + 5 => rfl
  origin n j h := by
    match n with
    | 0 => exact ⟨by show (0 : Nat) < 1; omega, rfl⟩
    | 1 => rcases lt2 h with rfl | rfl <;> exact ⟨by constructor <;> decide, rfl⟩
    | 2 =>
        rcases lt3 h with rfl | rfl | rfl
        · exact ⟨by show (0 : Nat) < 1; omega, rfl⟩
        · exact ⟨by constructor <;> decide, rfl⟩
        · exact ⟨by constructor <;> decide, rfl⟩
    | 3 => exact absurd h (Nat.not_lt_zero _)
    | 4 => rcases lt2 h with rfl | rfl <;> exact ⟨by constructor <;> decide, rfl⟩
    | n + 5 => exact absurd h (Nat.not_lt_zero _)
  result n k j hk h := by
    match n with
    | 0 => obtain rfl := lt1 hk; obtain rfl := lt1 h; exact ⟨by show (0 : Nat) < 2; omega, rfl⟩
    | 1 =>
        obtain rfl := lt1 hk
        rcases lt3 h with rfl | rfl | rfl
        · exact ⟨by show (0 : Nat) < 1; omega, rfl⟩
        · exact ⟨by show (0 : Nat) < 1; omega, rfl⟩
        · exact ⟨by constructor <;> decide, rfl⟩
    | 2 =>
        obtain rfl := lt1 h
        rcases lt2 hk with rfl | rfl
        · exact ⟨by constructor <;> decide, rfl⟩
        · exact ⟨by show (0 : Nat) < 1; omega, rfl⟩
    | 3 => exact absurd hk (Nat.not_lt_zero _)
    | 4 => exact absurd hk (Nat.not_lt_zero _)
    | n + 5 => exact absurd hk (Nat.not_lt_zero _)
  rankOut n x j hx h := by
    match n with
    | 0 => obtain rfl := lt1 hx; obtain rfl := lt1 h; decide
    | 1 => rcases lt2 hx with rfl | rfl <;> rcases lt2 h with rfl | rfl <;> decide
    | 2 => obtain rfl := lt1 hx; rcases lt3 h with rfl | rfl | rfl <;> decide
    | 3 => exact absurd h (Nat.not_lt_zero _)
    | 4 => obtain rfl := lt1 hx; rcases lt2 h with rfl | rfl <;> decide
    | n + 5 => exact absurd h (Nat.not_lt_zero _)
  rankArg n k a j hk ha h := by
    match n with
    | 0 => obtain rfl := lt1 h; show (0 : Nat) < 1; omega
    | 1 => rcases lt2 h with rfl | rfl <;> (show (1 : Nat) < 2; omega)
    | 2 =>
        rcases lt3 h with rfl | rfl | rfl
        · show (3 : Nat) < 4; omega
        · show (2 : Nat) < 4; omega
        · show (2 : Nat) < 4; omega
    | 3 => exact absurd h (Nat.not_lt_zero _)
    | 4 => exact absurd hk (Nat.not_lt_zero _)
    | n + 5 => exact absurd h (Nat.not_lt_zero _)
  rankResult n k x j hk hx h := by
    match n with
    | 0 => obtain rfl := lt1 hx; obtain rfl := lt1 h; obtain rfl := lt1 hk; decide
    | 1 => obtain rfl := lt1 hk; rcases lt2 hx with rfl | rfl <;> rcases lt3 h with rfl | rfl | rfl <;> decide
    | 2 => obtain rfl := lt1 hx; obtain rfl := lt1 h; rcases lt2 hk with rfl | rfl <;> decide
    | 3 => exact absurd hk (Nat.not_lt_zero _)
    | 4 => exact absurd hk (Nat.not_lt_zero _)
    | n + 5 => exact absurd hk (Nat.not_lt_zero _)
  gamma n h := by
    rcases kind_cases h with ⟨_, h⟩ | ⟨_, h⟩ | ⟨rfl, _⟩ | ⟨_, h⟩ | ⟨_, _, _, _, h⟩
    · cases h
    · cases h
    · exact ⟨by decide, fun k _ => ⟨rfl, rfl⟩⟩
    · cases h
    · cases h
  theta n h := by
    rcases kind_cases h with ⟨_, h⟩ | ⟨rfl, _⟩ | ⟨_, h⟩ | ⟨_, h⟩ | ⟨_, _, _, _, h⟩
    · cases h
    · exact ⟨rfl, rfl, rfl, rfl⟩
    · cases h
    · cases h
    · cases h
  lambda n na h := by
    rcases kind_cases h with ⟨rfl, h⟩ | ⟨_, h⟩ | ⟨_, h⟩ | ⟨_, h⟩ | ⟨_, _, _, _, h⟩
    · injection h with h; subst h; exact ⟨rfl, rfl⟩
    · cases h
    · cases h
    · cases h
    · cases h
  delta n h := by
    rcases kind_cases h with ⟨_, h⟩ | ⟨_, h⟩ | ⟨_, h⟩ | ⟨_, h⟩ | ⟨_, _, _, _, h⟩ <;> cases h
  phi n h := by
    rcases kind_cases h with ⟨_, h⟩ | ⟨_, h⟩ | ⟨_, h⟩ | ⟨_, h⟩ | ⟨_, _, _, _, h⟩ <;> cases h
  barrier n h := by
    rcases kind_cases h with ⟨_, h⟩ | ⟨_, h⟩ | ⟨_, h⟩ | ⟨rfl, _⟩ | ⟨_, _, _, _, h⟩
    · cases h
    · cases h
    · cases h
    · decide
    · cases h
  load n h := by
    rcases kind_cases h with ⟨_, h⟩ | ⟨_, h⟩ | ⟨_, h⟩ | ⟨_, h⟩ | ⟨_, _, _, _, h⟩ <;> cases h

theorem noMatch : G.NoMatch where
  origin n j h := by
    match n with
    | 0 => exact id
    | 1 => rcases lt2 h with rfl | rfl <;> intro h <;> cases h
    | 2 => rcases lt3 h with rfl | rfl | rfl <;> intro h <;> cases h
    | 3 => exact absurd h (Nat.not_lt_zero _)
    | 4 => rcases lt2 h with rfl | rfl <;> exact id
    | n + 5 => exact absurd h (Nat.not_lt_zero _)
  result n k j hk h := by
    match n with
    | 0 => exact id
    | 1 => obtain rfl := lt1 hk; rcases lt3 h with rfl | rfl | rfl <;> exact id
    | 2 => rcases lt2 hk with rfl | rfl <;> exact id
    | 3 => exact absurd hk (Nat.not_lt_zero _)
    | 4 => exact absurd hk (Nat.not_lt_zero _)
    | n + 5 => exact absurd hk (Nat.not_lt_zero _)

theorem depth_lt (n : Nd) : depth (G.region n) < 4 := by
  match n with
  | 0 => decide
  | 1 => decide
  | 2 => decide
  | 3 => decide
  | 4 => decide
  | n + 5 => show (0 : Nat) < 4; omega

/-- Through the loop and the gamma node in it, to the parameter of the function. -/
theorem ex_param : trace G {} 20 4 none (.out 1 0) [] = .ok (.arg (some (0, 0)) 0, []) := by decide +kernel

/-- Through the loop and out of the function. -/
theorem ex_ctx : trace G {} 20 4 none (.out 1 1) [] = .ok (.arg none 0, []) := by decide +kernel

/-- Out of the gamma node and the loop. -/
theorem ex_inner : trace G { caching := true } 20 4 none (.out 4 0) [] =
    .ok (.arg (some (0, 0)) 0, [(.out 1 0, some 0), (.out 2 0, some 2)]) := by decide +kernel

/-- Without tracing into structural nodes the loop variable is not seen to be invariant. -/
theorem ex_shallow : trace G { deep := false } 20 4 none (.out 4 0) [] = .ok (.arg (some (1, 0)) 0, []) := by decide +kernel

/-- An execution: one call, two iterations, the first one with the first branch, the second one with the second branch. -/
inductive I
  | root | fn | it0 | it1 | g0 | g1

def E : Exec Nat where
  I := I
  rg i := match i with
    | .root => none
    | .fn => some (0, 0)
    | .it0 | .it1 => some (1, 0)
    | .g0 => some (2, 0)
    | .g1 => some (2, 1)
  up i := match i with
    | .root | .fn => .root
    | .it0 | .it1 => .fn
    | .g0 => .it0
    | .g1 => .it1
  val i o := match i, o with
    | .root, .arg none _ => some 9
    | .fn, .arg _ 0 => some 7
    | .fn, .arg _ _ => some 9
    | .fn, .out 1 0 => some 7
    | .fn, .out 1 _ => some 9
    | .it0, .arg _ 0 => some 7
    | .it0, .arg _ _ => some 9
    | .it0, .out 2 _ => some 7
    | .it0, .out 3 _ => some 0
    | .it1, .arg _ 0 => some 7
    | .it1, .arg _ _ => some 9
    | .it1, .out 2 _ => some 7
    | .it1, .out 3 _ => some 1
    | .g0, .arg _ _ => some 7
    | .g1, .arg _ _ => some 7
    | .g1, .out 4 _ => some 7
    | _, _ => none
  iter i := match i with
    | .it1 => 1
    | _ => 0

theorem of : E.Of G where
  up i n k h := by cases i <;> cases h <;> rfl
  gammaIn i n k a h hk h1 ha := by
    cases i <;> cases h <;> first | (cases hk) | skip
    · rcases lt3 ha with rfl | rfl | rfl
      · omega
      · rfl
      · rfl
    · rcases lt3 ha with rfl | rfl | rfl
      · omega
      · rfl
      · rfl
  gammaOut p n x v hp hk hx hv := by
    rcases kind_cases hk with ⟨_, h⟩ | ⟨_, h⟩ | ⟨rfl, _⟩ | ⟨_, h⟩ | ⟨_, _, _, _, h⟩ <;> first | (cases h) | skip
    obtain rfl := lt1 hx
    cases p with
    | it0 => exact ⟨.g0, 0, by decide, rfl, rfl, hv⟩
    | it1 => exact ⟨.g1, 1, by decide, rfl, rfl, hv⟩
    | root => cases hp
    | fn => cases hp
    | g0 => cases hp
    | g1 => cases hp
  thetaIn i n h hk := by
    cases i <;> cases h <;> first | (cases hk) | skip
    · left
      intro a ha
      rcases lt2 ha with rfl | rfl <;> rfl
    · right
      refine ⟨.it0, rfl, rfl, by decide, fun a ha => ?_⟩
      rcases lt2 ha with rfl | rfl <;> rfl
  thetaOut p n x v hp hk hx hv := by
    rcases kind_cases hk with ⟨_, h⟩ | ⟨rfl, _⟩ | ⟨_, h⟩ | ⟨_, h⟩ | ⟨_, _, _, _, h⟩ <;> first | (cases h) | skip
    cases p with
    | fn => rcases lt2 hx with rfl | rfl <;> exact ⟨.it1, rfl, rfl, hv⟩
    | root => cases hp
    | it0 => cases hp
    | it1 => cases hp
    | g0 => cases hp
    | g1 => cases hp
  lambdaCtx i n na a h hk ha := by
    cases i <;> cases h <;> cases hk
    obtain rfl := lt1 ha
    rfl
  deltaCtx i n a h hk ha := by cases i <;> cases h <;> cases hk
  phiCtx i n a h hk ha := by cases i <;> cases h <;> cases hk
  phiOut p n x v hp hk hx hv := by
    rcases kind_cases hk with ⟨_, h⟩ | ⟨_, h⟩ | ⟨_, h⟩ | ⟨_, h⟩ | ⟨_, _, _, _, h⟩ <;> cases h
  phiOnce i j n k hk := by
    rcases kind_cases hk with ⟨_, h⟩ | ⟨_, h⟩ | ⟨_, h⟩ | ⟨_, h⟩ | ⟨_, _, _, _, h⟩ <;> cases h
  barrier i n x v hi hk hv := by
    rcases kind_cases hk with ⟨_, h⟩ | ⟨_, h⟩ | ⟨_, h⟩ | ⟨rfl, _⟩ | ⟨_, _, _, _, h⟩ <;> first | (cases h) | skip
    cases i with
    | g1 => exact hv
    | root => cases hi
    | fn => cases hi
    | it0 => cases hi
    | it1 => cases hi
    | g0 => cases hi
  loadState i n x v hi hk := by
    rcases kind_cases hk with ⟨_, h⟩ | ⟨_, h⟩ | ⟨_, h⟩ | ⟨_, h⟩ | ⟨_, _, _, _, h⟩ <;> cases h

/-- What the theorem says for the second iteration: the value behind the barrier is the parameter of the function. -/
theorem ex_sound : ∀ j, Visible G E .g1 j → E.rg j = some (0, 0) → E.val j (.arg (some (0, 0)) 0) = some 7 :=
  ((C58_sound_partial wf noMatch 4 depth_lt { caching := true } 20 4 none (.out 4 0) _ [] _ .empty (by decide : (0 : Nat) < 1) id ex_inner).1
    Nat E of .g1 7 rfl rfl).2

end Ex

/-! ### The content of a match -/

namespace ExMatch

/-- A gamma node (node 0) with the predicate of node 1 that gives back the content of the match in both branches. -/
def G : Graph where
  kind n := match n with
    | 0 => .gamma
    | _ => .simple .other
  region _ := none
  origin _ _ := .out 1 0
  result r _ := .arg r 0
  nin n := match n with
    | 0 => 1
    | _ => 0
  nout n := match n with
    | 0 => 1
    | 1 => 1
    | _ => 0
  nsub n := match n with
    | 0 => 2
    | _ => 0
  narg r := match r with
    | some (0, _) => 1
    | _ => 0
  nres r := match r with
    | some (0, _) => 1
    | _ => 0
  isMem _ := false

def rank : Out → Nat
  | .out 0 _ => 2
  | .arg _ _ => 1
  | _ => 0

def depth : Rg → Nat
  | none => 0
  | some _ => 1

theorem kind_cases {n : Nd} {k : Kind} (h : G.kind n = k) : (n = 0 ∧ k = .gamma) ∨ (n ≠ 0 ∧ k = .simple .other) := by
  subst h
  match n with
  | 0 => exact Or.inl ⟨rfl, rfl⟩
  | n + 1 => exact Or.inr ⟨by simp, rfl⟩

theorem nin_zero {n j : Nat} (h : j < G.nin n) : n = 0 := by
  match n with
  | 0 => rfl
  | n + 1 => exact absurd h (Nat.not_lt_zero _)

theorem nsub_zero {n j : Nat} (h : j < G.nsub n) : n = 0 := by
  match n with
  | 0 => rfl
  | n + 1 => exact absurd h (Nat.not_lt_zero _)

theorem wf : G.Wf rank depth where
  depth n k := rfl
  origin n j h := by obtain rfl := nin_zero h; exact ⟨by show (0 : Nat) < 1; omega, rfl⟩
  result n k j hk h := by obtain rfl := nsub_zero hk; exact ⟨⟨hk, by show (0 : Nat) < 1; omega⟩, rfl⟩
  rankOut n x j hx h := by obtain rfl := nin_zero h; show (0 : Nat) < 2; omega
  rankArg n k a j hk ha h := by show (0 : Nat) < 1; omega
  rankResult n k x j hk hx h := by obtain rfl := nsub_zero hk; show (1 : Nat) < 2; omega
  gamma n h := by
    rcases kind_cases h with ⟨rfl, _⟩ | ⟨_, h⟩
    · exact ⟨by decide, fun k _ => ⟨rfl, rfl⟩⟩
    · cases h
  theta n h := by rcases kind_cases h with ⟨_, h⟩ | ⟨_, h⟩ <;> cases h
  lambda n na h := by rcases kind_cases h with ⟨_, h⟩ | ⟨_, h⟩ <;> cases h
  delta n h := by rcases kind_cases h with ⟨_, h⟩ | ⟨_, h⟩ <;> cases h
  phi n h := by rcases kind_cases h with ⟨_, h⟩ | ⟨_, h⟩ <;> cases h
  barrier n h := by rcases kind_cases h with ⟨_, h⟩ | ⟨_, h⟩ <;> cases h
  load n h := by rcases kind_cases h with ⟨_, h⟩ | ⟨_, h⟩ <;> cases h

/-- The predicate selects branch 1, the content is 5. -/
def E : Exec Nat where
  I := Bool
  rg i := if i then some (0, 1) else none
  up _ := false
  val i o := match i, o with
    | false, .out 0 _ => some 5
    | false, _ => some 1
    | true, _ => some 5
  iter _ := 0

theorem of : E.Of G where
  up i n k h := by cases i <;> cases h; rfl
  gammaIn i n k a h hk h1 ha := by obtain rfl := nin_zero ha; have : a < 1 := ha; omega
  gammaOut p n x v hp hk hx hv := by
    rcases kind_cases hk with ⟨rfl, _⟩ | ⟨_, h⟩
    · cases p with
      | false => exact ⟨true, 1, by decide, rfl, rfl, hv⟩
      | true => cases hp
    · cases h
  thetaIn i n h hk := by rcases kind_cases hk with ⟨_, h⟩ | ⟨_, h⟩ <;> cases h
  thetaOut p n x v hp hk := by rcases kind_cases hk with ⟨_, h⟩ | ⟨_, h⟩ <;> cases h
  lambdaCtx i n na a h hk := by rcases kind_cases hk with ⟨_, h⟩ | ⟨_, h⟩ <;> cases h
  deltaCtx i n a h hk := by rcases kind_cases hk with ⟨_, h⟩ | ⟨_, h⟩ <;> cases h
  phiCtx i n a h hk := by rcases kind_cases hk with ⟨_, h⟩ | ⟨_, h⟩ <;> cases h
  phiOut p n x v hp hk := by rcases kind_cases hk with ⟨_, h⟩ | ⟨_, h⟩ <;> cases h
  phiOnce i j n k hk := by rcases kind_cases hk with ⟨_, h⟩ | ⟨_, h⟩ <;> cases h
  barrier i n x v hi hk := by rcases kind_cases hk with ⟨_, h⟩ | ⟨_, h⟩ <;> cases h
  loadState i n x v hi hk := by rcases kind_cases hk with ⟨_, h⟩ | ⟨_, h⟩ <;> cases h

end ExMatch

/-- **C58 fails** where the content of a match is used: `mapBranchArgumentToInput` takes it for the predicate (in a debug build its
assertion about types fails), so that an exit variable with the content is traced to the predicate. -/
theorem C58_wrong_match : ∃ (G : Graph) (rank : Out → Nat) (depth : Rg → Nat) (o t : Out), G.Wf rank depth ∧ G.Valid o ∧ ¬ G.IsMatch o ∧
    trace G {} 5 3 none o [] = .ok (t, []) ∧ ¬ SameValue G o t := by
  refine ⟨ExMatch.G, ExMatch.rank, ExMatch.depth, .out 0 0, .out 1 0, ExMatch.wf, by show (0 : Nat) < 1; omega, id, by decide +kernel, fun h => ?_⟩
  have := (h Nat ExMatch.E ExMatch.of false 5 rfl rfl).2 false (.refl _ _ _) rfl
  cases this

/-! ### Changes of the graph -/

namespace ExStale

/-- A gamma node (node 0) with the predicate of node 1 and two entry variables; the first branch gives back the first one, the second
branch the second one. The origin of the first one is argument `u` of the region, that of the second one is argument 0. -/
def G (u : Nat) : Graph where
  kind n := match n with
    | 0 => .gamma
    | _ => .simple .other
  region _ := none
  origin _ i := match i with
    | 0 => .out 1 0
    | 1 => .arg none u
    | _ => .arg none 0
  result r _ := match r with
    | some (_, 0) => .arg r 1
    | _ => .arg r 2
  nin n := match n with
    | 0 => 3
    | _ => 0
  nout n := match n with
    | 0 => 1
    | 1 => 1
    | _ => 0
  nsub n := match n with
    | 0 => 2
    | _ => 0
  narg r := match r with
    | some (0, _) => 3
    | none => 2
    | _ => 0
  nres r := match r with
    | some (0, _) => 1
    | _ => 0
  isMem _ := false

end ExStale

/-- The cache has to be cleared when the graph is changed: diverting one input of a gamma node (from argument 0 to argument 1) makes a
cached answer differ from that of a tracer without cache. -/
theorem C58_stale : ∃ (G G' : Graph) (o t t' : Out) (C C' : Cache), trace G { caching := true } 5 3 none o [] = .ok (t, C) ∧
    trace G' { caching := true } 5 3 none o C = .ok (t, C') ∧ trace G' {} 5 3 none o [] = .ok (t', []) ∧ t ≠ t' :=
  ⟨ExStale.G 0, ExStale.G 1, .out 0 0, .arg none 0, .out 0 0, [(.out 0 0, some 2)], [(.out 0 0, some 2)], by decide +kernel,
    by decide +kernel, by decide +kernel, by decide⟩

end Jlm.Rvsdg.Tracer
