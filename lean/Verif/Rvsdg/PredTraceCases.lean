import Verif.Rvsdg.PredTraceExamples

/-!
# Cases of the region predicate trace: what the theorems say of concrete graphs, and where the claim fails
-/

set_option linter.unusedVariables false
set_option linter.unusedSimpArgs false

namespace Jlm.Rvsdg.PredTrace.Ex

open Jlm.Rvsdg.Tracer (Nd Rg Out)

/-- The steps of `Leads`. -/
def succ (G : Graph) (i : Inp) : List Inp :=
  match G.origin i with
  | .out n x =>
      match G.kind n with
      | .gamma => (List.range (G.nsub n)).map fun k => .res (some (n, k)) x
      | .theta => [.inp n x, .res (some (n, 0)) (x + 1)]
      | _ => []
  | .arg (some (n, _)) a => [.inp n a]
  | _ => []

theorem succ_complete {G : Graph} {i j : Inp} (h : Leads G i j) : j ∈ succ G i := by
  cases h with
  | gammaOut n x k ho h1 h2 => rw [succ, ho]; simp [h1, h2]
  | gammaArg n k a ho h1 h2 => rw [succ, ho]; simp
  | thetaOut n x ho h1 h2 => rw [succ, ho]; simp [h1]
  | thetaPost n x ho h1 h2 => rw [succ, ho]; simp [h1]
  | thetaArg n k a ho h1 h2 => rw [succ, ho]; simp

theorem star_mem {G : Graph} {S : List Inp} (h : (S.all fun i => (succ G i).all fun j => decide (j ∈ S)) = true) {i j : Inp} (hi : i ∈ S)
    (hs : Leads.Star G i j) : j ∈ S := by
  induction hs with
  | refl => exact hi
  | tail j k _ hl ih =>
    have := List.all_eq_true.mp (List.all_eq_true.mp h j ih) k (succ_complete hl)
    simpa using this

theorem divert_mk {N : Nodes} {D : Edges} {i : Inp} {c : Nat} (o : Out) (hc : (mk N D).ctl i = some c) :
    (mk N D).divert i o = mk N ((i, o, c) :: D) := by
  have hl : ∀ j, j ≠ i → List.lookup j ((i, o, c) :: D) = D.lookup j := by
    intro j hj
    have hb : (j == i) = false := by simp [hj]
    simp only [List.lookup, hb]
  have hs : List.lookup i ((i, o, c) :: D) = some (o, c) := by simp [List.lookup]
  simp only [mk, Graph.divert, Graph.mk.injEq, true_and]
  refine ⟨?_, ?_⟩
  · funext j
    by_cases hj : j = i
    · subst hj; rw [hs]; simp
    · rw [hl j hj]; simp [hj]
  · funext j
    by_cases hj : j = i
    · subst hj; rw [hs]; simpa [mk] using hc
    · rw [hl j hj]

/-- The answer of the check with an empty trace. -/
def fresh (G : Graph) (r t : Rg) : Option Bool :=
  match check G 40 {} r t with
  | .ok (b, _) => some b
  | .error _ => none

/-! ## A switch on a value that a gamma node makes -/

def N1 : Nodes :=
  [(0, ⟨.simple, none, 0, 1, 2, 0⟩), (1, ⟨.gamma, none, 2, 3, 10, 0⟩), (2, ⟨.const 2 0, some (1, 0), 0, 4, 5, 1⟩),
   (3, ⟨.const 2 1, some (1, 1), 0, 6, 7, 1⟩), (4, ⟨.gamma, none, 2, 11, 12, 0⟩)]

def D1 : Edges :=
  [(.inp 1 0, .out 0 0, 2), (.res (some (1, 0)) 0, .out 2 0, 2), (.res (some (1, 1)) 0, .out 3 0, 2), (.inp 4 0, .out 1 0, 2)]

theorem h1 : History 40 false (mk N1 D1) {} :=
  .start _ _ _ (wf_of (by decide +kernel)) (bounded 40 (by omega) (by decide +kernel)).1 (bounded 40 (by omega) (by decide +kernel)).2

theorem fresh1 : fresh (mk N1 D1) (some (1, 0)) (some (4, 1)) = some false ∧ fresh (mk N1 D1) (some (1, 1)) (some (4, 1)) = some true ∧
    fresh (mk N1 D1) none (some (4, 1)) = some true ∧ fresh (mk N1 D1) (some (1, 0)) none = some true := by decide +kernel

theorem fresh_false {G : Graph} {r t : Rg} (h : fresh G r t = some false) : ∃ T, check G 40 {} r t = .ok (false, T) := by
  unfold fresh at h
  split at h
  · rename_i b T e
    cases h
    exact ⟨T, e⟩
  · cases h

theorem nht1 : NotHandedThrough (mk N1 D1) (.inp 4 0) := by
  intro n k x a hk ha hs hs'
  have := star_mem (G := mk N1 D1) (S := [.inp 4 0, .res (some (1, 0)) 0, .res (some (1, 1)) 0]) (by decide +kernel) (by simp)
    (hs.trans hs')
  simp at this
  exact ha this.2

/-- Branch 0 of the first gamma node is never followed by branch 1 of the second one... -/
theorem never1 : NeverSeen (mk N1 D1) (some (1, 0)) (some (4, 1)) := by
  obtain ⟨T, hT⟩ := fresh_false fresh1.1
  refine C59_unreachable_partial 40 _ _ T h1 _ _ ?_ hT
  rintro use v ⟨n, rfl, hk, hsub⟩
  cases hsub with
  | refl => exact nht1
  | up _ _ _ h => change Sub _ none _ at h; cases h

def L1 : List Inst :=
  [⟨none, 0, true, 0, [(.out 0 0, 1), (.out 1 0, 1)]⟩, ⟨some (1, 1), 0, true, 0, [(.out 3 0, 1)]⟩, ⟨some (4, 1), 0, true, 0, []⟩]

theorem around_cases {E : Exec} {i a : E.I} (h : Around E i a) : a = i ∨ ∃ n k, E.rg i = some (n, k) ∧ Around E (E.up i) a := by
  cases h with
  | refl => exact .inl rfl
  | up _ n k _ hr h => exact .inr ⟨n, k, hr, h⟩

/-- An instance of the list. -/
def at' (L : List Inst) (i : Nat) : (exec L).I := i

theorem seen_root {G : Graph} {L : List Inst} {i j : Nat} {m n : Nd} {l k : Nat} (hi : (Insts.get L i).rg = some (m, l))
    (hu : (Insts.get L (Insts.get L i).up).rg = none) (hj : (Insts.get L j).rg = some (n, k)) (hju : (Insts.get L j).up = (Insts.get L i).up)
    (hk : G.kind n = .gamma) (hne : n ≠ m) : Seen G (exec L) (at' L i) (at' L j) := by
  refine .gamma (at' L j) n k (.around _ ?_) hj hk ?_
  · show Around (exec L) (at' L i) (Insts.get L j).up
    rw [hju]
    exact .up (at' L i) m l _ hi (.refl _)
  · intro a k' ha hr
    rcases around_cases ha with e | ⟨_, _, _, ha⟩
    · rw [e] at hr; change (Insts.get L i).rg = _ at hr
      rw [hi] at hr; cases hr; exact hne rfl
    · rcases around_cases ha with e | ⟨_, _, hr', _⟩
      · rw [e] at hr; change (Insts.get L (Insts.get L i).up).rg = _ at hr
        rw [hu] at hr; cases hr
      · change (Insts.get L (Insts.get L i).up).rg = _ at hr'
        rw [hu] at hr'; cases hr'

/-- ... while branch 1 of the first one is. -/
theorem seen1 : (exec L1).Of (mk N1 D1) ∧ Seen (mk N1 D1) (exec L1) (at' L1 2) (at' L1 1) ∧
    (exec L1).rg (at' L1 2) = some (4, 1) ∧ (exec L1).rg (at' L1 1) = some (1, 1) :=
  ⟨exec_of (by decide +kernel), seen_root (m := 4) (l := 1) (n := 1) (k := 1) rfl rfl rfl rfl rfl (by decide), rfl, rfl⟩

/-! ## A gamma node that hands the value through in one branch only -/

def N2 : Nodes :=
  [(0, ⟨.simple, none, 0, 1, 2, 0⟩), (1, ⟨.gamma, none, 2, 3, 10, 0⟩), (2, ⟨.const 2 0, some (1, 0), 0, 4, 5, 1⟩),
   (3, ⟨.const 2 1, some (1, 1), 0, 6, 7, 1⟩), (4, ⟨.gamma, none, 2, 11, 16, 0⟩), (5, ⟨.const 2 1, some (4, 1), 0, 12, 13, 1⟩),
   (6, ⟨.gamma, none, 2, 17, 18, 0⟩)]

def D2 : Edges :=
  [(.inp 1 0, .out 0 0, 2), (.res (some (1, 0)) 0, .out 2 0, 2), (.res (some (1, 1)) 0, .out 3 0, 2),
   (.inp 4 0, .out 0 1, 2), (.inp 4 1, .out 1 0, 2), (.res (some (4, 0)) 0, .arg (some (4, 0)) 1, 2), (.res (some (4, 1)) 0, .out 5 0, 2),
   (.inp 6 0, .out 4 0, 2)]

def L2 : List Inst :=
  [⟨none, 0, true, 0, [(.out 0 0, 0), (.out 0 1, 1), (.out 1 0, 0), (.out 4 0, 1)]⟩, ⟨some (1, 0), 0, true, 0, [(.out 2 0, 0)]⟩,
   ⟨some (4, 1), 0, true, 0, [(.arg (some (4, 1)) 1, 0), (.out 5 0, 1)]⟩, ⟨some (6, 1), 0, true, 0, []⟩]

/-- The full claim. -/
def Sound : Prop :=
  ∀ (fuel : Nat) (G : Graph) (T T' : Trace) (r t : Rg), History fuel false G T → check G fuel T r t = .ok (false, T') → NeverSeen G r t

/-- **C59** The claim is false of the code: if a gamma node hands a predicate through in one branch and sets it in another one, the check
denies that the target region can be reached after the region that made the first value - it can, when the other branch is taken. -/
theorem C59_handed_through_unsound : ¬ Sound := by
  intro hs
  have hH : History 40 false (mk N2 D2) {} :=
    .start _ _ _ (wf_of (by decide +kernel)) (bounded 40 (by omega) (by decide +kernel)).1 (bounded 40 (by omega) (by decide +kernel)).2
  obtain ⟨T, hT⟩ := fresh_false (show fresh (mk N2 D2) (some (1, 0)) (some (6, 1)) = some false by decide +kernel)
  refine hs 40 _ _ _ _ _ hH hT (exec L2) (exec_of (by decide +kernel)) (at' L2 3) (at' L2 1) rfl rfl
    (seen_root (m := 6) (l := 1) (n := 1) (k := 0) rfl rfl rfl rfl rfl (by decide))

/-! ## A loop -/

def N3 : Nodes :=
  [(0, ⟨.simple, none, 0, 1, 2, 0⟩), (1, ⟨.theta, none, 1, 3, 20, 0⟩), (7, ⟨.simple, some (1, 0), 0, 4, 5, 1⟩),
   (2, ⟨.gamma, some (1, 0), 2, 6, 15, 1⟩), (3, ⟨.const 2 0, some (2, 0), 0, 7, 8, 2⟩), (4, ⟨.const 2 1, some (2, 1), 0, 9, 10, 2⟩),
   (5, ⟨.gamma, none, 2, 21, 22, 0⟩)]

def D3 : Edges :=
  [(.inp 1 0, .out 0 0, 2), (.res (some (1, 0)) 0, .out 7 1, 2), (.res (some (1, 0)) 1, .out 2 0, 2), (.inp 2 0, .out 7 0, 2),
   (.res (some (2, 0)) 0, .out 3 0, 2), (.res (some (2, 1)) 0, .out 4 0, 2), (.inp 5 0, .out 1 0, 2)]

def L3 : List Inst :=
  [⟨none, 0, true, 0, [(.out 0 0, 0), (.out 1 0, 1)]⟩,
   ⟨some (1, 0), 0, false, 0, [(.arg (some (1, 0)) 0, 0), (.out 7 0, 0), (.out 7 1, 1), (.out 2 0, 0)]⟩,
   ⟨some (2, 0), 1, true, 0, [(.out 3 0, 0)]⟩,
   ⟨some (1, 0), 0, true, 1, [(.arg (some (1, 0)) 0, 0), (.out 7 0, 1), (.out 7 1, 0), (.out 2 0, 1)]⟩,
   ⟨some (2, 1), 3, true, 0, [(.out 4 0, 1)]⟩, ⟨some (5, 1), 0, true, 0, []⟩]

/-- **C59** The check says nothing about back edges: it denies that the target region can be reached after the origin region, but it is
reached after an earlier iteration in which the origin region was executed. -/
theorem C59_back_edge_unsound : ∃ (G : Graph) (T : Trace) (r t : Rg), History 40 false G {} ∧ check G 40 {} r t = .ok (false, T) ∧
    NeverSeen G r t ∧ ∃ E : Exec, E.Of G ∧ ∃ i j, E.rg i = t ∧ E.rg j = r ∧ E.up (E.up j) = E.up i ∧ ¬ E.last (E.up j) := by
  have hH : History 40 false (mk N3 D3) {} :=
    .start _ _ _ (wf_of (by decide +kernel)) (bounded 40 (by omega) (by decide +kernel)).1 (bounded 40 (by omega) (by decide +kernel)).2
  obtain ⟨T, hT⟩ := fresh_false (show fresh (mk N3 D3) (some (2, 0)) (some (5, 1)) = some false by decide +kernel)
  refine ⟨_, T, _, _, hH, hT, C59_unreachable_partial 40 _ _ T hH _ _ ?_ hT, exec L3, exec_of (by decide +kernel), at' L3 5, at' L3 2, rfl, rfl, rfl, ?_⟩
  · rintro use v ⟨n, rfl, hk, hsub⟩
    cases hsub with
    | refl =>
      intro n k x a hk ha hs hs'
      have := star_mem (G := mk N3 D3)
        (S := [.inp 5 0, .res (some (1, 0)) 1, .res (some (2, 0)) 0, .res (some (2, 1)) 0, .inp 1 0]) (by decide +kernel) (by simp)
        (hs.trans hs')
      simp at this
      rcases this with h | h
      · exact ha h.2
      · exact ha h.2
    | up _ _ _ h => change Sub _ none _ at h; cases h
  · show ¬ (false = true)
    simp

/-! ## Stale answers -/

def N4 : Nodes :=
  [(0, ⟨.simple, none, 0, 1, 2, 0⟩), (1, ⟨.gamma, none, 2, 3, 10, 0⟩), (2, ⟨.const 2 0, some (1, 0), 0, 4, 5, 1⟩),
   (3, ⟨.const 2 1, some (1, 1), 0, 6, 7, 1⟩), (4, ⟨.theta, none, 1, 11, 20, 0⟩), (5, ⟨.simple, some (4, 0), 0, 12, 13, 1⟩),
   (6, ⟨.const 2 1, some (4, 0), 0, 14, 15, 1⟩), (7, ⟨.gamma, none, 2, 21, 22, 0⟩)]

def D4 : Edges :=
  [(.inp 1 0, .out 0 0, 2), (.res (some (1, 0)) 0, .out 2 0, 2), (.res (some (1, 1)) 0, .out 3 0, 2), (.inp 4 0, .out 1 0, 2),
   (.res (some (4, 0)) 0, .out 5 0, 2), (.res (some (4, 0)) 1, .arg (some (4, 0)) 0, 2), (.inp 7 0, .out 4 0, 2)]

def D4' : Edges := (.res (some (4, 0)) 1, .out 6 0, 2) :: D4

def L4 : List Inst :=
  [⟨none, 0, true, 0, [(.out 0 0, 0), (.out 1 0, 0), (.out 4 0, 1)]⟩, ⟨some (1, 0), 0, true, 0, [(.out 2 0, 0)]⟩,
   ⟨some (4, 0), 0, true, 0, [(.arg (some (4, 0)) 0, 0), (.out 5 0, 0), (.out 6 0, 1)]⟩, ⟨some (7, 1), 0, true, 0, []⟩]

/-- The trace after one check. -/
def T4 : Trace :=
  match check (mk N4 D4) 40 {} (some (1, 0)) (some (7, 1)) with
  | .ok (_, T) => T
  | .error _ => {}

def again4 : Option Bool :=
  match check (mk N4 D4') 40 (onInputChange (mk N4 D4) (.res (some (4, 0)) 1) T4) (some (1, 0)) (some (7, 1)) with
  | .ok (b, _) => some b
  | .error _ => none

/-- **C59** The region of a loop whose invariant loop variable is traced through is not observed: after the loop variable was changed, the
trace gives the old answer. It denies what a new trace allows and what an execution shows. -/
theorem C59_stale : ∃ (G : Graph) (T T' : Trace) (r t : Rg), History 40 true G T ∧ check G 40 T r t = .ok (false, T') ∧
    (∃ T'', check G 40 {} r t = .ok (true, T'')) ∧ ¬ NeverSeen G r t := by
  have hH : History 40 true (mk N4 D4) {} :=
    .start _ _ _ (wf_of (by decide +kernel)) (bounded 40 (by omega) (by decide +kernel)).1 (bounded 40 (by omega) (by decide +kernel)).2
  obtain ⟨T, hT⟩ := fresh_false (show fresh (mk N4 D4) (some (1, 0)) (some (7, 1)) = some false by decide +kernel)
  have hT4 : T4 = T := by rw [T4, hT]
  have hH1 := History.check _ _ _ _ _ _ hH hT
  have hd : (mk N4 D4).divert (.res (some (4, 0)) 1) (.out 6 0) = mk N4 D4' := divert_mk _ (by decide +kernel)
  have hH2 : History 40 true (mk N4 D4') (onInputChange (mk N4 D4) (.res (some (4, 0)) 1) T) := by
    rw [← hd]
    refine .divert _ _ _ _ (rankOf N4) (depthOf N4) hH1 ?_ (bounded 40 (by omega) (by decide +kernel)).1
      (bounded 40 (by omega) (by decide +kernel)).2 (by simp)
    rw [hd]
    exact wf_of (by decide +kernel)
  have ha : again4 = some false := by decide +kernel
  rw [again4, hT4] at ha
  have hf : fresh (mk N4 D4') (some (1, 0)) (some (7, 1)) = some true := by decide +kernel
  unfold fresh at hf
  split at ha
  · rename_i b T' e
    cases ha
    refine ⟨_, _, T', _, _, hH2, e, ?_, fun hn => hn (exec L4) (exec_of (by decide +kernel)) (at' L4 3) (at' L4 1) rfl rfl
      (seen_root (m := 7) (l := 1) (n := 1) (k := 0) rfl rfl rfl rfl rfl (by decide))⟩
    · split at hf
      · rename_i b T'' e'
        cases hf
        exact ⟨T'', e'⟩
      · cases hf
  · cases ha

/-- A history with a change that the trace is told: the loop variable is connected anew after the region was observed. -/
example : ∃ T, History 40 false (mk N1 ((.res (some (1, 0)) 0, .out 2 1, 2) :: D1)) T := by
  obtain ⟨T, hT⟩ := fresh_false fresh1.1
  have hd : (mk N1 D1).divert (.res (some (1, 0)) 0) (.out 2 1) = mk N1 ((.res (some (1, 0)) 0, .out 2 1, 2) :: D1) :=
    divert_mk _ (by decide +kernel)
  rw [← hd]
  refine ⟨_, .divert _ _ _ _ (rankOf N1) (depthOf N1) (.check _ _ _ _ _ _ h1 hT) ?_ (bounded 40 (by omega) (by decide +kernel)).1
      (bounded 40 (by omega) (by decide +kernel)).2 ?_⟩
  · rw [hd]; exact wf_of (by decide +kernel)
  · intro _ n k a h; simp at h

/-! `C59_assign_exact` on the first graph: what the regions assign. -/

def assign (G : Graph) (r : Rg) (use : Inp) : Option Range :=
  match getAssign G 40 {} r use with
  | .ok (a, _) => some a
  | .error _ => none

example : assign (mk N1 D1) (some (1, 0)) (.inp 4 0) = some [true, false] ∧ assign (mk N1 D1) (some (1, 1)) (.inp 4 0) = some [false, true] ∧
    assign (mk N1 D1) none (.inp 4 0) = some [true, true] ∧ assign (mk N3 D3) (some (1, 0)) (.inp 5 0) = some [true, true] := by
  decide +kernel

/-- **C59** The region of the predicate is not observed either when the ranges are asked for directly: the old answer is given after the
predicate was connected to something else. -/
theorem C59_assign_stale : ∃ (G : Graph) (T : Trace) (i : Inp) (o : Out) (a : Range) (T' : Trace) (a' : Range) (T'' : Trace) (r : Rg),
    History 40 false G {} ∧ (∃ a0, getAssign G 40 {} r i = .ok (a0, T)) ∧ History 40 false (G.divert i o) {} ∧
    getAssign (G.divert i o) 40 (onInputChange G i T) r i = .ok (a, T') ∧ getAssign (G.divert i o) 40 {} r i = .ok (a', T'') ∧
    a.allows 1 = false ∧ a'.allows 1 = true := by
  have hd : (mk N1 D1).divert (.inp 4 0) (.out 0 0) = mk N1 ((.inp 4 0, .out 0 0, 2) :: D1) := divert_mk _ (by decide +kernel)
  obtain ⟨a0, T, h0, _⟩ := C59_assign_exact (mk N1 D1) (rankOf N1) (depthOf N1) (wf_of (by decide +kernel)) 40
    (bounded 40 (by omega) (by decide +kernel)).1 (some (1, 0)) (.inp 4 0) 2 (by decide +kernel)
  have hW : ((mk N1 D1).divert (.inp 4 0) (.out 0 0)).Wf (rankOf N1) (depthOf N1) := by rw [hd]; exact wf_of (by decide +kernel)
  obtain ⟨a', T'', h', _⟩ := C59_assign_exact _ (rankOf N1) (depthOf N1) hW 40
    (bounded 40 (by omega) (by decide +kernel)).1 (some (1, 0)) (.inp 4 0) 2 (by decide +kernel)
  have hb : ∀ (G' : Graph) (X : Except Err (Range × Trace)) (p : Range × Trace → Bool), (match X with | .ok y => p y | .error _ => false) = true →
      ∃ y, X = .ok y ∧ p y = true := by
    intro G' X p h
    cases X with
    | ok y => exact ⟨y, rfl, h⟩
    | error e => cases h
  obtain ⟨⟨b, Tb⟩, e1, e2⟩ := hb (mk N1 D1) (getAssign (mk N1 D1) 40 {} (some (1, 0)) (.inp 4 0))
    (fun y => match getAssign ((mk N1 D1).divert (.inp 4 0) (.out 0 0)) 40 (onInputChange (mk N1 D1) (.inp 4 0) y.2) (some (1, 0)) (.inp 4 0)
      with | .ok z => !(z.1.allows 1) | .error _ => false) (by decide +kernel)
  rw [h0] at e1; cases e1
  obtain ⟨⟨c, Tc⟩, e3, e4⟩ := hb (mk N1 D1) _ (fun z => !(z.1.allows 1)) e2
  refine ⟨mk N1 D1, T, .inp 4 0, .out 0 0, c, Tc, a', T'', some (1, 0), h1, ⟨a0, h0⟩,
    .start _ _ _ hW (bounded 40 (by omega) (by decide +kernel)).1 (bounded 40 (by omega) (by decide +kernel)).2, e3, h', by simpa using e4, ?_⟩
  obtain ⟨⟨c', Tc'⟩, e5, e6⟩ := hb (mk N1 D1) (getAssign ((mk N1 D1).divert (.inp 4 0) (.out 0 0)) 40 {} (some (1, 0)) (.inp 4 0))
    (fun z => z.1.allows 1) (by decide +kernel)
  rw [h'] at e5; cases e5
  exact e6

end Jlm.Rvsdg.PredTrace.Ex
