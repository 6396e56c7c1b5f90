import Verif.Aa.LocalAaTerm

/-!
# C32: the local alias analysis
-/

namespace Jlm.Aa.Local

/-- C32 for /repo (partial: a pointer whose only origin is computed anew in each iteration of a loop is
excluded; see `C32_wrong_mustalias` and `C32_wrong_noalias`). If the answer to a query is that the
pointers do not alias, then accesses through them in the same iteration have no byte in common. -/
theorem C32_noalias_partial (F : Fn) (hF : F.Wf) (E : Exec) (hE : E.Of F)
    (hst : E.Stable F ∨ ∀ o, (F.deff o).isTheta = false) (max fuel : Nat) (o1 o2 : Out) (s1 s2 : Nat)
    (h : query F false max fuel o1 s1 o2 s2 = some .noAlias) (i : E.I) (p1 p2 : Ptr) (hv1 : E.val i o1 = some p1)
    (hv2 : E.val i o2 = some p2) (hb1 : E.InBounds p1 s1) (hb2 : E.InBounds p2 s2) : ¬ Overlap p1 s1 p2 s2 :=
  query_no hF hE hv1 hv2 hb1 hb2 (Or.inr hst) h

/-- C32 for /repo (partial in the same way): if the answer is that they must alias, they are equal. -/
theorem C32_mustalias_partial (F : Fn) (hF : F.Wf) (E : Exec) (hE : E.Of F)
    (hst : E.Stable F ∨ ∀ o, (F.deff o).isTheta = false) (max fuel : Nat) (o1 o2 : Out) (s1 s2 : Nat)
    (h : query F false max fuel o1 s1 o2 s2 = some .mustAlias) (i : E.I) (p1 p2 : Ptr) (hv1 : E.val i o1 = some p1)
    (hv2 : E.val i o2 = some p2) (hb1 : E.InBounds p1 s1) (hb2 : E.InBounds p2 s2) : p1 = p2 :=
  query_must hF hE hv1 hv2 hb1 hb2 (Or.inr hst) h

/-- The repaired query: no restriction on loops. -/
theorem C32_repaired_noalias (F : Fn) (hF : F.Wf) (E : Exec) (hE : E.Of F) (max fuel : Nat) (o1 o2 : Out) (s1 s2 : Nat)
    (h : query F true max fuel o1 s1 o2 s2 = some .noAlias) (i : E.I) (p1 p2 : Ptr) (hv1 : E.val i o1 = some p1)
    (hv2 : E.val i o2 = some p2) (hb1 : E.InBounds p1 s1) (hb2 : E.InBounds p2 s2) : ¬ Overlap p1 s1 p2 s2 :=
  query_no hF hE hv1 hv2 hb1 hb2 (Or.inl rfl) h

theorem C32_repaired_mustalias (F : Fn) (hF : F.Wf) (E : Exec) (hE : E.Of F) (max fuel : Nat) (o1 o2 : Out) (s1 s2 : Nat)
    (h : query F true max fuel o1 s1 o2 s2 = some .mustAlias) (i : E.I) (p1 p2 : Ptr) (hv1 : E.val i o1 = some p1)
    (hv2 : E.val i o2 = some p2) (hb1 : E.InBounds p1 s1) (hb2 : E.InBounds p2 s2) : p1 = p2 :=
  query_must hF hE hv1 hv2 hb1 hb2 (Or.inl rfl) h

/-- Every query is answered, also in functions with loops. -/
theorem C32_answers (F : Fn) (hF : F.Finite) (strict : Bool) (max : Nat) (o1 : Out) (s1 : Nat) (o2 : Out) (s2 : Nat) :
    ∃ r n, ∀ fuel, n ≤ fuel → query F strict max fuel o1 s1 o2 s2 = some r := by
  obtain ⟨n, r, h⟩ := query_ends hF strict max o1 s1 o2 s2
  refine ⟨r, n, ?_⟩
  intro fuel hf
  have := query_mono (k := fuel - n) h
  rwa [Nat.add_sub_cancel' hf] at this

/-! ### /repo mixes up iterations -/

/-- `for (;;) { use(q); q = malloc(8); }`: `0` is the loop variable (undefined at first), `1` the
malloc, `2` the undefined value. -/
def exLoop : Fn where
  deff := fun o => match o with
    | 0 => .thetaPre 1 2
    | 1 => .malloc (some 8)
    | 2 => .undef
    | _ => .other
  norm := id
  users := fun o => match o with
    | 1 => [.flow [0]]
    | 2 => [.flow [0]]
    | _ => []

/-- Two iterations. -/
def exLoopRun : Exec where
  I := Bool
  val := fun i o => match i, o with
    | false, 1 => some ⟨10, 0⟩
    | true, 0 => some ⟨10, 0⟩
    | true, 1 => some ⟨11, 0⟩
    | _, _ => none
  size := fun _ => 8
  time := fun i o => (if i then 10 else 0) + o

theorem exLoop_wf : exLoop.Wf := by
  refine ⟨?_, ?_⟩
  · intro o b h
    match o with
    | 0 =>
        have hb : b = 1 ∨ b = 2 := by simpa [exLoop, Def.operands] using h
        rcases hb with rfl | rfl
        · exact ⟨[0], by simp [exLoop], by simp⟩
        · exact ⟨[0], by simp [exLoop], by simp⟩
    | 1 => simp [exLoop, Def.operands] at h
    | 2 => simp [exLoop, Def.operands] at h
    | n + 3 => simp [exLoop, Def.operands] at h
  · intro o b
    match o with
    | 0 => simp [exLoop]
    | 1 => simp [exLoop]
    | 2 => simp [exLoop]
    | n + 3 => simp [exLoop]

theorem exLoopRun_val {i : Bool} {o : Out} {p : Ptr} (h : exLoopRun.val i o = some p) :
    (i = false ∧ o = 1 ∧ p = ⟨10, 0⟩) ∨ (i = true ∧ o = 0 ∧ p = ⟨10, 0⟩) ∨ (i = true ∧ o = 1 ∧ p = ⟨11, 0⟩) := by
  match i, o with
  | false, 0 => simp [exLoopRun] at h
  | false, 1 => simp [exLoopRun] at h; simp [h]
  | false, n + 2 => simp [exLoopRun] at h
  | true, 0 => simp [exLoopRun] at h; simp [h]
  | true, 1 => simp [exLoopRun] at h; simp [h]
  | true, n + 2 => simp [exLoopRun] at h

theorem exLoopRun_of : exLoopRun.Of exLoop := by
  refine ⟨?_, ?_, ?_, ?_⟩
  · intro i o p h
    rcases exLoopRun_val h with ⟨rfl, rfl, rfl⟩ | ⟨rfl, rfl, rfl⟩ | ⟨rfl, rfl, rfl⟩ <;> simp [exLoopRun]
  · intro i o p h
    rcases exLoopRun_val h with ⟨rfl, rfl, rfl⟩ | ⟨rfl, rfl, rfl⟩ | ⟨rfl, rfl, rfl⟩
    · simp [Exec.Step, exLoop, exLoopRun, originSize]
    · exact Or.inr ⟨false, rfl, by simp [exLoopRun]⟩
    · simp [Exec.Step, exLoop, exLoopRun, originSize]
  · intro i o p h
    exact ⟨h, Nat.le.refl⟩
  · intro i j o o' p p' h1 h2 hne hv hv'
    rcases exLoopRun_val hv with ⟨rfl, rfl, rfl⟩ | ⟨rfl, rfl, rfl⟩ | ⟨rfl, rfl, rfl⟩ <;>
      rcases exLoopRun_val hv' with ⟨rfl, rfl, rfl⟩ | ⟨rfl, rfl, rfl⟩ | ⟨rfl, rfl, rfl⟩ <;>
        simp [exLoop, isOriginal] at h1 h2 hne

/-- Finding 35: /repo answers that last iteration's malloc must alias this iteration's. -/
theorem C32_wrong_mustalias : ∃ (F : Fn) (E : Exec), F.Wf ∧ E.Of F ∧ ∃ o1 o2 s1 s2 i p1 p2,
    query F false 100 20 o1 s1 o2 s2 = some .mustAlias ∧ E.val i o1 = some p1 ∧ E.val i o2 = some p2 ∧
    E.InBounds p1 s1 ∧ E.InBounds p2 s2 ∧ p1.obj ≠ p2.obj :=
  ⟨exLoop, exLoopRun, exLoop_wf, exLoopRun_of, 0, 1, 8, 8, true, ⟨10, 0⟩, ⟨11, 0⟩, by decide +kernel, rfl, rfl,
    by simp [Exec.InBounds, exLoopRun], by simp [Exec.InBounds, exLoopRun], by decide⟩

/-- `for (;;) { n = load(); use(q, n); q = n + 8; }`. -/
def exChase : Fn where
  deff := fun o => match o with
    | 0 => .thetaPre 1 2
    | 1 => .gep 3 (some 8)
    | 2 => .undef
    | _ => .other
  norm := id
  users := fun o => match o with
    | 1 => [.flow [0], .access]
    | 2 => [.flow [0]]
    | 3 => [.flow [1], .access]
    | _ => []

/-- In the second iteration, the address that is loaded is 8 bytes after the one before. -/
def exChaseRun : Exec where
  I := Bool
  val := fun i o => match i, o with
    | false, 3 => some ⟨10, 0⟩
    | false, 1 => some ⟨10, 8⟩
    | true, 0 => some ⟨10, 8⟩
    | true, 3 => some ⟨10, 8⟩
    | true, 1 => some ⟨10, 16⟩
    | _, _ => none
  size := fun _ => 16
  time := fun i o => (if i then 10 else 0) + 5 - o

theorem exChase_wf : exChase.Wf := by
  refine ⟨?_, ?_⟩
  · intro o b h
    match o with
    | 0 =>
        have hb : b = 1 ∨ b = 2 := by simpa [exChase, Def.operands] using h
        rcases hb with rfl | rfl
        · exact ⟨[0], by simp [exChase], by simp⟩
        · exact ⟨[0], by simp [exChase], by simp⟩
    | 1 =>
        have hb : b = 3 := by simpa [exChase, Def.operands] using h
        subst hb
        exact ⟨[1], by simp [exChase], by simp⟩
    | 2 => simp [exChase, Def.operands] at h
    | n + 3 => simp [exChase, Def.operands] at h
  · intro o b
    match o with
    | 0 => simp [exChase]
    | 1 => simp [exChase]
    | 2 => simp [exChase]
    | n + 3 => simp [exChase]

theorem exChaseRun_val {i : Bool} {o : Out} {p : Ptr} (h : exChaseRun.val i o = some p) :
    (i = false ∧ o = 3 ∧ p = ⟨10, 0⟩) ∨ (i = false ∧ o = 1 ∧ p = ⟨10, 8⟩) ∨ (i = true ∧ o = 0 ∧ p = ⟨10, 8⟩) ∨
    (i = true ∧ o = 3 ∧ p = ⟨10, 8⟩) ∨ (i = true ∧ o = 1 ∧ p = ⟨10, 16⟩) := by
  match i, o with
  | false, 0 => simp [exChaseRun] at h
  | false, 1 => simp [exChaseRun] at h; simp [h]
  | false, 2 => simp [exChaseRun] at h
  | false, 3 => simp [exChaseRun] at h; simp [h]
  | false, n + 4 => simp [exChaseRun] at h
  | true, 0 => simp [exChaseRun] at h; simp [h]
  | true, 1 => simp [exChaseRun] at h; simp [h]
  | true, 2 => simp [exChaseRun] at h
  | true, 3 => simp [exChaseRun] at h; simp [h]
  | true, n + 4 => simp [exChaseRun] at h

theorem exChaseRun_of : exChaseRun.Of exChase := by
  have hnoalloca : ∀ a, isAlloca (exChase.deff a) = false := by
    intro a
    match a with
    | 0 => rfl
    | 1 => rfl
    | 2 => rfl
    | n + 3 => rfl
  refine ⟨?_, ?_, ?_, ?_⟩
  · intro i o p h
    rcases exChaseRun_val h with ⟨rfl, rfl, rfl⟩ | ⟨rfl, rfl, rfl⟩ | ⟨rfl, rfl, rfl⟩ | ⟨rfl, rfl, rfl⟩ | ⟨rfl, rfl, rfl⟩ <;>
      simp [exChaseRun]
  · intro i o p h
    rcases exChaseRun_val h with ⟨rfl, rfl, rfl⟩ | ⟨rfl, rfl, rfl⟩ | ⟨rfl, rfl, rfl⟩ | ⟨rfl, rfl, rfl⟩ | ⟨rfl, rfl, rfl⟩
    · exact fun j a q ha => absurd ha (by rw [hnoalloca]; simp)
    · exact ⟨⟨10, 0⟩, rfl, rfl, by intro x hx; injection hx with hx; subst hx; rfl, by simp [exChaseRun]⟩
    · exact Or.inr ⟨false, rfl, by simp [exChaseRun]⟩
    · exact fun j a q ha => absurd ha (by rw [hnoalloca]; simp)
    · exact ⟨⟨10, 8⟩, rfl, rfl, by intro x hx; injection hx with hx; subst hx; rfl, by simp [exChaseRun]⟩
  · intro i o p h
    exact ⟨h, Nat.le.refl⟩
  · intro i j o o' p p' h1
    match o with
    | 0 => simp [exChase, isOriginal] at h1
    | 1 => simp [exChase, isOriginal] at h1
    | 2 => simp [exChase, isOriginal] at h1
    | n + 3 => simp [exChase, isOriginal] at h1

/-- Finding 35: /repo answers that the two pointers do not alias, but they are equal. -/
theorem C32_wrong_noalias : ∃ (F : Fn) (E : Exec), F.Wf ∧ E.Of F ∧ ∃ o1 o2 s1 s2 i p1 p2,
    query F false 100 20 o1 s1 o2 s2 = some .noAlias ∧ E.val i o1 = some p1 ∧ E.val i o2 = some p2 ∧
    E.InBounds p1 s1 ∧ E.InBounds p2 s2 ∧ Overlap p1 s1 p2 s2 :=
  ⟨exChase, exChaseRun, exChase_wf, exChaseRun_of, 0, 3, 8, 8, true, ⟨10, 8⟩, ⟨10, 8⟩, by decide +kernel, rfl, rfl,
    by simp [Exec.InBounds, exChaseRun], by simp [Exec.InBounds, exChaseRun], rfl, 8, by decide, by decide, by decide,
    by decide⟩

/-- The repaired query says of both that they may alias. -/
example : query exLoop true 100 20 0 8 1 8 = some .mayAlias ∧ query exChase true 100 20 0 8 3 8 = some .mayAlias := by
  decide +kernel

/-! ### A function without such loops -/

/-- `0`: alloca of 16 bytes, `1`: an argument, `2`: the address 4 bytes into the alloca, `3`: a loaded
pointer, `4`: select of `2` and a global, `5`: the global of 4 bytes, `6`: a copy of `4` in a
branch, `7`: a loop variable that starts at `0` and advances by 4, `8`: what it is advanced to. -/
def exFn : Fn where
  deff := fun o => match o with
    | 0 => .alloca (some 16)
    | 1 => .param
    | 2 => .gep 0 (some 4)
    | 3 => .other
    | 4 => .select 2 5
    | 5 => .delta 4
    | 6 => .copy 4
    | 7 => .thetaPre 8 0
    | 8 => .gep 7 (some 4)
    | _ => .other
  norm := fun o => if o = 6 then 4 else o
  users := fun o => match o with
    | 0 => [.flow [2], .flow [7]]
    | 2 => [.flow [4]]
    | 4 => [.flow [6]]
    | 5 => [.flow [4]]
    | 6 => [.access]
    | 7 => [.flow [8], .access]
    | 8 => [.flow [7]]
    | _ => []

/-- Two iterations of the loop. -/
def exFnRun : Exec where
  I := Bool
  val := fun i o => match i, o with
    | _, 0 => some ⟨1, 0⟩
    | _, 1 => some ⟨2, 4⟩
    | _, 2 => some ⟨1, 4⟩
    | _, 3 => some ⟨2, 0⟩
    | _, 4 => some ⟨1, 4⟩
    | _, 5 => some ⟨3, 0⟩
    | _, 6 => some ⟨1, 4⟩
    | false, 7 => some ⟨1, 0⟩
    | false, 8 => some ⟨1, 4⟩
    | true, 7 => some ⟨1, 4⟩
    | true, 8 => some ⟨1, 8⟩
    | _, _ => none
  size := fun o => match o with
    | 1 => 16
    | 2 => 8
    | _ => 4
  time := fun i o => (if i then 10 else 0) + o

theorem exFn_wf : exFn.Wf := by
  refine ⟨?_, ?_⟩
  · intro o b h
    match o with
    | 0 => simp [exFn, Def.operands] at h
    | 1 => simp [exFn, Def.operands] at h
    | 2 =>
        have hb : b = 0 := by simpa [exFn, Def.operands] using h
        subst hb
        exact ⟨[2], by simp [exFn], by simp⟩
    | 3 => simp [exFn, Def.operands] at h
    | 4 =>
        have hb : b = 2 ∨ b = 5 := by simpa [exFn, Def.operands] using h
        rcases hb with rfl | rfl
        · exact ⟨[4], by simp [exFn], by simp⟩
        · exact ⟨[4], by simp [exFn], by simp⟩
    | 5 => simp [exFn, Def.operands] at h
    | 6 =>
        have hb : b = 4 := by simpa [exFn, Def.operands] using h
        subst hb
        exact ⟨[6], by simp [exFn], by simp⟩
    | 7 =>
        have hb : b = 8 ∨ b = 0 := by simpa [exFn, Def.operands] using h
        rcases hb with rfl | rfl
        · exact ⟨[7], by simp [exFn], by simp⟩
        · exact ⟨[7], by simp [exFn], by simp⟩
    | 8 =>
        have hb : b = 7 := by simpa [exFn, Def.operands] using h
        subst hb
        exact ⟨[8], by simp [exFn], by simp⟩
    | n + 9 => simp [exFn, Def.operands] at h
  · intro o b
    match o with
    | 0 => simp [exFn]
    | 1 => simp [exFn]
    | 2 => simp [exFn]
    | 3 => simp [exFn]
    | 4 => simp [exFn]
    | 5 => simp [exFn]
    | 6 => simp [exFn]
    | 7 => simp [exFn]
    | 8 => simp [exFn]
    | n + 9 => simp [exFn]

theorem exFnRun_dom {i : Bool} {o : Out} {p : Ptr} (h : exFnRun.val i o = some p) :
    o ∈ [0, 1, 2, 3, 4, 5, 6, 7, 8] := by
  match i, o with
  | _, 0 => simp
  | _, 1 => simp
  | _, 2 => simp
  | _, 3 => simp
  | _, 4 => simp
  | _, 5 => simp
  | _, 6 => simp
  | _, 7 => simp
  | _, 8 => simp
  | false, n + 9 => simp [exFnRun] at h
  | true, n + 9 => simp [exFnRun] at h

theorem exFn_original {o : Out} (h : isOriginal (exFn.deff o) = true) : o = 0 ∨ o = 5 := by
  match o with
  | 0 => simp
  | 1 => simp [exFn, isOriginal] at h
  | 2 => simp [exFn, isOriginal] at h
  | 3 => simp [exFn, isOriginal] at h
  | 4 => simp [exFn, isOriginal] at h
  | 5 => simp
  | 6 => simp [exFn, isOriginal] at h
  | 7 => simp [exFn, isOriginal] at h
  | 8 => simp [exFn, isOriginal] at h
  | n + 9 => simp [exFn, isOriginal] at h

theorem exFnRun_alloca {j : Bool} {a : Out} {q : Ptr} (ha : isAlloca (exFn.deff a) = true)
    (h : exFnRun.val j a = some q) : q = ⟨1, 0⟩ := by
  rcases exFn_original (alloca_original ha) with rfl | rfl
  · cases j <;> simp [exFnRun] at h <;> exact h.symm
  · simp [exFn, isAlloca] at ha

theorem exFnRun_of : exFnRun.Of exFn := by
  refine ⟨?_, ?_, ?_, ?_⟩
  · intro i o p h
    have hd := exFnRun_dom h
    simp only [List.mem_cons, List.not_mem_nil, or_false] at hd
    rcases hd with rfl | rfl | rfl | rfl | rfl | rfl | rfl | rfl | rfl <;> cases i <;> simp [exFnRun] at h <;> subst h <;>
      simp [exFnRun]
  · intro i o p h
    have hd := exFnRun_dom h
    have hal : p.obj ≠ 1 → ∀ (j : Bool) (a : Out) (q : Ptr), isAlloca (exFn.deff a) = true →
        exFnRun.val j a = some q → q.obj ≠ p.obj := by
      intro hp j a q ha hq
      rw [exFnRun_alloca ha hq]
      exact fun h => hp h.symm
    simp only [List.mem_cons, List.not_mem_nil, or_false] at hd
    rcases hd with rfl | rfl | rfl | rfl | rfl | rfl | rfl | rfl | rfl
    · cases i <;> simp [exFnRun] at h <;> subst h <;> simp [Exec.Step, exFn, exFnRun, originSize]
    · have hp : p = ⟨2, 4⟩ := by cases i <;> simp [exFnRun] at h <;> exact h.symm
      subst hp
      exact hal (by simp)
    · have hp : p = ⟨1, 4⟩ := by cases i <;> simp [exFnRun] at h <;> exact h.symm
      subst hp
      refine ⟨⟨1, 0⟩, by cases i <;> rfl, rfl, ?_, by cases i <;> simp [exFnRun]⟩
      intro x hx
      injection hx with hx
      subst hx
      rfl
    · have hp : p = ⟨2, 0⟩ := by cases i <;> simp [exFnRun] at h <;> exact h.symm
      subst hp
      intro j a q ha hq hqp
      exact absurd hqp (hal (by simp) j a q ha hq)
    · refine Or.inl ⟨by cases i <;> rfl, by cases i <;> simp [exFnRun]⟩
    · cases i <;> simp [exFnRun] at h <;> subst h <;> simp [Exec.Step, exFn, exFnRun, originSize]
    · exact ⟨by cases i <;> rfl, by cases i <;> simp [exFnRun]⟩
    · cases i
      · exact Or.inl ⟨rfl, by simp [exFnRun]⟩
      · exact Or.inr ⟨false, rfl, by simp [exFnRun]⟩
    · cases i
      · have hp : p = ⟨1, 4⟩ := by simp [exFnRun] at h; exact h.symm
        subst hp
        refine ⟨⟨1, 0⟩, rfl, rfl, ?_, by simp [exFnRun]⟩
        intro x hx
        injection hx with hx
        subst hx
        rfl
      · have hp : p = ⟨1, 8⟩ := by simp [exFnRun] at h; exact h.symm
        subst hp
        refine ⟨⟨1, 4⟩, rfl, rfl, ?_, by simp [exFnRun]⟩
        intro x hx
        injection hx with hx
        subst hx
        rfl
  · intro i o p h
    by_cases ho : o = 6
    · subst ho
      have hp : p = ⟨1, 4⟩ := by cases i <;> simp [exFnRun] at h <;> exact h.symm
      subst hp
      exact ⟨by cases i <;> rfl, by cases i <;> simp [exFnRun, exFn]⟩
    · have : exFn.norm o = o := by simp [exFn, ho]
      rw [this]
      exact ⟨h, Nat.le.refl⟩
  · intro i j o o' p p' h1 h2 hne hv hv'
    rcases exFn_original h1 with rfl | rfl <;> rcases exFn_original h2 with rfl | rfl
    · exact absurd rfl hne
    · cases i <;> cases j <;> simp [exFnRun] at hv hv' <;> subst hv <;> subst hv' <;> simp
    · cases i <;> cases j <;> simp [exFnRun] at hv hv' <;> subst hv <;> subst hv' <;> simp
    · exact absurd rfl hne

/-- Although there is a loop, the origins do not change. -/
theorem exFnRun_stable : exFnRun.Stable exFn := by
  intro o ht i j p q hp hq
  have hd := exFnRun_dom hp
  simp only [List.mem_cons, List.not_mem_nil, or_false] at hd
  rcases hd with rfl | rfl | rfl | rfl | rfl | rfl | rfl | rfl | rfl
  any_goals (cases i <;> cases j <;> simp [exFnRun] at hp hq <;> subst hp <;> subst hq <;> rfl)
  · exact absurd (ht none) (by simp [exFn, succs])
  · exact absurd (ht none) (by simp [exFn, succs])

/-- What the analysis answers: neighbouring fields; the alloca and a loaded pointer, as its address is
never given away; the alloca and an argument; the select, whose global has 4 bytes only, and an
access of 8 bytes to the alloca; the same after the copy; the loop variable, of which only the object
is known. -/
example : query exFn false 100 50 0 4 2 4 = some .noAlias ∧ query exFn false 100 50 0 4 3 4 = some .noAlias ∧
    query exFn false 100 50 0 4 1 4 = some .noAlias ∧ query exFn false 100 50 4 8 2 8 = some .mustAlias ∧
    query exFn false 100 50 6 4 4 4 = some .mustAlias ∧ query exFn false 100 50 7 4 5 4 = some .noAlias ∧
    query exFn false 100 50 7 4 2 4 = some .mayAlias ∧ query exFn false 1 50 7 4 5 4 = some .mayAlias := by
  decide +kernel

/-- The theorem applies: the loop variable and the global never overlap in a run with two iterations. -/
example : ∀ p1 p2, exFnRun.val true 7 = some p1 → exFnRun.val true 5 = some p2 → exFnRun.InBounds p1 4 →
    exFnRun.InBounds p2 4 → ¬ Overlap p1 4 p2 4 :=
  fun p1 p2 => C32_noalias_partial exFn exFn_wf exFnRun exFnRun_of (Or.inl exFnRun_stable) 100 50 7 5 4 4
    (by decide +kernel) true p1 p2

theorem exFn_finite : exFn.Finite := by
  refine ⟨⟨id, ?_⟩, ⟨9, ?_⟩⟩
  · intro o b k h
    match o with
    | 0 => simp [exFn] at h
    | 1 => simp [exFn] at h
    | 2 => simp [exFn] at h; simp [← h.1]
    | 3 => simp [exFn] at h
    | 4 => simp [exFn] at h
    | 5 => simp [exFn] at h
    | 6 => simp [exFn] at h
    | 7 => simp [exFn] at h
    | 8 => simp [exFn] at h; simp [← h.1]
    | n + 9 => simp [exFn] at h
  · intro o ts t h ht
    match o with
    | 0 =>
        have : ts = [2] ∨ ts = [7] := by simpa [exFn] using h
        rcases this with rfl | rfl <;> simp at ht <;> rw [ht] <;> decide
    | 1 => simp [exFn] at h
    | 2 => simp [exFn] at h; subst h; simp at ht; rw [ht]; decide
    | 3 => simp [exFn] at h
    | 4 => simp [exFn] at h; subst h; simp at ht; rw [ht]; decide
    | 5 => simp [exFn] at h; subst h; simp at ht; rw [ht]; decide
    | 6 => simp [exFn] at h
    | 7 => simp [exFn] at h; subst h; simp at ht; rw [ht]; decide
    | 8 => simp [exFn] at h; subst h; simp at ht; rw [ht]; decide
    | n + 9 => simp [exFn] at h

end Jlm.Aa.Local
