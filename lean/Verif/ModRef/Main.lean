import Verif.ModRef.Solve

set_option linter.unusedSimpArgs false
set_option linter.unusedVariables false

/-! # C49: mod/ref summaries cover what nodes do to memory -/

namespace Jlm.ModRef

/-! ## Start sets -/

theorem addExplicit_has (s : MRSet) (m k : Nat) (e : Eff) (x : Acc) :
    ((s.addExplicit m e).nodes k).has x = true ↔ (s.nodes k).has x = true ∨ (k = m ∧ e.has x = true) := by
  unfold MRSet.addExplicit
  simp only
  split
  · next h => subst h; rw [has_or, Bool.or_eq_true]; simp
  · next h => simp [h]

theorem fits_none (g : Ptg) (m : Nat) : g.fits none m := by
  intro b k h; cases h

def pointerStep (g : Ptg) (bytes : Option Nat) (e : Eff) (s : MRSet) (m : Nat) : MRSet :=
  if g.const m then s
  else match bytes, g.size m with
    | some sz, some k => if k < sz then s else s.addExplicit m e
    | _, _ => s.addExplicit m e

open Classical in
theorem pointerStep_spec (g : Ptg) (bytes : Option Nat) (e : Eff) (s : MRSet) (m : Nat) :
    pointerStep g bytes e s m = if g.const m = false ∧ g.fits bytes m then s.addExplicit m e else s := by
  unfold pointerStep Ptg.fits
  cases hc : g.const m with
  | true => simp
  | false =>
      cases hb : bytes with
      | none => simp
      | some b =>
          cases hs : g.size m with
          | none => simp
          | some k =>
              simp
              by_cases hk : k < b
              · rw [if_pos hk, if_neg (by omega)]
              · rw [if_neg hk, if_pos (by omega)]

open Classical in
theorem pointerFold_spec (g : Ptg) (bytes : Option Nat) (e : Eff) (ts : List Nat) : ∀ s : MRSet,
    (∀ x, (ts.foldl (pointerStep g bytes e) s).min x = s.min x) ∧ (ts.foldl (pointerStep g bytes e) s).calls = s.calls ∧
    ∀ m x, ((ts.foldl (pointerStep g bytes e) s).nodes m).has x = true ↔
      (s.nodes m).has x = true ∨ (m ∈ ts ∧ g.const m = false ∧ g.fits bytes m ∧ e.has x = true) := by
  induction ts with
  | nil => intro s; simp
  | cons t ts ih =>
      intro s
      obtain ⟨h1, h2, h3⟩ := ih (pointerStep g bytes e s t)
      simp only [List.foldl_cons]
      have hs := pointerStep_spec g bytes e s t
      refine ⟨fun x => (h1 x).trans ?_, h2.trans ?_, fun m x => (h3 m x).trans ?_⟩
      · rw [hs]; split
        · cases x <;> rfl
        · rfl
      · rw [hs]; split <;> rfl
      · rw [hs]
        by_cases hc : g.const t = false ∧ g.fits bytes t
        · rw [if_pos hc, addExplicit_has]
          constructor
          · rintro ((h | ⟨rfl, h⟩) | ⟨h, h'⟩)
            · exact Or.inl h
            · exact Or.inr ⟨by simp, hc.1, hc.2, h⟩
            · exact Or.inr ⟨by simp [h], h'⟩
          · rintro (h | ⟨h, h'⟩)
            · exact Or.inl (Or.inl h)
            · rcases List.mem_cons.1 h with rfl | h
              · exact Or.inl (Or.inr ⟨rfl, h'.2.2⟩)
              · exact Or.inr ⟨h, h'⟩
        · rw [if_neg hc]
          constructor
          · rintro (h | ⟨h, h'⟩)
            · exact Or.inl h
            · exact Or.inr ⟨by simp [h], h'⟩
          · rintro (h | ⟨h, h'⟩)
            · exact Or.inl h
            · rcases List.mem_cons.1 h with rfl | h
              · exact absurd ⟨h'.1, h'.2.1⟩ hc
              · exact Or.inr ⟨h, h'⟩

theorem pointer_spec (g : Ptg) (r : Nat) (bytes : Option Nat) (e : Eff) (s : MRSet) :
    (∀ x, (s.pointer g r bytes e).min x =
      if g.all r = true ∧ e.has x = true then min (s.min x) (min (bytes.getD 0) (noneSize - 1)) else s.min x) ∧
    (s.pointer g r bytes e).calls = s.calls ∧
    ∀ m x, ((s.pointer g r bytes e).nodes m).has x = true ↔
      (s.nodes m).has x = true ∨ (m ∈ g.targets r ∧ g.const m = false ∧ g.fits bytes m ∧ e.has x = true) := by
  have key : ∀ s0 : MRSet, (∀ x, s0.min x = if g.all r = true ∧ e.has x = true then min (s.min x) (min (bytes.getD 0) (noneSize - 1)) else s.min x) →
      s0.calls = s.calls → s0.nodes = s.nodes →
      (∀ x, ((g.targets r).foldl (pointerStep g bytes e) s0).min x =
        if g.all r = true ∧ e.has x = true then min (s.min x) (min (bytes.getD 0) (noneSize - 1)) else s.min x) ∧
      ((g.targets r).foldl (pointerStep g bytes e) s0).calls = s.calls ∧
      ∀ m x, (((g.targets r).foldl (pointerStep g bytes e) s0).nodes m).has x = true ↔
        (s.nodes m).has x = true ∨ (m ∈ g.targets r ∧ g.const m = false ∧ g.fits bytes m ∧ e.has x = true) := by
    intro s0 h1 h2 h3
    obtain ⟨k1, k2, k3⟩ := pointerFold_spec g bytes e (g.targets r) s0
    refine ⟨fun x => (k1 x).trans (h1 x), k2.trans h2, fun m x => ?_⟩
    rw [k3, h3]
  refine key _ ?_ ?_ ?_
  · intro x
    cases ha : g.all r <;> cases hr : e.ref <;> cases hm : e.mod <;> cases x <;> simp [Eff.has, hr, hm, MRSet.min, MRSet.markRef, MRSet.markMod]
  · split <;> split <;> rfl
  · split <;> split <;> rfl

theorem empty_min (x : Acc) : MRSet.empty.min x = noneSize := by cases x <;> rfl
theorem empty_nodes (m : Nat) (x : Acc) : (MRSet.empty.nodes m).has x = false := has_none x

theorem ok_empty (num : Nat) : Ok num .empty := ⟨fun x => by rw [empty_min]; omega, fun h => by simp [MRSet.empty] at h, fun _ _ => rfl⟩

theorem nodes_none {s : MRSet} {m : Nat} (h : ∀ x, (s.nodes m).has x = false) : s.nodes m = .none := by
  by_cases hn : s.nodes m = .none
  · exact hn
  · obtain ⟨x, hx⟩ := (ne_none_iff _).1 hn
    rw [h x] at hx; cases hx

theorem ok_pointer {g : Ptg} (htgt : ∀ r, ∀ m ∈ g.targets r, m < g.num) {s : MRSet} (hs : Ok g.num s) (hc : s.calls = false) (r : Nat)
    (bytes : Option Nat) (e : Eff) : Ok g.num (s.pointer g r bytes e) ∧ (s.pointer g r bytes e).calls = false := by
  obtain ⟨h1, h2, h3⟩ := pointer_spec g r bytes e s
  refine ⟨⟨?_, ?_, ?_⟩, h2.trans hc⟩
  · intro x
    rw [h1]
    have := hs.bound x
    split
    · exact Nat.le_trans (Nat.min_le_left _ _) this
    · exact this
  · intro h; rw [h2, hc] at h; cases h
  · intro m hm
    refine nodes_none fun x => ?_
    cases hx : ((s.pointer g r bytes e).nodes m).has x with
    | false => rfl
    | true =>
        rcases (h3 m x).1 hx with h | ⟨h, _⟩
        · rw [hs.nodes m hm, has_none] at h; cases h
        · have := htgt r m h; omega

theorem ok_addExplicit {num : Nat} {m : Nat} (hm : m < num) (e : Eff) : Ok num (MRSet.empty.addExplicit m e) := by
  refine ⟨fun x => by cases x <;> exact Nat.le_refl _, fun h => by simp [MRSet.empty, MRSet.addExplicit] at h, ?_⟩
  intro k hk
  refine nodes_none fun x => ?_
  cases hx : ((MRSet.empty.addExplicit m e).nodes k).has x with
  | false => rfl
  | true =>
      rcases (addExplicit_has _ _ _ _ _).1 hx with h | ⟨h, _⟩
      · rw [empty_nodes] at h; cases h
      · omega

theorem ok_calls (num : Nat) : Ok num MRSet.empty.markCalls :=
  ⟨fun x => by cases x <;> simp [MRSet.min, MRSet.markCalls, MRSet.empty], fun _ x => by cases x <;> rfl, fun _ _ => rfl⟩

theorem start_ok {P : Prog} (hw : P.WF) (k : Nat) : Ok P.ptg.num (P.start k) := by
  have htgt : ∀ r, ∀ m ∈ P.ptg.targets r, m < P.ptg.num := fun r m h => (hw.targets r m h).1
  unfold Prog.start
  cases k with
  | zero => exact ok_calls _
  | succ i =>
      simp only
      cases ho : P.op i with
      | none => exact ok_empty _
      | some op =>
          simp only
          have he := ok_empty P.ptg.num
          cases op with
          | load r size => exact (ok_pointer htgt he rfl _ _ _).1
          | store r size => exact (ok_pointer htgt he rfl _ _ _).1
          | alloca m => exact ok_addExplicit (hw.alloc i m (Or.inl ho)) _
          | malloc m => exact ok_addExplicit (hw.alloc i m (Or.inr ho)) _
          | free r => exact (ok_pointer htgt he rfl r none .modOnly).1
          | memcpy d s c =>
              have h1 := ok_pointer htgt he rfl d c .modOnly
              exact (ok_pointer htgt h1.1 h1.2 _ _ _).1
          | memset d c => exact (ok_pointer htgt he rfl _ _ _).1
          | call t args sj =>
              simp only [initial]
              split
              · exact ok_calls _
              · exact he
          | other => exact he

/-! ## Constraints -/

theorem mem_constraints {P : Prog} {a b : Nat} : (a, b) ∈ P.constraints ↔ ∃ i n, P.nodes[i]? = some n ∧ (a, b) ∈ P.constraintsOf i n := by
  unfold Prog.constraints
  simp only [List.mem_flatMap, List.mem_range]
  constructor
  · rintro ⟨i, hi, h⟩
    cases hn : P.nodes[i]? with
    | none => rw [hn] at h; simp at h
    | some n => rw [hn] at h; exact ⟨i, n, hn, h⟩
  · rintro ⟨i, n, hn, h⟩
    exact ⟨i, getElem?_lt hn, by rw [hn]; exact h⟩

theorem setjmp_iff {P : Prog} {f : Nat} : P.callsSetjmp f = true ↔ ∃ n ∈ P.nodes, n.fn = f ∧ ∃ t args, n.kind = .simple (.call t args true) := by
  unfold Prog.callsSetjmp
  rw [List.any_eq_true]
  constructor
  · rintro ⟨n, hn, h⟩
    split at h
    · next t args hk => exact ⟨n, hn, by simpa using h, t, args, hk⟩
    · simp at h
  · rintro ⟨n, hn, hf, t, args, hk⟩
    exact ⟨n, hn, by simp [hk, hf]⟩

theorem constraint_cases {P : Prog} {a b : Nat} (h : (a, b) ∈ P.constraints) : ∃ i n, P.nodes[i]? = some n ∧
    ((∃ p, n.parent = some p ∧ n.kind ≠ .simple .other ∧ a = i + 1 ∧ b = p + 1) ∨
     (∃ t args sj f, n.kind = .simple (.call t args sj) ∧ f ∈ P.ptg.callees t ∧ a = f + 1 ∧ b = i + 1) ∨
     (P.enterable i ∧ a = i + 1 ∧ b = 0)) := by
  obtain ⟨i, n, hn, h⟩ := mem_constraints.1 h
  refine ⟨i, n, hn, ?_⟩
  unfold Prog.constraintsOf at h
  rcases List.mem_append.1 h with h | h
  · left
    split at h
    · simp at h
    · next p hp hne =>
      simp at h
      exact ⟨p, hp, hne, h.1, h.2⟩
    · simp at h
  · right
    split at h
    · next t args sj hk =>
      obtain ⟨f, hf, he⟩ := List.mem_map.1 h
      simp at he
      exact Or.inl ⟨t, args, sj, f, hk, hf, he.1.symm, he.2.symm⟩
    · next m hk =>
      split at h
      · next hc =>
        simp at h
        right
        refine ⟨?_, h.1, h.2⟩
        have hl : P.lambda i = some m := lambda_iff.2 ⟨n, hn, hk⟩
        rw [Bool.or_eq_true] at hc
        rcases hc with hc | hc
        · exact Or.inr ⟨⟨m, hl⟩, setjmp_iff.1 hc⟩
        · exact Or.inl ⟨m, hl, hc⟩
      · simp at h
    · simp at h

theorem constraint_parent {P : Prog} {i p : Nat} {n : PNode} (hn : P.nodes[i]? = some n) (hp : n.parent = some p)
    (hk : n.kind ≠ .simple .other) : (i + 1, p + 1) ∈ P.constraints := by
  refine mem_constraints.2 ⟨i, n, hn, ?_⟩
  unfold Prog.constraintsOf
  refine List.mem_append_left _ ?_
  split
  · next h => exact absurd h hk
  · next q hq _ => rw [hp] at hq; cases hq; simp
  · next h _ => rw [hp] at h; cases h

theorem constraint_call {P : Prog} {i t f : Nat} {args : List Nat} {sj : Bool} (ho : P.op i = some (.call t args sj))
    (hf : f ∈ P.ptg.callees t) : (f + 1, i + 1) ∈ P.constraints := by
  obtain ⟨n, hn, hk⟩ := op_iff.1 ho
  refine mem_constraints.2 ⟨i, n, hn, ?_⟩
  unfold Prog.constraintsOf
  refine List.mem_append_right _ ?_
  rw [hk]
  exact List.mem_map.2 ⟨f, hf, rfl⟩

theorem constraint_ext {P : Prog} {f : Nat} (h : P.enterable f) : (f + 1, 0) ∈ P.constraints := by
  have : ∃ m, P.lambda f = some m ∧ (P.callsSetjmp f || P.ptg.ext m) = true := by
    rcases h with ⟨m, hm, he⟩ | ⟨⟨m, hm⟩, h⟩
    · exact ⟨m, hm, by simp [he]⟩
    · exact ⟨m, hm, by simp [setjmp_iff.2 h]⟩
  obtain ⟨m, hm, hc⟩ := this
  obtain ⟨n, hn, hk⟩ := lambda_iff.1 hm
  refine mem_constraints.2 ⟨f, n, hn, ?_⟩
  unfold Prog.constraintsOf
  refine List.mem_append_right _ ?_
  rw [hk]
  simp [hc]

theorem inRange {P : Prog} (hw : P.WF) : P.InRange := by
  intro a b hab
  obtain ⟨i, n, hn, h⟩ := constraint_cases hab
  have hi := getElem?_lt hn
  rcases h with ⟨p, hp, _, _, rfl⟩ | ⟨_, _, _, _, _, _, _, rfl⟩ | ⟨_, _, rfl⟩
  · have := (hw.nested i n p hn hp).2.1; omega
  · omega
  · omega

/-! ## Blocklists -/

theorem WF.functions {P : Prog} (hw : P.WF) : P.Functions := fun t k hk f hf => ⟨k, hw.lambda k (hw.targets t k hk).1 f hf⟩

theorem fn_lambda {P : Prog} (hw : P.WF) : ∀ (i : Nat) (n : PNode), P.nodes[i]? = some n → ∃ m, P.lambda n.fn = some m := by
  intro i
  induction i using Nat.strongRecOn with
  | ind i ih =>
      intro n hn
      cases hp : n.parent with
      | none =>
          obtain ⟨⟨m, hm⟩, hf⟩ := hw.outer i n hn hp
          exact ⟨m, lambda_iff.2 ⟨n, by rw [hf]; exact hn, hm⟩⟩
      | some p =>
          obtain ⟨_, hlt, np, hnp, hf, _⟩ := hw.nested i n p hn hp
          obtain ⟨m, hm⟩ := ih p hlt np hnp
          exact ⟨m, by rw [← hf]; exact hm⟩

theorem contains_simple {P : Prog} (hw : P.WF) (m : Nat) : P.ptg.simpleAllocas.contains m = true ↔ P.ptg.Simple m := by
  rw [List.contains_iff_mem]; exact C49_simple_allocas P.ptg hw.targets m

theorem contains_leads {P : Prog} (hw : P.WF) (roots : List Nat) (m : Nat) :
    (P.ptg.reachable roots).contains m = true ↔ P.ptg.Leads roots m := by
  rw [List.contains_iff_mem]; exact C49_reachable P.ptg hw.targets roots m

/-- **C49** Blocklists are the hidden memory nodes. -/
theorem C49_blocked_iff (P : Prog) (hw : P.WF) (i m : Nat) : P.blocked i m = true ↔ P.Hidden i m := by
  unfold Prog.blocked Prog.Hidden
  cases hn : P.nodes[i]? with
  | none =>
      simp only
      constructor
      · intro h; cases h
      · rintro ⟨_, ⟨t, args, sj, ho, _⟩ | ⟨_, n, hmem, _, hp, _⟩⟩
        · obtain ⟨n, hn', _⟩ := op_iff.1 ho
          rw [hn] at hn'; cases hn'
        · obtain ⟨j, hj⟩ := List.getElem?_of_mem hmem
          obtain ⟨_, _, np, hnp, _⟩ := hw.nested j n i hj hp
          rw [hn] at hnp; cases hnp
  | some n =>
      have hop : ∀ op, P.op i = some op ↔ n.kind = .simple op := by
        intro op
        rw [op_iff]
        constructor
        · rintro ⟨n', h, hk⟩; rw [hn] at h; cases h; exact hk
        · intro h; exact ⟨n, hn, h⟩
      have hnone : P.op i = none ↔ ∀ op, n.kind ≠ .simple op := by
        constructor
        · intro h op hk; rw [(hop op).2 hk] at h; cases h
        · intro h
          cases ho : P.op i with
          | none => rfl
          | some op => exact absurd ((hop op).1 ho) (h op)
      have hnr : P.nonReentrant i m = true ↔ P.ptg.Simple m ∧ ∃ n ∈ P.nodes, n.kind = .simple (.alloca m) ∧ n.parent = some i ∧
          (¬ P.Recursive n.fn ∨ ¬ P.ptg.Leads n.regionArgs m) := by
        unfold Prog.nonReentrant
        rw [Bool.and_eq_true, contains_simple hw, List.any_eq_true]
        refine and_congr_right fun _ => exists_congr fun q => and_congr_right fun hq => ?_
        obtain ⟨j, hj⟩ := List.getElem?_of_mem hq
        obtain ⟨ml, hml⟩ := fn_lambda hw j q hj
        have hrec := C49_recursion P (WF.functions hw) q.fn ml hml
        have hlead := contains_leads hw q.regionArgs m
        split
        · next k hk =>
          rw [Bool.and_eq_true, Bool.and_eq_true, Bool.or_eq_true, hk]
          simp only [beq_iff_eq, NodeKind.simple.injEq, Op.alloca.injEq, Bool.not_eq_true', and_assoc]
          rw [← hrec, ← hlead]
          simp
        · next hne =>
          simp
          intro h
          exact absurd h (hne m)
      simp only
      cases hk : n.kind with
      | lambda ml =>
          simp only
          rw [hnr]
          have h1 : P.op i = none := hnone.2 (by intro op; rw [hk]; intro h; cases h)
          simp [h1]
      | struct =>
          simp only
          rw [hnr]
          have h1 : P.op i = none := hnone.2 (by intro op; rw [hk]; intro h; cases h)
          simp [h1]
      | simple op =>
          have h1 : P.op i = some op := (hop op).2 hk
          rw [h1]
          cases op with
          | call t args sj =>
              simp only
              rw [Bool.and_eq_true, contains_simple hw, Bool.not_eq_true', ← Bool.not_eq_true, contains_leads hw]
              simp
          | _ => simp

end Jlm.ModRef
