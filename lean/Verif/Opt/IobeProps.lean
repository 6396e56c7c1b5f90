import Verif.Opt.IobeSpec
import Mathlib.Tactic.Tauto
import Mathlib.Data.List.Nodup
set_option linter.unusedVariables false
set_option linter.unusedSimpArgs false
/-
Proofs about the marks and the sweep of the elimination of I/O barriers.
-/
namespace Jlm.Opt.Iobe
variable {G : Graph}

/-! ## Marks -/

def Has (c : Ctx) (o : Org) (size : Nat) : Prop := ∃ z, c o = some z ∧ size ≤ z

theorem has_mark {c : Ctx} {o o' : Org} {z size : Nat} : Has (mark c o' z) o size ↔ Has c o size ∨ (o' = o ∧ size ≤ z) := by
  unfold Has mark
  by_cases h : o = o'
  · subst h
    rw [if_pos rfl]
    cases hc : c o with
    | none => simp
    | some y =>
      dsimp only
      by_cases hlt : y < z
      · simp only [if_pos hlt, Option.some.injEq]
        constructor
        · rintro ⟨_, rfl, h⟩; exact Or.inr ⟨trivial, h⟩
        · rintro (⟨_, rfl, h⟩ | ⟨_, h⟩)
          · exact ⟨_, rfl, by omega⟩
          · exact ⟨_, rfl, h⟩
      · simp only [if_neg hlt, Option.some.injEq]
        constructor
        · rintro ⟨_, rfl, h⟩; exact Or.inl ⟨_, rfl, h⟩
        · rintro (⟨_, rfl, h⟩ | ⟨_, h⟩)
          · exact ⟨_, rfl, h⟩
          · exact ⟨_, rfl, by omega⟩
  · rw [if_neg h]
    constructor
    · exact Or.inl
    · rintro (h' | ⟨e, _⟩)
      · exact h'
      · exact absurd e.symm h

theorem barrier?_some {o : Org} {b : Nat} : G.barrier? o = some b ↔ ∃ i, o = .out b i ∧ G.op b = .barrier := by
  cases o with
  | arg r i => simp [Graph.barrier?]
  | out n i =>
    unfold Graph.barrier?
    by_cases h : G.op n = .barrier
    · simp only [if_pos h, Option.some.injEq]
      constructor
      · rintro rfl; exact ⟨i, rfl, h⟩
      · rintro ⟨_, e, _⟩; cases e; rfl
    · simp only [if_neg h]
      constructor
      · intro h; cases h
      · rintro ⟨_, e, h'⟩; cases e; exact absurd h' h

theorem barred_iff {n b : Nat} : Barred G n b ↔ G.barrier? (G.addr n) = some b := barrier?_some.symm

theorem barrier?_none {n : Nat} : G.barrier? (G.addr n) = none ↔ ∀ b, ¬Barred G n b := by
  constructor
  · intro h b hb
    rw [barred_iff, h] at hb; cases hb
  · intro h
    cases hc : G.barrier? (G.addr n) with
    | none => rfl
    | some b => exact absurd (barred_iff.2 hc) (h b)

theorem isLambdaArg_iff {o : Org} : G.isLambdaArg o = true ↔ ∃ r i, o = .arg r i ∧ G.lam r = true := by
  cases o with
  | arg r i => simp [Graph.isLambdaArg]
  | out n i => simp [Graph.isLambdaArg]

theorem has_markLoad {c : Ctx} {n z : Nat} (hn : G.op n = .load z) {o : Org} {size : Nat} :
    Has (markLoad G n z c) o size ↔ Has c o size ∨ Says G n o size := by
  have hs : ∀ P : Prop, ((∃ y, G.op n = .load y ∧ size ≤ y) ∧ P) ↔ (size ≤ z ∧ P) := by
    intro P
    constructor
    · rintro ⟨⟨y, hy, h⟩, hp⟩; rw [hn] at hy; cases hy; exact ⟨h, hp⟩
    · rintro ⟨h, hp⟩; exact ⟨⟨z, hn, h⟩, hp⟩
  unfold Says
  rw [hs]
  unfold markLoad
  cases hb : G.barrier? (G.addr n) with
  | none =>
    have hb := barrier?_none.1 hb
    dsimp only
    rw [has_mark]
    constructor
    · rintro (h | ⟨h1, h2⟩)
      · exact Or.inl h
      · exact Or.inr ⟨h2, Or.inl ⟨h1, hb⟩⟩
    · rintro (h | ⟨h1, ⟨h2, _⟩ | ⟨b, h2, _⟩⟩)
      · exact Or.inl h
      · exact Or.inr ⟨h2, h1⟩
      · exact absurd h2 (hb b)
  | some b =>
    have hb' := barred_iff.2 hb
    have hu : ∀ b', Barred G n b' → b' = b := by
      intro b' h; rw [barred_iff, hb] at h; exact (Option.some.inj h).symm
    dsimp only
    by_cases hl : G.isLambdaArg (G.io b) = true
    · rw [if_pos hl, has_mark]
      constructor
      · rintro (h | ⟨h1, h2⟩)
        · exact Or.inl h
        · exact Or.inr ⟨h2, Or.inr ⟨b, hb', h1, isLambdaArg_iff.1 hl⟩⟩
      · rintro (h | ⟨h1, ⟨_, h2⟩ | ⟨b', h2, h3, _⟩⟩)
        · exact Or.inl h
        · exact absurd hb' (h2 b)
        · rw [hu b' h2] at h3; exact Or.inr ⟨h3, h1⟩
    · rw [if_neg hl]
      constructor
      · exact Or.inl
      · rintro (h | ⟨h1, ⟨_, h2⟩ | ⟨b', h2, _, h3⟩⟩)
        · exact h
        · exact absurd hb' (h2 b)
        · rw [hu b' h2] at h3; exact absurd (isLambdaArg_iff.2 h3) hl

theorem has_foldl {F : Ctx → Nat → Ctx} {P : Nat → Prop} {o : Org} {size : Nat} : ∀ (l : List Nat) (c : Ctx),
    (∀ n ∈ l, ∀ c, Has (F c n) o size ↔ Has c o size ∨ P n) → (Has (l.foldl F c) o size ↔ Has c o size ∨ ∃ n ∈ l, P n)
  | [], c, _ => by simp
  | n :: l, c, h => by
    rw [List.foldl_cons, has_foldl l _ (fun m hm => h m (List.mem_cons_of_mem _ hm)), h n List.mem_cons_self]
    simp only [List.mem_cons, exists_eq_or_imp]
    tauto

theorem within_head {r s : Nat} : Within G r s ↔ s = r ∨ ∃ t, Sub G r t ∧ Within G t s := by
  constructor
  · intro h
    induction h with
    | refl => exact Or.inl rfl
    | step h hs ih =>
      rcases ih with rfl | ⟨t, h1, h2⟩
      · exact Or.inr ⟨_, hs, .refl⟩
      · exact Or.inr ⟨t, h1, h2.step hs⟩
  · rintro (rfl | ⟨t, h1, h2⟩)
    · exact .refl
    · induction h2 with
      | refl => exact Within.refl.step h1
      | step _ hs ih => exact ih.step hs

theorem has_markRegion {order : Nat → List Nat} (ho : ∀ r n, n ∈ order r ↔ n ∈ G.nodes r) {rank : Nat → Nat}
    (hr : ∀ r s, Sub G r s → rank s < rank r) {o : Org} {size : Nat} : ∀ (f r : Nat) (c : Ctx), rank r < f →
    (Has (markRegion G order f r c) o size ↔ Has c o size ∨ ∃ s n, Within G r s ∧ n ∈ G.nodes s ∧ Says G n o size)
  | 0, r, c, h => by omega
  | f + 1, r, c, h => by
    rw [markRegion, has_foldl (P := fun n => (Says G n o size) ∨ ∃ t, (G.op n = .lambda t ∨ G.op n = .phi t) ∧
      ∃ s m, Within G t s ∧ m ∈ G.nodes s ∧ Says G m o size)]
    · refine or_congr Iff.rfl ?_
      constructor
      · rintro ⟨n, hn, h1 | ⟨t, ht, s, m, h1, h2⟩⟩
        · exact ⟨r, n, .refl, (ho r n).1 hn, h1⟩
        · exact ⟨s, m, within_head.2 (Or.inr ⟨t, ⟨n, (ho r n).1 hn, ht⟩, h1⟩), h2⟩
      · rintro ⟨s, m, h1, h2⟩
        rcases within_head.1 h1 with rfl | ⟨t, ⟨n, hn, ht⟩, h3⟩
        · exact ⟨m, (ho _ m).2 h2.1, Or.inl h2.2⟩
        · exact ⟨n, (ho _ n).2 hn, Or.inr ⟨t, ht, s, m, h3, h2⟩⟩
    · intro n hn c
      have hsub : ∀ t, (G.op n = .lambda t ∨ G.op n = .phi t) → rank t < f := by
        intro t ht
        have := hr r t ⟨n, (ho r n).1 hn, ht⟩
        omega
      have hno : (∀ z, G.op n ≠ .load z) → ¬Says G n o size := by
        rintro h ⟨⟨z, hz, _⟩, _⟩; exact h z hz
      cases hk : G.op n with
      | load z =>
        dsimp only
        rw [has_markLoad hk]
        simp
      | lambda t =>
        dsimp only
        rw [has_markRegion ho hr f t c (hsub t (Or.inl hk))]
        have := hno (by rw [hk]; simp)
        simp [this]
      | phi t =>
        dsimp only
        rw [has_markRegion ho hr f t c (hsub t (Or.inr hk))]
        have := hno (by rw [hk]; simp)
        simp [this]
      | barrier => have := hno (by rw [hk]; simp); simp [this]
      | other => have := hno (by rw [hk]; simp); simp [this]

/-! ## The sweep -/

def sweepNode (c : Ctx) (G : Graph) (n : Nat) : Graph :=
  match G.op n with
  | .load size => sweepLoad G c n size
  | _ => G

def walk (op : Nat → Kind) (nodes : Nat → List Nat) : Nat → Nat → List Nat
  | 0, _ => []
  | f + 1, r => (nodes r).flatMap fun n =>
      match op n with
      | .phi s => walk op nodes f s
      | .lambda s => walk op nodes f s
      | _ => [n]

/-- only addresses of loads differ -/
structure Alike (G G' : Graph) : Prop where
  op : G'.op = G.op
  nodes : G'.nodes = G.nodes
  lam : G'.lam = G.lam
  inp : ∀ n, (∀ z, G.op n ≠ .load z) → G'.inp n = G.inp n

theorem Alike.refl : Alike G G := ⟨rfl, rfl, rfl, fun _ _ => rfl⟩
theorem Alike.trans {G' G'' : Graph} (h : Alike G G') (h' : Alike G' G'') : Alike G G'' :=
  ⟨h'.op.trans h.op, h'.nodes.trans h.nodes, h'.lam.trans h.lam, fun n hn => (h'.inp n (by rw [h.op]; exact hn)).trans (h.inp n hn)⟩

theorem sweepNode_alike (c : Ctx) (G : Graph) (n : Nat) : Alike G (sweepNode c G n) ∧ ∀ m, m ≠ n → (sweepNode c G n).inp m = G.inp m := by
  unfold sweepNode
  cases hk : G.op n with
  | load z =>
    dsimp only
    unfold sweepLoad
    cases G.barrier? (G.addr n) with
    | none => exact ⟨.refl, fun _ _ => rfl⟩
    | some b =>
      dsimp only
      cases c (G.addr b) with
      | none => exact ⟨.refl, fun _ _ => rfl⟩
      | some y =>
        dsimp only
        split
        · exact ⟨.refl, fun _ _ => rfl⟩
        · have h : ∀ m, m ≠ n → (G.setAddr n (G.addr b)).inp m = G.inp m := fun m hm => if_neg hm
          refine ⟨⟨rfl, rfl, rfl, fun m hm => h m ?_⟩, h⟩
          rintro rfl; exact hm z hk
  | _ => exact ⟨.refl, fun _ _ => rfl⟩

theorem fold_alike (c : Ctx) : ∀ (l : List Nat) (G : Graph), Alike G (l.foldl (sweepNode c) G)
  | [], G => .refl
  | n :: l, G => (sweepNode_alike c G n).1.trans (fold_alike c l _)

theorem sweepRegion_walk (c : Ctx) : ∀ (f r : Nat) (G : Graph), sweepRegion c f r G = (walk G.op G.nodes f r).foldl (sweepNode c) G
  | 0, r, G => rfl
  | f + 1, r, G => by
    rw [sweepRegion, walk]
    have key : ∀ (l : List Nat) (G1 : Graph), Alike G G1 →
        l.foldl (fun G n => match G.op n with
          | .phi s => sweepRegion c f s G
          | .lambda s => sweepRegion c f s G
          | .load size => sweepLoad G c n size
          | _ => G) G1 =
        (l.flatMap fun n => match G.op n with
          | .phi s => walk G.op G.nodes f s
          | .lambda s => walk G.op G.nodes f s
          | _ => [n]).foldl (sweepNode c) G1 := by
      intro l
      induction l with
      | nil => intro G1 _; rfl
      | cons n l ih =>
        intro G1 h1
        rw [List.foldl_cons, List.flatMap_cons, List.foldl_append]
        have e : (match G1.op n with
            | .phi s => sweepRegion c f s G1
            | .lambda s => sweepRegion c f s G1
            | .load size => sweepLoad G1 c n size
            | _ => G1) = (match G.op n with
          | .phi s => walk G.op G.nodes f s
          | .lambda s => walk G.op G.nodes f s
          | _ => [n]).foldl (sweepNode c) G1 := by
          rw [← h1.op, ← h1.nodes]
          cases hk : G1.op n with
          | phi s => exact sweepRegion_walk c f s G1
          | lambda s => exact sweepRegion_walk c f s G1
          | load z => show _ = sweepNode c G1 n; unfold sweepNode; rw [hk]
          | barrier => show _ = sweepNode c G1 n; unfold sweepNode; rw [hk]
          | other => show _ = sweepNode c G1 n; unfold sweepNode; rw [hk]
        rw [e]
        exact ih _ (h1.trans (fold_alike c _ _))
    exact key _ G .refl

theorem res_congr {c : Ctx} {G G1 : Graph} (h : Alike G G1) {n : Nat} (hn : G1.inp n = G.inp n) :
    (sweepNode c G1 n).inp n = (sweepNode c G n).inp n := by
  have ha : G1.addr n = G.addr n := by unfold Graph.addr Graph.origin; rw [hn]
  have hb : ∀ o, G1.barrier? o = G.barrier? o := by intro o; unfold Graph.barrier?; rw [h.op]
  have hab : ∀ b, G.barrier? (G.addr n) = some b → G1.addr b = G.addr b := by
    intro b hb
    obtain ⟨_, _, hop⟩ := barrier?_some.1 hb
    unfold Graph.addr Graph.origin; rw [h.inp b (by rw [hop]; simp)]
  unfold sweepNode
  rw [h.op]
  cases hk : G.op n with
  | load z =>
    dsimp only
    unfold sweepLoad
    rw [ha, hb]
    cases hc : G.barrier? (G.addr n) with
    | none => exact hn
    | some b =>
      dsimp only
      rw [hab b hc]
      cases c (G.addr b) with
      | none => exact hn
      | some y =>
        dsimp only
        split
        · exact hn
        · show (if n = n then _ else _) = (if n = n then _ else _)
          rw [if_pos rfl, if_pos rfl, hn]
  | _ => exact hn

theorem fold_inp (c : Ctx) (G : Graph) : ∀ (l : List Nat), l.Nodup → ∀ (G1 : Graph), Alike G G1 → (∀ n ∈ l, G1.inp n = G.inp n) → ∀ m,
    (l.foldl (sweepNode c) G1).inp m = if m ∈ l then (sweepNode c G m).inp m else G1.inp m
  | [], _, G1, _, _, m => by simp
  | n :: l, hn, G1, h1, h2, m => by
    have hn := List.nodup_cons.1 hn
    obtain ⟨h3, h4⟩ := sweepNode_alike c G1 n
    rw [List.foldl_cons, fold_inp c G l hn.2 _ (h1.trans h3) (by
      intro k hk
      rw [h4 k (by rintro rfl; exact hn.1 hk)]; exact h2 k (List.mem_cons_of_mem _ hk))]
    by_cases hm : m ∈ l
    · rw [if_pos hm, if_pos (List.mem_cons_of_mem _ hm)]
    · rw [if_neg hm]
      by_cases e : m = n
      · subst e
        rw [if_pos List.mem_cons_self]
        exact res_congr h1 (h2 m List.mem_cons_self)
      · rw [if_neg (by rw [List.mem_cons]; rintro (h | h); exacts [e h, hm h]), h4 m e]

/-! ## The walk visits every node once -/

theorem within_rank {rank : Nat → Nat} (hr : ∀ r s, Sub G r s → rank s < rank r) {r s : Nat} (h : Within G r s) : s = r ∨ rank s < rank r := by
  induction h with
  | refl => exact Or.inl rfl
  | step _ hs ih =>
    have := hr _ _ hs
    rcases ih with rfl | h
    · exact Or.inr this
    · exact Or.inr (by omega)

theorem mem_walk {rank : Nat → Nat} (hr : ∀ r s, Sub G r s → rank s < rank r) : ∀ (f r : Nat) (n : Nat), rank r < f →
    (n ∈ walk G.op G.nodes f r ↔ ∃ s, Within G r s ∧ n ∈ G.nodes s ∧ ∀ t, G.op n ≠ .lambda t ∧ G.op n ≠ .phi t)
  | 0, r, n, h => by omega
  | f + 1, r, n, h => by
    rw [walk, List.mem_flatMap]
    constructor
    · rintro ⟨m, hm, h'⟩
      cases hk : G.op m with
      | phi s =>
        rw [hk] at h'
        have hs : Sub G r s := ⟨m, hm, Or.inr hk⟩
        obtain ⟨t, h1, h2⟩ := (mem_walk hr f s n (by have := hr _ _ hs; omega)).1 h'
        exact ⟨t, within_head.2 (Or.inr ⟨s, hs, h1⟩), h2⟩
      | lambda s =>
        rw [hk] at h'
        have hs : Sub G r s := ⟨m, hm, Or.inl hk⟩
        obtain ⟨t, h1, h2⟩ := (mem_walk hr f s n (by have := hr _ _ hs; omega)).1 h'
        exact ⟨t, within_head.2 (Or.inr ⟨s, hs, h1⟩), h2⟩
      | load z => rw [hk] at h'; rw [List.mem_singleton] at h'; subst h'; exact ⟨r, .refl, hm, by rw [hk]; simp⟩
      | barrier => rw [hk] at h'; rw [List.mem_singleton] at h'; subst h'; exact ⟨r, .refl, hm, by rw [hk]; simp⟩
      | other => rw [hk] at h'; rw [List.mem_singleton] at h'; subst h'; exact ⟨r, .refl, hm, by rw [hk]; simp⟩
    · rintro ⟨s, h1, h2, h3⟩
      rcases within_head.1 h1 with rfl | ⟨t, ⟨m, hm, ht⟩, h4⟩
      · refine ⟨n, h2, ?_⟩
        cases hk : G.op n with
        | phi t => exact absurd hk (h3 t).2
        | lambda t => exact absurd hk (h3 t).1
        | _ => exact List.mem_singleton.2 rfl
      · have := hr r t ⟨m, hm, ht⟩
        have := (mem_walk hr f t n (by omega)).2 ⟨s, h4, h2, h3⟩
        refine ⟨m, hm, ?_⟩
        rcases ht with ht | ht <;> rw [ht] <;> exact this

theorem within_linear {rank : Nat → Nat} (T : Tree G rank) {a b x : Nat} (ha : Within G a x) (hb : Within G b x) : Within G a b ∨ Within G b a := by
  induction ha with
  | refl => exact Or.inr hb
  | step h hs ih =>
    cases hb with
    | refl => exact Or.inl (h.step hs)
    | step h' hs' =>
      obtain ⟨n, hn, h1⟩ := hs
      obtain ⟨m, hm, h2⟩ := hs'
      have e := T.owner _ _ _ h1 h2
      subst e
      have e := T.home _ _ _ hn hm
      subst e
      exact ih h'

theorem walk_nodup {rank : Nat → Nat} (T : Tree G rank) : ∀ (f r : Nat), rank r < f → (walk G.op G.nodes f r).Nodup
  | 0, r, h => by omega
  | f + 1, r, h => by
    rw [walk]
    have hr := T.rank
    have key : ∀ n ∈ G.nodes r, ∀ x, x ∈ (match G.op n with
          | .phi s => walk G.op G.nodes f s
          | .lambda s => walk G.op G.nodes f s
          | _ => [n]) → (x = n ∧ ∀ t, G.op n ≠ .lambda t ∧ G.op n ≠ .phi t) ∨
          ∃ t s, (G.op n = .lambda t ∨ G.op n = .phi t) ∧ Within G t s ∧ x ∈ G.nodes s := by
      intro n hn x hx
      cases hk : G.op n with
      | phi s =>
        rw [hk] at hx
        obtain ⟨t, h1, h2, _⟩ := (mem_walk hr f s x (by have := hr _ _ ⟨n, hn, Or.inr hk⟩; omega)).1 hx
        exact Or.inr ⟨s, t, Or.inr rfl, h1, h2⟩
      | lambda s =>
        rw [hk] at hx
        obtain ⟨t, h1, h2, _⟩ := (mem_walk hr f s x (by have := hr _ _ ⟨n, hn, Or.inl hk⟩; omega)).1 hx
        exact Or.inr ⟨s, t, Or.inl rfl, h1, h2⟩
      | load z => rw [hk] at hx; exact Or.inl ⟨List.mem_singleton.1 hx, by simp⟩
      | barrier => rw [hk] at hx; exact Or.inl ⟨List.mem_singleton.1 hx, by simp⟩
      | other => rw [hk] at hx; exact Or.inl ⟨List.mem_singleton.1 hx, by simp⟩
    rw [List.nodup_flatMap]
    constructor
    · intro n hn
      cases hk : G.op n with
      | phi s => exact walk_nodup T f s (by have := hr _ _ ⟨n, hn, Or.inr hk⟩; omega)
      | lambda s => exact walk_nodup T f s (by have := hr _ _ ⟨n, hn, Or.inl hk⟩; omega)
      | _ => exact List.nodup_singleton _
    · refine (T.nodup r).imp_of_mem ?_
      intro a b ha hb hne
      refine List.disjoint_left.2 ?_
      intro x hxa hxb
      have inner : ∀ m ∈ G.nodes r, ∀ t s, (G.op m = .lambda t ∨ G.op m = .phi t) → Within G t s → x ∈ G.nodes s → x ∉ G.nodes r := by
        intro m hm t s h1 h2 h3 h4
        have e := T.home _ _ _ h3 h4
        subst e
        have := hr _ _ ⟨m, hm, h1⟩
        rcases within_rank hr h2 with e | h
        · rw [e] at this; omega
        · omega
      rcases key a ha x hxa with ⟨h1, _⟩ | ⟨t, s, h1, h2, h3⟩
      · rcases key b hb x hxb with ⟨h4, _⟩ | ⟨t', s', h4, h5, h6⟩
        · exact hne (h1.symm.trans h4)
        · subst h1; exact inner b hb t' s' h4 h5 h6 ha
      · rcases key b hb x hxb with ⟨h4, _⟩ | ⟨t', s', h4, h5, h6⟩
        · subst h4; exact inner a ha t s h1 h2 h3 hb
        · have e := T.home _ _ _ h3 h6
          subst e
          have sep : ∀ a b t t', a ∈ G.nodes r → b ∈ G.nodes r → a ≠ b → (G.op a = .lambda t ∨ G.op a = .phi t) →
              (G.op b = .lambda t' ∨ G.op b = .phi t') → ¬Within G t t' := by
            intro a b t t' ha hb hne h1 h4 hw
            cases hw with
            | refl => exact hne (T.owner _ _ _ h1 h4)
            | step hw hs =>
              obtain ⟨m, hm, h7⟩ := hs
              have e := T.owner _ _ _ h7 h4
              subst e
              have e := T.home _ _ _ hm hb
              subst e
              have := hr _ _ ⟨a, ha, h1⟩
              rcases within_rank hr hw with e | h
              · rw [e] at this; omega
              · omega
          rcases within_linear T h2 h5 with hw | hw
          · exact sep a b t t' ha hb hne h1 h4 hw
          · exact sep b a t' t hb ha (Ne.symm hne) h4 h1 hw

end Jlm.Opt.Iobe
