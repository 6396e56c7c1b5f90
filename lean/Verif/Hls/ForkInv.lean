import Verif.Hls.ForkProps
set_option linter.unusedSimpArgs false
namespace Jlm.Hls
namespace Graph
variable {G0 G G' : Graph}

/-- `G` has the nodes of `G0` and more -/
structure Grow (G0 G : Graph) : Prop where
  next : G0.next ≤ G.next
  op : ∀ n < G0.next, G.op n = G0.op n ∧ G.nin n = G0.nin n ∧ G.nout n = G0.nout n ∧ G.subs n = G0.subs n
  sig : G.nargs = G0.nargs ∧ G.nres = G0.nres
  added : ∀ r, ∃ l, G.nodes r = G0.nodes r ++ l ∧ ∀ m ∈ l, G0.next ≤ m ∧ m < G.next

theorem Grow.refl (G : Graph) : Grow G G :=
  ⟨Nat.le_refl _, fun _ _ => ⟨rfl, rfl, rfl, rfl⟩, ⟨rfl, rfl⟩, fun _ => ⟨[], by simp, by simp⟩⟩

theorem Grow.same (h : Grow G0 G) (s : Same G G') : Grow G0 G' where
  next := by rw [s.next]; exact h.next
  op := by rw [s.op, s.nin, s.nout, s.subs]; exact h.op
  sig := by rw [s.nargs, s.nres]; exact h.sig
  added := by rw [s.nodes, s.next]; exact h.added

theorem Grow.create (h : Grow G0 G) (r : Nat) (k : Kind) (no : Nat) (o : Org) : Grow G0 (G.create r k no o) where
  next := Nat.le_succ_of_le h.next
  op := by
    intro n hn
    have hne : n ≠ G.next := by have := h.next; omega
    unfold Graph.create
    dsimp only
    rw [if_neg hne, if_neg hne, if_neg hne, if_neg hne]
    exact h.op n hn
  sig := h.sig
  added := by
    intro s
    obtain ⟨l, h1, h2⟩ := h.added s
    have hle := h.next
    show ∃ l', (if s = r then G.nodes s ++ [G.next] else G.nodes s) = _ ∧ ∀ m ∈ l', _ ∧ m < G.next + 1
    by_cases e : s = r
    · refine ⟨l ++ [G.next], by rw [if_pos e, h1, List.append_assoc], fun m hm => ?_⟩
      rcases List.mem_append.1 hm with hm | hm
      · have := h2 m hm; omega
      · rw [List.mem_singleton] at hm; omega
    · exact ⟨l, by rw [if_neg e, h1], fun m hm => by have := h2 m hm; omega⟩

theorem Grow.trans {G1 : Graph} (h : Grow G0 G1) (h' : Grow G1 G) : Grow G0 G where
  next := Nat.le_trans h.next h'.next
  op := by
    intro n hn
    have h1 := h.op n hn
    have h2 := h'.op n (Nat.lt_of_lt_of_le hn h.next)
    exact ⟨h2.1.trans h1.1, h2.2.1.trans h1.2.1, h2.2.2.1.trans h1.2.2.1, h2.2.2.2.trans h1.2.2.2⟩
  sig := ⟨h'.sig.1.trans h.sig.1, h'.sig.2.trans h.sig.2⟩
  added := by
    intro r
    obtain ⟨l, h1, h2⟩ := h.added r
    obtain ⟨l', h3, h4⟩ := h'.added r
    refine ⟨l ++ l', by rw [h3, h1, List.append_assoc], fun m hm => ?_⟩
    have := h.next; have := h'.next
    rcases List.mem_append.1 hm with hm | hm
    · have := h2 m hm; omega
    · have := h4 m hm; omega

theorem Grow.isUse (h : Grow G0 G) {u : Use} (hu : G0.IsUse u) : G.IsUse u := by
  rcases hu with ⟨n, i, rfl, hn, hi⟩ | ⟨r, i, rfl, hi⟩
  · exact Or.inl ⟨n, i, rfl, Nat.lt_of_lt_of_le hn h.next, by rw [(h.op n hn).2.1]; exact hi⟩
  · exact Or.inr ⟨r, i, rfl, by rw [h.sig.2]; exact hi⟩

/-- outputs of nodes that exist -/
def Valid (G : Graph) (o : Org) : Prop := ∀ n i, o = .out n i → n < G.next

theorem IsOutput.valid (hok : G.Ok) {r : Nat} {o : Org} (h : G.IsOutput r o) : G.Valid o := by
  rintro n i rfl
  rcases h with ⟨_, _, e⟩ | ⟨m, hm, j, _, e⟩
  · cases e
  · cases e; exact hok.nodes r n hm

/-! ## Sinks -/

structure SinkInv (G0 G : Graph) : Prop where
  ok : G.Ok
  grow : Grow G0 G
  new : ∀ m, G0.next ≤ m → m < G.next → G.nin m = 1 ∧ G.subs m = [] ∧ G.op m = .sink ∧ G.nout m = 0
  read : ∀ u, G0.IsUse u → G.org u = G0.org u
  users : ∀ o, G.users o = G0.users o ∨ G0.users o = [] ∧ (G.users o).length = 1

theorem SinkInv.step (h : SinkInv G0 G) (p : Nat × Org) (hv : G0.Valid p.2) :
    SinkInv G0 (G.sinkOutput p) ∧ (G.sinkOutput p).users p.2 ≠ [] ∧ ∀ o, G.users o ≠ [] → (G.sinkOutput p).users o ≠ [] := by
  obtain ⟨r, o⟩ := p
  dsimp only at hv ⊢
  unfold sinkOutput
  dsimp only
  by_cases hu : G.users o = []
  · rw [if_pos hu]
    have hle := h.grow.next
    refine ⟨⟨h.ok.create _ _ _ _ fun n i e => Nat.lt_of_lt_of_le (hv n i e) hle, h.grow.create _ _ _ _, ?_, ?_, ?_⟩, ?_, ?_⟩
    · intro m h1 h2
      have h2 : m < G.next + 1 := h2
      unfold create
      dsimp only
      by_cases e : m = G.next
      · simp [e]
      · rw [if_neg e, if_neg e, if_neg e, if_neg e]
        exact h.new m h1 (by omega)
    · intro u hu
      show (if u = .inp G.next 0 then o else G.org u) = _
      rw [if_neg]
      · exact h.read u hu
      · rintro rfl
        exact not_use_next (h.grow.isUse hu)
    · intro o'
      show (if o' = o then _ else _) = _ ∨ _ ∧ (if o' = o then _ else _ : List Use).length = 1
      by_cases e : o' = o
      · rw [if_pos e, e, hu]
        right
        refine ⟨?_, rfl⟩
        rcases h.users o with h' | h'
        · rw [← h', hu]
        · exact h'.1
      · rw [if_neg e]; exact h.users o'
    · show (if o = o then _ else _) ≠ []
      rw [if_pos rfl]; simp
    · intro o' h'
      show (if o' = o then _ else _) ≠ []
      split
      · simp
      · exact h'
  · rw [if_neg hu]
    exact ⟨h, hu, fun _ h => h⟩

theorem SinkInv.fold : ∀ (l : List (Nat × Org)) (G : Graph), SinkInv G0 G → (∀ p ∈ l, G0.Valid p.2) →
    SinkInv G0 (l.foldl sinkOutput G) ∧ (∀ p ∈ l, (l.foldl sinkOutput G).users p.2 ≠ []) ∧ ∀ o, G.users o ≠ [] → (l.foldl sinkOutput G).users o ≠ []
  | [], G, h, _ => ⟨h, by simp, fun _ h => h⟩
  | p :: l, G, h, hv => by
    obtain ⟨h1, h2, h3⟩ := h.step p (hv p List.mem_cons_self)
    obtain ⟨h4, h5, h6⟩ := SinkInv.fold l _ h1 fun q hq => hv q (List.mem_cons_of_mem _ hq)
    refine ⟨h4, fun q hq => ?_, fun o ho => h6 o (h3 o ho)⟩
    rcases List.mem_cons.1 hq with rfl | hq
    · exact h6 _ h2
    · exact h5 q hq

/-! ## Forks -/

structure ForkInv (G0 G : Graph) : Prop where
  ok : G.Ok
  grow : Grow G0 G
  new : ∀ m, G0.next ≤ m → m < G.next → G.nin m = 1 ∧ G.subs m = [] ∧ G.IsFork m
  read : ∀ u, G0.IsUse u → G.org u = G0.org u ∨
    ∃ m j, G0.next ≤ m ∧ m < G.next ∧ j < G.nout m ∧ G.org u = .out m j ∧ G.org (.inp m 0) = G0.org u
  once : ∀ m, G0.next ≤ m → m < G.next → (∀ j < G.nout m, (G.users (.out m j)).length = 1) ∧ (G.users (G.org (.inp m 0))).length = 1
  const : ∀ m, G0.next ≤ m → m < G.next → G.op m = .fork (G.isConstantFork (G.org (.inp m 0)))
  some : ∀ o, G0.Valid o → (G0.users o ≠ [] → G.users o ≠ []) ∧ ((G0.users o).length ≤ 1 → G.users o = G0.users o)

theorem ForkInv.step (h : ForkInv G0 G) (p : Nat × Org) (hv : G0.Valid p.2) :
    ForkInv G0 (G.forkOutput p) ∧ ((G.forkOutput p).users p.2).length ≤ 1 ∧
    ∀ o, G0.Valid o → (G.users o).length ≤ 1 → ((G.forkOutput p).users o).length ≤ 1 := by
  obtain ⟨r, o⟩ := p
  dsimp only at hv ⊢
  by_cases hk : ¬1 < (G.users o).length
  · have e : G.forkOutput (r, o) = G := by unfold forkOutput; dsimp only; rw [if_neg hk]
    rw [e]
    exact ⟨h, by omega, fun _ _ h => h⟩
  rw [Decidable.not_not] at hk
  have hle := h.grow.next
  have hvG : ∀ n i, o = .out n i → n < G.next := fun n i e => Nat.lt_of_lt_of_le (hv n i e) hle
  obtain ⟨M, hok⟩ := forkOutput_spec h.ok r o hvG hk
  generalize G.forkOutput (r, o) = G2 at M hok ⊢
  have ho : ∀ m j, G0.next ≤ m → Org.out m j ≠ o := fun m j hm e => by have := hv m j e.symm; omega
  have huse : ∀ u ∈ G.users o, G.IsUse u ∧ G.org u = o := fun u hu => (h.ok.users o u).1 hu
  have hnext : G2.next = G.next + 1 := M.same.next
  have hnout : ∀ m, G2.nout m = if m = G.next then (G.users o).length else G.nout m := fun m => by rw [M.same.nout]; rfl
  have husers : ∀ o', o' ≠ o → (∀ j, o' ≠ .out G.next j) → G2.users o' = G.users o' := by
    intro o' h1 h2
    rw [M.users o' h1 fun j _ => h2 _]
    show (if o' = o then _ else _) = _
    rw [if_neg h1]
  have horg : ∀ u, u ∉ G.users o → u ≠ .inp G.next 0 → G2.org u = G.org u := by
    intro u h1 h2
    rw [M.org u h1]
    show (if u = _ then _ else _) = _
    rw [if_neg h2]
  have hx : Use.inp G.next 0 ∉ G.users o := fun h' => not_use_next (huse _ h').1
  have horgx : G2.org (.inp G.next 0) = o := by
    rw [M.org _ hx]
    show (if _ = _ then _ else _) = _
    rw [if_pos rfl]
  have hnew : ∀ j < (G.users o).length, (G2.users (.out G.next j)).length = 1 := by
    intro j hj
    have := (M.out j _ (List.getElem?_eq_getElem hj)).1
    rw [Nat.zero_add] at this
    rw [this]; rfl
  -- the operand of a fork that is there already
  have hfork : ∀ m, G0.next ≤ m → m < G.next → G2.org (.inp m 0) = G.org (.inp m 0) ∧ G.org (.inp m 0) ≠ o ∧ G.IsUse (.inp m 0) := by
    intro m h1 h2
    have h3 := (h.once m h1 h2).2
    have h4 : G.org (.inp m 0) ≠ o := fun e => by rw [e] at h3; omega
    refine ⟨horg _ (fun h' => h4 (huse _ h').2) (by intro e; injection e with e; omega), h4, ?_⟩
    exact Or.inl ⟨m, 0, rfl, h2, by rw [(h.new m h1 h2).1]; omega⟩
  have hconst : ∀ q, (∀ i, q ≠ .out G.next i) → G2.isConstantFork q = G.isConstantFork q := by
    intro q hq
    cases q with
    | arg _ _ => rfl
    | out n i =>
      unfold isConstantFork
      rw [M.same.nin]
      show decide ((if n = G.next then 1 else G.nin n) = 0) = _
      rw [if_neg (fun e => hq i (by rw [e]))]
  refine ⟨⟨hok, (h.grow.create r _ _ o).same M.same, ?_, ?_, ?_, ?_, ?_⟩, by rw [M.rest]; simp, ?_⟩
  · intro m h1 h2
    rw [hnext] at h2
    unfold IsFork
    rw [M.same.nin, M.same.subs, M.same.op]
    unfold Graph.create
    dsimp only
    by_cases e : m = G.next
    · rw [if_pos e, if_pos e, if_pos e]
      exact ⟨rfl, rfl, _, rfl⟩
    · rw [if_neg e, if_neg e, if_neg e]
      exact h.new m h1 (by omega)
  · intro u hu
    by_cases hul : u ∈ G.users o
    · obtain ⟨j, hj, e⟩ := List.getElem_of_mem hul
      have := (M.out j u (by rw [List.getElem?_eq_getElem hj, e])).2
      rw [Nat.zero_add] at this
      refine Or.inr ⟨G.next, j, hle, by omega, by rw [hnout, if_pos rfl]; exact hj, this, ?_⟩
      rw [horgx]
      rcases h.read u hu with h' | ⟨m, i, h1, _, _, h3, _⟩
      · rw [← h', (huse u hul).2]
      · rw [(huse u hul).2] at h3
        exact absurd h3.symm (ho m i h1)
    · rw [horg u hul (fun e => not_use_next (e ▸ h.grow.isUse hu))]
      rcases h.read u hu with h' | ⟨m, i, h1, h2, h3, h4, h5⟩
      · exact Or.inl h'
      · refine Or.inr ⟨m, i, h1, by omega, by rw [hnout, if_neg (by omega)]; exact h3, h4, ?_⟩
        rw [(hfork m h1 h2).1, h5]
  · intro m h1 h2
    rw [hnext] at h2
    by_cases e : m = G.next
    · subst e
      rw [hnout, if_pos rfl, horgx, M.rest]
      exact ⟨hnew, rfl⟩
    · have h2 : m < G.next := by omega
      obtain ⟨h3, h4, h5⟩ := hfork m h1 h2
      obtain ⟨h6, h7⟩ := h.once m h1 h2
      rw [hnout, if_neg e, h3]
      constructor
      · intro j hj
        rw [husers _ (ho m j h1) (by intro j' e'; injection e' with e'; exact e e')]
        exact h6 j hj
      · rw [husers _ h4 (by intro j e'; exact Nat.lt_irrefl _ (h.ok.operand _ _ _ h5 e'))]
        exact h7
  · intro m h1 h2
    rw [hnext] at h2
    have hop : G2.op m = if m = G.next then .fork (G.isConstantFork o) else G.op m := by rw [M.same.op]; rfl
    by_cases e : m = G.next
    · subst e
      rw [hop, if_pos rfl, horgx, hconst o (fun i e => Nat.lt_irrefl _ (hvG _ _ e))]
    · have h2 : m < G.next := by omega
      obtain ⟨h3, _, h5⟩ := hfork m h1 h2
      rw [hop, if_neg e, h3, hconst _ (fun i e' => Nat.lt_irrefl _ (h.ok.operand _ _ _ h5 e'))]
      exact h.const m h1 h2
  · intro o' hv'
    by_cases e : o' = o
    · subst e
      refine ⟨fun _ => by rw [M.rest]; simp, fun hl => ?_⟩
      have := (h.some o' hv').2 hl
      rw [this] at hk
      omega
    · rw [husers o' e (by rintro j rfl; have := hv' _ _ rfl; omega)]
      exact h.some o' hv'
  · intro o' hv' hl
    by_cases e : o' = o
    · subst e; rw [M.rest]; simp
    · rw [husers o' e (by rintro j rfl; have := hv' _ _ rfl; omega)]
      exact hl

theorem ForkInv.fold : ∀ (l : List (Nat × Org)) (G : Graph), ForkInv G0 G → (∀ p ∈ l, G0.Valid p.2) →
    ForkInv G0 (l.foldl forkOutput G) ∧ (∀ p ∈ l, ((l.foldl forkOutput G).users p.2).length ≤ 1) ∧
      ∀ o, G0.Valid o → (G.users o).length ≤ 1 → ((l.foldl forkOutput G).users o).length ≤ 1
  | [], G, h, _ => ⟨h, by simp, fun _ _ h => h⟩
  | p :: l, G, h, hv => by
    obtain ⟨h1, h2, h3⟩ := h.step p (hv p List.mem_cons_self)
    obtain ⟨h4, h5, h6⟩ := ForkInv.fold l _ h1 fun q hq => hv q (List.mem_cons_of_mem _ hq)
    refine ⟨h4, fun q hq => ?_, fun o h7 ho => h6 o h7 (h3 o h7 ho)⟩
    rcases List.mem_cons.1 hq with rfl | hq
    · exact h6 _ (hv _ List.mem_cons_self) h2
    · exact h5 q hq

end Graph
end Jlm.Hls
