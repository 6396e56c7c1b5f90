import Verif.Hls.ForkInv
set_option linter.unusedSimpArgs false
/-
C62: the insertion of sinks and forks, and the check that follows.
-/
namespace Jlm.Hls
namespace Graph
variable {G G' : Graph}

theorem used_iff (h : G.Ok) (o : Org) : G.Used o ↔ G.users o ≠ [] := by
  constructor
  · rintro ⟨u, h1, h2⟩ e
    have := (h.users o u).2 ⟨h1, h2⟩
    rw [e] at this
    exact absurd this List.not_mem_nil
  · intro e
    obtain ⟨u, hu⟩ := List.exists_mem_of_ne_nil _ e
    exact ⟨u, (h.users o u).1 hu⟩

theorem usedOnce_iff (h : G.Ok) (o : Org) : G.UsedOnce o ↔ (G.users o).length ≤ 1 := by
  constructor
  · intro hu
    match e : G.users o with
    | [] => simp
    | [_] => simp
    | u :: v :: l =>
      exfalso
      have h1 := (h.users o u).1 (by rw [e]; simp)
      have h2 := (h.users o v).1 (by rw [e]; simp)
      have := hu u v h1.1 h2.1 h1.2 h2.2
      have hn := h.nodup o
      rw [e, this] at hn
      simp at hn
  · intro hl u v h1 h2 h3 h4
    have hu := (h.users o u).2 ⟨h1, h3⟩
    have hv := (h.users o v).2 ⟨h2, h4⟩
    match e : G.users o, hl with
    | [], _ => rw [e] at hu; exact absurd hu List.not_mem_nil
    | [w], _ =>
      rw [e, List.mem_singleton] at hu hv
      rw [hu, hv]
    | _ :: _ :: _, hl => simp at hl

theorem once_iff (h : G.Ok) (o : Org) : (G.Used o ∧ G.UsedOnce o) ↔ (G.users o).length = 1 := by
  rw [used_iff h, usedOnce_iff h, ← List.length_pos_iff]
  omega

/-- regions below stay the same if new nodes have no subregions -/
theorem Grow.below_back (h : Grow G G') (hok : G.Ok) (hn : ∀ m, G.next ≤ m → m < G'.next → G'.subs m = []) {r s : Nat} (hb : G'.Below r s) :
    G.Below r s := by
  induction hb with
  | refl => exact .refl
  | @step s t n _ h1 h2 ih =>
    obtain ⟨l, e, hl⟩ := h.added s
    rw [e] at h1
    rcases List.mem_append.1 h1 with h1 | h1
    · rw [(h.op n (hok.nodes s n h1)).2.2.2] at h2
      exact ih.step h1 h2
    · have := hl n h1
      rw [hn n this.1 this.2] at h2
      exact absurd h2 List.not_mem_nil

theorem Grow.below (h : Grow G G') (hok : G.Ok) {r s : Nat} (hb : G.Below r s) : G'.Below r s := by
  induction hb with
  | refl => exact .refl
  | @step s t n _ h1 h2 ih =>
    obtain ⟨l, e, _⟩ := h.added s
    refine ih.step (by rw [e]; exact List.mem_append_left _ h1) ?_
    rw [(h.op n (hok.nodes s n h1)).2.2.2]
    exact h2

theorem Grow.nested (h : Grow G G') (hok : G.Ok) (hn : ∀ m, G.next ≤ m → m < G'.next → G'.subs m = []) {rank : Nat → Nat} (hr : G.Nested rank) :
    G'.Nested rank := by
  intro r n s h1 h2
  obtain ⟨l, e, hl⟩ := h.added r
  rw [e] at h1
  rcases List.mem_append.1 h1 with h1 | h1
  · rw [(h.op n (hok.nodes r n h1)).2.2.2] at h2
    exact hr r n s h1 h2
  · have := hl n h1
    rw [hn n this.1 this.2] at h2
    exact absurd h2 List.not_mem_nil

/-- an output of the new graph is an old one, or of a new node -/
theorem Grow.isOutput (h : Grow G G') (hok : G.Ok) {r : Nat} {o : Org} (ho : G'.IsOutput r o) :
    G.IsOutput r o ∨ ∃ m i, G.next ≤ m ∧ m < G'.next ∧ i < G'.nout m ∧ o = .out m i := by
  rcases ho with ⟨i, hi, rfl⟩ | ⟨n, h1, i, hi, rfl⟩
  · rw [h.sig.1] at hi
    exact Or.inl (Or.inl ⟨i, hi, rfl⟩)
  · obtain ⟨l, e, hl⟩ := h.added r
    rw [e] at h1
    rcases List.mem_append.1 h1 with h1 | h1
    · rw [(h.op n (hok.nodes r n h1)).2.2.1] at hi
      exact Or.inl (Or.inr ⟨n, h1, i, hi, rfl⟩)
    · have := hl n h1
      exact Or.inr ⟨n, i, this.1, this.2, hi, rfl⟩

theorem Grow.isOutput_mono (h : Grow G G') (hok : G.Ok) {r : Nat} {o : Org} (ho : G.IsOutput r o) : G'.IsOutput r o := by
  rcases ho with ⟨i, hi, rfl⟩ | ⟨n, h1, i, hi, rfl⟩
  · exact Or.inl ⟨i, by rw [h.sig.1]; exact hi, rfl⟩
  · obtain ⟨l, e, _⟩ := h.added r
    exact Or.inr ⟨n, by rw [e]; exact List.mem_append_left _ h1, i, by rw [(h.op n (hok.nodes r n h1)).2.2.1]; exact hi, rfl⟩

variable {rank : Nat → Nat}

theorem sinks_inv (hok : G.Ok) (hr : G.Nested rank) (f : Nat) (hf : rank 0 < f) :
    SinkInv G (G.addSinks f) ∧ ∀ n ∈ G.nodes 0, ∀ s ∈ G.subs n, ∀ r o, G.Below s r → G.IsOutput r o → (G.addSinks f).users o ≠ [] := by
  have hmem : ∀ r o, (r, o) ∈ ((G.nodes 0).flatMap fun n => (G.subs n).flatMap (G.outs f)) ↔
      ∃ n ∈ G.nodes 0, ∃ s ∈ G.subs n, G.Below s r ∧ G.IsOutput r o := by
    intro r o
    simp only [List.mem_flatMap]
    constructor
    · rintro ⟨n, hn, s, hs, h⟩
      exact ⟨n, hn, s, hs, (mem_outs hr f s (by have := hr 0 n s hn hs; omega) r o).1 h⟩
    · rintro ⟨n, hn, s, hs, h⟩
      exact ⟨n, hn, s, hs, (mem_outs hr f s (by have := hr 0 n s hn hs; omega) r o).2 h⟩
  have h0 : SinkInv G G := ⟨hok, .refl G, fun m _ _ => by omega, fun _ _ => rfl, fun _ => Or.inl rfl⟩
  obtain ⟨h1, h2, _⟩ := SinkInv.fold _ G h0 (fun p hp => by
    obtain ⟨n, _, s, _, _, ho⟩ := (hmem p.1 p.2).1 hp
    exact ho.valid hok)
  exact ⟨h1, fun n hn s hs r o hb ho => h2 (r, o) ((hmem r o).2 ⟨n, hn, s, hs, hb, ho⟩)⟩

theorem forks_inv (hok : G.Ok) (hr : G.Nested rank) (f : Nat) (hf : rank 0 < f) :
    ForkInv G (G.addForks f) ∧ ∀ r o, G.Below 0 r → G.IsOutput r o → ((G.addForks f).users o).length ≤ 1 := by
  have h0 : ForkInv G G := ⟨hok, .refl G, fun m _ _ => by omega, fun _ _ => Or.inl rfl, fun m _ _ => by omega, fun m _ _ => by omega,
    fun _ _ => ⟨fun h => h, fun _ => rfl⟩⟩
  obtain ⟨h1, h2, _⟩ := ForkInv.fold _ G h0 (fun p hp => ((mem_outs hr f 0 hf p.1 p.2).1 hp).2.valid hok)
  exact ⟨h1, fun r o hb ho => h2 (r, o) ((mem_outs hr f 0 hf r o).2 ⟨hb, ho⟩)⟩

/-- **C62, the passes only add.** After both passes the graph is consistent, and extends the graph by forks and sinks:
every input and result reads what it read before, at most through one new fork. -/
theorem C62_extends (G : Graph) (hok : G.Ok) (rank : Nat → Nat) (hr : G.Nested rank) (f : Nat) (hf : rank 0 < f) :
    ((G.addSinks f).addForks f).Ok ∧ Extends G ((G.addSinks f).addForks f) := by
  obtain ⟨h1, _⟩ := sinks_inv hok hr f hf
  obtain ⟨h2, _⟩ := forks_inv h1.ok (h1.grow.nested hok (fun m a b => (h1.new m a b).2.1) hr) f hf
  refine ⟨h2.ok, ?_⟩
  have hg := h1.grow.trans h2.grow
  refine ⟨hg.next, hg.op, hg.sig, hg.added, ?_, ?_⟩
  · intro m a b
    by_cases hm : m < (G.addSinks f).next
    · have h3 := h2.grow.op m hm
      have h4 := h1.new m a hm
      exact ⟨h3.2.1.trans h4.1, h3.2.2.2.trans h4.2.1, Or.inr ⟨h3.1.trans h4.2.2.1, h3.2.2.1.trans h4.2.2.2⟩⟩
    · have h3 := h2.new m (by omega) b
      exact ⟨h3.1, h3.2.1, Or.inl h3.2.2⟩
  · intro u hu
    rw [← h1.read u hu]
    rcases h2.read u (h1.grow.isUse hu) with h | ⟨m, j, a, b, c, d, e⟩
    · exact Or.inl h
    · have := h1.grow.next
      exact Or.inr ⟨m, j, by omega, b, (h2.new m a b).2.2, c, d, e⟩

/-- **C62, constants.** A new fork is a constant fork exactly if its operand is the output of a node without inputs. -/
theorem C62_constant (G : Graph) (hok : G.Ok) (rank : Nat → Nat) (hr : G.Nested rank) (f : Nat) (hf : rank 0 < f) (m : Nat) (c : Bool)
    (hm : G.next ≤ m) (hm' : m < ((G.addSinks f).addForks f).next) (h : ((G.addSinks f).addForks f).op m = .fork c) :
    c = true ↔ ∃ n i, ((G.addSinks f).addForks f).org (.inp m 0) = .out n i ∧ ((G.addSinks f).addForks f).nin n = 0 := by
  obtain ⟨h1, _⟩ := sinks_inv hok hr f hf
  obtain ⟨h2, _⟩ := forks_inv h1.ok (h1.grow.nested hok (fun m a b => (h1.new m a b).2.1) hr) f hf
  by_cases e : m < (G.addSinks f).next
  · rw [(h2.grow.op m e).1, (h1.new m hm e).2.2.1] at h
    cases h
  · rw [h2.const m (by omega) hm'] at h
    injection h with h
    rw [← h]
    unfold isConstantFork
    cases ((G.addSinks f).addForks f).org (.inp m 0) with
    | out n i => simp
    | arg r i => simp

/-- **C62, values.** If the outputs of a fork carry the value of its operand, every input and result receives the
value of the output that it read before. -/
theorem C62_values (G : Graph) (hok : G.Ok) (rank : Nat → Nat) (hr : G.Nested rank) (f : Nat) (hf : rank 0 < f) {V : Type} (val : Org → V)
    (hv : ∀ m, ((G.addSinks f).addForks f).IsFork m → ∀ j, val (.out m j) = val (((G.addSinks f).addForks f).org (.inp m 0))) (u : Use) (hu : G.IsUse u) :
    val (((G.addSinks f).addForks f).org u) = val (G.org u) := by
  rcases (C62_extends G hok rank hr f hf).2.read u hu with h | ⟨m, j, _, _, hm, _, h1, h2⟩
  · rw [h]
  · rw [h1, hv m hm j, h2]

/-- **C62, one reader.** After both passes no output is read twice; every output below the root region, of old and of new
nodes, is read. -/
theorem C62_once (G : Graph) (hok : G.Ok) (rank : Nat → Nat) (hr : G.Nested rank) (f : Nat) (hf : rank 0 < f) :
    (∀ r o, ((G.addSinks f).addForks f).Below 0 r → ((G.addSinks f).addForks f).IsOutput r o → ((G.addSinks f).addForks f).UsedOnce o) ∧
    ∀ n ∈ ((G.addSinks f).addForks f).nodes 0, ∀ s ∈ ((G.addSinks f).addForks f).subs n, ∀ r o, ((G.addSinks f).addForks f).Below s r →
      ((G.addSinks f).addForks f).IsOutput r o → ((G.addSinks f).addForks f).Used o := by
  obtain ⟨h1, hs⟩ := sinks_inv hok hr f hf
  have hsub1 : ∀ m, G.next ≤ m → m < (G.addSinks f).next → (G.addSinks f).subs m = [] := fun m a b => (h1.new m a b).2.1
  have hr1 := h1.grow.nested hok hsub1 hr
  obtain ⟨h2, hfk⟩ := forks_inv h1.ok hr1 f hf
  have hsub2 : ∀ m, (G.addSinks f).next ≤ m → m < ((G.addSinks f).addForks f).next → ((G.addSinks f).addForks f).subs m = [] :=
    fun m a b => (h2.new m a b).2.1
  constructor
  · intro r o hb ho
    rw [usedOnce_iff h2.ok]
    rcases h2.grow.isOutput h1.ok ho with h | ⟨m, i, a, b, c, rfl⟩
    · exact hfk r o (h2.grow.below_back h1.ok hsub2 hb) h
    · rw [(h2.once m a b).1 i c]; exact Nat.le_refl _
  · intro n hn s hsn r o hb ho
    rw [used_iff h2.ok]
    rcases h2.grow.isOutput h1.ok ho with h | ⟨m, i, a, b, c, rfl⟩
    · refine (h2.some o (h.valid h1.ok)).1 ?_
      rcases h1.grow.isOutput hok h with h' | ⟨m, i, a, b, c, _⟩
      · -- the node of the root region is an old one
        have hold : ∀ {A B : Graph}, Grow A B → A.Ok → (∀ m, A.next ≤ m → m < B.next → B.subs m = []) → n ∈ B.nodes 0 → s ∈ B.subs n →
            n ∈ A.nodes 0 ∧ s ∈ A.subs n := by
          intro A B hg hA hn' h3 h4
          obtain ⟨l, e, hl⟩ := hg.added 0
          rw [e] at h3
          rcases List.mem_append.1 h3 with h3 | h3
          · exact ⟨h3, by rw [← (hg.op n (hA.nodes 0 n h3)).2.2.2]; exact h4⟩
          · have := hl n h3
            rw [hn' n this.1 this.2] at h4
            exact absurd h4 List.not_mem_nil
        obtain ⟨h3, h4⟩ := hold h2.grow h1.ok hsub2 hn hsn
        obtain ⟨h5, h6⟩ := hold h1.grow hok hsub1 h3 h4
        exact hs n h5 s h6 r o (h1.grow.below_back hok hsub1 (h2.grow.below_back h1.ok hsub2 hb)) h'
      · rw [(h1.new m a b).2.2.2] at c; omega
    · have := (h2.once m a b).1 i c
      intro e
      rw [e] at this
      simp at this

/-- **C62, idle.** An output with one reader is left alone, so a second run adds nothing, and the nodes that a pass adds
need no treatment. -/
theorem C62_idle (G : Graph) (hok : G.Ok) (p : Nat × Org) :
    (G.Used p.2 → G.sinkOutput p = G) ∧ (G.UsedOnce p.2 → G.forkOutput p = G) := by
  constructor
  · intro h
    unfold sinkOutput
    rw [if_neg ((used_iff hok _).1 h)]
  · intro h
    unfold forkOutput
    dsimp only
    rw [if_neg (by have := (usedOnce_iff hok _).1 h; omega)]

/-! ## The check -/

theorem checkRegion_iff (hok : G.Ok) (hr : G.Nested rank) (hs : ∀ r, ∀ n ∈ G.nodes r, G.op n ≠ .loop → G.op n ≠ .lambda → G.op n ≠ .otherStructural → G.subs n = []) :
    ∀ f r, rank r < f → (G.checkRegion f r = true ↔ ∀ s, G.Below r s → ∀ n ∈ G.nodes s, G.op n ≠ .lambda ∧ G.op n ≠ .otherStructural ∧
      ∀ i < G.nout n, G.Used (.out n i) ∧ G.UsedOnce (.out n i))
  | 0, _, h => by omega
  | f + 1, r, hf => by
    have ih := fun n (hn : n ∈ G.nodes r) t (ht : t ∈ G.subs n) => checkRegion_iff hok hr hs f t (by have := hr r n t hn ht; omega)
    have hout : ∀ n, ((G.outputs n).all fun o => (G.users o).length == 1) = true ↔ ∀ i < G.nout n, G.Used (.out n i) ∧ G.UsedOnce (.out n i) := by
      intro n
      rw [List.all_eq_true]
      constructor
      · intro h i hi
        rw [once_iff hok]
        exact beq_iff_eq.1 (h _ (mem_outputs.2 ⟨i, hi, rfl⟩))
      · intro h o ho
        obtain ⟨i, hi, rfl⟩ := mem_outputs.1 ho
        exact beq_iff_eq.2 ((once_iff hok _).1 (h i hi))
    simp only [checkRegion, List.all_eq_true, Bool.and_eq_true]
    constructor
    · intro h s hb m hm
      rcases hb.cases_head with rfl | ⟨n, hn, t, ht, hb⟩
      · obtain ⟨h1, h2⟩ := h m hm
        refine ⟨?_, ?_, (hout m).1 (by rw [List.all_eq_true]; exact h2)⟩
        · intro e; rw [e] at h1; cases h1
        · intro e; rw [e] at h1; cases h1
      · obtain ⟨h1, _⟩ := h n hn
        cases hk : G.op n with
        | loop =>
          rw [hk] at h1
          dsimp only at h1
          exact (ih n hn t ht).1 (List.all_eq_true.1 h1 t ht) s hb m hm
        | lambda => rw [hk] at h1; cases h1
        | otherStructural => rw [hk] at h1; cases h1
        | simple => rw [hs r n hn (by simp [hk]) (by simp [hk]) (by simp [hk])] at ht; exact absurd ht List.not_mem_nil
        | fork c => rw [hs r n hn (by simp [hk]) (by simp [hk]) (by simp [hk])] at ht; exact absurd ht List.not_mem_nil
        | sink => rw [hs r n hn (by simp [hk]) (by simp [hk]) (by simp [hk])] at ht; exact absurd ht List.not_mem_nil
    · intro h n hn
      obtain ⟨h1, h2, h3⟩ := h r .refl n hn
      refine ⟨?_, by have := (hout n).2 h3; rwa [List.all_eq_true] at this⟩
      cases hk : G.op n with
      | loop =>
        dsimp only
        rw [List.all_eq_true]
        intro t ht
        exact (ih n hn t ht).2 fun s hb m hm => h s ((Below.refl.step hn ht).trans hb) m hm
      | lambda => exact absurd hk h1
      | otherStructural => exact absurd hk h2
      | _ => rfl

/-- **C62, the check is exact.** It passes exactly if the root region holds one function and nothing else, its body and everything
nested in it consists of loops and simple nodes, and each of their outputs has exactly one reader. -/
theorem C62_check_exact (G : Graph) (hok : G.Ok) (rank : Nat → Nat) (hr : G.Nested rank)
    (hs : ∀ r, ∀ n ∈ G.nodes r, G.op n ≠ .loop → G.op n ≠ .lambda → G.op n ≠ .otherStructural → G.subs n = []) (f : Nat) (hf : rank 0 < f) :
    G.check f = true ↔ ∃ l, G.nodes 0 = [l] ∧ G.op l = .lambda ∧ ∀ t ∈ G.subs l, ∀ s, G.Below t s → ∀ n ∈ G.nodes s,
      G.op n ≠ .lambda ∧ G.op n ≠ .otherStructural ∧ ∀ i < G.nout n, G.Used (.out n i) ∧ G.UsedOnce (.out n i) := by
  unfold check
  constructor
  · intro h
    split at h
    · rename_i l hl
      split at h
      · rename_i hop
        refine ⟨l, hl, hop, fun t ht => ?_⟩
        exact (checkRegion_iff hok hr hs f t (by have := hr 0 l t (by rw [hl]; simp) ht; omega)).1 (List.all_eq_true.1 h t ht)
      · cases h
    · cases h
  · rintro ⟨l, hl, hop, h⟩
    rw [hl]
    dsimp only
    rw [if_pos hop, List.all_eq_true]
    intro t ht
    exact (checkRegion_iff hok hr hs f t (by have := hr 0 l t (by rw [hl]; simp) ht; omega)).2 (h t ht)

/-- **C62, the check passes.** For one function whose body consists of loops and simple nodes, and that is not itself used
twice, the check passes after both passes. -/
theorem C62_check (G : Graph) (hok : G.Ok) (rank : Nat → Nat) (hr : G.Nested rank)
    (hs : ∀ r, ∀ n ∈ G.nodes r, G.op n ≠ .loop → G.op n ≠ .lambda → G.op n ≠ .otherStructural → G.subs n = []) (f : Nat) (hf : rank 0 < f)
    (l : Nat) (hl : G.nodes 0 = [l]) (hop : G.op l = .lambda) (hroot : ∀ o, G.IsOutput 0 o → G.UsedOnce o)
    (hkind : ∀ t ∈ G.subs l, ∀ s, G.Below t s → ∀ n ∈ G.nodes s, G.op n ≠ .lambda ∧ G.op n ≠ .otherStructural) :
    ((G.addSinks f).addForks f).check f = true := by
  obtain ⟨hok2, hext⟩ := C62_extends G hok rank hr f hf
  obtain ⟨ho1, ho2⟩ := C62_once G hok rank hr f hf
  obtain ⟨h1, _⟩ := sinks_inv hok hr f hf
  have hsub1 : ∀ m, G.next ≤ m → m < (G.addSinks f).next → (G.addSinks f).subs m = [] := fun m a b => (h1.new m a b).2.1
  obtain ⟨h2, _⟩ := forks_inv h1.ok (h1.grow.nested hok hsub1 hr) f hf
  have hg : Grow G ((G.addSinks f).addForks f) := ⟨hext.next, hext.op, hext.sig, hext.added⟩
  have hsub : ∀ m, G.next ≤ m → m < ((G.addSinks f).addForks f).next → ((G.addSinks f).addForks f).subs m = [] := fun m a b => (hext.new m a b).2.1
  -- no node is added to the root region
  have hroot2 : ((G.addSinks f).addForks f).nodes 0 = [l] := by
    have hfold : ∀ (L : List (Nat × Org)) (A : Graph), SinkInv G A → (∀ p ∈ L, p.1 ≠ 0 ∧ G.Valid p.2) →
        (L.foldl sinkOutput A).nodes 0 = A.nodes 0 := by
      intro L
      induction L with
      | nil => intro A _ _; rfl
      | cons p L ih =>
        intro A hA hL
        rw [List.foldl_cons, ih _ (hA.step p (hL p List.mem_cons_self).2).1 fun q hq => hL q (List.mem_cons_of_mem _ hq)]
        unfold sinkOutput
        split
        · show (if 0 = p.1 then _ else _) = _
          rw [if_neg (fun e => (hL p List.mem_cons_self).1 e.symm)]
        · rfl
    have hne : ∀ {A : Graph} {t s : Nat}, A.Nested rank → A.Below t s → rank s ≤ rank t := by
      intro A t s hA hb
      induction hb with
      | refl => exact Nat.le_refl _
      | step _ h3 h4 ih => have := hA _ _ _ h3 h4; omega
    have e1 : (G.addSinks f).nodes 0 = [l] := by
      rw [← hl]
      refine hfold _ G ⟨hok, .refl G, fun m _ _ => by omega, fun _ _ => rfl, fun _ => Or.inl rfl⟩ fun p hp => ?_
      simp only [List.mem_flatMap] at hp
      obtain ⟨n, hn, s, hsn, hp⟩ := hp
      have h3 := hr 0 n s hn hsn
      obtain ⟨h4, h5⟩ := (mem_outs hr f s (by omega) p.1 p.2).1 hp
      have := hne hr h4
      exact ⟨fun e => by rw [e] at this; omega, h5.valid hok⟩
    have hfold2 : ∀ (L : List (Nat × Org)) (A : Graph), ForkInv (G.addSinks f) A → (∀ p ∈ L, (G.addSinks f).Valid p.2) →
        (∀ p ∈ L, p.1 = 0 → (A.users p.2).length ≤ 1) → (L.foldl forkOutput A).nodes 0 = A.nodes 0 := by
      intro L
      induction L with
      | nil => intro A _ _ _; rfl
      | cons p L ih =>
        intro A hA hL h0
        obtain ⟨h3, _, h5⟩ := hA.step p (hL p List.mem_cons_self)
        rw [List.foldl_cons, ih _ h3 (fun q hq => hL q (List.mem_cons_of_mem _ hq))
          (fun q hq e => h5 q.2 (hL q (List.mem_cons_of_mem _ hq)) (h0 q (List.mem_cons_of_mem _ hq) e))]
        by_cases hk : 1 < (A.users p.2).length
        · have hle := hA.grow.next
          obtain ⟨M, _⟩ := forkOutput_spec hA.ok p.1 p.2 (fun n i e => Nat.lt_of_lt_of_le (hL p List.mem_cons_self n i e) hle) hk
          have := M.same.nodes
          show (A.forkOutput (p.1, p.2)).nodes 0 = _
          rw [this]
          show (if 0 = p.1 then _ else _) = _
          rw [if_neg]
          intro e
          have := h0 p List.mem_cons_self e.symm
          omega
        · unfold forkOutput
          dsimp only
          rw [if_neg hk]
    rw [← e1]
    have hr1 := h1.grow.nested hok hsub1 hr
    refine hfold2 _ _ ⟨h1.ok, .refl _, fun m _ _ => by omega, fun _ _ => Or.inl rfl, fun m _ _ => by omega, fun m _ _ => by omega,
      fun _ _ => ⟨fun h => h, fun _ => rfl⟩⟩ (fun p hp => ((mem_outs hr1 f 0 hf p.1 p.2).1 hp).2.valid h1.ok) fun p hp e => ?_
    have h3 := ((mem_outs hr1 f 0 hf p.1 p.2).1 hp).2
    rw [e] at h3
    rcases h1.grow.isOutput hok h3 with h4 | ⟨m, i, a, b, c, _⟩
    · have h5 := (usedOnce_iff hok _).1 (hroot _ h4)
      rcases h1.users p.2 with h6 | h6
      · rw [h6]; exact h5
      · rw [h6.2]; exact Nat.le_refl _
    · rw [(h1.new m a b).2.2.2] at c; omega
  have hll : l < G.next := hok.nodes 0 l (by rw [hl]; simp)
  refine (C62_check_exact _ hok2 rank (hg.nested hok hsub hr) ?_ f hf).2 ⟨l, hroot2, ?_, ?_⟩
  · intro r n hn h3 h4 h5
    obtain ⟨L, e, hL⟩ := hg.added r
    rw [e] at hn
    rcases List.mem_append.1 hn with hn | hn
    · have h6 := hext.op n (hok.nodes r n hn)
      rw [h6.1] at h3 h4 h5
      rw [h6.2.2.2]
      exact hs r n hn h3 h4 h5
    · have := hL n hn
      exact hsub n this.1 this.2
  · rw [(hext.op l hll).1, hop]
  · intro t ht s hb n hn
    rw [(hext.op l hll).2.2.2] at ht
    have hb' := hg.below_back hok hsub hb
    have h3 : ∀ i < ((G.addSinks f).addForks f).nout n, ((G.addSinks f).addForks f).Used (.out n i) ∧ ((G.addSinks f).addForks f).UsedOnce (.out n i) := by
      intro i hi
      have hio : ((G.addSinks f).addForks f).IsOutput s (.out n i) := Or.inr ⟨n, hn, i, hi, rfl⟩
      have hl2 : l ∈ ((G.addSinks f).addForks f).nodes 0 := by rw [hroot2]; simp
      have ht2 : t ∈ ((G.addSinks f).addForks f).subs l := by rw [(hext.op l hll).2.2.2]; exact ht
      exact ⟨ho2 l hl2 t ht2 s _ hb hio, ho1 s _ ((Below.refl.step hl2 ht2).trans hb) hio⟩
    obtain ⟨L, e, hL⟩ := hg.added s
    rw [e] at hn
    rcases List.mem_append.1 hn with hn | hn
    · have h4 := hext.op n (hok.nodes s n hn)
      rw [h4.1]
      exact ⟨(hkind t ht s hb' n hn).1, (hkind t ht s hb' n hn).2, h3⟩
    · have h4 := hL n hn
      rcases (hext.new n h4.1 h4.2).2.2 with ⟨c, h5⟩ | ⟨h5, _⟩
      · rw [h5]; exact ⟨by simp, by simp, h3⟩
      · rw [h5]; exact ⟨by simp, by simp, h3⟩

end Graph
end Jlm.Hls
