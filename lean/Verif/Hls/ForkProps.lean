import Verif.Hls.ForkSpec
set_option linter.unusedSimpArgs false
namespace Jlm.Hls
namespace Graph
variable {G G' : Graph}

/-! ## The list of outputs -/

theorem Below.trans {r s t : Nat} (h : G.Below r s) (h' : G.Below s t) : G.Below r t := by
  induction h' with
  | refl => exact h
  | step _ h1 h2 ih => exact ih.step h1 h2

theorem Below.cases_head {r t : Nat} (h : G.Below r t) : t = r ∨ ∃ n ∈ G.nodes r, ∃ s ∈ G.subs n, G.Below s t := by
  induction h with
  | refl => exact Or.inl rfl
  | @step s t n _ h1 h2 ih =>
    rcases ih with rfl | ⟨m, h3, s', h4, h5⟩
    · exact Or.inr ⟨n, h1, t, h2, .refl⟩
    · exact Or.inr ⟨m, h3, s', h4, h5.step h1 h2⟩

theorem mem_outputs {n : Nat} {o : Org} : o ∈ G.outputs n ↔ ∃ i < G.nout n, o = .out n i := by
  simp only [outputs, List.mem_map, List.mem_range]
  constructor
  · rintro ⟨i, h, rfl⟩; exact ⟨i, h, rfl⟩
  · rintro ⟨i, h, rfl⟩; exact ⟨i, h, rfl⟩

theorem mem_outs {rank : Nat → Nat} (hr : G.Nested rank) : ∀ f r, rank r < f → ∀ s o, (s, o) ∈ G.outs f r ↔ G.Below r s ∧ G.IsOutput s o
  | 0, _, h, _, _ => by omega
  | f + 1, r, hf, s, o => by
    have ih := fun n (hn : n ∈ G.nodes r) t (ht : t ∈ G.subs n) => mem_outs hr f t (by have := hr r n t hn ht; omega) s o
    simp only [outs, List.mem_append, List.mem_map, List.mem_range, List.mem_flatMap]
    constructor
    · rintro (⟨i, hi, h⟩ | ⟨n, hn, ⟨t, ht, h⟩ | ⟨o', ho, h⟩⟩)
      · cases h; exact ⟨.refl, Or.inl ⟨i, hi, rfl⟩⟩
      · have := (ih n hn t ht).1 h
        exact ⟨(Below.refl.step hn ht).trans this.1, this.2⟩
      · cases h
        obtain ⟨i, hi, rfl⟩ := mem_outputs.1 ho
        exact ⟨.refl, Or.inr ⟨n, hn, i, hi, rfl⟩⟩
    · rintro ⟨hb, ho⟩
      rcases hb.cases_head with rfl | ⟨n, hn, t, ht, hb⟩
      · rcases ho with ⟨i, hi, rfl⟩ | ⟨n, hn, i, hi, rfl⟩
        · exact Or.inl ⟨i, hi, rfl⟩
        · exact Or.inr ⟨n, hn, Or.inr ⟨_, mem_outputs.2 ⟨i, hi, rfl⟩, rfl⟩⟩
      · exact Or.inr ⟨n, hn, Or.inl ⟨t, ht, (ih n hn t ht).2 ⟨hb, ho⟩⟩⟩

/-! ## New nodes -/

theorem isUse_create (G : Graph) (r : Nat) (k : Kind) (no : Nat) (o : Org) (u : Use) :
    (G.create r k no o).IsUse u ↔ G.IsUse u ∨ u = .inp G.next 0 := by
  unfold IsUse create
  dsimp only
  constructor
  · rintro (⟨n, i, rfl, hn, hi⟩ | h)
    · by_cases e : n = G.next
      · rw [if_pos e] at hi
        right; rw [e]; congr 1; omega
      · rw [if_neg e] at hi
        exact Or.inl (Or.inl ⟨n, i, rfl, by omega, hi⟩)
    · exact Or.inl (Or.inr h)
  · rintro ((⟨n, i, rfl, hn, hi⟩ | h) | rfl)
    · exact Or.inl ⟨n, i, rfl, by omega, by rw [if_neg (by omega)]; exact hi⟩
    · exact Or.inr h
    · exact Or.inl ⟨_, _, rfl, by omega, by rw [if_pos rfl]; omega⟩

theorem not_use_next : ¬G.IsUse (.inp G.next 0) := by
  rintro (⟨n, i, h, hn, _⟩ | ⟨r, i, h, _⟩)
  · cases h; omega
  · cases h

theorem Ok.create (h : G.Ok) (r : Nat) (k : Kind) (no : Nat) (o : Org) (ho : ∀ n i, o = .out n i → n < G.next) :
    (G.create r k no o).Ok where
  nodup := by
    intro o'
    show (if o' = o then _ else _ : List Use).Nodup
    split
    · rw [List.nodup_append]
      refine ⟨h.nodup _, by simp, ?_⟩
      intro a ha b hb e
      rw [List.mem_singleton] at hb
      rw [e, hb] at ha
      exact not_use_next ((h.users _ _).1 ha).1
    · exact h.nodup _
  users := by
    intro o' u
    rw [isUse_create]
    show (u ∈ if o' = o then _ else _) ↔ _ ∧ (if u = .inp G.next 0 then o else G.org u) = o'
    by_cases hu : u = .inp G.next 0
    · rw [if_pos hu]
      have hn : u ∉ G.users o' := fun hm => not_use_next (hu ▸ ((h.users _ _).1 hm).1)
      by_cases e : o' = o
      · rw [if_pos e]; simp [hu, e]
      · rw [if_neg e]
        exact ⟨fun hm => absurd hm hn, fun hm => absurd hm.2.symm e⟩
    · rw [if_neg hu]
      by_cases e : o' = o
      · rw [if_pos e, List.mem_append, h.users]; simp [hu]
      · rw [if_neg e, h.users]; simp [hu]
  operand := by
    intro u n i hu
    show (if u = .inp G.next 0 then o else G.org u) = _ → n < G.next + 1
    rw [isUse_create] at hu
    split
    · intro e; have := ho n i e; omega
    · rename_i hne
      intro e
      have := h.operand u n i (hu.resolve_right hne) e
      omega
  nodes := by
    intro s n
    show (n ∈ if s = r then _ else _) → n < G.next + 1
    split
    · intro hn
      rcases List.mem_append.1 hn with hn | hn
      · have := h.nodes s n hn; omega
      · rw [List.mem_singleton] at hn; omega
    · intro hn; have := h.nodes s n hn; omega

/-! ## The loop -/

/-- the fields that `divert` leaves alone -/
structure Same (G G' : Graph) : Prop where
  op : G'.op = G.op
  nin : G'.nin = G.nin
  nout : G'.nout = G.nout
  nodes : G'.nodes = G.nodes
  subs : G'.subs = G.subs
  nargs : G'.nargs = G.nargs
  nres : G'.nres = G.nres
  next : G'.next = G.next

theorem Same.refl (G : Graph) : Same G G := ⟨rfl, rfl, rfl, rfl, rfl, rfl, rfl, rfl⟩

theorem Same.trans {G'' : Graph} (h : Same G G') (h' : Same G' G'') : Same G G'' :=
  ⟨h'.op.trans h.op, h'.nin.trans h.nin, h'.nout.trans h.nout, h'.nodes.trans h.nodes, h'.subs.trans h.subs,
    h'.nargs.trans h.nargs, h'.nres.trans h.nres, h'.next.trans h.next⟩

theorem Same.divert (G : Graph) (u : Use) (o : Org) : Same G (G.divert u o) := by
  unfold Graph.divert
  split
  · exact .refl _
  · exact ⟨rfl, rfl, rfl, rfl, rfl, rfl, rfl, rfl⟩

/-- the users `L` of `o` have become users of the outputs of `m` -/
structure Moved (G G' : Graph) (m : Nat) (o : Org) (cur : Nat) (L : List Use) : Prop where
  same : Same G G'
  rest : G'.users o = [.inp m 0]
  out : ∀ j u, L[j]? = some u → G'.users (.out m (cur + j)) = [u] ∧ G'.org u = .out m (cur + j)
  users : ∀ o', o' ≠ o → (∀ j < L.length, o' ≠ .out m (cur + j)) → G'.users o' = G.users o'
  org : ∀ u, u ∉ L → G'.org u = G.org u

theorem forkLoop_moved (m : Nat) (o : Org) : ∀ (L : List Use) (f cur : Nat) (G : Graph), L.length ≤ f → L.Nodup → .inp m 0 ∉ L →
    (∀ j, o ≠ .out m j) → G.users o = L ++ [.inp m 0] → (∀ j, cur ≤ j → G.users (.out m j) = []) → (∀ u ∈ L, G.org u = o) →
    Moved G (forkLoop m o f cur G) m o cur L
  | [], f, cur, G, _, _, _, ho, hu, _, _ => by
    have e : forkLoop m o f cur G = G := by
      cases f with
      | zero => rfl
      | succ f => rw [forkLoop, if_pos (by rw [hu]; rfl)]
    rw [e]
    exact ⟨.refl _, hu, fun j u h => by simp at h, fun _ _ _ => rfl, fun _ _ => rfl⟩
  | u :: L, 0, _, _, h, _, _, _, _, _, _ => by simp at h
  | u :: L, f + 1, cur, G, hf, hn, hx, ho, hu, hout, horg => by
    have hux : u ≠ .inp m 0 := fun e => hx (e ▸ List.mem_cons_self)
    have hou : G.org u = o := horg u List.mem_cons_self
    have e : forkLoop m o (f + 1) cur G = forkLoop m o f (cur + 1) (G.divert u (.out m cur)) := by
      rw [forkLoop, if_neg (by rw [hu]; simp), hu]
      rw [List.cons_append]
      show (match (if u = .inp m 0 then _ else some u) with | none => G | some u => _) = _
      rw [if_neg hux]
    rw [e]
    have hd : G.divert u (.out m cur) = { G with
        org := fun u' => if u' = u then .out m cur else G.org u'
        users := fun o' => if o' = .out m cur then G.users o' ++ [u] else if o' = G.org u then (G.users o').erase u else G.users o' } := by
      unfold divert
      rw [if_neg (by rw [hou]; exact ho cur)]
    rw [List.nodup_cons] at hn
    have hs := Same.divert G u (.out m cur)
    have husers : ∀ o', (G.divert u (.out m cur)).users o' =
        if o' = .out m cur then G.users o' ++ [u] else if o' = G.org u then (G.users o').erase u else G.users o' := by
      intro o'; rw [hd]
    have horgs : ∀ u', (G.divert u (.out m cur)).org u' = if u' = u then .out m cur else G.org u' := by
      intro u'; rw [hd]
    have ih := forkLoop_moved m o L f (cur + 1) (G.divert u (.out m cur)) (by simp at hf; omega) hn.2
      (fun h => hx (List.mem_cons_of_mem _ h)) ho
      (by rw [husers, if_neg (ho cur), if_pos hou.symm, hu, List.cons_append, List.erase_cons_head])
      (by
        intro j hj
        rw [husers, if_neg (by intro e; injection e with _ e; omega), if_neg (by rw [hou]; exact fun e => ho j e.symm)]
        exact hout j (by omega))
      (by
        intro v hv
        rw [horgs, if_neg (fun e : v = u => hn.1 (by rw [← e]; exact hv))]
        exact horg v (List.mem_cons_of_mem _ hv))
    refine ⟨hs.trans ih.same, ih.rest, ?_, ?_, ?_⟩
    · intro j v hv
      cases j with
      | zero =>
        simp at hv
        subst hv
        constructor
        · rw [ih.users _ (fun e => ho _ e.symm) (by intro j _ e; injection e with _ e; omega), husers, if_pos (by simp), Nat.add_zero,
            hout cur (Nat.le_refl _)]
          rfl
        · rw [ih.org _ hn.1, horgs, if_pos rfl]; rfl
      | succ j =>
        rw [List.getElem?_cons_succ] at hv
        have := ih.out j v hv
        rw [show cur + 1 + j = cur + (j + 1) by omega] at this
        exact this
    · intro o' h1 h2
      rw [ih.users o' h1 (by
        intro j hj
        have := h2 (j + 1) (by simp; omega)
        rw [show cur + 1 + j = cur + (j + 1) by omega]
        exact this), husers, if_neg (by have := h2 0 (by simp); rwa [Nat.add_zero] at this), if_neg (by rw [hou]; exact h1)]
    · intro v hv
      rw [List.mem_cons, not_or] at hv
      rw [ih.org v hv.2, horgs, if_neg hv.1]

theorem Same.isUse (h : Same G G') (u : Use) : G'.IsUse u ↔ G.IsUse u := by
  unfold IsUse
  rw [h.next, h.nin, h.nres]

/-- the loop keeps the graph consistent -/
theorem Moved.ok {m cur : Nat} {o : Org} {L : List Use} (h : Moved G G' m o cur L) (hok : G.Ok) (hn : L.Nodup) (hx : .inp m 0 ∉ L)
    (ho : ∀ j, o ≠ .out m j) (hu : G.users o = L ++ [.inp m 0]) (hout : ∀ j, G.users (.out m j) = []) (hm : m < G.next) : G'.Ok := by
  have hL : ∀ u ∈ L, ∃ j < L.length, L[j]? = some u ∧ G'.org u = .out m (cur + j) := by
    intro u hm
    obtain ⟨j, hj, e⟩ := List.getElem_of_mem hm
    have e' : L[j]? = some u := by rw [List.getElem?_eq_getElem hj, e]
    exact ⟨j, hj, e', (h.out j u e').2⟩
  have huse : ∀ u ∈ L, G.IsUse u ∧ G.org u = o := fun u hm => (hok.users o u).1 (by rw [hu]; exact List.mem_append_left _ hm)
  have hxo : G.IsUse (.inp m 0) ∧ G.org (.inp m 0) = o := (hok.users o _).1 (by rw [hu]; simp)
  have hcase : ∀ o', o' = o ∨ (∃ j < L.length, o' = .out m (cur + j)) ∨ (o' ≠ o ∧ ∀ j < L.length, o' ≠ .out m (cur + j)) := by
    intro o'
    by_cases e : o' = o
    · exact Or.inl e
    · by_cases e' : ∃ j < L.length, o' = .out m (cur + j)
      · exact Or.inr (Or.inl e')
      · exact Or.inr (Or.inr ⟨e, fun j hj he => e' ⟨j, hj, he⟩⟩)
  refine ⟨?_, ?_, ?_, ?_⟩
  · intro o'
    rcases hcase o' with rfl | ⟨j, hj, rfl⟩ | ⟨h1, h2⟩
    · rw [h.rest]; simp
    · rw [(h.out j _ (List.getElem?_eq_getElem hj)).1]; simp
    · rw [h.users o' h1 h2]; exact hok.nodup o'
  · intro o' u
    rw [h.same.isUse]
    by_cases hul : u ∈ L
    · obtain ⟨j, hj, e, he⟩ := hL u hul
      rw [he]
      rcases hcase o' with rfl | ⟨i, hi, rfl⟩ | ⟨h1, h2⟩
      · rw [h.rest, List.mem_singleton]
        exact ⟨fun e => absurd (e ▸ hul) hx, fun e => absurd e.2.symm (ho _)⟩
      · rw [(h.out i _ (List.getElem?_eq_getElem hi)).1, List.mem_singleton]
        constructor
        · intro e'
          refine ⟨(huse u hul).1, ?_⟩
          have := (List.getElem?_inj (j := i) hj hn).1 (by rw [e, List.getElem?_eq_getElem hi, e'])
          rw [this]
        · rintro ⟨_, e'⟩
          have : j = i := by injection e' with _ e'; omega
          subst this
          rw [List.getElem?_eq_getElem hj] at e
          exact (Option.some.inj e).symm
      · rw [h.users o' h1 h2, hok.users]
        exact ⟨fun e' => absurd (e'.2.symm.trans (huse u hul).2) h1, fun e' => absurd e'.2.symm (h2 j hj)⟩
    · rw [h.org u hul]
      rcases hcase o' with rfl | ⟨i, hi, rfl⟩ | ⟨h1, h2⟩
      · rw [h.rest, ← hok.users, hu]; simp [hul]
      · rw [(h.out i _ (List.getElem?_eq_getElem hi)).1, List.mem_singleton, ← hok.users, hout]
        exact ⟨fun e => absurd (e ▸ List.getElem_mem hi) hul, fun e => absurd e List.not_mem_nil⟩
      · rw [h.users o' h1 h2, hok.users]
  · intro u n i hus he
    rw [h.same.isUse] at hus
    rw [h.same.next]
    by_cases hul : u ∈ L
    · obtain ⟨j, hj, _, e⟩ := hL u hul
      rw [e] at he
      injection he with he
      omega
    · rw [h.org u hul] at he
      exact hok.operand u n i hus he
  · intro r n hn'
    rw [h.same.nodes] at hn'
    rw [h.same.next]
    exact hok.nodes r n hn'

/-- what `AddForkToOutput` does -/
theorem forkOutput_spec (hok : G.Ok) (r : Nat) (o : Org) (ho : ∀ n i, o = .out n i → n < G.next) (hk : 1 < (G.users o).length) :
    let G1 := G.create r (.fork (G.isConstantFork o)) (G.users o).length o
    Moved G1 (G.forkOutput (r, o)) G.next o 0 (G.users o) ∧ (G.forkOutput (r, o)).Ok := by
  intro G1
  have hx : Use.inp G.next 0 ∉ G.users o := fun h => not_use_next ((hok.users _ _).1 h).1
  have ho' : ∀ j, o ≠ .out G.next j := fun j e => Nat.lt_irrefl _ (ho _ _ e)
  have h1 : G1.Ok := hok.create r _ _ o ho
  have hu : G1.users o = G.users o ++ [.inp G.next 0] := if_pos rfl
  have hout : ∀ j, G1.users (.out G.next j) = [] := by
    intro j
    show (if Org.out G.next j = o then _ else G.users (.out G.next j)) = []
    rw [if_neg (fun e => ho' j e.symm)]
    apply List.eq_nil_iff_forall_not_mem.2
    intro u hu
    have := (hok.users _ _).1 hu
    exact Nat.lt_irrefl _ (hok.operand u _ _ this.1 this.2)
  have hm : Moved G1 (G.forkOutput (r, o)) G.next o 0 (G.users o) := by
    unfold forkOutput
    dsimp only
    rw [if_pos hk]
    refine forkLoop_moved G.next o (G.users o) _ 0 G1 (by omega) (hok.nodup o) hx ho' hu (fun j _ => hout j) ?_
    intro u hu
    show (if u = .inp G.next 0 then o else G.org u) = o
    rw [if_neg (fun e : u = _ => hx (by rw [← e]; exact hu))]
    exact ((hok.users _ _).1 hu).2
  exact ⟨hm, hm.ok h1 (hok.nodup o) hx ho' hu hout (Nat.lt_succ_self _)⟩

end Graph
end Jlm.Hls
