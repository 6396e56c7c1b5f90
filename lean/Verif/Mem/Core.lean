import Verif.Mem.Rewrite
/-
The conditions under which a rewrite of a region is correct, in terms of the flow of memory states.
-/
set_option linter.unusedSimpArgs false
set_option linter.unusedVariables false
namespace Jlm.Mem

variable {V B : Type} {sem : Sem V B}

/-! ### Two nodes of a list -/

theorem pair_split {α : Type} {l : List α} {x y : α} (h : [x, y].Sublist l) :
    ∃ p q r, l = p ++ x :: (q ++ y :: r) := by
  induction l with
  | nil => simp at h
  | cons z l ih =>
    rw [List.sublist_cons_iff] at h
    rcases h with h | ⟨r, hr, h⟩
    · obtain ⟨p, q, r, e⟩ := ih h
      exact ⟨z :: p, q, r, by rw [e]; rfl⟩
    · simp only [List.cons.injEq] at hr
      obtain ⟨rfl, rfl⟩ := hr
      have hy : y ∈ l := h.subset (by simp)
      obtain ⟨q, r, e⟩ := List.append_of_mem hy
      exact ⟨[], q, r, by rw [e]; rfl⟩

theorem split_pair {α : Type} (p q r : List α) (x y : α) :
    [x, y].Sublist (p ++ x :: (q ++ y :: r)) := by
  apply List.Sublist.trans _ (List.sublist_append_right p _)
  apply List.Sublist.cons_cons
  apply List.Sublist.trans _ (List.sublist_append_right q _)
  exact List.Sublist.cons_cons _ (List.nil_sublist _)

theorem pair_or {α : Type} {l : List α} {x y : α} (hx : x ∈ l) (hy : y ∈ l) (hne : x ≠ y) :
    [x, y].Sublist l ∨ [y, x].Sublist l := by
  obtain ⟨p, q, rfl⟩ := List.append_of_mem hx
  rw [List.mem_append, List.mem_cons] at hy
  rcases hy with h | h | h
  · obtain ⟨a, b, rfl⟩ := List.append_of_mem h
    right
    have := split_pair a b q y x
    simpa using this
  · exact absurd h.symm hne
  · obtain ⟨a, b, rfl⟩ := List.append_of_mem h
    left
    exact split_pair p a b x y

theorem pair_anti {α : Type} {l : List α} {x y : α} (hnd : l.Nodup) (h : [x, y].Sublist l)
    (h' : [y, x].Sublist l) : False := by
  induction l with
  | nil => simp at h
  | cons z l ih =>
    rw [List.nodup_cons] at hnd
    rw [List.sublist_cons_iff] at h h'
    rcases h with h | ⟨r, hr, h⟩
    · rcases h' with h' | ⟨r, hr, h'⟩
      · exact ih hnd.2 h h'
      · simp only [List.cons.injEq] at hr
        obtain ⟨rfl, _⟩ := hr
        exact hnd.1 (h.subset (by simp))
    · simp only [List.cons.injEq] at hr
      obtain ⟨rfl, rfl⟩ := hr
      rcases h' with h' | ⟨r, hr, h'⟩
      · exact hnd.1 (h'.subset (by simp))
      · simp only [List.cons.injEq] at hr
        obtain ⟨rfl, rfl⟩ := hr
        exact hnd.1 (h.subset (by simp))

theorem pair_flatMap {α β : Type} {l : List α} {g : α → List β} {x y : α} {x' y' : β}
    (h : [x, y].Sublist l) (hx : x' ∈ g x) (hy : y' ∈ g y) : [x', y'].Sublist (l.flatMap g) := by
  obtain ⟨p, q, r, rfl⟩ := pair_split h
  simp only [List.flatMap_append, List.flatMap_cons]
  apply List.Sublist.trans _ (List.sublist_append_right _ _)
  show ([x'] ++ [y']).Sublist _
  apply List.Sublist.append (by simpa using hx)
  apply List.Sublist.trans _ (List.sublist_append_right _ _)
  apply List.Sublist.trans _ (List.sublist_append_left _ _)
  simpa using hy

theorem sublist_filter {l m : List Node} (h : l.Sublist m) (hnd : m.Nodup) :
    m.filter (fun x => decide (x ∈ l)) = l := by
  induction h with
  | slnil => rfl
  | @cons l m a h ih =>
    rw [List.nodup_cons] at hnd
    rw [List.filter_cons, if_neg, ih hnd.2]
    simp only [decide_eq_true_eq]
    exact fun hin => hnd.1 (h.subset hin)
  | @cons_cons l m a h ih =>
    rw [List.nodup_cons] at hnd
    rw [List.filter_cons, if_pos (by simp)]
    congr 1
    rw [← ih hnd.2]
    apply List.filter_congr
    intro x hx
    have : x ≠ a := fun e => hnd.1 (e ▸ hx)
    simp only [List.mem_cons, this, false_or]
    rw [ih hnd.2]

/-! ### The theorem -/

/-- memory state edges are mapped to flows -/
theorem flow_map {N N' : List Node} (σ : SOut → SOut)
    (hpass : ∀ z ∈ N, ∀ k o o1, z.states[k]? = some o → passes z.op z.id k o1 →
      Flow N' (σ o) (σ o1)) {o o1 : SOut} (h : Flow N o o1) : Flow N' (σ o) (σ o1) := by
  have trans : ∀ {a b c : SOut}, Flow N' a b → Flow N' b c → Flow N' a c := by
    intro a b c h1 h2
    induction h1 with
    | refl => exact h2
    | step hz hk hp _ ih => exact .step hz hk hp (ih h2)
  induction h with
  | refl o => exact .refl _
  | step hz hk hp _ ih => exact trans (hpass _ hz _ _ _ hk hp) ih

theorem Flow.trans {N : List Node} {a b c : SOut} (h1 : Flow N a b) (h2 : Flow N b c) :
    Flow N a c := by
  induction h1 with
  | refl => exact h2
  | step hz hk hp _ ih => exact .step hz hk hp (ih h2)

/-- `x` has a counterpart that computes something and is executed -/
def Kept (g : Node → List Node) (G' : Graph) (x : Node) : Prop :=
  ∃ x' ∈ g x, x' ∈ G'.live ∧ x'.op.isEff = true

theorem reads_eff {op : Op} {vs : List V} {b : Nat} (h : sem.reads op vs b) : op.isEff = true := by
  cases he : op.isEff with
  | true => rfl
  | false => exact absurd h (not_eff_reads he vs b)

theorem writes_eff {op : Op} {vs : List V} {b : Nat} (h : sem.writes op vs b) : op.isEff = true := by
  cases he : op.isEff with
  | true => rfl
  | false => exact absurd h (not_eff_writes he vs b)

theorem conflict_eff {F : VOut → V} {x y : Node} (h : Conflict sem F x y) :
    x.op.isEff = true ∧ y.op.isEff = true := by
  obtain ⟨b, ⟨h1, h2 | h2⟩ | ⟨h1, h2⟩⟩ := h
  · exact ⟨writes_eff h1, reads_eff h2⟩
  · exact ⟨writes_eff h1, writes_eff h2⟩
  · exact ⟨reads_eff h1, writes_eff h2⟩

theorem core (s : State V B) (vis : Nat → Prop) (G G' : Graph) (g : Node → List Node)
    (E : Node → Prop) (hw : G.Wf) (hw' : G'.Wf) (hr : RaceFree sem s vis G)
    (hnodes : G'.nodes = G.nodes.flatMap g)
    (hid : ∀ x ∈ G.nodes, ∀ x' ∈ g x, x'.id = x.id ∨ x'.id ∉ G.nodes.map Node.id)
    (hS : ∀ x ∈ G.nodes, ∀ x' ∈ g x, x'.op.isEff = false → ∀ y ∈ G.nodes, y.op.isEff = true →
      y.id ≠ x'.id)
    (hg : ∀ x ∈ G.nodes, ∀ x' ∈ g x, x' ∈ G'.live → x'.op.isEff = true →
      x'.id = x.id ∧ x'.op = x.op ∧
      x'.vals.map (G.final sem s).env = x.vals.map (G.final sem s).env ∧ x ∈ G.live ∧
      (g x).filter (fun y => y.op.isEff) = [x'])
    (hvres : G'.vres.map (G.final sem s).env = G.vres.map (G.final sem s).env)
    (hpairs : ∀ x ∈ G.live, ∀ y ∈ G.live, ¬ E x → ∀ y' ∈ g y, y' ∈ G'.live → y'.op.isEff = true →
      Conflict sem (G.final sem s).env x y → Before G.nodes x y →
      ∃ x' ∈ g x, x'.op.isEff = true ∧ ∃ k', ∃ o' ∈ y'.states, Flow G'.nodes (.res x'.id k') o')
    (hexit : ∀ x ∈ G.live, ¬ E x → ∀ b, vis b →
      sem.writes x.op (x.vals.map (G.final sem s).env) b →
      (∃ k, ∃ o ∈ G.sres, Flow G.nodes (.res x.id k) o) →
      ∃ x' ∈ g x, x'.op.isEff = true ∧ ∃ k', ∃ o' ∈ G'.sres, Flow G'.nodes (.res x'.id k') o')
    (hEx : ∀ x ∈ G.live, E x → ¬ Kept g G' x)
    (hEr : ∀ p z q y r b, G.live = p ++ z :: (q ++ y :: r) → E z →
      sem.writes z.op (z.vals.map (G.final sem s).env) b → Kept g G' y →
      sem.reads y.op (y.vals.map (G.final sem s).env) b →
      ∃ w ∈ q, sem.writes w.op (w.vals.map (G.final sem s).env) b)
    (hEv : ∀ p z q b, G.live = p ++ z :: q → E z →
      sem.writes z.op (z.vals.map (G.final sem s).env) b → vis b →
      ∃ w ∈ q, sem.writes w.op (w.vals.map (G.final sem s).env) b) :
    RaceFree sem s vis G' ∧ SameResults sem s vis G G' := by
  have ndN : G.nodes.Nodup := List.Nodup.of_map _ hw.nodup
  have ndN' : G'.nodes.Nodup := List.Nodup.of_map _ hw'.nodup
  let lv : Node → Bool := fun x => decide (x ∈ G.live)
  let lv' : Node → Bool := fun x => decide (x ∈ G'.live)
  have elv : G.nodes.filter lv = G.live := sublist_filter (live_sublist G) ndN
  have elv' : (G.nodes.flatMap g).filter lv' = G'.live := by
    rw [← hnodes]; exact sublist_filter (live_sublist G') ndN'
  have lvt : ∀ x, lv x = true ↔ x ∈ G.live := fun x => by simp [lv]
  have lvt' : ∀ x, lv' x = true ↔ x ∈ G'.live := fun x => by simp [lv']
  generalize hFd : (G.final sem s).env = F at *
  have hF : F = (exec sem s (G.nodes.filter lv)).env := by rw [elv, ← hFd]; rfl
  -- a prefix of the nodes, restricted to the live ones
  have hfil : ∀ p1 z p2, G.nodes = p1 ++ z :: p2 → z ∈ G.live →
      G.live = p1.filter lv ++ z :: p2.filter lv := by
    intro p1 z p2 e hz
    rw [← elv, e, List.filter_append, List.filter_cons, if_pos ((lvt z).mpr hz)]
  have hread : ∀ p x q, G.nodes = p ++ x :: q → Kept g G' x → ∀ b,
      sem.reads x.op (x.vals.map F) b → ¬ Dirty sem F lv (Kept g G') p b := by
    rintro p x q e hx b hb ⟨p1, z, p2, ep, hz, hzr, hzw, hlast⟩
    obtain ⟨x', hx'g, hx'l, hx'e⟩ := hx
    have hxN : x ∈ G.nodes := by rw [e]; simp
    have hxl := (hg x hxN x' hx'g hx'l hx'e).2.2.2.1
    have hzl := (lvt z).mp hz
    have hsplit : G.live = p1.filter lv ++ z :: (p2.filter lv ++ x :: q.filter lv) := by
      rw [← elv, e, ep]
      simp only [List.filter_append, List.filter_cons, hz, (lvt x).mpr hxl, if_true,
        List.append_assoc, List.cons_append]
    by_cases hE : E z
    · obtain ⟨w, hwq, hww⟩ := hEr _ _ _ _ _ b hsplit hE hzw ⟨x', hx'g, hx'l, hx'e⟩ hb
      simp only [List.mem_filter] at hwq
      exact hlast w hwq.1 hwq.2 hww
    · have hc : Conflict sem F z x := ⟨b, Or.inl ⟨hzw, Or.inl hb⟩⟩
      have hbf := hr.pairs _ _ _ _ _ hsplit (by rw [hFd]; exact hc)
      obtain ⟨z', hz'g, hz'e, k', o', ho', hf'⟩ :=
        hpairs z hzl x hxl hE x' hx'g hx'l hx'e hc hbf
      apply hzr
      refine ⟨z', hz'g, ?_, hz'e⟩
      apply flow_live hw' hf' x' hx'l ho' z'
      · rw [hnodes]; exact List.mem_flatMap.mpr ⟨z, live_mem hzl, hz'g⟩
      · simp [SOut.owners]
  obtain ⟨m1, m2, m3⟩ := run_sub (sem := sem) s G.nodes g lv lv' F hF hw.nodup
    (by rw [elv]; exact live_topo hw) (by rw [elv']; exact live_topo hw')
    (by rw [← hnodes]; exact hw'.nodup) hid hS
    (by
      intro x hx x' hx' hl he
      obtain ⟨a, b, c, d, f⟩ := hg x hx x' hx' ((lvt' x').mp hl) he
      exact ⟨a, b, c, (lvt x).mpr d, f⟩)
    (Kept g G')
    (by
      intro x
      constructor
      · rintro ⟨x', h1, h2, h3⟩; exact ⟨x', h1, (lvt' x').mpr h2, h3⟩
      · rintro ⟨x', h1, h2, h3⟩; exact ⟨x', h1, (lvt' x').mp h2, h3⟩)
    hread
  rw [elv'] at m1 m2 m3
  rw [elv] at m3
  have hF' : ∀ v : VOut, (∀ i ∈ v.owners, i ∈ G'.live.map Node.id) →
      (G'.final sem s).env v = F v := by
    intro v hv
    cases v with
    | arg i => exact m2 i
    | res i k => exact m1 i (hv i (by simp [VOut.owners])) k
  have hvals : ∀ x' ∈ G'.live, x'.vals.map (G'.final sem s).env = x'.vals.map F := by
    intro x' hx'
    apply map_env_congr
    intro v hv
    apply hF'
    intro i hi
    obtain ⟨p, q, e⟩ := List.append_of_mem hx'
    have := live_topo hw' p x' q e i (mem_needs_vals hv hi)
    rw [e, List.map_append, List.mem_append]
    exact Or.inl this
  have himage : ∀ x' ∈ G'.live, ∃ x ∈ G.nodes, x' ∈ g x := by
    intro x' hx'
    have := live_mem hx'
    rw [hnodes] at this
    obtain ⟨x, hx, hx'g⟩ := List.mem_flatMap.mp this
    exact ⟨x, hx, hx'g⟩
  have race : RaceFree sem s vis G' := by
    constructor
    · intro p x' q y' r e hc
      have hx'l : x' ∈ G'.live := by rw [e]; simp
      have hy'l : y' ∈ G'.live := by rw [e]; simp
      obtain ⟨hex, hey⟩ := conflict_eff hc
      obtain ⟨x, hx, hx'g⟩ := himage x' hx'l
      obtain ⟨y, hy, hy'g⟩ := himage y' hy'l
      obtain ⟨hidx, hopx, hvx, hxl, hsx⟩ := hg x hx x' hx'g hx'l hex
      obtain ⟨hidy, hopy, hvy, hyl, hsy⟩ := hg y hy y' hy'g hy'l hey
      have hc' : Conflict sem F x y := by
        simpa only [Conflict, hvals x' hx'l, hvals y' hy'l, hvx, hvy, hopx, hopy] using hc
      have hsub' : [x', y'].Sublist G'.nodes := by
        have := split_pair p q r x' y'
        rw [← e] at this
        exact this.trans (live_sublist G')
      have hne : x ≠ y := by
        intro h
        subst h
        have : x' = y' := by
          have := hsx.symm.trans hsy
          simpa using this
        subst this
        have := List.Nodup.sublist hsub' ndN'
        simp at this
      have hord : [x, y].Sublist G.live := by
        rcases pair_or hx hy hne with h | h
        · have := h.filter lv
          rw [elv] at this
          simpa [(lvt x).mpr hxl, (lvt y).mpr hyl] using this
        · exfalso
          have := pair_flatMap h hy'g hx'g
          rw [← hnodes] at this
          exact pair_anti ndN' hsub' this
      obtain ⟨p1, q1, r1, e1⟩ := pair_split hord
      have hEx' : ¬ E x := fun h => hEx x hxl h ⟨x', hx'g, hx'l, hex⟩
      have hbf := hr.pairs _ _ _ _ _ e1 (by rw [hFd]; exact hc')
      obtain ⟨x2, hx2, hx2e, k', o', ho', hf'⟩ :=
        hpairs x hxl y hyl hEx' y' hy'g hy'l hey hc' hbf
      have : x2 = x' := by
        have : x2 ∈ (g x).filter fun y => y.op.isEff := by simp [hx2, hx2e]
        rw [hsx] at this
        simpa using this
      subst this
      exact ⟨k', o', ho', hf'⟩
    · intro x' hx'l b hb hwr
      have hex := writes_eff hwr
      obtain ⟨x, hx, hx'g⟩ := himage x' hx'l
      obtain ⟨hidx, hopx, hvx, hxl, hsx⟩ := hg x hx x' hx'g hx'l hex
      rw [hvals x' hx'l, hvx, hopx] at hwr
      have hbf := hr.exit x hxl b hb (by rw [hFd]; exact hwr)
      have hEx' : ¬ E x := fun h => hEx x hxl h ⟨x', hx'g, hx'l, hex⟩
      obtain ⟨x2, hx2, hx2e, k', o', ho', hf'⟩ := hexit x hxl hEx' b hb hwr hbf
      have : x2 = x' := by
        have : x2 ∈ (g x).filter fun y => y.op.isEff := by simp [hx2, hx2e]
        rw [hsx] at this
        simpa using this
      subst this
      exact ⟨k', o', ho', hf'⟩
  refine ⟨race, ?_⟩
  intro l l' hl hl'
  rw [C38_schedules s vis G hw hr l hl, C38_schedules s vis G' hw' race l' hl']
  constructor
  · rw [hFd, ← hvres]
    apply map_env_congr
    intro v hv
    apply hF'
    intro i hi
    have hin : i ∈ G'.needs := by
      simp only [Graph.needs, List.mem_append, List.mem_flatMap]
      exact Or.inl ⟨v, hv, hi⟩
    have := hw'.results i hin
    simp only [List.mem_map] at this
    obtain ⟨x', hx', hxi⟩ := this
    exact List.mem_map.mpr ⟨x', live_result hw' hx' (hxi ▸ hin), hxi⟩
  · intro b hb
    apply m3 b
    rintro ⟨p1, z, p2, e, hz, hzr, hzw, hlast⟩
    have hzl := (lvt z).mp hz
    by_cases hE : E z
    · obtain ⟨w, hwq, hww⟩ := hEv _ z _ b (hfil p1 z p2 e hzl) hE hzw hb
      simp only [List.mem_filter] at hwq
      exact hlast w hwq.1 hwq.2 hww
    · have hbf := hr.exit z hzl b hb (by rw [hFd]; exact hzw)
      obtain ⟨z', hz'g, hz'e, k', o', ho', hf'⟩ := hexit z hzl hE b hb hzw hbf
      apply hzr
      refine ⟨z', hz'g, ?_, hz'e⟩
      apply flow_live_exit hw' hf' ho' z'
      · rw [hnodes]; exact List.mem_flatMap.mpr ⟨z, live_mem hzl, hz'g⟩
      · simp [SOut.owners]

end Jlm.Mem
