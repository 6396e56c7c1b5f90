import Verif.Mem.Core
/-
`Graph.replace`, i.e. `ReduceNode`: conditions on the new nodes and outputs under which the
replacement of one node is correct.
-/
set_option linter.unusedSimpArgs false
set_option linter.unusedVariables false
namespace Jlm.Mem

variable {V B : Type} {sem : Sem V B}

/-! ### Orders -/

theorem pair_trans {α : Type} {l : List α} {x y z : α} (hnd : l.Nodup) (h1 : [x, y].Sublist l)
    (h2 : [y, z].Sublist l) : [x, z].Sublist l := by
  induction l with
  | nil => simp at h1
  | cons w l ih =>
    rw [List.nodup_cons] at hnd
    rw [List.sublist_cons_iff] at h1 h2
    rcases h2 with h2 | ⟨r, hr, h2⟩
    · rcases h1 with h1 | ⟨r, hr, h1⟩
      · exact (ih hnd.2 h1 h2).cons _
      · simp only [List.cons.injEq] at hr
        obtain ⟨rfl, rfl⟩ := hr
        apply List.Sublist.cons_cons
        have : z ∈ l := h2.subset (by simp)
        simpa using this
    · simp only [List.cons.injEq] at hr
      obtain ⟨rfl, rfl⟩ := hr
      exfalso
      rcases h1 with h1 | ⟨r, hr, h1⟩
      · exact hnd.1 (h1.subset (by simp))
      · simp only [List.cons.injEq] at hr
        obtain ⟨rfl, rfl⟩ := hr
        exact hnd.1 (h1.subset (by simp))

theorem topo_of_pairs {l : List Node} (hnd : l.Nodup)
    (h : ∀ x ∈ l, ∀ i ∈ x.needs, ∃ z, z.id = i ∧ [z, x].Sublist l) : Topo l := by
  intro p x q e i hi
  obtain ⟨z, rfl, hz⟩ := h x (by rw [e]; simp) i hi
  apply List.mem_map_of_mem
  subst e
  rw [List.sublist_append_iff] at hz
  obtain ⟨l1, l2, hl, h1, h2⟩ := hz
  cases l1 with
  | nil =>
    simp only [List.nil_append] at hl
    subst hl
    exfalso
    have hq : x ∉ q := by
      have := (List.nodup_append.mp hnd).2.1
      exact (List.nodup_cons.mp this).1
    rw [List.sublist_cons_iff] at h2
    rcases h2 with h2 | ⟨r, hr, h2⟩
    · exact hq (h2.subset (by simp))
    · simp only [List.cons.injEq] at hr
      obtain ⟨_, rfl⟩ := hr
      exact hq (h2.subset (by simp))
  | cons w l1 =>
    simp only [List.cons_append, List.cons.injEq] at hl
    obtain ⟨rfl, _⟩ := hl
    exact h1.subset (by simp)

theorem needs_pair {G : Graph} (hw : G.Wf) {y : Node} (hy : y ∈ G.nodes) {i : Nat}
    (hi : i ∈ y.needs) : ∃ z ∈ G.nodes, z.id = i ∧ [z, y].Sublist G.nodes := by
  obtain ⟨p, q, e⟩ := List.append_of_mem hy
  have := hw.topo p y q e i hi
  obtain ⟨z, hz, rfl⟩ := List.mem_map.mp this
  refine ⟨z, by rw [e]; simp [hz], rfl, ?_⟩
  obtain ⟨a, b, rfl⟩ := List.append_of_mem hz
  have := split_pair a b q z y
  rw [e]
  simpa using this

/-- `i` is a node that `n` depends on -/
inductive Anc (G : Graph) (n : Node) : Nat → Prop
  | base {i : Nat} : i ∈ n.needs → Anc G n i
  | up {i : Nat} {y : Node} : y ∈ G.nodes → Anc G n y.id → i ∈ y.needs → Anc G n i

theorem anc_pair {G : Graph} (hw : G.Wf) {n : Node} (hn : n ∈ G.nodes) {i : Nat}
    (h : Anc G n i) : ∃ z ∈ G.nodes, z.id = i ∧ [z, n].Sublist G.nodes := by
  induction h with
  | base hi => exact needs_pair hw hn hi
  | @up i y hy _ hi ih =>
    obtain ⟨y2, hy2, e, h2⟩ := ih
    have := eq_of_id hw hy2 hy e
    subst this
    obtain ⟨z, hz, e, h3⟩ := needs_pair hw hy hi
    exact ⟨z, hz, e, pair_trans (List.Nodup.of_map _ hw.nodup) h3 h2⟩

theorem anc_live {G : Graph} (hw : G.Wf) {n : Node} (hn : n ∈ G.live) {i : Nat}
    (h : Anc G n i) : ∀ z ∈ G.nodes, z.id = i → z ∈ G.live := by
  induction h with
  | base hi => intro z hz e; exact live_used hw hz hn (e ▸ hi)
  | @up i y hy _ hi ih => intro z hz e; exact live_used hw hz (ih y hy rfl) (e ▸ hi)

/-! ### Used outputs -/

def Graph.usedS (G : Graph) (o : SOut) : Prop := o ∈ G.sres ∨ ∃ y ∈ G.nodes, o ∈ y.states
def Graph.usedV (G : Graph) (o : VOut) : Prop := o ∈ G.vres ∨ ∃ y ∈ G.nodes, o ∈ y.vals

/-! ### Replacing a node -/

/-- an operand of `n` or of a node that `n` depends on -/
def OldS (G : Graph) (n : Node) (o : SOut) : Prop :=
  ∃ y ∈ G.nodes, o ∈ y.states ∧ (y = n ∨ Anc G n y.id)
def OldV (G : Graph) (n : Node) (o : VOut) : Prop :=
  ∃ y ∈ G.nodes, o ∈ y.vals ∧ (y = n ∨ Anc G n y.id)
/-- an output of a new node -/
def NewS (new : List Node) (o : SOut) : Prop := ∃ x ∈ new, ∃ k, o = .res x.id k ∧ x.hasState k
def NewV (new : List Node) (o : VOut) : Prop := ∃ x ∈ new, ∃ k, o = .res x.id k ∧ x.hasValue k

theorem OldS.anc {G : Graph} {n : Node} {o : SOut} (h : OldS G n o) : ∀ i ∈ o.owners, Anc G n i := by
  obtain ⟨y, hy, ho, rfl | h⟩ := h
  · exact fun i hi => .base (mem_needs_states ho hi)
  · exact fun i hi => .up hy h (mem_needs_states ho hi)

theorem OldV.anc {G : Graph} {n : Node} {o : VOut} (h : OldV G n o) : ∀ i ∈ o.owners, Anc G n i := by
  obtain ⟨y, hy, ho, rfl | h⟩ := h
  · exact fun i hi => .base (mem_needs_vals ho hi)
  · exact fun i hi => .up hy h (mem_needs_vals ho hi)

theorem OldS.used {G : Graph} {n : Node} {o : SOut} (h : OldS G n o) : G.usedS o := by
  obtain ⟨y, hy, ho, _⟩ := h; exact Or.inr ⟨y, hy, ho⟩
theorem OldV.used {G : Graph} {n : Node} {o : VOut} (h : OldV G n o) : G.usedV o := by
  obtain ⟨y, hy, ho, _⟩ := h; exact Or.inr ⟨y, hy, ho⟩

/-- The new nodes and outputs make sense in the place of `n`. -/
structure Fits (G : Graph) (n : Node) (new : List Node) (vouts : List VOut) (souts : List SOut) :
    Prop where
  mem : n ∈ G.nodes
  ids : ∀ x ∈ new, x.id = n.id ∨ x.id ∉ G.nodes.map Node.id
  nodup : (new.map Node.id).Nodup
  newS : ∀ a x b, new = a ++ x :: b → ∀ o ∈ x.states, OldS G n o ∨ NewS a o
  newV : ∀ x ∈ new, ∀ v ∈ x.vals, OldV G n v
  outS : ∀ o ∈ souts, OldS G n o ∨ NewS new o
  outV : ∀ v ∈ vouts, OldV G n v ∨ NewV new v
  lenS : ∀ k, n.hasState k → k < souts.length
  lenV : ∀ k, n.hasValue k → k < vouts.length
  eff : new.filter (fun x => x.op.isEff) = [] ∨
    ∃ n', new.filter (fun x => x.op.isEff) = [n'] ∧ n'.id = n.id ∧ n'.op = n.op ∧ n'.vals = n.vals
  plain : ∀ x ∈ new, x.op.isEff = false → x.id = n.id → n.op.isEff = false

section
variable {G : Graph} {n : Node} {new : List Node} {vouts : List VOut} {souts : List SOut}

/-- the nodes that take the place of `x` -/
def repl (n : Node) (new : List Node) (vouts : List VOut) (souts : List SOut) (x : Node) : List Node :=
  if x.id = n.id then new else [x.map (vsub n.id vouts) (ssub n.id souts)]

theorem vsub_cases (hw : G.Wf) (hf : Fits G n new vouts souts) {v : VOut} (hv : G.usedV v) :
    (n.id ∉ v.owners ∧ vsub n.id vouts v = v) ∨
      ∃ k v', v = .res n.id k ∧ vouts[k]? = some v' ∧ vsub n.id vouts v = v' := by
  cases v with
  | arg i => exact Or.inl ⟨by simp [VOut.owners], rfl⟩
  | res i k =>
    by_cases h : i = n.id
    · subst h
      right
      have hk := hf.lenV k (hw.values n hf.mem k hv)
      exact ⟨k, vouts[k], rfl, by simp [hk], by simp [vsub, hk]⟩
    · exact Or.inl ⟨by simp [VOut.owners, Ne.symm h], by simp [vsub, h]⟩

theorem ssub_cases (hw : G.Wf) (hf : Fits G n new vouts souts) {v : SOut} (hv : G.usedS v) :
    (n.id ∉ v.owners ∧ ssub n.id souts v = v) ∨
      ∃ k v', v = .res n.id k ∧ souts[k]? = some v' ∧ ssub n.id souts v = v' := by
  cases v with
  | arg i => exact Or.inl ⟨by simp [SOut.owners], rfl⟩
  | res i k =>
    by_cases h : i = n.id
    · subst h
      right
      have hk := hf.lenS k (hw.states n hf.mem k hv)
      exact ⟨k, souts[k], rfl, by simp [hk], by simp [ssub, hk]⟩
    · exact Or.inl ⟨by simp [SOut.owners, Ne.symm h], by simp [ssub, h]⟩

theorem replace_nodes (G : Graph) (n : Node) (new : List Node) (vouts : List VOut)
    (souts : List SOut) : (G.replace n.id new vouts souts).nodes =
      G.nodes.flatMap (repl n new vouts souts) := rfl

theorem repl_ne {x : Node} (h : x.id ≠ n.id) :
    repl n new vouts souts x = [x.map (vsub n.id vouts) (ssub n.id souts)] := if_neg h

theorem repl_self : repl n new vouts souts n = new := if_pos rfl

/-- where a new owner comes from -/
theorem owner_cases_v (hw : G.Wf) (hf : Fits G n new vouts souts) {v : VOut} (hv : G.usedV v)
    {i : Nat} (hi : i ∈ (vsub n.id vouts v).owners) :
    (i ≠ n.id ∧ i ∈ v.owners) ∨ (n.id ∈ v.owners ∧ (Anc G n i ∨ i ∈ new.map Node.id)) := by
  rcases vsub_cases hw hf hv with ⟨h1, h2⟩ | ⟨k, v', h1, h2, h3⟩
  · rw [h2] at hi
    exact Or.inl ⟨fun e => h1 (e ▸ hi), hi⟩
  · rw [h3] at hi
    right
    refine ⟨by rw [h1]; simp [VOut.owners], ?_⟩
    rcases hf.outV v' (List.mem_of_getElem? h2) with h | ⟨x, hx, k', rfl, _⟩
    · exact Or.inl (h.anc i hi)
    · simp only [VOut.owners, List.mem_singleton] at hi
      exact Or.inr (hi ▸ List.mem_map_of_mem hx)

theorem owner_cases_s (hw : G.Wf) (hf : Fits G n new vouts souts) {v : SOut} (hv : G.usedS v)
    {i : Nat} (hi : i ∈ (ssub n.id souts v).owners) :
    (i ≠ n.id ∧ i ∈ v.owners) ∨ (n.id ∈ v.owners ∧ (Anc G n i ∨ i ∈ new.map Node.id)) := by
  rcases ssub_cases hw hf hv with ⟨h1, h2⟩ | ⟨k, v', h1, h2, h3⟩
  · rw [h2] at hi
    exact Or.inl ⟨fun e => h1 (e ▸ hi), hi⟩
  · rw [h3] at hi
    right
    refine ⟨by rw [h1]; simp [SOut.owners], ?_⟩
    rcases hf.outS v' (List.mem_of_getElem? h2) with h | ⟨x, hx, k', rfl, _⟩
    · exact Or.inl (h.anc i hi)
    · simp only [SOut.owners, List.mem_singleton] at hi
      exact Or.inr (hi ▸ List.mem_map_of_mem hx)

theorem needs_cases (hw : G.Wf) (hf : Fits G n new vouts souts) {x : Node} (hx : x ∈ G.nodes)
    {i : Nat} (hi : i ∈ (x.map (vsub n.id vouts) (ssub n.id souts)).needs) :
    (i ≠ n.id ∧ i ∈ x.needs) ∨ (n.id ∈ x.needs ∧ (Anc G n i ∨ i ∈ new.map Node.id)) := by
  simp only [Node.needs, Node.map, List.mem_append, List.mem_flatMap, List.mem_map] at hi
  rcases hi with ⟨_, ⟨v, hv, rfl⟩, hi⟩ | ⟨_, ⟨v, hv, rfl⟩, hi⟩
  · rcases owner_cases_v hw hf (Or.inr ⟨x, hx, hv⟩) hi with ⟨h1, h2⟩ | ⟨h1, h2⟩
    · exact Or.inl ⟨h1, mem_needs_vals hv h2⟩
    · exact Or.inr ⟨mem_needs_vals hv h1, h2⟩
  · rcases owner_cases_s hw hf (Or.inr ⟨x, hx, hv⟩) hi with ⟨h1, h2⟩ | ⟨h1, h2⟩
    · exact Or.inl ⟨h1, mem_needs_states hv h2⟩
    · exact Or.inr ⟨mem_needs_states hv h1, h2⟩

theorem graph_needs_cases (hw : G.Wf) (hf : Fits G n new vouts souts) {i : Nat}
    (hi : i ∈ (G.replace n.id new vouts souts).needs) :
    (i ≠ n.id ∧ i ∈ G.needs) ∨ (n.id ∈ G.needs ∧ (Anc G n i ∨ i ∈ new.map Node.id)) := by
  simp only [Graph.needs, Graph.replace, List.mem_append, List.mem_flatMap, List.mem_map] at hi
  have mv : ∀ {v : VOut} {i : Nat}, v ∈ G.vres → i ∈ v.owners → i ∈ G.needs := fun h1 h2 => by
    simp only [Graph.needs, List.mem_append, List.mem_flatMap]; exact Or.inl ⟨_, h1, h2⟩
  have ms : ∀ {v : SOut} {i : Nat}, v ∈ G.sres → i ∈ v.owners → i ∈ G.needs := fun h1 h2 => by
    simp only [Graph.needs, List.mem_append, List.mem_flatMap]; exact Or.inr ⟨_, h1, h2⟩
  rcases hi with ⟨_, ⟨v, hv, rfl⟩, hi⟩ | ⟨_, ⟨v, hv, rfl⟩, hi⟩
  · rcases owner_cases_v hw hf (Or.inl hv) hi with ⟨h1, h2⟩ | ⟨h1, h2⟩
    · exact Or.inl ⟨h1, mv hv h2⟩
    · exact Or.inr ⟨mv hv h1, h2⟩
  · rcases owner_cases_s hw hf (Or.inl hv) hi with ⟨h1, h2⟩ | ⟨h1, h2⟩
    · exact Or.inl ⟨h1, ms hv h2⟩
    · exact Or.inr ⟨ms hv h1, h2⟩

theorem new_needs (hf : Fits G n new vouts souts) {x : Node} (hx : x ∈ new) {i : Nat}
    (hi : i ∈ x.needs) : Anc G n i ∨ ∃ z ∈ new, z.id = i ∧ [z, x].Sublist new := by
  simp only [Node.needs, List.mem_append, List.mem_flatMap] at hi
  rcases hi with ⟨v, hv, hi⟩ | ⟨v, hv, hi⟩
  · exact Or.inl ((hf.newV x hx v hv).anc i hi)
  · obtain ⟨a, b, e⟩ := List.append_of_mem hx
    rcases hf.newS a x b e v hv with h | ⟨z, hz, k, rfl, _⟩
    · exact Or.inl (h.anc i hi)
    · simp only [SOut.owners, List.mem_singleton] at hi
      refine Or.inr ⟨z, by rw [e]; simp [hz], hi.symm, ?_⟩
      obtain ⟨c, d, rfl⟩ := List.append_of_mem hz
      have := split_pair c d b z x
      rw [e]; simpa using this

theorem mem_replace {x' : Node} :
    x' ∈ (G.replace n.id new vouts souts).nodes ↔ ∃ x ∈ G.nodes, x' ∈ repl n new vouts souts x := by
  rw [replace_nodes, List.mem_flatMap]

/-- the new node for an old one -/
theorem map_mem {x : Node} (hx : x ∈ G.nodes) (h : x.id ≠ n.id) :
    x.map (vsub n.id vouts) (ssub n.id souts) ∈ (G.replace n.id new vouts souts).nodes :=
  mem_replace.mpr ⟨x, hx, by rw [repl_ne h]; simp⟩

theorem new_mem (hf : Fits G n new vouts souts) {x : Node} (hx : x ∈ new) :
    x ∈ (G.replace n.id new vouts souts).nodes :=
  mem_replace.mpr ⟨n, hf.mem, by rw [repl_self]; exact hx⟩

/-- the cases of a new node -/
theorem replace_cases (hw : G.Wf) (hf : Fits G n new vouts souts) {x' : Node}
    (h : x' ∈ (G.replace n.id new vouts souts).nodes) :
    (∃ x ∈ G.nodes, x.id ≠ n.id ∧ x' = x.map (vsub n.id vouts) (ssub n.id souts)) ∨ x' ∈ new := by
  obtain ⟨x, hx, hx'⟩ := mem_replace.mp h
  by_cases e : x.id = n.id
  · right
    rw [repl, if_pos e] at hx'
    exact hx'
  · left
    rw [repl_ne e] at hx'
    exact ⟨x, hx, e, by simpa using hx'⟩

theorem replace_nodup (hw : G.Wf) (hf : Fits G n new vouts souts) :
    ((G.replace n.id new vouts souts).nodes.map Node.id).Nodup := by
  obtain ⟨p, q, e⟩ := List.append_of_mem hf.mem
  have hnd := hw.nodup
  have hids := hf.ids
  rw [replace_nodes]
  rw [e] at hnd hids ⊢
  simp only [List.map_append, List.map_cons] at hnd hids
  rw [List.nodup_append, List.nodup_cons] at hnd
  obtain ⟨h1, ⟨h2, h3⟩, h4⟩ := hnd
  have hmap : ∀ l : List Node, n.id ∉ l.map Node.id →
      ((l.flatMap (repl n new vouts souts)).map Node.id) = l.map Node.id := by
    intro l
    induction l with
    | nil => intro _; rfl
    | cons x l ih =>
      intro h
      simp only [List.map_cons, List.mem_cons, not_or] at h
      rw [List.flatMap_cons, repl_ne (Ne.symm h.1), List.map_append, ih h.2]
      rfl
  have hp : n.id ∉ p.map Node.id := fun h => h4 _ h n.id (by simp) rfl
  rw [List.flatMap_append, List.flatMap_cons, repl_self, List.map_append, List.map_append,
    hmap p hp, hmap q h2, List.nodup_append, List.nodup_append]
  refine ⟨h1, ⟨hf.nodup, h3, ?_⟩, ?_⟩
  · intro a ha b hb hab
    subst hab
    obtain ⟨x, hx, rfl⟩ := List.mem_map.mp ha
    rcases hids x hx with h | h
    · exact h2 (h ▸ hb)
    · exact h (by simp only [List.mem_append, List.mem_cons]; exact Or.inr (Or.inr hb))
  · intro a ha b hb hab
    subst hab
    rw [List.mem_append] at hb
    rcases hb with hb | hb
    · obtain ⟨x, hx, rfl⟩ := List.mem_map.mp hb
      rcases hids x hx with h | h
      · exact hp (h ▸ ha)
      · exact h (by simp only [List.mem_append, List.mem_cons]; exact Or.inl ha)
    · exact h4 _ ha a (by simp [hb]) rfl

theorem hasState_map (x : Node) (τ : VOut → VOut) (σ : SOut → SOut) (k : Nat) :
    (x.map τ σ).hasState k ↔ x.hasState k := by
  simp [Node.hasState, Node.map]

theorem hasValue_map (x : Node) (τ : VOut → VOut) (σ : SOut → SOut) (k : Nat) :
    (x.map τ σ).hasValue k ↔ x.hasValue k := by
  simp [Node.hasValue, Node.map]

theorem new_id_eq (hw : G.Wf) (hf : Fits G n new vouts souts) {x y : Node} (hx : x ∈ new)
    (hy : y ∈ new) (h : x.id = y.id) : x = y := List.inj_on_of_nodup_map hf.nodup hx hy h

/-- an old output in use, seen from the new region -/
theorem old_hasS (hw : G.Wf) (hf : Fits G n new vouts souts) {x' : Node}
    (hx' : x' ∈ (G.replace n.id new vouts souts).nodes) {k : Nat} (hu : G.usedS (.res x'.id k))
    (hne : x'.id ≠ n.id) : x'.hasState k := by
  rcases replace_cases hw hf hx' with ⟨x, hx, h, rfl⟩ | h
  · rw [hasState_map]; exact hw.states x hx k hu
  · rcases hf.ids x' h with h' | h'
    · exact absurd h' hne
    · exfalso
      apply h'
      rcases hu with hu | ⟨y, hy, hu⟩
      · apply hw.results
        simp only [Graph.needs, List.mem_append, List.mem_flatMap]
        exact Or.inr ⟨_, hu, by simp [SOut.owners]⟩
      · obtain ⟨z, hz, e, _⟩ := needs_pair hw hy (mem_needs_states hu (by simp [SOut.owners]) :
          x'.id ∈ y.needs)
        exact e ▸ List.mem_map_of_mem hz

theorem old_hasV (hw : G.Wf) (hf : Fits G n new vouts souts) {x' : Node}
    (hx' : x' ∈ (G.replace n.id new vouts souts).nodes) {k : Nat} (hu : G.usedV (.res x'.id k))
    (hne : x'.id ≠ n.id) : x'.hasValue k := by
  rcases replace_cases hw hf hx' with ⟨x, hx, h, rfl⟩ | h
  · rw [hasValue_map]; exact hw.values x hx k hu
  · rcases hf.ids x' h with h' | h'
    · exact absurd h' hne
    · exfalso
      apply h'
      rcases hu with hu | ⟨y, hy, hu⟩
      · apply hw.results
        simp only [Graph.needs, List.mem_append, List.mem_flatMap]
        exact Or.inl ⟨_, hu, by simp [VOut.owners]⟩
      · obtain ⟨z, hz, e, _⟩ := needs_pair hw hy (mem_needs_vals hu (by simp [VOut.owners]) :
          x'.id ∈ y.needs)
        exact e ▸ List.mem_map_of_mem hz

/-- `n` does not depend on itself -/
theorem anc_ne (hw : G.Wf) (hn : n ∈ G.nodes) {i : Nat} (h : Anc G n i) : i ≠ n.id := by
  obtain ⟨z, hz, rfl, hp⟩ := anc_pair hw hn h
  intro e
  have := eq_of_id hw hz hn e
  subst this
  have := List.Nodup.sublist hp (List.Nodup.of_map _ hw.nodup)
  simp at this

theorem replace_wf (hw : G.Wf) (hf : Fits G n new vouts souts) :
    (G.replace n.id new vouts souts).Wf := by
  have ndN : G.nodes.Nodup := List.Nodup.of_map _ hw.nodup
  have ndN' := replace_nodup hw hf
  have ndL' := List.Nodup.of_map _ ndN'
  have newNew : ∀ x ∈ new, ∀ k, NewS new (.res x.id k) → x.hasState k := by
    rintro x hx k ⟨y, hy, k', e, h⟩
    simp only [SOut.res.injEq] at e
    have := new_id_eq hw hf hx hy e.1
    subst this
    rw [e.2]; exact h
  have validS : ∀ x' ∈ (G.replace n.id new vouts souts).nodes, ∀ k,
      OldS G n (.res x'.id k) ∨ NewS new (.res x'.id k) → x'.hasState k := by
    intro x' hx' k h
    rcases h with h | h
    · exact old_hasS hw hf hx' h.used (anc_ne hw hf.mem (h.anc _ (by simp [SOut.owners])))
    · obtain ⟨y, hy, k', e, h⟩ := h
      simp only [SOut.res.injEq] at e
      have := List.inj_on_of_nodup_map ndN' hx' (new_mem hf hy) e.1
      subst this
      rw [e.2]; exact h
  have validV : ∀ x' ∈ (G.replace n.id new vouts souts).nodes, ∀ k,
      OldV G n (.res x'.id k) ∨ NewV new (.res x'.id k) → x'.hasValue k := by
    intro x' hx' k h
    rcases h with h | h
    · exact old_hasV hw hf hx' h.used (anc_ne hw hf.mem (h.anc _ (by simp [VOut.owners])))
    · obtain ⟨y, hy, k', e, h⟩ := h
      simp only [VOut.res.injEq] at e
      have := List.inj_on_of_nodup_map ndN' hx' (new_mem hf hy) e.1
      subst this
      rw [e.2]; exact h
  have subS : ∀ x' ∈ (G.replace n.id new vouts souts).nodes, ∀ k o, G.usedS o →
      ssub n.id souts o = .res x'.id k → x'.hasState k := by
    intro x' hx' k o hu e
    rcases ssub_cases hw hf hu with ⟨h1, h2⟩ | ⟨k1, o', h1, h2, h3⟩
    · rw [h2] at e
      subst e
      exact old_hasS hw hf hx' hu (by simpa [SOut.owners, eq_comm] using h1)
    · rw [h3] at e
      subst e
      exact validS x' hx' k (hf.outS _ (List.mem_of_getElem? h2))
  have subV : ∀ x' ∈ (G.replace n.id new vouts souts).nodes, ∀ k o, G.usedV o →
      vsub n.id vouts o = .res x'.id k → x'.hasValue k := by
    intro x' hx' k o hu e
    rcases vsub_cases hw hf hu with ⟨h1, h2⟩ | ⟨k1, o', h1, h2, h3⟩
    · rw [h2] at e
      subst e
      exact old_hasV hw hf hx' hu (by simpa [VOut.owners, eq_comm] using h1)
    · rw [h3] at e
      subst e
      exact validV x' hx' k (hf.outV _ (List.mem_of_getElem? h2))
  constructor
  · exact ndN'
  · apply topo_of_pairs ndL'
    intro x' hx' i hi
    rcases replace_cases hw hf hx' with ⟨x, hx, hne, rfl⟩ | hx'n
    · rcases needs_cases hw hf hx hi with ⟨h1, h2⟩ | ⟨h1, h2⟩
      · obtain ⟨z, hz, rfl, hp⟩ := needs_pair hw hx h2
        refine ⟨z.map (vsub n.id vouts) (ssub n.id souts), rfl, ?_⟩
        exact pair_flatMap hp (by rw [if_neg h1]; simp) (by rw [if_neg hne]; simp)
      · obtain ⟨n2, hn2, e, hp⟩ := needs_pair hw hx h1
        have := eq_of_id hw hn2 hf.mem e
        subst this
        rcases h2 with h2 | h2
        · obtain ⟨z, hz, rfl, hp2⟩ := anc_pair hw hf.mem h2
          refine ⟨z.map (vsub n2.id vouts) (ssub n2.id souts), rfl, ?_⟩
          exact pair_flatMap (pair_trans ndN hp2 hp)
            (by rw [if_neg (anc_ne hw hf.mem h2)]; simp) (by rw [if_neg hne]; simp)
        · obtain ⟨z, hz, rfl⟩ := List.mem_map.mp h2
          exact ⟨z, rfl, pair_flatMap hp (by rw [if_pos rfl]; exact hz) (by rw [if_neg hne]; simp)⟩
    · rcases new_needs hf hx'n hi with h | ⟨z, hz, e, hp⟩
      · obtain ⟨z, hz, rfl, hp2⟩ := anc_pair hw hf.mem h
        refine ⟨z.map (vsub n.id vouts) (ssub n.id souts), rfl, ?_⟩
        exact pair_flatMap hp2 (by rw [if_neg (anc_ne hw hf.mem h)]; simp)
          (by rw [if_pos rfl]; exact hx'n)
      · refine ⟨z, e, hp.trans ?_⟩
        obtain ⟨p, q, e⟩ := List.append_of_mem hf.mem
        rw [replace_nodes, e, List.flatMap_append, List.flatMap_cons, repl_self]
        exact (List.sublist_append_left _ _).trans (List.sublist_append_right _ _)
  · intro i hi
    have key : ∀ i, Anc G n i ∨ i ∈ new.map Node.id →
        i ∈ (G.replace n.id new vouts souts).nodes.map Node.id := by
      intro i h
      rcases h with h | h
      · obtain ⟨z, hz, rfl, _⟩ := anc_pair hw hf.mem h
        exact List.mem_map.mpr ⟨_, map_mem hz (anc_ne hw hf.mem h), rfl⟩
      · obtain ⟨z, hz, rfl⟩ := List.mem_map.mp h
        exact List.mem_map_of_mem (new_mem hf hz)
    rcases graph_needs_cases hw hf hi with ⟨h1, h2⟩ | ⟨_, h2⟩
    · obtain ⟨z, hz, rfl⟩ := List.mem_map.mp (hw.results i h2)
      exact List.mem_map.mpr ⟨_, map_mem hz h1, rfl⟩
    · exact key i h2
  · intro x' hx' k hu
    rcases hu with hu | ⟨y', hy', hu⟩
    · simp only [Graph.replace, List.mem_map] at hu
      obtain ⟨o, ho, e⟩ := hu
      exact subS x' hx' k o (Or.inl ho) e
    · rcases replace_cases hw hf hy' with ⟨y, hy, hne, rfl⟩ | hy'n
      · simp only [Node.map, List.mem_map] at hu
        obtain ⟨o, ho, e⟩ := hu
        exact subS x' hx' k o (Or.inr ⟨y, hy, ho⟩) e
      · obtain ⟨a, b, e⟩ := List.append_of_mem hy'n
        apply validS x' hx' k
        rcases hf.newS a y' b e _ hu with h | ⟨z, hz, k', h, h'⟩
        · exact Or.inl h
        · exact Or.inr ⟨z, by rw [e]; simp [hz], k', h, h'⟩
  · intro x' hx' k hu
    rcases hu with hu | ⟨y', hy', hu⟩
    · simp only [Graph.replace, List.mem_map] at hu
      obtain ⟨o, ho, e⟩ := hu
      exact subV x' hx' k o (Or.inl ho) e
    · rcases replace_cases hw hf hy' with ⟨y, hy, hne, rfl⟩ | hy'n
      · simp only [Node.map, List.mem_map] at hu
        obtain ⟨o, ho, e⟩ := hu
        exact subV x' hx' k o (Or.inr ⟨y, hy, ho⟩) e
      · exact validV x' hx' k (Or.inl (hf.newV y' hy'n _ hu))

/-- what is live after the replacement was live before -/
theorem replace_live (hw : G.Wf) (hf : Fits G n new vouts souts) {x x' : Node} (hx : x ∈ G.nodes)
    (hx' : x' ∈ repl n new vouts souts x) (hl : x' ∈ (G.replace n.id new vouts souts).live) :
    x ∈ G.live := by
  have hnew : ∀ i ∈ new.map Node.id, ∀ z ∈ G.nodes, z.id = i → z = n := by
    intro i hi z hz e
    obtain ⟨y, hy, rfl⟩ := List.mem_map.mp hi
    rcases hf.ids y hy with h | h
    · exact eq_of_id hw hz hf.mem (e.trans h)
    · exact absurd (e ▸ List.mem_map_of_mem hz) h
  have key := kept_induct (G.replace n.id new vouts souts).nodes
    (G.replace n.id new vouts souts).needs
    (fun j => (∃ x ∈ G.live, x.id = j) ∨ (j ∈ new.map Node.id ∧ n ∈ G.live))
    (by
      intro i hi
      rcases graph_needs_cases hw hf hi with ⟨h1, h2⟩ | ⟨h1, h2⟩
      · obtain ⟨z, hz, rfl⟩ := List.mem_map.mp (hw.results i h2)
        exact Or.inl ⟨z, live_result hw hz h2, rfl⟩
      · have hn := live_result hw hf.mem h1
        rcases h2 with h2 | h2
        · obtain ⟨z, hz, rfl, _⟩ := anc_pair hw hf.mem h2
          exact Or.inl ⟨z, anc_live hw hn h2 z hz rfl, rfl⟩
        · exact Or.inr ⟨h2, hn⟩)
    (by
      intro y' hy' hQ i hi
      rcases replace_cases hw hf hy' with ⟨y, hy, hne, rfl⟩ | hy'n
      · have hyl : y ∈ G.live := by
          rcases hQ with ⟨x, hx, e⟩ | ⟨h, _⟩
          · have := eq_of_id hw (live_mem hx) hy e
            exact this ▸ hx
          · exact absurd (congrArg Node.id (hnew _ h y hy rfl)) hne
        rcases needs_cases hw hf hy hi with ⟨h1, h2⟩ | ⟨h1, h2⟩
        · obtain ⟨z, hz, rfl, _⟩ := needs_pair hw hy h2
          exact Or.inl ⟨z, live_used hw hz hyl h2, rfl⟩
        · have hn := live_used hw hf.mem hyl h1
          rcases h2 with h2 | h2
          · obtain ⟨z, hz, rfl, _⟩ := anc_pair hw hf.mem h2
            exact Or.inl ⟨z, anc_live hw hn h2 z hz rfl, rfl⟩
          · exact Or.inr ⟨h2, hn⟩
      · have hn : n ∈ G.live := by
          rcases hQ with ⟨x, hx, e⟩ | ⟨_, h⟩
          · have := hnew _ (List.mem_map_of_mem hy'n) x (live_mem hx) e
            exact this ▸ hx
          · exact h
        rcases new_needs hf hy'n hi with h | ⟨z, hz, e, _⟩
        · obtain ⟨z, hz, rfl, _⟩ := anc_pair hw hf.mem h
          exact Or.inl ⟨z, anc_live hw hn h z hz rfl, rfl⟩
        · exact Or.inr ⟨e ▸ List.mem_map_of_mem hz, hn⟩)
  have hQ := key.2 x' hl
  by_cases e : x.id = n.id
  · have := eq_of_id hw hx hf.mem e
    subst this
    rw [repl_self] at hx'
    rcases hQ with ⟨y, hy, e⟩ | ⟨_, h⟩
    · have := hnew _ (List.mem_map_of_mem hx') y (live_mem hy) e
      exact this ▸ hy
    · exact h
  · rw [repl_ne e] at hx'
    simp only [List.mem_singleton] at hx'
    subst hx'
    rcases hQ with ⟨y, hy, h⟩ | ⟨h, _⟩
    · have := eq_of_id hw (live_mem hy) hx h
      exact this ▸ hy
    · exact absurd (congrArg Node.id (hnew _ h x hx rfl)) e

/-- the last edge of a flow -/
theorem Flow.last {N : List Node} {a b : SOut} (h : Flow N a b) :
    a = b ∨ ∃ x ∈ N, ∃ k o, x.states[k]? = some o ∧ Flow N a o ∧ passes x.op x.id k b := by
  induction h with
  | refl o => exact Or.inl rfl
  | @step o o' o'' x k hx hk hp hf ih =>
    right
    rcases ih with rfl | ⟨y, hy, k2, o2, h2, h3, h4⟩
    · exact ⟨x, hx, k, o, hk, .refl _, hp⟩
    · exact ⟨y, hy, k2, o2, h2, .step hx hk hp h3, h4⟩

/-- everything that flows to the operands of `n` and of what it depends on flows there after the
replacement -/
def Upstream (G : Graph) (n : Node) (N' : List Node) (a : SOut) : Prop :=
  ∀ o, OldS G n o → Flow G.nodes a o → Flow N' a o

/-- The conditions on values and the flow of states. `N'` are the nodes after the replacement, `E`
the accesses that disappear. -/
structure Flows (sem : Sem V B) (s : State V B) (vis : Nat → Prop) (G : Graph) (n : Node)
    (new : List Node) (vouts : List VOut) (souts : List SOut) (E : Node → Prop) (N' : List Node) :
    Prop where
  values : n ∈ G.live → ∀ k v, vouts[k]? = some v →
    (G.final sem s).env v = (G.final sem s).env (.res n.id k)
  /-- what passes through `n` still reaches the output -/
  pass : ∀ x ∈ G.nodes, x.op.isEff = true → ¬ E x → ∀ j, Upstream G n N' (.res x.id j) →
    ∀ k o k1 o1, n.states[k]? = some o → Flow G.nodes (.res x.id j) o →
    passes n.op n.id k (.res n.id k1) → souts[k1]? = some o1 → Flow N' (.res x.id j) o1
  /-- what conflicts with `n` still reaches it -/
  into : ∀ n' ∈ new, n'.op.isEff = true → ∀ x ∈ G.live, ¬ E x → Conflict sem (G.final sem s).env x n →
    Before G.nodes x n → ∃ j, ∃ o ∈ n.states, Flow G.nodes (.res x.id j) o ∧
      (Upstream G n N' (.res x.id j) → ∃ o' ∈ n'.states, Flow N' (.res x.id j) o')
  /-- `n` still reaches what it conflicts with -/
  out : ∀ n' ∈ new, n'.op.isEff = true → ∀ y ∈ G.live, Conflict sem (G.final sem s).env n y →
    Before G.nodes n y → ∃ k o k', souts[k]? = some o ∧ Flow N' (.res n.id k') o ∧
      ∃ o1 ∈ y.states, Flow G.nodes (.res n.id k) o1
  exit : ∀ n' ∈ new, n'.op.isEff = true → ∀ b, vis b →
    sem.writes n.op (n.vals.map (G.final sem s).env) b →
    (∃ k, ∃ o ∈ G.sres, Flow G.nodes (.res n.id k) o) →
    ∃ k o k', souts[k]? = some o ∧ Flow N' (.res n.id k') o ∧
      ∃ o1 ∈ G.sres, Flow G.nodes (.res n.id k) o1
  self : new.filter (fun x => x.op.isEff) = [] → E n
  dead : ∀ x ∈ G.live, E x → ¬ Kept (repl n new vouts souts) (G.replace n.id new vouts souts) x
  /-- what a removed access writes is overwritten before it can be observed -/
  goneR : ∀ p z q y r b, G.live = p ++ z :: (q ++ y :: r) → E z →
    sem.writes z.op (z.vals.map (G.final sem s).env) b →
    Kept (repl n new vouts souts) (G.replace n.id new vouts souts) y →
    sem.reads y.op (y.vals.map (G.final sem s).env) b →
    ∃ w ∈ q, sem.writes w.op (w.vals.map (G.final sem s).env) b
  goneV : ∀ p z q b, G.live = p ++ z :: q → E z →
    sem.writes z.op (z.vals.map (G.final sem s).env) b → vis b →
    ∃ w ∈ q, sem.writes w.op (w.vals.map (G.final sem s).env) b

/-- the effect of passing an operand on -/
theorem passes_owner {op : Op} {i k : Nat} {o : SOut} (h : passes op i k o) : ∃ k', o = .res i k' := by
  cases o with
  | arg j => exact h.elim
  | res j k' => exact ⟨k', by rw [h.1]⟩

theorem replace_flow (s : State V B) (vis : Nat → Prop) (hw : G.Wf)
    (hf : Fits G n new vouts souts)
    {E : Node → Prop}
    (hl : Flows sem s vis G n new vouts souts E (G.replace n.id new vouts souts).nodes) {x : Node}
    (hx : x ∈ G.nodes) (hxe : x.op.isEff = true) (hxE : ¬ E x) (j : Nat) :
    ∀ o, G.usedS o → Flow G.nodes (.res x.id j) o →
      Flow (G.replace n.id new vouts souts).nodes (ssub n.id souts (.res x.id j))
        (ssub n.id souts o) := by
  have hown : ∀ o, OldS G n o → ssub n.id souts o = o := by
    intro o ho
    rcases ssub_cases hw hf ho.used with ⟨_, h⟩ | ⟨k, o', h, _⟩
    · exact h
    · exfalso
      exact anc_ne hw hf.mem (ho.anc n.id (by rw [h]; simp [SOut.owners])) rfl
  have main : ∀ len p z q, G.nodes = p ++ z :: q → p.length = len → ∀ k, G.usedS (.res z.id k) →
      Flow G.nodes (.res x.id j) (.res z.id k) →
      Flow (G.replace n.id new vouts souts).nodes (ssub n.id souts (.res x.id j))
        (ssub n.id souts (.res z.id k)) := by
    intro len
    induction len using Nat.strongRecOn with
    | _ len ih =>
    intro p z q e hlen k hu hfl
    have hzN : z ∈ G.nodes := by rw [e]; simp
    rcases hfl.last with h | ⟨y, hy, k0, o0, hk0, hf0, hp⟩
    · rw [h]; exact .refl _
    · have hyz : y = z := eq_of_id hw hy hzN hp.1.symm
      subst hyz
      have ho0 : o0 ∈ y.states := List.mem_of_getElem? hk0
      -- everything before y
      have ihp : ∀ z0 ∈ p, ∀ k, G.usedS (.res z0.id k) → Flow G.nodes (.res x.id j) (.res z0.id k) →
          Flow (G.replace n.id new vouts souts).nodes (ssub n.id souts (.res x.id j))
            (ssub n.id souts (.res z0.id k)) := by
        intro z0 hz0 k hu hfl
        obtain ⟨a, b, eab⟩ := List.append_of_mem hz0
        refine ih a.length ?_ a z0 (b ++ y :: q) (by rw [e, eab]; simp) rfl k hu hfl
        rw [← hlen, eab]; simp
      have ih0 : Flow (G.replace n.id new vouts souts).nodes (ssub n.id souts (.res x.id j))
          (ssub n.id souts o0) := by
        cases o0 with
        | arg i =>
          rcases hf0.last with h | ⟨w, _, _, _, _, _, h⟩
          · cases h
          · exact h.elim
        | res i k1 =>
          have := hw.topo p y q e i (mem_needs_states ho0 (by simp [SOut.owners]))
          obtain ⟨z0, hz0, rfl⟩ := List.mem_map.mp this
          exact ihp z0 hz0 k1 (Or.inr ⟨y, hy, ho0⟩) hf0
      by_cases hyn : y.id = n.id
      · have := eq_of_id hw hy hf.mem hyn
        subst this
        -- x comes before n
        have hxs : ssub y.id souts (.res x.id j) = .res x.id j := by
          have : x.id ≠ y.id := by
            intro exy
            have := eq_of_id hw hx hy exy
            subst this
            have hpr : ∀ {a b : SOut}, Flow G.nodes a b → ∀ z ∈ G.nodes, z.id ∈ a.owners →
                ∀ w ∈ G.nodes, w.id ∈ b.owners → z = w ∨ [z, w].Sublist G.nodes := by
              intro a b h
              induction h with
              | refl o =>
                intro z hz hzo w hw' hwo
                left
                apply eq_of_id hw hz hw'
                cases o with
                | arg i => simp [SOut.owners] at hzo
                | res i k =>
                  simp only [SOut.owners, List.mem_singleton] at hzo hwo
                  rw [hzo, hwo]
              | @step o o' o'' u k hu hk hp hfl ih =>
                intro z hz hzo w hw' hwo
                right
                obtain ⟨z2, hz2, e2, hp2⟩ := needs_pair hw hu
                  (mem_needs_states (List.mem_of_getElem? hk) hzo)
                have := eq_of_id hw hz2 hz e2
                subst this
                obtain ⟨k', hk'⟩ := passes_owner hp
                rcases ih u hu (by rw [hk']; simp [SOut.owners]) w hw' hwo with h | h
                · exact h ▸ hp2
                · exact pair_trans (List.Nodup.of_map _ hw.nodup) hp2 h
            cases o0 with
            | arg i =>
              rcases hf0.last with h | ⟨w, _, _, _, _, _, h⟩
              · cases h
              · exact h.elim
            | res i k1 =>
              obtain ⟨z0, hz0, e0, hp0⟩ := needs_pair hw hx
                (mem_needs_states ho0 (by simp [SOut.owners] : i ∈ (SOut.res i k1).owners))
              have nd := List.Nodup.of_map _ hw.nodup
              rcases hpr hf0 x hx (by simp [SOut.owners]) z0 hz0 (by simp [SOut.owners, e0])
                with h | h
              · rw [← h] at hp0
                have := List.Nodup.sublist hp0 nd
                simp at this
              · exact pair_anti nd h hp0
          simp [ssub, this]
        rw [hxs]
        rcases ssub_cases hw hf hu with ⟨h1, _⟩ | ⟨k2, o', h1, h2, h3⟩
        · simp [SOut.owners] at h1
        · rw [h3]
          simp only [SOut.res.injEq, true_and] at h1
          subst h1
          refine hl.pass x hx hxe hxE j ?_ k0 o0 k o' hk0 hf0 hp h2
          intro o ho hfo
          cases o with
          | arg i =>
            rcases hfo.last with h | ⟨w, _, _, _, _, _, h⟩
            · cases h
            · exact h.elim
          | res i k1 =>
            obtain ⟨z0, hz0, e0, hp0⟩ := anc_pair hw hf.mem (ho.anc i (by simp [SOut.owners]))
            have hz0p : z0 ∈ p := by
              by_contra hnp
              have nd := List.Nodup.of_map _ hw.nodup
              rw [e] at hz0 hp0 nd
              rw [List.mem_append, List.mem_cons] at hz0
              rcases hz0 with h | h | h
              · exact hnp h
              · rw [h] at hp0
                have := List.Nodup.sublist hp0 nd
                simp at this
              · obtain ⟨a, b, rfl⟩ := List.append_of_mem h
                exact pair_anti nd (split_pair p a b y z0) hp0
            have := ihp z0 hz0p k1 (e0 ▸ ho.used) (e0 ▸ hfo)
            rw [hxs, e0, hown _ ho] at this
            exact this
      · refine ih0.trans (.step (x := y.map (vsub n.id vouts) (ssub n.id souts)) (k := k0)
          (map_mem hy hyn) ?_ ?_ (.refl _))
        · simp [Node.map, hk0]
        · have : ssub n.id souts (.res y.id k) = .res y.id k := by simp [ssub, hyn]
          rw [this]
          exact hp
  intro o hu hfl
  cases o with
  | arg i =>
    rcases hfl.last with h | ⟨w, _, _, _, _, _, h⟩
    · cases h
    · exact h.elim
  | res i k =>
    rcases hfl.last with h | ⟨y, hy, k0, o0, hk0, hf0, hp⟩
    · rw [h]; exact .refl _
    · obtain ⟨k', e⟩ := passes_owner hp
      simp only [SOut.res.injEq] at e
      obtain ⟨rfl, rfl⟩ := e
      obtain ⟨p, q, e⟩ := List.append_of_mem hy
      exact main _ p y q e rfl k hu hfl

theorem replace_correct (s : State V B) (vis : Nat → Prop) (hw : G.Wf)
    (hr : RaceFree sem s vis G) (hf : Fits G n new vouts souts)
    {E : Node → Prop}
    (hl : Flows sem s vis G n new vouts souts E (G.replace n.id new vouts souts).nodes) :
    Correct sem s vis G (G.replace n.id new vouts souts) := by
  have hw' := replace_wf hw hf
  have hτ : ∀ v, (n.id ∈ v.owners → n ∈ G.live) →
      (G.final sem s).env (vsub n.id vouts v) = (G.final sem s).env v := by
    intro v hv
    cases v with
    | arg i => rfl
    | res i k =>
      by_cases h : i = n.id
      · subst h
        simp only [vsub, if_true, List.getD_eq_getElem?_getD]
        cases hv' : vouts[k]? with
        | none => rfl
        | some v => exact hl.values (hv (by simp [VOut.owners])) k v hv'
      · simp [vsub, h]
  have hmapτ : ∀ l : List VOut, (∀ v ∈ l, n.id ∈ v.owners → n ∈ G.live) →
      (l.map (vsub n.id vouts)).map (G.final sem s).env = l.map (G.final sem s).env := by
    intro l h
    rw [List.map_map]
    exact List.map_congr_left fun v hv => hτ v (h v hv)
  have hown : ∀ o, OldS G n o → ssub n.id souts o = o := by
    intro o ho
    rcases ssub_cases hw hf ho.used with ⟨_, h⟩ | ⟨k, o', h, _⟩
    · exact h
    · exfalso
      exact anc_ne hw hf.mem (ho.anc n.id (by rw [h]; simp [SOut.owners])) rfl
  have hne : ∀ x : Node, x.id ≠ n.id → ∀ k, ssub n.id souts (.res x.id k) = .res x.id k := by
    intro x h k; simp [ssub, h]
  have hflow := fun {x : Node} (hx : x ∈ G.nodes) (hxe : x.op.isEff = true) (hxE : ¬ E x)
      (j : Nat) => replace_flow s vis hw hf hl hx hxe hxE j
  have hup : ∀ x ∈ G.nodes, x.op.isEff = true → ¬ E x → x.id ≠ n.id → ∀ j,
      Upstream G n (G.replace n.id new vouts souts).nodes (.res x.id j) := by
    intro x hx hxe hxE hxn j o ho hfo
    have := hflow hx hxe hxE j o ho.used hfo
    rwa [hne x hxn, hown o ho] at this
  have hE : ∀ x ∈ G.live, ¬ E x → x.id = n.id →
      x = n ∧ ∃ n' ∈ new, n'.op.isEff = true ∧ n'.id = n.id := by
    intro x hx hnE e
    have hxn := eq_of_id hw (live_mem hx) hf.mem e
    rcases hf.eff with h | ⟨n', h, h2, _⟩
    · exact absurd (hxn ▸ hl.self h) hnE
    · have : n' ∈ new.filter (fun x => x.op.isEff) := by rw [h]; simp
      simp only [List.mem_filter] at this
      exact ⟨hxn, n', this.1, this.2, h2⟩
  have hself : ∀ x ∈ G.live, ¬ Before G.nodes x x := by
    rintro x hx ⟨k, o, ho, hfl⟩
    have := flow_prec hw (live_schedule hw) hfl x hx ho x hx (by simp [SOut.owners])
    obtain ⟨p, q, e⟩ := List.append_of_mem hx
    have h1 := this p q e
    have nd := live_nodup hw
    rw [e, List.map_append, List.nodup_append] at nd
    exact nd.2.2 _ (List.mem_map_of_mem h1) x.id (by simp) rfl
  have := core s vis G (G.replace n.id new vouts souts) (repl n new vouts souts)
    E hw hw' hr rfl
    (by
      intro x hx x' hx'
      by_cases e : x.id = n.id
      · rw [repl, if_pos e] at hx'
        rw [e]
        exact hf.ids x' hx'
      · rw [repl_ne e] at hx'
        simp only [List.mem_singleton] at hx'
        subst hx'
        exact Or.inl rfl)
    (by
      intro x hx x' hx' hnx y hy hye e
      by_cases e2 : x.id = n.id
      · rw [repl, if_pos e2] at hx'
        rcases hf.ids x' hx' with h | h
        · have := eq_of_id hw hy hf.mem (e.trans h)
          subst this
          rw [hf.plain x' hx' hnx h] at hye
          simp at hye
        · exact h (e ▸ List.mem_map_of_mem hy)
      · rw [repl_ne e2] at hx'
        simp only [List.mem_singleton] at hx'
        subst hx'
        have := eq_of_id hw hy hx e
        subst this
        simp only [Node.map] at hnx
        rw [hnx] at hye
        simp at hye)
    (by
      intro x hx x' hx' hlx' hex'
      have hlx := replace_live hw hf hx hx' hlx'
      by_cases e : x.id = n.id
      · have := eq_of_id hw hx hf.mem e
        subst this
        rw [repl_self] at hx' ⊢
        have hin : x' ∈ new.filter (fun x => x.op.isEff) := by simp [hx', hex']
        rcases hf.eff with h | ⟨n', h, h2, h3, h4⟩
        · rw [h] at hin; simp at hin
        · rw [h] at hin
          simp only [List.mem_singleton] at hin
          subst hin
          exact ⟨h2, h3, by rw [h4], hlx, h⟩
      · rw [repl_ne e] at hx' ⊢
        simp only [List.mem_singleton] at hx'
        subst hx'
        exact ⟨rfl, rfl, hmapτ x.vals (fun v hv hn => live_used hw hf.mem hlx (mem_needs_vals hv hn)),
          hlx, by simpa using hex'⟩)
    (hmapτ G.vres (fun v hv hn => live_result hw hf.mem (by
      simp only [Graph.needs, List.mem_append, List.mem_flatMap]; exact Or.inl ⟨v, hv, hn⟩)))
    (by
      intro x hx y hy hnE y' hy' hly' hey hc hbf
      obtain ⟨hxe, hye⟩ := conflict_eff hc
      by_cases e : x.id = n.id
      · obtain ⟨hxn, n', hn', hen', hin'⟩ := hE x hx hnE e
        subst hxn
        refine ⟨n', by rw [repl_self]; exact hn', hen', ?_⟩
        have hyn : y.id ≠ x.id := by
          intro h
          have := eq_of_id hw (live_mem hy) (live_mem hx) h
          subst this
          exact hself _ hx hbf
        rw [repl_ne hyn] at hy'
        simp only [List.mem_singleton] at hy'
        subst hy'
        obtain ⟨k, o, k', hk, h1, o1, ho1, h2⟩ := hl.out n' hn' hen' y hy hc hbf
        have h3 := hflow hf.mem hxe hnE k o1 (Or.inr ⟨y, live_mem hy, ho1⟩) h2
        have : ssub x.id souts (.res x.id k) = o := by
          simp [ssub, List.getD_eq_getElem?_getD, hk]
        rw [this] at h3
        exact ⟨k', _, List.mem_map_of_mem ho1, by rw [hin']; exact h1.trans h3⟩
      · refine ⟨x.map (vsub n.id vouts) (ssub n.id souts), by rw [repl_ne e]; simp, hxe, ?_⟩
        by_cases ey : y.id = n.id
        · have := eq_of_id hw (live_mem hy) hf.mem ey
          subst this
          rw [repl_self] at hy'
          obtain ⟨j, o, ho, hfo, h⟩ := hl.into y' hy' hey x hx hnE hc hbf
          obtain ⟨o', ho', h'⟩ := h (hup x (live_mem hx) hxe hnE e j)
          exact ⟨j, o', ho', h'⟩
        · rw [repl_ne ey] at hy'
          simp only [List.mem_singleton] at hy'
          subst hy'
          obtain ⟨k, o, ho, hfl⟩ := hbf
          have h1 := hflow (live_mem hx) hxe hnE k o (Or.inr ⟨y, live_mem hy, ho⟩) hfl
          rw [hne x e] at h1
          exact ⟨k, _, List.mem_map_of_mem ho, h1⟩)
    (by
      intro x hx hnE b hb hwr hbf
      have hxe := writes_eff hwr
      by_cases e : x.id = n.id
      · obtain ⟨hxn, n', hn', hen', hin'⟩ := hE x hx hnE e
        subst hxn
        refine ⟨n', by rw [repl_self]; exact hn', hen', ?_⟩
        obtain ⟨k, o, k', hk, h1, o1, ho1, h2⟩ := hl.exit n' hn' hen' b hb hwr hbf
        have h3 := hflow hf.mem hxe hnE k o1 (Or.inl ho1) h2
        have : ssub x.id souts (.res x.id k) = o := by
          simp [ssub, List.getD_eq_getElem?_getD, hk]
        rw [this] at h3
        exact ⟨k', _, List.mem_map_of_mem ho1, by rw [hin']; exact h1.trans h3⟩
      · refine ⟨x.map (vsub n.id vouts) (ssub n.id souts), by rw [repl_ne e]; simp, hxe, ?_⟩
        obtain ⟨k, o, ho, hfl⟩ := hbf
        have h1 := hflow (live_mem hx) hxe hnE k o (Or.inl ho) hfl
        rw [hne x e] at h1
        exact ⟨k, _, List.mem_map_of_mem ho, h1⟩)
    hl.dead hl.goneR hl.goneV
  exact ⟨hw', this.1, this.2⟩

end
end Jlm.Mem
