import Verif.Rvsdg.TraverserLemmas
/-
How the mutations change the edges of a region. Used by TraverserProps.lean.
-/
set_option linter.unusedSimpArgs false
set_option linter.unusedVariables false
namespace Jlm.Rvsdg.Trav

/-- the edges into node `n` if its inputs have these origins -/
def inE (n : NodeId) (l : List Origin) : Edges := l.map (fun o => (o.owner, some n))
def resE (l : List Origin) : Edges := l.map (fun o => (o.owner, none))

/-- the edges into anything but `n` -/
def restE (g : Graph) (n : NodeId) : Edges :=
  (g.nodes.erase n).flatMap (fun m => inE m (g.inputs m)) ++ resE g.results

theorem edges_def (g : Graph) : g.edges = g.nodes.flatMap (fun m => inE m (g.inputs m)) ++ resE g.results := rfl

theorem upd_self (f : NodeId → List Origin) (n l) : upd f n l n = l := by simp [upd]
theorem upd_ne (f : NodeId → List Origin) {n m : NodeId} (l) (h : m ≠ n) : upd f n l m = f m := by
  simp [upd, h]
theorem upd_same (f : NodeId → List Origin) (n) : upd f n (f n) = f := by
  funext m; unfold upd; split <;> simp_all

theorem flatMap_upd_ne (ns : List NodeId) (f : NodeId → List Origin) (n l) (h : n ∉ ns) :
    ns.flatMap (fun m => inE m (upd f n l m)) = ns.flatMap (fun m => inE m (f m)) := by
  apply List.flatMap_congr
  intro m hm
  rw [upd_ne _ _ (by rintro rfl; exact h hm)]

theorem edges_upd (g : Graph) (hn : g.nodes.Nodup) {n} (h : n ∈ g.nodes) (l : List Origin) :
    ({ g with inputs := upd g.inputs n l } : Graph).edges.Perm (inE n l ++ restE g n) := by
  rw [edges_def, restE]
  simp only []
  have hp : g.nodes.Perm (n :: g.nodes.erase n) := List.perm_cons_erase h
  have h1 := (hp.flatMap_right (fun m => inE m (upd g.inputs n l m)))
  rw [List.flatMap_cons, upd_self, flatMap_upd_ne _ _ _ _ (fun hh => (hn.mem_erase_iff.mp hh).1 rfl)] at h1
  rw [← List.append_assoc]
  exact h1.append_right _

theorem edges_split (g : Graph) (hn : g.nodes.Nodup) {n} (h : n ∈ g.nodes) :
    g.edges.Perm (inE n (g.inputs n) ++ restE g n) := by
  have := edges_upd g hn h (g.inputs n)
  rw [upd_same] at this
  exact this

theorem mem_edges {g : Graph} {a d} : (a, d) ∈ g.edges ↔
    (∃ n ∈ g.nodes, ∃ o ∈ g.inputs n, o.owner = a ∧ d = some n) ∨
    (∃ o ∈ g.results, o.owner = a ∧ d = none) := by
  unfold Graph.edges
  rw [List.mem_append, List.mem_flatMap, List.mem_map]
  constructor
  · rintro (⟨n, hn, h⟩ | ⟨o, ho, h⟩)
    · obtain ⟨o, ho, h⟩ := List.mem_map.mp h
      simp only [Prod.mk.injEq] at h
      exact .inl ⟨n, hn, o, ho, h.1, h.2.symm⟩
    · simp only [Prod.mk.injEq] at h
      exact .inr ⟨o, ho, h.1, h.2.symm⟩
  · rintro (⟨n, hn, o, ho, h1, h2⟩ | ⟨o, ho, h1, h2⟩)
    · exact .inl ⟨n, hn, List.mem_map.mpr ⟨o, ho, by rw [h1, h2]⟩⟩
    · exact .inr ⟨o, ho, by rw [h1, h2]⟩

theorem need_inE (n m l) : need (inE n l) m = if m = n then l.length else 0 := by
  unfold need inE
  rw [List.countP_map]
  by_cases h : m = n
  · subst h; simp [Function.comp_def]
  · simp [h, Function.comp_def, Ne.symm h]

theorem need_append (E E' : Edges) (n) : need (E ++ E') n = need E n + need E' n := List.countP_append
theorem actv_append (E E' : Edges) (v n) : actv (E ++ E') v n = actv E v n + actv E' v n :=
  List.countP_append

theorem need_zero {E : Edges} {n} (h : ∀ e ∈ E, e.2 ≠ some n) : need E n = 0 := by
  unfold need; rw [List.countP_eq_zero]; intro e he; simpa using h e he

theorem need_restE (g : Graph) (hn : g.nodes.Nodup) (n) : need (restE g n) n = 0 := by
  apply need_zero
  rintro ⟨a, d⟩ he
  unfold restE at he
  rw [List.mem_append, List.mem_flatMap] at he
  rcases he with ⟨m, hm, he⟩ | he
  · obtain ⟨o, _, he⟩ := List.mem_map.mp he
    simp only [Prod.mk.injEq] at he
    rw [← he.2]
    intro hh
    rw [Option.some.injEq] at hh
    subst hh
    exact (hn.mem_erase_iff.mp hm).1 rfl
  · obtain ⟨o, _, he⟩ := List.mem_map.mp he
    simp only [Prod.mk.injEq] at he
    rw [← he.2]; simp

theorem need_edges (g : Graph) (hn : g.nodes.Nodup) {n} (h : n ∈ g.nodes) :
    need g.edges n = g.ninputs n := by
  rw [need_perm (edges_split g hn h), need_append, need_inE, need_restE g hn]
  simp [Graph.ninputs]

theorem need_edges_dead (g : Graph) {n} (h : n ∉ g.nodes) : need g.edges n = 0 := by
  apply need_zero
  rintro ⟨a, d⟩ he
  rcases mem_edges.mp he with ⟨m, hm, o, ho, h1, h2⟩ | ⟨o, ho, h1, h2⟩
  · rw [h2]; intro hh; rw [Option.some.injEq] at hh; exact h (hh ▸ hm)
  · rw [h2]; simp

theorem not_used_edges {g : Graph} {n} (h : ¬ g.Used n) : ∀ e ∈ g.edges, e.1 ≠ some n := by
  rintro ⟨a, d⟩ he
  rcases mem_edges.mp he with ⟨m, hm, o, ho, h1, h2⟩ | ⟨o, ho, h1, h2⟩
  · intro hh; simp only at hh
    exact h (.inl ⟨m, hm, o, ho, by rw [h1, hh]⟩)
  · intro hh; simp only at hh
    exact h (.inr ⟨o, ho, by rw [h1, hh]⟩)

/-! ### edges after each mutation -/

theorem edges_create (g : Graph) (hf : g.nextId ∉ g.nodes) (os) :
    (g.apply (.createNode os)).edges.Perm (inE g.nextId os ++ g.edges) := by
  rw [edges_def, edges_def]
  simp only [Graph.apply]
  rw [List.flatMap_append, flatMap_upd_ne _ _ _ _ hf]
  simp only [List.flatMap_cons, List.flatMap_nil, List.append_nil, upd_self]
  rw [← List.append_assoc]
  exact List.perm_append_comm.append_right _

theorem edges_destroy (g : Graph) (hn : g.nodes.Nodup) (n) :
    (g.apply (.destroyNode n)).edges = restE g n := by
  rw [edges_def, restE]
  simp only [Graph.apply]
  rw [flatMap_upd_ne _ _ _ _ (fun hh => (hn.mem_erase_iff.mp hh).1 rfl)]

theorem edges_addInput (g : Graph) (hn : g.nodes.Nodup) {n} (h : n ∈ g.nodes) (o) :
    (g.apply (.addInput n o)).edges.Perm ((o.owner, some n) :: g.edges) := by
  have h1 := edges_upd g hn h (g.inputs n ++ [o])
  have h2 := edges_split g hn h
  refine h1.trans (List.Perm.trans ?_ (h2.symm.cons _))
  unfold inE
  rw [List.map_append, List.map_cons, List.map_nil, ← List.cons_append]
  exact (List.perm_append_singleton _ _).append_right _

theorem set_perm (l : List Origin) (i : Nat) (old o : Origin) (h : l[i]? = some old) :
    ∃ r, l.Perm (old :: r) ∧ (l.set i o).Perm (o :: r) := by
  induction l generalizing i with
  | nil => simp at h
  | cons a l ih =>
    cases i with
    | zero =>
      simp at h
      exact ⟨l, by rw [h], by simp⟩
    | succ i =>
      simp only [List.getElem?_cons_succ] at h
      obtain ⟨r, h1, h2⟩ := ih i h
      refine ⟨a :: r, ?_, ?_⟩
      · exact (h1.cons a).trans (List.Perm.swap _ _ _)
      · rw [List.set_cons_succ]
        exact (h2.cons a).trans (List.Perm.swap _ _ _)

theorem edges_divertInput (g : Graph) (hn : g.nodes.Nodup) {n} (h : n ∈ g.nodes) (i) (old o)
    (hi : (g.inputs n)[i]? = some old) :
    ∃ R, g.edges.Perm ((old.owner, some n) :: R) ∧
      (g.apply (.divertInput n i o)).edges.Perm ((o.owner, some n) :: R) := by
  obtain ⟨r, h1, h2⟩ := set_perm _ i old o hi
  refine ⟨inE n r ++ restE g n, ?_, ?_⟩
  · refine (edges_split g hn h).trans ?_
    exact (h1.map _).append_right _
  · refine (edges_upd g hn h _).trans ?_
    exact (h2.map _).append_right _

theorem select_perm (idx) (k) (l : List Origin) :
    l.Perm (selectIdx idx true k l ++ selectIdx idx false k l) := by
  induction l generalizing k with
  | nil => simp [selectIdx]
  | cons o l ih =>
    unfold selectIdx
    by_cases h : idx.contains k = true
    · simp only [h]; simp; exact (ih (k + 1))
    · simp only [Bool.not_eq_true] at h
      simp only [h]; simp
      exact ((ih (k + 1)).cons o).trans List.perm_middle.symm

theorem edges_removeInputs (g : Graph) (hn : g.nodes.Nodup) {n} (h : n ∈ g.nodes) (idx) :
    g.edges.Perm (inE n (selectIdx idx true 0 (g.inputs n)) ++
      (g.apply (.removeInputs n idx)).edges) := by
  have h1 := edges_upd g hn h (selectIdx idx false 0 (g.inputs n))
  refine (edges_split g hn h).trans (List.Perm.trans ?_ (h1.symm.append_left _))
  rw [← List.append_assoc]
  refine List.Perm.append_right _ ?_
  have := (select_perm idx 0 (g.inputs n)).map (fun o => (o.owner, some n))
  rw [List.map_append] at this
  exact this

theorem edges_addResult (g : Graph) (o) :
    (g.apply (.addResult o)).edges.Perm ((o.owner, none) :: g.edges) := by
  rw [edges_def, edges_def]
  simp only [Graph.apply, resE, List.map_append, List.map_cons, List.map_nil]
  rw [← List.append_assoc]
  exact List.perm_append_singleton _ _

theorem edges_divertResult (g : Graph) (i) (old o) (hi : g.results[i]? = some old) :
    ∃ R, g.edges.Perm ((old.owner, none) :: R) ∧
      (g.apply (.divertResult i o)).edges.Perm ((o.owner, none) :: R) := by
  obtain ⟨r, h1, h2⟩ := set_perm _ i old o hi
  refine ⟨g.nodes.flatMap (fun m => inE m (g.inputs m)) ++ resE r, ?_, ?_⟩
  · rw [edges_def]
    refine ((h1.map (fun o => (o.owner, (none : Option NodeId)))).append_left _).trans ?_
    exact List.perm_middle
  · rw [edges_def]
    refine ((h2.map (fun o => (o.owner, (none : Option NodeId)))).append_left _).trans ?_
    exact List.perm_middle

theorem edges_removeResults (g : Graph) (idx) :
    g.edges.Perm (resE (selectIdx idx true 0 g.results) ++
      (g.apply (.removeResults idx)).edges) := by
  rw [edges_def, edges_def]
  simp only [Graph.apply]
  have h1 := (select_perm idx 0 g.results).map (fun o => (o.owner, (none : Option NodeId)))
  rw [List.map_append] at h1
  refine (h1.append_left _).trans ?_
  rw [← List.append_assoc, ← List.append_assoc]
  exact List.perm_append_comm.append_right _

/-! ### well-formedness is preserved -/

theorem selectIdx_subset {idx b k} {l : List Origin} {o} (h : o ∈ selectIdx idx b k l) : o ∈ l := by
  induction l generalizing k with
  | nil => simp [selectIdx] at h
  | cons a l ih =>
    unfold selectIdx at h
    split at h
    · rcases List.mem_cons.mp h with rfl | h
      · simp
      · exact List.mem_cons_of_mem _ (ih h)
    · exact List.mem_cons_of_mem _ (ih h)

theorem Graph.WF.fresh {g : Graph} (h : g.WF) : g.nextId ∉ g.nodes :=
  fun hh => Nat.lt_irrefl _ (h.lt_nextId _ hh)

theorem Graph.WF.apply {g : Graph} (h : g.WF) (m : Mut) (hv : m.Valid g) : (g.apply m).WF := by
  have hset : ∀ (n : NodeId) (l : List Origin), n ∈ g.nodes → (∀ o ∈ l, g.HasOrigin o) →
      ({ g with inputs := upd g.inputs n l } : Graph).WF := by
    intro n l hn hl
    refine ⟨h.nodup, h.lt_nextId, ?_, h.results_ok⟩
    intro m hm o ho
    simp only [upd] at ho
    split at ho
    · exact hl o ho
    · exact h.inputs_ok m hm o ho
  cases m with
  | createNode os =>
    have hmono : ∀ o, g.HasOrigin o → (g.apply (.createNode os)).HasOrigin o := by
      intro o ho p hp; simp only [Graph.apply, List.mem_append]; exact .inl (ho p hp)
    refine ⟨?_, ?_, ?_, ?_⟩
    · simp only [Graph.apply]
      rw [List.nodup_append]
      refine ⟨h.nodup, by simp, ?_⟩
      intro a ha b hb
      rw [List.mem_singleton] at hb
      rintro rfl
      exact h.fresh (hb ▸ ha)
    · intro n hn
      simp only [Graph.apply, List.mem_append, List.mem_singleton] at hn ⊢
      rcases hn with hn | hn
      · exact Nat.lt_succ_of_lt (h.lt_nextId n hn)
      · subst hn; exact Nat.lt_succ_self _
    · intro n hn o ho
      apply hmono
      simp only [Graph.apply, upd] at ho
      split at ho
      · exact hv o ho
      · simp only [Graph.apply, List.mem_append, List.mem_singleton] at hn
        rcases hn with hn | hn
        · exact h.inputs_ok n hn o ho
        · contradiction
    · intro o ho
      exact hmono o (h.results_ok o ho)
  | destroyNode n =>
    have hne : ∀ m ∈ g.nodes.erase n, m ∈ g.nodes := fun m hm => List.mem_of_mem_erase hm
    have hmono : ∀ o, g.HasOrigin o → o.owner ≠ some n → (g.apply (.destroyNode n)).HasOrigin o := by
      intro o ho ho2 p hp
      simp only [Graph.apply]
      rw [h.nodup.mem_erase_iff]
      exact ⟨by rintro rfl; exact ho2 hp, ho p hp⟩
    refine ⟨h.nodup.erase n, fun m hm => h.lt_nextId m (hne m hm), ?_, ?_⟩
    · intro m hm o ho
      simp only [Graph.apply, upd] at ho hm
      split at ho
      · cases ho
      · exact hmono o (h.inputs_ok m (hne m hm) o ho)
          (fun hh => hv.2 (.inl ⟨m, hne m hm, o, ho, hh⟩))
    · intro o ho
      exact hmono o (h.results_ok o ho) (fun hh => hv.2 (.inr ⟨o, ho, hh⟩))
  | addInput n o =>
    refine hset n _ hv.1 ?_
    intro x hx
    rcases List.mem_append.mp hx with hx | hx
    · exact h.inputs_ok n hv.1 x hx
    · rw [List.mem_singleton] at hx; subst hx; exact hv.2
  | removeInputs n idx =>
    exact hset n _ hv (fun o ho => h.inputs_ok n hv o (selectIdx_subset ho))
  | divertInput n i o =>
    refine hset n _ hv.1 ?_
    intro x hx
    rcases List.mem_or_eq_of_mem_set hx with hx | hx
    · exact h.inputs_ok n hv.1 x hx
    · subst hx; exact hv.2.2
  | addResult o =>
    refine ⟨h.nodup, h.lt_nextId, h.inputs_ok, ?_⟩
    intro x hx
    simp only [Graph.apply] at hx
    rcases List.mem_append.mp hx with hx | hx
    · exact h.results_ok x hx
    · rw [List.mem_singleton] at hx; subst hx; exact hv
  | removeResults idx =>
    exact ⟨h.nodup, h.lt_nextId, h.inputs_ok, fun o ho => h.results_ok o (selectIdx_subset ho)⟩
  | divertResult i o =>
    refine ⟨h.nodup, h.lt_nextId, h.inputs_ok, ?_⟩
    intro x hx
    rcases List.mem_or_eq_of_mem_set hx with hx | hx
    · exact h.results_ok x hx
    · subst hx; exact hv.2

end Jlm.Rvsdg.Trav
