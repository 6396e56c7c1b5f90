import Verif.Util.TarjanSpec
/-
C14: correctness of `FindStronglyConnectedComponents`.
-/
set_option linter.unusedSimpArgs false
set_option linter.unusedVariables false
namespace Jlm.Util.Tarjan

/-! ### the loops over successors -/

theorem pushSuccessors_spec (g : Graph) (order : Nat → Ord) (l : List Nat) : ∀ dfs,
    ∃ C, pushSuccessors g order l dfs = C ++ dfs ∧
      (∀ c ∈ C, (∃ w ∈ l, g.unificationRoot w = c) ∧ order c = .notVisited) ∧
      (∀ w ∈ l, order (g.unificationRoot w) = .notVisited → g.unificationRoot w ∈ C) := by
  induction l with
  | nil => intro dfs; exact ⟨[], rfl, by simp, by simp⟩
  | cons n l ih =>
    intro dfs
    simp only [pushSuccessors]
    by_cases h : order (g.unificationRoot n) = .notVisited
    · rw [if_pos h]
      obtain ⟨C, h1, h2, h3⟩ := ih (g.unificationRoot n :: dfs)
      refine ⟨C ++ [g.unificationRoot n], by rw [h1]; simp, ?_, ?_⟩
      · intro c hc
        rcases List.mem_append.1 hc with hc | hc
        · obtain ⟨⟨w, hw, e⟩, ho⟩ := h2 c hc
          exact ⟨⟨w, List.mem_cons_of_mem _ hw, e⟩, ho⟩
        · simp only [List.mem_singleton] at hc
          subst hc
          exact ⟨⟨n, List.mem_cons_self, rfl⟩, h⟩
      · intro w hw ho
        rcases List.mem_cons.1 hw with rfl | hw
        · simp
        · exact List.mem_append_left _ (h3 w hw ho)
    · rw [if_neg h]
      obtain ⟨C, h1, h2, h3⟩ := ih dfs
      refine ⟨C, h1, ?_, ?_⟩
      · intro c hc
        obtain ⟨⟨w, hw, e⟩, ho⟩ := h2 c hc
        exact ⟨⟨w, List.mem_cons_of_mem _ hw, e⟩, ho⟩
      · intro w hw ho
        rcases List.mem_cons.1 hw with rfl | hw
        · exact absurd ho h
        · exact h3 w hw ho

theorem relaxSuccessors_spec (g : Graph) (order : Nat → Ord) (node : Nat) (l : List Nat) :
    ∀ low, let low' := relaxSuccessors g order node l low
      (∀ x, x ≠ node → low' x = low x) ∧ low' node ≤ low node ∧
      (∀ w ∈ l, order (g.unificationRoot w) ≠ .finished → low' node ≤ low (g.unificationRoot w)) ∧
      (low' node = low node ∨ ∃ w ∈ l, order (g.unificationRoot w) ≠ .finished ∧
        low' node = low (g.unificationRoot w)) := by
  induction l with
  | nil => intro low; simp [relaxSuccessors]
  | cons n l ih =>
    intro low
    simp only [relaxSuccessors]
    by_cases h : order (g.unificationRoot n) = .finished
    · rw [if_pos h]
      obtain ⟨h1, h2, h3, h4⟩ := ih low
      refine ⟨h1, h2, ?_, ?_⟩
      · intro w hw ho
        rcases List.mem_cons.1 hw with rfl | hw
        · exact absurd h ho
        · exact h3 w hw ho
      · rcases h4 with h4 | ⟨w, hw, h5, h6⟩
        · exact .inl h4
        · exact .inr ⟨w, List.mem_cons_of_mem _ hw, h5, h6⟩
    · rw [if_neg h]
      obtain ⟨h1, h2, h3, h4⟩ := ih (upd low node (min (low node) (low (g.unificationRoot n))))
      have hn : upd low node (min (low node) (low (g.unificationRoot n))) node
          = min (low node) (low (g.unificationRoot n)) := by simp [upd]
      have hle : ∀ x, upd low node (min (low node) (low (g.unificationRoot n))) x ≤ low x := by
        intro x; simp only [upd]; split
        · subst_vars; exact Nat.min_le_left _ _
        · exact Nat.le_refl _
      rw [hn] at h2 h4
      refine ⟨?_, by omega, ?_, ?_⟩
      · intro x hx; rw [h1 x hx]; simp [upd, hx]
      · intro w hw ho
        rcases List.mem_cons.1 hw with rfl | hw
        · omega
        · exact Nat.le_trans (h3 w hw ho) (hle _)
      · rcases h4 with h4 | ⟨w, hw, h5, h6⟩
        · rcases Nat.le_total (low node) (low (g.unificationRoot n)) with hh | hh
          · left; omega
          · right; exact ⟨n, List.mem_cons_self, h, by omega⟩
        · by_cases hwn : g.unificationRoot w = node
          · rw [hwn, hn] at h6
            rcases Nat.le_total (low node) (low (g.unificationRoot n)) with hh | hh
            · left; omega
            · right; exact ⟨n, List.mem_cons_self, h, by omega⟩
          · right
            refine ⟨w, List.mem_cons_of_mem _ hw, h5, ?_⟩
            rw [h6]; simp [upd, hwn]

/-! ### the invariant -/

/-- The DFS path (deepest node first), each node with its pending children. -/
abbrev Frames := List (Nat × List Nat)

def flat : Frames → List Nat → List Nat
  | [], base => base
  | (x, C) :: rest, base => C ++ x :: flat rest base

def nodes (F : Frames) : List Nat := F.map (·.1)

/-- The invariant of the DFS path. `ub` bounds the order numbers of the segment of the deepest
node. -/
def FOK (g : Graph) (order : Nat → Ord) (low : Nat → Nat) : Nat → Frames → Prop
  | _, [] => True
  | ub, (x, C) :: rest => ∃ k, order x = .num k ∧ k < ub ∧
      (∀ c ∈ C, Edge g x c ∧ c ≠ x ∧ c ∉ nodes rest) ∧
      (∀ w, Edge g x w → order w ≠ .notVisited ∨ w ∈ C) ∧
      (∀ v kv, order v = .num kv → k ≤ kv → Reach g x v) ∧
      (∀ v kv w kw, order v = .num kv → k < kv → kv < ub → Edge g v w → order w = .num kw →
        kw < k → ∃ c kc, order c = .num kc ∧ k < kc ∧ kc < ub ∧ Edge g x c ∧ low c ≤ kw) ∧
      (∀ y D rest', rest = (y, D) :: rest' → Edge g y x) ∧
      FOK g order low k rest

/-- what holds of finished nodes -/
structure FinOK (g : Graph) (order : Nat → Ord) (idx before : Nat → Nat) (sccs : Nat)
    (topo : List Nat) : Prop where
  closed : ∀ u v, order u = .finished → Edge g u v → order v = .finished
  same : ∀ u v, order u = .finished → order v = .finished →
    (idx u = idx v ↔ Reach g u v ∧ Reach g v u)
  edge_le : ∀ u v, order u = .finished → Edge g u v → idx v ≤ idx u
  lt : ∀ u, order u = .finished → idx u < sccs
  used : ∀ i, i < sccs → ∃ u, order u = .finished ∧ idx u = i
  mem : ∀ v, v ∈ topo ↔ order v = .finished
  nodup : topo.Nodup
  sorted : topo.Pairwise (fun u v => idx u ≤ idx v)
  untouched : ∀ v, order v ≠ .finished → idx v = before v

structure Inv (g : Graph) (before : Nat → Nat) (s : St) (F : Frames) (base : List Nat) : Prop where
  dfs : s.dfsStack = flat F base
  fok : FOK g s.order s.lowLink s.nextOrder F
  roots : ∀ v, s.order v ≠ .notVisited → Root g v
  pend : ∀ v ∈ s.dfsStack, Root g v
  lt : ∀ v k, s.order v = .num k → k < s.nextOrder
  inj : ∀ u v k, s.order u = .num k → s.order v = .num k → u = v
  black : ∀ v k, s.order v = .num k → v ∉ nodes F →
    (∀ w, Edge g v w → s.order w ≠ .notVisited) ∧ s.lowLink v < k ∧
    ∃ x kx, x ∈ nodes F ∧ s.order x = .num kx ∧ kx < k ∧ Reach g v x
  low : ∀ v k, s.order v = .num k → s.lowLink v ≤ k ∧
    ∃ w, s.order w = .num (s.lowLink v) ∧ Reach g v w
  stkMem : ∀ v, v ∈ s.sccStack ↔ ∃ k, s.order v = .num k
  stkSorted : s.sccStack.Pairwise
    (fun a b => ∀ ka kb, s.order a = .num ka → s.order b = .num kb → kb < ka)
  fin : FinOK g s.order s.sccIndex before s.sccsFinished s.reverseTopologicalOrder

theorem Edge.root {g : Graph} (hg : WF g) {u v : Nat} (hu : Root g u) (h : Edge g u v) :
    Root g v := by
  obtain ⟨w, hw, rfl⟩ := h
  have := hg.succ_lt u hu w hw
  exact ⟨hg.root_lt w this, hg.root_root w this⟩

/-! ### the invariant of the path under changes -/

theorem FOK.low {g : Graph} {order : Nat → Ord} {low low' : Nat → Nat} {ub : Nat} {F : Frames}
    (h : FOK g order low ub F) (hl : ∀ v, low' v ≤ low v) : FOK g order low' ub F := by
  induction F generalizing ub with
  | nil => trivial
  | cons f F ih =>
    obtain ⟨x, C⟩ := f
    obtain ⟨k, h1, h2, h3, h4, h5, h6, h7, h8⟩ := h
    refine ⟨k, h1, h2, h3, h4, h5, ?_, h7, ih h8⟩
    intro v kv w kw a1 a2 a3 a4 a5 a6
    obtain ⟨c, kc, b1, b2, b3, b4, b5⟩ := h6 v kv w kw a1 a2 a3 a4 a5 a6
    exact ⟨c, kc, b1, b2, b3, b4, Nat.le_trans (hl c) b5⟩

theorem FOK.drop {g : Graph} {order : Nat → Ord} {low : Nat → Nat} {ub : Nat} {F : Frames}
    {x c : Nat} {C : List Nat} (h : FOK g order low ub ((x, c :: C) :: F))
    (hc : order c ≠ .notVisited) : FOK g order low ub ((x, C) :: F) := by
  obtain ⟨k, h1, h2, h3, h4, h5, h6, h7, h8⟩ := h
  refine ⟨k, h1, h2, fun d hd => h3 d (List.mem_cons_of_mem _ hd), ?_, h5, h6, h7, h8⟩
  intro w hw
  rcases h4 w hw with h | h
  · exact .inl h
  · rcases List.mem_cons.1 h with rfl | h
    · exact .inl hc
    · exact .inr h

theorem FOK.num {g : Graph} {order : Nat → Ord} {low : Nat → Nat} {ub : Nat} {F : Frames}
    (h : FOK g order low ub F) : ∀ x ∈ nodes F, ∃ k, order x = .num k ∧ k < ub := by
  induction F generalizing ub with
  | nil => intro x hx; simp [nodes] at hx
  | cons f F ih =>
    obtain ⟨y, C⟩ := f
    obtain ⟨k, h1, h2, h3, h4, h5, h6, h7, h8⟩ := h
    intro x hx
    simp only [nodes, List.map_cons, List.mem_cons] at hx
    rcases hx with rfl | hx
    · exact ⟨k, h1, h2⟩
    · obtain ⟨k', e, hlt⟩ := ih h8 x hx
      exact ⟨k', e, by omega⟩

/-- visiting a node that every node of the path reaches -/
theorem FOK.visit {g : Graph} {order : Nat → Ord} {low : Nat → Nat} {ub next node : Nat}
    {F : Frames} (h : FOK g order low ub F) (hu : ub ≤ next) (hn : order node = .notVisited)
    (hr : ∀ x ∈ nodes F, Reach g x node) :
    FOK g (upd order node (.num next)) (upd low node next) ub F := by
  induction F generalizing ub with
  | nil => trivial
  | cons f F ih =>
    obtain ⟨x, C⟩ := f
    obtain ⟨k, h1, h2, h3, h4, h5, h6, h7, h8⟩ := h
    have hx : x ≠ node := by rintro rfl; rw [hn] at h1; cases h1
    refine ⟨k, by simp [upd, hx, h1], h2, h3, ?_, ?_, ?_, h7,
      ih h8 (by omega) (fun y hy => hr y (by simp [nodes] at hy ⊢; exact .inr hy))⟩
    · intro w hw
      rcases h4 w hw with h | h
      · left; simp only [upd]; split
        · simp
        · exact h
      · exact .inr h
    · intro v kv hv hk
      simp only [upd] at hv
      split at hv
      · subst_vars; exact hr x (by simp [nodes])
      · exact h5 v kv hv hk
    · intro v kv w kw a1 a2 a3 a4 a5 a6
      simp only [upd] at a1 a5
      split at a1
      · simp only [Ord.num.injEq] at a1; omega
      · split at a5
        · simp only [Ord.num.injEq] at a5; omega
        · obtain ⟨c, kc, b1, b2, b3, b4, b5⟩ := h6 v kv w kw a1 a2 a3 a4 a5 a6
          have hc : c ≠ node := by rintro rfl; rw [hn] at b1; cases b1
          exact ⟨c, kc, by simp [upd, hc, b1], b2, b3, b4, by simpa [upd, hc] using b5⟩

/-- finishing all nodes with order numbers from `ub` on -/
theorem FOK.finish {g : Graph} {order order' : Nat → Ord} {low : Nat → Nat} {ub : Nat}
    {F : Frames} (h : FOK g order low ub F)
    (h1' : ∀ v k, order v = .num k → k < ub → order' v = .num k)
    (h2' : ∀ v k, order' v = .num k → order v = .num k)
    (h3' : ∀ v, order' v = .notVisited → order v = .notVisited) :
    FOK g order' low ub F := by
  induction F generalizing ub with
  | nil => trivial
  | cons f F ih =>
    obtain ⟨x, C⟩ := f
    obtain ⟨k, h1, h2, h3, h4, h5, h6, h7, h8⟩ := h
    refine ⟨k, h1' x k h1 h2, h2, h3, ?_, ?_, ?_, h7,
      ih h8 (fun v kv hv hk => h1' v kv hv (by omega))⟩
    · intro w hw
      rcases h4 w hw with h | h
      · exact .inl (fun e => h (h3' w e))
      · exact .inr h
    · intro v kv hv hk
      exact h5 v kv (h2' v kv hv) hk
    · intro v kv w kw a1 a2 a3 a4 a5 a6
      obtain ⟨c, kc, b1, b2, b3, b4, b5⟩ := h6 v kv w kw (h2' _ _ a1) a2 a3 a4 (h2' _ _ a5) a6
      exact ⟨c, kc, h1' _ _ b1 b3, b2, b3, b4, b5⟩

/-! ### first visit -/

theorem Inv.visit {g : Graph} (hg : WF g) {before : Nat → Nat} {s : St} {F F' : Frames}
    {base base' : List Nat} {node : Nat} (h : Inv g before s F base)
    (hd : s.dfsStack = node :: flat F' base')
    (hn : s.order node = .notVisited)
    (hnodes : nodes F' = nodes F)
    (hr : ∀ x ∈ nodes F, Reach g x node)
    (hdrop : ∀ order low ub, order node ≠ .notVisited → FOK g order low ub F → FOK g order low ub F')
    (hedge : ∀ y D rest, F' = (y, D) :: rest → Edge g y node) :
    ∃ C, Inv g before (visit g s node) ((node, C) :: F') base' := by
  obtain ⟨C, hC1, hC2, hC3⟩ :=
    pushSuccessors_spec g (upd s.order node (.num s.nextOrder)) (g.successors node) s.dfsStack
  have hroot : Root g node := h.pend node (by rw [hd]; exact List.mem_cons_self)
  have hnum : ∀ v k, s.order v = .num k → v ≠ node := by
    rintro v k hv rfl; rw [hn] at hv; cases hv
  have hnn : node ∉ nodes F := by
    intro hx
    obtain ⟨k, hk, _⟩ := h.fok.num node hx
    exact hnum _ _ hk rfl
  have hord : ∀ v k, upd s.order node (.num s.nextOrder) v = .num k →
      (v = node ∧ k = s.nextOrder) ∨ (v ≠ node ∧ s.order v = .num k) := by
    intro v k hv
    simp only [upd] at hv
    split at hv
    · cases hv; exact .inl ⟨by assumption, rfl⟩
    · exact .inr ⟨by assumption, hv⟩
  have hupd : ∀ v k, s.order v = .num k → upd s.order node (.num s.nextOrder) v = .num k := by
    intro v k hv; simp [upd, hnum v k hv, hv]
  have hvis : ∀ v, s.order v ≠ .notVisited → upd s.order node (.num s.nextOrder) v ≠ .notVisited := by
    intro v hv; simp only [upd]; split
    · simp
    · exact hv
  refine ⟨C, ?_⟩
  constructor
  · simp only [Tarjan.visit, flat]
    rw [hC1, hd]
  · simp only [Tarjan.visit]
    refine ⟨s.nextOrder, by simp [upd], by omega, ?_, ?_, ?_, ?_, hedge, ?_⟩
    · intro c hc
      obtain ⟨⟨w, hw, e⟩, ho⟩ := hC2 c hc
      refine ⟨⟨w, hw, e⟩, ?_, ?_⟩
      · rintro rfl; simp [upd] at ho
      · rw [hnodes]; intro hx
        obtain ⟨k, hk, _⟩ := h.fok.num c hx
        rw [hupd c k hk] at ho; cases ho
    · rintro w ⟨u, hu, rfl⟩
      by_cases hw : upd s.order node (.num s.nextOrder) (g.unificationRoot u) = .notVisited
      · exact .inr (hC3 u hu hw)
      · exact .inl hw
    · intro v kv hv hk
      rcases hord v kv hv with ⟨rfl, _⟩ | ⟨_, hv⟩
      · exact Relation.ReflTransGen.refl
      · have := h.lt v kv hv; omega
    · intro v kv w kw a1 a2 a3 _ _ _
      rcases hord v kv a1 with ⟨rfl, rfl⟩ | ⟨_, hv⟩
      · omega
      · have := h.lt v kv hv; omega
    · exact hdrop _ _ _ (by simp [upd]) (h.fok.visit (Nat.le_refl _) hn hr)
  · intro v hv
    simp only [Tarjan.visit, upd] at hv
    split at hv
    · subst_vars; exact hroot
    · exact h.roots v hv
  · intro v hv
    simp only [Tarjan.visit] at hv
    rw [hC1] at hv
    rcases List.mem_append.1 hv with hv | hv
    · obtain ⟨e, _⟩ := hC2 v hv
      exact Edge.root hg hroot e
    · exact h.pend v hv
  · intro v k hv
    simp only [Tarjan.visit] at hv ⊢
    rcases hord v k hv with ⟨_, rfl⟩ | ⟨_, hv⟩
    · omega
    · have := h.lt v k hv; omega
  · intro u v k hu hv
    simp only [Tarjan.visit] at hu hv
    rcases hord u k hu with ⟨rfl, rfl⟩ | ⟨_, hu'⟩
    · rcases hord v _ hv with ⟨rfl, _⟩ | ⟨_, hv'⟩
      · rfl
      · have := h.lt _ _ hv'; omega
    · rcases hord v k hv with ⟨rfl, rfl⟩ | ⟨_, hv'⟩
      · have := h.lt _ _ hu'; omega
      · exact h.inj u v k hu' hv'
  · intro v k hv hvn
    simp only [Tarjan.visit] at hv ⊢
    simp only [nodes, List.map_cons, List.mem_cons, not_or] at hvn
    rcases hord v k hv with ⟨rfl, _⟩ | ⟨hne, hv'⟩
    · exact absurd rfl hvn.1
    · obtain ⟨b1, b2, x, kx, b3, b4, b5, b6⟩ := h.black v k hv' (by rw [← hnodes]; exact hvn.2)
      refine ⟨fun w hw => hvis w (b1 w hw), by simpa [upd, hne] using b2, x, kx, ?_, hupd x kx b4, b5, b6⟩
      rw [← hnodes] at b3
      simp only [nodes, List.map_cons, List.mem_cons]
      exact .inr b3
  · intro v k hv
    simp only [Tarjan.visit] at hv ⊢
    rcases hord v k hv with ⟨rfl, rfl⟩ | ⟨hne, hv'⟩
    · exact ⟨by simp [upd], v, by simp [upd], Relation.ReflTransGen.refl⟩
    · obtain ⟨b1, w, b2, b3⟩ := h.low v k hv'
      refine ⟨by simpa [upd, hne] using b1, w, ?_, b3⟩
      rw [show upd s.lowLink node s.nextOrder v = s.lowLink v by simp [upd, hne]]
      exact hupd _ _ b2
  · intro v
    simp only [Tarjan.visit, List.mem_cons]
    constructor
    · rintro (rfl | hv)
      · exact ⟨s.nextOrder, by simp [upd]⟩
      · obtain ⟨k, hk⟩ := (h.stkMem v).1 hv
        exact ⟨k, hupd _ _ hk⟩
    · rintro ⟨k, hk⟩
      rcases hord v k hk with ⟨rfl, _⟩ | ⟨_, hv⟩
      · exact .inl rfl
      · exact .inr ((h.stkMem v).2 ⟨k, hv⟩)
  · simp only [Tarjan.visit, List.pairwise_cons]
    constructor
    · intro b hb ka kb hka hkb
      obtain ⟨k, hk⟩ := (h.stkMem b).1 hb
      rcases hord _ _ hka with ⟨_, rfl⟩ | ⟨hne, _⟩
      · rw [hupd b k hk] at hkb
        cases hkb
        exact h.lt b _ hk
      · exact absurd rfl hne
    · refine h.stkSorted.imp_of_mem ?_
      intro a b ha hb hab ka kb hka hkb
      obtain ⟨k, hk⟩ := (h.stkMem a).1 ha
      obtain ⟨k', hk'⟩ := (h.stkMem b).1 hb
      rw [hupd a k hk] at hka
      rw [hupd b k' hk'] at hkb
      cases hka; cases hkb
      exact hab _ _ hk hk'
  · have hf : ∀ v, upd s.order node (.num s.nextOrder) v = .finished ↔ s.order v = .finished := by
      intro v; simp only [upd]; split
      · subst_vars; simp [hn]
      · rfl
    have f := h.fin
    simp only [Tarjan.visit]
    exact ⟨fun u v hu e => (hf v).2 (f.closed u v ((hf u).1 hu) e),
      fun u v hu hv => f.same u v ((hf u).1 hu) ((hf v).1 hv),
      fun u v hu => f.edge_le u v ((hf u).1 hu), fun u hu => f.lt u ((hf u).1 hu),
      fun i hi => (f.used i hi).imp fun u hu => ⟨(hf u).2 hu.1, hu.2⟩,
      fun v => (f.mem v).trans (hf v).symm, f.nodup, f.sorted,
      fun v hv => f.untouched v (fun e => hv ((hf v).2 e))⟩

/-! ### post-visits -/

theorem Inv.popPending {g : Graph} {before : Nat → Nat} {s : St} {F : Frames}
    {base : List Nat} {x c : Nat} {C : List Nat} (h : Inv g before s ((x, c :: C) :: F) base)
    (hc : s.order c ≠ .notVisited) :
    Inv g before { s with dfsStack := s.dfsStack.tail } ((x, C) :: F) base := by
  have hd := h.dfs
  refine ⟨by simp [hd, flat], h.fok.drop hc, h.roots, ?_, h.lt, h.inj, h.black, h.low, h.stkMem,
    h.stkSorted, h.fin⟩
  intro v hv
  exact h.pend v (List.mem_of_mem_tail hv)

theorem Inv.popBase {g : Graph} {before : Nat → Nat} {s : St}
    {base : List Nat} {c : Nat} (h : Inv g before s [] (c :: base)) :
    Inv g before { s with dfsStack := s.dfsStack.tail } [] base := by
  have hd := h.dfs
  refine ⟨by simp [hd, flat], h.fok, h.roots, ?_, h.lt, h.inj, h.black, h.low, h.stkMem,
    h.stkSorted, h.fin⟩
  intro v hv
  exact h.pend v (List.mem_of_mem_tail hv)

theorem Inv.relax {g : Graph} {before : Nat → Nat} {s : St} {F : Frames} {base : List Nat}
    {node k : Nat} (h : Inv g before s F base) (hn : s.order node = .num k)
    (hs : ∀ w, Edge g node w → s.order w ≠ .notVisited) :
    let low' := relaxSuccessors g s.order node (g.successors node) s.lowLink
    Inv g before { s with lowLink := low' } F base ∧ (∀ v, low' v ≤ s.lowLink v) ∧
    (∀ c kc, Edge g node c → s.order c = .num kc → low' node ≤ low' c) := by
  intro low'
  obtain ⟨r1, r2, r3, r4⟩ := relaxSuccessors_spec g s.order node (g.successors node) s.lowLink
  have hle : ∀ v, low' v ≤ s.lowLink v := by
    intro v
    by_cases hv : v = node
    · subst hv; exact r2
    · exact Nat.le_of_eq (r1 v hv)
  refine ⟨⟨h.dfs, h.fok.low hle, h.roots, h.pend, h.lt, h.inj, ?_, ?_, h.stkMem, h.stkSorted, h.fin⟩,
    hle, ?_⟩
  · intro v kv hv hvn
    obtain ⟨b1, b2, b3⟩ := h.black v kv hv hvn
    exact ⟨b1, Nat.lt_of_le_of_lt (hle v) b2, b3⟩
  · intro v kv hv
    obtain ⟨b1, w, b2, b3⟩ := h.low v kv hv
    refine ⟨Nat.le_trans (hle v) b1, ?_⟩
    by_cases hvn : v = node
    · subst hvn
      rcases r4 with r4 | ⟨u, hu, r5, r6⟩
      · exact ⟨w, by show s.order w = .num (low' v); rw [show low' v = s.lowLink v from r4]; exact b2, b3⟩
      · have e : Edge g v (g.unificationRoot u) := ⟨u, hu, rfl⟩
        cases ho : s.order (g.unificationRoot u) with
        | notVisited => exact absurd ho (hs _ e)
        | finished => exact absurd ho r5
        | num ku =>
          obtain ⟨_, w', c2, c3⟩ := h.low _ _ ho
          refine ⟨w', ?_, Relation.ReflTransGen.head e c3⟩
          show s.order w' = .num (low' v)
          rw [show low' v = s.lowLink (g.unificationRoot u) from r6]; exact c2
    · refine ⟨w, ?_, b3⟩
      show s.order w = .num (low' v)
      rw [show low' v = s.lowLink v from r1 v hvn]; exact b2
  · rintro c kc ⟨u, hu, rfl⟩ hc
    by_cases hcn : g.unificationRoot u = node
    · rw [hcn]; exact Nat.le_refl _
    · have := r3 u hu (by rw [hc]; simp)
      have e : low' (g.unificationRoot u) = s.lowLink (g.unificationRoot u) := r1 _ hcn
      rw [e]; exact this

/-- the post-visit of a node that is not the root of its component -/
theorem Inv.blacken {g : Graph} {before : Nat → Nat} {s : St} {F : Frames} {base : List Nat}
    {x k : Nat} (h : Inv g before s ((x, []) :: F) base) (hx : s.order x = .num k)
    (hl : s.lowLink x < k)
    (hmin : ∀ c kc, Edge g x c → s.order c = .num kc → s.lowLink x ≤ s.lowLink c) :
    Inv g before { s with dfsStack := s.dfsStack.tail } F base := by
  obtain ⟨k', h1, h2, h3, h4, h5, h6, h7, h8⟩ := h.fok
  rw [hx] at h1; cases h1
  have hd := h.dfs
  -- a node of the rest of the path that `x` reaches
  have hgrey : ∃ y ky, y ∈ nodes F ∧ s.order y = .num ky ∧ ky < k ∧ Reach g x y := by
    obtain ⟨_, w, hw, hr⟩ := h.low x k hx
    by_cases hwF : w ∈ nodes F
    · exact ⟨w, _, hwF, hw, hl, hr⟩
    · have hwx : w ≠ x := by rintro rfl; rw [hx] at hw; cases hw; omega
      obtain ⟨_, _, y, ky, b1, b2, b3, b4⟩ := h.black w _ hw (by
        simp only [nodes, List.map_cons, List.mem_cons, not_or]; exact ⟨hwx, hwF⟩)
      simp only [nodes, List.map_cons, List.mem_cons] at b1
      rcases b1 with rfl | b1
      · rw [hx] at b2; cases b2; omega
      · exact ⟨y, ky, b1, b2, by omega, hr.trans b4⟩
  refine ⟨by simp [hd, flat], ?_, h.roots, fun v hv => h.pend v (List.mem_of_mem_tail hv), h.lt,
    h.inj, ?_, h.low, h.stkMem, h.stkSorted, h.fin⟩
  · cases F with
    | nil => trivial
    | cons f F =>
      obtain ⟨y, D⟩ := f
      have hyx := h7 y D F rfl
      obtain ⟨ky, g1, g2, g3, g4, g5, g6, g7, g8⟩ := h8
      refine ⟨ky, g1, by show ky < s.nextOrder; omega, g3, g4, g5, ?_, g7, g8⟩
      intro v kv w kw a1 a2 a3 a4 a5 a6
      rcases Nat.lt_trichotomy kv k with hlt | heq | hgt
      · obtain ⟨c, kc, b1, b2, b3, b4, b5⟩ := g6 v kv w kw a1 a2 hlt a4 a5 a6
        exact ⟨c, kc, b1, b2, by show kc < s.nextOrder; omega, b4, b5⟩
      · subst heq
        have hvx : v = x := h.inj v x _ a1 hx
        subst hvx
        have := hmin w kw a4 a5
        have := (h.low w kw a5).1
        exact ⟨v, kv, hx, a2, h2, hyx, by show s.lowLink v ≤ kw; omega⟩
      · obtain ⟨c, kc, b1, b2, b3, b4, b5⟩ := h6 v kv w kw a1 hgt a3 a4 a5 (by omega)
        have := hmin c kc b4 b1
        exact ⟨x, k, hx, g2, h2, hyx, by show s.lowLink x ≤ kw; omega⟩
  · intro v kv hv hvn
    by_cases hvx : v = x
    · subst hvx
      have hk : kv = k := by
        have := hv.symm.trans hx; cases this; rfl
      subst hk
      refine ⟨?_, hl, hgrey⟩
      intro w hw
      rcases h4 w hw with h | h
      · exact h
      · simp at h
    · obtain ⟨b1, b2, y, ky, b3, b4, b5, b6⟩ := h.black v kv hv (by
        simp only [nodes, List.map_cons, List.mem_cons, not_or]; exact ⟨hvx, hvn⟩)
      refine ⟨b1, b2, ?_⟩
      simp only [nodes, List.map_cons, List.mem_cons] at b3
      rcases b3 with rfl | b3
      · rw [hx] at b4; cases b4
        obtain ⟨z, kz, c1, c2, c3, c4⟩ := hgrey
        exact ⟨z, kz, c1, c2, by omega, b6.trans c4⟩
      · exact ⟨y, ky, b3, b4, b5, b6⟩

theorem FOK.reach {g : Graph} {order : Nat → Ord} {low : Nat → Nat} {ub : Nat} {F : Frames}
    (h : FOK g order low ub F) : ∀ x ∈ nodes F, ∀ k, order x = .num k →
    ∀ v kv, order v = .num kv → k ≤ kv → Reach g x v := by
  induction F generalizing ub with
  | nil => intro x hx; simp [nodes] at hx
  | cons f F ih =>
    obtain ⟨y, C⟩ := f
    obtain ⟨k, h1, h2, h3, h4, h5, h6, h7, h8⟩ := h
    intro x hx
    simp only [nodes, List.map_cons, List.mem_cons] at hx
    rcases hx with rfl | hx
    · intro k' hk'; rw [h1] at hk'; cases hk'; exact h5
    · exact ih h8 x hx

theorem FOK.ub {g : Graph} {order : Nat → Ord} {low : Nat → Nat} {ub ub' : Nat} {F : Frames}
    (h : FOK g order low ub F) (hub : ub ≤ ub') (hall : ∀ v k, order v = .num k → k < ub) :
    FOK g order low ub' F := by
  cases F with
  | nil => trivial
  | cons f F =>
    obtain ⟨y, C⟩ := f
    obtain ⟨k, h1, h2, h3, h4, h5, h6, h7, h8⟩ := h
    refine ⟨k, h1, by omega, h3, h4, h5, ?_, h7, h8⟩
    intro v kv w kw a1 a2 a3 a4 a5 a6
    obtain ⟨c, kc, b1, b2, b3, b4, b5⟩ := h6 v kv w kw a1 a2 (hall v kv a1) a4 a5 a6
    exact ⟨c, kc, b1, b2, by omega, b4, b5⟩

theorem popComponent_spec (node i : Nat) (pre post : List Nat) (hp : node ∉ pre) : ∀ s : St,
    ∃ s', popComponent node i (pre ++ node :: post) s = some s' ∧
      s'.dfsStack = s.dfsStack ∧ s'.sccStack = post ∧ s'.lowLink = s.lowLink ∧
      s'.nextOrder = s.nextOrder ∧ s'.sccsFinished = s.sccsFinished ∧
      (∀ v, s'.order v = if v ∈ pre ++ [node] then .finished else s.order v) ∧
      (∀ v, s'.sccIndex v = if v ∈ pre ++ [node] then i else s.sccIndex v) ∧
      s'.reverseTopologicalOrder = s.reverseTopologicalOrder ++ (pre ++ [node]) := by
  induction pre with
  | nil =>
    intro s
    simp only [List.nil_append, popComponent, if_true]
    refine ⟨_, rfl, rfl, rfl, rfl, rfl, rfl, ?_, ?_, rfl⟩ <;> intro v <;> simp [upd]
  | cons p pre ih =>
    intro s
    simp only [List.mem_cons, not_or] at hp
    simp only [List.cons_append, popComponent]
    rw [if_neg (fun e => hp.1 e.symm)]
    obtain ⟨s', h1, h2, h3, h4, h5, h6, h7, h8, h9⟩ := ih hp.2 { s with
      sccStack := pre ++ node :: post
      order := upd s.order p .finished
      sccIndex := upd s.sccIndex p i
      reverseTopologicalOrder := s.reverseTopologicalOrder ++ [p] }
    refine ⟨s', h1, h2, h3, h4, h5, h6, ?_, ?_, by rw [h9]; simp⟩
    · intro v; rw [h7]; simp only [upd, List.mem_cons]
      by_cases hv : v = p
      · simp [hv]
      · simp [hv]
    · intro v; rw [h8]; simp only [upd, List.mem_cons]
      by_cases hv : v = p
      · simp [hv]
      · simp [hv]

theorem closed_reach {g : Graph} {P : Nat → Prop} (hc : ∀ u v, P u → Edge g u v → P v)
    {u v : Nat} (h : Reach g u v) (hu : P u) : P v := by
  induction h with
  | refl => exact hu
  | tail _ e ih => exact hc _ _ ih e

set_option maxHeartbeats 1000000 in
/-- the post-visit of the root of a component -/
theorem Inv.finish {g : Graph} {before : Nat → Nat} {s : St} {F : Frames} {base : List Nat}
    {x k : Nat} (h : Inv g before s ((x, []) :: F) base) (hx : s.order x = .num k)
    (hl : s.lowLink x = k)
    (hmin : ∀ c kc, Edge g x c → s.order c = .num kc → s.lowLink x ≤ s.lowLink c) :
    ∃ s', popComponent x s.sccsFinished s.sccStack { s with dfsStack := s.dfsStack.tail } = some s' ∧
      Inv g before { s' with sccsFinished := s'.sccsFinished + 1 } F base := by
  obtain ⟨k', h1, h2, h3, h4, h5, h6, h7, h8⟩ := h.fok
  rw [hx] at h1; cases h1
  have hd := h.dfs
  have hxs : x ∈ s.sccStack := (h.stkMem x).2 ⟨k, hx⟩
  obtain ⟨pre, post, hS⟩ := List.append_of_mem hxs
  have hsort := h.stkSorted
  rw [hS] at hsort
  obtain ⟨so1, so2, so3⟩ := List.pairwise_append.1 hsort
  have so2' := List.pairwise_cons.1 so2
  have hpre : ∀ v ∈ pre, ∃ kv, s.order v = .num kv ∧ k < kv := by
    intro v hv
    obtain ⟨kv, hkv⟩ := (h.stkMem v).1 (by rw [hS]; exact List.mem_append_left _ hv)
    exact ⟨kv, hkv, so3 v hv x List.mem_cons_self kv k hkv hx⟩
  have hpost : ∀ v ∈ post, ∃ kv, s.order v = .num kv ∧ kv < k := by
    intro v hv
    obtain ⟨kv, hkv⟩ := (h.stkMem v).1 (by
      rw [hS]; exact List.mem_append_right _ (List.mem_cons_of_mem _ hv))
    exact ⟨kv, hkv, so2'.1 v hv k kv hx hkv⟩
  have hxpre : x ∉ pre := by
    intro hh; obtain ⟨kv, e, hlt⟩ := hpre x hh; rw [hx] at e; cases e; omega
  have hP : ∀ v, v ∈ pre ++ [x] ↔ ∃ kv, s.order v = .num kv ∧ k ≤ kv := by
    intro v
    constructor
    · intro hv
      rcases List.mem_append.1 hv with hv | hv
      · obtain ⟨kv, e, hlt⟩ := hpre v hv; exact ⟨kv, e, by omega⟩
      · simp only [List.mem_singleton] at hv; subst hv; exact ⟨k, hx, Nat.le_refl _⟩
    · rintro ⟨kv, e, hle⟩
      have hv := (h.stkMem v).2 ⟨kv, e⟩
      rw [hS] at hv
      rcases List.mem_append.1 hv with hv | hv
      · exact List.mem_append_left _ hv
      · rcases List.mem_cons.1 hv with rfl | hv
        · simp
        · obtain ⟨kv', e', hlt⟩ := hpost v hv
          rw [e] at e'; cases e'; omega
  obtain ⟨s', p1, p2, p3, p4, p5, p6, p7, p8, p9⟩ := popComponent_spec x s.sccsFinished pre post hxpre
    { s with dfsStack := s.dfsStack.tail }
  simp only at p2 p3 p4 p5 p6 p7 p8 p9
  refine ⟨s', (congrArg (fun l => popComponent x s.sccsFinished l { s with dfsStack := s.dfsStack.tail }) hS).trans p1, ?_⟩
  -- order numbers before and after
  have o1 : ∀ v kv, s.order v = .num kv → kv < k → s'.order v = .num kv := by
    intro v kv e hlt
    rw [p7, if_neg]
    · exact e
    · rw [hP]; rintro ⟨kv', e', hle⟩; rw [e] at e'; cases e'; omega
  have o2 : ∀ v kv, s'.order v = .num kv → s.order v = .num kv ∧ kv < k := by
    intro v kv e
    rw [p7] at e
    split at e
    · cases e
    · rename_i hn
      refine ⟨e, ?_⟩
      rw [hP] at hn
      exact Nat.lt_of_not_le (fun hle => hn ⟨kv, e, hle⟩)
  have o3 : ∀ v, s'.order v = .notVisited → s.order v = .notVisited := by
    intro v e
    rw [p7] at e
    split at e
    · cases e
    · exact e
  have o4 : ∀ v, s'.order v = .finished ↔ (v ∈ pre ++ [x] ∨ s.order v = .finished) := by
    intro v; rw [p7]; split
    · rename_i hv; exact ⟨fun _ => .inl hv, fun _ => rfl⟩
    · rename_i hv; exact ⟨fun e => .inr e, fun e => e.resolve_left hv⟩
  have hactive : ∀ v, v ∈ pre ++ [x] → s.order v ≠ .finished := by
    intro v hv e
    obtain ⟨kv, e', _⟩ := (hP v).1 hv
    rw [e] at e'; cases e'
  -- the component is closed
  have hclosed : ∀ u v, u ∈ pre ++ [x] → Edge g u v → v ∈ pre ++ [x] ∨ s.order v = .finished := by
    intro u v hu e
    obtain ⟨ku, eu, hku⟩ := (hP u).1 hu
    have hvis : s.order v ≠ .notVisited := by
      by_cases hux : u = x
      · subst hux
        rcases h4 v e with hh | hh
        · exact hh
        · simp at hh
      · refine (h.black u ku eu ?_).1 v e
        simp only [nodes, List.map_cons, List.mem_cons, not_or]
        refine ⟨hux, fun hh => ?_⟩
        obtain ⟨k', e', hlt⟩ := FOK.num h8 u hh
        rw [eu] at e'; cases e'; omega
    cases hv : s.order v with
    | notVisited => exact absurd hv hvis
    | finished => exact .inr rfl
    | num kv =>
      left
      rw [hP]
      refine ⟨kv, hv, Nat.le_of_not_lt (fun hlt => ?_)⟩
      by_cases hux : u = x
      · subst hux
        have := hmin v kv e hv
        have := (h.low v kv hv).1
        omega
      · have hkk : k < ku := by
          rcases Nat.lt_or_eq_of_le hku with hh | hh
          · exact hh
          · subst hh; exact absurd (h.inj u x _ eu hx) hux
        obtain ⟨c, kc, b1, b2, b3, b4, b5⟩ := h6 u ku v kv eu hkk (h.lt u ku eu) e hv hlt
        have := hmin c kc b4 b1
        omega
  -- its nodes reach each other
  have hmutual : ∀ u, u ∈ pre ++ [x] → Reach g x u ∧ Reach g u x := by
    intro u hu
    obtain ⟨ku, eu, hku⟩ := (hP u).1 hu
    refine ⟨h5 u ku eu hku, ?_⟩
    by_cases hux : u = x
    · subst hux; exact Relation.ReflTransGen.refl
    · obtain ⟨_, _, y, ky, b1, b2, b3, b4⟩ := h.black u ku eu (by
        simp only [nodes, List.map_cons, List.mem_cons, not_or]
        refine ⟨hux, fun hh => ?_⟩
        obtain ⟨k', e', hlt⟩ := FOK.num h8 u hh
        rw [eu] at e'; cases e'; omega)
      simp only [nodes, List.map_cons, List.mem_cons] at b1
      rcases b1 with rfl | b1
      · exact b4
      · obtain ⟨k', e', hlt⟩ := FOK.num h8 y b1
        exact b4.trans (FOK.reach h8 y b1 k' e' x k hx (by omega))
  have hclosed' : ∀ u v, s'.order u = .finished → Edge g u v → s'.order v = .finished := by
    intro u v hu e
    rw [o4] at hu ⊢
    rcases hu with hu | hu
    · exact hclosed u v hu e
    · exact .inr (h.fin.closed u v hu e)
  have hidx : ∀ v, v ∈ pre ++ [x] → s'.sccIndex v = s.sccsFinished := by
    intro v hv; rw [p8, if_pos hv]
  have hidx' : ∀ v, s.order v = .finished → s'.sccIndex v = s.sccIndex v := by
    intro v hv; rw [p8, if_neg (fun hh => hactive v hh hv)]
  constructor
  · show s'.dfsStack = flat F base
    rw [p2, hd]; simp [flat]
  · show FOK g s'.order s'.lowLink s'.nextOrder F
    rw [p4, p5]
    have := FOK.finish h8 o1 (fun v kv e => (o2 v kv e).1) o3
    exact this.ub (Nat.le_of_lt h2) (fun v kv e => (o2 v kv e).2)
  · intro v hv
    exact h.roots v (fun e => by
      apply hv
      show s'.order v = .notVisited
      rw [p7, if_neg]
      · exact e
      · rw [hP]; rintro ⟨kv, e', _⟩; rw [e] at e'; cases e')
  · intro v hv
    have hv : v ∈ s'.dfsStack := hv
    rw [p2] at hv
    exact h.pend v (List.mem_of_mem_tail hv)
  · intro v kv hv
    show kv < s'.nextOrder
    rw [p5]
    exact h.lt v kv (o2 v kv hv).1
  · intro u v kv hu hv
    exact h.inj u v kv (o2 u kv hu).1 (o2 v kv hv).1
  · intro v kv hv hvn
    obtain ⟨e, hlt⟩ := o2 v kv hv
    have hvx : v ≠ x := by rintro rfl; rw [hx] at e; cases e; omega
    obtain ⟨b1, b2, y, ky, b3, b4, b5, b6⟩ := h.black v kv e (by
        simp only [nodes, List.map_cons, List.mem_cons, not_or]; exact ⟨hvx, hvn⟩)
    refine ⟨fun w hw hh => b1 w hw (o3 w hh), by show s'.lowLink v < kv; rw [p4]; exact b2, ?_⟩
    simp only [nodes, List.map_cons, List.mem_cons] at b3
    rcases b3 with rfl | b3
    · rw [hx] at b4; cases b4; omega
    · exact ⟨y, ky, b3, o1 y ky b4 (by omega), b5, b6⟩
  · intro v kv hv
    obtain ⟨e, hlt⟩ := o2 v kv hv
    obtain ⟨b1, w, b2, b3⟩ := h.low v kv e
    show s'.lowLink v ≤ kv ∧ ∃ w, s'.order w = .num (s'.lowLink v) ∧ Reach g v w
    rw [p4]
    exact ⟨b1, w, o1 w _ b2 (by omega), b3⟩
  · intro v
    show v ∈ s'.sccStack ↔ _
    rw [p3]
    constructor
    · intro hv
      obtain ⟨kv, e, hlt⟩ := hpost v hv
      exact ⟨kv, o1 v kv e hlt⟩
    · rintro ⟨kv, hv⟩
      obtain ⟨e, hlt⟩ := o2 v kv hv
      have hm := (h.stkMem v).2 ⟨kv, e⟩
      rw [hS] at hm
      rcases List.mem_append.1 hm with hm | hm
      · obtain ⟨kv', e', hlt'⟩ := hpre v hm
        rw [e] at e'; cases e'; omega
      · rcases List.mem_cons.1 hm with rfl | hm
        · rw [hx] at e; cases e; omega
        · exact hm
  · show s'.sccStack.Pairwise _
    rw [p3]
    refine so2'.2.imp ?_
    intro a b hab ka kb hka hkb
    exact hab ka kb (o2 a ka hka).1 (o2 b kb hkb).1
  · show FinOK g s'.order s'.sccIndex before (s'.sccsFinished + 1) s'.reverseTopologicalOrder
    rw [p6, p9]
    have f := h.fin
    constructor
    · exact hclosed'
    · intro u v hu hv
      rw [o4] at hu hv
      rcases hu with hu | hu <;> rcases hv with hv | hv
      · rw [hidx u hu, hidx v hv]
        have a := hmutual u hu
        have b := hmutual v hv
        exact ⟨fun _ => ⟨a.2.trans b.1, b.2.trans a.1⟩, fun _ => rfl⟩
      · rw [hidx u hu, hidx' v hv]
        have := f.lt v hv
        constructor
        · intro e; omega
        · rintro ⟨_, r⟩
          exact absurd (closed_reach (P := fun v => s.order v = .finished) f.closed r hv) (hactive u hu)
      · rw [hidx' u hu, hidx v hv]
        have := f.lt u hu
        constructor
        · intro e; omega
        · rintro ⟨r, _⟩
          exact absurd (closed_reach (P := fun v => s.order v = .finished) f.closed r hu) (hactive v hv)
      · rw [hidx' u hu, hidx' v hv]; exact f.same u v hu hv
    · intro u v hu e
      rw [o4] at hu
      rcases hu with hu | hu
      · rw [hidx u hu]
        rcases hclosed u v hu e with hv | hv
        · rw [hidx v hv]; exact Nat.le_refl _
        · rw [hidx' v hv]; exact Nat.le_of_lt (f.lt v hv)
      · rw [hidx' u hu, hidx' v (f.closed u v hu e)]; exact f.edge_le u v hu e
    · intro u hu
      rw [o4] at hu
      rcases hu with hu | hu
      · rw [hidx u hu]; omega
      · rw [hidx' u hu]; have := f.lt u hu; omega
    · intro i hi
      rcases Nat.lt_or_ge i s.sccsFinished with hlt | hge
      · obtain ⟨u, hu, e⟩ := f.used i hlt
        exact ⟨u, (o4 u).2 (.inr hu), by rw [hidx' u hu]; exact e⟩
      · exact ⟨x, (o4 x).2 (.inl (by simp)), by rw [hidx x (by simp)]; omega⟩
    · intro v
      rw [o4, List.mem_append, f.mem]
      exact or_comm
    · rw [List.nodup_append]
      refine ⟨f.nodup, ?_, ?_⟩
      · have hnd : s.sccStack.Pairwise (· ≠ ·) := by
          refine h.stkSorted.imp_of_mem ?_
          rintro a b ha hb hab rfl
          obtain ⟨ka, hka⟩ := (h.stkMem a).1 ha
          have := hab ka ka hka hka
          omega
        rw [hS] at hnd
        have : (pre ++ x :: post) = (pre ++ [x]) ++ post := by simp
        rw [this] at hnd
        exact (List.pairwise_append.1 hnd).1
      · intro a ha b hb hab
        subst hab
        exact hactive a hb ((f.mem a).1 ha)
    · rw [List.pairwise_append]
      refine ⟨?_, ?_, ?_⟩
      · refine f.sorted.imp_of_mem ?_
        intro a b ha hb hab
        rw [hidx' a ((f.mem a).1 ha), hidx' b ((f.mem b).1 hb)]; exact hab
      · have : ∀ l : List Nat, (∀ a ∈ l, s'.sccIndex a = s.sccsFinished) →
            l.Pairwise (fun u v => s'.sccIndex u ≤ s'.sccIndex v) := by
          intro l hl
          exact List.pairwise_of_forall_mem_list (fun a ha b hb => by rw [hl a ha, hl b hb]; exact Nat.le_refl _)
        exact this _ hidx
      · intro a ha b hb
        rw [hidx' a ((f.mem a).1 ha), hidx b hb]
        exact Nat.le_of_lt (f.lt a ((f.mem a).1 ha))
    · intro v hv
      have hv' : ¬ (v ∈ pre ++ [x] ∨ s.order v = .finished) := fun hh => hv ((o4 v).2 hh)
      rw [p8, if_neg (fun hh => hv' (.inl hh))]
      exact f.untouched v (fun hh => hv' (.inr hh))

/-! ### the loops -/

theorem postVisit_eq (g : Graph) (s : St) (node : Nat) : postVisit g s node =
    let low' := relaxSuccessors g s.order node (g.successors node) s.lowLink
    let s1 := { s with lowLink := low', dfsStack := s.dfsStack.tail }
    if s.order node = .num (low' node) then
      match popComponent node s.sccsFinished s.sccStack s1 with
      | none => none
      | some s' => some { s' with sccsFinished := s'.sccsFinished + 1 }
    else some s1 := rfl

theorem Inv.step {g : Graph} (hg : WF g) {before : Nat → Nat} {s : St} {F : Frames}
    {base : List Nat} (h : Inv g before s F base) {node : Nat} {rest : List Nat}
    (hd : s.dfsStack = node :: rest) :
    ∃ s' F' base', step g s node = some s' ∧ Inv g before s' F' base' := by
  have hfl := h.dfs
  rw [hd] at hfl
  simp only [Tarjan.step]
  cases F with
  | nil =>
    simp only [flat] at hfl
    subst hfl
    cases ho : s.order node with
    | notVisited =>
      obtain ⟨C, hC⟩ := h.visit hg (F' := []) (base' := rest) hd ho rfl
        (by simp [nodes]) (fun _ _ _ _ _ => trivial) (by simp)
      exact ⟨_, _, _, rfl, hC⟩
    | finished => exact ⟨_, _, _, rfl, h.popBase⟩
    | num k =>
      obtain ⟨_, _, x, _, hx, _⟩ := h.black node k ho (by simp [nodes])
      simp [nodes] at hx
  | cons f F =>
    obtain ⟨x, C⟩ := f
    cases C with
    | nil =>
      simp only [flat, List.nil_append, List.cons.injEq] at hfl
      obtain ⟨rfl, rfl⟩ := hfl
      obtain ⟨k, h1, h2, h3, h4, h5, h6, h7, h8⟩ := h.fok
      rw [h1]
      simp only [postVisit_eq]
      have hs : ∀ w, Edge g node w → s.order w ≠ .notVisited := by
        intro w hw
        rcases h4 w hw with hh | hh
        · exact hh
        · simp at hh
      obtain ⟨r1, r2, r3⟩ := h.relax h1 hs
      generalize relaxSuccessors g s.order node (g.successors node) s.lowLink = low' at r1 r2 r3
      by_cases hk : s.order node = .num (low' node)
      · rw [if_pos hk]
        have hk' : low' node = k := by rw [h1] at hk; cases hk; rfl
        obtain ⟨s', e1, e2⟩ := r1.finish h1 hk' r3
        refine ⟨_, _, _, ?_, e2⟩
        simp only at e1
        rw [e1]
      · rw [if_neg hk]
        have hk' : low' node < k := by
          have := (r1.low node k h1).1
          simp only at this
          rcases Nat.lt_or_eq_of_le this with hh | hh
          · exact hh
          · exact absurd (by rw [hh]; exact h1) hk
        exact ⟨_, _, _, rfl, r1.blacken h1 hk' r3⟩
    | cons c C =>
      simp only [flat, List.cons_append, List.cons.injEq] at hfl
      obtain ⟨rfl, hrest⟩ := hfl
      obtain ⟨k, h1, h2, h3, h4, h5, h6, h7, h8⟩ := h.fok
      have hc := h3 node List.mem_cons_self
      cases ho : s.order node with
      | notVisited =>
        obtain ⟨C', hC⟩ := h.visit hg (F' := (x, C) :: F) (base' := base)
          (by rw [hd, hrest]; simp [flat]) ho rfl
          (fun y hy => by
            obtain ⟨ky, e, hlt⟩ := h.fok.num y hy
            simp only [nodes, List.map_cons, List.mem_cons] at hy
            refine Relation.ReflTransGen.tail ?_ hc.1
            rcases hy with rfl | hy
            · exact Relation.ReflTransGen.refl
            · obtain ⟨ky', e', hlt'⟩ := FOK.num h8 y hy
              exact FOK.reach h8 y hy ky' e' x k h1 (by omega))
          (fun order low ub hn hf => hf.drop hn)
          (by
            intro y D rest' e
            cases e
            exact hc.1)
        exact ⟨_, _, _, rfl, hC⟩
      | finished =>
        exact ⟨_, _, _, rfl, h.popPending (by rw [ho]; simp)⟩
      | num kc =>
        simp only [postVisit_eq]
        have hb := h.black node kc ho (by
          simp only [nodes, List.map_cons, List.mem_cons, not_or]
          exact ⟨hc.2.1, hc.2.2⟩)
        obtain ⟨r1, r2, r3⟩ := h.relax ho hb.1
        generalize relaxSuccessors g s.order node (g.successors node) s.lowLink = low' at r1 r2 r3
        have hlt : low' node < kc := Nat.lt_of_le_of_lt (r2 node) hb.2.1
        rw [ho, if_neg (by intro e; cases e; omega)]
        exact ⟨_, _, _, rfl, r1.popPending (by simp only [ho]; simp)⟩

theorem popComponent_visited (node i : Nat) (l : List Nat) : ∀ (s s' : St),
    popComponent node i l s = some s' →
    ∀ v, s.order v ≠ .notVisited → s'.order v ≠ .notVisited := by
  intro s s' h v hv e
  exact hv ((popComponent_facts node i l s s' h).2 v e)

theorem step_visited {g : Graph} {s s' : St} {node : Nat} (h : step g s node = some s') :
    (∀ v, s.order v ≠ .notVisited → s'.order v ≠ .notVisited) ∧ s'.order node ≠ .notVisited := by
  simp only [step] at h
  split at h
  · cases h
    refine ⟨?_, by simp [Tarjan.visit, upd]⟩
    intro v hv
    simp only [Tarjan.visit, upd]
    split
    · simp
    · exact hv
  · rename_i ho
    cases h
    exact ⟨fun v hv => hv, by rw [ho]; simp⟩
  · rename_i ho
    have key : ∀ v, s.order v ≠ .notVisited → s'.order v ≠ .notVisited := by
      simp only [postVisit_eq] at h
      split at h
      · split at h
        · cases h
        · rename_i s'' hp
          cases h
          intro v hv
          exact popComponent_visited _ _ _ _ _ hp v hv
      · cases h; exact fun v hv => hv
    exact ⟨key, key node (by rw [ho]; simp)⟩

theorem Inv.inner {g : Graph} (hg : WF g) {before : Nat → Nat} {s : St} {F : Frames}
    {base : List Nat} (h : Inv g before s F base) :
    ∃ s', inner g s = some s' ∧ Inv g before s' [] [] ∧
      (∀ v, s.order v ≠ .notVisited → s'.order v ≠ .notVisited) ∧
      (∀ v rest, s.dfsStack = v :: rest → s'.order v ≠ .notVisited) := by
  induction hm : (unvisited g s, s.dfsStack.length) using
      (Prod.lex (ha := Nat.lt_wfRel) (hb := Nat.lt_wfRel)).wf.induction generalizing s F base with
  | _ m ih =>
    subst hm
    rw [Tarjan.inner]
    split
    · rename_i hd
      refine ⟨s, rfl, ?_, fun v hv => hv, by simp [hd]⟩
      have hfl := h.dfs
      rw [hd] at hfl
      cases F with
      | nil => simp only [flat] at hfl; subst hfl; exact h
      | cons f F => simp [flat] at hfl
    · rename_i node rest hd
      have hroot : Root g node := h.pend node (by rw [hd]; exact List.mem_cons_self)
      obtain ⟨s1, F1, b1, e1, h1⟩ := h.step hg hd
      rw [dif_pos hroot.1]
      have hdec := step_decreases g s s1 node rest hd hroot.1 e1
      obtain ⟨s', q1, q2, q3, q4⟩ := ih _ hdec h1 rfl
      obtain ⟨v1, v2⟩ := step_visited e1
      refine ⟨s', ?_, q2, fun v hv => q3 v (v1 v hv), ?_⟩
      · split
        · rename_i hh; rw [e1] at hh; cases hh
        · rename_i s2 hh; rw [e1] at hh; cases hh; exact q1
      · intro v rest' hvd
        rw [hd] at hvd
        cases hvd
        exact q3 node v2

theorem Inv.outer {g : Graph} (hg : WF g) {before : Nat → Nat} (l : List Nat) : ∀ {s : St},
    (∀ v ∈ l, v < g.numNodes) → Inv g before s [] [] →
    ∃ s', outer g l s = some s' ∧ Inv g before s' [] [] ∧
      (∀ v, s.order v ≠ .notVisited → s'.order v ≠ .notVisited) ∧
      (∀ v ∈ l, Root g v → s'.order v ≠ .notVisited) := by
  induction l with
  | nil => intro s _ h; exact ⟨s, rfl, h, fun v hv => hv, by simp⟩
  | cons a l ih =>
    intro s hl h
    have hl' : ∀ v ∈ l, v < g.numNodes := fun v hv => hl v (List.mem_cons_of_mem _ hv)
    simp only [Tarjan.outer]
    by_cases hr : g.unificationRoot a ≠ a
    · rw [if_pos hr]
      obtain ⟨s', e, h1, h2, h3⟩ := ih hl' h
      refine ⟨s', e, h1, h2, ?_⟩
      intro v hv hroot
      rcases List.mem_cons.1 hv with rfl | hv
      · exact absurd hroot.2 hr
      · exact h3 v hv hroot
    · rw [if_neg hr]
      by_cases ho : s.order a ≠ .notVisited
      · rw [if_pos ho]
        obtain ⟨s', e, h1, h2, h3⟩ := ih hl' h
        refine ⟨s', e, h1, h2, ?_⟩
        intro v hv hroot
        rcases List.mem_cons.1 hv with rfl | hv
        · exact h2 v ho
        · exact h3 v hv hroot
      · rw [if_neg ho]
        have hd := h.dfs
        have hroot : Root g a := ⟨hl a List.mem_cons_self, Classical.not_not.1 hr⟩
        have hstart : Inv g before { s with dfsStack := a :: s.dfsStack } [] [a] := by
          refine ⟨by simp [hd, flat], h.fok, h.roots, ?_, h.lt, h.inj, h.black, h.low, h.stkMem,
            h.stkSorted, h.fin⟩
          intro v hv
          rcases List.mem_cons.1 hv with rfl | hv
          · exact hroot
          · exact h.pend v hv
        obtain ⟨s1, e1, h1, m1, t1⟩ := hstart.inner hg
        rw [e1]
        obtain ⟨s', e, h2, h3, h4⟩ := ih hl' h1
        refine ⟨s', e, h2, fun v hv => h3 v (m1 v hv), ?_⟩
        intro v hv hroot
        rcases List.mem_cons.1 hv with rfl | hv
        · exact h3 v (t1 v s.dfsStack rfl)
        · exact h4 v hv hroot

/-- **C14.** For every finite graph, with any unification of its nodes and any order of the
successors, `FindStronglyConnectedComponents` terminates without undefined behaviour, its final
assertion holds, and its results are the strongly connected components of the graph of root
nodes, in the documented order. -/
theorem C14_scc (g : Graph) (hg : WF g) (before : Nat → Nat) :
    ∃ r, findSccs g before = some r ∧ IsScc g before r := by
  have h0 : Inv g before
      { order := fun _ => .notVisited, lowLink := fun _ => 0, dfsStack := [], sccStack := [],
        nextOrder := 0, sccsFinished := 0, sccIndex := before, reverseTopologicalOrder := [] }
      [] [] := by
    refine ⟨rfl, trivial, by simp, by simp, by simp, by simp, by simp, by simp, by simp,
      List.Pairwise.nil, ?_⟩
    constructor <;> simp
  obtain ⟨s, e, h, _, hall⟩ := h0.outer hg (List.range g.numNodes) (by simp)
  have hnone : ∀ v k, s.order v ≠ .num k := by
    intro v k hv
    obtain ⟨_, _, x, _, hx, _⟩ := h.black v k hv (by simp [nodes])
    simp [nodes] at hx
  have hstk : s.sccStack = [] := by
    apply List.eq_nil_iff_forall_not_mem.2
    intro v hv
    obtain ⟨k, hk⟩ := (h.stkMem v).1 hv
    exact hnone v k hk
  have hfin : ∀ v, s.order v = .finished ↔ Root g v := by
    intro v
    constructor
    · intro hv; exact h.roots v (by rw [hv]; simp)
    · intro hv
      have := hall v (by simpa using hv.1) hv
      cases ho : s.order v with
      | notVisited => exact absurd ho this
      | finished => rfl
      | num k => exact absurd ho (hnone v k)
  refine ⟨_, by rw [findSccs, e]; simp only [hstk, if_true]; rfl, ?_⟩
  have f := h.fin
  exact ⟨fun u v hu hv => f.same u v ((hfin u).2 hu) ((hfin v).2 hv),
    fun u v hu => f.edge_le u v ((hfin u).2 hu), fun u hu => f.lt u ((hfin u).2 hu),
    fun i hi => (f.used i hi).imp fun u hu => ⟨(hfin u).1 hu.1, hu.2⟩,
    fun v => (f.mem v).trans (hfin v), f.nodup, f.sorted,
    fun v hv => f.untouched v (fun e => hv ((hfin v).1 e))⟩

/-- The overload without unification (TarjanScc.hpp:168-205): every node is listed. -/
theorem C14_scc_identity (n : Nat) (successors : Nat → List Nat)
    (hs : ∀ v, v < n → ∀ w ∈ successors v, w < n) (before : Nat → Nat) :
    ∃ r, findSccs ⟨n, id, successors⟩ before = some r ∧
      IsScc ⟨n, id, successors⟩ before r ∧ (∀ v, v ∈ r.reverseTopologicalOrder ↔ v < n) := by
  obtain ⟨r, h1, h2⟩ := C14_scc ⟨n, id, successors⟩
    ⟨fun v hv => hv, fun v hv => rfl, fun v hv => hs v hv.1⟩ before
  exact ⟨r, h1, h2, fun v => (h2.order_mem v).trans ⟨fun h => h.1, fun h => ⟨h, rfl⟩⟩⟩

/-- a concrete case: 0 → 1 → 2 → 0 → 3 ← 2, 3 → 4 where 4 is unified with 3, and duplicate
edges: the components {3} (index 0) and {0,1,2} (index 1) -/
def exampleGraph : Graph where
  numNodes := 5
  unificationRoot := fun v => if v = 4 then 3 else v
  successors := fun v => match v with
    | 0 => [1, 3, 1]
    | 1 => [2, 2]
    | 2 => [0, 4, 1]
    | 3 => [4]
    | _ => []

example : WF exampleGraph := by
  refine ⟨?_, ?_, ?_⟩
  · intro v hv; simp only [exampleGraph] at *; split <;> omega
  · intro v hv; simp only [exampleGraph] at *; split <;> simp
  · intro v hv w hw
    obtain ⟨h1, h2⟩ := hv
    simp only [exampleGraph] at *
    match v, h1 with
    | 0, _ => simp at hw; omega
    | 1, _ => simp at hw; omega
    | 2, _ => simp at hw; omega
    | 3, _ => simp at hw; omega
    | 4, _ => simp at hw

end Jlm.Util.Tarjan
