import Verif.Tooling.JlcSpec
import Mathlib.Order.Nat
import Mathlib.Data.Nat.Find
import Mathlib.Data.List.Nodup
import Mathlib.Data.List.Perm.Subperm

/-! # The order of the commands: nodes by their distance from the entry node -/

namespace Jlm.Tooling

variable {N : Type} [DecidableEq N] {succ : N → List N} {entry : N}

/-- `v` is reached over `d` edges and not over fewer. -/
def Dist (succ : N → List N) (entry : N) (d : Nat) (v : N) : Prop :=
  Walk succ entry d v ∧ ∀ n, Walk succ entry n v → d ≤ n

omit [DecidableEq N] in
theorem dist_of_walk {n : Nat} {v : N} (h : Walk succ entry n v) : ∃ d, Dist succ entry d v := by
  classical
  have hex : ∃ n, Walk succ entry n v := ⟨n, h⟩
  exact ⟨Nat.find hex, Nat.find_spec hex, fun m hm => Nat.find_min' hex hm⟩

omit [DecidableEq N] in
theorem Dist.unique {d d' : Nat} {v : N} (h : Dist succ entry d v) (h' : Dist succ entry d' v) : d = d' :=
  Nat.le_antisymm (h.2 _ h'.1) (h'.2 _ h.1)

omit [DecidableEq N] in
theorem Dist.pred {d : Nat} {v : N} (h : Dist succ entry d v) : v = entry ∨ ∃ d' w, d = d' + 1 ∧ Dist succ entry d' w ∧ v ∈ succ w := by
  obtain ⟨hw, hmin⟩ := h
  cases hw with
  | here => exact Or.inl rfl
  | @step n u _ hu hv =>
      refine Or.inr ⟨n, u, rfl, ⟨hu, ?_⟩, hv⟩
      intro m hm
      have := hmin _ (hm.step hv)
      omega

/-- Nodes in front of others are not farther away. -/
def Sorted (succ : N → List N) (entry : N) (l : List N) : Prop :=
  l.Pairwise fun u v => ∀ d d', Dist succ entry d u → Dist succ entry d' v → d ≤ d'

/-- `P` has been visited, `u` is being visited. -/
structure Inner (succ : N → List N) (entry : N) (U P : List N) (u : N) (du : Nat) (s : Bfs N) : Prop where
  nodes : s.nodes = P ++ u :: s.toVisit
  vis : ∀ v, v ∈ s.visited ↔ v ∈ s.nodes
  nodup : s.nodes.Nodup
  start : entry ∈ s.nodes
  univ : ∀ v ∈ s.nodes, v ∈ U
  closed : ∀ w ∈ P, ∀ v ∈ succ w, v ∈ s.nodes
  sorted : Sorted succ entry s.nodes
  dist : Dist succ entry du u
  near : ∀ v ∈ s.nodes, ∃ d, Dist succ entry d v ∧ d ≤ du + 1

omit [DecidableEq N] in
theorem Inner.early {U P : List N} {u : N} {du : Nat} {s : Bfs N} (h : Inner succ entry U P u du s) :
    ∀ (d : Nat) (w : N), Dist succ entry d w → d < du → w ∈ P := by
  intro d
  induction d using Nat.strongRecOn with
  | _ d ih =>
      intro w hw hd
      have hmem : w ∈ s.nodes := by
        rcases hw.pred with he | ⟨d', w', hd', hw', hsucc⟩
        · exact he ▸ h.start
        · exact h.closed w' (ih d' (by omega) w' hw' (by omega)) w hsucc
      rw [h.nodes] at hmem
      rcases List.mem_append.1 hmem with hp | hq
      · exact hp
      · exfalso
        have hs := h.sorted
        rw [h.nodes] at hs
        have hs2 := (List.pairwise_append.1 hs).2.1
        rcases List.mem_cons.1 hq with rfl | hq
        · have := hw.unique h.dist; omega
        · have := (List.pairwise_cons.1 hs2).1 w hq du d h.dist hw
          omega

theorem Inner.visit {U P : List N} {u : N} {du : Nat} {s : Bfs N} (hU : ∀ w ∈ U, ∀ v ∈ succ w, v ∈ U)
    (h : Inner succ entry U P u du s) (v : N) (hv : v ∈ succ u) : Inner succ entry U P u du (s.visit v) := by
  unfold Bfs.visit
  by_cases hvis : v ∈ s.visited
  · rw [if_pos hvis]; exact h
  rw [if_neg hvis]
  have hnot : v ∉ s.nodes := fun hm => hvis ((h.vis v).2 hm)
  have hdv : Dist succ entry (du + 1) v := by
    refine ⟨h.dist.1.step hv, ?_⟩
    intro n hn
    obtain ⟨d, hd⟩ := dist_of_walk hn
    rcases Nat.lt_or_ge n (du + 1) with hlt | hge
    · exfalso
      have hdn := hd.2 n hn
      rcases hd.pred with he | ⟨d', w', hd', hw', hsucc⟩
      · exact hnot (he ▸ h.start)
      · exact hnot (h.closed w' (h.early d' w' hw' (by omega)) v hsucc)
    · exact hge
  constructor
  · simp [h.nodes]
  · intro w; simp [h.vis w, or_comm]
  · exact List.nodup_append.2 ⟨h.nodup, by simp, by simp; intro a ha; exact fun e => hnot (e ▸ ha)⟩
  · simp [h.start]
  · intro w hw
    rcases List.mem_append.1 hw with hw | hw
    · exact h.univ w hw
    · rw [List.mem_singleton] at hw; subst hw
      exact hU u (h.univ u (by simp [h.nodes])) w hv
  · intro w hw x hx; exact List.mem_append_left _ (h.closed w hw x hx)
  · unfold Sorted
    rw [List.pairwise_append]
    refine ⟨h.sorted, by simp, ?_⟩
    intro a ha b hb
    rw [List.mem_singleton] at hb; subst hb
    intro d d' hd hd'
    obtain ⟨da, hda, hle⟩ := h.near a ha
    have e1 := hd.unique hda
    have e2 := hd'.unique hdv
    omega
  · exact h.dist
  · intro w hw
    rcases List.mem_append.1 hw with hw | hw
    · exact h.near w hw
    · rw [List.mem_singleton] at hw; subst hw
      exact ⟨du + 1, hdv, Nat.le_refl _⟩

theorem visit_mono (s : Bfs N) (v w : N) (h : w ∈ s.nodes) : w ∈ (s.visit v).nodes := by
  unfold Bfs.visit; split <;> simp [h]

theorem fold_mono (l : List N) : ∀ (s : Bfs N) (w : N), w ∈ s.nodes → w ∈ (l.foldl Bfs.visit s).nodes := by
  induction l with
  | nil => intro s w h; exact h
  | cons v l ih => intro s w h; exact ih _ w (visit_mono s v w h)

theorem Inner.fold {U P : List N} {u : N} {du : Nat} (hU : ∀ w ∈ U, ∀ v ∈ succ w, v ∈ U) (l : List N) (hl : ∀ v ∈ l, v ∈ succ u) :
    ∀ {s : Bfs N}, Inner succ entry U P u du s →
      Inner succ entry U P u du (l.foldl Bfs.visit s) ∧ ∀ v ∈ l, v ∈ (l.foldl Bfs.visit s).nodes := by
  induction l with
  | nil => intro s h; exact ⟨h, by simp⟩
  | cons v l ih =>
      intro s h
      have h' := h.visit hU v (hl v (by simp))
      obtain ⟨h1, h2⟩ := ih (fun w hw => hl w (by simp [hw])) h'
      refine ⟨h1, ?_⟩
      intro w hw
      rcases List.mem_cons.1 hw with rfl | hw
      · refine fold_mono l _ w ?_
        unfold Bfs.visit
        by_cases hm : w ∈ s.visited
        · rw [if_pos hm]; exact (h.vis w).1 hm
        · rw [if_neg hm]; simp
      · exact h2 w hw

/-- Between two iterations. -/
structure Outer (succ : N → List N) (entry : N) (U P : List N) (s : Bfs N) : Prop where
  nodes : s.nodes = P ++ s.toVisit
  vis : ∀ v, v ∈ s.visited ↔ v ∈ s.nodes
  nodup : s.nodes.Nodup
  start : entry ∈ s.nodes
  univ : ∀ v ∈ s.nodes, v ∈ U
  closed : ∀ w ∈ P, ∀ v ∈ succ w, v ∈ s.nodes
  sorted : Sorted succ entry s.nodes
  reach : ∀ v ∈ s.nodes, ∃ d, Dist succ entry d v
  near : ∀ u ∈ s.toVisit.head?, ∀ v ∈ s.nodes, ∀ du d, Dist succ entry du u → Dist succ entry d v → d ≤ du + 1

theorem Outer.loop {U : List N} (hU : ∀ w ∈ U, ∀ v ∈ succ w, v ∈ U) :
    ∀ (fuel : Nat) (P : List N) (s : Bfs N), Outer succ entry U P s → U.length ≤ fuel + P.length →
      ∃ P', Outer succ entry U P' (Bfs.loop succ fuel s) ∧ (Bfs.loop succ fuel s).toVisit = [] := by
  intro fuel
  induction fuel with
  | zero =>
      intro P s h hlen
      refine ⟨P, h, ?_⟩
      have h1 : s.nodes.length ≤ U.length := (h.nodup.subperm (fun v hv => h.univ v hv)).length_le
      rw [h.nodes, List.length_append] at h1
      exact List.eq_nil_of_length_eq_zero (by simp only [Bfs.loop]; omega)
  | succ fuel ih =>
      intro P s h hlen
      unfold Bfs.loop
      split
      · next hq => exact ⟨P, h, hq⟩
      · next u q hq =>
        obtain ⟨du, hdu⟩ := h.reach u (by simp [h.nodes, hq])
        have hin : Inner succ entry U P u du { s with toVisit := q } :=
          ⟨by simp [h.nodes, hq], h.vis, h.nodup, h.start, h.univ, h.closed, h.sorted, hdu, by
            intro v hv
            obtain ⟨d, hd⟩ := h.reach v hv
            exact ⟨d, hd, h.near u (by simp [hq]) v hv du d hdu hd⟩⟩
        obtain ⟨h1, h2⟩ := hin.fold hU (succ u) (fun v hv => hv)
        generalize hs' : List.foldl Bfs.visit { s with toVisit := q } (succ u) = s' at h1 h2
        refine ih (P ++ [u]) s' ?_ (by simp; omega)
        refine ⟨by simp [h1.nodes], h1.vis, h1.nodup, h1.start, h1.univ, ?_, h1.sorted, ?_, ?_⟩
        · intro w hw v hv
          rcases List.mem_append.1 hw with hw | hw
          · exact h1.closed w hw v hv
          · rw [List.mem_singleton] at hw; subst hw; exact h2 v hv
        · intro v hv; obtain ⟨d, hd, _⟩ := h1.near v hv; exact ⟨d, hd⟩
        · intro u' hu' v hv du' d hdu' hd
          obtain ⟨d', hd', hle⟩ := h1.near v hv
          have e := hd.unique hd'
          have hs := h1.sorted
          unfold Sorted at hs
          rw [h1.nodes] at hs
          have hmem : u' ∈ s'.toVisit := by
            cases hq' : s'.toVisit with
            | nil => rw [hq'] at hu'; simp at hu'
            | cons a b => rw [hq'] at hu'; simp at hu'; simp [hu']
          have := (List.pairwise_cons.1 (List.pairwise_append.1 hs).2.1).1 u' hmem du du' h1.dist hdu'
          omega

/-- **C48** Nodes are put in the order of their distance from the entry node: every node that can be reached occurs exactly once, no other
node does, and a node in front of another one is not farther away. (`SortNodesTopological` promises more: every node after the
nodes it depends on. See `C48_mixed_fails`.) -/
theorem C48_bfs (U : List N) (hU : ∀ w ∈ U, ∀ v ∈ succ w, v ∈ U) (he : entry ∈ U) (fuel : Nat) (hf : U.length ≤ fuel) :
    (sortNodes succ entry fuel).Nodup ∧ (∀ v, v ∈ sortNodes succ entry fuel ↔ ∃ n, Walk succ entry n v) ∧
      (sortNodes succ entry fuel).Pairwise fun u v => ∀ m, Walk succ entry m v → ∃ n, n ≤ m ∧ Walk succ entry n u := by
  have h0 : Outer succ entry U [] ⟨[entry], [entry], [entry]⟩ := by
    have hd : Dist succ entry 0 entry := ⟨.here, fun _ _ => Nat.zero_le _⟩
    refine ⟨rfl, by simp, by simp, by simp, by simpa using he, by simp, by simp [Sorted], ?_, ?_⟩
    · intro v hv; simp at hv; subst hv; exact ⟨0, hd⟩
    · intro u hu v hv du d h1 h2
      simp at hv; subst hv
      have := h2.unique hd
      omega
  obtain ⟨P, h, hq⟩ := h0.loop hU fuel [] _ (by simpa using hf)
  have hn : (Bfs.loop succ fuel ⟨[entry], [entry], [entry]⟩).nodes = P := by rw [h.nodes, hq, List.append_nil]
  unfold sortNodes
  refine ⟨h.nodup, ?_, ?_⟩
  · intro v
    constructor
    · intro hv; obtain ⟨d, hd⟩ := h.reach v hv; exact ⟨d, hd.1⟩
    · rintro ⟨n, hw⟩
      induction hw with
      | here => exact h.start
      | step _ hv ih => exact h.closed _ (hn ▸ ih) _ hv
  · refine List.Pairwise.imp_of_mem ?_ h.sorted
    intro u v hu hv huv m hm
    obtain ⟨d, hd⟩ := h.reach u hu
    obtain ⟨d', hd'⟩ := h.reach v hv
    exact ⟨d, Nat.le_trans (huv d d' hd hd') (hd'.2 m hm), hd.1⟩

end Jlm.Tooling
