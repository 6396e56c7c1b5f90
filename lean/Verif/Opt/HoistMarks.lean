import Verif.Opt.HoistProps

/-!
# Node hoisting: which nodes are hoisted

What `markNodes` (push.cpp:208-235) decides, in terms of the graph.
-/

set_option linter.unusedSimpArgs false
set_option linter.unusedVariables false

namespace Jlm.Opt.Hoist

open Jlm.Opt.Copy Jlm.Opt.Lst Jlm.Opt.Pull

mutual

/-- Marked nodes are nodes of the region or of regions inside it. -/
theorem mark_names (ty : Out → Ty) : ∀ (ns : Nodes) (d : Nat) (T : Targets) (os : List Out) (t : Nat),
    (os, t) ∈ markNodes ty d T ns → ∀ o ∈ os, o ∈ namesNodes ns
  | .nil, d, T, os, t, h, o, ho => by simp [markNodes] at h
  | .cons (.simple op ins outs) ns, d, T, os, t, h, o, ho => by
    simp only [markNodes, List.mem_cons, Prod.mk.injEq] at h
    simp only [namesNodes, namesNode, List.mem_append]
    rcases h with ⟨rfl, _⟩ | h
    · exact .inl ho
    · exact .inr (mark_names ty ns _ _ _ _ h o ho)
  | .cons (.theta ins outs args pred posts sub) ns, d, T, os, t, h, o, ho => by
    simp only [markNodes, List.mem_append] at h
    simp only [namesNodes, namesNode, List.mem_append]
    rcases h with h | h
    · exact .inl (.inr (mark_names ty sub _ _ _ _ h o ho))
    · exact .inr (mark_names ty ns _ _ _ _ h o ho)
  | .cons (.gamma pred ins outs subs) ns, d, T, os, t, h, o, ho => by
    simp only [markNodes, List.mem_append] at h
    simp only [namesNodes, namesNode, List.mem_append]
    rcases h with h | h
    · exact .inl (.inr (mark_names_subs ty subs _ _ _ _ _ h o ho))
    · exact .inr (mark_names ty ns _ _ _ _ h o ho)
  | .cons (.lambda ins args params results out sub) ns, d, T, os, t, h, o, ho => by
    simp only [markNodes] at h
    simp only [namesNodes, List.mem_append]
    exact .inr (mark_names ty ns _ _ _ _ h o ho)
  | .cons (.phi ins args recs results outs sub) ns, d, T, os, t, h, o, ho => by
    simp only [markNodes] at h
    simp only [namesNodes, List.mem_append]
    exact .inr (mark_names ty ns _ _ _ _ h o ho)
  | .cons (.delta ins args result out sub) ns, d, T, os, t, h, o, ho => by
    simp only [markNodes] at h
    simp only [namesNodes, List.mem_append]
    exact .inr (mark_names ty ns _ _ _ _ h o ho)

theorem mark_names_subs (ty : Out → Ty) : ∀ (subs : Regions) (d : Nat) (T : Targets) (ins : List Out) (os : List Out) (t : Nat),
    (os, t) ∈ markSubs ty d T ins subs → ∀ o ∈ os, o ∈ namesRegions subs
  | .nil, d, T, ins, os, t, h, o, ho => by simp [markSubs] at h
  | .cons args results sub rest, d, T, ins, os, t, h, o, ho => by
    simp only [markSubs, List.mem_append] at h
    simp only [namesRegions, List.mem_append]
    rcases h with h | h
    · exact .inl (.inr (mark_names ty sub _ _ _ _ h o ho))
    · exact .inr (mark_names_subs ty rest _ _ _ _ _ h o ho)

end

theorem mem_names {op : Op} {xi xo : List Out} {o : Out} : ∀ {ms : Nodes}, .simple op xi xo ∈ ms.list → o ∈ xo → o ∈ namesNodes ms
  | .nil, h, _ => by simp [Nodes.list] at h
  | .cons m ms, h, ho => by
    simp only [Nodes.list, List.mem_cons] at h
    simp only [namesNodes, List.mem_append]
    rcases h with h | h
    · subst h; exact .inl (by simpa [namesNode] using ho)
    · exact .inr (mem_names h ho)

theorem foldl_max {l : List Nat} : ∀ {m : Nat}, m ≤ l.foldl max m ∧ ∀ x ∈ l, x ≤ l.foldl max m := by
  induction l with
  | nil => intro m; simp
  | cons a l ih =>
    intro m
    have h := ih (m := max m a)
    simp only [List.foldl_cons]
    refine ⟨by omega, fun x hx => ?_⟩
    rcases List.mem_cons.1 hx with rfl | hx
    · omega
    · exact h.2 x hx

theorem nodeTarget_ge {ty : Out → Ty} {d : Nat} {T : Targets} {ins outs : List Out} {a : Out} (h : a ∈ ins) :
    T a ≤ nodeTarget ty d T ins outs := by
  rw [nodeTarget, if_neg (by intro h'; simp [h'] at h)]
  exact foldl_max.2 _ (List.mem_map_of_mem h)

/-- `y` is hoisted to a region of depth at most `t`. -/
def MarkedBy (ty : Out → Ty) (d : Nat) (T : Targets) (ns : Nodes) (t : Nat) (y : Node) : Prop :=
  match y with
  | .simple _ _ outs => ∃ t' : Nat, (outs, t') ∈ markNodes ty d T ns ∧ t' ≤ t
  | _ => d ≤ t

/-- A node is not hoisted further than its operands. -/
theorem mark_operands {ty : Out → Ty} {d t : Nat} {op : Op} {xi xo : List Out} (hx : xo ≠ []) : ∀ (ns : Nodes) (T : Targets)
    {A : List Out}, wfNodes A ns = true → (namesNodes ns).Nodup → (∀ z ∈ A, z ∉ namesNodes ns) →
    .simple op xi xo ∈ ns.list → (xo, t) ∈ markNodes ty d T ns →
    ∀ a ∈ xi, (a ∉ ns.outs ∧ T a ≤ t) ∨ ∃ y ∈ ns.list, a ∈ y.outs ∧ MarkedBy ty d T ns t y
  | .nil, T, A, _, _, _, h, _ => by simp [Nodes.list] at h
  | .cons n ns, T, A, hw, hn, hd, h, hm => by
    simp only [wfNodes, Bool.and_eq_true] at hw
    simp only [namesNodes] at hn hd
    obtain ⟨hn1, hn2, hn3⟩ := List.nodup_append.1 hn
    obtain ⟨o, ho⟩ := List.exists_mem_of_ne_nil xo hx
    have hd' : ∀ z ∈ n.outs ++ A, z ∉ namesNodes ns := by
      intro z hz
      rcases List.mem_append.1 hz with hz | hz
      · exact fun h' => hn3 z (outs_names n z hz) z h' rfl
      · exact fun h' => hd z hz (List.mem_append_right _ h')
    simp only [Nodes.list, List.mem_cons] at h
    intro a ha
    rcases h with h | h
    · -- the node itself
      subst h
      have hm' : t = nodeTarget ty d T xi xo := by
        simp only [markNodes, List.mem_cons, Prod.mk.injEq, true_and] at hm
        rcases hm with hm | hm
        · exact hm
        · exact absurd rfl (hn3 o ho o (mark_names ty ns _ _ _ _ hm o ho))
      refine .inl ⟨fun h' => ?_, hm' ▸ nodeTarget_ge ha⟩
      have haA : a ∈ A := wfNode_ins hw.1 a ha
      have : a ∈ namesNodes (.cons (.simple op xi xo) ns) := outs_namesNodes _ a h'
      exact hd a haA (by simpa [namesNodes] using this)
    · -- a later node
      have hxs : o ∈ namesNodes ns := by
        exact mem_names h ho
      have hon : ∀ l : List Out, o ∈ l → (∀ z ∈ l, z ∈ namesNode n) → False := fun l hl hz => hn3 o (hz o hl) o hxs rfl
      -- the mark is a mark of the remaining nodes
      have key : ∃ T', (∀ z, z ∉ n.outs → T' z = T z) ∧ (xo, t) ∈ markNodes ty d T' ns ∧
          (∀ t' y, MarkedBy ty d T' ns t' y → MarkedBy ty d T (.cons n ns) t' y) ∧
          (∀ z ∈ n.outs, T' z ≤ t → MarkedBy ty d T (.cons n ns) t n) := by
        have hset : ∀ t', ∀ z, z ∉ n.outs → (Targets.set T n.outs t') z = T z := fun t' z hz => by simp [Targets.set, hz]
        have hset' : ∀ t', ∀ z ∈ n.outs, (Targets.set T n.outs t') z = t' := fun t' z hz => by simp [Targets.set, hz]
        cases n with
        | simple op' ins' outs' =>
          simp only [markNodes, List.mem_cons, Prod.mk.injEq] at hm
          refine ⟨T.set outs' (nodeTarget ty d T ins' outs'), hset _, ?_, ?_, ?_⟩
          · rcases hm with ⟨rfl, _⟩ | hm
            · exact (hon xo ho fun z hz => by simpa [namesNode] using hz).elim
            · exact hm
          · intro t' y hy
            cases y with
            | simple _ _ _ =>
              obtain ⟨t'', h1, h2⟩ := hy
              exact ⟨t'', by simp only [markNodes, List.mem_cons]; exact .inr h1, h2⟩
            | _ => exact hy
          · intro z hz hz'
            replace hz' := Nat.le_trans (Nat.le_of_eq (hset' _ z hz).symm) hz'
            exact ⟨_, by simp only [markNodes, List.mem_cons]; exact .inl trivial, hz'⟩
        | theta ins' outs' args' pred' posts' sub' =>
          simp only [markNodes, List.mem_append] at hm
          refine ⟨T.set outs' d, hset _, ?_, ?_, ?_⟩
          · rcases hm with hm | hm
            · exact (hon _ ho fun z hz => by
                simp only [namesNode, List.mem_append]; exact .inr (mark_names ty sub' _ _ _ _ hm z hz)).elim
            · exact hm
          · intro t' y hy
            cases y with
            | simple _ _ _ =>
              obtain ⟨t'', h1, h2⟩ := hy
              exact ⟨t'', by simp only [markNodes, List.mem_append]; exact .inr h1, h2⟩
            | _ => exact hy
          · intro z hz hz'
            replace hz' := Nat.le_trans (Nat.le_of_eq (hset' _ z hz).symm) hz'
            exact hz'
        | gamma pred' ins' outs' subs' =>
          simp only [markNodes, List.mem_append] at hm
          refine ⟨T.set outs' d, hset _, ?_, ?_, ?_⟩
          · rcases hm with hm | hm
            · exact (hon _ ho fun z hz => by
                simp only [namesNode, List.mem_append]; exact .inr (mark_names_subs ty subs' _ _ _ _ _ hm z hz)).elim
            · exact hm
          · intro t' y hy
            cases y with
            | simple _ _ _ =>
              obtain ⟨t'', h1, h2⟩ := hy
              exact ⟨t'', by simp only [markNodes, List.mem_append]; exact .inr h1, h2⟩
            | _ => exact hy
          · intro z hz hz'
            replace hz' := Nat.le_trans (Nat.le_of_eq (hset' _ z hz).symm) hz'
            exact hz'
        | _ =>
          simp only [markNodes] at hm
          refine ⟨_, hset _, hm, ?_, ?_⟩
          · intro t' y hy
            cases y with
            | simple _ _ _ =>
              obtain ⟨t'', h1, h2⟩ := hy
              exact ⟨t'', by simp only [markNodes]; exact h1, h2⟩
            | _ => exact hy
          · intro z hz hz'
            replace hz' := Nat.le_trans (Nat.le_of_eq (hset' _ z hz).symm) hz'
            exact hz'
      obtain ⟨T', h1, h2, h3, h4⟩ := key
      rcases mark_operands hx ns T' hw.2 hn2 hd' h h2 a ha with ⟨h5, h6⟩ | ⟨y, h5, h6, h7⟩
      · by_cases han : a ∈ n.outs
        · exact .inr ⟨n, by simp [Nodes.list], han, h4 a han h6⟩
        · rw [h1 a han] at h6
          exact .inl ⟨by simp [Nodes.outs, han, h5], h6⟩
      · exact .inr ⟨y, by simp [Nodes.list, h5], h6, h3 _ _ h7⟩

theorem thetaTargets_le {ty : Out → Ty} {d t : Nat} {T : Targets} {sub : Nodes} {results : List Out} (ht : t ≤ d) {a : Out} :
    ∀ (args ins posts : List Out), thetaTargets ty d T sub results args ins posts a ≤ t →
      ∃ (j : Nat) (i p : Out), args[j]? = some a ∧ ins[j]? = some i ∧ posts[j]? = some p ∧ T i ≤ t ∧
        (p = a ∨ isInvariantMemoryStateLoopVar ty sub results a p = true)
  | [], _, _, h => by simp only [thetaTargets] at h; omega
  | _ :: _, [], _, h => by simp only [thetaTargets] at h; omega
  | _ :: _, _ :: _, [], h => by simp only [thetaTargets] at h; omega
  | b :: as, i :: is, p :: ps, h => by
    simp only [thetaTargets] at h
    split at h
    · rename_i e
      subst e
      refine ⟨0, i, p, rfl, rfl, rfl, ?_⟩
      split at h
      · exact ⟨h, .inl ‹_›⟩
      · split at h
        · exact ⟨h, .inr ‹_›⟩
        · omega
    · obtain ⟨j, i', p', h1, h2, h3, h4⟩ := thetaTargets_le ht as is ps h
      exact ⟨j + 1, i', p', by simpa using h1, by simpa using h2, by simpa using h3, h4⟩

theorem gammaTargets_le {ty : Out → Ty} {d t : Nat} {T : Targets} (ht : t ≤ d) {a : Out} :
    ∀ (args ins : List Out), gammaTargets ty d T args ins a ≤ t →
      ∃ (j : Nat) (i : Out), args[j]? = some a ∧ ins[j]? = some i ∧ T i ≤ t ∧ (ty a).isState = false
  | [], _, h => by simp only [gammaTargets] at h; omega
  | _ :: _, [], h => by simp only [gammaTargets] at h; omega
  | b :: as, i :: is, h => by
    simp only [gammaTargets] at h
    split at h
    · rename_i e
      subst e
      refine ⟨0, i, rfl, rfl, ?_⟩
      split at h
      · omega
      · rename_i hs
        exact ⟨h, by simpa using hs⟩
    · obtain ⟨j, i', h1, h2, h3⟩ := gammaTargets_le ht as is h
      exact ⟨j + 1, i', by simpa using h1, by simpa using h2, h3⟩

/-- A node of a theta region (of depth `d + 1`) that is hoisted to depth `t ≤ d` has only operands that
are invariant, that are memory states of which the pass believes that the node leaves them as they are, or that are outputs of
nodes that are hoisted at least as far; the origins of the former, in the surrounding region, can be hoisted to depth `t`. -/
theorem marked_in_loop {ty : Out → Ty} {d t : Nat} {T : Targets} {op : Op} {ins outs args posts xi xo A : List Out} {pred : Out}
    {sub : Nodes} (hw : wfNode A (.theta ins outs args pred posts sub) = true)
    (hn : (namesNode (.theta ins outs args pred posts sub)).Nodup) (hx : xo ≠ []) (hmem : .simple op xi xo ∈ sub.list)
    (hm : (xo, t) ∈ markNodes ty (d + 1) (thetaTargets ty d T sub (pred :: posts) args ins posts) sub) (ht : t ≤ d) :
    ∀ a ∈ xi,
      (∃ (j : Nat) (i p : Out), args[j]? = some a ∧ ins[j]? = some i ∧ posts[j]? = some p ∧ T i ≤ t ∧
        (p = a ∨ isInvariantMemoryStateLoopVar ty sub (pred :: posts) a p = true)) ∨
      ∃ (op' : Op) (yi yo : List Out) (t' : Nat), .simple op' yi yo ∈ sub.list ∧ a ∈ yo ∧ t' ≤ t ∧
        (yo, t') ∈ markNodes ty (d + 1) (thetaTargets ty d T sub (pred :: posts) args ins posts) sub := by
  intro a ha
  simp only [wfNode, Bool.and_eq_true] at hw
  simp only [namesNode] at hn
  have h1 := List.nodup_append.1 hn
  rcases mark_operands hx sub _ hw.1.2 h1.2.1 (fun z hz h => h1.2.2 z (List.mem_append_right _ hz) z h rfl) hmem hm a ha with
    ⟨_, h⟩ | ⟨y, h2, h3, h4⟩
  · exact .inl (thetaTargets_le ht args ins posts h)
  · right
    cases y with
    | simple op' yi yo =>
      obtain ⟨t', h5, h6⟩ := h4
      exact ⟨op', yi, yo, t', h2, h3, h6, h5⟩
    | _ => exact absurd (show d + 1 ≤ t from h4) (by omega)

/-- A node in a branch of a gamma node that is hoisted out of it has no operand that is a memory or I/O
state argument of the branch: what has effects is executed only where it was executed before. -/
theorem marked_in_branch {ty : Out → Ty} {d t : Nat} {T : Targets} {op : Op} {ins args xi xo : List Out} {sub : Nodes}
    (hw : wfNodes args sub = true) (hn : (args ++ namesNodes sub).Nodup) (hx : xo ≠ [])
    (hmem : .simple op xi xo ∈ sub.list) (hm : (xo, t) ∈ markNodes ty (d + 1) (gammaTargets ty d T args.tail ins) sub) (ht : t ≤ d) :
    ∀ a ∈ xi,
      (∃ (j : Nat) (i : Out), args[j + 1]? = some a ∧ ins[j]? = some i ∧ T i ≤ t ∧ (ty a).isState = false) ∨
      ∃ (op' : Op) (yi yo : List Out) (t' : Nat), .simple op' yi yo ∈ sub.list ∧ a ∈ yo ∧ t' ≤ t ∧
        (yo, t') ∈ markNodes ty (d + 1) (gammaTargets ty d T args.tail ins) sub := by
  intro a ha
  have h1 := List.nodup_append.1 hn
  rcases mark_operands hx sub _ hw h1.2.1 (fun z hz h => h1.2.2 z hz z h rfl) hmem hm a ha with
    ⟨_, h⟩ | ⟨y, h2, h3, h4⟩
  · left
    obtain ⟨j, i, h5, h6⟩ := gammaTargets_le ht args.tail ins h
    exact ⟨j, i, by rw [← List.getElem?_tail]; exact h5, h6⟩
  · right
    cases y with
    | simple op' yi yo =>
      obtain ⟨t', h5, h6⟩ := h4
      exact ⟨op', yi, yo, t', h2, h3, h6, h5⟩
    | _ => exact absurd (show d + 1 ≤ t from h4) (by omega)

/-! ## The whole function -/

/-- Specification: `n` is a node of the region `ns`, or of a region inside it, `d` regions deep. -/
inductive At : Nodes → Nat → Node → Prop
  | here {ns : Nodes} {n : Node} : n ∈ ns.list → At ns 0 n
  | inTheta {ns sub : Nodes} {ins outs args posts : List Out} {pred : Out} {d : Nat} {n : Node} :
      .theta ins outs args pred posts sub ∈ ns.list → At sub d n → At ns (d + 1) n
  | inGamma {ns sub : Nodes} {ins outs args : List Out} {pred : Out} {subs : Regions} {b d : Nat} {n : Node} :
      .gamma pred ins outs subs ∈ ns.list → branchOf subs b = some (args, sub) → At sub d n → At ns (d + 1) n

theorem mark_cons {ty : Out → Ty} {d : Nat} (T : Targets) (n : Node) (ns : Nodes) :
    ∃ (L : List (List Out × Nat)) (T' : Targets), markNodes ty d T (.cons n ns) = L ++ markNodes ty d T' ns ∧
      ∀ os t, (os, t) ∈ L → ∀ o ∈ os, o ∈ namesNode n := by
  cases n with
  | simple op ins outs =>
    refine ⟨[(outs, nodeTarget ty d T ins outs)], _, rfl, fun os t h o ho => ?_⟩
    simp only [List.mem_singleton, Prod.mk.injEq] at h
    obtain ⟨rfl, _⟩ := h
    simpa [namesNode] using ho
  | theta ins outs args pred posts sub =>
    refine ⟨_, _, by rw [markNodes], fun os t h o ho => ?_⟩
    simp only [namesNode, List.mem_append]
    exact .inr (mark_names ty sub _ _ _ _ h o ho)
  | gamma pred ins outs subs =>
    refine ⟨_, _, by rw [markNodes], fun os t h o ho => ?_⟩
    simp only [namesNode, List.mem_append]
    exact .inr (mark_names_subs ty subs _ _ _ _ _ h o ho)
  | _ => exact ⟨[], _, by rw [markNodes] <;> first | rfl | (intros; contradiction), by simp⟩

theorem names_list {n : Node} {o : Out} : ∀ {ms : Nodes}, n ∈ ms.list → o ∈ namesNode n → o ∈ namesNodes ms
  | .nil, h, _ => by simp [Nodes.list] at h
  | .cons m ms, h, ho => by
    simp only [Nodes.list, List.mem_cons] at h
    simp only [namesNodes, List.mem_append]
    rcases h with h | h
    · subst h; exact .inl ho
    · exact .inr (names_list h ho)

/-- The marks of the nodes of a region are the marks that belong to its nodes. -/
theorem mark_at {ty : Out → Ty} {d : Nat} {n : Node} : ∀ (ns : Nodes) (T : Targets), (namesNodes ns).Nodup → n ∈ ns.list →
    ∃ (T' : Targets) (ns' : Nodes), (∀ m ∈ markNodes ty d T' (.cons n ns'), m ∈ markNodes ty d T ns) ∧
      (∀ o ∈ namesNode n, o ∉ namesNodes ns') ∧
      ∀ os t o, o ∈ os → o ∈ namesNode n → (os, t) ∈ markNodes ty d T ns → (os, t) ∈ markNodes ty d T' (.cons n ns')
  | .nil, T, _, h => by simp [Nodes.list] at h
  | .cons m ns, T, hn, h => by
    simp only [namesNodes] at hn
    have hn' := List.nodup_append.1 hn
    simp only [Nodes.list, List.mem_cons] at h
    rcases h with rfl | h
    · exact ⟨T, ns, fun m hm => hm, fun o ho h' => hn'.2.2 o ho o h' rfl, fun os t o _ _ h => h⟩
    · obtain ⟨L, T', h1, h2⟩ := mark_cons (ty := ty) (d := d) T m ns
      obtain ⟨T'', ns', h3, h4, h5⟩ := mark_at ns T' hn'.2.1 h
      refine ⟨T'', ns', fun x hx => ?_, h4, fun os t o ho ho' hm => ?_⟩
      · rw [h1]; exact List.mem_append_right _ (h3 x hx)
      · rw [h1] at hm
        rcases List.mem_append.1 hm with hm | hm
        · exact absurd rfl (hn'.2.2 o (h2 os t hm o ho) o (names_list h ho'))
        · exact h5 os t o ho ho' hm

theorem mark_theta {ty : Out → Ty} {d : Nat} {ns sub : Nodes} {T : Targets} {ins outs args posts : List Out} {pred : Out}
    (hn : (namesNodes ns).Nodup) (h : .theta ins outs args pred posts sub ∈ ns.list) :
    ∃ T' : Targets,
      (∀ m ∈ markNodes ty (d + 1) (thetaTargets ty d T' sub (pred :: posts) args ins posts) sub, m ∈ markNodes ty d T ns) ∧
      ∀ os t o, o ∈ os → o ∈ namesNodes sub → (os, t) ∈ markNodes ty d T ns →
        (os, t) ∈ markNodes ty (d + 1) (thetaTargets ty d T' sub (pred :: posts) args ins posts) sub := by
  obtain ⟨T', ns', h1, h2, h3⟩ := mark_at (ty := ty) (d := d) ns T hn h
  refine ⟨T', fun m hm => h1 m (by rw [markNodes]; exact List.mem_append_left _ hm), fun os t o ho hs hm => ?_⟩
  have hs' : o ∈ namesNode (.theta ins outs args pred posts sub) := by
    simp only [namesNode, List.mem_append]; exact .inr hs
  have := h3 os t o ho hs' hm
  rw [markNodes] at this
  rcases List.mem_append.1 this with h | h
  · exact h
  · exact absurd (mark_names ty _ _ _ _ _ h o ho) (h2 o hs')

theorem mark_branch {ty : Out → Ty} {d : Nat} {T : Targets} {ins args : List Out} {sub : Nodes} : ∀ {subs : Regions} {b : Nat},
    (namesRegions subs).Nodup → branchOf subs b = some (args, sub) →
      (∀ m ∈ markNodes ty (d + 1) (gammaTargets ty d T args.tail ins) sub, m ∈ markSubs ty d T ins subs) ∧
      (∀ o ∈ namesNodes sub, o ∈ namesRegions subs) ∧
      ∀ os t o, o ∈ os → o ∈ namesNodes sub → (os, t) ∈ markSubs ty d T ins subs →
        (os, t) ∈ markNodes ty (d + 1) (gammaTargets ty d T args.tail ins) sub
  | .nil, b, _, h => by simp [branchOf] at h
  | .cons args' results' sub' rest, 0, hn, h => by
    simp only [branchOf, Option.some.injEq, Prod.mk.injEq] at h
    obtain ⟨rfl, rfl⟩ := h
    simp only [namesRegions] at hn
    have hn' := List.nodup_append.1 hn
    refine ⟨fun m hm => by rw [markSubs]; exact List.mem_append_left _ hm,
      fun o ho => by simp only [namesRegions, List.mem_append]; exact .inl (.inr ho), fun os t o ho hs hm => ?_⟩
    rw [markSubs] at hm
    rcases List.mem_append.1 hm with h | h
    · exact h
    · exact absurd rfl (hn'.2.2 o (List.mem_append_right _ hs) o (mark_names_subs ty _ _ _ _ _ _ h o ho))
  | .cons args' results' sub' rest, b + 1, hn, h => by
    simp only [branchOf] at h
    simp only [namesRegions] at hn
    have hn' := List.nodup_append.1 hn
    obtain ⟨h1, h2, h3⟩ := mark_branch (ty := ty) (d := d) (T := T) (ins := ins) hn'.2.1 h
    refine ⟨fun m hm => by rw [markSubs]; exact List.mem_append_right _ (h1 m hm),
      fun o ho => by simp only [namesRegions, List.mem_append]; exact .inr (h2 o ho), fun os t o ho hs hm => ?_⟩
    rw [markSubs] at hm
    rcases List.mem_append.1 hm with h | h
    · exact absurd rfl (hn'.2.2 o (List.mem_append_right _ (mark_names ty _ _ _ _ _ h o ho)) o (h2 o hs))
    · exact h3 os t o ho hs h

theorem mark_gamma {ty : Out → Ty} {d : Nat} {ns sub : Nodes} {T : Targets} {ins outs args : List Out} {pred : Out}
    {subs : Regions} {b : Nat} (hn : (namesNodes ns).Nodup) (h : .gamma pred ins outs subs ∈ ns.list)
    (hsub : (namesRegions subs).Nodup) (hb : branchOf subs b = some (args, sub)) :
    ∃ T' : Targets,
      (∀ m ∈ markNodes ty (d + 1) (gammaTargets ty d T' args.tail ins) sub, m ∈ markNodes ty d T ns) ∧
      ∀ os t o, o ∈ os → o ∈ namesNodes sub → (os, t) ∈ markNodes ty d T ns →
        (os, t) ∈ markNodes ty (d + 1) (gammaTargets ty d T' args.tail ins) sub := by
  obtain ⟨T', ns', h1, h2, h3⟩ := mark_at (ty := ty) (d := d) ns T hn h
  obtain ⟨h4, h5, h6⟩ := mark_branch (ty := ty) (d := d) (T := T') (ins := ins) hsub hb
  refine ⟨T', fun m hm => h1 m (by rw [markNodes]; exact List.mem_append_left _ (h4 m hm)), fun os t o ho hs hm => ?_⟩
  have hs' : o ∈ namesNode (.gamma pred ins outs subs) := by
    simp only [namesNode, List.mem_append]; exact .inr (h5 o hs)
  have := h3 os t o ho hs' hm
  rw [markNodes] at this
  rcases List.mem_append.1 this with h | h
  · exact h6 os t o ho hs h
  · exact absurd (mark_names ty _ _ _ _ _ h o ho) (h2 o hs')

theorem names_branch {args : List Out} {sub : Nodes} : ∀ {subs : Regions} {b : Nat}, branchOf subs b = some (args, sub) →
    (namesRegions subs).Nodup →
      (∀ o ∈ namesNodes sub, o ∈ namesRegions subs) ∧ (args ++ namesNodes sub).Nodup
  | .nil, b, h, _ => by simp [branchOf] at h
  | .cons args' results' sub' rest, 0, h, hn => by
    simp only [branchOf, Option.some.injEq, Prod.mk.injEq] at h
    obtain ⟨rfl, rfl⟩ := h
    simp only [namesRegions] at hn
    exact ⟨fun o ho => by simp only [namesRegions, List.mem_append]; exact .inl (.inr ho), (List.nodup_append.1 hn).1⟩
  | .cons args' results' sub' rest, b + 1, h, hn => by
    simp only [branchOf] at h
    simp only [namesRegions] at hn
    have := names_branch h (List.nodup_append.1 hn).2.1
    exact ⟨fun o ho => by simp only [namesRegions, List.mem_append]; exact .inr (this.1 o ho), this.2⟩

theorem wf_branch {args : List Out} {sub : Nodes} {m k : Nat} : ∀ {subs : Regions} {b : Nat}, branchOf subs b = some (args, sub) →
    wfRegions m k subs = true → wfNodes args sub = true
  | .nil, b, h, _ => by simp [branchOf] at h
  | .cons args' results' sub' rest, 0, h, hw => by
    simp only [branchOf, Option.some.injEq, Prod.mk.injEq] at h
    obtain ⟨rfl, rfl⟩ := h
    simp only [wfRegions, Bool.and_eq_true] at hw
    exact hw.1.1.2
  | .cons args' results' sub' rest, b + 1, h, hw => by
    simp only [branchOf] at h
    simp only [wfRegions, Bool.and_eq_true] at hw
    exact wf_branch h hw.2

theorem wf_list {n : Node} : ∀ {ns : Nodes} {A : List Out}, n ∈ ns.list → wfNodes A ns = true → (namesNodes ns).Nodup →
    ∃ A' : List Out, wfNode A' n = true ∧ (namesNode n).Nodup
  | .nil, A, h, _, _ => by simp [Nodes.list] at h
  | .cons m ns, A, h, hw, hn => by
    simp only [wfNodes, Bool.and_eq_true] at hw
    simp only [namesNodes] at hn
    simp only [Nodes.list, List.mem_cons] at h
    rcases h with rfl | h
    · exact ⟨A, hw.1, (List.nodup_append.1 hn).1⟩
    · exact wf_list h hw.2 (List.nodup_append.1 hn).2.1

theorem theta_parts {ins outs args posts A : List Out} {pred : Out} {sub : Nodes}
    (hw : wfNode A (.theta ins outs args pred posts sub) = true) (hn : (namesNode (.theta ins outs args pred posts sub)).Nodup) :
    wfNodes args sub = true ∧ (namesNodes sub).Nodup := by
  simp only [wfNode, Bool.and_eq_true] at hw
  simp only [namesNode] at hn
  exact ⟨hw.1.2, (List.nodup_append.1 hn).2.1⟩

theorem gamma_parts {ins outs A : List Out} {pred : Out} {subs : Regions}
    (hw : wfNode A (.gamma pred ins outs subs) = true) (hn : (namesNode (.gamma pred ins outs subs)).Nodup) :
    (∃ m k : Nat, wfRegions m k subs = true) ∧ (namesRegions subs).Nodup := by
  simp only [wfNode, Bool.and_eq_true] at hw
  simp only [namesNode] at hn
  exact ⟨⟨_, _, hw.2⟩, (List.nodup_append.1 hn).2.1⟩

theorem names_at {ns : Nodes} {d : Nat} {n : Node} (h : At ns d n) : ∀ {A : List Out}, wfNodes A ns = true →
    (namesNodes ns).Nodup → ∀ o ∈ namesNode n, o ∈ namesNodes ns := by
  induction h with
  | here h => exact fun _ _ o ho => names_list h ho
  | inTheta h _ ih =>
    intro A hw hn o ho
    obtain ⟨A', h1, h2⟩ := wf_list h hw hn
    obtain ⟨h3, h4⟩ := theta_parts h1 h2
    exact names_list h (by simp only [namesNode, List.mem_append]; exact .inr (ih h3 h4 o ho))
  | inGamma h hb _ ih =>
    intro A hw hn o ho
    obtain ⟨A', h1, h2⟩ := wf_list h hw hn
    obtain ⟨⟨_, _, h3⟩, h4⟩ := gamma_parts h1 h2
    obtain ⟨h5, h6⟩ := names_branch hb h4
    exact names_list h (by
      simp only [namesNode, List.mem_append]
      exact .inr (h5 o (ih (wf_branch hb h3) (List.nodup_append.1 h6).2.1 o ho)))

/-- The marks of a region anywhere in the function are the marks of the function that belong to it. -/
theorem mark_deep {ty : Out → Ty} {ns : Nodes} {d : Nat} {n : Node} (h : At ns d n) : ∀ {A : List Out} {e : Nat} {T : Targets},
    wfNodes A ns = true → (namesNodes ns).Nodup →
    ∃ (T' : Targets) (A' : List Out) (ns' : Nodes), wfNodes A' ns' = true ∧ (namesNodes ns').Nodup ∧ n ∈ ns'.list ∧
      (∀ o ∈ namesNodes ns', o ∈ namesNodes ns) ∧
      (∀ m ∈ markNodes ty (e + d) T' ns', m ∈ markNodes ty e T ns) ∧
      ∀ os t o, o ∈ os → o ∈ namesNodes ns' → (os, t) ∈ markNodes ty e T ns → (os, t) ∈ markNodes ty (e + d) T' ns' := by
  induction h with
  | here h => exact fun {A e T} hw hn => ⟨T, A, _, hw, hn, h, fun o ho => ho, fun m hm => hm, fun os t o _ _ hm => hm⟩
  | @inTheta ns sub ins outs args posts pred d n h hat ih =>
    intro A e T hw hn
    obtain ⟨A1, h1, h2⟩ := wf_list h hw hn
    obtain ⟨h3, h4⟩ := theta_parts h1 h2
    obtain ⟨T1, h5, h6⟩ := mark_theta (ty := ty) (d := e) (T := T) hn h
    obtain ⟨T', A', ns', h7, h8, h9, h10, h11, h12⟩ :=
      ih (e := e + 1) (T := thetaTargets ty e T1 sub (pred :: posts) args ins posts) h3 h4
    rw [show e + 1 + d = e + (d + 1) by omega] at h11 h12
    refine ⟨T', A', ns', h7, h8, h9, fun o ho => ?_, fun m hm => h5 m (h11 m hm),
      fun os t o ho hs hm => h12 os t o ho hs (h6 os t o ho (h10 o hs) hm)⟩
    exact names_list h (by simp only [namesNode, List.mem_append]; exact .inr (h10 o ho))
  | @inGamma ns sub ins outs args pred subs b d n h hb hat ih =>
    intro A e T hw hn
    obtain ⟨A1, h1, h2⟩ := wf_list h hw hn
    obtain ⟨⟨_, _, h3⟩, h4⟩ := gamma_parts h1 h2
    obtain ⟨h13, h14⟩ := names_branch hb h4
    obtain ⟨T1, h5, h6⟩ := mark_gamma (ty := ty) (d := e) (T := T) hn h h4 hb
    obtain ⟨T', A', ns', h7, h8, h9, h10, h11, h12⟩ :=
      ih (e := e + 1) (T := gammaTargets ty e T1 args.tail ins) (wf_branch hb h3) (List.nodup_append.1 h14).2.1
    rw [show e + 1 + d = e + (d + 1) by omega] at h11 h12
    refine ⟨T', A', ns', h7, h8, h9, fun o ho => ?_, fun m hm => h5 m (h11 m hm),
      fun os t o ho hs hm => h12 os t o ho hs (h6 os t o ho (h10 o hs) hm)⟩
    exact names_list h (by simp only [namesNode, List.mem_append]; exact .inr (h13 o (h10 o ho)))

/-- **C44, loops.** In a function with parameters `P`, a node in the body of a loop that is `d` regions deep that is hoisted
out of the loop (to depth `t ≤ d`) has only operands that

* belong to invariant loop variables, or
* are memory states that are used once, by a node that also produces the state for the next iteration (or neither the user nor the
  producer is a simple node, see `C44_null_comparison_unsound`), or
* are results of nodes that are hoisted at least as far. -/
theorem C44_marked_in_loop {ty : Out → Ty} {d t : Nat} {op : Op} {P ins outs args posts xi xo : List Out} {pred : Out}
    {body sub : Nodes} (hw : wfNodes P body = true) (hn : (namesNodes body).Nodup)
    (hat : At body d (.theta ins outs args pred posts sub)) (hmem : .simple op xi xo ∈ sub.list) (hx : xo ≠ [])
    (hm : (xo, t) ∈ markNodes ty 0 (fun _ => 0) body) (ht : t ≤ d) :
    ∀ a ∈ xi,
      (∃ j : Nat, args[j]? = some a ∧ posts[j]? = some a) ∨
      (∃ (j : Nat) (p : Out), args[j]? = some a ∧ posts[j]? = some p ∧ ty a = .memory ∧
        (sub.ins ++ pred :: posts).count a = 1 ∧ userNode sub a = originNode sub p) ∨
      ∃ (op' : Op) (yi yo : List Out) (t' : Nat), .simple op' yi yo ∈ sub.list ∧ a ∈ yo ∧ t' ≤ t ∧
        (yo, t') ∈ markNodes ty 0 (fun _ => 0) body := by
  obtain ⟨T1, A1, ns1, h1, h2, h3, h4, h5, h6⟩ := mark_deep (ty := ty) hat (e := 0) (T := fun _ => 0) hw hn
  rw [Nat.zero_add] at h5 h6
  obtain ⟨T2, h7, h8⟩ := mark_theta (ty := ty) (d := d) (T := T1) h2 h3
  obtain ⟨o, ho⟩ := List.exists_mem_of_ne_nil xo hx
  have hos : o ∈ namesNodes sub := mem_names hmem ho
  have hoθ : o ∈ namesNodes ns1 := names_list h3 (by simp only [namesNode, List.mem_append]; exact .inr hos)
  obtain ⟨A2, h9, h10⟩ := wf_list h3 h1 h2
  intro a ha
  rcases marked_in_loop h9 h10 hx hmem (h8 _ _ _ ho hos (h6 _ _ _ ho hoθ hm)) ht a ha with
    ⟨j, i, p, e1, e2, e3, e4, e5⟩ | ⟨op', yi, yo, t', e1, e2, e3, e4⟩
  · rcases e5 with rfl | e5
    · exact .inl ⟨j, e1, e3⟩
    · simp only [isInvariantMemoryStateLoopVar, Bool.and_eq_true, beq_iff_eq] at e5
      exact .inr (.inl ⟨j, p, e1, e3, e5.1.1, e5.1.2, e5.2⟩)
  · exact .inr (.inr ⟨op', yi, yo, t', e1, e2, e3, h5 _ (h7 _ e4)⟩)

/-- **C44, branches.** A node in a branch of a gamma node that is hoisted out of it has no operand that is a memory or I/O
state argument of the branch: what has effects is executed only where it was executed before. All its operands are entry variables
or results of nodes that are hoisted at least as far; the match variable is not an operand. -/
theorem C44_marked_in_branch {ty : Out → Ty} {d t b : Nat} {op : Op} {P ins outs args xi xo : List Out} {pred : Out}
    {body sub : Nodes} {subs : Regions} (hw : wfNodes P body = true) (hn : (namesNodes body).Nodup)
    (hat : At body d (.gamma pred ins outs subs)) (hb : branchOf subs b = some (args, sub))
    (hmem : .simple op xi xo ∈ sub.list) (hx : xo ≠ [])
    (hm : (xo, t) ∈ markNodes ty 0 (fun _ => 0) body) (ht : t ≤ d) :
    ∀ a ∈ xi,
      (∃ j : Nat, args[j + 1]? = some a ∧ j < ins.length ∧ (ty a).isState = false) ∨
      ∃ (op' : Op) (yi yo : List Out) (t' : Nat), .simple op' yi yo ∈ sub.list ∧ a ∈ yo ∧ t' ≤ t ∧
        (yo, t') ∈ markNodes ty 0 (fun _ => 0) body := by
  obtain ⟨T1, A1, ns1, h1, h2, h3, h4, h5, h6⟩ := mark_deep (ty := ty) hat (e := 0) (T := fun _ => 0) hw hn
  rw [Nat.zero_add] at h5 h6
  obtain ⟨A2, h9, h10⟩ := wf_list h3 h1 h2
  obtain ⟨⟨_, _, h11⟩, h12⟩ := gamma_parts h9 h10
  obtain ⟨h13, h14⟩ := names_branch hb h12
  obtain ⟨T2, h7, h8⟩ := mark_gamma (ty := ty) (d := d) (T := T1) h2 h3 h12 hb
  obtain ⟨o, ho⟩ := List.exists_mem_of_ne_nil xo hx
  have hos : o ∈ namesNodes sub := mem_names hmem ho
  have hoθ : o ∈ namesNodes ns1 := names_list h3 (by simp only [namesNode, List.mem_append]; exact .inr (h13 o hos))
  intro a ha
  rcases marked_in_branch (wf_branch hb h11) h14 hx hmem (h8 _ _ _ ho hos (h6 _ _ _ ho hoθ hm)) ht a ha with
    ⟨j, i, e1, e2, e3, e4⟩ | ⟨op', yi, yo, t', e1, e2, e3, e4⟩
  · exact .inl ⟨j, e1, (List.getElem?_eq_some_iff.1 e2).1, e4⟩
  · exact .inr ⟨op', yi, yo, t', e1, e2, e3, h5 _ (h7 _ e4)⟩

end Jlm.Opt.Hoist
