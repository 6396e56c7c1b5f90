import Verif.Opt.CopyModel
import Verif.Opt.TreeLemmas
import Verif.Opt.CneCert

/-!
# C40: copies compute the same values
-/

set_option linter.unusedSimpArgs false
set_option linter.unusedVariables false

namespace Jlm.Opt.Copy

variable {V : Type}

theorem insertAll_some {m : SMap} : ∀ {os xs : List Out} {o x : Out}, m.insertAll os xs o = some x →
    (∃ k : Nat, os[k]? = some o ∧ xs[k]? = some x) ∨ m o = some x
  | [], xs, o, x, h => by simp [SMap.insertAll] at h; exact .inr h
  | _ :: _, [], o, x, h => by simp [SMap.insertAll] at h; exact .inr h
  | a :: os, b :: xs, o, x, h => by
    rw [SMap.insertAll] at h
    rcases insertAll_some h with ⟨k, h1, h2⟩ | h
    · exact .inl ⟨k + 1, by simpa using h1, by simpa using h2⟩
    · simp only [SMap.insert] at h
      split at h
      · rename_i e; exact .inl ⟨0, by simp [e], by simpa using h⟩
      · exact .inr h

theorem insertAll_notin {m : SMap} : ∀ {os xs : List Out} {o : Out}, o ∉ os → m.insertAll os xs o = m o
  | [], xs, o, h => by simp [SMap.insertAll]
  | _ :: _, [], o, h => by simp [SMap.insertAll]
  | a :: os, b :: xs, o, h => by
    simp only [List.mem_cons, not_or] at h
    rw [SMap.insertAll, insertAll_notin h.2]
    simp [SMap.insert, h.1]

theorem insertAll_mem {m : SMap} : ∀ {os xs : List Out} {o : Out}, os.length = xs.length → o ∈ os →
    ∃ x ∈ xs, m.insertAll os xs o = some x
  | a :: os, b :: xs, o, hl, h => by
    rw [SMap.insertAll]
    by_cases ho : o ∈ os
    · obtain ⟨x, hx, e⟩ := insertAll_mem (m := m.insert a b) (by simpa using hl) ho
      exact ⟨x, by simp [hx], e⟩
    · rcases List.mem_cons.1 h with rfl | h
      · rw [insertAll_notin ho]; exact ⟨b, by simp, by simp [SMap.insert]⟩
      · exact absurd h ho

/-- With distinct names, an entry comes either from the lists or from the map. -/
theorem insertAll_cases {m : SMap} {os xs : List Out} {o x : Out} (hl : os.length = xs.length)
    (h : m.insertAll os xs o = some x) :
    (o ∈ os ∧ ∃ k : Nat, os[k]? = some o ∧ xs[k]? = some x) ∨ (o ∉ os ∧ m o = some x) := by
  by_cases ho : o ∈ os
  · refine .inl ⟨ho, ?_⟩
    have : ∀ {os xs : List Out} {m : SMap}, os.length = xs.length → o ∈ os → m.insertAll os xs o = some x →
        ∃ k : Nat, os[k]? = some o ∧ xs[k]? = some x := by
      intro os
      induction os with
      | nil => intro xs m _ h; simp at h
      | cons a os ih =>
        intro xs m hl hm h
        cases xs with
        | nil => simp at hl
        | cons b xs =>
          rw [SMap.insertAll] at h
          by_cases ho : o ∈ os
          · obtain ⟨k, h1, h2⟩ := ih (by simpa using hl) ho h
            exact ⟨k + 1, by simpa using h1, by simpa using h2⟩
          · rcases List.mem_cons.1 hm with rfl | hm
            · rw [insertAll_notin ho] at h
              exact ⟨0, by simp, by simpa [SMap.insert] using h⟩
            · exact absurd hm ho
    exact this hl ho h
  · rw [insertAll_notin ho] at h; exact .inr ⟨ho, h⟩

theorem lookup_length {m : SMap} : ∀ {os xs : List Out}, m.lookup os = some xs → xs.length = os.length
  | [], xs, h => by simp [SMap.lookup] at h; simp [h]
  | o :: os, xs, h => by
    simp only [SMap.lookup, Option.bind_eq_some_iff, Option.map_eq_some_iff] at h
    obtain ⟨x, _, ys, h2, rfl⟩ := h
    simp [lookup_length h2]

theorem lookup_mem {m : SMap} : ∀ {os xs : List Out}, m.lookup os = some xs → ∀ x ∈ xs, ∃ o ∈ os, m o = some x
  | [], xs, h => by simp [SMap.lookup] at h; simp [h]
  | o :: os, xs, h => by
    simp only [SMap.lookup, Option.bind_eq_some_iff, Option.map_eq_some_iff] at h
    obtain ⟨x, h1, ys, h2, rfl⟩ := h
    intro z hz
    rcases List.mem_cons.1 hz with rfl | hz
    · exact ⟨o, by simp, h1⟩
    · obtain ⟨o', ho', e⟩ := lookup_mem h2 z hz
      exact ⟨o', by simp [ho'], e⟩

theorem lookup_map {m : SMap} {α : Type} {F E : Out → α} : ∀ {os xs : List Out}, m.lookup os = some xs →
    (∀ o ∈ os, ∀ x, m o = some x → F x = E o) → xs.map F = os.map E
  | [], xs, h, _ => by simp [SMap.lookup] at h; simp [h]
  | o :: os, xs, h, hE => by
    simp only [SMap.lookup, Option.bind_eq_some_iff, Option.map_eq_some_iff] at h
    obtain ⟨x, h1, ys, h2, rfl⟩ := h
    simp only [List.map_cons]
    rw [hE o (by simp) x h1, lookup_map h2 fun o' ho' => hE o' (by simp [ho'])]

theorem lookup_some {m : SMap} : ∀ {os : List Out}, (∀ o ∈ os, (m o).isSome) → ∃ xs, m.lookup os = some xs
  | [], _ => ⟨[], rfl⟩
  | o :: os, h => by
    obtain ⟨x, hx⟩ := Option.isSome_iff_exists.1 (h o (by simp))
    obtain ⟨xs, hxs⟩ := lookup_some (os := os) fun o' ho' => h o' (by simp [ho'])
    exact ⟨x :: xs, by simp [SMap.lookup, hx, hxs]⟩

theorem upd_pair {E F : Env V} {os xs : List Out} {ws : List (W V)} (hos : os.Nodup) (hxs : xs.Nodup) {k : Nat} {o x : Out}
    (h1 : os[k]? = some o) (h2 : xs[k]? = some x) : upd F xs ws x = upd E os ws o := by
  rw [Cne.upd_get hxs h2, Cne.upd_get hos h1]

theorem mem_range' {x n k : Nat} : x ∈ List.range' n k ↔ n ≤ x ∧ x < n + k := by
  simp [List.mem_range'_1]

/-- The map `m` relates the environments. -/
def Rel (m : SMap) (A : List Out) (n : Nat) (E F : Env V) : Prop :=
  ∀ o ∈ A, ∀ x : Nat, m o = some x → x < n ∧ F x = E o

theorem rel_args {args xs : List Out} {n : Nat} {ws : List (W V)} (ha : args.Nodup) (hx : xs.Nodup)
    (hl : args.length = xs.length) (hn : ∀ x : Nat, x ∈ xs → x < n) :
    Rel (SMap.empty.insertAll args xs) args n (upd emptyEnv args ws) (upd emptyEnv xs ws) := by
  intro o ho x h
  rcases insertAll_cases hl h with ⟨_, k, h1, h2⟩ | ⟨h1, _⟩
  · exact ⟨hn x (List.mem_of_getElem? h2), upd_pair ha hx h1 h2⟩
  · exact absurd ho h1

theorem rel_tail {args xs : List Out} {n : Nat} {ws : List (W V)} (ha : args.Nodup) (hx : xs.Nodup)
    (hl : args.length = xs.length) (hn : ∀ x : Nat, x ∈ xs → x < n) :
    Rel (SMap.empty.insertAll args.tail xs.tail) args n (upd emptyEnv args ws) (upd emptyEnv xs ws) := by
  intro o ho x h
  rcases insertAll_cases (by simp [hl]) h with ⟨_, k, h1, h2⟩ | ⟨_, h2⟩
  · have h1 : args[k + 1]? = some o := by simpa using h1
    have h2 : xs[k + 1]? = some x := by simpa using h2
    exact ⟨hn x (List.mem_of_getElem? h2), upd_pair ha hx h1 h2⟩
  · simp [SMap.empty] at h2

/-- What is known about a copy of a list of nodes. -/
structure NodesCopy (A : List Out) (ns : Nodes) (m : SMap) (n : Nat) (ns' : Nodes) (m' : SMap) (n' : Nat) : Prop where
  le : n ≤ n'
  nodup : (namesNodes ns').Nodup
  names : ∀ x : Nat, x ∈ namesNodes ns' → n ≤ x ∧ x < n'
  old : ∀ o, o ∉ ns.outs → m' o = m o
  new : ∀ o ∈ ns.outs, ∃ x ∈ ns'.outs, m' o = some x
  wf : ∀ B : List Out, (∀ o ∈ A, ∀ x, m o = some x → x ∈ B) → wfNodes B ns' = true
  eval : ∀ {V : Type} (sem : Sem V) (E F : Env V), Rel m A n E F → ∀ o ∈ A ++ ns.outs, ∀ x : Nat, m' o = some x →
    x < n' ∧ evalNodes sem ns' F x = evalNodes sem ns E o

structure NodeCopy (A : List Out) (x : Node) (m : SMap) (n : Nat) (x' : Node) (m' : SMap) (n' : Nat) : Prop where
  le : n ≤ n'
  nodup : (namesNode x').Nodup
  names : ∀ z : Nat, z ∈ namesNode x' → n ≤ z ∧ z < n'
  map : m' = m.insertAll x.outs x'.outs
  len : x.outs.length = x'.outs.length
  wf : ∀ B : List Out, (∀ o ∈ A, ∀ z, m o = some z → z ∈ B) → wfNode B x' = true
  eval : ∀ {V : Type} (sem : Sem V) (E F : Env V), Rel m A n E F → nodeVals sem x' F = nodeVals sem x E

structure RegionsCopy (subs : Regions) (na nr n : Nat) (subs' : Regions) (n' : Nat) : Prop where
  le : n ≤ n'
  nodup : (namesRegions subs').Nodup
  names : ∀ z : Nat, z ∈ namesRegions subs' → n ≤ z ∧ z < n'
  wf : wfRegions na nr subs' = true
  eval : ∀ {V : Type} (sem : Sem V) (k : Nat) (ws : List (W V)), regionVals sem subs' k ws = regionVals sem subs k ws

theorem mem_subset {xs ys : List Out} : subset xs ys = true ↔ ∀ x ∈ xs, x ∈ ys := by simp [subset]

theorem outs_names (x : Node) : ∀ o ∈ x.outs, o ∈ namesNode x := by
  cases x <;> simp [Node.outs, namesNode] <;> intros <;> simp_all

theorem outs_namesNodes : ∀ (ns : Nodes), ∀ o ∈ ns.outs, o ∈ namesNodes ns
  | .nil => by simp [Nodes.outs]
  | .cons x ns => fun o h => by
    simp only [Nodes.outs, namesNodes, List.mem_append] at h ⊢
    exact h.imp (outs_names x o) (outs_namesNodes ns o)

theorem nodup_outs {x : Node} (h : (namesNode x).Nodup) : x.outs.Nodup := by
  cases x <;> simp only [namesNode, Node.outs] at h ⊢
  · exact h
  · exact (List.nodup_append.1 h).1
  · exact (List.nodup_append.1 (List.nodup_append.1 h).1).1
  · simp
  · exact (List.nodup_append.1 (List.nodup_append.1 (List.nodup_append.1 h).1).1).1
  · simp

theorem lookup_available {m : SMap} {os xs A B : List Out} (h : m.lookup os = some xs) (ho : ∀ o ∈ os, o ∈ A)
    (hB : ∀ o ∈ A, ∀ z, m o = some z → z ∈ B) : ∀ x ∈ xs, x ∈ B := fun x hx => by
  obtain ⟨o, h1, h2⟩ := lookup_mem h x hx
  exact hB o (ho o h1) x h2

theorem head_tail {xs : List Out} {n : Nat} (h : xs.length = n + 1) : xs.headD 0 :: xs.tail = xs := by
  cases xs with
  | nil => simp at h
  | cons a xs => rfl

mutual

theorem copyNode_spec : ∀ (x : Node) {A : List Out} {m : SMap} {n : Nat} {x' : Node} {m' : SMap} {n' : Nat},
    wfNode A x = true → (namesNode x).Nodup → (∀ o ∈ A, o ∉ namesNode x) → copyNode x m n = some (x', m', n') →
    NodeCopy A x m n x' m' n'
  | .simple op ins outs, A, m, n, x', m', n', hw, hn, hA, h => by
    simp only [copyNode, Option.map_eq_some_iff, Prod.mk.injEq] at h
    obtain ⟨ins', hi, rfl, rfl, rfl⟩ := h
    simp only [wfNode, Bool.and_eq_true, mem_subset] at hw
    refine ⟨by omega, by simp [namesNode, List.nodup_range'], ?_, rfl, by simp [Node.outs], ?_, ?_⟩
    · intro z hz
      simp only [namesNode, mem_range'] at hz; exact hz
    · intro B hB
      simp only [wfNode, Bool.and_eq_true, mem_subset, lookup_length hi, List.length_range']
      exact ⟨lookup_available hi hw.1 hB, hw.2⟩
    · intro V sem E F hR
      have := lookup_map hi (F := F) (E := E) fun o ho x hx => (hR o (hw.1 o ho) x hx).2
      simp only [nodeVals, this]
  | .gamma pred ins outs subs, A, m, n, x', m', n', hw, hn, hA, h => by
    simp only [copyNode, Option.bind_eq_some_iff, Option.map_eq_some_iff, Prod.mk.injEq] at h
    obtain ⟨ins', hi, ⟨r1, r2⟩, hr, rfl, rfl, rfl⟩ := h
    simp only
    simp only [wfNode, Bool.and_eq_true, mem_subset] at hw
    rw [namesNode, List.nodup_append] at hn
    have hs := copyRegions_spec subs hw.2 hn.2.1 hr
    have hl := lookup_length hi
    have ht := head_tail hl
    have hle := hs.le
    simp only at hle
    refine ⟨by omega, ?_, ?_, rfl, by simp [Node.outs], ?_, ?_⟩
    · rw [namesNode, List.nodup_append]
      refine ⟨List.nodup_range', hs.nodup, fun a ha b hb e => ?_⟩
      have := hs.names b hb
      subst e
      simp only at this
      rw [mem_range'] at ha
      omega
    · intro z hz
      rw [namesNode, List.mem_append, mem_range'] at hz
      rcases hz with hz | hz
      · omega
      · have := hs.names z hz; simp only at this; omega
    · intro B hB
      simp only [wfNode, Bool.and_eq_true, mem_subset, List.length_range', ht]
      refine ⟨lookup_available hi hw.1 hB, ?_⟩
      have : ins'.tail.length + 1 = ins.length + 1 := by rw [List.length_tail, hl]; simp
      rw [this]; exact hs.wf
    · intro V sem E F hR
      have := lookup_map hi (F := F) (E := E) fun o ho x hx => (hR o (hw.1 o ho) x hx).2
      rw [← ht] at this
      simp only [List.map_cons, List.cons.injEq] at this
      simp only [nodeVals, this.1, this.2, hs.eval]
  | .theta ins outs args pred posts sub, A, m, n, x', m', n', hw, hn, hA, h => by
    simp only [copyNode, Option.bind_eq_some_iff, Option.map_eq_some_iff, Prod.mk.injEq] at h
    obtain ⟨ins', hi, ⟨sub', ms, ns⟩, hr, rs, hrs, rfl, rfl, rfl⟩ := h
    simp only at hrs ⊢
    simp only [wfNode, Bool.and_eq_true, mem_subset, beq_iff_eq] at hw
    obtain ⟨⟨⟨⟨⟨hins, hl1⟩, hl2⟩, hl3⟩, hwf⟩, hsub⟩ := hw
    rw [namesNode, List.nodup_append, List.nodup_append] at hn
    obtain ⟨⟨hno, hna, hoa⟩, hns, hd⟩ := hn
    have hs := copyNodes_spec sub hwf hns (fun o ho h => hd o (by simp [ho]) o h rfl) hr
    have hli := lookup_length hi
    have hlr := lookup_length hrs
    have ht := head_tail hlr
    have hle := hs.le
    have hB : ∀ o ∈ args, ∀ x, SMap.empty.insertAll args (List.range' n args.length) o = some x →
        x ∈ List.range' n args.length := fun o ho x hx => by
      rcases insertAll_cases (by simp) hx with ⟨_, k, _, h2⟩ | ⟨h2, _⟩
      · exact List.mem_of_getElem? h2
      · exact absurd ho h2
    refine ⟨by omega, ?_, ?_, rfl, by simp [Node.outs], ?_, ?_⟩
    · rw [namesNode, List.nodup_append, List.nodup_append]
      refine ⟨⟨List.nodup_range', List.nodup_range', fun a ha b hb e => ?_⟩, hs.nodup, fun a ha b hb e => ?_⟩
      · subst e
        rw [mem_range'] at ha hb; omega
      · have := hs.names b hb
        subst e
        rw [List.mem_append, mem_range', mem_range'] at ha; omega
    · intro z hz
      rw [namesNode, List.mem_append, List.mem_append, mem_range', mem_range'] at hz
      rcases hz with (hz | hz) | hz
      · omega
      · omega
      · have := hs.names z hz; omega
    · intro B hB'
      simp only [wfNode, Bool.and_eq_true, mem_subset, List.length_range', ht, beq_iff_eq, hli]
      refine ⟨⟨⟨⟨⟨lookup_available hi hins hB', hl1⟩, hl2⟩, ?_⟩, hs.wf _ hB⟩, ?_⟩
      · rw [List.length_tail, hlr]; simpa using hl3
      · intro x hx
        obtain ⟨o, h1, h2⟩ := lookup_mem hrs x hx
        rw [List.mem_append]
        by_cases ho : o ∈ sub.outs
        · obtain ⟨y, hy, e⟩ := hs.new o ho
          rw [e] at h2; cases h2; exact .inr hy
        · rw [hs.old o ho] at h2
          rcases List.mem_append.1 (hsub o h1) with h | h
          · exact .inl (hB o h x h2)
          · exact absurd h ho
    · intro V sem E F hR
      have e1 := lookup_map hi (F := F) (E := E) fun o ho x hx => (hR o (hins o ho) x hx).2
      simp only [nodeVals, e1, ht]
      congr 1
      funext ws
      have hR' : Rel (V := V) (SMap.empty.insertAll args (List.range' n args.length)) args (n + args.length)
          (upd emptyEnv args ws) (upd emptyEnv (List.range' n args.length) ws) :=
        rel_args hna List.nodup_range' (by simp) fun x hx => by rw [mem_range'] at hx; omega
      exact lookup_map hrs fun o ho x hx => (hs.eval sem _ _ hR' o (hsub o ho) x hx).2
  | .lambda .., A, m, n, x', m', n', hw, hn, hA, h => by simp [copyNode] at h
  | .phi .., A, m, n, x', m', n', hw, hn, hA, h => by simp [copyNode] at h
  | .delta .., A, m, n, x', m', n', hw, hn, hA, h => by simp [copyNode] at h

theorem copyNodes_spec : ∀ (ns : Nodes) {A : List Out} {m : SMap} {n : Nat} {ns' : Nodes} {m' : SMap} {n' : Nat},
    wfNodes A ns = true → (namesNodes ns).Nodup → (∀ o ∈ A, o ∉ namesNodes ns) →
    copyNodes ns m n = some (ns', m', n') → NodesCopy A ns m n ns' m' n'
  | .nil, A, m, n, ns', m', n', hw, hn, hA, h => by
    simp only [copyNodes, Option.some.injEq, Prod.mk.injEq] at h
    obtain ⟨rfl, rfl, rfl⟩ := h
    refine ⟨Nat.le_refl _, by simp [namesNodes], by simp [namesNodes], fun _ _ => rfl, by simp [Nodes.outs],
      fun _ _ => by simp [wfNodes], fun sem E F hR o ho x hx => ?_⟩
    simp only [evalNodes]
    exact hR o (by simpa [Nodes.outs] using ho) x hx
  | .cons y ns, A, m, n, ns', m', n', hw, hn, hA, h => by
    simp only [copyNodes, Option.bind_eq_some_iff, Option.map_eq_some_iff, Prod.mk.injEq] at h
    obtain ⟨⟨y', m1, n1⟩, hy, ⟨t', m2, n2⟩, ht, rfl, rfl, rfl⟩ := h
    simp only at ht ⊢
    simp only [wfNodes, Bool.and_eq_true] at hw
    rw [namesNodes, List.nodup_append] at hn
    obtain ⟨hn1, hn2, hn3⟩ := hn
    simp only [namesNodes, List.mem_append, not_or] at hA
    have hc := copyNode_spec y hw.1 hn1 (fun o ho => (hA o ho).1) hy
    have hs := copyNodes_spec ns hw.2 hn2 (fun o ho => by
      rcases List.mem_append.1 ho with h | h
      · exact fun h' => hn3 o (outs_names y o h) o h' rfl
      · exact (hA o h).2) ht
    have hle1 := hc.le
    have hle2 := hs.le
    have dy : ∀ o ∈ y.outs, o ∉ ns.outs := fun o ho h' =>
      hn3 o (outs_names y o ho) o (outs_namesNodes ns o h') rfl
    refine ⟨by omega, ?_, ?_, ?_, ?_, ?_, ?_⟩
    · rw [namesNodes, List.nodup_append]
      refine ⟨hc.nodup, hs.nodup, fun a ha b hb e => ?_⟩
      have h1 := hc.names a ha
      have h2 := hs.names b hb
      subst e
      omega
    · intro z hz
      rw [namesNodes, List.mem_append] at hz
      rcases hz with hz | hz
      · have h1 := hc.names z hz; omega
      · have h1 := hs.names z hz; omega
    · intro o ho
      simp only [Nodes.outs, List.mem_append, not_or] at ho
      rw [hs.old o ho.2]
      show m1 o = m o
      rw [hc.map, insertAll_notin ho.1]
    · intro o ho
      simp only [Nodes.outs, List.mem_append] at ho ⊢
      by_cases h2 : o ∈ ns.outs
      · obtain ⟨x, hx, e⟩ := hs.new o h2
        exact ⟨x, .inr hx, e⟩
      · obtain ⟨x, hx, e⟩ := insertAll_mem (m := m) hc.len (ho.resolve_right h2)
        refine ⟨x, .inl hx, ?_⟩
        rw [hs.old o h2]
        show m1 o = some x
        rw [hc.map]; exact e
    · intro B hB
      simp only [wfNodes, Bool.and_eq_true]
      refine ⟨hc.wf B hB, hs.wf _ fun o ho x hx => ?_⟩
      have hx : m1 o = some x := hx
      rw [hc.map] at hx
      rw [List.mem_append]
      rcases insertAll_cases hc.len hx with ⟨_, k, _, h2⟩ | ⟨h1, h2⟩
      · exact .inl (List.mem_of_getElem? h2)
      · exact .inr (hB o ((List.mem_append.1 ho).resolve_left h1) x h2)
    · intro V sem E F hR o ho x hx
      have hv := hc.eval sem E F hR
      have hR' : Rel m1 (y.outs ++ A) n1 (upd E y.outs (nodeVals sem y E)) (upd F y'.outs (nodeVals sem y' F)) := by
        intro o ho x hx
        rw [hc.map] at hx
        rw [hv]
        rcases insertAll_cases hc.len hx with ⟨_, k, h1, h2⟩ | ⟨h1, h2⟩
        · refine ⟨(hc.names x (outs_names y' x (List.mem_of_getElem? h2))).2, ?_⟩
          exact upd_pair (nodup_outs hn1) (nodup_outs hc.nodup) h1 h2
        · have := hR o ((List.mem_append.1 ho).resolve_left h1) x h2
          have hx' : x ∉ y'.outs := fun h' => by
            have := (hc.names x (outs_names y' x h')).1; omega
          rw [upd_notin _ _ _ _ hx', upd_notin _ _ _ _ h1]
          exact ⟨by omega, this.2⟩
      simp only [evalNodes]
      refine hs.eval sem _ _ hR' o ?_ x hx
      simp only [Nodes.outs, List.mem_append] at ho ⊢
      rcases ho with h | h | h
      · exact .inl (.inr h)
      · exact .inl (.inl h)
      · exact .inr h

theorem copyRegions_spec : ∀ (subs : Regions) {na nr n : Nat} {r : Regions × Nat},
    wfRegions na nr subs = true → (namesRegions subs).Nodup → copyRegions subs n = some r →
    RegionsCopy subs na nr n r.1 r.2
  | .nil, na, nr, n, r, hw, hn, h => by
    simp only [copyRegions, Option.some.injEq] at h
    subst h
    exact ⟨Nat.le_refl _, by simp [namesRegions], by simp [namesRegions], by simp [wfRegions], fun _ _ _ => rfl⟩
  | .cons args results sub rest, na, nr, n, r, hw, hn, h => by
    simp only [copyRegions, Option.bind_eq_some_iff, Option.map_eq_some_iff] at h
    obtain ⟨⟨sub', ms, ns⟩, hr, rs, hrs, q, hq, rfl⟩ := h
    simp only [wfRegions, Bool.and_eq_true, mem_subset, beq_iff_eq] at hw
    obtain ⟨⟨⟨⟨hl1, hl2⟩, hwf⟩, hsub⟩, hrest⟩ := hw
    rw [namesRegions, List.nodup_append, List.nodup_append] at hn
    obtain ⟨⟨hna, hns, hd1⟩, hnr, hd2⟩ := hn
    have hs := copyNodes_spec sub hwf hns (fun o ho h => hd1 o ho o h rfl) hr
    have ht := copyRegions_spec rest hrest hnr hq
    have hle1 := hs.le
    have hle2 := ht.le
    simp only at hle2
    have hB : ∀ o ∈ args, ∀ x, SMap.empty.insertAll args.tail (List.range' n args.length).tail o = some x →
        x ∈ List.range' n args.length := fun o ho x hx => by
      rcases insertAll_cases (by simp) hx with ⟨_, k, _, h2⟩ | ⟨_, h2⟩
      · exact List.mem_of_mem_tail (List.mem_of_getElem? h2)
      · simp [SMap.empty] at h2
    refine ⟨by simp only; omega, ?_, ?_, ?_, ?_⟩
    · simp only [namesRegions]
      rw [List.nodup_append, List.nodup_append]
      refine ⟨⟨List.nodup_range', hs.nodup, fun a ha b hb e => ?_⟩, ht.nodup, fun a ha b hb e => ?_⟩
      · have := hs.names b hb
        subst e
        rw [mem_range'] at ha; omega
      · have h2 := ht.names b hb
        subst e
        simp only at h2
        rw [List.mem_append, mem_range'] at ha
        rcases ha with ha | ha
        · omega
        · have := hs.names a ha; omega
    · intro z hz
      simp only [namesRegions, List.mem_append, mem_range'] at hz ⊢
      rcases hz with (hz | hz) | hz
      · omega
      · have := hs.names z hz; omega
      · have := ht.names z hz; simp only at this; omega
    · simp only [wfRegions, Bool.and_eq_true, mem_subset, beq_iff_eq, List.length_range', lookup_length hrs]
      refine ⟨⟨⟨⟨hl1, hl2⟩, hs.wf _ hB⟩, fun x hx => ?_⟩, ht.wf⟩
      obtain ⟨o, h1, h2⟩ := lookup_mem hrs x hx
      rw [List.mem_append]
      by_cases ho : o ∈ sub.outs
      · obtain ⟨y, hy, e⟩ := hs.new o ho
        simp only at h2
        rw [e] at h2; cases h2; exact .inr hy
      · simp only at h2
        rw [hs.old o ho] at h2
        rcases List.mem_append.1 (hsub o h1) with h | h
        · exact .inl (hB o h x h2)
        · exact absurd h ho
    · intro V sem k ws
      cases k with
      | zero =>
        simp only [regionVals]
        have hR' : Rel (V := V) (SMap.empty.insertAll args.tail (List.range' n args.length).tail) args (n + args.length)
            (upd emptyEnv args ws) (upd emptyEnv (List.range' n args.length) ws) :=
          rel_tail hna List.nodup_range' (by simp) fun x hx => by rw [mem_range'] at hx; omega
        exact lookup_map hrs fun o ho x hx => (hs.eval sem _ _ hR' o (hsub o ho) x hx).2
      | succ k => simp only [regionVals]; exact ht.eval sem k ws

end

end Jlm.Opt.Copy
