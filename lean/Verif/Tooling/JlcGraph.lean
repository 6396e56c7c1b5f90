import Verif.Tooling.JlcBfs

/-! # The command graph of `jlc`: paths, edges, distances -/

namespace Jlm.Tooling

/-! ## Object files are not source files -/

theorem takeWhile_all {α : Type} {p : α → Bool} : ∀ (l : List α) {a : α}, a ∈ l.takeWhile p → p a = true
  | [], _, h => by simp at h
  | b :: l, a, h => by
      rw [List.takeWhile_cons] at h
      split at h
      · next hb =>
        rcases List.mem_cons.1 h with rfl | h
        · exact hb
        · exact takeWhile_all l h
      · simp at h

theorem takeWhile_prefix {α : Type} {p : α → Bool} {l : List α} (h : ∀ a ∈ l, p a = true) (r : List α) :
    (l ++ r).takeWhile p = l ++ r.takeWhile p := by
  induction l with
  | nil => rfl
  | cons b l ih => simp [h b (by simp), ih (fun a ha => h a (by simp [ha]))]

theorem name_noslash (p : Path) : ∀ a ∈ name p, a ≠ '/' := by
  intro a ha
  rw [name, List.mem_reverse] at ha
  simpa using takeWhile_all _ ha

theorem base_noslash (p : Path) : ∀ a ∈ base p, a ≠ '/' :=
  fun a ha => name_noslash p a (List.takeWhile_subset _ ha)

theorem name_self {q : Path} (h : ∀ a ∈ q, a ≠ '/') : name q = q := by
  unfold name
  have := takeWhile_prefix (p := (· != '/')) (l := q.reverse) (by intro a ha; simpa using h a (by simpa using ha)) []
  simp at this
  rw [this]; simp

theorem name_slash {q : Path} (h : ∀ a ∈ q, a ≠ '/') (p : Path) : name (p ++ '/' :: q) = q := by
  unfold name
  have := takeWhile_prefix (p := (· != '/')) (l := q.reverse) (by intro a ha; simpa using h a (by simpa using ha)) ('/' :: p.reverse)
  simp at this
  simp [this]

theorem name_join {q : Path} (h : ∀ a ∈ q, a ≠ '/') (p : Path) : name (join p q) = q := by
  unfold join
  have hh : q.head? ≠ some '/' := by
    cases q with
    | nil => simp
    | cons a q => simpa using h a (by simp)
  simp only [hh, if_false]
  generalize (if p = ['.'] then ([] : Path) else p) = p'
  by_cases h1 : p' = []
  · subst h1; simp [name_self h]
  · by_cases h2 : p'.getLast? = some '/'
    · rw [if_pos (Or.inr h2)]
      obtain ⟨r, hr⟩ := List.getLast?_eq_some_iff.1 h2
      rw [hr, List.append_assoc]
      exact name_slash h r
    · rw [if_neg (by simp [h1, h2])]
      exact name_slash h p'

theorem name_toObjectFile (p : Path) : name (toObjectFile p) = base p ++ ['.', 'o'] := by
  refine name_join ?_ _
  intro a ha
  rcases List.mem_append.1 ha with ha | ha
  · exact base_noslash p a ha
  · simp at ha; rcases ha with rfl | rfl <;> decide

theorem object_toObjectFile (p : Path) : isObjectFile (toObjectFile p) = true := by
  simp [isObjectFile, suffix, name_toObjectFile]

/-! ## Edges -/

theorem mem_chains {e : Cmd × Cmd} : ∀ (cs : List Comp) (k : Nat), e ∈ chains k cs ↔ ∃ i c, cs[i]? = some c ∧ e ∈ chain (k + i) c
  | [], k => by simp [chains]
  | c :: cs, k => by
      simp only [chains, List.mem_append, mem_chains cs (k + 1)]
      constructor
      · rintro (h | ⟨i, c', h1, h2⟩)
        · exact ⟨0, c, rfl, h⟩
        · exact ⟨i + 1, c', by simpa using h1, by rw [show k + (i + 1) = k + 1 + i by omega]; exact h2⟩
      · rintro ⟨i, c', h1, h2⟩
        cases i with
        | zero => simp at h1; subst h1; exact Or.inl h2
        | succ i => exact Or.inr ⟨i, c', by simpa using h1, by rw [show k + 1 + i = k + (i + 1) by omega]; exact h2⟩

theorem mem_leaves {u : Cmd} : ∀ (cs : List Comp) (k : Nat), u ∈ leaves k cs ↔ ∃ i c, cs[i]? = some c ∧ u = leaf (k + i) c
  | [], k => by simp [leaves]
  | c :: cs, k => by
      simp only [leaves, List.mem_cons, mem_leaves cs (k + 1)]
      constructor
      · rintro (h | ⟨i, c', h1, h2⟩)
        · exact ⟨0, c, rfl, h⟩
        · exact ⟨i + 1, c', by simpa using h1, by rw [show k + (i + 1) = k + 1 + i by omega]; exact h2⟩
      · rintro ⟨i, c', h1, h2⟩
        cases i with
        | zero => simp at h1; subst h1; exact Or.inl h2
        | succ i => exact Or.inr ⟨i, c', by simpa using h1, by rw [show k + 1 + i = k + (i + 1) by omega]; exact h2⟩

/-- The edges of the command graph, by their kinds. -/
theorem mem_edges {u v : Cmd} (cs : List Comp) : (u, v) ∈ edges cs ↔
    (∃ i c, cs[i]? = some c ∧ c.source = true ∧
      ((u = .entry ∧ v = .clang i) ∨ (u = .clang i ∧ v = .opt i) ∨ (u = .opt i ∧ v = .llc i))) ∨
    (cs.any (·.link) = true ∧ ((v = .link ∧ ∃ i c, cs[i]? = some c ∧ u = leaf i c) ∨ (u = .link ∧ v = .exit))) ∨
    (cs.any (·.link) = false ∧ v = .exit ∧ ∃ i c, cs[i]? = some c ∧ u = leaf i c) := by
  have hchain : (u, v) ∈ chains 0 cs ↔ ∃ i c, cs[i]? = some c ∧ c.source = true ∧
      ((u = .entry ∧ v = .clang i) ∨ (u = .clang i ∧ v = .opt i) ∨ (u = .opt i ∧ v = .llc i)) := by
    rw [mem_chains]
    constructor
    · rintro ⟨i, c, h1, h2⟩
      refine ⟨i, c, h1, ?_⟩
      unfold chain at h2
      split at h2
      · next hs => refine ⟨hs, ?_⟩; simpa using h2
      · simp at h2
    · rintro ⟨i, c, h1, hs, h2⟩
      refine ⟨i, c, h1, ?_⟩
      unfold chain
      rw [if_pos hs]
      simpa using h2
  have hleaf : ∀ w : Cmd, (u, v) ∈ (leaves 0 cs).map (fun x => (x, w)) ↔ v = w ∧ ∃ i c, cs[i]? = some c ∧ u = leaf i c := by
    intro w
    simp only [List.mem_map, mem_leaves, Prod.mk.injEq, Nat.zero_add]
    constructor
    · rintro ⟨x, ⟨i, c, h1, h2⟩, rfl, rfl⟩; exact ⟨rfl, i, c, h1, h2⟩
    · rintro ⟨rfl, i, c, h1, h2⟩; exact ⟨u, ⟨i, c, h1, h2⟩, rfl, rfl⟩
  unfold edges
  by_cases hl : cs.any (·.link) = true
  · rw [if_pos hl]
    simp only [List.mem_append, hchain, hleaf, List.mem_singleton, Prod.mk.injEq, hl, true_and]
    constructor
    · rintro ((h | h) | h)
      · exact Or.inl h
      · exact Or.inr (Or.inl (Or.inl h))
      · exact Or.inr (Or.inl (Or.inr h))
    · rintro (h | (h | h) | h)
      · exact Or.inl (Or.inl h)
      · exact Or.inl (Or.inr h)
      · exact Or.inr h
      · exact absurd h.1 (by decide)
  · have hl' : cs.any (·.link) = false := by simpa using hl
    rw [if_neg hl]
    simp only [List.mem_append, hchain, hleaf, hl', true_and]
    constructor
    · rintro (h | h)
      · exact Or.inl h
      · exact Or.inr (Or.inr h)
    · rintro (h | h | h)
      · exact Or.inl h
      · exact absurd h.1 (by decide)
      · exact Or.inr h

/-- All commands for `n` input files. -/
def commands : Nat → List Cmd
  | 0 => [.entry, .link, .exit]
  | n + 1 => .clang n :: .opt n :: .llc n :: commands n

theorem commands_length : ∀ n, (commands n).length = 3 * n + 3
  | 0 => rfl
  | n + 1 => by simp [commands, commands_length n]; omega

theorem mem_commands (v : Cmd) : ∀ n : Nat, v ∈ commands n ↔
    v = .entry ∨ v = .link ∨ v = .exit ∨ ∃ i, i < n ∧ (v = .clang i ∨ v = .opt i ∨ v = .llc i)
  | 0 => by simp [commands]
  | n + 1 => by
      simp only [commands, List.mem_cons, mem_commands v n]
      constructor
      · rintro (h | h | h | h | h | h | ⟨i, hi, h⟩)
        · exact Or.inr (Or.inr (Or.inr ⟨n, by omega, Or.inl h⟩))
        · exact Or.inr (Or.inr (Or.inr ⟨n, by omega, Or.inr (Or.inl h)⟩))
        · exact Or.inr (Or.inr (Or.inr ⟨n, by omega, Or.inr (Or.inr h)⟩))
        · exact Or.inl h
        · exact Or.inr (Or.inl h)
        · exact Or.inr (Or.inr (Or.inl h))
        · exact Or.inr (Or.inr (Or.inr ⟨i, by omega, h⟩))
      · rintro (h | h | h | ⟨i, hi, h⟩)
        · simp [h]
        · simp [h]
        · simp [h]
        · rcases Nat.lt_succ_iff_lt_or_eq.1 hi with hi | rfl
          · exact Or.inr (Or.inr (Or.inr (Or.inr (Or.inr (Or.inr ⟨i, hi, h⟩)))))
          · rcases h with h | h | h <;> simp [h]

theorem getElem?_lt {α : Type} {l : List α} {i : Nat} {a : α} (h : l[i]? = some a) : i < l.length := by
  rcases Nat.lt_or_ge i l.length with h' | h'
  · exact h'
  · rw [List.getElem?_eq_none h'] at h; cases h

/-- The order in which the commands are run. -/
theorem order {cs : List Comp} {succ : Cmd → List Cmd} (hs : IsSucc (edges cs) succ) :
    (sortNodes succ .entry (3 * cs.length + 3)).Nodup ∧
      (∀ v, v ∈ sortNodes succ .entry (3 * cs.length + 3) ↔ ∃ n, Walk succ .entry n v) ∧
      (sortNodes succ .entry (3 * cs.length + 3)).Pairwise fun u v =>
        ∀ m, Walk succ .entry m v → ∃ n, n ≤ m ∧ Walk succ .entry n u := by
  refine C48_bfs (commands cs.length) ?_ (by simp [mem_commands]) _ (by rw [commands_length])
  intro w _ v hv
  rw [hs, mem_edges] at hv
  rw [mem_commands]
  rcases hv with ⟨i, c, h1, _, h⟩ | ⟨_, ⟨h, _⟩ | ⟨_, h⟩⟩ | ⟨_, h, _⟩
  · have := getElem?_lt h1
    rcases h with ⟨_, rfl⟩ | ⟨_, rfl⟩ | ⟨_, rfl⟩
    · exact Or.inr (Or.inr (Or.inr ⟨i, this, by simp⟩))
    · exact Or.inr (Or.inr (Or.inr ⟨i, this, by simp⟩))
    · exact Or.inr (Or.inr (Or.inr ⟨i, this, by simp⟩))
  · simp [h]
  · simp [h]
  · simp [h]

/-! ## Distances -/

/-- Commands of source files are at a fixed distance. -/
theorem walk_chain {cs : List Comp} {succ : Cmd → List Cmd} (hs : IsSucc (edges cs) succ) {n : Nat} {v : Cmd}
    (h : Walk succ .entry n v) :
    (v = .entry → n = 0) ∧ (∀ i, v = .clang i → n = 1) ∧ (∀ i, v = .opt i → n = 2) ∧ (∀ i, v = .llc i → n = 3) := by
  induction h with
  | here => simp
  | @step n u v hu hv ih =>
      rw [hs, mem_edges] at hv
      rcases hv with ⟨i, c, h1, _, h⟩ | ⟨_, ⟨h, _⟩ | ⟨_, h⟩⟩ | ⟨_, h, _⟩
      · rcases h with ⟨rfl, rfl⟩ | ⟨rfl, rfl⟩ | ⟨rfl, rfl⟩
        · simp [ih.1 rfl]
        · simp [ih.2.1 i rfl]
        · simp [ih.2.2.1 i rfl]
      · subst h; simp
      · subst h; simp
      · subst h; simp

/-- If all input files are source files, the linker and the exit node come last. -/
theorem walk_end {cs : List Comp} (hsrc : ∀ c ∈ cs, c.source = true) {succ : Cmd → List Cmd} (hs : IsSucc (edges cs) succ)
    {n : Nat} {v : Cmd} (h : Walk succ .entry n v) : (v = .link → n = 4) ∧ (v = .exit → 4 ≤ n) := by
  induction h with
  | here => simp
  | @step n u v hu hv ih =>
      rw [hs, mem_edges] at hv
      rcases hv with ⟨i, c, h1, _, h⟩ | ⟨_, ⟨h, i, c, hc, hl⟩ | ⟨h', h⟩⟩ | ⟨_, h, i, c, hc, hl⟩
      · rcases h with ⟨rfl, rfl⟩ | ⟨rfl, rfl⟩ | ⟨rfl, rfl⟩ <;> simp
      · rw [leaf, if_pos (hsrc c (List.mem_of_getElem? hc))] at hl
        have := (walk_chain hs hu).2.2.2 i hl
        subst h; simp [this]
      · have := ih.1 h'
        subst h; simp [this]
      · rw [leaf, if_pos (hsrc c (List.mem_of_getElem? hc))] at hl
        have := (walk_chain hs hu).2.2.2 i hl
        subst h; simp [this]

theorem walks {cs : List Comp} {succ : Cmd → List Cmd} (hs : IsSucc (edges cs) succ) {i : Nat} {c : Comp} (hc : cs[i]? = some c)
    (hsrc : c.source = true) :
    Walk succ .entry 1 (.clang i) ∧ Walk succ .entry 2 (.opt i) ∧ Walk succ .entry 3 (.llc i) := by
  have e : ∀ {u v : Cmd}, ((u = .entry ∧ v = .clang i) ∨ (u = .clang i ∧ v = .opt i) ∨ (u = .opt i ∧ v = .llc i)) → v ∈ succ u :=
    fun h => (hs _ _).2 ((mem_edges cs).2 (Or.inl ⟨i, c, hc, hsrc, h⟩))
  have w1 : Walk succ .entry 1 (.clang i) := Walk.here.step (e (by simp))
  have w2 : Walk succ .entry 2 (.opt i) := w1.step (e (by simp))
  exact ⟨w1, w2, w2.step (e (by simp))⟩

end Jlm.Tooling
