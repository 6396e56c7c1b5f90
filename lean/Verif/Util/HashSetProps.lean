import Verif.Util.HashSetSpec
/- C11: HashSet behaves as a mathematical set. -/
set_option linter.unusedSectionVars false
set_option linter.unusedSimpArgs false
namespace Jlm.Util.HashSet
variable {α : Type} [DecidableEq α]

theorem insert_spec (s : List α) (x : α) (h : s.Nodup) :
    (insert s x).1.Nodup ∧ (insert s x).1.toFinset = Insert.insert x s.toFinset ∧
    (insert s x).2 = decide (x ∉ s.toFinset) := by
  unfold insert size
  by_cases hx : x ∈ s
  · simp [hx, h, Finset.insert_eq_of_mem]
  · simp [hx, h]

theorem remove_spec (s : List α) (x : α) (h : s.Nodup) :
    (remove s x).1.Nodup ∧ (remove s x).1.toFinset = s.toFinset.erase x ∧
    (remove s x).2 = decide (x ∈ s.toFinset) := by
  unfold remove size
  refine ⟨h.filter _, ?_, ?_⟩
  · ext y; simp [and_comm]
  · by_cases hx : x ∈ s
    · have hlt : (s.filter (fun y => y ≠ x)).length < s.length := by
        rw [List.length_filter_lt_length_iff_exists]
        exact ⟨x, hx, by simp⟩
      simp only [List.mem_toFinset, hx, decide_true, bne_iff_ne]
      omega
    · have : s.filter (fun y => y ≠ x) = s := by
        rw [List.filter_eq_self]; intro a ha; simp; rintro rfl; exact hx ha
      rw [this]; simp [hx]

theorem removeWhere_eq (s : List α) (p : α → Bool) :
    removeWhere s p = (s.filter (fun x => !p x), (s.filter p).length) := by
  induction s with
  | nil => rfl
  | cons x xs ih =>
    simp only [removeWhere, ih]
    cases hp : p x <;> simp [List.filter_cons, hp]

theorem foldl_insert_spec (t s : List α) (h : s.Nodup) :
    (t.foldl (fun acc x => (insert acc x).1) s).Nodup ∧
    (t.foldl (fun acc x => (insert acc x).1) s).toFinset = s.toFinset ∪ t.toFinset := by
  induction t generalizing s with
  | nil => simp [h]
  | cons x xs ih =>
    obtain ⟨h1, h2, _⟩ := insert_spec s x h
    obtain ⟨h3, h4⟩ := ih _ h1
    refine ⟨h3, ?_⟩
    rw [List.foldl_cons, h4, h2]; ext y; simp

theorem foldl_remove_spec (t s : List α) (h : s.Nodup) :
    (t.foldl (fun acc x => (remove acc x).1) s).Nodup ∧
    (t.foldl (fun acc x => (remove acc x).1) s).toFinset = s.toFinset \ t.toFinset := by
  induction t generalizing s with
  | nil => simp [h]
  | cons x xs ih =>
    obtain ⟨h1, h2, _⟩ := remove_spec s x h
    obtain ⟨h3, h4⟩ := ih _ h1
    refine ⟨h3, ?_⟩
    rw [List.foldl_cons, h4, h2]; ext y; simp; tauto

theorem size_eq_card (s : List α) (h : s.Nodup) : size s = s.toFinset.card :=
  (List.toFinset_card_of_nodup h).symm

theorem unionWith_spec (s t : List α) (h : s.Nodup) :
    (unionWith s t).1.Nodup ∧ (unionWith s t).1.toFinset = s.toFinset ∪ t.toFinset ∧
    (unionWith s t).2 = decide (¬ t.toFinset ⊆ s.toFinset) := by
  obtain ⟨h1, h2⟩ := foldl_insert_spec t s h
  refine ⟨h1, h2, ?_⟩
  simp only [unionWith]
  rw [size_eq_card _ h, size_eq_card _ h1, h2]
  by_cases hs : t.toFinset ⊆ s.toFinset
  · simp [Finset.union_eq_left.mpr hs, hs]
  · have hlt : s.toFinset.card < (s.toFinset ∪ t.toFinset).card := by
      apply Finset.card_lt_card
      refine ⟨Finset.subset_union_left, fun hc => hs (fun y hy => hc (Finset.mem_union_right _ hy))⟩
    simp only [hs, not_false_eq_true, decide_true, bne_iff_ne]
    omega

theorem equals_spec (s t : List α) (hs : s.Nodup) (ht : t.Nodup) :
    equals s t = decide (s.toFinset = t.toFinset) := by
  unfold equals
  rw [size_eq_card _ hs, size_eq_card _ ht]
  by_cases he : s.toFinset = t.toFinset
  · have : ∀ x ∈ s, x ∈ t := by
      intro x hx
      have := (Finset.ext_iff.mp he x).mp (by simpa using hx)
      simpa using this
    simp [he, contains]; exact this
  · by_cases hc : s.toFinset.card = t.toFinset.card
    · simp only [hc, bne_self_eq_false, Bool.false_eq_true, if_false, he, decide_false]
      by_contra hall
      simp only [Bool.not_eq_false, List.all_eq_true, contains, List.contains_iff_mem] at hall
      exact he (Finset.eq_of_subset_of_card_le (fun y hy => by
        simp at hy ⊢; exact hall y hy) (by omega))
    · simp [hc, he]

theorem update_set (σ : Store α) (i : Nat) (v : List α) :
    (fun j => (σ.set i v j).toFinset) = Function.update (fun j => (σ j).toFinset) i v.toFinset := by
  funext j
  unfold Store.set Function.update
  by_cases h : j = i <;> simp [h]

theorem nodup_set {σ : Store α} {i : Nat} {v : List α} (h : ∀ j, (σ j).Nodup) (hv : v.Nodup) :
    ∀ j, (σ.set i v j).Nodup := by
  intro j; unfold Store.set; split
  · exact hv
  · exact h j

/-- One operation on the model does what it does to mathematical sets. -/
theorem step_refines (σ : Store α) (h : ∀ i, (σ i).Nodup) (op : Op α) :
    (∀ i, ((step σ op).1 i).Nodup) ∧
    (fun i => ((step σ op).1 i).toFinset) = specStore (fun i => (σ i).toFinset) op ∧
    specOut (fun i => (σ i).toFinset) op (step σ op).2 := by
  cases op with
  | insert s x =>
    obtain ⟨h1, h2, h3⟩ := insert_spec (σ s) x (h s)
    exact ⟨nodup_set h h1, by simp only [step, update_set, specStore, h2], by simp [step, specOut, h3]⟩
  | remove s x =>
    obtain ⟨h1, h2, h3⟩ := remove_spec (σ s) x (h s)
    exact ⟨nodup_set h h1, by simp only [step, update_set, specStore, h2], by simp [step, specOut, h3]⟩
  | removeWhere s p =>
    refine ⟨nodup_set h (by rw [removeWhere_eq]; exact (h s).filter _), ?_, ?_⟩
    · simp only [step, update_set, specStore, removeWhere_eq]
      congr 1; ext y; simp
    · simp only [step, specOut, removeWhere_eq, Out.num.injEq]
      rw [← List.toFinset_card_of_nodup ((h s).filter _)]
      congr 1; ext y; simp
  | clear s =>
    exact ⟨nodup_set h (by simp), by simp only [step, update_set, specStore, List.toFinset_nil], rfl⟩
  | unionWith s t =>
    obtain ⟨h1, h2, h3⟩ := unionWith_spec (σ s) (σ t) (h s)
    exact ⟨nodup_set h h1, by simp only [step, update_set, specStore, h2], by simp [step, specOut, h3]⟩
  | unionWithAndClear s t =>
    have key : (unionWithAndClear (σ s) (σ t)).1.Nodup ∧
        (unionWithAndClear (σ s) (σ t)).1.toFinset = (σ s).toFinset ∪ (σ t).toFinset ∧
        (unionWithAndClear (σ s) (σ t)).2.1 = [] := by
      unfold unionWithAndClear
      by_cases hsz : size (σ s) < size (σ t)
      · rw [if_pos hsz]
        obtain ⟨h1, h2, _⟩ := unionWith_spec (σ t) (σ s) (h t)
        exact ⟨h1, by rw [h2, Finset.union_comm], rfl⟩
      · rw [if_neg hsz]
        obtain ⟨h1, h2, _⟩ := unionWith_spec (σ s) (σ t) (h s)
        exact ⟨h1, h2, rfl⟩
    refine ⟨nodup_set (nodup_set h key.1) (by rw [key.2.2]; simp), ?_, trivial⟩
    simp only [step, update_set, specStore, key.2.1, key.2.2, List.toFinset_nil]
  | intersectWith s t =>
    have key : (intersectWith (σ s) (σ t)).Nodup ∧
        (intersectWith (σ s) (σ t)).toFinset = (σ s).toFinset ∩ (σ t).toFinset := by
      rw [intersectWith, removeWhere_eq]
      refine ⟨(h s).filter _, ?_⟩
      ext y; simp [contains]
    exact ⟨nodup_set h key.1, by simp only [step, update_set, specStore, key.2], rfl⟩
  | intersectWithAndClear s t =>
    have gen : ∀ a b : List α, a.Nodup → (intersectWith a b).Nodup ∧
        (intersectWith a b).toFinset = a.toFinset ∩ b.toFinset := by
      intro a b ha
      rw [intersectWith, removeWhere_eq]
      refine ⟨ha.filter _, ?_⟩
      ext y; simp [contains]
    have key : (intersectWithAndClear (σ s) (σ t)).1.Nodup ∧
        (intersectWithAndClear (σ s) (σ t)).1.toFinset = (σ s).toFinset ∩ (σ t).toFinset ∧
        (intersectWithAndClear (σ s) (σ t)).2 = [] := by
      unfold intersectWithAndClear
      by_cases hsz : size (σ s) > size (σ t)
      · rw [if_pos hsz]
        obtain ⟨h1, h2⟩ := gen (σ t) (σ s) (h t)
        exact ⟨h1, by rw [h2, Finset.inter_comm], rfl⟩
      · rw [if_neg hsz]
        obtain ⟨h1, h2⟩ := gen (σ s) (σ t) (h s)
        exact ⟨h1, h2, rfl⟩
    refine ⟨nodup_set (nodup_set h key.1) (by rw [key.2.2]; simp), ?_, rfl⟩
    simp only [step, update_set, specStore, key.2.1, key.2.2, List.toFinset_nil]
  | differenceWith s t =>
    have key : (differenceWith (σ s) (σ t)).Nodup ∧
        (differenceWith (σ s) (σ t)).toFinset = (σ s).toFinset \ (σ t).toFinset := by
      unfold differenceWith
      split
      · rw [removeWhere_eq]
        refine ⟨(h s).filter _, ?_⟩
        ext y; simp [contains]
      · exact foldl_remove_spec (σ t) (σ s) (h s)
    exact ⟨nodup_set h key.1, by simp only [step, update_set, specStore, key.2], rfl⟩
  | contains s x =>
    refine ⟨h, rfl, ?_⟩
    simp [step, specOut, contains]
  | size s =>
    refine ⟨h, rfl, ?_⟩
    simp [step, specOut, size_eq_card _ (h s)]
  | isEmpty s =>
    refine ⟨h, rfl, ?_⟩
    have gen : ∀ l : List α, isEmpty l = decide (l.toFinset = ∅) := by
      intro l; cases l <;> simp [isEmpty, size]
    simp only [step, specOut, gen]
  | equals s t =>
    refine ⟨h, rfl, ?_⟩
    simp [step, specOut, equals_spec _ _ (h s) (h t)]

theorem run_refines (σ : Store α) (h : ∀ i, (σ i).Nodup) (ops : List (Op α)) :
    (∀ i, ((run σ ops).1 i).Nodup) ∧
    SpecRun (fun i => (σ i).toFinset) ops (run σ ops).2 (fun i => ((run σ ops).1 i).toFinset) := by
  induction ops generalizing σ with
  | nil => exact ⟨h, rfl⟩
  | cons op ops ih =>
    obtain ⟨h1, h2, h3⟩ := step_refines σ h op
    obtain ⟨h4, h5⟩ := ih _ h1
    refine ⟨h4, h3, ?_⟩
    rw [← h2]; exact h5

/-- **C11** (all histories). Whatever operations a program performs on any number of HashSet objects
(also with both operands the same object), every object holds exactly the elements of the
corresponding mathematical finite set, without duplicates, and every returned value is the one
mathematical sets give. Missing (hence `_partial`): the results of `IsSubsetOf` and
`UnionWithAndClear`, which the two theorems below show to be wrong in the code. -/
theorem C11_refinement_partial (ops : List (Op α)) :
    (∀ i, ((run init ops).1 i).Nodup) ∧
    SpecRun (fun _ => (∅ : Finset α)) ops (run init ops).2
      (fun i => ((run init ops).1 i).toFinset) := by
  have := run_refines (init : Store α) (fun _ => List.nodup_nil) ops
  simpa [init] using this

/-- What `IsSubsetOf` really decides. -/
theorem C11_isSubsetOf_is_size_comparison (s t : List α) (hs : s.Nodup) (ht : t.Nodup) :
    isSubsetOf s t = decide (s.toFinset.card ≤ t.toFinset.card) := by
  unfold isSubsetOf
  rw [size_eq_card _ hs, size_eq_card _ ht]
  by_cases h : s.toFinset.card ≤ t.toFinset.card
  · have : ¬ s.toFinset.card > t.toFinset.card := by omega
    simp [h, contains]
  · have : s.toFinset.card > t.toFinset.card := by omega
    rw [if_pos this]; simp only [h, decide_false]

/-- `IsSubsetOf` never misses an inclusion ... -/
theorem C11_isSubsetOf_complete (s t : List α) (hs : s.Nodup) (ht : t.Nodup)
    (h : s.toFinset ⊆ t.toFinset) : isSubsetOf s t = true := by
  rw [C11_isSubsetOf_is_size_comparison s t hs ht]
  simpa using Finset.card_le_card h

/-- ... but the code violates its contract: {1} is reported to be a subset of {2}. -/
theorem C11_isSubsetOf_wrong : ∃ s t : List Nat, s.Nodup ∧ t.Nodup ∧
    isSubsetOf s t = true ∧ ¬ s.toFinset ⊆ t.toFinset :=
  ⟨[1], [2], by decide, by decide, by decide, by decide⟩

/-- What `UnionWithAndClear` really returns. -/
theorem C11_unionWithAndClear_result (s t : List α) (hs : s.Nodup) (ht : t.Nodup) :
    (unionWithAndClear s t).2.2 =
      if s.toFinset.card < t.toFinset.card then decide (¬ s.toFinset ⊆ t.toFinset)
      else decide (¬ t.toFinset ⊆ s.toFinset) := by
  unfold unionWithAndClear
  rw [size_eq_card _ hs, size_eq_card _ ht]
  by_cases hsz : s.toFinset.card < t.toFinset.card
  · rw [if_pos hsz, if_pos hsz]
    exact (unionWith_spec t s ht).2.2
  · rw [if_neg hsz, if_neg hsz]
    exact (unionWith_spec s t hs).2.2

/-- Its documented result ("true if elements were added to this HashSet") is violated: adding
{1, 2} to the empty set reports that nothing was added. -/
theorem C11_unionWithAndClear_result_wrong : ∃ s t : List Nat, s.Nodup ∧ t.Nodup ∧
    (unionWithAndClear s t).2.2 = false ∧ (unionWithAndClear s t).1.toFinset ≠ s.toFinset :=
  ⟨[], [1, 2], by decide, by decide, by decide, by decide⟩

-- non-vacuity: a history that exercises both branches of DifferenceWith and an alias
example : (run (init : Store Nat) [.insert 0 1, .insert 0 2, .insert 1 2, .differenceWith 0 1,
    .insert 1 3, .differenceWith 0 1, .unionWithAndClear 0 1, .equals 0 1, .size 0,
    .intersectWithAndClear 0 0, .isEmpty 0]).2 =
  [.bool true, .bool true, .bool true, .unit, .bool true, .unit, .bool true, .bool false, .num 3,
   .unit, .bool true] := by decide

end Jlm.Util.HashSet
