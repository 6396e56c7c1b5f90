import Verif.Mem.LcsSpec

/-! # C57: load chain separation keeps the order of writes -/

set_option linter.unusedSimpArgs false
set_option linter.unusedVariables false

namespace Jlm.Mem.Lcs

/-! ## Lists of trees -/

theorem mem_accessess (a : Access) : ∀ ts : List T, a ∈ accessess ts ↔ ∃ t ∈ ts, a ∈ accesses t
  | [] => by simp [accessess]
  | t :: ts => by simp [accessess, mem_accessess a ts]

theorem mem_ordereds (p : Access × Access) : ∀ ts : List T, p ∈ ordereds ts ↔ ∃ t ∈ ts, p ∈ ordered t
  | [] => by simp [ordereds]
  | t :: ts => by simp [ordereds, mem_ordereds p ts]

theorem hasMods_eq : ∀ ts : List T, hasMods ts = ts.any hasMod
  | [] => rfl
  | t :: ts => by simp [hasMods, hasMods_eq ts]

theorem writess_eq : ∀ ts : List T, writess ts = ts.any writes
  | [] => rfl
  | t :: ts => by simp [writess, writess_eq ts]

/-! ## Reference links -/

/-- The node of a link, and whether it writes. -/
def Ref.acc : Ref → Access
  | .load n => (n, false)
  | .theta n b => (n, writes b)

theorem accesses_over (r : Ref) (t : T) : accesses (r.over t) = r.acc :: accesses t := by cases r <;> simp [Ref.over, accesses, Ref.acc]

theorem ordered_over (r : Ref) (t : T) : ordered (r.over t) = (accesses t).map (·, r.acc) ++ ordered t := by
  cases r <;> simp [Ref.over, ordered, Ref.acc]

/-- The links on top of each other, as they are before the transformation. -/
def stack (base : T) : List Ref → T
  | [] => base
  | r :: rs => r.over (stack base rs)

theorem stack_append (base : T) (r : Ref) : ∀ rs : List Ref, stack base (rs ++ [r]) = stack (r.over base) rs
  | [] => rfl
  | r' :: rs => by simp [stack, stack_append base r rs]

theorem mem_accesses_stack (base : T) (a : Access) : ∀ rs : List Ref, a ∈ accesses (stack base rs) ↔ a ∈ accesses base ∨ ∃ r ∈ rs, a = r.acc
  | [] => by simp [stack]
  | r :: rs => by
    simp only [stack, accesses_over, List.mem_cons, mem_accesses_stack base a rs]
    constructor
    · rintro (h | h | ⟨r', h1, h2⟩)
      · exact .inr ⟨r, .inl rfl, h⟩
      · exact .inl h
      · exact .inr ⟨r', .inr h1, h2⟩
    · rintro (h | ⟨r', h1 | h1, h2⟩)
      · exact .inr (.inl h)
      · subst h1; exact .inl h2
      · exact .inr (.inr ⟨r', h1, h2⟩)

theorem mem_accesses_flush (base : T) (a : Access) (rs : List Ref) : a ∈ accesses (flush base rs) ↔ a ∈ accesses base ∨ ∃ r ∈ rs, a = r.acc := by
  match rs with
  | [] => simp [flush]
  | [r] => simp [flush, accesses_over, or_comm]
  | r :: r' :: rs =>
    simp only [flush, accesses, mem_accessess, List.mem_map]
    constructor
    · rintro ⟨_, ⟨q, hq, rfl⟩, h⟩
      rw [accesses_over, List.mem_cons] at h
      rcases h with h | h
      · exact .inr ⟨q, hq, h⟩
      · exact .inl h
    · rintro (h | ⟨q, hq, h⟩)
      · exact ⟨_, ⟨r, by simp, rfl⟩, by rw [accesses_over]; exact List.mem_cons_of_mem _ h⟩
      · exact ⟨_, ⟨q, hq, rfl⟩, by rw [accesses_over, h]; exact List.mem_cons_self⟩

theorem mem_ordered_flush (base : T) (p : Access × Access) (rs : List Ref) :
    p ∈ ordered (flush base rs) ↔ p ∈ ordered base ∨ (p.1 ∈ accesses base ∧ ∃ r ∈ rs, p.2 = r.acc) := by
  have one : ∀ r : Ref, p ∈ ordered (r.over base) ↔ p ∈ ordered base ∨ (p.1 ∈ accesses base ∧ p.2 = r.acc) := by
    intro r
    obtain ⟨x, y⟩ := p
    simp only [ordered_over, List.mem_append, List.mem_map, Prod.mk.injEq]
    constructor
    · rintro (⟨a, h, rfl, rfl⟩ | h)
      · exact .inr ⟨h, rfl⟩
      · exact .inl h
    · rintro (h | ⟨h1, h2⟩)
      · exact .inr h
      · exact .inl ⟨x, h1, rfl, h2.symm⟩
  match rs with
  | [] => simp [flush]
  | [r] => simp [flush, one]
  | r :: r' :: rs =>
    simp only [flush, ordered, mem_ordereds, List.mem_map]
    constructor
    · rintro ⟨_, ⟨q, hq, rfl⟩, h⟩
      rcases (one q).1 h with h | ⟨h1, h2⟩
      · exact .inl h
      · exact .inr ⟨h1, q, hq, h2⟩
    · rintro (h | ⟨h1, q, hq, h2⟩)
      · exact ⟨_, ⟨r, by simp, rfl⟩, (one r).2 (.inl h)⟩
      · exact ⟨_, ⟨q, hq, rfl⟩, (one q).2 (.inr ⟨h1, h2⟩)⟩

/-- Before the transformation: the same, and the links are ordered among themselves. -/
theorem mem_ordered_stack (base : T) (p : Access × Access) : ∀ rs : List Ref, p ∈ ordered (stack base rs) →
    p ∈ ordered base ∨ (p.1 ∈ accesses base ∧ ∃ r ∈ rs, p.2 = r.acc) ∨ ((∃ r ∈ rs, p.1 = r.acc) ∧ ∃ r ∈ rs, p.2 = r.acc)
  | [], h => .inl h
  | r :: rs, h => by
    simp only [stack, ordered_over, List.mem_append, List.mem_map] at h
    rcases h with ⟨a, h1, rfl⟩ | h
    · rcases (mem_accesses_stack base a rs).1 h1 with h2 | ⟨q, hq, h2⟩
      · exact .inr (.inl ⟨h2, r, by simp, rfl⟩)
      · exact .inr (.inr ⟨⟨q, by simp [hq], h2⟩, r, by simp, rfl⟩)
    · rcases mem_ordered_stack base p rs h with h | ⟨h1, q, hq, h2⟩ | ⟨⟨q, hq, h1⟩, q', hq', h2⟩
      · exact .inl h
      · exact .inr (.inl ⟨h1, q, by simp [hq], h2⟩)
      · exact .inr (.inr ⟨⟨q, by simp [hq], h1⟩, q', by simp [hq'], h2⟩)

theorem ordered_stack_base (base : T) (p : Access × Access) : ∀ rs : List Ref, p ∈ ordered base → p ∈ ordered (stack base rs)
  | [], h => h
  | r :: rs, h => by simp only [stack, ordered_over, List.mem_append]; exact .inr (ordered_stack_base base p rs h)

theorem ordered_stack_link (base : T) (a : Access) (ha : a ∈ accesses base) : ∀ (rs : List Ref) (r : Ref), r ∈ rs → (a, r.acc) ∈ ordered (stack base rs)
  | [], r, h => by simp at h
  | r' :: rs, r, h => by
    simp only [stack, ordered_over, List.mem_append, List.mem_map]
    rcases List.mem_cons.1 h with rfl | h
    · exact .inl ⟨a, (mem_accesses_stack base a rs).2 (.inl ha), rfl⟩
    · exact .inr (ordered_stack_link base a ha rs r h)

/-! ## What stays the same -/

theorem hasMod_over (r : Ref) (t : T) : hasMod (r.over t) = ((match r with | .load _ => false | .theta _ b => hasMod b) || hasMod t) := by
  cases r <;> simp [Ref.over, hasMod]

theorem writes_over (r : Ref) (t : T) : writes (r.over t) = (r.acc.2 || writes t) := by
  cases r <;> simp [Ref.over, writes, Ref.acc]

theorem writes_flush (base : T) (rs : List Ref) : writes (flush base rs) = (rs.any (·.acc.2) || writes base) := by
  match rs with
  | [] => simp [flush]
  | [r] => simp [flush, writes_over]
  | r :: r' :: rs =>
    simp only [flush, writes, writess_eq, List.any_map]
    have : ∀ qs : List Ref, qs ≠ [] → qs.any (writes ∘ fun x => x.over base) = (qs.any (·.acc.2) || writes base) := by
      intro qs
      induction qs with
      | nil => intro h; exact absurd rfl h
      | cons q qs ih =>
        intro _
        cases qs with
        | nil => simp [writes_over]
        | cons q' qs =>
          rw [List.any_cons, ih (by simp)]
          simp only [Function.comp, writes_over, List.any_cons]
          cases q.acc.2 <;> cases q'.acc.2 <;> cases writes base <;> simp
    exact this _ (by simp)

theorem writes_stack (base : T) : ∀ rs : List Ref, writes (stack base rs) = (rs.any (·.acc.2) || writes base)
  | [] => by simp [stack]
  | r :: rs => by simp [stack, writes_over, writes_stack base rs, Bool.or_assoc]

mutual

/-- The transformation does not change whether anything is written. -/
theorem writes_sepFrom : ∀ (t : T) (rs : List Ref), writes (sepFrom rs t) = (rs.any (·.acc.2) || writes t)
  | .arg, rs => by simp [sepFrom, writes_flush]
  | .alloc n, rs => by simp [sepFrom, writes_flush, writes]
  | .load n t, rs => by simp [sepFrom, writes_sepFrom t, writes, Ref.acc]
  | .store n t, rs => by simp [sepFrom, writes_flush, writes]
  | .theta n b t, rs => by
    simp only [sepFrom]
    have hb := writes_sepFrom b []
    have ht := writes_sepFrom t []
    simp only [List.any_nil, Bool.false_or] at hb ht
    split
    · simp [writes_flush, writes, hb, ht]
    · rw [writes_sepFrom t]
      simp [Ref.acc, writes, hb, Bool.or_assoc]
  | .gamma n bs ts, rs => by simp [sepFrom, writes_flush, writes]
  | .call n ts, rs => by simp [sepFrom, writes_flush, writes]
  | .merge ts, rs => by simp [sepFrom, writes_flush, writes, writess_seps ts]

theorem writess_seps : ∀ ts : List T, writess (seps ts) = writess ts
  | [] => rfl
  | t :: ts => by
    have := writes_sepFrom t []
    simp only [List.any_nil, Bool.false_or] at this
    simp [seps, writess, this, writess_seps ts]

end

theorem writes_sep (t : T) : writes (sep t) = writes t := by simpa [sep] using writes_sepFrom t []

theorem acc_theta_sep (n : Nat) (b : T) : (Ref.theta n (sepFrom [] b)).acc = (n, writes b) := by
  simp only [Ref.acc]
  rw [show sepFrom [] b = sep b from rfl, writes_sep]

mutual

theorem accesses_sepFrom (a : Access) : ∀ (t : T) (rs : List Ref), a ∈ accesses (sepFrom rs t) ↔ a ∈ accesses t ∨ ∃ r ∈ rs, a = r.acc
  | .arg, rs => by simp [sepFrom, mem_accesses_flush]
  | .alloc n, rs => by simp [sepFrom, mem_accesses_flush, accesses]
  | .load n t, rs => by
    simp only [sepFrom, accesses_sepFrom a t, accesses, List.mem_cons, List.mem_append, List.not_mem_nil, or_false]
    constructor
    · rintro (h | ⟨r, h | h, h2⟩)
      · exact .inl (.inr h)
      · exact .inr ⟨r, h, h2⟩
      · subst h; exact .inl (.inl h2)
    · rintro ((h | h) | ⟨r, h, h2⟩)
      · exact .inr ⟨_, .inr rfl, h⟩
      · exact .inl h
      · exact .inr ⟨r, .inl h, h2⟩
  | .store n t, rs => by
    have ht := accesses_sepFrom a t []
    simp only [List.not_mem_nil, false_and, exists_false, or_false] at ht
    simp [sepFrom, mem_accesses_flush, accesses, ht]
  | .theta n b t, rs => by
    simp only [sepFrom]
    have ht := accesses_sepFrom a t []
    simp only [List.not_mem_nil, false_and, exists_false, or_false] at ht
    have hb : writes (sepFrom [] b) = writes b := writes_sep b
    split
    · simp [mem_accesses_flush, accesses, ht, hb]
    · rw [accesses_sepFrom a t]
      simp only [accesses, List.mem_cons, List.mem_append, List.not_mem_nil, or_false]
      constructor
      · rintro (h | ⟨r, h | h, h2⟩)
        · exact .inl (.inr h)
        · exact .inr ⟨r, h, h2⟩
        · subst h; rw [acc_theta_sep] at h2; exact .inl (.inl h2)
      · rintro ((h | h) | ⟨r, h, h2⟩)
        · exact .inr ⟨_, .inr rfl, by rw [acc_theta_sep]; exact h⟩
        · exact .inl h
        · exact .inr ⟨r, .inl h, h2⟩
  | .gamma n bs ts, rs => by simp [sepFrom, mem_accesses_flush, accesses, accessess_seps a ts]
  | .call n ts, rs => by simp [sepFrom, mem_accesses_flush, accesses, accessess_seps a ts]
  | .merge ts, rs => by simp [sepFrom, mem_accesses_flush, accesses, accessess_seps a ts]

theorem accessess_seps (a : Access) : ∀ ts : List T, a ∈ accessess (seps ts) ↔ a ∈ accessess ts
  | [] => by simp [seps, accessess]
  | t :: ts => by
    have ht := accesses_sepFrom a t []
    simp only [List.not_mem_nil, false_and, exists_false, or_false] at ht
    simp [seps, accessess, ht, accessess_seps a ts]

end

/-! ## The order of nodes -/

/-- The original of a link. -/
theorem pair_map {p : Access × Access} {as : List Access} {b : Access} : p ∈ as.map (·, b) ↔ p.1 ∈ as ∧ p.2 = b := by
  obtain ⟨x, y⟩ := p
  simp only [List.mem_map, Prod.mk.injEq]
  constructor
  · rintro ⟨a, h, rfl, rfl⟩; exact ⟨h, rfl⟩
  · rintro ⟨h1, h2⟩; exact ⟨x, h1, rfl, h2.symm⟩

mutual

theorem keep_sepFrom (p : Access × Access) (hw : p.1.2 = true ∨ p.2.2 = true) : ∀ (t : T) (rs : List Ref), loopsOk t → (∀ r ∈ rs, r.acc.2 = false) →
    (p ∈ ordered t ∨ (p.1 ∈ accesses t ∧ ∃ r ∈ rs, p.2 = r.acc)) → p ∈ ordered (sepFrom rs t)
  | .arg, rs, _, _, h => by simpa [sepFrom, mem_ordered_flush] using h
  | .alloc n, rs, _, _, h => by simpa [sepFrom, mem_ordered_flush] using h
  | .load n t, rs, ho, hr, h => by
    simp only [sepFrom]
    refine keep_sepFrom p hw t _ ho ?_ ?_
    · intro r h
      rcases List.mem_append.1 h with h | h
      · exact hr r h
      · simp only [List.mem_cons, List.not_mem_nil, or_false] at h; subst h; rfl
    · simp only [ordered, accesses, List.mem_append, pair_map, List.mem_cons] at h
      rcases h with (⟨h1, h2⟩ | h) | ⟨h1 | h1, r, h2, h3⟩
      · exact .inr ⟨h1, .load n, by simp, h2⟩
      · exact .inl h
      · have := hr r h2; rw [← h3] at this; rw [h1] at hw; simp [this] at hw
      · exact .inr ⟨h1, r, by simp [h2], h3⟩
  | .store n t, rs, ho, hr, h => by
    have hk : p ∈ ordered t → p ∈ ordered (sepFrom [] t) := fun h => keep_sepFrom p hw t [] ho (by simp) (.inl h)
    have ha := accesses_sepFrom p.1 t []
    simp only [List.not_mem_nil, false_and, exists_false, or_false] at ha
    simp only [sepFrom, mem_ordered_flush, ordered, accesses, List.mem_append, pair_map, List.mem_cons, ha] at h ⊢
    rcases h with (h | h) | h
    · exact .inl (.inl h)
    · exact .inl (.inr (hk h))
    · exact .inr h
  | .theta n b t, rs, ho, hr, h => by
    have hk : p ∈ ordered t → p ∈ ordered (sepFrom [] t) := fun h => keep_sepFrom p hw t [] ho.2.2 (by simp) (.inl h)
    have ha := accesses_sepFrom p.1 t []
    simp only [List.not_mem_nil, false_and, exists_false, or_false] at ha
    have hb : writes (sepFrom [] b) = writes b := writes_sep b
    simp only [sepFrom]
    by_cases hm : hasMod b = true
    · rw [if_pos hm]
      simp only [mem_ordered_flush, ordered, accesses, List.mem_append, pair_map, List.mem_cons, ha, hb] at h ⊢
      rcases h with (h | h) | h
      · exact .inl (.inl h)
      · exact .inl (.inr (hk h))
      · exact .inr h
    · rw [if_neg hm]
      have hwb : writes b = false := ho.1 (by simpa using hm)
      refine keep_sepFrom p hw t _ ho.2.2 ?_ ?_
      · intro r h
        rcases List.mem_append.1 h with h | h
        · exact hr r h
        · simp only [List.mem_cons, List.not_mem_nil, or_false] at h; subst h; rw [acc_theta_sep]; exact hwb
      · simp only [ordered, accesses, List.mem_append, pair_map, List.mem_cons] at h
        rcases h with (⟨h1, h2⟩ | h) | ⟨h1 | h1, r, h2, h3⟩
        · exact .inr ⟨h1, .theta n (sepFrom [] b), by simp, by rw [acc_theta_sep]; exact h2⟩
        · exact .inl h
        · have := hr r h2; rw [← h3] at this; rw [h1] at hw; simp [this, hwb] at hw
        · exact .inr ⟨h1, r, by simp [h2], h3⟩
  | .gamma n bs ts, rs, ho, hr, h => by
    have ha := accessess_seps p.1 ts
    simp only [sepFrom, mem_ordered_flush, ordered, accesses, List.mem_append, pair_map, List.mem_cons, ha] at h ⊢
    rcases h with (h | h) | h
    · exact .inl (.inl h)
    · exact .inl (.inr (keeps p hw ts ho.2 h))
    · exact .inr h
  | .call n ts, rs, ho, hr, h => by
    have ha := accessess_seps p.1 ts
    simp only [sepFrom, mem_ordered_flush, ordered, accesses, List.mem_append, pair_map, List.mem_cons, ha] at h ⊢
    rcases h with (h | h) | h
    · exact .inl (.inl h)
    · exact .inl (.inr (keeps p hw ts ho h))
    · exact .inr h
  | .merge ts, rs, ho, hr, h => by
    have ha := accessess_seps p.1 ts
    simp only [sepFrom, mem_ordered_flush, ordered, accesses, ha] at h ⊢
    rcases h with h | h
    · exact .inl (keeps p hw ts ho h)
    · exact .inr h

theorem keeps (p : Access × Access) (hw : p.1.2 = true ∨ p.2.2 = true) : ∀ ts : List T, loopsOks ts → p ∈ ordereds ts → p ∈ ordereds (seps ts)
  | [], _, h => by simp [ordereds] at h
  | t :: ts, ho, h => by
    simp only [ordereds, seps, List.mem_append] at h ⊢
    rcases h with h | h
    · exact .inl (keep_sepFrom p hw t [] ho.1 (by simp) (.inl h))
    · exact .inr (keeps p hw ts ho.2 h)

end

mutual

theorem old_sepFrom (p : Access × Access) : ∀ (t : T) (rs : List Ref), p ∈ ordered (sepFrom rs t) →
    p ∈ ordered t ∨ (p.1 ∈ accesses t ∧ ∃ r ∈ rs, p.2 = r.acc)
  | .arg, rs, h => by simpa [sepFrom, mem_ordered_flush] using h
  | .alloc n, rs, h => by simpa [sepFrom, mem_ordered_flush] using h
  | .load n t, rs, h => by
    simp only [sepFrom] at h
    simp only [ordered, accesses, List.mem_append, pair_map, List.mem_cons]
    rcases old_sepFrom p t _ h with h | ⟨h1, r, h2, h3⟩
    · exact .inl (.inr h)
    · rcases List.mem_append.1 h2 with h2 | h2
      · exact .inr ⟨.inr h1, r, h2, h3⟩
      · simp only [List.mem_cons, List.not_mem_nil, or_false] at h2
        subst h2
        exact .inl (.inl ⟨h1, h3⟩)
  | .store n t, rs, h => by
    have hk : p ∈ ordered (sepFrom [] t) → p ∈ ordered t := fun h => by simpa using old_sepFrom p t [] h
    have ha := accesses_sepFrom p.1 t []
    simp only [List.not_mem_nil, false_and, exists_false, or_false] at ha
    simp only [sepFrom, mem_ordered_flush, ordered, accesses, List.mem_append, pair_map, List.mem_cons, ha] at h ⊢
    rcases h with (h | h) | h
    · exact .inl (.inl h)
    · exact .inl (.inr (hk h))
    · exact .inr h
  | .theta n b t, rs, h => by
    have hk : p ∈ ordered (sepFrom [] t) → p ∈ ordered t := fun h => by simpa using old_sepFrom p t [] h
    have ha := accesses_sepFrom p.1 t []
    simp only [List.not_mem_nil, false_and, exists_false, or_false] at ha
    have hb : writes (sepFrom [] b) = writes b := writes_sep b
    simp only [sepFrom] at h
    by_cases hm : hasMod b = true
    · rw [if_pos hm] at h
      simp only [mem_ordered_flush, ordered, accesses, List.mem_append, pair_map, List.mem_cons, ha, hb] at h ⊢
      rcases h with (h | h) | h
      · exact .inl (.inl h)
      · exact .inl (.inr (hk h))
      · exact .inr h
    · rw [if_neg hm] at h
      simp only [ordered, accesses, List.mem_append, pair_map, List.mem_cons]
      rcases old_sepFrom p t _ h with h | ⟨h1, r, h2, h3⟩
      · exact .inl (.inr h)
      · rcases List.mem_append.1 h2 with h2 | h2
        · exact .inr ⟨.inr h1, r, h2, h3⟩
        · simp only [List.mem_cons, List.not_mem_nil, or_false] at h2
          subst h2
          rw [acc_theta_sep] at h3
          exact .inl (.inl ⟨h1, h3⟩)
  | .gamma n bs ts, rs, h => by
    have ha := accessess_seps p.1 ts
    simp only [sepFrom, mem_ordered_flush, ordered, accesses, List.mem_append, pair_map, List.mem_cons, ha] at h ⊢
    rcases h with (h | h) | h
    · exact .inl (.inl h)
    · exact .inl (.inr (olds p ts h))
    · exact .inr h
  | .call n ts, rs, h => by
    have ha := accessess_seps p.1 ts
    simp only [sepFrom, mem_ordered_flush, ordered, accesses, List.mem_append, pair_map, List.mem_cons, ha] at h ⊢
    rcases h with (h | h) | h
    · exact .inl (.inl h)
    · exact .inl (.inr (olds p ts h))
    · exact .inr h
  | .merge ts, rs, h => by
    have ha := accessess_seps p.1 ts
    simp only [sepFrom, mem_ordered_flush, ordered, accesses, ha] at h ⊢
    rcases h with h | h
    · exact .inl (olds p ts h)
    · exact .inr h

theorem olds (p : Access × Access) : ∀ ts : List T, p ∈ ordereds (seps ts) → p ∈ ordereds ts
  | [], h => by simp [seps, ordereds] at h
  | t :: ts, h => by
    simp only [ordereds, seps, List.mem_append] at h ⊢
    rcases h with h | h
    · exact .inl (by simpa using old_sepFrom p t [] h)
    · exact .inr (olds p ts h)

end

/-- **C57** Pairs of nodes of which one writes are ordered as before. Missing: loops with calls, which the code takes for loops that only
read (`C57_call_in_loop`). -/
theorem C57_order_partial (t : T) (ho : loopsOk t) (a b : Access) (hw : a.2 = true ∨ b.2 = true) (h : (a, b) ∈ ordered t) :
    (a, b) ∈ ordered (sep t) := keep_sepFrom (a, b) hw t [] ho (by simp) (.inl h)

/-- **C57** No new dependencies between the nodes, and no node is lost. (For all programs.) -/
theorem C57_no_new_order (t : T) (a b : Access) : ((a, b) ∈ ordered (sep t) → (a, b) ∈ ordered t) ∧ (a ∈ accesses (sep t) ↔ a ∈ accesses t) :=
  ⟨fun h => by simpa using old_sepFrom (a, b) t [] h, by simpa [sep] using accesses_sepFrom a t []⟩

/-! ## Schedules -/

variable {σ : Type}

theorem run_append (f : Nat → σ → σ) : ∀ (l m : List Nat) (s : σ), run f (l ++ m) s = run f m (run f l s)
  | [], m, s => rfl
  | n :: l, m, s => by simp [run, run_append f l m]

theorem run_swap (f : Nat → σ → σ) (a : Nat) : ∀ (p : List Nat), (∀ x ∈ p, ∀ s : σ, f a (f x s) = f x (f a s)) → ∀ s : σ, f a (run f p s) = run f p (f a s)
  | [], _, s => rfl
  | x :: p, h, s => by
    simp only [run]
    rw [run_swap f a p (fun y hy => h y (by simp [hy])), h x (by simp)]

/-- Two orders of the same nodes in which only nodes that commute are ordered differently do the same. -/
theorem run_perm (f : Nat → σ → σ) : ∀ (l l' : List Nat), l.Perm l' → l.Nodup →
    (∀ a b : Nat, [a, b].Sublist l → [b, a].Sublist l' → ∀ s : σ, f a (f b s) = f b (f a s)) → ∀ s : σ, run f l s = run f l' s
  | [], l', hp, _, _, s => by rw [List.nil_perm.1 hp]
  | a :: l, l', hp, hn, hc, s => by
    have hmem : a ∈ l' := hp.subset (by simp)
    obtain ⟨p, q, rfl⟩ := List.append_of_mem hmem
    have hp' : l.Perm (p ++ q) := List.Perm.cons_inv (hp.trans List.perm_middle)
    have hn' := (List.nodup_cons.1 hn)
    have hcomm : ∀ x ∈ p, ∀ s : σ, f a (f x s) = f x (f a s) := by
      intro x hx
      refine hc a x ?_ ?_
      · exact List.Sublist.cons₂ a (List.singleton_sublist.2 (hp'.symm.subset (by simp [hx])))
      · obtain ⟨p1, p2, rfl⟩ := List.append_of_mem hx
        have h1 : [x].Sublist (p1 ++ x :: p2) := List.singleton_sublist.2 (by simp)
        have h2 : [a].Sublist (a :: q) := List.singleton_sublist.2 (by simp)
        exact h1.append h2
    rw [run_append]
    simp only [run]
    rw [run_swap f a p hcomm, ← run_append]
    refine run_perm f l (p ++ q) hp' hn'.2 (fun x y h1 h2 => hc x y (List.Sublist.cons a h1) ?_) (f a s)
    exact h2.trans (List.Sublist.append (List.Sublist.refl p) (List.Sublist.cons a (List.Sublist.refl q)))

theorem sublist_antisymm {a b : Nat} {l : List Nat} (hn : l.Nodup) (h1 : [a, b].Sublist l) (h2 : [b, a].Sublist l) : False := by
  induction l with
  | nil => cases h1
  | cons x l ih =>
    obtain ⟨hx, hl⟩ := List.nodup_cons.1 hn
    cases h1 with
    | cons _ h1 =>
      cases h2 with
      | cons _ h2 => exact ih hl h1 h2
      | cons_cons _ h2 => exact hx (h1.subset (by simp))
    | cons_cons _ h1 =>
      cases h2 with
      | cons _ h2 => exact hx (h2.subset (by simp))
      | cons_cons _ h2 => exact hx (h1.subset (by simp))

/-- **C57** Whatever the nodes do: every order of the nodes of a region that the transformed memory states (and the other dependencies)
allow does the same as every order that the original ones allow. Missing: loops with calls. -/
theorem C57_schedules_partial (f : Nat → σ → σ) (data : Nat → Nat → Prop) (ts : List T) (ho : loopsOks ts) (hc : Covered f data ts)
    (l l' : List Nat) (hp : l.Perm l') (h : Schedule data ts l) (h' : Schedule data (seps ts) l') (s : σ) : run f l s = run f l' s := by
  refine run_perm f l l' hp h.nodup (fun a b hab hba => ?_) s
  intro s
  by_cases heq : f a (f b s) = f b (f a s)
  · exact heq
  · exfalso
    rcases hc a b ⟨s, heq⟩ with ⟨wa, wb, hw, h1 | h1⟩ | h1 | h1
    · have := keeps _ (by simpa using hw) ts ho h1
      exact sublist_antisymm h'.nodup (h'.states _ _ this) hba
    · exact sublist_antisymm h.nodup hab (h.states _ _ h1)
    · exact sublist_antisymm h'.nodup (h'.others a b h1) hba
    · exact sublist_antisymm h.nodup hab (h.others b a h1)

/-- **C57** The order of the original program is still possible (the transformed graph is acyclic). -/
theorem C57_schedule_exists (data : Nat → Nat → Prop) (ts : List T) (l : List Nat) (h : Schedule data ts l) : Schedule data (seps ts) l :=
  ⟨h.nodup, fun a b hab => h.states a b (olds (a, b) ts hab), h.others⟩

/-! ## Programs without calls -/

mutual

theorem noCalls_mod : ∀ t : T, noCalls t → hasMod t = writes t
  | .arg, _ => rfl
  | .alloc _, _ => rfl
  | .load _ t, h => by simp [hasMod, writes, noCalls_mod t h]
  | .store _ _, _ => rfl
  | .theta _ b t, h => by simp [hasMod, writes, noCalls_mod b h.1, noCalls_mod t h.2]
  | .gamma _ _ _, _ => rfl
  | .call _ _, h => h.elim
  | .merge ts, h => by simp [hasMod, writes, noCalls_mods ts h]

theorem noCalls_mods : ∀ ts : List T, noCallss ts → hasMods ts = writess ts
  | [], _ => rfl
  | t :: ts, h => by simp [hasMods, writess, noCalls_mod t h.1, noCalls_mods ts h.2]

end

mutual

/-- Without calls in loops the loops are recognized. (Calls outside of loops do no harm, see `loopsOk`.) -/
theorem noCalls_loopsOk : ∀ t : T, noCalls t → loopsOk t
  | .arg, _ => trivial
  | .alloc _, _ => trivial
  | .load _ t, h => noCalls_loopsOk t h
  | .store _ t, h => noCalls_loopsOk t h
  | .theta _ b t, h => ⟨fun hm => by rw [← noCalls_mod b h.1]; exact hm, noCalls_loopsOk b h.1, noCalls_loopsOk t h.2⟩
  | .gamma _ bs ts, h => ⟨noCalls_loopsOks bs h.1, noCalls_loopsOks ts h.2⟩
  | .call _ _, h => h.elim
  | .merge ts, h => noCalls_loopsOks ts h

theorem noCalls_loopsOks : ∀ ts : List T, noCallss ts → loopsOks ts
  | [], _ => trivial
  | t :: ts, h => ⟨noCalls_loopsOk t h.1, noCalls_loopsOks ts h.2⟩

end

/-! ## What it is good for -/

mutual

theorem ordered_fst (p : Access × Access) : ∀ t : T, p ∈ ordered t → p.1 ∈ accesses t
  | .arg, h => by simp [ordered] at h
  | .alloc _, h => by simp [ordered] at h
  | .load n t, h => by
    simp only [ordered, accesses, List.mem_append, pair_map, List.mem_cons] at h ⊢
    exact h.elim (fun h => .inr h.1) (fun h => .inr (ordered_fst p t h))
  | .store n t, h => by
    simp only [ordered, accesses, List.mem_append, pair_map, List.mem_cons] at h ⊢
    exact h.elim (fun h => .inr h.1) (fun h => .inr (ordered_fst p t h))
  | .theta n b t, h => by
    simp only [ordered, accesses, List.mem_append, pair_map, List.mem_cons] at h ⊢
    exact h.elim (fun h => .inr h.1) (fun h => .inr (ordered_fst p t h))
  | .gamma n bs ts, h => by
    simp only [ordered, accesses, List.mem_append, pair_map, List.mem_cons] at h ⊢
    exact h.elim (fun h => .inr h.1) (fun h => .inr (ordereds_fst p ts h))
  | .call n ts, h => by
    simp only [ordered, accesses, List.mem_append, pair_map, List.mem_cons] at h ⊢
    exact h.elim (fun h => .inr h.1) (fun h => .inr (ordereds_fst p ts h))
  | .merge ts, h => by
    simp only [ordered, accesses] at h ⊢
    exact ordereds_fst p ts h

theorem ordereds_fst (p : Access × Access) : ∀ ts : List T, p ∈ ordereds ts → p.1 ∈ accessess ts
  | [], h => by simp [ordereds] at h
  | t :: ts, h => by
    simp only [ordereds, accessess, List.mem_append] at h ⊢
    exact h.elim (fun h => .inl (ordered_fst p t h)) (fun h => .inr (ordereds_fst p ts h))

end

theorem sepFrom_loads (t : T) : ∀ (ns : List Nat) (rs : List Ref), sepFrom rs (ns.foldr .load t) = sepFrom (rs ++ ns.map .load) t
  | [], rs => by simp
  | n :: ns, rs => by simp [sepFrom, sepFrom_loads t ns]

/-- **C57** Any number of loads that follow each other are independent of each other afterwards. (For all programs.) -/
theorem C57_separates (ns : List Nat) (t : T) (m n : Nat) (hm : ∀ v : Bool, (m, v) ∉ accesses t) (v w : Bool) :
    ((m, v), (n, w)) ∉ ordered (sep (ns.foldr .load t)) := by
  intro h
  rw [sep, sepFrom_loads] at h
  rcases old_sepFrom _ t _ h with h | ⟨h, _⟩
  · exact hm v (ordered_fst _ t h)
  · exact hm v h

/-! ## Examples -/

/-- `store 0; load 1; loop 2 { load 3; load 4 }; load 5; store 6; load 7; load 8` -/
def exT : T :=
  .load 8 (.load 7 (.store 6 (.load 5 (.theta 2 (.load 4 (.load 3 .arg)) (.load 1 (.store 0 .arg))))))

example : loopsOk exT ∧ noCalls exT := by
  refine ⟨?_, ?_⟩ <;> simp [exT, loopsOk, noCalls, writes]

example : sep exT = .merge [.load 8 (.store 6 (.merge [.load 5 (.store 0 .arg), .theta 2 (.merge [.load 4 .arg, .load 3 .arg]) (.store 0 .arg),
    .load 1 (.store 0 .arg)])), .load 7 (.store 6 (.merge [.load 5 (.store 0 .arg), .theta 2 (.merge [.load 4 .arg, .load 3 .arg]) (.store 0 .arg),
    .load 1 (.store 0 .arg)]))] := rfl

/-- Two loads that are ordered before and not afterwards, and a load and a store that stay ordered. -/
example : ((1, false), (5, false)) ∈ ordered exT ∧ ((1, false), (5, false)) ∉ ordered (sep exT) ∧ ((1, false), (6, true)) ∈ ordered (sep exT) ∧
    ((0, true), (1, false)) ∈ ordered (sep exT) := by decide +kernel

/-- Orders before and after. -/
example : Schedule (fun _ _ => False) [exT] [0, 1, 2, 5, 6, 7, 8] ∧ Schedule (fun _ _ => False) (seps [exT]) [0, 5, 1, 2, 6, 8, 7] ∧
    ¬ Schedule (fun _ _ => False) [exT] [0, 5, 1, 2, 6, 8, 7] := by
  have dec : ∀ (ts : List T) (l : List Nat), (l.Nodup ∧ ∀ p ∈ ordereds ts, [p.1.1, p.2.1].Sublist l) → Schedule (fun _ _ => False) ts l :=
    fun ts l h => ⟨h.1, fun a b hab => h.2 (a, b) hab, fun _ _ h => h.elim⟩
  refine ⟨dec _ _ (by decide +kernel), dec _ _ (by decide +kernel), fun h => ?_⟩
  have := h.states (1, false) (5, false) (by decide +kernel)
  revert this
  decide +kernel

/-- Memory is a number; node 0 and 6 write it, the others remember what they read. -/
def exF (n : Nat) (s : Nat × (Nat → Nat)) : Nat × (Nat → Nat) :=
  if n = 0 ∨ n = 6 then (s.1 * 3 + n + 1, s.2) else (s.1, fun m => if m = n then s.1 else s.2 m)

theorem exF_comm (a b : Nat) (ha : ¬ (a = 0 ∨ a = 6)) (hb : ¬ (b = 0 ∨ b = 6)) (s : Nat × (Nat → Nat)) : exF a (exF b s) = exF b (exF a s) := by
  simp only [exF, if_neg ha, if_neg hb]
  refine Prod.ext rfl ?_
  funext m
  dsimp only
  by_cases h1 : m = a <;> by_cases h2 : m = b <;> simp [h1, h2]

/-- The hypothesis of `C57_schedules_partial` for a program with two writes and three reads of one memory location. -/
def exU : T := .load 8 (.store 6 (.load 5 (.load 1 (.store 0 .arg))))

example : ∃ f : Nat → Nat × (Nat → Nat) → Nat × (Nat → Nat), Covered f (fun _ _ => False) [exU] ∧ f 6 (f 5 (0, fun _ => 7)) ≠ f 5 (f 6 (0, fun _ => 7)) := by
  refine ⟨fun n s => if n ∈ [0, 1, 5, 6, 8] then exF n s else s, ?_, ?_⟩
  · intro a b ⟨s, hs⟩
    left
    by_cases ha : a ∈ [0, 1, 5, 6, 8]
    · by_cases hb : b ∈ [0, 1, 5, 6, 8]
      · have key : ∀ a ∈ [0, 1, 5, 6, 8], ∀ b ∈ [0, 1, 5, 6, 8], a = b ∨ (¬ (a = 0 ∨ a = 6) ∧ ¬ (b = 0 ∨ b = 6)) ∨
            ∃ wa wb : Bool, (wa || wb) = true ∧ (((a, wa), (b, wb)) ∈ ordereds [exU] ∨ ((b, wb), (a, wa)) ∈ ordereds [exU]) := by
          decide +kernel
        rcases key a ha b hb with h | ⟨h1, h2⟩ | h
        · subst h; exact absurd rfl hs
        · simp only [if_pos ha, if_pos hb] at hs
          exact absurd (exF_comm a b h1 h2 s) hs
        · exact h
      · simp only [if_neg hb] at hs
        exact absurd rfl hs
    · simp only [if_neg ha] at hs
      exact absurd rfl hs
  · intro h
    have := congrArg (fun s => s.2 5) h
    revert this
    decide +kernel

/-- A loop that calls a function, and a load after it: `loop 0 { call 1 }; load 2`. The loop is taken for a loop that only reads, and the
load can be executed before it. -/
theorem C57_call_in_loop : ∃ t : T, ((0, true), (2, false)) ∈ ordered t ∧ ((0, true), (2, false)) ∉ ordered (sep t) ∧
    Schedule (fun _ _ => False) (seps [t]) [2, 0] ∧ ¬ Schedule (fun _ _ => False) [t] [2, 0] := by
  refine ⟨.load 2 (.theta 0 (.call 1 [.arg]) .arg), by decide +kernel, by decide +kernel, ⟨by decide, ?_, fun _ _ h => h.elim⟩, fun h => ?_⟩
  · intro a b h
    have he : ordereds (seps [.load 2 (.theta 0 (.call 1 [.arg]) .arg)]) = [] := by decide +kernel
    rw [he] at h
    simp at h
  · have := h.states (0, true) (2, false) (by decide +kernel)
    revert this
    decide +kernel

end Jlm.Mem.Lcs
