import Verif.Opt.SvfRun

set_option linter.unusedSimpArgs false
set_option linter.unusedVariables false

/-!
# Store value forwarding: tracing yields consistent maps
-/

namespace Jlm.Opt.Svf

/-! ## Producers -/

/-- The node of a producer. -/
def Def.id : Def → Option Nat
  | .store id _ _ _ => some id
  | .load id _ _ _ => some id
  | .join id _ => some id
  | .gamma id _ _ => some id
  | .thetaOut id _ _ => some id
  | .thetaPre id _ _ => some id
  | _ => none

mutual

/-- `def?` gives the producers of the memory states of the graph; the load that is processed has the states `qs`; gamma nodes have
as many regions as `regions` says. -/
def Node.defd (def? : Nm → Def) (q : Query) (qs : List Nm) (regions : Nat → Nat) : Node → Prop
  | .op _ _ outs => ∀ o ∈ outs, def? o = .other
  | .store id _ v t sts => ∀ s ∈ sts, def? s.2 = .store id v t s.1
  | .load id _ out t sts => def? out = .other ∧ (∀ s ∈ sts, def? s.2 = .load id out t s.1) ∧ (id = q.id → sts.map (·.1) = qs)
  | .join id ins out => def? out = .join id ins
  | .alloca _ _ a st => def? a = .other ∧ def? st = .alloca
  | .fwd _ _ _ => False
  | .gamma id _ brs exits => defdB def? q qs regions brs ∧ id ≠ q.id ∧ regions id = brs.length ∧
      ∃ inside, (∀ br ∈ brs, ∀ k ∈ ids br, k ∈ inside) ∧ (∀ x ∈ exits, def? x.1 = .gamma id x.2 inside) ∧
        ∀ s, (def? s).id = some id → ∃ x ∈ exits, def? s = .gamma id x.2 inside
  | .theta id vars body _ => defdL def? q qs regions body ∧ id ≠ q.id ∧ (∀ v ∈ vars, def? v.pre = .thetaPre id v.inp v.post) ∧
      (∀ v ∈ vars, def? v.out = .thetaOut id v.inp v.post) ∧
      ∀ s, (def? s).id = some id → ∃ v ∈ vars, def? s = .thetaPre id v.inp v.post ∨ def? s = .thetaOut id v.inp v.post

def defdL (def? : Nm → Def) (q : Query) (qs : List Nm) (regions : Nat → Nat) : List Node → Prop
  | [] => True
  | n :: ns => n.defd def? q qs regions ∧ defdL def? q qs regions ns

def defdB (def? : Nm → Def) (q : Query) (qs : List Nm) (regions : Nat → Nat) : List (List Node) → Prop
  | [] => True
  | b :: bs => defdL def? q qs regions b ∧ defdB def? q qs regions bs

end

/-- The inputs tracing visits from a state with this producer. -/
def Def.ins : Def → Cons → Nm → Prop
  | .store id _ _ i, c, s => c = .nd id ∧ s = i
  | .load id _ _ i, c, s => c = .nd id ∧ s = i
  | .join id ins, c, s => c = .nd id ∧ s ∈ ins
  | .gamma id rs _, c, s => ∃ b : Nat, c = .rg id b ∧ rs[b]? = some (.nm s)
  | .thetaOut id inp post, c, s => c = .nd id ∧ inp = .nm s ∨ c = .rg id 0 ∧ post = .nm s
  | .thetaPre id inp post, c, s => c = .nd id ∧ inp = .nm s ∨ c = .rg id 0 ∧ post = .nm s
  | _, _, _ => False

/-! ## Justified maps -/

def Maps.Has (m : Maps) (c : Cons) (s : Nm) : Prop := ∃ r, ((c, s), r) ∈ m.input

/-- The origin that the branches have in common. -/
def commonOf (own : Cons → Option (Option Origin)) (id : Nat) : Nat → List Src → Option (Option Origin) → Option (Option (Option Origin))
  | _, [], c => some c
  | b, _ :: rs, c =>
    match own (.rg id b) with
    | some (some o) => commonOf own id (b + 1) rs (observe c o)
    | _ => none

def finish (id : Nat) (inside : List Nat) : Option (Option Origin) → Origin
  | none => .uninit
  | some none => .gammaOut id
  | some (some o) => if o.node.any (inside.contains ·) then .gammaOut id else o

/-- `o` is the origin of the state `s` because of the other entries of the maps. -/
def Just (def? : Nm → Def) (q : Query) (m : Maps) (s : Nm) (o : Origin) : Prop :=
  match def? s with
  | .store id val ty i => (q.alias id = .must ∧ ty = q.ty ∧ o = .store id val) ∨ (q.alias id = .no ∧ m.Has (.nd id) i ∧ m.owns (.nd id) = some (some o))
  | .load id out ty i =>
    if q.alias id = .must ∧ ty = q.ty then o = .load id out else m.Has (.nd id) i ∧ m.owns (.nd id) = some (some o)
  | .join id ins => ins ≠ [] ∧ (∀ i ∈ ins, m.Has (.nd id) i) ∧ m.owns (.nd id) = some (some o)
  | .alloca => o = .uninit
  | .gamma id rs inside => (∀ (b : Nat) (r : Src), rs[b]? = some r → ∃ n, r = .nm n ∧ m.Has (.rg id b) n) ∧
      ∃ cm, commonOf m.owns id 0 rs none = some cm ∧ o = finish id inside cm
  | .thetaOut id inp post => ∃ k, post = .nm k ∧ m.Has (.rg id 0) k ∧ ∃ rk, m.owns (.rg id 0) = some (some rk) ∧
      if rk = .thetaPre id then ∃ i, inp = .nm i ∧ m.Has (.nd id) i ∧ m.owns (.nd id) = some (some o) else o = .thetaOut id
  | .thetaPre id inp post => o = .thetaPre id ∧ ∃ i k, inp = .nm i ∧ post = .nm k ∧ m.Has (.nd id) i ∧ ((.rg id 0, k) ∈ m.posts ∨ m.Has (.rg id 0) k)
  | .other => False

/-- One map extends the other. -/
structure Maps.le (m m' : Maps) : Prop where
  input : ∀ x ∈ m.input, x ∈ m'.input
  owns : ∀ c r, m.owns c = some r → m'.owns c = some r
  posts : ∀ x ∈ m.posts, x ∈ m'.posts ∨ m'.Has x.1 x.2

theorem Maps.le.has {m m' : Maps} (h : m.le m') {c : Cons} {s : Nm} (hh : m.Has c s) : m'.Has c s := by
  obtain ⟨r, hr⟩ := hh
  exact ⟨r, h.input _ hr⟩

theorem Maps.le.refl (m : Maps) : m.le m := ⟨fun _ h => h, fun _ _ h => h, fun _ h => Or.inl h⟩

theorem Maps.le.trans {a b c : Maps} (h1 : a.le b) (h2 : b.le c) : a.le c where
  input x hx := h2.input x (h1.input x hx)
  owns k r hr := h2.owns k r (h1.owns k r hr)
  posts x hx := by
    rcases h1.posts x hx with h | h
    · exact h2.posts x h
    · exact Or.inr (h2.has h)

theorem commonOf_mono {own own' : Cons → Option (Option Origin)} (h : ∀ c r, own c = some r → own' c = some r) {id : Nat} :
    ∀ {rs : List Src} {b : Nat} {c : Option (Option Origin)} {cm : Option (Option Origin)}, commonOf own id b rs c = some cm →
      commonOf own' id b rs c = some cm
  | [], _, _, _, hc => hc
  | _ :: rs, b, c, cm, hc => by
    simp only [commonOf] at hc ⊢
    split at hc
    next o ho => rw [h _ _ ho]; exact commonOf_mono h hc
    next => simp at hc

theorem Just.mono {def? : Nm → Def} {q : Query} {m m' : Maps} (h : m.le m') {s : Nm} {o : Origin} (hj : Just def? q m s o) :
    Just def? q m' s o := by
  unfold Just at hj ⊢
  cases hd : def? s <;> simp only [hd] at hj ⊢
  case store =>
    rcases hj with hj | ⟨h1, h2, h3⟩
    · exact Or.inl hj
    · exact Or.inr ⟨h1, h.has h2, h.owns _ _ h3⟩
  case load =>
    split at hj
    next hc => rw [if_pos hc]; exact hj
    next hc => rw [if_neg hc]; exact ⟨h.has hj.1, h.owns _ _ hj.2⟩
  case join => exact ⟨hj.1, fun i hi => h.has (hj.2.1 i hi), h.owns _ _ hj.2.2⟩
  case alloca => exact hj
  case gamma =>
    obtain ⟨h1, cm, h2, h3⟩ := hj
    refine ⟨fun b r hr => ?_, cm, commonOf_mono h.owns h2, h3⟩
    obtain ⟨n, h4, h5⟩ := h1 b r hr
    exact ⟨n, h4, h.has h5⟩
  case thetaOut =>
    obtain ⟨k, h1, h2, rk, h3, h4⟩ := hj
    refine ⟨k, h1, h.has h2, rk, h.owns _ _ h3, ?_⟩
    split at h4
    next hc =>
      rw [if_pos hc]
      obtain ⟨i, h5, h6, h7⟩ := h4
      exact ⟨i, h5, h.has h6, h.owns _ _ h7⟩
    next hc => rw [if_neg hc]; exact h4
  case thetaPre =>
    obtain ⟨h0, i, k, h1, h2, h3, h4⟩ := hj
    refine ⟨h0, i, k, h1, h2, h.has h3, ?_⟩
    rcases h4 with h4 | h4
    · exact h.posts _ h4
    · exact Or.inr (h.has h4)

/-- Origins are unique. -/
theorem Just.unique {def? : Nm → Def} {q : Query} {m : Maps} {s : Nm} {o o' : Origin} (hj : Just def? q m s o) (hj' : Just def? q m s o') :
    o = o' := by
  unfold Just at hj hj'
  cases hd : def? s <;> simp only [hd] at hj hj'
  case store =>
    rcases hj with ⟨h1, -, rfl⟩ | ⟨h1, -, h3⟩ <;> rcases hj' with ⟨h1', -, rfl⟩ | ⟨h1', -, h3'⟩
    · rfl
    · rw [h1] at h1'; simp at h1'
    · rw [h1] at h1'; simp at h1'
    · rw [h3] at h3'; simpa using h3'
  case load =>
    split at hj
    next hc => rw [if_pos hc] at hj'; rw [hj, hj']
    next hc =>
      rw [if_neg hc] at hj'
      have := hj.2.symm.trans hj'.2
      simpa using this
  case join =>
    have := hj.2.2.symm.trans hj'.2.2
    simpa using this
  case alloca => rw [hj, hj']
  case gamma =>
    obtain ⟨_, cm, h2, h3⟩ := hj
    obtain ⟨_, cm', h2', h3'⟩ := hj'
    rw [h2] at h2'
    injection h2' with h2'
    rw [h3, h3', h2']
  case thetaOut =>
    obtain ⟨k, h1, h2, rk, h3, h4⟩ := hj
    obtain ⟨k', h1', h2', rk', h3', h4'⟩ := hj'
    rw [h3] at h3'
    injection h3' with h3'
    injection h3' with h3'
    subst h3'
    split at h4
    next hc =>
      rw [if_pos hc] at h4'
      obtain ⟨i, h5, h6, h7⟩ := h4
      obtain ⟨i', h5', h6', h7'⟩ := h4'
      have := h7.symm.trans h7'
      simpa using this
    next hc => rw [if_neg hc] at h4'; rw [h4, h4']
  case thetaPre => rw [hj.1, hj'.1]

/-- Inputs that are visited. -/
def Kd (def? : Nm → Def) (q : Query) (qs : List Nm) (c : Cons) (s : Nm) : Prop :=
  (c = .nd q.id ∧ s ∈ qs) ∨ ∃ s', (def? s').ins c s

/-- The node of the origin exists. -/
def Origin.kind (def? : Nm → Def) : Origin → Prop
  | .gammaOut id => ∃ s rs inside, def? s = .gamma id rs inside
  | .thetaOut id => ∃ s inp post, def? s = .thetaOut id inp post ∨ def? s = .thetaPre id inp post
  | .thetaPre id => ∃ s inp post, def? s = .thetaOut id inp post ∨ def? s = .thetaPre id inp post
  | _ => True

structure Good (def? : Nm → Def) (q : Query) (qs : List Nm) (m : Maps) : Prop where
  ent : ∀ c s r, ((c, s), r) ∈ m.input → ∃ o, r = some o ∧ m.owns c = some (some o) ∧ Just def? q m s o ∧ Kd def? q qs c s
  own : ∀ c r, m.owns c = some r → ∃ s, m.Has c s
  posts : ∀ c s, (c, s) ∈ m.posts → Kd def? q qs c s
  kind : ∀ c o, m.owns c = some (some o) → o.kind def?

/-- What the recursive calls do. -/
def Rec (def? : Nm → Def) (q : Query) (qs : List Nm) (f : Maps → Cons → Nm → Maps × Option Origin) : Prop :=
  ∀ m c s m' o, Good def? q qs m → Kd def? q qs c s → f m c s = (m', some o) →
    Good def? q qs m' ∧ m.le m' ∧ m'.Has c s ∧ m'.owns c = some (some o)

theorem commonOf_from {own : Cons → Option (Option Origin)} {id : Nat} {o : Origin} : ∀ {rs : List Src} {b : Nat} {c : Option (Option Origin)},
    commonOf own id b rs c = some (some (some o)) → c = some (some o) ∨ ∃ b, own (.rg id b) = some (some o)
  | [], _, _, h => by
    simp only [commonOf, Option.some.injEq] at h
    exact Or.inl h
  | _ :: rs, b, c, h => by
    simp only [commonOf] at h
    split at h
    next r hr =>
      rcases commonOf_from h with h1 | h1
      · unfold observe at h1
        split at h1
        · exact Or.inl h1
        · split at h1
          · simp only [Option.some.injEq] at h1
            subst h1
            exact Or.inr ⟨b, hr⟩
          · split at h1
            · exact Or.inl h1
            · simp at h1
      · exact Or.inr h1
    next => simp at h

theorem Good.just_kind {def? : Nm → Def} {q : Query} {qs : List Nm} {m : Maps} (hg : Good def? q qs m) {s : Nm} {o : Origin}
    (hj : Just def? q m s o) : o.kind def? := by
  unfold Just at hj
  cases hd : def? s <;> simp only [hd] at hj
  case store =>
    rcases hj with ⟨-, -, rfl⟩ | ⟨-, -, h⟩
    · trivial
    · exact hg.kind _ _ h
  case load =>
    split at hj
    · subst hj; trivial
    · exact hg.kind _ _ hj.2
  case join => exact hg.kind _ _ hj.2.2
  case alloca => subst hj; trivial
  case gamma id rs inside =>
    obtain ⟨-, cm, h1, rfl⟩ := hj
    cases cm with
    | none => trivial
    | some cm =>
      cases cm with
      | none => exact ⟨s, rs, inside, hd⟩
      | some o =>
        simp only [finish]
        split
        · exact ⟨s, rs, inside, hd⟩
        · rcases commonOf_from h1 with h | ⟨b, h⟩
          · simp at h
          · exact hg.kind _ _ h
  case thetaOut id inp post =>
    obtain ⟨k, -, -, rk, -, h⟩ := hj
    split at h
    · obtain ⟨i, -, -, h⟩ := h
      exact hg.kind _ _ h
    · subst h; exact ⟨s, inp, post, Or.inl hd⟩
  case thetaPre id inp post =>
    obtain ⟨rfl, -⟩ := hj
    exact ⟨s, inp, post, Or.inr hd⟩

theorem owns_append {m : Maps} {c c' : Cons} {r : Option Origin} {l : List (Cons × Option Origin)} (h : m.owns c = none) :
    Maps.owns { m with owner := m.owner ++ (c, r) :: l } c' = if c' = c then some r else Maps.owns { m with owner := m.owner ++ l } c' := by
  unfold Maps.owns at h ⊢
  simp only [List.find?_append] at *
  by_cases hc : c' = c
  · subst hc
    have : m.owner.find? (·.1 == c') = none := by
      cases hf : m.owner.find? (·.1 == c') with
      | none => rfl
      | some x => rw [hf] at h; simp at h
    simp [this]
  · have : (c == c') = false := by simpa using fun h => hc h.symm
    simp [hc, this]

theorem record_good {def? : Nm → Def} {q : Query} {qs : List Nm} {m m' : Maps} {c : Cons} {s : Nm} {o o' : Origin}
    (hg : Good def? q qs m) (hk : Kd def? q qs c s) (hj : Just def? q m s o) (h : record m c s (some o) = (m', some o')) :
    Good def? q qs m' ∧ m.le m' ∧ m'.Has c s ∧ m'.owns c = some (some o') := by
  unfold record at h
  simp only at h
  have howns : ∀ (x : List ((Cons × Nm) × Option Origin)), Maps.owns { m with input := x } c = m.owns c := fun x => rfl
  rw [howns] at h
  cases ho : m.owns c with
  | none =>
    rw [ho] at h
    simp only [Prod.mk.injEq, Option.some.injEq] at h
    obtain ⟨h1, rfl⟩ := h
    have hown : ∀ c', m'.owns c' = if c' = c then some (some o) else m.owns c' := by
      intro c'
      subst h1
      have := owns_append (m := m) (c := c) (c' := c') (r := some o) (l := []) ho
      simp only [List.append_nil] at this
      exact this
    have hle : m.le m' := by
      refine ⟨fun x hx => ?_, fun c' r hr => ?_, fun x hx => ?_⟩
      · subst h1; exact List.mem_append.mpr (Or.inl hx)
      · rw [hown]
        by_cases hc : c' = c
        · subst hc; rw [ho] at hr; simp at hr
        · rw [if_neg hc]; exact hr
      · subst h1; exact Or.inl hx
    have hhas : m'.Has c s := ⟨some o, by subst h1; exact List.mem_append.mpr (Or.inr (by simp))⟩
    have hkind : ∀ c' o', m'.owns c' = some (some o') → o'.kind def? := by
      intro c' o' h
      rw [hown] at h
      by_cases hc : c' = c
      · rw [if_pos hc] at h
        injection h with h
        injection h with h
        subst h
        exact hg.just_kind hj
      · rw [if_neg hc] at h
        exact hg.kind c' o' h
    refine ⟨⟨fun c' s' r hr => ?_, fun c' r hr => ?_, fun c' s' hp => ?_, hkind⟩, hle, hhas, by rw [hown, if_pos rfl]⟩
    · have hr' : ((c', s'), r) ∈ m.input ∨ ((c', s'), r) = ((c, s), some o) := by
        subst h1
        rcases List.mem_append.mp hr with h | h
        · exact Or.inl h
        · exact Or.inr (List.mem_singleton.mp h)
      rcases hr' with hr' | hr'
      · obtain ⟨o1, h2, h3, h4, h5⟩ := hg.ent c' s' r hr'
        exact ⟨o1, h2, hle.owns _ _ h3, h4.mono hle, h5⟩
      · simp only [Prod.mk.injEq] at hr'
        obtain ⟨⟨rfl, rfl⟩, rfl⟩ := hr'
        exact ⟨o, rfl, by rw [hown, if_pos rfl], hj.mono hle, hk⟩
    · rw [hown] at hr
      by_cases hc : c' = c
      · subst hc; exact ⟨s, hhas⟩
      · rw [if_neg hc] at hr
        obtain ⟨s', hs'⟩ := hg.own c' r hr
        exact ⟨s', hle.has hs'⟩
    · subst h1; exact hg.posts c' s' hp
  | some r' =>
    rw [ho] at h
    simp only at h
    by_cases hr' : r' = some o
    · rw [if_pos hr'] at h
      simp only [Prod.mk.injEq, Option.some.injEq] at h
      obtain ⟨h1, rfl⟩ := h
      subst hr'
      have hown : ∀ c', m'.owns c' = m.owns c' := by intro c'; subst h1; rfl
      have hle : m.le m' := by
        refine ⟨fun x hx => ?_, fun c' r hr => ?_, fun x hx => ?_⟩
        · subst h1; exact List.mem_append.mpr (Or.inl hx)
        · rw [hown]; exact hr
        · subst h1; exact Or.inl hx
      have hhas : m'.Has c s := ⟨some o, by subst h1; exact List.mem_append.mpr (Or.inr (by simp))⟩
      refine ⟨⟨fun c' s' r hr => ?_, fun c' r hr => ?_, fun c' s' hp => ?_, fun c' o' h => by rw [hown] at h; exact hg.kind c' o' h⟩, hle, hhas,
        by rw [hown, ho]⟩
      · have hr' : ((c', s'), r) ∈ m.input ∨ ((c', s'), r) = ((c, s), some o) := by
          subst h1
          rcases List.mem_append.mp hr with h | h
          · exact Or.inl h
          · exact Or.inr (List.mem_singleton.mp h)
        rcases hr' with hr' | hr'
        · obtain ⟨o1, h2, h3, h4, h5⟩ := hg.ent c' s' r hr'
          exact ⟨o1, h2, hle.owns _ _ h3, h4.mono hle, h5⟩
        · simp only [Prod.mk.injEq] at hr'
          obtain ⟨⟨rfl, rfl⟩, rfl⟩ := hr'
          exact ⟨o, rfl, by rw [hown, ho], hj.mono hle, hk⟩
      · rw [hown] at hr
        obtain ⟨s', hs'⟩ := hg.own c' r hr
        exact ⟨s', hle.has hs'⟩
      · subst h1; exact hg.posts c' s' hp
    · rw [if_neg hr'] at h
      simp at h

theorem allInputs_good {def? : Nm → Def} {q : Query} {qs : List Nm} {f : Maps → Cons → Nm → Maps × Option Origin} (hf : Rec def? q qs f)
    {c : Cons} : ∀ {is : List Nm} {m m' : Maps}, (∀ i ∈ is, Kd def? q qs c i) → Good def? q qs m → allInputs f c m is = (m', true) →
      Good def? q qs m' ∧ m.le m' ∧ ∀ i ∈ is, m'.Has c i
  | [], m, m', _, hg, h => by
    simp only [allInputs, Prod.mk.injEq, and_true] at h
    subst h
    exact ⟨hg, .refl _, by simp⟩
  | i :: is, m, m', hk, hg, h => by
    simp only [allInputs] at h
    cases hfi : f m c i with
    | mk m1 r =>
      cases r with
      | none => rw [hfi] at h; simp at h
      | some o =>
        rw [hfi] at h
        simp only at h
        obtain ⟨g1, l1, h1, -⟩ := hf m c i m1 o hg (hk i (List.mem_cons_self ..)) hfi
        obtain ⟨g2, l2, h2⟩ := allInputs_good hf (fun j hj => hk j (List.mem_cons_of_mem _ hj)) g1 h
        refine ⟨g2, l1.trans l2, fun j hj => ?_⟩
        rcases List.mem_cons.mp hj with rfl | hj
        · exact l2.has h1
        · exact h2 j hj

theorem allBranches_good {def? : Nm → Def} {q : Query} {qs : List Nm} {f : Maps → Cons → Nm → Maps × Option Origin} (hf : Rec def? q qs f)
    {id : Nat} : ∀ {rs : List Src} {b : Nat} {m m' : Maps} {c cm : Option (Option Origin)},
      (∀ (j : Nat) (n : Nm), rs[j]? = some (.nm n) → Kd def? q qs (.rg id (b + j)) n) → Good def? q qs m →
      allBranches f id m b rs c = (m', some cm) →
      Good def? q qs m' ∧ m.le m' ∧ (∀ (j : Nat) (r : Src), rs[j]? = some r → ∃ n, r = .nm n ∧ m'.Has (.rg id (b + j)) n) ∧
        commonOf m'.owns id b rs c = some cm
  | [], b, m, m', c, cm, _, hg, h => by
    simp only [allBranches, Prod.mk.injEq, Option.some.injEq] at h
    obtain ⟨rfl, rfl⟩ := h
    exact ⟨hg, .refl _, by simp, rfl⟩
  | .undef :: rs, b, m, m', c, cm, hk, hg, h => by simp [allBranches] at h
  | .nm r :: rs, b, m, m', c, cm, hk, hg, h => by
    simp only [allBranches] at h
    cases hfi : f m (.rg id b) r with
    | mk m1 r1 =>
      cases r1 with
      | none => rw [hfi] at h; simp at h
      | some o =>
        rw [hfi] at h
        simp only at h
        obtain ⟨g1, l1, h1, h1'⟩ := hf m _ r m1 o hg (by simpa using hk 0 r (by simp)) hfi
        obtain ⟨g2, l2, h2, h3⟩ := allBranches_good hf (rs := rs) (b := b + 1) (fun j n hj => by
          have := hk (j + 1) n (by simpa using hj)
          rwa [show b + (j + 1) = b + 1 + j by omega] at this) g1 h
        refine ⟨g2, l1.trans l2, fun j x hj => ?_, ?_⟩
        · cases j with
          | zero =>
            simp only [List.getElem?_cons_zero, Option.some.injEq] at hj
            subst hj
            exact ⟨r, rfl, l2.has h1⟩
          | succ j =>
            obtain ⟨n, h4, h5⟩ := h2 j x (by simpa using hj)
            refine ⟨n, h4, ?_⟩
            rwa [show b + (j + 1) = b + 1 + j by omega]
        · simp only [commonOf, l2.owns _ _ h1']
          exact h3

theorem internal_good {def? : Nm → Def} {q : Query} {qs : List Nm} {f : Maps → Cons → Nm → Maps × Option Origin} (hf : Rec def? q qs f)
    {m m' : Maps} {s : Nm} {o : Origin} (hg : Good def? q qs m) (h : internal def? q f m s = (m', some o)) :
    Good def? q qs m' ∧ m.le m' ∧ Just def? q m' s o := by
  have hkd : ∀ c i, (def? s).ins c i → Kd def? q qs c i := fun c i h => Or.inr ⟨s, h⟩
  unfold internal at h
  unfold Just
  cases hd : def? s <;> simp only [hd] at h hkd ⊢
  case store id val ty i =>
    cases ha : q.alias id <;> simp only [ha] at h ⊢
    · obtain ⟨g, l, h1, h2⟩ := hf _ _ _ _ _ hg (hkd _ _ ⟨rfl, rfl⟩) h
      exact ⟨g, l, Or.inr ⟨trivial, h1, h2⟩⟩
    · simp at h
    · by_cases ht : ty = q.ty
      · simp only [ht, if_true, Prod.mk.injEq, Option.some.injEq] at h
        obtain ⟨rfl, rfl⟩ := h
        exact ⟨hg, .refl _, Or.inl ⟨trivial, ht, rfl⟩⟩
      · simp [ht] at h
  case load id out ty i =>
    by_cases hc : q.alias id = .must ∧ ty = q.ty
    · rw [if_pos hc] at h
      simp only [Prod.mk.injEq, Option.some.injEq] at h
      obtain ⟨rfl, rfl⟩ := h
      exact ⟨hg, .refl _, by rw [if_pos hc]⟩
    · rw [if_neg hc] at h
      obtain ⟨g, l, h1, h2⟩ := hf _ _ _ _ _ hg (hkd _ _ ⟨rfl, rfl⟩) h
      exact ⟨g, l, by rw [if_neg hc]; exact ⟨h1, h2⟩⟩
  case join id ins =>
    by_cases hi : ins = []
    · simp [hi] at h
    · rw [if_neg hi] at h
      cases ha : allInputs f (.nd id) m ins with
      | mk m1 b =>
        rw [ha] at h
        cases b with
        | false => simp at h
        | true =>
          simp only [Prod.mk.injEq] at h
          obtain ⟨rfl, h⟩ := h
          obtain ⟨g, l, h1⟩ := allInputs_good hf (fun i hi => hkd _ _ ⟨rfl, hi⟩) hg ha
          refine ⟨g, l, hi, h1, ?_⟩
          cases ho : m1.owns (.nd id) with
          | none => rw [ho] at h; simp at h
          | some x => rw [ho] at h; simp at h; rw [h]
  case alloca =>
    simp only [Prod.mk.injEq, Option.some.injEq] at h
    obtain ⟨rfl, rfl⟩ := h
    exact ⟨hg, .refl _, rfl⟩
  case gamma id rs inside =>
    cases ha : allBranches f id m 0 rs none with
    | mk m1 cm =>
      rw [ha] at h
      cases cm with
      | none => simp at h
      | some cm =>
        obtain ⟨g, l, h1, h2⟩ := allBranches_good hf (fun j n hj => hkd _ _ ⟨j, by simp, hj⟩) hg ha
        have key : m1 = m' ∧ finish id inside cm = o := by
          cases cm with
          | none => simpa [finish] using h
          | some cm =>
            cases cm with
            | none => simpa [finish] using h
            | some o1 =>
              simp only at h
              by_cases hc : o1.node.any (inside.contains ·) = true
              · rw [if_pos hc] at h
                simp only [finish, if_pos hc]
                simpa using h
              · rw [if_neg hc] at h
                simp only [finish, if_neg hc]
                simpa using h
        obtain ⟨rfl, rfl⟩ := key
        exact ⟨g, l, fun b r hr => by simpa using h1 b r hr, cm, h2, rfl⟩
  case thetaOut id inp post =>
    cases post with
    | undef => simp at h
    | nm k =>
      simp only at h
      cases ha : f m (.rg id 0) k with
      | mk m1 r =>
        rw [ha] at h
        cases r with
        | none => simp at h
        | some rk =>
          simp only at h
          obtain ⟨g1, l1, h1, h2⟩ := hf _ _ _ _ _ hg (hkd _ _ (Or.inr ⟨rfl, rfl⟩)) ha
          by_cases hrk : rk = .thetaPre id
          · rw [if_pos hrk] at h
            cases inp with
            | undef => simp at h
            | nm i =>
              simp only at h
              obtain ⟨g2, l2, h3, h4⟩ := hf _ _ _ _ _ g1 (hkd _ _ (Or.inl ⟨rfl, rfl⟩)) h
              exact ⟨g2, l1.trans l2, k, rfl, l2.has h1, rk, l2.owns _ _ h2, by rw [if_pos hrk]; exact ⟨i, rfl, h3, h4⟩⟩
          · rw [if_neg hrk] at h
            simp only [Prod.mk.injEq, Option.some.injEq] at h
            obtain ⟨rfl, rfl⟩ := h
            exact ⟨g1, l1, k, rfl, h1, rk, h2, by rw [if_neg hrk]⟩
  case thetaPre id inp post =>
    cases inp with
    | undef => simp at h
    | nm i =>
      cases post with
      | undef => simp at h
      | nm k =>
        simp only at h
        cases ha : f m (.nd id) i with
        | mk m1 r =>
          rw [ha] at h
          cases r with
          | none => simp at h
          | some rk =>
            simp only [Prod.mk.injEq, Option.some.injEq] at h
            obtain ⟨g1, l1, h1, h2⟩ := hf _ _ _ _ _ hg (hkd _ _ (Or.inl ⟨rfl, rfl⟩)) ha
            obtain ⟨rfl, rfl⟩ := h
            have l2 : m1.le { m1 with posts := m1.posts ++ [(.rg id 0, k)] } :=
              ⟨fun x hx => hx, fun _ _ hr => hr, fun x hx => Or.inl (List.mem_append.mpr (Or.inl hx))⟩
            refine ⟨⟨fun c s r hr => ?_, g1.own, fun c s hp => ?_, g1.kind⟩, l1.trans l2, rfl, i, k, rfl, rfl, l2.has h1, Or.inl (by simp)⟩
            · obtain ⟨o1, h2, h3, h4, h5⟩ := g1.ent c s r hr
              exact ⟨o1, h2, h3, h4.mono l2, h5⟩
            · rcases List.mem_append.mp hp with hp | hp
              · exact g1.posts c s hp
              · simp only [List.mem_singleton, Prod.mk.injEq] at hp
                obtain ⟨rfl, rfl⟩ := hp
                exact hkd _ _ (Or.inr ⟨rfl, rfl⟩)
  case other => simp at h

theorem before_good (def? : Nm → Def) (q : Query) (qs : List Nm) : ∀ n, Rec def? q qs (before def? q n)
  | 0 => by
    intro m c s m' o _ _ h
    simp [before] at h
  | n + 1 => by
    intro m c s m' o hg hk h
    simp only [before] at h
    cases hfd : m.find (c, s) with
    | some r =>
      rw [hfd] at h
      simp only [Prod.mk.injEq] at h
      obtain ⟨rfl, rfl⟩ := h
      unfold Maps.find at hfd
      cases hx : m.input.find? (·.1 == (c, s)) with
      | none => rw [hx] at hfd; simp at hfd
      | some x =>
        rw [hx] at hfd
        simp only [Option.map_some, Option.some.injEq] at hfd
        have h1 := List.mem_of_find?_eq_some hx
        have h2 := List.find?_some hx
        simp only [beq_iff_eq] at h2
        obtain ⟨x1, x2⟩ := x
        simp only at h2 hfd
        subst h2; subst hfd
        obtain ⟨o1, h3, h4, -, -⟩ := hg.ent c s _ h1
        injection h3 with h3
        subst h3
        exact ⟨hg, .refl _, ⟨_, h1⟩, h4⟩
    | none =>
      rw [hfd] at h
      simp only at h
      cases hi : internal def? q (before def? q n) m s with
      | mk m1 r =>
        rw [hi] at h
        simp only at h
        cases r with
        | none =>
          exfalso
          unfold record at h
          simp only at h
          split at h
          · simp at h
          · split at h <;> simp at h
        | some o1 =>
          obtain ⟨g1, l1, h1⟩ := internal_good (before_good def? q qs n) hg hi
          obtain ⟨g2, l2, h2, h3⟩ := record_good g1 hk h1 h
          exact ⟨g2, l1.trans l2, h2, h3⟩

theorem traceInputs_good {def? : Nm → Def} {q : Query} {qs : List Nm} {n : Nat} : ∀ {is : List Nm} {m m' : Maps}, (∀ i ∈ is, i ∈ qs) →
    Good def? q qs m → traceInputs def? q n m is = (m', true) → Good def? q qs m' ∧ m.le m' ∧ ∀ i ∈ is, m'.Has (.nd q.id) i
  | [], m, m', _, hg, h => by
    simp only [traceInputs, Prod.mk.injEq, and_true] at h
    subst h
    exact ⟨hg, .refl _, by simp⟩
  | i :: is, m, m', hq, hg, h => by
    simp only [traceInputs] at h
    cases hfi : before def? q n m (.nd q.id) i with
    | mk m1 r =>
      cases r with
      | none => rw [hfi] at h; simp at h
      | some o =>
        rw [hfi] at h
        simp only at h
        obtain ⟨g1, l1, h1, -⟩ := before_good def? q qs n m _ i m1 o hg (Or.inl ⟨rfl, hq i (List.mem_cons_self ..)⟩) hfi
        obtain ⟨g2, l2, h2⟩ := traceInputs_good (fun j hj => hq j (List.mem_cons_of_mem _ hj)) g1 h
        refine ⟨g2, l1.trans l2, fun j hj => ?_⟩
        rcases List.mem_cons.mp hj with rfl | hj
        · exact l2.has h1
        · exact h2 j hj

theorem tracePosts_good {def? : Nm → Def} {q : Query} {qs : List Nm} {n : Nat} : ∀ {k : Nat} {m m' : Maps},
    Good def? q qs m → tracePosts def? q n k m = (m', true) → Good def? q qs m' ∧ m.le m' ∧ m'.posts = []
  | 0, m, m', _, h => by simp [tracePosts] at h
  | k + 1, m, m', hg, h => by
    simp only [tracePosts] at h
    split at h
    next hp =>
      simp only [Prod.mk.injEq, and_true] at h
      subst h
      exact ⟨hg, .refl _, hp⟩
    next c s ps hp =>
      cases hfi : before def? q n m c s with
      | mk m1 r =>
        cases r with
        | none => rw [hfi] at h; simp at h
        | some o =>
          rw [hfi] at h
          simp only at h
          obtain ⟨g1, l1, h1, -⟩ := before_good def? q qs n m c s m1 o hg (hg.posts c s (by rw [hp]; simp)) hfi
          have l2 : m1.le { m1 with posts := m1.posts.filter (· != (c, s)) } := by
            refine ⟨fun x hx => hx, fun _ _ hr => hr, fun x hx => ?_⟩
            by_cases hxc : x = (c, s)
            · subst hxc; exact Or.inr h1
            · exact Or.inl (List.mem_filter.mpr ⟨hx, by simpa using hxc⟩)
          have g2 : Good def? q qs { m1 with posts := m1.posts.filter (· != (c, s)) } := by
            refine ⟨fun c' s' r hr => ?_, g1.own, fun c' s' hp' => g1.posts c' s' (List.mem_filter.mp hp').1, g1.kind⟩
            obtain ⟨o1, h2, h3, h4, h5⟩ := g1.ent c' s' r hr
            exact ⟨o1, h2, h3, h4.mono l2, h5⟩
          obtain ⟨g3, l3, h3⟩ := tracePosts_good g2 h
          exact ⟨g3, l1.trans (l2.trans l3), h3⟩

theorem traceAll_good {def? : Nm → Def} {q : Query} {qs : List Nm} {n : Nat} {m : Maps} (h : traceAll def? q n qs = some m) :
    Good def? q qs m ∧ m.posts = [] ∧ ∀ i ∈ qs, m.Has (.nd q.id) i := by
  unfold traceAll at h
  have h0 : Good def? q qs {} := ⟨fun c s r hr => by simp at hr, fun c r hr => by simp [Maps.owns] at hr, fun c s hp => by simp at hp,
    fun c o h => by simp [Maps.owns] at h⟩
  cases h1 : traceInputs def? q n {} qs with
  | mk m1 b =>
    rw [h1] at h
    cases b with
    | false => simp at h
    | true =>
      simp only at h
      obtain ⟨g1, -, hh⟩ := traceInputs_good (fun i hi => hi) h0 h1
      cases h2 : tracePosts def? q n n m1 with
      | mk m2 b =>
        rw [h2] at h
        cases b with
        | false => simp at h
        | true =>
          simp only [Option.some.injEq] at h
          subst h
          obtain ⟨g2, l2, hp⟩ := tracePosts_good g1 h2
          exact ⟨g2, hp, fun i hi => l2.has (hh i hi)⟩

/-! ## The origins of the branches of a gamma node -/

theorem observe_some {c : Option (Option Origin)} {r o : Origin} (h : observe c r = some (some o)) :
    c = some (some o) ∧ (r = .uninit ∨ r = o) ∨ c = none ∧ r = o := by
  unfold observe at h
  by_cases hr : r = .uninit
  · rw [if_pos hr] at h
    exact Or.inl ⟨h, Or.inl hr⟩
  · rw [if_neg hr] at h
    cases c with
    | none => simp only [Option.some.injEq] at h; exact Or.inr ⟨rfl, h⟩
    | some c =>
      simp only at h
      by_cases hc : c = some r
      · rw [if_pos hc] at h
        subst hc
        refine Or.inl ⟨h, Or.inr ?_⟩
        simpa using h
      · rw [if_neg hc] at h; simp at h

theorem commonOf_all {own : Cons → Option (Option Origin)} {id : Nat} : ∀ {rs : List Src} {b : Nat} {c cm : Option (Option Origin)},
    commonOf own id b rs c = some cm → ∀ j, j < rs.length → ∃ rb, own (.rg id (b + j)) = some (some rb)
  | [], _, _, _, _, j, hj => by simp at hj
  | _ :: rs, b, c, cm, h, j, hj => by
    simp only [commonOf] at h
    split at h
    next o ho =>
      cases j with
      | zero => exact ⟨o, ho⟩
      | succ j =>
        obtain ⟨rb, hrb⟩ := commonOf_all h j (by simpa using hj)
        exact ⟨rb, by rwa [show b + (j + 1) = b + 1 + j by omega]⟩
    next => simp at h

theorem commonOf_none {own : Cons → Option (Option Origin)} {id : Nat} : ∀ {rs : List Src} {b : Nat} {c : Option (Option Origin)},
    commonOf own id b rs c = some none → c = none ∧ ∀ j, j < rs.length → own (.rg id (b + j)) = some (some .uninit)
  | [], _, _, h => by
    simp only [commonOf, Option.some.injEq] at h
    exact ⟨h, by simp⟩
  | _ :: rs, b, c, h => by
    simp only [commonOf] at h
    split at h
    next o ho =>
      obtain ⟨h1, h2⟩ := commonOf_none h
      have hu : o = .uninit ∧ c = none := by
        unfold observe at h1
        by_cases hr : o = .uninit
        · rw [if_pos hr] at h1; exact ⟨hr, h1⟩
        · rw [if_neg hr] at h1
          cases c with
          | none => simp at h1
          | some c => simp only at h1; split at h1 <;> simp at h1
      refine ⟨hu.2, fun j hj => ?_⟩
      cases j with
      | zero => rw [← hu.1]; exact ho
      | succ j =>
        have := h2 j (by simpa using hj)
        rwa [show b + (j + 1) = b + 1 + j by omega]
    next => simp at h

theorem commonOf_some {own : Cons → Option (Option Origin)} {id : Nat} {o : Origin} : ∀ {rs : List Src} {b : Nat} {c : Option (Option Origin)},
    commonOf own id b rs c = some (some (some o)) →
      (c = none ∨ c = some (some o)) ∧ (∀ j rb, j < rs.length → own (.rg id (b + j)) = some (some rb) → rb = .uninit ∨ rb = o) ∧
      (c = some (some o) ∨ ∃ j, j < rs.length ∧ own (.rg id (b + j)) = some (some o))
  | [], _, _, h => by
    simp only [commonOf, Option.some.injEq] at h
    exact ⟨Or.inr h, by simp, Or.inl h⟩
  | _ :: rs, b, c, h => by
    simp only [commonOf] at h
    split at h
    next r hr =>
      obtain ⟨h1, h2, h3⟩ := commonOf_some h
      have hstep : ∀ j rb, j < (rs.length + 1) → own (.rg id (b + j)) = some (some rb) → (r = .uninit ∨ r = o) → rb = .uninit ∨ rb = o := by
        intro j rb hj hrb hro
        cases j with
        | zero =>
          rw [Nat.add_zero, hr] at hrb
          injection hrb with hrb
          injection hrb with hrb
          rw [← hrb]; exact hro
        | succ j => exact h2 j rb (by omega) (by rwa [show b + (j + 1) = b + 1 + j by omega] at hrb)
      rcases h1 with h1 | h1
      · -- nothing has been observed yet
        have hu : r = .uninit ∧ c = none := by
          unfold observe at h1
          by_cases hr : r = .uninit
          · rw [if_pos hr] at h1; exact ⟨hr, h1⟩
          · rw [if_neg hr] at h1
            cases c with
            | none => simp at h1
            | some c => simp only at h1; split at h1 <;> simp at h1
        refine ⟨Or.inl hu.2, fun j rb hj hrb => hstep j rb (by simpa using hj) hrb (Or.inl hu.1), Or.inr ?_⟩
        rcases h3 with h3 | ⟨j, hj, h3⟩
        · rw [h1] at h3; simp at h3
        · exact ⟨j + 1, by simpa using hj, by rwa [show b + (j + 1) = b + 1 + j by omega]⟩
      · rcases observe_some h1 with ⟨hc, hro⟩ | ⟨hc, hro⟩
        · exact ⟨Or.inr hc, fun j rb hj hrb => hstep j rb (by simpa using hj) hrb hro, Or.inl hc⟩
        · refine ⟨Or.inl hc, fun j rb hj hrb => hstep j rb (by simpa using hj) hrb (Or.inr hro), Or.inr ⟨0, by simp, ?_⟩⟩
          rw [Nat.add_zero, hr, hro]
    next => simp at h

/-! ## The maps are consistent -/

/-- What is needed of the created variables. -/
structure Made.Closed (own : Cons → Option Origin) (regions : Nat → Nat) (L : Nat) (st : Made) : Prop where
  load : ∀ r, own (.nd L) = some r → r.made st.created
  gamma : ∀ id ∈ st.gammas, (∃ c, own c = some (.gammaOut id)) ∧ ∀ b < regions id, ∀ r, own (.rg id b) = some r → r.made st.created
  theta : ∀ id ∈ st.thetas, ((∃ c, own c = some (.thetaOut id)) ∨ ∃ c, own c = some (.thetaPre id)) ∧
    (∀ r, own (.nd id) = some r → r.made st.created) ∧ ∀ r, own (.rg id 0) = some r → r.made st.created

theorem Made.created_iff {st : Made} {id : Nat} : st.created id = true ↔ id ∈ st.gammas ∨ id ∈ st.thetas := by
  simp [Made.created]

/-- The origin of a state. -/
def Maps.T (m : Maps) (s : Nm) : Option Origin := (m.input.find? (·.1.2 == s)).bind (·.2)

/-- The origin before a node or at the end of a region. -/
def Maps.own (m : Maps) (c : Cons) : Option Origin := (m.owns c).join

/-- The state has been traced. -/
def Maps.traced (m : Maps) (s : Nm) : Prop := ∃ c, m.Has c s

mutual

/-- No state from outside a theta node of `reset`, and none of its loop variables and outputs, has been traced. -/
def Node.border (traced : Nm → Prop) (reset : Nat → Prop) (Γ : Scope) : Node → Prop
  | .gamma _ _ brs _ => borderB traced reset Γ brs
  | .theta id vars body _ => borderL traced reset (Γ.add (.p id :: vars.map (·.pre))) body ∧
      (reset id → (∀ s, (Γ.add (.p id :: vars.map (·.pre))).has s → ¬ traced s) ∧ ∀ v ∈ vars, ¬ traced v.out)
  | _ => True

def borderL (traced : Nm → Prop) (reset : Nat → Prop) (Γ : Scope) : List Node → Prop
  | [] => True
  | n :: ns => n.border traced reset Γ ∧ borderL traced reset (Γ.add n.adds) ns

def borderB (traced : Nm → Prop) (reset : Nat → Prop) (Γ : Scope) : List (List Node) → Prop
  | [] => True
  | b :: bs => borderL traced reset Γ b ∧ borderB traced reset Γ bs

end

section
variable {def? : Nm → Def} {q : Query} {qs : List Nm} {m : Maps}

theorem Good.T_some (hg : Good def? q qs m) {s : Nm} {o : Origin} (h : m.T s = some o) : Just def? q m s o := by
  unfold Maps.T at h
  cases hx : m.input.find? (·.1.2 == s) with
  | none => rw [hx] at h; simp at h
  | some x =>
    rw [hx] at h
    obtain ⟨⟨c, s'⟩, r⟩ := x
    have h1 := List.mem_of_find?_eq_some hx
    have h2 := List.find?_some hx
    simp only [beq_iff_eq] at h2
    subst h2
    obtain ⟨o1, h3, -, h4, -⟩ := hg.ent _ _ _ h1
    simp only [Option.bind_some] at h
    rw [h3] at h
    injection h with h
    subst h
    exact h4

theorem Good.T_has (hg : Good def? q qs m) {c : Cons} {s : Nm} {o : Origin} (h : m.Has c s) (ho : m.owns c = some (some o)) : m.T s = some o := by
  obtain ⟨r, hr⟩ := h
  obtain ⟨o1, h1, h2, h3, -⟩ := hg.ent c s r hr
  rw [ho] at h2
  injection h2 with h2
  injection h2 with h2
  subst h2
  unfold Maps.T
  cases hx : m.input.find? (·.1.2 == s) with
  | none =>
    rw [List.find?_eq_none] at hx
    exact absurd (hx _ hr) (by simp)
  | some x =>
    obtain ⟨⟨c', s'⟩, r'⟩ := x
    have h4 := List.mem_of_find?_eq_some hx
    have h5 := List.find?_some hx
    simp only [beq_iff_eq] at h5
    subst h5
    obtain ⟨o2, h6, -, h7, -⟩ := hg.ent _ _ _ h4
    simp only [Option.bind_some]
    rw [h6, h7.unique h3]

theorem Good.T_traced (hg : Good def? q qs m) {s : Nm} (h : ¬ m.traced s) : m.T s = none := by
  unfold Maps.T
  cases hx : m.input.find? (·.1.2 == s) with
  | none => rfl
  | some x =>
    obtain ⟨⟨c', s'⟩, r'⟩ := x
    have h4 := List.mem_of_find?_eq_some hx
    have h5 := List.find?_some hx
    simp only [beq_iff_eq] at h5
    subst h5
    exact absurd ⟨c', r', h4⟩ h

theorem Good.T_other (hg : Good def? q qs m) {s : Nm} (h : def? s = .other) : m.T s = none := by
  cases hT : m.T s with
  | none => rfl
  | some o =>
    have := hg.T_some hT
    simp [Just, h] at this

theorem own_of {c : Cons} {o : Origin} (h : m.owns c = some (some o)) : m.own c = some o := by simp [Maps.own, h]

theorem of_own {c : Cons} {o : Origin} (h : m.own c = some o) : m.owns c = some (some o) := by
  unfold Maps.own at h
  cases hc : m.owns c with
  | none => rw [hc] at h; simp at h
  | some x => rw [hc] at h; simp at h; rw [h]

/-- The key of an entry of the maps. -/
theorem Good.key (hg : Good def? q qs m) {c : Cons} {o : Origin} (h : m.own c = some o) : ∃ s, m.T s = some o ∧ Kd def? q qs c s := by
  have h := of_own h
  obtain ⟨s, r, hs⟩ := hg.own c _ h
  obtain ⟨_, _, _, _, h5⟩ := hg.ent c s r hs
  exact ⟨s, hg.T_has ⟨r, hs⟩ h, h5⟩

theorem ins_id {d : Def} {c : Cons} {s : Nm} (h : d.ins c s) {id : Nat} (hc : c = .nd id ∨ ∃ b, c = .rg id b) : d.id = some id := by
  cases d <;> simp only [Def.ins, Def.id] at h ⊢
  case store =>
    rcases hc with rfl | ⟨b, rfl⟩
    · have := h.1; injection this with this; rw [this]
    · simp at h
  case load =>
    rcases hc with rfl | ⟨b, rfl⟩
    · have := h.1; injection this with this; rw [this]
    · simp at h
  case join =>
    rcases hc with rfl | ⟨b, rfl⟩
    · have := h.1; injection this with this; rw [this]
    · simp at h
  case gamma =>
    obtain ⟨b', h, -⟩ := h
    rcases hc with rfl | ⟨b, rfl⟩
    · simp at h
    · injection h with h; rw [h]
  case thetaOut =>
    rcases hc with rfl | ⟨b, rfl⟩ <;> rcases h with ⟨h, -⟩ | ⟨h, -⟩ <;> first | (injection h with h; rw [h]) | simp at h
  case thetaPre =>
    rcases hc with rfl | ⟨b, rfl⟩ <;> rcases h with ⟨h, -⟩ | ⟨h, -⟩ <;> first | (injection h with h; rw [h]) | simp at h

end

mutual

theorem tokN_of {vals : Nat → Option Nm} {def? : Nm → Def} {q : Query} {qs : List Nm} {m : Maps} (hg : Good def? q qs m) (hp : m.posts = [])
    (hqs : qs ≠ []) (hq : ∀ i ∈ qs, m.Has (.nd q.id) i) {regions : Nat → Nat} {st : Made}
    (hcl : st.Closed m.own regions q.id) {reset : Nat → Prop} :
    ∀ (nd : Node) {Γ : Scope}, nd.wf vals Γ → nd.defd def? q qs regions → nd.border m.traced reset Γ → nd.tok q m.T m.own st.created reset Γ
  | .op f args outs, Γ, hw, hd, hb => by
    simp only [Node.tok, Node.defd] at hd ⊢
    exact fun o ho => hg.T_other (hd o ho)
  | .store id a v t sts, Γ, hw, hd, hb => by
    simp only [Node.tok, Node.defd] at hd ⊢
    intro s hs r hr
    have := hg.T_some hr
    simp only [Just, hd s hs] at this
    rcases this with h | ⟨h1, h2, h3⟩
    · exact Or.inl h
    · exact Or.inr ⟨h1, hg.T_has h2 h3⟩
  | .load id a out t sts, Γ, hw, hd, hb => by
    simp only [Node.tok, Node.defd] at hd ⊢
    refine ⟨hg.T_other hd.1, fun s hs r hr => ?_, fun hid => ?_⟩
    · have := hg.T_some hr
      simp only [Just, hd.2.1 s hs] at this
      split at this
      next hc => exact Or.inl ⟨hc.1, hc.2, this⟩
      next => exact Or.inr (hg.T_has this.1 this.2)
    · have hst := hd.2.2 hid
      obtain ⟨i0, hi0⟩ := List.exists_mem_of_ne_nil _ hqs
      obtain ⟨r, hr⟩ := hq i0 hi0
      obtain ⟨o, -, h2, -, -⟩ := hg.ent _ _ _ hr
      subst hid
      refine ⟨o, own_of h2, hcl.load o (own_of h2), fun s hs => hg.T_has (hq s.1 ?_) h2⟩
      rw [← hst]
      exact List.mem_map_of_mem hs
  | .join id ins out, Γ, hw, hd, hb => by
    simp only [Node.tok, Node.defd] at hd ⊢
    intro r hr
    have := hg.T_some hr
    simp only [Just, hd] at this
    exact ⟨this.1, fun i hi => hg.T_has (this.2.1 i hi) this.2.2⟩
  | .alloca f args a st, Γ, hw, hd, hb => by
    simp only [Node.tok, Node.defd] at hd ⊢
    refine ⟨hg.T_other hd.1, fun r hr => ?_⟩
    have := hg.T_some hr
    simpa only [Just, hd.2] using this
  | .fwd _ _ _, Γ, hw, hd, hb => by simp [Node.wf] at hw
  | .gamma id p brs exits, Γ, hw, hd, hb => by
    simp only [Node.tok, Node.defd, Node.wf, Node.border] at hd hw hb ⊢
    obtain ⟨hdb, hidq, hreg, inside, hin, hex, honly⟩ := hd
    refine ⟨tokB_of hg hp hqs hq hcl brs hw.2.1 hdb hb, fun x hx r hr => ?_, fun b rb hrb => ?_, fun hcr b r hb hr => ?_⟩
    · have := hg.T_some hr
      simp only [Just, hex x hx] at this
      obtain ⟨h1, cm, h2, rfl⟩ := this
      have hlen : ∀ {b : Nat} {s : Src}, x.2[b]? = some s → b < x.2.length := fun h => by
        rw [List.getElem?_eq_some_iff] at h; exact h.1
      refine ⟨fun b br n hbr hn => ?_, ?_⟩
      · obtain ⟨n', h3, h4⟩ := h1 b _ hn
        injection h3 with h3
        subst h3
        obtain ⟨rb, h5⟩ := commonOf_all h2 b (hlen hn)
        rw [Nat.zero_add] at h5
        refine ⟨rb, own_of h5, hg.T_has h4 h5, ?_⟩
        cases cm with
        | none =>
          have h6 := (commonOf_none h2).2 b (hlen hn)
          rw [Nat.zero_add, h5] at h6
          injection h6 with h6
          injection h6 with h6
          exact Or.inr (Or.inl h6)
        | some cm =>
          cases cm with
          | none => exact Or.inl rfl
          | some o =>
            simp only [finish]
            by_cases hc : o.node.any (inside.contains ·) = true
            · rw [if_pos hc]; exact Or.inl rfl
            · rw [if_neg hc]
              have h6 := (commonOf_some h2).2.1 b rb (hlen hn) (by rw [Nat.zero_add]; exact h5)
              rcases h6 with h6 | h6
              · exact Or.inr (Or.inl h6)
              · refine Or.inr (Or.inr ⟨h6, fun k hk hmem => hc ?_⟩)
                rw [hk]
                simpa using hin br (List.mem_of_getElem? hbr) k hmem
      · cases cm with
        | none => exact Or.inr (Or.inl rfl)
        | some cm =>
          cases cm with
          | none => exact Or.inl rfl
          | some o =>
            simp only [finish]
            by_cases hc : o.node.any (inside.contains ·) = true
            · rw [if_pos hc]; exact Or.inl rfl
            · rw [if_neg hc]
              rcases (commonOf_some h2).2.2 with h3 | ⟨j, hj, h3⟩
              · simp at h3
              · rw [Nat.zero_add] at h3
                right
                have hj' : x.2[j]? = some (x.2[j]) := List.getElem?_eq_getElem hj
                obtain ⟨n, h4, h5⟩ := h1 j _ hj'
                rw [h4] at hj'
                -- the branch exists
                obtain ⟨hxl⟩ : Nonempty (x.2.length = brs.length) := by
                  exact ⟨hw.2.2.2.2.2.2 x hx⟩
                have hjb : brs[j]? = some (brs[j]'(by omega)) := List.getElem?_eq_getElem (by omega)
                exact Or.inr ⟨j, _, n, hjb, hj', hg.T_has h5 h3⟩
    · obtain ⟨s, h1, h2⟩ := hg.key hrb
      rcases h2 with ⟨h2, -⟩ | ⟨s', h2⟩
      · simp at h2
      · obtain ⟨x, hx, hdx⟩ := honly s' (ins_id h2 (Or.inr ⟨b, rfl⟩))
        rw [hdx] at h2
        obtain ⟨b', h3, h4⟩ := h2
        injection h3 with h3 h5
        subst h5
        exact ⟨x, hx, s, h4, h1⟩
    · rcases Made.created_iff.mp hcr with h | h
      · exact (hcl.gamma id h).2 b (by omega) r hr
      · exfalso
        have : ∃ s inp post, def? s = .thetaOut id inp post ∨ def? s = .thetaPre id inp post := by
          rcases (hcl.theta id h).1 with ⟨c, hc⟩ | ⟨c, hc⟩
          · exact hg.kind _ _ (of_own hc)
          · exact hg.kind _ _ (of_own hc)
        obtain ⟨s, inp, post, hs⟩ := this
        obtain ⟨x, -, hdx⟩ := honly s (by rcases hs with hs | hs <;> rw [hs] <;> rfl)
        rcases hs with hs | hs <;> rw [hs] at hdx <;> simp at hdx
  | .theta id vars body p, Γ, hw, hd, hb => by
    simp only [Node.tok, Node.defd, Node.wf, Node.border] at hd hw hb ⊢
    obtain ⟨hdb, hidq, hpre, hout, honly⟩ := hd
    have hkey : ∀ {c : Cons} {r : Origin}, (c = .nd id ∨ ∃ b, c = .rg id b) → m.own c = some r →
        ∃ v ∈ vars, ∃ s, m.T s = some r ∧ (c = .nd id ∧ v.inp = .nm s ∨ c = .rg id 0 ∧ v.post = .nm s) := by
      intro c r hc hr
      obtain ⟨s, h1, h2⟩ := hg.key hr
      rcases h2 with ⟨h2, -⟩ | ⟨s', h2⟩
      · rcases hc with hc | ⟨b, hc⟩
        · rw [hc] at h2
          injection h2 with h2
          exact absurd h2 hidq
        · rw [hc] at h2; simp at h2
      · obtain ⟨v, hv, hdv⟩ := honly s' (ins_id h2 hc)
        rcases hdv with hdv | hdv <;> rw [hdv] at h2 <;> exact ⟨v, hv, s, h1, h2⟩
    refine ⟨tokL_of hg hp hqs hq hcl body hw.2.2.2.2.2.2.1 hdb hb.1, fun v hv r hr => ?_, fun v hv r hr => ?_, fun r hr => ?_, fun r hr => ?_,
      fun hre => ⟨fun s hs => hg.T_traced ((hb.2 hre).1 s hs), fun v hv => hg.T_traced ((hb.2 hre).2 v hv)⟩, fun hcr => ?_⟩
    · have := hg.T_some hr
      simp only [Just, hpre v hv] at this
      obtain ⟨h0, i, k, h1, h2, h3, h4⟩ := this
      refine ⟨h0, i, k, h1, h2, ?_, ?_⟩
      · obtain ⟨r', hr'⟩ := h3
        obtain ⟨o, -, h6, -, -⟩ := hg.ent _ _ _ hr'
        exact ⟨o, hg.T_has ⟨r', hr'⟩ h6, own_of h6⟩
      · rcases h4 with h4 | h4
        · rw [hp] at h4; simp at h4
        · obtain ⟨r', hr'⟩ := h4
          obtain ⟨o, -, h6, -, -⟩ := hg.ent _ _ _ hr'
          exact ⟨o, hg.T_has ⟨r', hr'⟩ h6, own_of h6⟩
    · have := hg.T_some hr
      simp only [Just, hout v hv] at this
      obtain ⟨k, h1, h2, rk, h3, h4⟩ := this
      obtain ⟨i, h5, -⟩ := hw.1 v hv
      refine ⟨i, k, rk, h5, h1, hg.T_has h2 h3, own_of h3, ?_⟩
      split at h4
      next hc =>
        obtain ⟨i', h6, h7, h8⟩ := h4
        rw [h5] at h6
        injection h6 with h6
        subst h6
        exact Or.inr ⟨hc, hg.T_has h7 h8, own_of h8⟩
      next => exact Or.inl h4
    · obtain ⟨v, hv, s, h1, h2⟩ := hkey (Or.inl rfl) hr
      rcases h2 with ⟨-, h2⟩ | ⟨h2, -⟩
      · exact ⟨v, hv, s, h2, h1⟩
      · simp at h2
    · obtain ⟨v, hv, s, h1, h2⟩ := hkey (Or.inr ⟨0, rfl⟩) hr
      rcases h2 with ⟨h2, -⟩ | ⟨-, h2⟩
      · simp at h2
      · exact ⟨v, hv, s, h2, h1⟩
    · rcases Made.created_iff.mp hcr with h | h
      · exfalso
        obtain ⟨⟨c, hc⟩, -⟩ := hcl.gamma id h
        obtain ⟨s, rs, inside, hs⟩ := hg.kind _ _ (of_own hc)
        obtain ⟨x, -, hdx⟩ := honly s (by rw [hs]; rfl)
        rw [hs] at hdx
        rcases hdx with hdx | hdx <;> simp at hdx
      · exact (hcl.theta id h).2

theorem tokL_of {vals : Nat → Option Nm} {def? : Nm → Def} {q : Query} {qs : List Nm} {m : Maps} (hg : Good def? q qs m) (hp : m.posts = [])
    (hqs : qs ≠ []) (hq : ∀ i ∈ qs, m.Has (.nd q.id) i) {regions : Nat → Nat} {st : Made}
    (hcl : st.Closed m.own regions q.id) {reset : Nat → Prop} :
    ∀ (ns : List Node) {Γ : Scope}, wfL vals Γ ns → defdL def? q qs regions ns → borderL m.traced reset Γ ns → tokL q m.T m.own st.created reset Γ ns
  | [], _, _, _, _ => trivial
  | n :: ns, Γ, hw, hd, hb => ⟨tokN_of hg hp hqs hq hcl n hw.1 hd.1 hb.1, tokL_of hg hp hqs hq hcl ns hw.2 hd.2 hb.2⟩

theorem tokB_of {vals : Nat → Option Nm} {def? : Nm → Def} {q : Query} {qs : List Nm} {m : Maps} (hg : Good def? q qs m) (hp : m.posts = [])
    (hqs : qs ≠ []) (hq : ∀ i ∈ qs, m.Has (.nd q.id) i) {regions : Nat → Nat} {st : Made}
    (hcl : st.Closed m.own regions q.id) {reset : Nat → Prop} :
    ∀ (bs : List (List Node)) {Γ : Scope}, wfB vals Γ bs → defdB def? q qs regions bs → borderB m.traced reset Γ bs → tokB q m.T m.own st.created reset Γ bs
  | [], _, _, _, _ => trivial
  | b :: bs, Γ, hw, hd, hb => ⟨tokL_of hg hp hqs hq hcl b hw.1 hd.1 hb.1, tokB_of hg hp hqs hq hcl bs hw.2 hd.2 hb.2⟩

end

end Jlm.Opt.Svf
