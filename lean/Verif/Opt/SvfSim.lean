import Verif.Opt.SvfSound

set_option linter.unusedSimpArgs false
set_option linter.unusedVariables false

/-!
# Store value forwarding: simulation
-/

namespace Jlm.Opt.Svf

variable {S : Sem}

/-! ## Scopes -/

theorem after_mono {ns : List Node} : ∀ {Γ : Scope} {m : Nm}, Γ m → after Γ ns m := by
  induction ns with
  | nil => exact fun h => h
  | cons n ns ih => exact fun h => ih (Or.inl h)

theorem adds_x {vals : Nat → Option Nm} {Γ : Scope} {nd : Node} (hw : nd.wf vals Γ) {id : Nat} (h : Nm.x id ∈ nd.adds) : nd.id? = some id := by
  have hO : ∀ {ns : List Nm}, Γ.fresh ns → Nm.x id ∉ ns := fun hf hm => (hf.2 _ hm).2
  cases nd <;> simp only [Node.wf] at hw <;> simp only [Node.adds, Node.id?] at h ⊢
  case op => exact absurd h (hO hw.2)
  case store =>
    rcases List.mem_cons.mp h with h | h
    · injection h with h; rw [h]
    · exact absurd h (hO hw.2.2.2.1)
  case load =>
    rcases List.mem_cons.mp h with h | h
    · injection h with h; rw [h]
    · exact absurd h (hO hw.2.2.1)
  case join => exact absurd h (hO hw.2)
  case alloca => exact absurd h (hO hw.2)
  case gamma =>
    rcases List.mem_cons.mp h with h | h
    · injection h with h; rw [h]
    · exact absurd h (hO hw.2.2.1)
  case theta =>
    rcases List.mem_cons.mp h with h | h
    · injection h with h; rw [h]
    · exact absurd h (hO hw.2.2.1)

theorem adds_p {vals : Nat → Option Nm} {Γ : Scope} {nd : Node} (hw : nd.wf vals Γ) {id : Nat} : Nm.p id ∉ nd.adds := by
  intro h
  have hO : ∀ {ns : List Nm}, Γ.fresh ns → Nm.p id ∉ ns := fun hf hm => (hf.2 _ hm).2
  cases nd <;> simp only [Node.wf] at hw <;> simp only [Node.adds] at h
  case op => exact absurd h (hO hw.2)
  case store =>
    rcases List.mem_cons.mp h with h | h
    · simp at h
    · exact absurd h (hO hw.2.2.2.1)
  case load =>
    rcases List.mem_cons.mp h with h | h
    · simp at h
    · exact absurd h (hO hw.2.2.1)
  case join => exact absurd h (hO hw.2)
  case alloca => exact absurd h (hO hw.2)
  case gamma =>
    rcases List.mem_cons.mp h with h | h
    · simp at h
    · exact absurd h (hO hw.2.2.1)
  case theta =>
    rcases List.mem_cons.mp h with h | h
    · simp at h
    · exact absurd h (hO hw.2.2.1)

theorem after_x {vals : Nat → Option Nm} {ns : List Node} : ∀ {Γ : Scope}, wfL vals Γ ns → ∀ {id : Nat}, after Γ ns (.x id) →
    Γ (.x id) ∨ id ∈ ids ns := by
  induction ns with
  | nil => exact fun _ _ h => Or.inl h
  | cons n ns ih =>
    intro Γ hw id h
    simp only [wfL] at hw
    rcases ih hw.2 h with (h | h) | h
    · exact Or.inl h
    · exact Or.inr (List.mem_filterMap.mpr ⟨n, List.mem_cons_self .., adds_x hw.1 h⟩)
    · obtain ⟨a, h1, h2⟩ := List.mem_filterMap.mp h
      exact Or.inr (List.mem_filterMap.mpr ⟨a, List.mem_cons_of_mem _ h1, h2⟩)

theorem after_p {vals : Nat → Option Nm} {ns : List Node} : ∀ {Γ : Scope}, wfL vals Γ ns → ∀ {id : Nat}, after Γ ns (.p id) → Γ (.p id) := by
  induction ns with
  | nil => exact fun _ _ h => h
  | cons n ns ih =>
    intro Γ hw id h
    simp only [wfL] at hw
    rcases ih hw.2 h with h | h
    · exact h
    · exact absurd h (adds_p hw.1)

/-- An origin outside of the region was in scope before. -/
theorem inScope_back {vals : Nat → Option Nm} {ns : List Node} {Γ : Scope} (hw : wfL vals Γ ns) {r : Origin}
    (hr : r.inScope vals (after Γ ns)) (hi : ∀ k, r.node = some k → k ∉ ids ns) : r.inScope vals Γ := by
  cases r <;> simp only [Origin.inScope, Origin.node] at hr hi ⊢
  case thetaPre => exact ⟨hr.1, after_p hw hr.2⟩
  all_goals exact ⟨hr.1, (after_x hw hr.2).resolve_right (hi _ rfl)⟩

/-- The origins of the outputs in scope are in scope. -/
structure Sc (vals : Nat → Option Nm) (T : Nm → Option Origin) (Γ : Scope) : Prop where
  scope : ∀ s, Γ.has s → ∀ r, T s = some r → r.inScope vals Γ

theorem Sc.add {vals : Nat → Option Nm} {T : Nm → Option Origin} {Γ : Scope} (h : Sc vals T Γ) (ns : List Nm)
    (hn : ∀ s ∈ ns, s.isO → ∀ r, T s = some r → r.inScope vals (Γ.add ns)) : Sc vals T (Γ.add ns) where
  scope := by
    rintro s ⟨hs | hs, hO⟩ r hr
    · exact inScope_mono (fun _ h => Or.inl h) (h.scope s ⟨hs, hO⟩ r hr)
    · exact hn s hs hO r hr

theorem wfB_get {vals : Nat → Option Nm} {Γ : Scope} : ∀ {bs : List (List Node)} {b : Nat} {br : List Node}, wfB vals Γ bs → bs[b]? = some br →
    wfL vals Γ br
  | [], _, _, _, h => by simp at h
  | x :: bs, 0, br, hw, h => by
    simp only [List.getElem?_cons_zero, Option.some.injEq] at h
    subst h
    exact hw.1
  | x :: bs, b + 1, br, hw, h => wfB_get (bs := bs) hw.2 (by simpa using h)

theorem tokB_get {q : Query} {T : Nm → Option Origin} {own : Cons → Option Origin} {created : Nat → Bool} {reset : Nat → Prop} {Γ : Scope} :
    ∀ {bs : List (List Node)} {b : Nat} {br : List Node}, tokB q T own created reset Γ bs → bs[b]? = some br → tokL q T own created reset Γ br
  | [], _, _, _, h => by simp at h
  | x :: bs, 0, br, hw, h => by
    simp only [List.getElem?_cons_zero, Option.some.injEq] at h
    subst h
    exact hw.1
  | x :: bs, b + 1, br, hw, h => tokB_get (bs := bs) hw.2 (by simpa using h)

theorem forwardB_get {L : Nat} {own : Cons → Option Origin} {created : Nat → Bool} :
    ∀ {bs : List (List Node)} {b : Nat} {br : List Node}, bs[b]? = some br → (forwardB L own created bs)[b]? = some (forwardL L own created br)
  | [], _, _, h => by simp at h
  | x :: bs, 0, br, h => by
    simp only [List.getElem?_cons_zero, Option.some.injEq] at h
    subst h
    simp [forwardB]
  | x :: bs, b + 1, br, h => by
    simp only [forwardB, List.getElem?_cons_succ]
    exact forwardB_get (bs := bs) (by simpa using h)

/-- The origin of an exit variable, if it is not the gamma node itself. -/
theorem gamma_scope {vals : Nat → Option Nm} {q : Query} {T : Nm → Option Origin} {own : Cons → Option Origin} {created : Nat → Bool} {reset : Nat → Prop}
    {Γ : Scope} {id : Nat} {p : Nm} {brs : List (List Node)} {exits : List (Nm × List Src)}
    (hw : (Node.gamma id p brs exits).wf vals Γ) (ht : (Node.gamma id p brs exits).tok q T own created reset Γ)
    (hsc : ∀ (b : Nat) (br : List Node), brs[b]? = some br → Sc vals T (after Γ br)) {x : Nm × List Src} (hx : x ∈ exits) {r : Origin} (hr : T x.1 = some r) :
    r = .gammaOut id ∨ r.inScope vals Γ := by
  simp only [Node.wf, Node.tok] at hw ht
  obtain ⟨h1, h2⟩ := ht.2.1 x hx r hr
  rcases h2 with h2 | h2 | ⟨b, br, n, hb, hn, hT⟩
  · exact Or.inl h2
  · subst h2; exact Or.inr trivial
  · obtain ⟨rb, -, hTn, h3⟩ := h1 b br n hb hn
    rw [hT] at hTn
    injection hTn with hTn
    rcases h3 with h3 | h3 | ⟨-, h3⟩
    · exact Or.inl h3
    · rw [hTn, h3]; exact Or.inr trivial
    · obtain ⟨s, hs, k, hk, hin⟩ := hw.2.2.2.2.2.1 x hx b br hb
      rw [hn] at hs
      injection hs with hs
      rw [hk] at hs
      injection hs with hs
      subst hs
      exact Or.inr (inScope_back (wfB_get hw.2.1 hb) ((hsc b br hb).scope n hin r hT) h3)

mutual

theorem scN {vals : Nat → Option Nm} {q : Query} {T : Nm → Option Origin} {own : Cons → Option Origin} {created : Nat → Bool} {reset : Nat → Prop} :
    ∀ (nd : Node) {Γ : Scope}, Sc vals T Γ → nd.wf vals Γ → nd.tok q T own created reset Γ → Sc vals T (Γ.add nd.adds)
  | .op f args outs, Γ, hs, hw, ht => hs.add _ (by
      intro s hm _ r hr
      simp only [Node.tok] at ht
      rw [ht s hm] at hr
      simp at hr)
  | .store id a v t sts, Γ, hs, hw, ht => hs.add _ (by
      intro s hm hO r hr
      simp only [Node.tok, Node.wf] at ht hw
      simp only [Node.adds, List.mem_cons, List.mem_map] at hm
      rcases hm with rfl | ⟨x, hx, rfl⟩
      · simp [Nm.isO] at hO
      · rcases ht x hx r hr with ⟨_, _, rfl⟩ | ⟨_, h⟩
        · exact ⟨hw.2.2.2.2.2, Or.inr (List.mem_cons_self ..)⟩
        · exact inScope_mono (fun _ h => Or.inl h) (hs.scope _ (hw.2.2.1 x hx) r h))
  | .load id a out t sts, Γ, hs, hw, ht => hs.add _ (by
      intro s hm hO r hr
      simp only [Node.tok, Node.wf] at ht hw
      simp only [Node.adds, List.mem_cons, List.mem_map] at hm
      rcases hm with rfl | rfl | ⟨x, hx, rfl⟩
      · simp [Nm.isO] at hO
      · rw [ht.1] at hr; simp at hr
      · rcases ht.2.1 x hx r hr with ⟨_, _, rfl⟩ | h
        · exact ⟨hw.2.2.2.2, Or.inr (List.mem_cons_self ..)⟩
        · exact inScope_mono (fun _ h => Or.inl h) (hs.scope _ (hw.2.1 x hx) r h))
  | .join id ins out, Γ, hs, hw, ht => hs.add _ (by
      intro s hm hO r hr
      simp only [Node.tok, Node.wf] at ht hw
      simp only [Node.adds, List.mem_singleton] at hm
      subst hm
      obtain ⟨hne, h⟩ := ht r hr
      obtain ⟨i, hi⟩ := List.exists_mem_of_ne_nil _ hne
      exact inScope_mono (fun _ h => Or.inl h) (hs.scope _ (hw.1 i hi) r (h i hi)))
  | .alloca f args a st, Γ, hs, hw, ht => hs.add _ (by
      intro s hm hO r hr
      simp only [Node.tok, Node.wf] at ht hw
      simp only [Node.adds, List.mem_cons, List.not_mem_nil, or_false] at hm
      rcases hm with rfl | rfl
      · rw [ht.1] at hr; simp at hr
      · rw [ht.2 r hr]; trivial)
  | .fwd _ _ _, Γ, hs, hw, ht => by simp [Node.wf] at hw
  | .gamma id p brs exits, Γ, hs, hw, ht => hs.add _ (by
      have hB := scB (q := q) (own := own) (created := created) (reset := reset) brs hs (by simp only [Node.wf] at hw; exact hw.2.1)
        (by simp only [Node.tok] at ht; exact ht.1)
      intro s hm hO r hr
      simp only [Node.adds, List.mem_cons, List.mem_map] at hm
      rcases hm with rfl | ⟨x, hx, rfl⟩
      · simp [Nm.isO] at hO
      · rcases gamma_scope hw ht hB hx hr with rfl | h
        · simp only [Node.wf] at hw
          exact ⟨hw.2.2.2.2.1, Or.inr (List.mem_cons_self ..)⟩
        · exact inScope_mono (fun _ h => Or.inl h) h)
  | .theta id vars body p, Γ, hs, hw, ht => hs.add _ (by
      intro s hm hO r hr
      simp only [Node.tok, Node.wf] at ht hw
      simp only [Node.adds, List.mem_cons, List.mem_map] at hm
      rcases hm with rfl | ⟨v, hv, rfl⟩
      · simp [Nm.isO] at hO
      · obtain ⟨i, k, rk, hi, hk, _, _, h⟩ := ht.2.2.1 v hv r hr
        rcases h with rfl | ⟨_, h, _⟩
        · exact ⟨hw.2.2.2.2.2.1, Or.inr (List.mem_cons_self ..)⟩
        · obtain ⟨i', hi', hin⟩ := hw.1 v hv
          rw [hi] at hi'
          injection hi' with hi'
          subst hi'
          exact inScope_mono (fun _ h => Or.inl h) (hs.scope _ hin r h))

theorem scL {vals : Nat → Option Nm} {q : Query} {T : Nm → Option Origin} {own : Cons → Option Origin} {created : Nat → Bool} {reset : Nat → Prop} :
    ∀ (ns : List Node) {Γ : Scope}, Sc vals T Γ → wfL vals Γ ns → tokL q T own created reset Γ ns → Sc vals T (after Γ ns)
  | [], Γ, hs, _, _ => hs
  | n :: ns, Γ, hs, hw, ht => scL ns (scN n hs hw.1 ht.1) hw.2 ht.2

theorem scB {vals : Nat → Option Nm} {q : Query} {T : Nm → Option Origin} {own : Cons → Option Origin} {created : Nat → Bool} {reset : Nat → Prop} :
    ∀ (bs : List (List Node)) {Γ : Scope}, Sc vals T Γ → wfB vals Γ bs → tokB q T own created reset Γ bs →
      ∀ (b : Nat) (br : List Node), bs[b]? = some br → Sc vals T (after Γ br)
  | [], Γ, hs, _, _, b, br, h => by simp at h
  | x :: bs, Γ, hs, hw, ht, b, br, h => by
    cases b with
    | zero =>
      simp only [List.getElem?_cons_zero, Option.some.injEq] at h
      subst h
      exact scL x hs hw.1 ht.1
    | succ b => exact scB bs hs hw.2 ht.2 b br (by simpa using h)

end

/-! ## Values -/

theorem le_word {c : S.W} {d : D S} (h : D.le (.w (some c)) d) : d = .w (some c) := by
  cases d with
  | w y =>
    rcases h with h | h
    · simp at h
    · rw [h]
  | mem m => exact h.elim

theorem le_w {x : Option S.W} {d : D S} (h : D.le (.w x) d) : ∃ y, d = .w y ∧ leV x y := by
  cases d with
  | w y => exact ⟨y, rfl, h⟩
  | mem m => exact h.elim

theorem le_mem {m : S.M} {d : D S} (h : D.le (.mem m) d) : ∃ m', d = .mem m' ∧ S.leM m m' := by
  cases d with
  | w y => exact h.elim
  | mem m' => exact ⟨m', rfl, h⟩

theorem leV_trans {α : Type} {x y z : Option α} (h1 : leV x y) (h2 : leV y z) : leV x z := by
  rcases h1 with h1 | h1
  · exact Or.inl h1
  · rw [h1]; exact h2

/-- A function of the memory of a state. -/
def memD (g : S.M → D S) : D S → D S
  | .mem m => g m
  | d => d

theorem memsOf_le {eS eT : Env S} : ∀ {ns : List Nm} {ms : List S.M}, (∀ n ∈ ns, (eS n).le (eT n)) → memsOf eS ns = some ms →
    ∃ ms', memsOf eT ns = some ms' ∧ List.Forall₂ S.leM ms ms'
  | [], ms, _, h => by
    simp only [memsOf, Option.some.injEq] at h
    subst h
    exact ⟨[], rfl, .nil⟩
  | n :: ns, ms, hle, h => by
    simp only [memsOf] at h
    have hn := hle n (List.mem_cons_self ..)
    cases h1 : eS n with
    | w x => rw [h1] at h; simp at h
    | mem m =>
      cases h2 : memsOf eS ns with
      | none => rw [h1, h2] at h; simp at h
      | some ms0 =>
        rw [h1, h2] at h
        simp only [Option.some.injEq] at h
        subst h
        rw [h1] at hn
        obtain ⟨m', hm', hl⟩ := le_mem hn
        obtain ⟨ms', h3, h4⟩ := memsOf_le (fun k hk => hle k (List.mem_cons_of_mem _ hk)) h2
        exact ⟨m' :: ms', by simp [memsOf, hm', h3], .cons hl h4⟩

theorem memsOf_zip {e : Env S} (g : S.M → D S) : ∀ {sts : List (Nm × Nm)} {ms : List S.M}, memsOf e (sts.map (·.1)) = some ms →
    (sts.map (·.2)).zip (ms.map g) = sts.map fun s => (s.2, memD g (e s.1))
  | [], ms, h => by simp
  | s :: sts, ms, h => by
    simp only [List.map_cons, memsOf] at h
    cases h1 : e s.1 with
    | w x => rw [h1] at h; simp at h
    | mem m =>
      cases h2 : memsOf e (sts.map (·.1)) with
      | none => rw [h1, h2] at h; simp at h
      | some ms0 =>
        rw [h1, h2] at h
        simp only [Option.some.injEq] at h
        subst h
        simp only [List.map_cons, List.zip_cons_cons, memsOf_zip g h2, h1, memD]

theorem memsOf_mem {e : Env S} : ∀ {ns : List Nm} {ms : List S.M}, memsOf e ns = some ms → ∀ n ∈ ns, ∃ m ∈ ms, e n = .mem m
  | [], ms, _, n, hn => by simp at hn
  | k :: ns, ms, h, n, hn => by
    simp only [memsOf] at h
    cases h1 : e k with
    | w x => rw [h1] at h; simp at h
    | mem m =>
      cases h2 : memsOf e ns with
      | none => rw [h1, h2] at h; simp at h
      | some ms0 =>
        rw [h1, h2] at h
        simp only [Option.some.injEq] at h
        subst h
        rcases List.mem_cons.mp hn with rfl | hn
        · exact ⟨m, List.mem_cons_self .., h1⟩
        · obtain ⟨m', h3, h4⟩ := memsOf_mem h2 n hn
          exact ⟨m', List.mem_cons_of_mem _ h3, h4⟩

theorem mem_memsOf {e : Env S} : ∀ {ns : List Nm} {ms : List S.M}, memsOf e ns = some ms → ∀ m ∈ ms, ∃ n ∈ ns, e n = .mem m
  | [], ms, h, m, hm => by
    simp only [memsOf, Option.some.injEq] at h
    subst h
    simp at hm
  | k :: ns, ms, h, m, hm => by
    simp only [memsOf] at h
    cases h1 : e k with
    | w x => rw [h1] at h; simp at h
    | mem m0 =>
      cases h2 : memsOf e ns with
      | none => rw [h1, h2] at h; simp at h
      | some ms0 =>
        rw [h1, h2] at h
        simp only [Option.some.injEq] at h
        subst h
        rcases List.mem_cons.mp hm with rfl | hm
        · exact ⟨k, List.mem_cons_self .., h1⟩
        · obtain ⟨n, h3, h4⟩ := mem_memsOf h2 m hm
          exact ⟨n, List.mem_cons_of_mem _ h3, h4⟩

theorem reads_le {ops : Ops S} (laws : S.Laws ops) {a : S.W} {t : Ty} {ms ms' : List S.M} (h : List.Forall₂ S.leM ms ms') :
    List.Forall₂ leV (ms.filterMap (S.rd · a t)) (ms'.filterMap (S.rd · a t)) := by
  induction h with
  | nil => exact .nil
  | @cons m m' ms ms' h _ ih =>
    obtain ⟨h1, h2⟩ := laws.rd_le m m' a t h
    cases hr : S.rd m a t with
    | none => simpa only [List.filterMap_cons, hr, h1 hr] using ih
    | some c =>
      obtain ⟨c', h3, h4⟩ := h2 c hr
      simp only [List.filterMap_cons, hr, h3]
      exact .cons h4 ih

theorem loadVal_le {ops : Ops S} (laws : S.Laws ops) {a : S.W} {t : Ty} {ms ms' : List S.M} (h : List.Forall₂ S.leM ms ms') {c : Option S.W}
    (hl : loadVal ms a t = some c) : ∃ c', loadVal ms' a t = some c' ∧ leV c c' := by
  have hr := reads_le laws (a := a) (t := t) h
  unfold loadVal at hl ⊢
  revert hl hr
  generalize ms.filterMap (S.rd · a t) = xs
  generalize ms'.filterMap (S.rd · a t) = ys
  intro hl hr
  cases hr with
  | nil => simp at hl
  | cons h1 hr =>
    cases hr with
    | nil =>
      simp only [Option.some.injEq] at hl
      subst hl
      exact ⟨_, rfl, h1⟩
    | cons _ _ => simp at hl

theorem loadVal_only {ms : List S.M} {a : S.W} {t : Ty} {c : Option S.W} (h : loadVal ms a t = some c) :
    (∃ m ∈ ms, S.rd m a t = some c) ∧ ∀ m ∈ ms, ∀ c', S.rd m a t = some c' → c' = c := by
  unfold loadVal at h
  split at h
  next c0 heq =>
    injection h with h
    subst h
    constructor
    · have : c0 ∈ ms.filterMap (S.rd · a t) := by rw [heq]; exact List.mem_singleton.mpr rfl
      obtain ⟨m, h1, h2⟩ := List.mem_filterMap.mp this
      exact ⟨m, h1, h2⟩
    · intro m hm c' hc
      have : c' ∈ ms.filterMap (S.rd · a t) := List.mem_filterMap.mpr ⟨m, hm, hc⟩
      rw [heq] at this
      exact List.mem_singleton.mp this
  next => simp at h

end Jlm.Opt.Svf
