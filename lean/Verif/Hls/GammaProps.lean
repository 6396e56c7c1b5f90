import Verif.Hls.GammaSpec
set_option linter.unusedSimpArgs false
namespace Jlm.Hls.Gam
variable {V : Type} (I : Interp V)

theorem count_le (c : Nat → Bool) {a b : Nat} (h : a ≤ b) : count c a ≤ count c b := by
  induction h with
  | refl => exact Nat.le_refl _
  | step _ ih => exact Nat.le_trans ih (Nat.le_add_right _ _)

theorem count_lt (c : Nat → Bool) {a b : Nat} (h : a < b) (ha : c a = true) : count c a < count c b := by
  have : count c (a + 1) ≤ count c b := count_le c h
  have e : count c (a + 1) = count c a + 1 := by show _ + (if _ then 1 else 0) = _; rw [if_pos ha]
  omega

theorem count_inj (c : Nat → Bool) {a b : Nat} (ha : c a = true) (hb : c b = true) (h : count c a = count c b) : a = b := by
  rcases Nat.lt_trichotomy a b with h' | h' | h'
  · have := count_lt c h' ha; omega
  · exact h'
  · have := count_lt c h' hb; omega

/-- the instances of `c` that select alternative `s` -/
def sub (c : Nat → Bool) (k s : Nat) (pv : Nat → V) (i : Nat) : Bool := c i && (I.ctl k (pv i) == s)

variable {c : Nat → Bool} {pv : Nat → V} {p : Stream V}

theorem hits_count (hp : Rep c pv p) (k s i : Nat) (hi : c i = true) : hits I k s p (count c i) = (I.ctl k (pv i) == s) := by
  unfold hits
  rw [hp i hi]

theorem count_hits (hp : Rep c pv p) (k s : Nat) : ∀ i, count (hits I k s p) (count c i) = count (sub I c k s pv) i
  | 0 => rfl
  | i + 1 => by
    have ih := count_hits hp k s i
    by_cases hi : c i = true
    · have e : count c (i + 1) = count c i + 1 := by show _ + (if _ then 1 else 0) = _; rw [if_pos hi]
      rw [e]
      show count _ (count c i) + (if hits I k s p (count c i) then 1 else 0) = count _ i + if sub I c k s pv i then 1 else 0
      rw [ih, hits_count I hp k s i hi]
      unfold sub
      rw [hi, Bool.true_and]
    · have e : count c (i + 1) = count c i := by show _ + (if _ then 1 else 0) = _; rw [if_neg hi]; rfl
      rw [e, ih]
      show _ = count _ i + if sub I c k s pv i then 1 else 0
      unfold sub
      simp [hi]

theorem rep_branch (hp : Rep c pv p) {xv : Nat → V} {x : Stream V} (hx : Rep c xv x) (k s : Nat) :
    Rep (sub I c k s pv) xv (branchStream I k s p x) := by
  intro i hi
  unfold sub at hi
  rw [Bool.and_eq_true] at hi
  have h1 : hits I k s p (count c i) = true := by rw [hits_count I hp k s i hi.1]; exact hi.2
  have h2 := count_hits I hp k s i
  have h : ∃ i', hits I k s p i' = true ∧ count (hits I k s p) i' = count (sub I c k s pv) i := ⟨_, h1, h2⟩
  unfold branchStream
  rw [dif_pos h]
  have h3 := Classical.choose_spec h
  rw [count_inj _ h3.1 h1 (h3.2.trans h2.symm)]
  exact hx i hi.1

theorem rep_mux (hp : Rep c pv p) (alts : List (Stream V)) (yv : Nat → Nat → V) (hk : 0 < alts.length)
    (ha : ∀ s < alts.length, Rep (sub I c alts.length s pv) (yv s) (alts.getD s fun _ => none)) :
    Rep c (fun i => yv (I.ctl alts.length (pv i)) i) (muxStream I false p alts) := by
  intro i hi
  unfold muxStream
  rw [hp i hi]
  dsimp only
  rw [if_neg (by simp), count_hits I hp]
  exact ha _ (I.ctl_lt _ _ hk) i (by unfold sub; simp [hi])

theorem rep_mux_discard (hp : Rep c pv p) (alts : List (Stream V)) (yv : Nat → Nat → V) (hk : 0 < alts.length)
    (ha : ∀ s < alts.length, Rep c (yv s) (alts.getD s fun _ => none)) :
    Rep c (fun i => yv (I.ctl alts.length (pv i)) i) (muxStream I true p alts) := by
  intro i hi
  unfold muxStream
  rw [hp i hi]
  dsimp only
  rw [if_pos rfl, if_pos]
  · exact ha _ (I.ctl_lt _ _ hk) i hi
  · rw [List.all_eq_true]
    intro a hm
    obtain ⟨s, hs, rfl⟩ := List.getElem_of_mem hm
    have := ha s hs i hi
    rw [List.getD_eq_getElem?_getD, List.getElem?_eq_getElem hs] at this
    simp only [Option.getD_some] at this
    rw [this]; rfl

theorem rep_pointwise (f : Nat) (args : List (Stream V)) (v : List (Nat → V)) (hl : args.length = v.length)
    (h : ∀ j < args.length, Rep c (v.getD j fun _ => I.dflt) (args.getD j fun _ => none)) :
    Rep c (fun i => I.fn f (v.map fun w => w i)) (pointwise I f args) := by
  intro i hi
  have key : ∀ j (hj : j < args.length), args[j] (count c i) = some ((v[j]'(hl ▸ hj)) i) := by
    intro j hj
    have := h j hj i hi
    rw [List.getD_eq_getElem?_getD, List.getElem?_eq_getElem hj, List.getD_eq_getElem?_getD, List.getElem?_eq_getElem (hl ▸ hj)] at this
    exact this
  unfold pointwise
  rw [if_pos]
  · congr 2
    apply List.ext_getElem
    · simp [hl]
    · intro j h1 h2
      simp only [List.getElem_map]
      rw [key j (by simpa using h1)]; rfl
  · rw [List.all_eq_true]
    intro a hm
    obtain ⟨j, hj, rfl⟩ := List.getElem_of_mem hm
    rw [key j hj]; rfl

/-! ## Lists of wires -/

theorem run_length (l : List HNode) : ∀ ss, (run I l ss).length = ss.length + l.length := by
  induction l with
  | nil => intro ss; rfl
  | cons n l ih =>
    intro ss
    show (run I l (ss ++ [n.stream I ss])).length = _
    rw [ih]; simp; omega

theorem run_append (l l' : List HNode) (ss : List (Stream V)) : run I (l ++ l') ss = run I l' (run I l ss) := List.foldl_append

theorem wire_run (l : List HNode) : ∀ ss i, i < ss.length → wire (run I l ss) i = wire ss i := by
  induction l with
  | nil => intro ss i _; rfl
  | cons n l ih =>
    intro ss i hi
    show wire (run I l (ss ++ [n.stream I ss])) i = _
    rw [ih _ _ (by simp; omega)]
    unfold wire
    simp only [List.getD_eq_getElem?_getD]
    rw [List.getElem?_append_left hi]

theorem wire_last (ss : List (Stream V)) (st : Stream V) : wire (ss ++ [st]) ss.length = st := by
  unfold wire
  simp [List.getD_eq_getElem?_getD]

/-- the wires `env` carry the values `vals` for the instances `c` -/
structure Reps (c : Nat → Bool) (vals : Nat → List V) (ss : List (Stream V)) (env : List Nat) : Prop where
  length : ∀ i, (vals i).length = env.length
  lt : ∀ j < env.length, look env j < ss.length
  rep : ∀ j < env.length, Rep c (fun i => (vals i).getD j I.dflt) (wire ss (look env j))

variable {I} {vals vals' : Nat → List V} {ss : List (Stream V)} {env env' : List Nat}

theorem Reps.run (h : Reps I c vals ss env) (l : List HNode) : Reps I c vals (run I l ss) env where
  length := h.length
  lt := fun j hj => by rw [run_length]; have := h.lt j hj; omega
  rep := fun j hj => by rw [wire_run I l ss _ (h.lt j hj)]; exact h.rep j hj

theorem Reps.append (h : Reps I c vals ss env) (h' : Reps I c vals' ss env') : Reps I c (fun i => vals i ++ vals' i) ss (env ++ env') := by
  have key : ∀ j < (env ++ env').length, (j < env.length ∧ look (env ++ env') j = look env j ∧ ∀ i, (vals i ++ vals' i).getD j I.dflt = (vals i).getD j I.dflt) ∨
      (j - env.length < env'.length ∧ look (env ++ env') j = look env' (j - env.length) ∧
        ∀ i, (vals i ++ vals' i).getD j I.dflt = (vals' i).getD (j - env.length) I.dflt) := by
    intro j hj
    unfold look
    simp only [List.getD_eq_getElem?_getD]
    by_cases h1 : j < env.length
    · exact Or.inl ⟨h1, by rw [List.getElem?_append_left h1], fun i => by rw [List.getElem?_append_left (by rw [h.length]; exact h1)]⟩
    · refine Or.inr ⟨by simp at hj; omega, by rw [List.getElem?_append_right (by omega)], fun i => ?_⟩
      rw [List.getElem?_append_right (by rw [h.length]; omega), h.length]
  refine ⟨fun i => by simp [h.length, h'.length], ?_, ?_⟩
  · intro j hj
    rcases key j hj with ⟨h1, h2, _⟩ | ⟨h1, h2, _⟩
    · rw [h2]; exact h.lt j h1
    · rw [h2]; exact h'.lt _ h1
  · intro j hj
    rcases key j hj with ⟨h1, h2, h3⟩ | ⟨h1, h2, h3⟩
    · rw [h2]; simp only [h3]; exact h.rep j h1
    · rw [h2]; simp only [h3]; exact h'.rep _ h1

theorem Reps.map (h : Reps I c vals ss env) (rs : List Nat) (hr : ∀ i ∈ rs, i < env.length) :
    Reps I c (fun i => rs.map fun j => (vals i).getD j I.dflt) ss (rs.map (look env)) := by
  have key : ∀ j (hj : j < rs.length), look (rs.map (look env)) j = look env rs[j] ∧
      ∀ i, (rs.map fun j => (vals i).getD j I.dflt).getD j I.dflt = (vals i).getD rs[j] I.dflt := by
    intro j hj
    constructor
    · conv => lhs; unfold look
      rw [List.getD_eq_getElem?_getD, List.getElem?_map, List.getElem?_eq_getElem hj]; rfl
    · intro i
      rw [List.getD_eq_getElem?_getD, List.getElem?_map, List.getElem?_eq_getElem hj]; rfl
  refine ⟨fun i => by simp, ?_, ?_⟩
  · intro j hj
    rw [List.length_map] at hj
    rw [(key j hj).1]
    exact h.lt _ (hr _ (List.getElem_mem hj))
  · intro j hj
    rw [List.length_map] at hj
    rw [(key j hj).1]
    simp only [(key j hj).2]
    exact h.rep _ (hr _ (List.getElem_mem hj))

/-- nodes that are added together and do not read each other -/
theorem reps_new (l : List HNode) : ∀ (ss : List (Stream V)) (vals : Nat → List V), (∀ i, (vals i).length = l.length) →
    (∀ j (hj : j < l.length) l', Rep c (fun i => (vals i).getD j I.dflt) (l[j].stream I (run I l' ss))) →
    Reps I c vals (run I l ss) ((List.range l.length).map fun j => ss.length + j) := by
  have hlook : ∀ (n b j : Nat), j < n → look ((List.range n).map fun j => b + j) j = b + j := by
    intro n b j hj
    unfold look
    rw [List.getD_eq_getElem?_getD, List.getElem?_map, List.getElem?_range hj]; rfl
  intro ss vals hlen h
  refine ⟨fun i => by simp [hlen], ?_, ?_⟩
  · intro j hj
    simp at hj
    rw [hlook _ _ _ hj, run_length]; omega
  · intro j hj
    simp at hj
    rw [hlook _ _ _ hj]
    have e : l = l.take j ++ l[j] :: l.drop (j + 1) := by simp
    have e2 : run I l ss = run I (l.drop (j + 1)) (run I (l.take j) ss ++ [l[j].stream I (run I (l.take j) ss)]) := by
      conv => lhs; rw [e]
      rw [run_append]; rfl
    have hl : (run I (l.take j) ss).length = ss.length + j := by rw [run_length]; simp; omega
    rw [e2, wire_run _ _ _ _ (by simp [hl]), ← hl, wire_last]
    exact h j hj _

end Jlm.Hls.Gam
