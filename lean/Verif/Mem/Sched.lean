import Verif.Mem.NormSpec
import Mathlib.Data.List.Nodup
/-
Every schedule of a region without races gives the same result.
-/
set_option linter.unusedSimpArgs false
set_option linter.unusedVariables false
namespace Jlm.Mem

variable {V B : Type} {sem : Sem V B}

/-! ### Operations are local -/

theorem apply_frame (op : Op) (vs : List V) (m : Memory B) (b : Nat)
    (h : ¬ sem.writes op vs b) : (sem.apply op vs m).2 b = m b := by
  unfold Sem.apply
  split <;> simp only [Sem.writes] at h <;> try rfl
  · simp only [if_neg h]
  · exact sem.frame _ _ _ _ h

theorem apply_vals (op : Op) (vs : List V) (m m' : Memory B)
    (h : ∀ b, sem.reads op vs b → m b = m' b) :
    (sem.apply op vs m).1 = (sem.apply op vs m').1 := by
  cases op with
  | load t =>
    match vs with
    | [] => rfl
    | [a] =>
      show [sem.dec t _] = [sem.dec t _]
      congr 1
      apply sem.dec_local
      intro i hi
      exact h _ ⟨by omega, by omega⟩
    | _ :: _ :: _ => rfl
  | store t =>
    match vs with
    | [] => rfl
    | [_] => rfl
    | [_, _] => rfl
    | _ :: _ :: _ :: _ => rfl
  | other c => exact sem.local_values _ _ _ _ h
  | alloca a => rfl
  | merge => rfl
  | join => rfl
  | split k => rfl
  | exitMerge => rfl
  | undef => rfl

theorem apply_mem (op : Op) (vs : List V) (m m' : Memory B)
    (h : ∀ b, sem.reads op vs b → m b = m' b) (b : Nat) (hw : sem.writes op vs b) :
    (sem.apply op vs m).2 b = (sem.apply op vs m').2 b := by
  cases op with
  | store t =>
    match vs with
    | [] => exact hw.elim
    | [_] => exact hw.elim
    | [a, v] =>
      have hw' : sem.within t a b := hw
      show (if sem.within t a b then _ else _) = (if sem.within t a b then _ else _)
      rw [if_pos hw', if_pos hw']
    | _ :: _ :: _ :: _ => exact hw.elim
  | other c => exact sem.local_memory _ _ _ _ h b hw
  | load t =>
    match vs with
    | [] => exact hw.elim
    | [_] => exact hw.elim
    | _ :: _ :: _ => exact hw.elim
  | alloca a => exact hw.elim
  | merge => exact hw.elim
  | join => exact hw.elim
  | split k => exact hw.elim
  | exitMerge => exact hw.elim
  | undef => exact hw.elim

/-! ### Values are written once -/

theorem step_env_other (s : State V B) (x : Node) (v : VOut) (h : x.id ∉ v.owners) :
    (step sem s x).env v = s.env v := by
  cases v with
  | arg i => rfl
  | res i k =>
    simp only [VOut.owners, List.mem_singleton] at h
    simp only [step, if_neg (Ne.symm h)]

theorem exec_env_other (l : List Node) (s : State V B) (v : VOut)
    (h : ∀ i ∈ v.owners, i ∉ l.map Node.id) : (exec sem s l).env v = s.env v := by
  induction l generalizing s with
  | nil => rfl
  | cons x l ih =>
    show (exec sem (step sem s x) l).env v = _
    rw [ih]
    · apply step_env_other
      intro hx
      exact h _ hx (by simp)
    · intro i hi hl
      exact h i hi (by simp at hl ⊢; exact Or.inr hl)

theorem exec_append (s : State V B) (l l' : List Node) :
    exec sem s (l ++ l') = exec sem (exec sem s l) l' := by
  simp [exec, List.foldl_append]

theorem exec_cons (s : State V B) (x : Node) (l : List Node) :
    exec sem s (x :: l) = exec sem (step sem s x) l := rfl

theorem map_env_congr {e e' : VOut → V} {vals : List VOut} (h : ∀ v ∈ vals, e v = e' v) :
    vals.map e = vals.map e' := List.map_congr_left h

theorem State.ext' {s s' : State V B} (h : s.env = s'.env) (h' : s.mem = s'.mem) : s = s' := by
  cases s; cases s'; simp_all

/-! ### Independent nodes commute -/

theorem mem_needs_vals {x : Node} {v : VOut} {i : Nat} (hv : v ∈ x.vals) (hi : i ∈ v.owners) :
    i ∈ x.needs := by
  simp only [Node.needs, List.mem_append, List.mem_flatMap]
  exact Or.inl ⟨v, hv, hi⟩

theorem mem_needs_states {x : Node} {o : SOut} {i : Nat} (ho : o ∈ x.states) (hi : i ∈ o.owners) :
    i ∈ x.needs := by
  simp only [Node.needs, List.mem_append, List.mem_flatMap]
  exact Or.inr ⟨o, ho, hi⟩

theorem commute (s : State V B) (x y : Node) (hid : x.id ≠ y.id) (hxy : x.id ∉ y.needs)
    (hyx : y.id ∉ x.needs) (hc : ¬ Conflict sem s.env x y) :
    step sem (step sem s x) y = step sem (step sem s y) x := by
  have ex : x.vals.map (step sem s y).env = x.vals.map s.env :=
    map_env_congr fun v hv => step_env_other _ _ _ fun h => hyx (mem_needs_vals hv h)
  have ey : y.vals.map (step sem s x).env = y.vals.map s.env :=
    map_env_congr fun v hv => step_env_other _ _ _ fun h => hxy (mem_needs_vals hv h)
  have rx : ∀ b, sem.reads x.op (x.vals.map s.env) b →
      s.mem b = (sem.apply y.op (y.vals.map s.env) s.mem).2 b := by
    intro b hb
    rw [apply_frame]
    exact fun hw => hc ⟨b, Or.inr ⟨hb, hw⟩⟩
  have ry : ∀ b, sem.reads y.op (y.vals.map s.env) b →
      s.mem b = (sem.apply x.op (x.vals.map s.env) s.mem).2 b := by
    intro b hb
    rw [apply_frame]
    exact fun hw => hc ⟨b, Or.inl ⟨hw, Or.inl hb⟩⟩
  apply State.ext'
  · funext v
    cases v with
    | arg i => rfl
    | res i k =>
      simp only [step, ex, ey]
      have e1 : (step sem s x).mem = (sem.apply x.op (x.vals.map s.env) s.mem).2 := rfl
      have e2 : (step sem s y).mem = (sem.apply y.op (y.vals.map s.env) s.mem).2 := rfl
      by_cases h1 : i = y.id
      · subst h1
        rw [if_pos rfl, if_neg (Ne.symm hid), if_neg (Ne.symm hid), if_pos rfl]
        change ((sem.apply y.op (y.vals.map (step sem s x).env) (step sem s x).mem).1[k]?).getD _ = _
        rw [ey, e1, ← apply_vals _ _ _ _ ry]
      · rw [if_neg h1]
        by_cases h2 : i = x.id
        · subst h2
          rw [if_pos rfl, if_pos rfl, if_neg h1]
          change _ = ((sem.apply x.op (x.vals.map (step sem s y).env) (step sem s y).mem).1[k]?).getD _
          rw [ex, e2, ← apply_vals _ _ _ _ rx]
        · simp only [if_neg h2, if_neg h1]
  · funext b
    show (sem.apply y.op (y.vals.map (step sem s x).env)
        (sem.apply x.op (x.vals.map s.env) s.mem).2).2 b =
      (sem.apply x.op (x.vals.map (step sem s y).env)
        (sem.apply y.op (y.vals.map s.env) s.mem).2).2 b
    rw [ex, ey]
    by_cases hx : sem.writes x.op (x.vals.map s.env) b
    · have hy : ¬ sem.writes y.op (y.vals.map s.env) b :=
        fun hy => hc ⟨b, Or.inl ⟨hx, Or.inr hy⟩⟩
      rw [apply_frame _ _ _ _ hy, apply_mem _ _ _ _ rx b hx]
    · rw [apply_frame x.op _ _ _ hx]
      by_cases hy : sem.writes y.op (y.vals.map s.env) b
      · rw [← apply_mem _ _ _ _ ry b hy]
      · rw [apply_frame _ _ _ _ hy, apply_frame _ _ _ _ hx, apply_frame _ _ _ _ hy]

/-! ### Schedules -/

/-- `x` comes before every occurrence of `y` -/
def Prec (l : List Node) (x y : Node) : Prop := ∀ p q, l = p ++ y :: q → x ∈ p

/-- topological order, given the outputs of the nodes `D` -/
def TopoFrom (D : Nat → Prop) (l : List Node) : Prop :=
  ∀ p x q, l = p ++ x :: q → ∀ i ∈ x.needs, D i ∨ i ∈ p.map Node.id

theorem TopoFrom.tail {D : Nat → Prop} {x : Node} {l : List Node} (h : TopoFrom D (x :: l)) :
    TopoFrom (fun i => D i ∨ i = x.id) l := by
  intro p y q e i hi
  have := h (x :: p) y q (by rw [e]; rfl) i hi
  simp only [List.map_cons, List.mem_cons] at this
  rcases this with h | h | h
  · exact Or.inl (Or.inl h)
  · exact Or.inl (Or.inr h)
  · exact Or.inr h

/-- the values of the operands of the first node are final -/
theorem first_final {D : Nat → Prop} {x : Node} {l : List Node} (ht : TopoFrom D (x :: l))
    (hD : ∀ i, D i → i ∉ (x :: l).map Node.id) (s : State V B) (l' : List Node)
    (hl : ∀ i ∈ l'.map Node.id, i ∈ (x :: l).map Node.id) :
    x.vals.map s.env = x.vals.map (exec sem s l').env := by
  apply map_env_congr
  intro v hv
  rw [exec_env_other]
  intro i hi hil
  have h := ht [] x l rfl i (mem_needs_vals hv hi)
  simp only [List.map_nil, List.not_mem_nil, or_false] at h
  exact hD i h (hl i hil)

theorem bubble (n : Node) (q : List Node) (F : VOut → V) :
    ∀ (p : List Node) (D : Nat → Prop) (s : State V B),
      TopoFrom D (p ++ n :: q) → (∀ i, D i → i ∉ (p ++ n :: q).map Node.id) →
      ((p ++ n :: q).map Node.id).Nodup → (∀ i ∈ n.needs, D i) →
      (exec sem s (n :: (p ++ q))).env = F → (∀ z ∈ p, ¬ Conflict sem F n z) →
      exec sem s (p ++ n :: q) = exec sem s (n :: (p ++ q)) := by
  intro p
  induction p with
  | nil => intros; rfl
  | cons z p ih =>
    intro D s ht hD hnd hn hF hc
    have hnd' : z.id ∉ (p ++ n :: q).map Node.id ∧ ((p ++ n :: q).map Node.id).Nodup := by
      simpa using hnd
    have hzn : n.id ≠ z.id := by
      intro e; apply hnd'.1; rw [← e]; simp
    have hids : ∀ i ∈ (n :: (z :: p ++ q)).map Node.id, i ∈ (z :: (p ++ n :: q)).map Node.id := by
      intro i hi
      simp at hi ⊢
      rcases hi with h | h | h | h
      · exact Or.inr (Or.inr (Or.inl h))
      · exact Or.inl h
      · exact Or.inr (Or.inl h)
      · exact Or.inr (Or.inr (Or.inr h))
    have hz : z.vals.map s.env = z.vals.map F := by
      rw [← hF]
      exact first_final ht hD s _ hids
    have hnv : n.vals.map s.env = n.vals.map F := by
      apply map_env_congr
      intro v hv
      rw [← hF, exec_env_other]
      intro i hi hil
      exact hD i (hn i (mem_needs_vals hv hi)) (hids i hil)
    have hnz : n.id ∉ z.needs := by
      intro h
      have := ht [] z (p ++ n :: q) rfl _ h
      simp only [List.map_nil, List.not_mem_nil, or_false] at this
      exact hD _ this (by simp)
    have hzn' : z.id ∉ n.needs := by
      intro h
      exact hD _ (hn _ h) (by simp)
    have hcz : ¬ Conflict sem s.env n z := by
      intro h
      apply hc z (by simp)
      simp only [Conflict, hz, hnv] at h ⊢
      exact h
    have hsw : exec sem s (n :: (z :: p ++ q)) = exec sem (step sem s z) (n :: (p ++ q)) := by
      simp only [exec_cons, List.cons_append]
      rw [commute s n z hzn hnz hzn' hcz]
    rw [hsw]
    show exec sem (step sem s z) (p ++ n :: q) = _
    apply ih (fun i => D i ∨ i = z.id) (step sem s z)
    · exact TopoFrom.tail ht
    · intro i hi hil
      rcases hi with hi | hi
      · exact hD i hi (by simp at hil ⊢; exact Or.inr hil)
      · subst hi; exact hnd'.1 hil
    · exact hnd'.2
    · exact fun i hi => Or.inl (hn i hi)
    · rw [← hsw]; exact hF
    · exact fun z' hz' => hc z' (by simp [hz'])

theorem same_from (F : VOut → V) : ∀ (l l' : List Node) (D : Nat → Prop) (s : State V B),
    l.Perm l' → TopoFrom D l → TopoFrom D l' → (∀ i, D i → i ∉ l.map Node.id) →
    (l.map Node.id).Nodup → (exec sem s l).env = F →
    (∀ p x q y r, l = p ++ x :: (q ++ y :: r) → Conflict sem F x y → Prec l' x y) →
    exec sem s l' = exec sem s l := by
  intro l
  induction l with
  | nil =>
    intro l' D s hp _ _ _ _ _ _
    rw [List.nil_perm.mp hp]
  | cons n t ih =>
    intro l' D s hp ht ht' hD hnd hF hc
    have hn' : n ∈ l' := hp.mem_iff.mp (by simp)
    obtain ⟨p, q, rfl⟩ := List.append_of_mem hn'
    have hp2 : t.Perm (p ++ q) := by
      have := hp.trans List.perm_middle
      exact List.Perm.cons_inv this
    have hpid : ∀ i, i ∈ (p ++ n :: q).map Node.id ↔ i ∈ (n :: t).map Node.id := by
      intro i
      exact ((hp.map Node.id).mem_iff).symm
    have hnd' : ((p ++ n :: q).map Node.id).Nodup := (hp.map Node.id).nodup_iff.mp hnd
    have hids : n.id ∉ t.map Node.id ∧ (t.map Node.id).Nodup := by simpa using hnd
    have hnD : ∀ i ∈ n.needs, D i := by
      intro i hi
      have := ht [] n t rfl i hi
      simpa using this
    have hpq : ∀ z ∈ p ++ q, z ∈ t := fun z hz => hp2.mem_iff.mpr hz
    have hnpq : n ∉ p ++ q := fun h => hids.1 (List.mem_map_of_mem (hpq n h))
    have htail : exec sem (step sem s n) (p ++ q) = exec sem (step sem s n) t := by
      apply ih (p ++ q) (fun i => D i ∨ i = n.id) (step sem s n) hp2 ht.tail
      · -- topological order without n
        intro p1 x q1 e i hi
        rcases List.append_eq_append_iff.mp e with ⟨a, hp1, hq⟩ | ⟨a, hp1, hq⟩
        · -- p1 = p ++ a, q = a ++ x :: q1
          have := ht' (p ++ n :: a) x q1 (by rw [hq]; simp) i hi
          simp at this
          subst hp1
          simp
          rcases this with h | h | h | h
          · exact Or.inl (Or.inl h)
          · exact Or.inr (Or.inl h)
          · exact Or.inl (Or.inr h)
          · exact Or.inr (Or.inr h)
        · -- p = p1 ++ a, x :: q1 = a ++ q
          cases a with
          | nil =>
            simp at hp1 hq
            subst hp1
            have := ht' (p ++ [n]) x q1 (by simp [hq]) i hi
            simp at this ⊢
            rcases this with h | h | h
            · exact Or.inl (Or.inl h)
            · exact Or.inr h
            · exact Or.inl (Or.inr h)
          | cons y a =>
            simp at hq
            obtain ⟨rfl, rfl⟩ := hq
            have := ht' p1 x (a ++ n :: q) (by rw [hp1]; simp) i hi
            rcases this with h | h
            · exact Or.inl (Or.inl h)
            · exact Or.inr h
      · intro i hi hit
        rcases hi with hi | hi
        · exact hD i hi (by simp at hit ⊢; exact Or.inr hit)
        · subst hi; exact hids.1 hit
      · exact hids.2
      · exact hF
      · intro p1 x q1 y r e hxy
        have hprec := hc (n :: p1) x q1 y r (by rw [e]; rfl) hxy
        have hxn : x ≠ n := by
          rintro rfl; apply hids.1; rw [e]; simp
        have hyn : y ≠ n := by
          rintro rfl; apply hids.1; rw [e]; simp
        intro a b hab
        rcases List.append_eq_append_iff.mp hab with ⟨c, h1, h2⟩ | ⟨c, h1, h2⟩
        · have := hprec (p ++ n :: c) b (by rw [h2]; simp)
          simp at this
          subst h1
          rcases this with h | h | h
          · simp [h]
          · exact absurd h hxn
          · simp [h]
        · cases c with
          | nil =>
            simp at h1 h2
            subst h1
            have := hprec (p ++ [n]) b (by simp [h2])
            simp at this
            rcases this with h | h
            · exact h
            · exact absurd h hxn
          | cons z c =>
            simp at h2
            obtain ⟨rfl, rfl⟩ := h2
            exact hprec a (c ++ n :: q) (by rw [h1]; simp)
    have hF2 : (exec sem s (n :: (p ++ q))).env = F := by
      rw [exec_cons, htail]; exact hF
    rw [bubble n q F p D s ht' (fun i hi h => hD i hi ((hpid i).mp h)) hnd' hnD hF2 ?_]
    · rw [exec_cons, htail]; rfl
    · intro z hz hcz
      obtain ⟨a, b, rfl⟩ := List.append_of_mem hz
      have hzt : z ∈ t := hpq z (by simp)
      obtain ⟨t1, t2, rfl⟩ := List.append_of_mem hzt
      have := hc [] n t1 z t2 rfl hcz a (b ++ n :: q) (by simp)
      exact hnpq (by simp [this])

/-! ### The nodes that are not dead -/

/-- the fold of `live` over a suffix -/
def kept (l : List Node) (I : List Nat) : List Node × List Nat := l.foldr keep ([], I)

theorem kept_cons (x : Node) (l : List Node) (I : List Nat) :
    kept (x :: l) I = if x.id ∈ (kept l I).2 then (x :: (kept l I).1, x.needs ++ (kept l I).2)
      else kept l I := rfl

theorem kept_sublist (l : List Node) (I : List Nat) : (kept l I).1.Sublist l := by
  induction l with
  | nil => simp [kept]
  | cons x l ih =>
    rw [kept_cons]; split
    · exact ih.cons_cons x
    · exact ih.cons x

theorem kept_init (l : List Node) (I : List Nat) : ∀ i ∈ I, i ∈ (kept l I).2 := by
  induction l with
  | nil => intro i hi; exact hi
  | cons x l ih =>
    intro i hi
    rw [kept_cons]; split
    · simp [ih i hi]
    · exact ih i hi

theorem kept_mono (p l : List Node) (I : List Nat) : ∀ i ∈ (kept l I).2, i ∈ (kept (p ++ l) I).2 := by
  induction p with
  | nil => intro i hi; exact hi
  | cons x p ih =>
    intro i hi
    rw [List.cons_append, kept_cons]; split
    · simp [ih i hi]
    · exact ih i hi

theorem kept_mono1 (p l : List Node) (I : List Nat) : ∀ x ∈ (kept l I).1, x ∈ (kept (p ++ l) I).1 := by
  induction p with
  | nil => intro i hi; exact hi
  | cons x p ih =>
    intro i hi
    rw [List.cons_append, kept_cons]; split
    · simp [ih i hi]
    · exact ih i hi

theorem kept_needs (l : List Node) (I : List Nat) :
    ∀ y ∈ (kept l I).1, ∀ i ∈ y.needs, i ∈ (kept l I).2 := by
  induction l with
  | nil => intro y hy; simp [kept] at hy
  | cons x l ih =>
    intro y hy i hi
    rw [kept_cons] at hy ⊢
    split at hy
    · rename_i hx
      rw [if_pos hx]
      simp at hy ⊢
      rcases hy with rfl | hy
      · exact Or.inl hi
      · exact Or.inr (ih y hy i hi)
    · rename_i hx
      rw [if_neg hx]
      exact ih y hy i hi

theorem kept_mem (p : List Node) (x : Node) (l : List Node) (I : List Nat)
    (h : x.id ∈ (kept l I).2) : x ∈ (kept (p ++ x :: l) I).1 := by
  apply kept_mono1
  rw [kept_cons, if_pos h]
  simp

/-- every property of the needed nodes that passes to the operands holds of the live nodes -/
theorem kept_induct (l : List Node) (I : List Nat) (Q : Nat → Prop) (h0 : ∀ i ∈ I, Q i)
    (h1 : ∀ y ∈ l, Q y.id → ∀ i ∈ y.needs, Q i) :
    (∀ i ∈ (kept l I).2, Q i) ∧ ∀ x ∈ (kept l I).1, Q x.id := by
  induction l with
  | nil => exact ⟨h0, by simp [kept]⟩
  | cons x l ih =>
    obtain ⟨a, b⟩ := ih fun y hy => h1 y (by simp [hy])
    rw [kept_cons]; split
    · rename_i hx
      refine ⟨?_, ?_⟩
      · intro i hi
        simp at hi
        rcases hi with hi | hi
        · exact h1 x (by simp) (a _ hx) i hi
        · exact a i hi
      · intro y hy
        simp at hy
        rcases hy with rfl | hy
        · exact a _ hx
        · exact b y hy
    · exact ⟨a, b⟩

theorem kept_back (l : List Node) (I : List Nat) :
    ∀ i ∈ (kept l I).2, i ∈ I ∨ ∃ y ∈ (kept l I).1, i ∈ y.needs := by
  induction l with
  | nil => intro i hi; exact Or.inl hi
  | cons x l ih =>
    intro i hi
    rw [kept_cons] at hi ⊢
    split at hi
    · rename_i hx
      rw [if_pos hx]
      simp at hi
      rcases hi with hi | hi
      · exact Or.inr ⟨x, by simp, hi⟩
      · rcases ih i hi with h | ⟨y, hy, h⟩
        · exact Or.inl h
        · exact Or.inr ⟨y, by simp [hy], h⟩
    · rename_i hx
      rw [if_neg hx]; exact ih i hi

theorem live_eq (G : Graph) : G.live = (kept G.nodes G.needs).1 := rfl

theorem live_sublist (G : Graph) : G.live.Sublist G.nodes := kept_sublist _ _

theorem live_mem {G : Graph} {x : Node} (h : x ∈ G.live) : x ∈ G.nodes := (live_sublist G).subset h

theorem live_nodup {G : Graph} (hw : G.Wf) : (G.live.map Node.id).Nodup :=
  List.Nodup.sublist ((live_sublist G).map _) hw.nodup

theorem eq_of_id {G : Graph} (hw : G.Wf) {x y : Node} (hx : x ∈ G.nodes) (hy : y ∈ G.nodes)
    (h : x.id = y.id) : x = y := List.inj_on_of_nodup_map hw.nodup hx hy h

theorem live_result {G : Graph} (hw : G.Wf) {x : Node} (hx : x ∈ G.nodes) (h : x.id ∈ G.needs) :
    x ∈ G.live := by
  obtain ⟨p, q, e⟩ := List.append_of_mem hx
  rw [live_eq, e]
  exact kept_mem p x q _ (kept_init _ _ _ h)

theorem before_of_needs {l : List Node} (ht : Topo l) (hnd : (l.map Node.id).Nodup) {x y : Node}
    (hx : x ∈ l) (hy : y ∈ l) (h : x.id ∈ y.needs) :
    ∃ p q r, l = p ++ x :: (q ++ y :: r) := by
  obtain ⟨a, r, e⟩ := List.append_of_mem hy
  have := ht a y r e _ h
  simp only [List.mem_map] at this
  obtain ⟨z, hz, hzx⟩ := this
  have : z = x := List.inj_on_of_nodup_map hnd (by rw [e]; simp [hz]) hx hzx
  subst this
  obtain ⟨p, q, rfl⟩ := List.append_of_mem hz
  exact ⟨p, q, r, by rw [e]; simp⟩

theorem live_used {G : Graph} (hw : G.Wf) {x y : Node} (hx : x ∈ G.nodes) (hy : y ∈ G.live)
    (h : x.id ∈ y.needs) : x ∈ G.live := by
  obtain ⟨p, q, r, e⟩ := before_of_needs hw.topo hw.nodup hx (live_mem hy) h
  rw [live_eq, e]
  apply kept_mem
  have hyk : y ∈ (kept (q ++ y :: r) G.needs).1 := by
    -- y is live, so it is kept in the suffix that starts at it
    apply kept_mono1
    have hy' : y ∈ (kept ((p ++ x :: q) ++ y :: r) G.needs).1 := by
      have e' : (p ++ x :: q) ++ y :: r = G.nodes := by rw [e]; simp
      rw [e', ← live_eq]; exact hy
    have key : ∀ a : List Node, y.id ∉ a.map Node.id → y ∈ (kept (a ++ y :: r) G.needs).1 →
        y ∈ (kept (y :: r) G.needs).1 := by
      intro a
      induction a with
      | nil => exact fun _ h => h
      | cons z a ih =>
        intro hz hk
        simp only [List.map_cons, List.mem_cons, not_or] at hz
        rw [List.cons_append, kept_cons] at hk
        split at hk
        · simp only [List.mem_cons] at hk
          rcases hk with hk | hk
          · exact absurd (by rw [hk]) hz.1
          · exact ih hz.2 hk
        · exact ih hz.2 hk
    refine key _ ?_ hy'
    have hnd := hw.nodup
    rw [e] at hnd
    simp only [List.map_append, List.map_cons] at hnd
    intro hin
    simp only [List.map_append, List.map_cons, List.mem_append, List.mem_cons] at hin
    rw [List.nodup_append] at hnd
    obtain ⟨h1, h2, h3⟩ := hnd
    rw [List.nodup_cons, List.nodup_append] at h2
    obtain ⟨h4, h5, h6, h7⟩ := h2
    rcases hin with hin | hin | hin
    · exact h3 _ hin y.id (by simp) rfl
    · exact h4 (by rw [← hin]; simp)
    · exact h7 _ hin y.id (by simp) rfl
  exact kept_needs _ _ y hyk _ h

/-- the live nodes are in topological order -/
theorem live_topo {G : Graph} (hw : G.Wf) : Topo G.live := by
  intro p x q e i hi
  have hx : x ∈ G.live := by rw [e]; simp
  have hin : i ∈ G.nodes.map Node.id := by
    obtain ⟨a, b, ea⟩ := List.append_of_mem (live_mem hx)
    have := hw.topo a x b ea i hi
    rw [ea]; simp at this ⊢; exact Or.inl this
  simp only [List.mem_map] at hin
  obtain ⟨z, hz, rfl⟩ := hin
  have hzl := live_used hw hz hx hi
  -- z before x in nodes, hence in the sublist
  obtain ⟨a, b, c, ea⟩ := before_of_needs hw.topo hw.nodup hz (live_mem hx) hi
  rw [e] at hzl
  simp only [List.mem_append, List.mem_cons] at hzl
  rcases hzl with h | h | h
  · exact List.mem_map_of_mem h
  · exfalso
    have hnd := hw.nodup
    rw [ea, h] at hnd
    simp [List.nodup_append, List.nodup_cons] at hnd
  · exfalso
    have hs : ([x, z] : List Node).Sublist G.nodes := by
      have h1 : ([x, z] : List Node).Sublist G.live := by
        rw [e]
        obtain ⟨q1, q2, rfl⟩ := List.append_of_mem h
        apply List.Sublist.trans _ (List.sublist_append_right p _)
        apply List.Sublist.cons_cons
        apply List.Sublist.trans _ (List.sublist_append_right q1 _)
        exact List.Sublist.cons_cons _ (List.nil_sublist _)
      exact h1.trans (live_sublist G)
    have hnd := hw.nodup
    rw [ea] at hs hnd
    have hs' := hs.map Node.id
    simp only [List.map_cons, List.map_nil, List.map_append] at hs' hnd
    have hxz : x.id ≠ z.id := by
      intro hh
      have := List.Nodup.sublist hs' hnd
      simp [hh] at this
    rw [List.nodup_append] at hnd
    obtain ⟨h1, h2, h3⟩ := hnd
    rw [List.nodup_cons, List.nodup_append] at h2
    obtain ⟨h4, h5, h6, h7⟩ := h2
    rw [List.sublist_append_iff] at hs'
    obtain ⟨l1, l2, hl, hl1, hl2⟩ := hs'
    cases l1 with
    | nil =>
      simp at hl
      rw [← hl] at hl2
      rw [List.sublist_cons_iff] at hl2
      rcases hl2 with h8 | ⟨r, hr, h8⟩
      · exact h4 (h8.subset (show z.id ∈ [x.id, z.id] by simp))
      · simp at hr
        exact hxz hr.1
    | cons w l1 =>
      simp at hl
      obtain ⟨rfl, _⟩ := hl
      exact h3 _ (hl1.subset (by simp)) x.id (by simp) rfl

/-! ### State edges order the nodes of a schedule -/

/-- what flows into a live node comes from live nodes -/
theorem flow_live {G : Graph} (hw : G.Wf) {o o' : SOut} (hf : Flow G.nodes o o') :
    ∀ y ∈ G.live, o' ∈ y.states → ∀ x ∈ G.nodes, x.id ∈ o.owners → x ∈ G.live := by
  induction hf with
  | refl o =>
    intro y hy ho x hx hi
    exact live_used hw hx hy (mem_needs_states ho hi)
  | @step o o' o'' z k hz hk hp hf ih =>
    intro y hy ho x hx hi
    have hzl : z ∈ G.live := by
      apply ih y hy ho z hz
      cases o' with
      | arg i => exact hp.elim
      | res j k' => simp [SOut.owners, hp.1]
    exact live_used hw hx hzl (mem_needs_states (List.mem_of_getElem? hk) hi)

theorem flow_live_exit {G : Graph} (hw : G.Wf) {o o' : SOut} (hf : Flow G.nodes o o') :
    o' ∈ G.sres → ∀ x ∈ G.nodes, x.id ∈ o.owners → x ∈ G.live := by
  induction hf with
  | refl o =>
    intro ho x hx hi
    apply live_result hw hx
    simp only [Graph.needs, List.mem_append, List.mem_flatMap]
    exact Or.inr ⟨o, ho, hi⟩
  | @step o o' o'' z k hz hk hp hf ih =>
    intro ho x hx hi
    have hzl : z ∈ G.live := by
      apply ih ho z hz
      cases o' with
      | arg i => exact hp.elim
      | res j k' => simp [SOut.owners, hp.1]
    exact live_used hw hx hzl (mem_needs_states (List.mem_of_getElem? hk) hi)

theorem Prec.trans {l : List Node} {x y z : Node} (h1 : Prec l x y) (h2 : Prec l y z) :
    Prec l x z := by
  intro p q e
  have hy := h2 p q e
  obtain ⟨a, b, rfl⟩ := List.append_of_mem hy
  have := h1 a (b ++ z :: q) (by rw [e]; simp)
  simp [this]

theorem prec_of_needs {l : List Node} (ht : Topo l) (hnd : (l.map Node.id).Nodup) {x y : Node}
    (hx : x ∈ l) (h : x.id ∈ y.needs) : Prec l x y := by
  intro p q e
  have := ht p y q e _ h
  simp only [List.mem_map] at this
  obtain ⟨z, hz, hzx⟩ := this
  have : z = x := List.inj_on_of_nodup_map hnd (by rw [e]; simp [hz]) hx hzx
  exact this ▸ hz

theorem flow_prec {G : Graph} (hw : G.Wf) {l : List Node} (hs : Schedule G l) {o o' : SOut}
    (hf : Flow G.nodes o o') :
    ∀ y ∈ l, o' ∈ y.states → ∀ x ∈ l, x.id ∈ o.owners → Prec l x y := by
  have hnd : (l.map Node.id).Nodup := (hs.1.map Node.id).nodup_iff.mpr (live_nodup hw)
  induction hf with
  | refl o =>
    intro y hy ho x hx hi
    exact prec_of_needs hs.2 hnd hx (mem_needs_states ho hi)
  | @step o o' o'' z k hz hk hp hf ih =>
    intro y hy ho x hx hi
    have hzo : z.id ∈ o'.owners := by
      cases o' with
      | arg i => exact hp.elim
      | res j k' => simp [SOut.owners, hp.1]
    have hzl : z ∈ l := hs.1.mem_iff.mpr (flow_live hw hf y (hs.1.mem_iff.mp hy) ho z hz hzo)
    exact (prec_of_needs hs.2 hnd hx (mem_needs_states (List.mem_of_getElem? hk) hi)).trans
      (ih y hy ho z hzl hzo)

/-- **Schedules of a region without races.** All orders in which the nodes can be emitted compute the
same values and leave the same memory. -/
theorem C38_schedules (s : State V B) (vis : Nat → Prop) (G : Graph) (hw : G.Wf)
    (hr : RaceFree sem s vis G) (l : List Node) (hs : Schedule G l) :
    exec sem s l = G.final sem s := by
  have conv : ∀ l : List Node, Topo l → TopoFrom (fun _ => False) l :=
    fun l h p x q e i hi => Or.inr (h p x q e i hi)
  refine same_from (G.final sem s).env G.live l (fun _ => False) s hs.1.symm
    (conv _ (live_topo hw)) (conv _ hs.2) (fun i h => h.elim) (live_nodup hw) rfl ?_
  intro p x q y r e hc
  obtain ⟨k, o, ho, hf⟩ := hr.pairs p x q y r e hc
  have hx : x ∈ l := hs.1.mem_iff.mpr (by rw [e]; simp)
  have hy : y ∈ l := hs.1.mem_iff.mpr (by rw [e]; simp)
  exact flow_prec hw hs hf y hy ho x hx (by simp [SOut.owners])

theorem live_schedule {G : Graph} (hw : G.Wf) : Schedule G G.live := ⟨List.Perm.refl _, live_topo hw⟩

end Jlm.Mem
