import Verif.ModRef.Alloca

set_option linter.unusedSimpArgs false
set_option linter.unusedVariables false

/-! # Solving the constraints -/

namespace Jlm.ModRef

/-! ## Effects -/

theorem Eff.ext_has {a b : Eff} (h : ∀ x, a.has x = b.has x) : a = b := by
  have h1 := h .read
  have h2 := h .write
  cases a; cases b
  simp [Eff.has] at h1 h2
  simp [h1, h2]

theorem has_or (a b : Eff) (x : Acc) : (a.or b).has x = (a.has x || b.has x) := by cases x <;> rfl

theorem sub_iff (a b : Eff) : a.sub b = true ↔ ∀ x, a.has x = true → b.has x = true := by
  constructor
  · intro h x hx
    cases x <;> simp_all [Eff.sub, Eff.has]
  · intro h
    have h1 := h .read
    have h2 := h .write
    simp only [Eff.has] at h1 h2
    cases a with
    | mk r m => cases b with
      | mk r' m' => cases r <;> cases m <;> cases r' <;> cases m' <;> simp_all [Eff.sub]

theorem has_none (x : Acc) : Eff.none.has x = false := by cases x <;> rfl
theorem has_both (x : Acc) : Eff.both.has x = true := by cases x <;> rfl

theorem ne_none_iff (a : Eff) : a ≠ .none ↔ ∃ x, a.has x = true := by
  cases a with
  | mk r m =>
      constructor
      · intro h
        cases r <;> cases m
        · exact absurd rfl h
        · exact ⟨.write, rfl⟩
        · exact ⟨.read, rfl⟩
        · exact ⟨.read, rfl⟩
      · rintro ⟨x, hx⟩ h
        rw [h, has_none] at hx; cases hx

/-- The size from which on externally available memory is accessed. -/
def MRSet.min (s : MRSet) : Acc → Nat
  | .read => s.refExt
  | .write => s.modExt

theorem implicit_has (s : MRSet) (size : Option Nat) (x : Acc) :
    (s.implicit size).has x = true ↔ s.min x ≠ noneSize ∧ s.min x ≤ size.getD noneSize := by
  cases x <;> simp [MRSet.implicit, Eff.has, MRSet.min]

/-! ## Sets -/

/-- The set says that memory `m` may be accessed. -/
def Cov (g : Ptg) (s : MRSet) (m : Nat) (x : Acc) : Prop :=
  (s.nodes m).has x = true ∨ (g.ext m = true ∧ (s.implicit (g.size m)).has x = true)

structure Ok (num : Nat) (s : MRSet) : Prop where
  bound : ∀ x, s.min x ≤ noneSize
  calls : s.calls = true → ∀ x, s.min x = 0
  nodes : ∀ m, num ≤ m → s.nodes m = .none

def FlagLe (a b : MRSet) : Prop := (∀ x, b.min x ≤ a.min x) ∧ (a.calls = true → b.calls = true)

def Le (a b : MRSet) : Prop := FlagLe a b ∧ ∀ m x, (a.nodes m).has x = true → (b.nodes m).has x = true

theorem Le.refl (a : MRSet) : Le a a := ⟨⟨fun _ => Nat.le_refl _, id⟩, fun _ _ => id⟩

theorem FlagLe.implicit {num : Nat} {a b : MRSet} (h : FlagLe a b) (hb : Ok num a) (size : Option Nat) (x : Acc)
    (hx : (a.implicit size).has x = true) : (b.implicit size).has x = true := by
  rw [implicit_has] at hx ⊢
  have h1 := h.1 x
  have h2 := hb.bound x
  exact ⟨by omega, by omega⟩

theorem Le.cov {num : Nat} {g : Ptg} {a b : MRSet} (h : Le a b) (hb : Ok num a) {m : Nat} {x : Acc} (hx : Cov g a m x) : Cov g b m x := by
  rcases hx with hx | ⟨he, hx⟩
  · exact Or.inl (h.2 m x hx)
  · exact Or.inr ⟨he, h.1.implicit hb _ _ hx⟩

/-- The constraint from one set to another one. -/
def Sat (g : Ptg) (blocked : Nat → Bool) (src dst : MRSet) : Prop :=
  FlagLe src dst ∧ ∀ m x, blocked m = false → (src.nodes m).has x = true → Cov g dst m x

theorem Sat.cov {num : Nat} {g : Ptg} {blocked : Nat → Bool} {a b : MRSet} (h : Sat g blocked a b) (ha : Ok num a) {m : Nat} {x : Acc}
    (hm : blocked m = false) (hx : Cov g a m x) : Cov g b m x := by
  rcases hx with hx | ⟨he, hx⟩
  · exact h.2 m x hm hx
  · exact Or.inr ⟨he, h.1.implicit ha _ _ hx⟩

theorem Sat.mono {num : Nat} {g : Ptg} {blocked : Nat → Bool} {a b b' : MRSet} (h : Sat g blocked a b) (hb : Ok num b) (hl : Le b b') :
    Sat g blocked a b' :=
  ⟨⟨fun x => Nat.le_trans (hl.1.1 x) (h.1.1 x), fun hc => hl.1.2 (h.1.2 hc)⟩, fun m x hm hx => hl.cov hb (h.2 m x hm hx)⟩

theorem flags_spec {num : Nat} {a b : MRSet} (ha : Ok num a) (hb : Ok num b) :
    Ok num (b.flags a) ∧ FlagLe a (b.flags a) ∧ FlagLe b (b.flags a) ∧ (b.flags a).nodes = b.nodes := by
  unfold MRSet.flags
  have a1 := ha.bound .read
  have a2 := ha.bound .write
  have b1 := hb.bound .read
  have b2 := hb.bound .write
  simp only [MRSet.min] at a1 a2 b1 b2
  split
  · next hc =>
    split
    · next hc' =>
      refine ⟨hb, ⟨fun x => by rw [hb.calls hc' x]; omega, fun _ => hc'⟩, ⟨fun _ => Nat.le_refl _, id⟩, rfl⟩
    · next hc' =>
      refine ⟨⟨?_, ?_, hb.nodes⟩, ⟨?_, fun _ => rfl⟩, ⟨?_, fun _ => rfl⟩, rfl⟩
      · intro x; cases x <;> simp [MRSet.min]
      · intro _ x; cases x <;> rfl
      · intro x; cases x <;> simp [MRSet.min]
      · intro x; cases x <;> simp [MRSet.min]
  · next hc =>
    have hca : a.calls = true → False := fun h => hc h
    split
    · next h1 =>
      refine ⟨⟨?_, ?_, hb.nodes⟩, ⟨?_, fun h => (hca h).elim⟩, ⟨?_, id⟩, rfl⟩
      · intro x; cases x <;> simp [MRSet.min] <;> omega
      · intro h
        have := hb.calls h .write
        simp only [MRSet.min] at this
        omega
      · intro x; cases x <;> simp [MRSet.min] <;> omega
      · intro x; cases x <;> simp [MRSet.min] <;> omega
    · next h1 =>
      split
      · next h2 =>
        refine ⟨⟨?_, ?_, hb.nodes⟩, ⟨?_, fun h => (hca h).elim⟩, ⟨?_, id⟩, rfl⟩
        · intro x; cases x <;> simp [MRSet.min] <;> omega
        · intro h
          have := hb.calls h .read
          simp only [MRSet.min] at this
          omega
        · intro x; cases x <;> simp [MRSet.min] <;> omega
        · intro x; cases x <;> simp [MRSet.min] <;> omega
      · next h2 =>
        refine ⟨hb, ⟨?_, fun h => (hca h).elim⟩, ⟨fun _ => Nat.le_refl _, id⟩, rfl⟩
        intro x; cases x <;> simp [MRSet.min] <;> omega

theorem propagate_spec {g : Ptg} {blocked : Nat → Bool} {a b : MRSet} (ha : Ok g.num a) (hb : Ok g.num b) :
    Ok g.num (b.propagate g blocked a) ∧ Sat g blocked a (b.propagate g blocked a) ∧ Le b (b.propagate g blocked a) := by
  obtain ⟨h1, h2, h3, h4⟩ := flags_spec ha hb
  have hmin : ∀ x, (b.propagate g blocked a).min x = (b.flags a).min x := by intro x; cases x <;> rfl
  have hc : (b.propagate g blocked a).calls = (b.flags a).calls := rfl
  have himp : ∀ size, (b.propagate g blocked a).implicit size = (b.flags a).implicit size := fun _ => rfl
  have hn : ∀ m, (b.propagate g blocked a).nodes m =
      if blocked m then b.nodes m
      else if g.ext m && (a.nodes m).sub ((b.flags a).implicit (g.size m)) then b.nodes m
      else (b.nodes m).or (a.nodes m) := fun _ => rfl
  refine ⟨⟨?_, ?_, ?_⟩, ⟨⟨?_, ?_⟩, ?_⟩, ⟨?_, ?_⟩, ?_⟩
  · intro x; rw [hmin]; exact h1.bound x
  · intro h x; rw [hmin]; rw [hc] at h; exact h1.calls h x
  · intro m hm
    rw [hn, hb.nodes m hm, ha.nodes m hm]
    split
    · rfl
    · split <;> rfl
  · intro x; rw [hmin]; exact h2.1 x
  · intro h; rw [hc]; exact h2.2 h
  · intro m x hm hx
    unfold Cov
    rw [hn, himp, hm]
    simp only [Bool.false_eq_true, if_false]
    split
    · next h =>
      rw [Bool.and_eq_true, sub_iff] at h
      exact Or.inr ⟨h.1, h.2 x hx⟩
    · left; rw [has_or, hx, Bool.or_true]
  · intro x; rw [hmin]; exact h3.1 x
  · intro h; rw [hc]; exact h3.2 h
  · intro m x hx
    rw [hn]
    split
    · exact hx
    · split
      · exact hx
      · rw [has_or, hx, Bool.true_or]

theorem propagate_nodes {g : Ptg} {blocked : Nat → Bool} {a b : MRSet} {m : Nat} {x : Acc}
    (h : ((b.propagate g blocked a).nodes m).has x = true) :
    (b.nodes m).has x = true ∨ (blocked m = false ∧ (a.nodes m).has x = true) := by
  have hn : (b.propagate g blocked a).nodes m =
      if blocked m then b.nodes m
      else if g.ext m && (a.nodes m).sub ((b.flags a).implicit (g.size m)) then b.nodes m
      else (b.nodes m).or (a.nodes m) := rfl
  rw [hn] at h
  split at h
  · exact Or.inl h
  · next hb =>
    split at h
    · exact Or.inl h
    · rw [has_or, Bool.or_eq_true] at h
      rcases h with h | h
      · exact Or.inl h
      · exact Or.inr ⟨by simpa using hb, h⟩

theorem differ_false {num : Nat} {a b : MRSet} (ha : Ok num a) (hb : Ok num b) (h : MRSet.differ num a b = false) : a = b := by
  unfold MRSet.differ at h
  simp at h
  obtain ⟨⟨⟨h1, h2⟩, h3⟩, h4⟩ := h
  cases a with
  | mk r m c n =>
    cases b with
    | mk r' m' c' n' =>
      simp only at h1 h2 h3 h4
      subst h1 h2 h3
      have : n = n' := by
        funext k
        rcases Nat.lt_or_ge k num with hk | hk
        · exact h4 k hk
        · exact (ha.nodes k hk).trans (hb.nodes k hk).symm
      rw [this]

/-! ## The worklist -/

/-- `rest`: constraints from `i` that are still to be looked at. -/
structure SInv (P : Prog) (i : Nat) (rest : List Nat) (s : Solver) : Prop where
  ok : ∀ k, Ok P.ptg.num (s.sets k)
  sat : ∀ a b, (a, b) ∈ P.constraints → a ∈ s.work ∨ Sat P.ptg (P.block b) (s.sets a) (s.sets b) ∨ (a = i ∧ b ∈ rest)

theorem edge_inv {P : Prog} {i t : Nat} {rest : List Nat} {s : Solver} (h : SInv P i (t :: rest) s) : SInv P i rest (P.edge i s t) := by
  obtain ⟨hok, hsat, hle⟩ := propagate_spec (blocked := P.block t) (h.ok i) (h.ok t)
  unfold Prog.edge
  simp only
  generalize hnew : (s.sets t).propagate P.ptg (P.block t) (s.sets i) = new at hok hsat hle
  have hlek : ∀ k, Le (s.sets k) (if k = t then new else s.sets k) := by
    intro k
    by_cases hk : k = t
    · subst hk; rw [if_pos rfl]; exact hle
    · rw [if_neg hk]; exact Le.refl _
  refine ⟨?_, ?_⟩
  · intro k
    simp only
    split
    · exact hok
    · exact h.ok k
  · intro a b hab
    simp only
    -- the set of `a` is unchanged or `a` is in the worklist
    by_cases hd : a = t ∧ MRSet.differ P.ptg.num new (s.sets t) = true
    · left
      obtain ⟨rfl, hd⟩ := hd
      rw [hd]
      by_cases hw : a ∈ s.work
      · simp [hw]
      · simp [hw]
    · have hsame : (if a = t then new else s.sets a) = s.sets a := by
        by_cases ha : a = t
        · subst ha
          rw [if_pos rfl]
          refine differ_false hok (h.ok a) ?_
          cases hdd : MRSet.differ P.ptg.num new (s.sets a) with
          | false => rfl
          | true => exact absurd ⟨rfl, hdd⟩ hd
        · rw [if_neg ha]
      rcases h.sat a b hab with hw | hs | ⟨rfl, hb⟩
      · left
        split
        · exact List.mem_cons_of_mem _ hw
        · exact hw
      · right; left
        rw [hsame]
        exact hs.mono (h.ok b) (hlek b)
      · rcases List.mem_cons.1 hb with rfl | hb
        · right; left
          rw [hsame, if_pos rfl]
          exact hsat
        · exact Or.inr (Or.inr ⟨rfl, hb⟩)

theorem edges_inv {P : Prog} {i : Nat} (ts : List Nat) : ∀ {s : Solver}, SInv P i ts s → SInv P i [] (ts.foldl (P.edge i) s) := by
  induction ts with
  | nil => intro s h; exact h
  | cons t ts ih => intro s h; exact ih (edge_inv h)

theorem visit_inv {P : Prog} {i j : Nat} {s : Solver} (h : SInv P j [] s) : SInv P i [] (P.visit i s) := by
  refine edges_inv _ ⟨h.ok, ?_⟩
  intro a b hab
  simp only
  rcases h.sat a b hab with hw | hs | ⟨_, hb⟩
  · by_cases ha : a = i
    · exact Or.inr (Or.inr ⟨ha, List.mem_map.2 ⟨(a, b), by subst ha; simp [hab], rfl⟩⟩)
    · exact Or.inl (by simp [hw, ha])
  · exact Or.inr (Or.inl hs)
  · simp at hb

theorem run_inv {P : Prog} {s s' : Solver} (hr : P.Run s s') : ∀ {i : Nat}, SInv P i [] s → SInv P i [] s' := by
  induction hr with
  | done s => intro i h; exact h
  | pop j _ _ ih => intro i h; exact ih (visit_inv (j := i) (i := i) ⟨h.ok, h.sat⟩ |> fun _ => ⟨(visit_inv (i := j) h).ok, fun a b hab => by
      rcases (visit_inv (i := j) h).sat a b hab with h1 | h1 | ⟨_, h1⟩
      · exact Or.inl h1
      · exact Or.inr (Or.inl h1)
      · simp at h1⟩)

/-! ## What solving keeps -/

/-- A property of every memory node in every set that constraints hand on. -/
theorem run_keeps {P : Prog} (Q : Nat → Nat → Acc → Prop)
    (hQ : ∀ a b, (a, b) ∈ P.constraints → ∀ m x, P.block b m = false → Q a m x → Q b m x) {s s' : Solver} (hr : P.Run s s') :
    (∀ k m x, ((s.sets k).nodes m).has x = true → Q k m x) → ∀ k m x, ((s'.sets k).nodes m).has x = true → Q k m x := by
  have hedges : ∀ (i : Nat) (ts : List Nat), (∀ t ∈ ts, (i, t) ∈ P.constraints) → ∀ s : Solver,
      (∀ k m x, ((s.sets k).nodes m).has x = true → Q k m x) →
      ∀ k m x, (((ts.foldl (P.edge i) s).sets k).nodes m).has x = true → Q k m x := by
    intro i ts
    induction ts with
    | nil => intro _ s h; exact h
    | cons t ts ih =>
        intro hts s h
        refine ih (fun u hu => hts u (by simp [hu])) _ ?_
        intro k m x hx
        unfold Prog.edge at hx
        simp only at hx
        split at hx
        · next hk =>
          subst hk
          rcases propagate_nodes hx with h' | ⟨hb, h'⟩
          · exact h k m x h'
          · exact hQ i k (hts k (by simp)) m x hb (h i m x h')
        · exact h k m x hx
  induction hr with
  | done s => exact fun h => h
  | pop i _ _ ih =>
      intro h
      refine ih (hedges i _ ?_ _ h)
      intro t ht
      simp only [Prog.targetsOf, List.mem_map, List.mem_filter, decide_eq_true_eq, Prod.exists] at ht
      obtain ⟨a, b, ⟨hab, rfl⟩, rfl⟩ := ht
      exact hab

/-! ## Termination -/

def missing (e : Eff) : Nat := (if e.ref then 0 else 1) + (if e.mod then 0 else 1)

def sumTo (f : Nat → Nat) : Nat → Nat
  | 0 => 0
  | n + 1 => sumTo f n + f n

theorem sumTo_le {f g : Nat → Nat} : ∀ n, (∀ k < n, f k ≤ g k) → sumTo f n ≤ sumTo g n
  | 0, _ => Nat.le_refl _
  | n + 1, h => Nat.add_le_add (sumTo_le n fun k hk => h k (by omega)) (h n (by omega))

theorem sumTo_lt {f g : Nat → Nat} : ∀ n, (∀ k < n, f k ≤ g k) → (∃ k < n, f k < g k) → sumTo f n < sumTo g n
  | 0, _, h => by obtain ⟨k, hk, _⟩ := h; omega
  | n + 1, h, ⟨k, hk, hlt⟩ => by
      simp only [sumTo]
      by_cases hkn : k = n
      · subst hkn
        have := sumTo_le k fun j hj => h j (by omega)
        omega
      · have := sumTo_lt n (fun j hj => h j (by omega)) ⟨k, by omega, hlt⟩
        have := h n (by omega)
        omega

def MRSet.pot (num : Nat) (s : MRSet) : Nat :=
  s.refExt + s.modExt + (if s.calls then 0 else 1) + sumTo (fun m => missing (s.nodes m)) num

theorem missing_le {a b : Eff} (h : ∀ x, a.has x = true → b.has x = true) : missing b ≤ missing a := by
  have h1 := h .read
  have h2 := h .write
  simp only [Eff.has] at h1 h2
  unfold missing
  cases a with
  | mk r m => cases b with
    | mk r' m' => cases r <;> cases m <;> cases r' <;> cases m' <;> simp_all

theorem missing_lt {a b : Eff} (h : ∀ x, a.has x = true → b.has x = true) (hne : b ≠ a) : missing b < missing a := by
  have h1 := h .read
  have h2 := h .write
  simp only [Eff.has] at h1 h2
  unfold missing
  cases a with
  | mk r m => cases b with
    | mk r' m' => cases r <;> cases m <;> cases r' <;> cases m' <;> simp_all

theorem pot_le {num : Nat} {a b : MRSet} (h : Le a b) : b.pot num ≤ a.pot num := by
  unfold MRSet.pot
  have h1 := h.1.1 .read
  have h2 := h.1.1 .write
  simp only [MRSet.min] at h1 h2
  have h3 : (if b.calls then 0 else 1) ≤ (if a.calls then 0 else 1) := by
    cases hc : a.calls with
    | true => simp [h.1.2 hc]
    | false => split <;> simp
  have h4 := sumTo_le (f := fun m => missing (b.nodes m)) (g := fun m => missing (a.nodes m)) num (fun m _ => missing_le (h.2 m))
  omega

theorem pot_lt {num : Nat} {a b : MRSet} (h : Le a b) (hd : MRSet.differ num b a = true) : b.pot num < a.pot num := by
  have h1 := h.1.1 .read
  have h2 := h.1.1 .write
  simp only [MRSet.min] at h1 h2
  have h3 : (if b.calls then 0 else 1) ≤ (if a.calls then 0 else 1) := by
    cases hc : a.calls with
    | true => simp [h.1.2 hc]
    | false => split <;> simp
  have h4 := sumTo_le (f := fun m => missing (b.nodes m)) (g := fun m => missing (a.nodes m)) num (fun m _ => missing_le (h.2 m))
  unfold MRSet.differ at hd
  simp only [Bool.or_eq_true, bne_iff_ne, ne_eq, List.any_eq_true, List.mem_range] at hd
  unfold MRSet.pot
  rcases hd with ((hd | hd) | hd) | ⟨m, hm, hd⟩
  · omega
  · omega
  · have : (if b.calls then 0 else 1) < (if a.calls then 0 else 1) := by
      cases hc : a.calls with
      | true => rw [h.1.2 hc, hc] at hd; exact absurd rfl hd
      | false =>
          cases hb : b.calls with
          | true => simp
          | false => rw [hc, hb] at hd; exact absurd rfl hd
    omega
  · have := sumTo_lt (f := fun m => missing (b.nodes m)) (g := fun m => missing (a.nodes m)) num (fun m _ => missing_le (h.2 m))
      ⟨m, hm, missing_lt (h.2 m) hd⟩
    omega

def Solver.pot (P : Prog) (s : Solver) : Nat := sumTo (fun k => (s.sets k).pot P.ptg.num) (P.nodes.length + 1)

theorem edge_pot {P : Prog} {i t : Nat} (ht : t < P.nodes.length + 1) {s : Solver} (hok : ∀ k, Ok P.ptg.num (s.sets k)) :
    (P.edge i s t).pot P < s.pot P ∨ ((P.edge i s t).pot P ≤ s.pot P ∧ (P.edge i s t).work = s.work) := by
  obtain ⟨h1, h2, h3⟩ := propagate_spec (blocked := P.block t) (hok i) (hok t)
  have hle : ∀ k, Le (s.sets k) ((P.edge i s t).sets k) := by
    intro k
    unfold Prog.edge
    simp only
    split
    · next h => subst h; exact h3
    · exact Le.refl _
  cases hd : MRSet.differ P.ptg.num ((s.sets t).propagate P.ptg (P.block t) (s.sets i)) (s.sets t) with
  | true =>
      left
      refine sumTo_lt _ (fun k _ => pot_le (hle k)) ⟨t, ht, ?_⟩
      refine pot_lt (hle t) ?_
      unfold Prog.edge
      simp [hd]
  | false =>
      right
      refine ⟨sumTo_le _ fun k _ => pot_le (hle k), ?_⟩
      unfold Prog.edge
      simp [hd]

theorem edges_pot {P : Prog} {i : Nat} (ts : List Nat) (hts : ∀ t ∈ ts, t < P.nodes.length + 1) :
    ∀ {s : Solver}, SInv P i ts s →
      (ts.foldl (P.edge i) s).pot P < s.pot P ∨ ((ts.foldl (P.edge i) s).pot P ≤ s.pot P ∧ (ts.foldl (P.edge i) s).work = s.work) := by
  induction ts with
  | nil => intro s h; exact Or.inr ⟨Nat.le_refl _, rfl⟩
  | cons t ts ih =>
      intro s h
      have h1 := edge_pot (i := i) (hts t (by simp)) h.ok
      have h2 := ih (fun u hu => hts u (by simp [hu])) (edge_inv h)
      simp only [List.foldl_cons]
      rcases h1 with h1 | ⟨h1, e1⟩ <;> rcases h2 with h2 | ⟨h2, e2⟩
      · left; omega
      · left; omega
      · left; omega
      · right; exact ⟨by omega, e2.trans e1⟩

/-- The targets of constraints are mod/ref sets. -/
def Prog.InRange (P : Prog) : Prop := ∀ a b, (a, b) ∈ P.constraints → b < P.nodes.length + 1

theorem targetsOf_mem {P : Prog} {i t : Nat} (h : t ∈ P.targetsOf i) : (i, t) ∈ P.constraints := by
  simp only [Prog.targetsOf, List.mem_map, List.mem_filter, decide_eq_true_eq, Prod.exists] at h
  obtain ⟨a, b, ⟨hab, rfl⟩, rfl⟩ := h
  exact hab

theorem visit_measure {P : Prog} (hr : P.InRange) {i j : Nat} {s : Solver} (hi : i ∈ s.work) (h : SInv P j [] s) :
    (P.visit i s).pot P < s.pot P ∨ ((P.visit i s).pot P ≤ s.pot P ∧ (P.visit i s).work.length < s.work.length) := by
  have h0 : SInv P i (P.targetsOf i) { s with work := s.work.filter (· != i) } := by
    refine ⟨h.ok, ?_⟩
    intro a b hab
    simp only
    rcases h.sat a b hab with hw | hs | ⟨_, hb⟩
    · by_cases ha : a = i
      · exact Or.inr (Or.inr ⟨ha, List.mem_map.2 ⟨(a, b), by subst ha; simp [hab], rfl⟩⟩)
      · exact Or.inl (by simp [hw, ha])
    · exact Or.inr (Or.inl hs)
    · simp at hb
  rcases edges_pot (P.targetsOf i) (fun t ht => hr _ _ (targetsOf_mem ht)) h0 with h1 | ⟨h1, h2⟩
  · exact Or.inl h1
  · refine Or.inr ⟨h1, ?_⟩
    have : (P.visit i s).work = s.work.filter (· != i) := h2
    rw [this]
    exact List.length_filter_lt_length_iff_exists.2 ⟨i, hi, by simp⟩

theorem terminates {P : Prog} (hr : P.InRange) : ∀ (n k : Nat) (s : Solver), s.pot P ≤ n → s.work.length ≤ k → (∃ j, SInv P j [] s) →
    _root_.Acc (fun s' s : Solver => ∃ i ∈ s.work, s' = P.visit i s) s := by
  intro n
  induction n with
  | zero =>
      intro k
      induction k with
      | zero =>
          intro s h1 h2 _
          refine ⟨_, ?_⟩
          rintro s' ⟨i, hi, rfl⟩
          rw [List.eq_nil_of_length_eq_zero (Nat.le_zero.1 h2)] at hi
          simp at hi
      | succ k ih =>
          intro s h1 h2 ⟨j, hj⟩
          refine ⟨_, ?_⟩
          rintro s' ⟨i, hi, rfl⟩
          rcases visit_measure hr hi hj with h | ⟨h, h'⟩
          · omega
          · exact ih _ (by omega) (by omega) ⟨i, visit_inv hj⟩
  | succ n ihn =>
      intro k
      induction k with
      | zero =>
          intro s h1 h2 _
          refine ⟨_, ?_⟩
          rintro s' ⟨i, hi, rfl⟩
          rw [List.eq_nil_of_length_eq_zero (Nat.le_zero.1 h2)] at hi
          simp at hi
      | succ k ih =>
          intro s h1 h2 ⟨j, hj⟩
          refine ⟨_, ?_⟩
          rintro s' ⟨i, hi, rfl⟩
          rcases visit_measure hr hi hj with h | ⟨h, h'⟩
          · exact ihn _ _ (by omega) (Nat.le_refl _) ⟨i, visit_inv hj⟩
          · exact ih _ (by omega) (by omega) ⟨i, visit_inv hj⟩

theorem run_exists {P : Prog} {s : Solver} (h : _root_.Acc (fun s' s : Solver => ∃ i ∈ s.work, s' = P.visit i s) s) :
    ∃ s', P.Run s s' ∧ s'.work = [] := by
  induction h with
  | intro s _ ih =>
      cases hw : s.work with
      | nil => exact ⟨s, .done s, hw⟩
      | cons i w =>
          obtain ⟨s', h1, h2⟩ := ih _ ⟨i, by simp [hw], rfl⟩
          exact ⟨s', .pop i (by simp [hw]) h1, h2⟩

end Jlm.ModRef
