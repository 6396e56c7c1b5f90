import Verif.Aa.PointerSetModel
import Mathlib.Algebra.Order.Group.Nat
import Mathlib.Logic.Relation
import Mathlib.Tactic.Tauto
/-
C20: the union-find forest of `PointerObjectSet` behaves like a set of equivalence classes.
-/
set_option linter.unusedSimpArgs false
set_option linter.unusedVariables false
namespace Jlm.Llvm.Aa

theorem upd_same {α} (f : Nat → α) (i a) : upd f i a i = a := by simp [upd]
theorem upd_ne {α} (f : Nat → α) {i j : Nat} (a) (h : j ≠ i) : upd f i a j = f j := by simp [upd, h]
theorem upd_self {α} (f : Nat → α) (i) : upd f i (f i) = f := by
  funext j; unfold upd; split
  · rename_i h; rw [h]
  · rfl

theorem mem_ins {l : List Nat} {x y : Nat} : y ∈ ins l x ↔ y ∈ l ∨ y = x := by
  unfold ins
  split
  · constructor
    · exact Or.inl
    · rintro (h | rfl) <;> assumption
  · simp

theorem mem_uni {l m : List Nat} {y : Nat} : y ∈ uni l m ↔ y ∈ l ∨ y ∈ m := by
  unfold uni
  induction m generalizing l with
  | nil => simp
  | cons a m ih => rw [List.foldl_cons, ih, mem_ins, List.mem_cons]; tauto

/-- well-formedness of the root function and the ranks -/
structure RSet.Wf (r : RSet) : Prop where
  lt : ∀ i, i < r.n → r.root i < r.n
  idem : ∀ i, r.root (r.root i) = r.root i
  out : ∀ i, r.n ≤ i → r.root i = i
  rk : ∀ i, r.root i ≠ i → r.rank i < r.rank (r.root i)
  size : ∀ i, i < r.n → r.root i = i → 2 ^ r.rank i ≤ (List.range r.n).countP (fun j => r.root j = i)
  bound : r.n ≤ 2 ^ 32 - 1

/-- the forest `s` represents the root function of `r` -/
structure Rel (s : PSet) (r : RSet) : Prop where
  n : s.n = r.n
  obj : s.obj = r.obj
  rank : s.rank = r.rank
  pts : s.pts = r.pts
  fix : ∀ i, s.parent i = i ↔ r.root i = i
  step : ∀ i, r.root (s.parent i) = r.root i
  lt : ∀ i, i < r.n → s.parent i < r.n
  rk : ∀ i, s.parent i ≠ i → r.rank i < r.rank (s.parent i)
  wf : r.Wf

namespace RSet.Wf
variable {r : RSet} (w : r.Wf)
include w

theorem rank_lt {i : Nat} (hi : i < r.n) (h : r.root i = i) : 2 ^ r.rank i ≤ r.n := by
  have := w.size i hi h
  have h2 := List.countP_le_length (p := fun j => decide (r.root j = i)) (l := List.range r.n)
  rw [List.length_range] at h2
  omega

theorem rank_lt_n {i : Nat} (hi : i < r.n) (h : r.root i = i) : r.rank i < r.n :=
  Nat.lt_of_lt_of_le Nat.lt_two_pow_self (w.rank_lt hi h)

theorem rank_le_31 {i : Nat} (hi : i < r.n) (h : r.root i = i) : r.rank i ≤ 31 := by
  have h1 := w.rank_lt hi h
  have h2 := w.bound
  by_contra hc
  have : 2 ^ 32 ≤ 2 ^ r.rank i := Nat.pow_le_pow_right (by omega) (by omega)
  omega

theorem rank_le_root (i : Nat) : r.rank i ≤ r.rank (r.root i) := by
  by_cases h : r.root i = i
  · rw [h]
  · exact (w.rk i h).le

end RSet.Wf

theorem rootLoop_spec {r : RSet} : ∀ (fuel i : Nat) (s : PSet), Rel s r → i < r.n →
    r.rank (r.root i) < fuel + r.rank i →
    ∃ s', PSet.rootLoop fuel i s = some (r.root i, s') ∧ Rel s' r := by
  intro fuel
  induction fuel with
  | zero =>
    intro i s h hi hf
    have := h.wf.rank_le_root i
    omega
  | succ fuel ih =>
    intro i s h hi hf
    unfold PSet.rootLoop
    split
    · rename_i he
      rw [(h.fix i).1 he]
      exact ⟨s, rfl, h⟩
    · rename_i he
      have hroot : r.root (s.parent (s.parent i)) = r.root i := by rw [h.step, h.step]
      have hr1 := h.rk i he
      have hr2 : r.rank (s.parent i) ≤ r.rank (s.parent (s.parent i)) := by
        by_cases hp : s.parent (s.parent i) = s.parent i
        · rw [hp]
        · exact (h.rk _ hp).le
      have hne : r.root i ≠ i := fun hc => he ((h.fix i).2 hc)
      have key : Rel { s with parent := upd s.parent i (s.parent (s.parent i)) } r := by
        refine ⟨h.n, h.obj, h.rank, h.pts, ?_, ?_, ?_, ?_, h.wf⟩
        · intro j
          show upd _ _ _ j = j ↔ _
          unfold upd; split
          · rename_i hj; subst hj
            constructor
            · intro hc
              rw [hc] at hr2
              omega
            · intro hc; exact absurd hc hne
          · exact h.fix j
        · intro j
          show r.root (upd _ _ _ j) = _
          unfold upd; split
          · rename_i hj; subst hj; exact hroot
          · exact h.step j
        · intro j hj
          show upd _ _ _ j < _
          unfold upd; split
          · exact h.lt _ (h.lt _ hi)
          · exact h.lt j hj
        · intro j
          show upd _ _ _ j ≠ j → r.rank j < r.rank (upd _ _ _ j)
          unfold upd; split
          · rename_i hj; subst hj; intro _; omega
          · exact h.rk j
      obtain ⟨s', h1, h2⟩ := ih (s.parent (s.parent i)) _ key (h.lt _ (h.lt _ hi)) (by
        rw [hroot]; omega)
      rw [hroot] at h1
      exact ⟨s', h1, h2⟩

theorem root_spec {s : PSet} {r : RSet} (h : Rel s r) {i : Nat} (hi : i < r.n) :
    ∃ s', s.root i = some (r.root i, s') ∧ Rel s' r := by
  unfold PSet.root
  rw [if_pos (by rw [h.n]; exact hi), h.n]
  apply rootLoop_spec _ _ _ h hi
  have := h.wf.rank_lt_n (h.wf.lt i hi) (h.wf.idem i)
  omega

/-- changing only objects -/
theorem Rel.setObj {s : PSet} {r : RSet} (h : Rel s r) (o : Nat → Obj) :
    Rel { s with obj := o } { r with obj := o } :=
  ⟨h.n, rfl, h.rank, h.pts, h.fix, h.step, h.lt, h.rk,
    ⟨h.wf.lt, h.wf.idem, h.wf.out, h.wf.rk, h.wf.size, h.wf.bound⟩⟩

theorem Rel.setPts {s : PSet} {r : RSet} (h : Rel s r) (o : Nat → List Nat) :
    Rel { s with pts := o } { r with pts := o } :=
  ⟨h.n, h.obj, h.rank, rfl, h.fix, h.step, h.lt, h.rk,
    ⟨h.wf.lt, h.wf.idem, h.wf.out, h.wf.rk, h.wf.size, h.wf.bound⟩⟩

section marks
variable {s : PSet} {r : RSet} (h : Rel s r) {i : Nat} (hi : i < r.n)
include h hi

theorem markPE_spec : ∃ s', s.markPE i = some ((r.markPE i).1, s') ∧ Rel s' (r.markPE i).2 := by
  obtain ⟨s', h1, h2⟩ := root_spec h hi
  unfold PSet.markPE RSet.markPE RSet.pe RSet.setPE
  simp only [h1, Option.map_some, h2.obj]
  split
  · exact ⟨s', rfl, h2⟩
  · exact ⟨_, rfl, h2.setObj _⟩

theorem markPTE_spec : ∃ s', s.markPTE i = some ((r.markPTE i).1, s') ∧ Rel s' (r.markPTE i).2 := by
  obtain ⟨s', h1, h2⟩ := root_spec h hi
  unfold PSet.markPTE RSet.markPTE RSet.pte RSet.setPTE
  simp only [h1, Option.map_some, h2.obj]
  split
  · exact ⟨s', rfl, h2⟩
  · exact ⟨_, rfl, h2.setObj _⟩

theorem markSS_spec : ∃ s', s.markSS i = some ((r.markSS i).1, s') ∧ Rel s' (r.markSS i).2 := by
  obtain ⟨s', h1, h2⟩ := root_spec h hi
  unfold PSet.markSS RSet.markSS RSet.ss RSet.setSS
  simp only [h1, Option.map_some, h2.obj]
  split
  · exact ⟨s', rfl, h2⟩
  · exact ⟨_, rfl, h2.setObj _⟩

theorem markLS_spec : ∃ s', s.markLS i = some ((r.markLS i).1, s') ∧ Rel s' (r.markLS i).2 := by
  obtain ⟨s', h1, h2⟩ := root_spec h hi
  unfold PSet.markLS RSet.markLS RSet.ls RSet.setLS
  simp only [h1, Option.map_some, h2.obj]
  split
  · exact ⟨s', rfl, h2⟩
  · exact ⟨_, rfl, h2.setObj _⟩

theorem isPTE_spec : ∃ s', s.isPTE i = some (r.pte i, s') ∧ Rel s' r := by
  obtain ⟨s', h1, h2⟩ := root_spec h hi
  exact ⟨s', by simp [PSet.isPTE, RSet.pte, h1, h2.obj], h2⟩
theorem hasPE_spec : ∃ s', s.hasPE i = some (r.pe i, s') ∧ Rel s' r := by
  obtain ⟨s', h1, h2⟩ := root_spec h hi
  exact ⟨s', by simp [PSet.hasPE, RSet.pe, h1, h2.obj], h2⟩
theorem isSS_spec : ∃ s', s.isSS i = some (r.ss i, s') ∧ Rel s' r := by
  obtain ⟨s', h1, h2⟩ := root_spec h hi
  exact ⟨s', by simp [PSet.isSS, RSet.ss, h1, h2.obj], h2⟩
theorem isLS_spec : ∃ s', s.isLS i = some (r.ls i, s') ∧ Rel s' r := by
  obtain ⟨s', h1, h2⟩ := root_spec h hi
  exact ⟨s', by simp [PSet.isLS, RSet.ls, h1, h2.obj], h2⟩
theorem pointees_spec : ∃ s', s.pointees i = some (r.pointees i, s') ∧ Rel s' r := by
  obtain ⟨s', h1, h2⟩ := root_spec h hi
  exact ⟨s', by simp [PSet.pointees, RSet.pointees, h1, h2.pts], h2⟩

theorem removeAll_spec : ∃ s', s.removeAll i = some s' ∧ Rel s' (r.removeAll i) := by
  obtain ⟨s', h1, h2⟩ := root_spec h hi
  unfold PSet.removeAll RSet.removeAll
  simp only [h1, Option.map_some, h2.pts]
  exact ⟨_, rfl, h2.setPts _⟩

end marks

theorem markPE_n (r : RSet) (i) : (r.markPE i).2.n = r.n := by
  unfold RSet.markPE RSet.setPE; split <;> rfl
theorem markPTE_n (r : RSet) (i) : (r.markPTE i).2.n = r.n := by
  unfold RSet.markPTE RSet.setPTE; split <;> rfl

theorem isPointingTo_spec {s : PSet} {r : RSet} (h : Rel s r) {p x : Nat} (hp : p < r.n)
    (hx : x < r.n) : ∃ s', s.isPointingTo p x = some (r.isPointingTo p x, s') ∧ Rel s' r := by
  obtain ⟨s', h1, h2⟩ := isPTE_spec h hp
  obtain ⟨s'', h3, h4⟩ := pointees_spec h2 hp
  unfold PSet.isPointingTo
  simp only [h1, Option.bind_eq_bind, Option.bind_some, PSet.hasEscaped, h2.n, hx, if_true, h3]
  unfold RSet.isPointingTo RSet.escaped
  rw [h2.obj]
  cases r.pte p <;> cases (r.obj x).escaped <;> simp <;> first | exact ⟨_, rfl, h2⟩ | exact ⟨_, ⟨rfl, rfl⟩, h4⟩ | exact ⟨_, rfl, h4⟩ | exact h2 | exact h4

theorem addPointee_spec {s : PSet} {r : RSet} (h : Rel s r) {p x : Nat} (hp : p < r.n)
    (hx : x < r.n) (hk : (r.obj x).kind ≠ .register) :
    ∃ s', s.addPointee p x = some ((r.addPointee p x).1, s') ∧ Rel s' (r.addPointee p x).2 := by
  obtain ⟨s', h1, h2⟩ := root_spec h hp
  unfold PSet.addPointee
  rw [if_pos (by rw [h.n, h.obj]; exact ⟨hp, hx, hk⟩), h1]
  simp only [Option.map_some, RSet.addPointee, RSet.pointees, h2.pts]
  exact ⟨_, rfl, h2.setPts _⟩

theorem makeSuperset_spec {s : PSet} {r : RSet} (h : Rel s r) {a b : Nat} (ha : a < r.n)
    (hb : b < r.n) : ∃ s', s.makeSuperset a b = some ((r.makeSuperset a b).1, s') ∧
      Rel s' (r.makeSuperset a b).2 := by
  obtain ⟨s1, h1, h2⟩ := root_spec h ha
  obtain ⟨s2, h3, h4⟩ := root_spec h2 hb
  unfold PSet.makeSuperset
  simp only [h1, Option.bind_eq_bind, Option.bind_some, h3]
  unfold RSet.makeSuperset
  split
  · exact ⟨_, rfl, h4⟩
  · simp only [h4.pts]
    have h5 := h4.setPts (upd r.pts (r.root a) (uni (r.pointees a) (r.pointees b)))
    obtain ⟨s5, h6, h7⟩ := isPTE_spec h5 (i := r.root b) (h.wf.lt b hb)
    unfold RSet.pointees at h6 h7 ⊢
    simp only [h6, Option.bind_some]
    have e1 : RSet.pte { r with pts := upd r.pts (r.root a) (uni (r.pts (r.root a)) (r.pts (r.root b))) }
        (r.root b) = RSet.pte { r with pts := upd r.pts (r.root a) (uni (r.pts (r.root a)) (r.pts (r.root b))) } b := by
      simp only [RSet.pte, h.wf.idem]
    rw [e1]
    split
    · obtain ⟨s8, h8, h9⟩ := markPTE_spec h7 (i := r.root a) (h.wf.lt a ha)
      simp only [h8, Option.map_some]
      have e2 : ∀ q : RSet, q.root (r.root a) = q.root a → q.markPTE (r.root a) = q.markPTE a := by
        intro q hq
        unfold RSet.markPTE RSet.pte RSet.setPTE
        rw [hq]
      have e3 := e2 { r with pts := upd r.pts (r.root a) (uni (r.pts (r.root a)) (r.pts (r.root b))) } (h.wf.idem a)
      rw [e3] at h9 ⊢
      exact ⟨_, rfl, h9⟩
    · exact ⟨_, rfl, h7⟩

theorem markEscaped_spec {s : PSet} {r : RSet} (h : Rel s r) {i : Nat} (hi : i < r.n)
    (hk : (r.obj i).kind ≠ .register) :
    ∃ s', s.markEscaped i = some ((r.markEscaped i).1, s') ∧ Rel s' (r.markEscaped i).2 := by
  unfold PSet.markEscaped RSet.markEscaped RSet.escaped
  rw [if_pos (by rw [h.n, h.obj]; exact ⟨hi, hk⟩), h.obj]
  split
  · exact ⟨s, rfl, h⟩
  · have h1 := h.setObj (upd r.obj i { r.obj i with escaped := true })
    obtain ⟨s2, h2, h3⟩ := markPE_spec h1 hi
    simp only [h2, Option.bind_some]
    obtain ⟨s4, h4, h5⟩ := markPTE_spec h3 (i := i) (by rw [markPE_n]; exact hi)
    simp only [h4, Option.map_some]
    exact ⟨_, rfl, h5⟩

theorem add_spec {s : PSet} {r : RSet} (h : Rel s r) {k c} (hn : r.n < 2 ^ 32 - 1)
    (hk : Obj.newOk k c = true) :
    ∃ s', s.add k c = some (r.n, s') ∧ Rel s' (r.add k c) := by
  unfold PSet.add RSet.add
  rw [if_pos (by rw [h.n]; exact ⟨hn, hk⟩), h.n, h.obj, h.rank, h.pts]
  refine ⟨_, rfl, ⟨rfl, rfl, rfl, rfl, ?_, ?_, ?_, ?_, ⟨?_, ?_, ?_, ?_, ?_, by show r.n + 1 ≤ _; omega⟩⟩⟩
  · intro i
    show upd _ _ _ i = i ↔ upd _ _ _ i = i
    unfold upd; split
    · rfl
    · exact h.fix i
  · intro i
    show upd _ _ _ (upd _ _ _ i) = upd _ _ _ i
    by_cases hi : i = r.n
    · simp [upd, hi]
    · rw [upd_ne _ _ hi, upd_ne _ _ hi]
      have : s.parent i ≠ r.n := by
        by_cases hlt : i < r.n
        · exact (h.lt i hlt).ne
        · rw [(h.fix i).2 (h.wf.out i (by omega))]; exact hi
      rw [upd_ne _ _ this, h.step]
  · intro i hi
    show upd _ _ _ i < r.n + 1
    unfold upd; split
    · omega
    · exact Nat.lt_succ_of_lt (h.lt i (by have : i < r.n + 1 := hi; omega))
  · intro i
    show upd _ _ _ i ≠ i → upd _ _ _ i < upd _ _ _ (upd _ _ _ i)
    by_cases hi : i = r.n
    · simp [upd, hi]
    · rw [upd_ne _ _ hi, upd_ne _ _ hi]
      intro hne
      have : s.parent i ≠ r.n := by
        by_cases hlt : i < r.n
        · exact (h.lt i hlt).ne
        · rw [(h.fix i).2 (h.wf.out i (by omega))]; exact hi
      rw [upd_ne _ _ this]
      exact h.rk i hne
  · intro i hi
    show upd _ _ _ i < r.n + 1
    unfold upd; split
    · omega
    · exact Nat.lt_succ_of_lt (h.wf.lt i (by have : i < r.n + 1 := hi; omega))
  · intro i
    show upd _ _ _ (upd _ _ _ i) = upd _ _ _ i
    by_cases hi : i = r.n
    · simp [upd, hi]
    · rw [upd_ne _ _ hi]
      have : r.root i ≠ r.n := by
        by_cases hlt : i < r.n
        · exact (h.wf.lt i hlt).ne
        · rw [h.wf.out i (by omega)]; exact hi
      rw [upd_ne _ _ this, h.wf.idem]
  · intro i hi
    have hi : r.n + 1 ≤ i := hi
    show upd _ _ _ i = i
    rw [upd_ne _ _ (by omega), h.wf.out i (by omega)]
  · intro i
    show upd _ _ _ i ≠ i → upd _ _ _ i < upd _ _ _ (upd _ _ _ i)
    by_cases hi : i = r.n
    · simp [upd, hi]
    · rw [upd_ne _ _ hi, upd_ne _ _ hi]
      intro hne
      have : r.root i ≠ r.n := by
        by_cases hlt : i < r.n
        · exact (h.wf.lt i hlt).ne
        · rw [h.wf.out i (by omega)]; exact hi
      rw [upd_ne _ _ this]
      exact h.wf.rk i hne
  · intro i hi
    have hi : i < r.n + 1 := hi
    show upd _ _ _ i = i → 2 ^ upd _ _ _ i ≤ (List.range (r.n + 1)).countP _
    rw [List.range_succ, List.countP_append]
    by_cases hin : i = r.n
    · subst hin
      intro _
      simp [upd]
    · rw [upd_ne _ _ hin, upd_ne _ _ hin]
      intro hr
      have h1 := h.wf.size i (by omega) hr
      have h2 : (List.range r.n).countP (fun j => decide (r.root j = i))
          = (List.range r.n).countP (fun j => decide (upd r.root r.n r.n j = i)) := by
        apply List.countP_congr
        intro j hj
        rw [List.mem_range] at hj
        rw [upd_ne _ _ (by omega)]
      rw [← h2]
      omega

/-- after the ranks have been compared, `old` is hung below `new` -/
theorem unify_wf {r : RSet} (w : r.Wf) {new old : Nat} (hnew : new < r.n) (hold : old < r.n)
    (hrn : r.root new = new) (hro : r.root old = old) (hne : new ≠ old) (k : Nat)
    (hk : (r.rank old < r.rank new ∧ k = r.rank new) ∨
          (r.rank old = r.rank new ∧ k = r.rank new + 1)) (o : Nat → Obj) (p : Nat → List Nat) :
    RSet.Wf { n := r.n, obj := o, root := fun i => if r.root i = old then new else r.root i,
              rank := upd r.rank new k, pts := p } := by
  refine ⟨?_, ?_, ?_, ?_, ?_, w.bound⟩
  · intro i hi
    show (if _ then _ else _) < r.n
    split
    · exact hnew
    · exact w.lt i hi
  · intro i
    show (if r.root (if _ then _ else _) = old then _ else r.root (if _ then _ else _)) = (if _ then _ else _)
    split
    · rw [hrn]; split <;> rfl
    · rename_i hi; rw [w.idem, if_neg hi]
  · intro i hi
    show (if _ then _ else _) = i
    have := w.out i hi
    rw [this, if_neg (by have : r.n ≤ i := hi; omega)]
  · intro i
    show (if _ then _ else _) ≠ i → upd _ _ _ i < upd _ _ _ (if _ then _ else _)
    have hin : i = new → r.root i = i := by rintro rfl; exact hrn
    split
    · rename_i hi
      intro hni
      rw [upd_same, upd_ne _ _ (Ne.symm hni)]
      have := w.rank_le_root i
      rw [hi] at this
      omega
    · rename_i hi
      intro hri
      rw [upd_ne _ _ (fun hc => hri (hin hc))]
      have := w.rk i hri
      unfold upd; split
      · rename_i hc; rw [hc] at this; omega
      · exact this
  · intro i hi
    show (if _ then _ else _) = i → 2 ^ upd _ _ _ i ≤ (List.range r.n).countP (fun j => decide ((if r.root j = old then new else r.root j) = i))
    intro hri
    have hio : i ≠ old := by
      rintro rfl
      rw [if_pos hro] at hri
      exact hne hri
    by_cases hin : i = new
    · subst hin
      rw [upd_same]
      have hsum : ∀ l : List Nat, l.countP (fun j => decide ((if r.root j = old then i else r.root j) = i))
          = l.countP (fun j => decide (r.root j = i)) + l.countP (fun j => decide (r.root j = old)) := by
        intro l
        induction l with
        | nil => rfl
        | cons a l ih =>
          rw [List.countP_cons, List.countP_cons, List.countP_cons, ih]
          by_cases ha : r.root a = old
          · have : ¬ (old = i) := fun h => hne h.symm
            simp [ha, this]
            omega
          · by_cases hb : r.root a = i
            · simp [hb, hne]; omega
            · simp [ha, hb]
      rw [hsum]
      have h1 := w.size i hi hrn
      have h2 := w.size old hold hro
      rcases hk with ⟨_, rfl⟩ | ⟨he, rfl⟩
      · omega
      · rw [he] at h2
        rw [Nat.pow_succ]; omega
    · rw [upd_ne _ _ hin]
      have hri' : r.root i = i := by
        split at hri
        · exact absurd hri.symm hin
        · exact hri
      refine Nat.le_trans (w.size i hi hri') ?_
      apply Nat.le_of_eq
      apply List.countP_congr
      intro j _
      by_cases ha : r.root j = old
      · simp [ha, Ne.symm hio, Ne.symm hin]
      · simp [ha]

theorem root_fix {s : PSet} {i : Nat} (hi : i < s.n) (h : s.parent i = i) :
    s.root i = some (i, s) := by
  unfold PSet.root
  rw [if_pos hi]
  unfold PSet.rootLoop
  rw [if_pos h]

theorem upd_upd {α} (f : Nat → α) (i : Nat) (a b : α) : upd (upd f i a) i b = upd f i b := by
  funext j; unfold upd; split <;> rfl

section move
variable {s : PSet} {new old : Nat} (hn : new < s.n) (ho : old < s.n)
  (hpn : s.parent new = new) (hpo : s.parent old = old)
include hn ho hpn hpo

theorem movePTE_spec : PSet.movePTE new old s =
    some { s with obj := upd s.obj new { s.obj new with pte := (s.obj new).pte || (s.obj old).pte } } := by
  unfold PSet.movePTE PSet.isPTE PSet.markPTE
  simp only [root_fix ho hpo, root_fix hn hpn, Option.map_some, Option.bind_some]
  by_cases h1 : (s.obj old).pte = true
  · rw [if_pos h1, h1, Bool.or_true]
    by_cases h2 : (s.obj new).pte = true
    · rw [if_pos h2]
      have : ({ s.obj new with pte := true } : Obj) = s.obj new := by rw [← h2]
      rw [this, upd_self]
    · rw [if_neg h2]
  · rw [if_neg h1]
    rw [Bool.not_eq_true] at h1
    rw [h1, Bool.or_false, upd_self]

theorem movePE_spec : PSet.movePE new old s =
    some { s with obj := upd s.obj new { s.obj new with pe := (s.obj new).pe || (s.obj old).pe } } := by
  unfold PSet.movePE PSet.hasPE PSet.markPE
  simp only [root_fix ho hpo, root_fix hn hpn, Option.map_some, Option.bind_some]
  by_cases h1 : (s.obj old).pe = true
  · rw [if_pos h1, h1, Bool.or_true]
    by_cases h2 : (s.obj new).pe = true
    · rw [if_pos h2]
      have : ({ s.obj new with pe := true } : Obj) = s.obj new := by rw [← h2]
      rw [this, upd_self]
    · rw [if_neg h2]
  · rw [if_neg h1]
    rw [Bool.not_eq_true] at h1
    rw [h1, Bool.or_false, upd_self]

theorem moveSS_spec : PSet.moveSS new old s =
    some { s with obj := upd s.obj new { s.obj new with ss := (s.obj new).ss || (s.obj old).ss } } := by
  unfold PSet.moveSS PSet.isSS PSet.markSS
  simp only [root_fix ho hpo, root_fix hn hpn, Option.map_some, Option.bind_some]
  by_cases h1 : (s.obj old).ss = true
  · rw [if_pos h1, h1, Bool.or_true]
    by_cases h2 : (s.obj new).ss = true
    · rw [if_pos h2]
      have : ({ s.obj new with ss := true } : Obj) = s.obj new := by rw [← h2]
      rw [this, upd_self]
    · rw [if_neg h2]
  · rw [if_neg h1]
    rw [Bool.not_eq_true] at h1
    rw [h1, Bool.or_false, upd_self]

theorem moveLS_spec : PSet.moveLS new old s =
    some { s with obj := upd s.obj new { s.obj new with ls := (s.obj new).ls || (s.obj old).ls } } := by
  unfold PSet.moveLS PSet.isLS PSet.markLS
  simp only [root_fix ho hpo, root_fix hn hpn, Option.map_some, Option.bind_some]
  by_cases h1 : (s.obj old).ls = true
  · rw [if_pos h1, h1, Bool.or_true]
    by_cases h2 : (s.obj new).ls = true
    · rw [if_pos h2]
      have : ({ s.obj new with ls := true } : Obj) = s.obj new := by rw [← h2]
      rw [this, upd_self]
    · rw [if_neg h2]
  · rw [if_neg h1]
    rw [Bool.not_eq_true] at h1
    rw [h1, Bool.or_false, upd_self]

theorem moveFlags_spec (hne : new ≠ old) : s.moveFlags new old =
    some { s with obj := upd s.obj new { s.obj new with pte := (s.obj new).pte || (s.obj old).pte, pe := (s.obj new).pe || (s.obj old).pe, ss := (s.obj new).ss || (s.obj old).ss, ls := (s.obj new).ls || (s.obj old).ls } } := by
  have hon : old ≠ new := Ne.symm hne
  unfold PSet.moveFlags
  rw [movePTE_spec hn ho hpn hpo, Option.bind_some]
  rw [movePE_spec]
  rotate_left
  · exact hn
  · exact ho
  · exact hpn
  · exact hpo
  rw [Option.bind_some, moveSS_spec]
  rotate_left
  · exact hn
  · exact ho
  · exact hpn
  · exact hpo
  rw [Option.bind_some, moveLS_spec]
  rotate_left
  · exact hn
  · exact ho
  · exact hpn
  · exact hpo
  simp only [upd_upd, upd_same, upd_ne _ _ hon]

end move

theorem unify_spec {s : PSet} {r : RSet} (h : Rel s r) {a b : Nat} (ha : a < r.n) (hb : b < r.n) :
    ∃ s', s.unify a b = some ((r.unify a b).1, s') ∧ Rel s' (r.unify a b).2 := by
  obtain ⟨s1, e1, h1⟩ := root_spec h ha
  obtain ⟨s2, e2, h2⟩ := root_spec h1 hb
  unfold PSet.unify
  simp only [e1, e2, Option.bind_eq_bind, Option.bind_some]
  unfold RSet.unify
  simp only []
  split
  · exact ⟨_, rfl, h2⟩
  rename_i hne
  -- the generic step for a choice of the new root
  have gen : ∀ (new old k : Nat), new < r.n → old < r.n → r.root new = new → r.root old = old →
      new ≠ old → ((r.rank old < r.rank new ∧ k = r.rank new) ∨
          (r.rank old = r.rank new ∧ k = r.rank new + 1)) →
      ∀ t : PSet, t = { s2 with rank := upd r.rank new k } →
      ∃ s', ((t.moveFlags new old).bind fun s => some (new, ({ n := s.n, obj := s.obj, parent := upd s.parent old new, rank := s.rank, pts := upd (upd s.pts new (uni (s.pts new) (s.pts old))) old [] } : PSet))) = some (new, s') ∧
        Rel s' { n := r.n, obj := upd r.obj new { r.obj new with pte := (r.obj new).pte || (r.obj old).pte, pe := (r.obj new).pe || (r.obj old).pe, ss := (r.obj new).ss || (r.obj old).ss, ls := (r.obj new).ls || (r.obj old).ls }, root := fun i => if r.root i = old then new else r.root i, rank := upd r.rank new k, pts := upd (upd r.pts new (uni (r.pts new) (r.pts old))) old [] } := by
    intro new old k hn ho hrn hro hno hk t ht
    have hpn := (h2.fix new).2 hrn
    have hpo := (h2.fix old).2 hro
    have hn2 : new < s2.n := by rw [h2.n]; exact hn
    have ho2 : old < s2.n := by rw [h2.n]; exact ho
    rw [ht, moveFlags_spec]
    rotate_left
    · exact hn2
    · exact ho2
    · exact hpn
    · exact hpo
    · exact hno
    refine ⟨_, rfl, ?_⟩
    have hw := unify_wf h.wf hn ho hrn hro hno k hk
    have h3 := h2
    refine ⟨h3.n, by simp only [h3.obj], rfl, by simp only [h3.pts], ?_, ?_, ?_, ?_, hw _ _⟩
    · intro i
      show upd _ _ _ i = i ↔ (if _ then _ else _) = i
      by_cases hio : i = old
      · subst hio
        rw [upd_same, if_pos hro]
      · rw [upd_ne _ _ hio]
        rw [h3.fix i]
        show r.root i = i ↔ _
        split
        · rename_i hr
          constructor
          · intro hc; exact absurd (hc.symm.trans hr) hio
          · rintro rfl; exact hrn
        · rfl
    · intro i
      show (if r.root (upd _ _ _ i) = old then new else r.root (upd _ _ _ i)) = (if r.root i = old then new else r.root i)
      by_cases hio : i = old
      · subst hio
        rw [upd_same, hrn, hro, if_neg hno, if_pos rfl]
      · rw [upd_ne _ _ hio]
        have := h3.step i
        have this : r.root (s2.parent i) = r.root i := this
        rw [this]
    · intro i hi
      show upd _ _ _ i < r.n
      unfold upd; split
      · exact hn
      · exact h3.lt i hi
    · intro i
      show upd _ _ _ i ≠ i → upd _ _ _ i < upd _ _ _ (upd _ _ _ i)
      by_cases hio : i = old
      · subst hio
        rw [upd_same, upd_same, upd_ne _ _ (Ne.symm hno)]
        intro _; omega
      · rw [upd_ne _ _ hio]
        intro hne
        have h4 : r.rank i < r.rank (s2.parent i) := h3.rk i hne
        have hin : i ≠ new := by
          rintro rfl
          exact hne ((h3.fix i).2 hrn)
        rw [upd_ne _ _ hin]
        unfold upd; split
        · rename_i hc; rw [hc] at h4; omega
        · exact h4
  have hra := h.wf.lt a ha
  have hrb := h.wf.lt b hb
  have hia := h.wf.idem a
  have hib := h.wf.idem b
  rw [h2.rank]
  by_cases hlt : r.rank (r.root a) < r.rank (r.root b)
  · simp only [if_pos hlt, if_neg (show ¬ r.rank (r.root a) = r.rank (r.root b) by omega)]
    obtain ⟨s', e, hrel⟩ := gen (r.root b) (r.root a) (r.rank (r.root b)) hrb hra hib hia (Ne.symm hne) (.inl ⟨hlt, rfl⟩) s2 (by rw [upd_self, ← h2.rank])
    rw [upd_self] at hrel
    exact ⟨s', e, hrel⟩
  · simp only [if_neg hlt]
    by_cases heq : r.rank (r.root a) = r.rank (r.root b)
    · simp only [if_pos heq]
      have h31 := h.wf.rank_le_31 hra hia
      have hmod : (r.rank (r.root a) + 1) % 256 = r.rank (r.root a) + 1 := Nat.mod_eq_of_lt (by omega)
      simp only [hmod]
      obtain ⟨s', e, hrel⟩ := gen (r.root a) (r.root b) (r.rank (r.root a) + 1) hra hrb hia hib hne (.inr ⟨heq.symm, rfl⟩) _ rfl
      exact ⟨s', e, hrel⟩
    · simp only [if_neg heq]
      obtain ⟨s', e, hrel⟩ := gen (r.root a) (r.root b) (r.rank (r.root a)) hra hrb hia hib hne (.inl ⟨by omega, rfl⟩) s2 (by rw [upd_self, ← h2.rank])
      rw [upd_self] at hrel
      exact ⟨s', e, hrel⟩

end Jlm.Llvm.Aa
