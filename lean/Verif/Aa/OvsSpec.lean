import Verif.Aa.OvsModel
import Verif.Aa.WorklistSpec
import Verif.Aa.LcdSpec
import Verif.Util.TarjanProps
set_option linter.unusedVariables false
/-
C23: offline preprocessing of constraints.
-/
namespace Jlm.Llvm.Aa
open Jlm.Util

/-! ## NormalizeConstraints -/

theorem mem_normalize_aux {s : RSet} : ∀ (cs : List Constraint) (acc : List Constraint) (c : Constraint),
    c ∈ cs.foldl (normalizeStep s) acc ↔ c ∈ acc ∨ ∃ d ∈ cs, d.norm s = c ∧ c.trivial = false
  | [], acc, c => by simp
  | d :: cs, acc, c => by
    rw [List.foldl_cons, mem_normalize_aux cs]
    have : c ∈ normalizeStep s acc d ↔ c ∈ acc ∨ (d.norm s = c ∧ c.trivial = false) := by
      unfold normalizeStep
      dsimp only
      split
      · rename_i h
        constructor
        · exact Or.inl
        · rintro (h1 | ⟨h1, h2⟩)
          · exact h1
          · rw [h1, h2] at h; cases h
      · rename_i h
        split
        · rename_i h3
          rw [List.contains_iff_mem] at h3
          constructor
          · exact Or.inl
          · rintro (h1 | ⟨h1, h2⟩)
            · exact h1
            · rw [← h1]; exact h3
        · rw [List.mem_append, List.mem_singleton]
          constructor
          · rintro (h1 | h1)
            · exact Or.inl h1
            · refine Or.inr ⟨h1.symm, ?_⟩
              rw [h1]; exact Bool.eq_false_iff.2 h
          · rintro (h1 | ⟨h1, h2⟩)
            · exact Or.inl h1
            · exact Or.inr h1.symm
    rw [this]
    simp only [List.mem_cons, exists_eq_or_imp]
    rw [or_assoc]

theorem mem_normalize {s : RSet} {cs : List Constraint} {c : Constraint} :
    c ∈ normalize s cs ↔ ∃ d ∈ cs, d.norm s = c ∧ c.trivial = false := by
  unfold normalize
  rw [mem_normalize_aux]
  simp

/-- replacing the objects by objects with the same solution does not change what a constraint says -/
theorem holds_norm {s : RSet} {L : Sol} {kind : Nat → Kind} {fn : Nat → Fn}
    (h : ∀ i, L.Sub i (s.root i) ∧ L.Sub (s.root i) i) (c : Constraint) :
    L.Holds kind fn (c.norm s) ↔ L.Holds kind fn c := by
  have pt : ∀ i x, L.pt (s.root i) x ↔ L.pt i x := fun i x => ⟨(h i).1.1 x, (h i).2.1 x⟩
  have ext : ∀ i, L.ext (s.root i) ↔ L.ext i := fun i => ⟨(h i).1.2, (h i).2.2⟩
  cases c <;> simp only [Constraint.norm, Sol.Holds, Sol.Sub, Sol.PointeesEscape, pt, ext]

/-- **C23, normalization**: an assignment satisfies the normalized constraints iff it satisfies the
original ones, whatever has been unified. -/
theorem C23_normalize (s : RSet) (hid : ∀ i, s.root (s.root i) = s.root i) (cs : List Constraint) (fn : Nat → Fn) (L : Sol) :
    Sat ⟨s.abs, normalize s cs, fn⟩ L ↔ Sat ⟨s.abs, cs, fn⟩ L := by
  have hcl : (∀ i j, s.abs.conn i j → (∀ x, L.pt i x → L.pt j x) ∧ (L.ext i → L.ext j)) → ∀ i, L.Sub i (s.root i) ∧ L.Sub (s.root i) i := by
    intro h i
    exact ⟨h (s.root i) i (hid i), h i (s.root i) (hid i).symm⟩
  constructor
  · intro h
    refine ⟨h.pts, h.esc, h.ext, h.pe, h.unified, h.implicit, h.escaped, h.ss, h.ls, ?_, h.fns⟩
    intro c hc
    rw [← holds_norm (hcl h.unified)]
    by_cases ht : (c.norm s).trivial = true
    · revert ht
      cases c <;> simp only [Constraint.norm, Constraint.trivial, beq_iff_eq]
      · intro e; rw [e]; exact ⟨fun _ h => h, fun h => h⟩
      all_goals intro e; cases e
    · exact h.cs _ (mem_normalize.2 ⟨c, hc, rfl, Bool.eq_false_iff.2 ht⟩)
  · intro h
    refine ⟨h.pts, h.esc, h.ext, h.pe, h.unified, h.implicit, h.escaped, h.ss, h.ls, ?_, h.fns⟩
    intro c hc
    obtain ⟨d, h1, rfl, h2⟩ := mem_normalize.1 hc
    exact (holds_norm (hcl h.unified) d).2 (h.cs d h1)

/-- **C23, normalization**: the least solution is unchanged. -/
theorem C23_normalize_least (s : RSet) (hid : ∀ i, s.root (s.root i) = s.root i) (cs : List Constraint) (fn : Nat → Fn) (L : Sol) :
    IsLeast ⟨s.abs, normalize s cs, fn⟩ L ↔ IsLeast ⟨s.abs, cs, fn⟩ L := by
  unfold IsLeast
  rw [C23_normalize s hid]
  exact and_congr_right fun _ => forall_congr' fun K => by rw [C23_normalize s hid]

/-- the normalized list has no constraint twice, no constraint on an object that is not a root, and
is not longer -/
theorem C23_normalize_shape (s : RSet) (hid : ∀ i, s.root (s.root i) = s.root i) (cs : List Constraint) :
    (normalize s cs).Nodup ∧ (normalize s cs).length ≤ cs.length ∧
    ∀ c ∈ normalize s cs, c.norm s = c ∧ c.trivial = false := by
  refine ⟨?_, ?_, ?_⟩
  · have : ∀ (cs acc : List Constraint), acc.Nodup → (cs.foldl (normalizeStep s) acc).Nodup := by
      intro cs
      induction cs with
      | nil => intro acc h; exact h
      | cons c cs ih =>
        intro acc h
        refine ih _ ?_
        unfold normalizeStep
        dsimp only
        split
        · exact h
        · split
          · exact h
          · rename_i h2
            rw [List.contains_iff_mem] at h2
            exact List.nodup_append.2 ⟨h, by simp, fun a ha b hb => by simp at hb; subst hb; exact fun e => h2 (e ▸ ha)⟩
    exact this cs [] List.nodup_nil
  · have : ∀ (cs acc : List Constraint), (cs.foldl (normalizeStep s) acc).length ≤ acc.length + cs.length := by
      intro cs
      induction cs with
      | nil => intro acc; exact Nat.le_refl _
      | cons c cs ih =>
        intro acc
        refine Nat.le_trans (ih _) ?_
        have : (normalizeStep s acc c).length ≤ acc.length + 1 := by
          unfold normalizeStep
          dsimp only
          split
          · omega
          · split
            · omega
            · simp
        simp only [List.length_cons]; omega
    simpa [normalize] using this cs []
  · intro c hc
    obtain ⟨d, _, rfl, h⟩ := mem_normalize.1 hc
    refine ⟨?_, h⟩
    cases d <;> simp [Constraint.norm, hid]

/-! ## Offline variable substitution: soundness -/

/-- the substitution as a history: it only unifies -/
def unifyOps (l : List (Nat × Nat)) : List POp := l.map fun p => .unify p.1 p.2

/-- more unification (or more base facts) means fewer solutions -/
theorem Sat.weaken {A B : Abs} {cs : List Constraint} {fn : Nat → Fn} {L : Sol} (h : Sat ⟨B, cs, fn⟩ L)
    (hn : A.n = B.n) (hk : ∀ i, A.kind i = B.kind i) (hc : ∀ i j, A.conn i j → B.conn i j)
    (hpts : ∀ i x, A.pts i x → B.pts i x) (hesc : ∀ i, A.esc i → B.esc i) (hpte : ∀ i, A.pte i → B.pte i)
    (hpe : ∀ i, A.pe i → B.pe i) (hss : ∀ i, A.ss i → B.ss i) (hls : ∀ i, A.ls i → B.ls i) : Sat ⟨A, cs, fn⟩ L := by
  have hk' : A.kind = B.kind := funext hk
  refine ⟨fun i x hx => h.pts i x (hpts i x hx), fun x hx => h.esc x (hesc x hx), fun i hi => h.ext i (hpte i hi), ?_, fun i j hij => h.unified i j (hc i j hij),
    h.implicit, h.escaped, ?_, ?_, ?_, ?_⟩
  · intro i hi hp; exact h.pe i (by change i < A.n at hi; change i < B.n; omega) (hpe i hp)
  · intro i x hi hp; exact h.ss i x (by change i < A.n at hi; change i < B.n; omega) (hss i hp)
  · intro i x hi hp; exact h.ls i x (by change i < A.n at hi; change i < B.n; omega) (hls i hp)
  · intro c hc; have := h.cs c hc; show L.Holds A.kind fn c; rw [hk']; exact this
  · intro f hf hlt hkf
    exact h.fns f hf (by change f < A.n at hlt; change f < B.n; omega) (by change A.kind f = _ at hkf; change B.kind f = _; rw [← hk]; exact hkf)

theorem sat_unify {A : Abs} {a b : Nat} {cs : List Constraint} {fn : Nat → Fn} {L : Sol} (h : Sat ⟨A.step (.unify a b), cs, fn⟩ L) : Sat ⟨A, cs, fn⟩ L := by
  refine h.weaken rfl (fun _ => rfl) ?_ ?_ (fun _ h => h) ?_ ?_ ?_ ?_
  · intro i j hij; exact Or.inl hij
  · intro i x hx; unfold Abs.step Abs.merge; simp only []; tauto
  all_goals intro i hx; unfold Abs.step Abs.merge; simp only []; tauto

theorem sat_unifyOps : ∀ (l : List (Nat × Nat)) {A : Abs} {cs : List Constraint} {fn : Nat → Fn} {L : Sol},
    Sat ⟨A.run (unifyOps l), cs, fn⟩ L → Sat ⟨A, cs, fn⟩ L
  | [], _, _, _, _, h => h
  | p :: l, A, _, _, _, h => sat_unify (sat_unifyOps l (A := A.step (.unify p.1 p.2)) h)


theorem run_append (s : RSet) (a b : List POp) : s.run (a ++ b) = (s.run a).run b := by
  induction a generalizing s with
  | nil => rfl
  | cons o a ih => exact ih _

theorem Abs.run_append (s : Abs) (a b : List POp) : s.run (a ++ b) = (s.run a).run b := by
  induction a generalizing s with
  | nil => rfl
  | cons o a ih => exact ih _

theorem unify_cases (s : RSet) (a b : Nat) :
    ((s.unify a b).1 = s.root a ∨ (s.unify a b).1 = s.root b) ∧ (s.unify a b).2.n = s.n ∧
    ∀ x, (s.unify a b).2.root x = s.root x ∨
      ((s.root x = s.root a ∨ s.root x = s.root b) ∧ ((s.unify a b).2.root x = s.root a ∨ (s.unify a b).2.root x = s.root b)) := by
  unfold RSet.unify
  dsimp only
  by_cases h : s.root a = s.root b
  · rw [if_pos h]; exact ⟨Or.inl rfl, rfl, fun x => Or.inl rfl⟩
  · rw [if_neg h]
    by_cases hr : s.rank (s.root a) < s.rank (s.root b)
    · rw [if_pos hr]
      refine ⟨Or.inr rfl, rfl, fun x => ?_⟩
      dsimp only
      by_cases hx : s.root x = s.root a
      · rw [if_pos hx]; exact Or.inr ⟨Or.inl hx, Or.inr rfl⟩
      · rw [if_neg hx]; exact Or.inl rfl
    · rw [if_neg hr]
      refine ⟨Or.inl rfl, rfl, fun x => ?_⟩
      dsimp only
      by_cases hx : s.root x = s.root b
      · rw [if_pos hx]; exact Or.inr ⟨Or.inr hx, Or.inl rfl⟩
      · rw [if_neg hx]; exact Or.inl rfl

namespace Ovs

/-- what the loop that unifies maintains -/
structure UniOk (s : RSet) (u : Uni) : Prop where
  set : u.set = s.run (unifyOps u.pairs)
  n : u.set.n = s.n
  lt : ∀ i, i < s.n → u.set.root i < s.n
  pairs : ∀ p ∈ u.pairs, p.1 < s.n ∧ p.2 < s.n
  root : ∀ l r, u.root l = some r → r < s.n

theorem UniOk.step {s : RSet} {u : Uni} (h : UniOk s u) (lab : Nat → Nat) {i : Nat} (hi : i < s.n) : UniOk s (uniStep lab u i) := by
  unfold uniStep
  split
  · exact h
  · split
    · rename_i r hr
      obtain ⟨h1, h2, h3⟩ := unify_cases u.set i r
      have hri := h.lt i hi
      have hrr := h.lt r (h.root _ r hr)
      refine ⟨?_, h2.trans h.n, ?_, ?_, ?_⟩
      · dsimp only
        unfold unifyOps
        rw [List.map_append, run_append, ← unifyOps, ← h.set]
        rfl
      · intro x hx
        dsimp only
        rcases h3 x with e | ⟨_, e | e⟩
        · rw [e]; exact h.lt x hx
        · rw [e]; exact hri
        · rw [e]; exact hrr
      · intro p hp
        rcases List.mem_append.1 hp with hp | hp
        · exact h.pairs p hp
        · rw [List.mem_singleton] at hp; subst hp; exact ⟨hi, h.root _ r hr⟩
      · intro l t ht
        dsimp only [upd] at ht
        split at ht
        · cases ht
          rcases h1 with e | e
          · rw [e]; exact hri
          · rw [e]; exact hrr
        · exact h.root l t ht
    · refine ⟨h.set, h.n, h.lt, h.pairs, ?_⟩
      intro l t ht
      dsimp only [upd] at ht
      split at ht
      · cases ht; exact hi
      · exact h.root l t ht

theorem UniOk.fold {s : RSet} (lab : Nat → Nat) : ∀ (l : List Nat) {u : Uni}, UniOk s u → (∀ i ∈ l, i < s.n) → UniOk s (l.foldl (uniStep lab) u)
  | [], _, h, _ => h
  | i :: l, _, h, hl => UniOk.fold lab l (h.step lab (hl i List.mem_cons_self)) (fun j hj => hl j (List.mem_cons_of_mem _ hj))

theorem finish_ok {s : RSet} (hlt : ∀ i, i < s.n → s.root i < s.n) (I : In) (r : Tarjan.Result) :
    (finish s I r).set = s.run (unifyOps (finish s I r).pairs) ∧ (∀ p ∈ (finish s I r).pairs, p.1 < s.n ∧ p.2 < s.n) := by
  have h := UniOk.fold (labelOf s I r) (List.range s.n) (u := { set := s, root := fun _ => none, pairs := [] })
    ⟨rfl, rfl, hlt, fun p hp => (nomatch hp), fun l r h => (nomatch h)⟩ (fun i hi => List.mem_range.1 hi)
  exact ⟨h.set, h.pairs⟩

theorem refRoots_lt {s : RSet} {scc : Nat → Nat} {n : Nat} (h : ∀ i, i < n → s.root i < n) {c a : Nat} (e : refRoots s scc n c = some a) : a < n := by
  unfold refRoots at e
  have : ∀ (l : List Nat) (r : Nat → Option Nat), (∀ i ∈ l, i < n) → (∀ c a, r c = some a → a < n) →
      ∀ c a, (l.foldl (fun r i => if (r (scc i)).isNone then upd r (scc i) (some (s.root i)) else r) r) c = some a → a < n := by
    intro l
    induction l with
    | nil => intro r _ hr; exact hr
    | cons i l ih =>
      intro r hl hr
      refine ih _ (fun j hj => hl j (List.mem_cons_of_mem _ hj)) ?_
      intro c a hca
      dsimp only at hca
      split at hca
      · unfold upd at hca
        split at hca
        · cases hca; exact h i (hl i List.mem_cons_self)
        · exact hr c a hca
      · exact hr c a hca
  exact this _ (fun _ => none) (fun i hi => List.mem_range.1 hi) (by intro c a h; cases h) c a e

theorem finish_ref {s : RSet} (hlt : ∀ i, i < s.n → s.root i < s.n) (I : In) (r : Tarjan.Result) {i a : Nat} (e : (finish s I r).ref i = some a) : a < s.n := by
  have h := UniOk.fold (labelOf s I r) (List.range s.n) (u := { set := s, root := fun _ => none, pairs := [] })
    ⟨rfl, rfl, hlt, fun p hp => (nomatch hp), fun l r h => (nomatch h)⟩ (fun i hi => List.mem_range.1 hi)
  unfold finish at e
  dsimp only at e
  split at e
  · exact refRoots_lt h.lt e
  · cases e

theorem mem_succs {s : RSet} {cs : List Constraint} {a b : Nat} : b ∈ succs s cs a ↔ ∃ c ∈ cs, (a, b) ∈ edgesOf s c := by
  unfold succs
  have : ∀ (l acc : List Nat), b ∈ l.foldl ins acc ↔ b ∈ acc ∨ b ∈ l := by
    intro l
    induction l with
    | nil => simp
    | cons x l ih => intro acc; rw [List.foldl_cons, ih, mem_ins, List.mem_cons]; tauto
  rw [this]
  simp only [List.not_mem_nil, false_or, List.mem_map, List.mem_filter, List.mem_flatMap, beq_iff_eq]
  constructor
  · rintro ⟨⟨x, y⟩, ⟨⟨c, hc, h⟩, hx⟩, hy⟩
    dsimp only at hx hy
    subst hx hy
    exact ⟨c, hc, h⟩
  · rintro ⟨c, hc, h⟩
    exact ⟨(a, b), ⟨⟨c, hc, h⟩, rfl⟩, rfl⟩

/-- the offline graph of a set and its constraints -/
abbrev graph (s : RSet) (cs : List Constraint) : Tarjan.Graph := ⟨2 * s.n, id, succs s cs⟩

theorem succs_lt {s : RSet} (hlt : ∀ i, i < s.n → s.root i < s.n) {cs : List Constraint} (hr : ∀ c ∈ cs, c.InRange s.n)
    {a b : Nat} (h : b ∈ succs s cs a) : a < 2 * s.n ∧ b < 2 * s.n := by
  obtain ⟨c, hc, h⟩ := mem_succs.1 h
  have := hr c hc
  cases c with
  | superset p q =>
    have h1 := hlt p this.1
    have h2 := hlt q this.2
    simp only [edgesOf, List.mem_cons, Prod.mk.injEq, List.not_mem_nil, or_false] at h
    omega
  | store p q =>
    have h1 := hlt p this.1
    have h2 := hlt q this.2
    simp only [edgesOf, List.mem_cons, Prod.mk.injEq, List.not_mem_nil, or_false] at h
    omega
  | load p q =>
    have h1 := hlt p this.1
    have h2 := hlt q this.2
    simp only [edgesOf, List.mem_cons, Prod.mk.injEq, List.not_mem_nil, or_false] at h
    omega
  | call p q => cases h

end Ovs

theorem okAll_append : ∀ (a : List POp) {A : Abs} {b : List POp}, A.OkAll a → (A.run a).OkAll b → A.OkAll (a ++ b)
  | [], _, _, _, h => h
  | _ :: a, _, _, h1, h2 => ⟨h1.1, okAll_append a h1.2 h2⟩

theorem okAll_unifyOps : ∀ (l : List (Nat × Nat)) {A : Abs}, (∀ p ∈ l, p.1 < A.n ∧ p.2 < A.n) → A.OkAll (unifyOps l)
  | [], _, _ => trivial
  | p :: l, A, h => ⟨h p List.mem_cons_self, okAll_unifyOps l (A := A.step (.unify p.1 p.2)) (fun q hq => h q (List.mem_cons_of_mem _ hq))⟩

/-- **C23, substitution, soundness**: whatever was done to the set before, offline variable
substitution ends without failure, all it does to the set is to unify pairs of existing objects, and
every assignment that satisfies the constraints of the new set satisfies those of the old one: no
pointee gets lost. -/
theorem C23_ovs_sound (ops : List POp) (hok : Abs.empty.OkAll ops) (I : Ovs.In)
    (hr : (Problem.mk (Abs.empty.run ops) I.cs I.fn).InRange) :
    ∃ o, Ovs.perform (RSet.empty.run ops) I = some o ∧
      o.set = RSet.empty.run (ops ++ unifyOps o.pairs) ∧ Abs.empty.OkAll (ops ++ unifyOps o.pairs) ∧
      (∀ i a, o.ref i = some a → a < (Abs.empty.run ops).n) ∧
      ∀ L, Sat ⟨Abs.empty.run (ops ++ unifyOps o.pairs), I.cs, I.fn⟩ L → Sat ⟨Abs.empty.run ops, I.cs, I.fn⟩ L := by
  have ha := abs_run_empty ops hok
  obtain ⟨_, _, hrel, _⟩ := run_rel ops rel_empty (by rw [abs_empty]; exact hok)
  have hn : (Abs.empty.run ops).n = (RSet.empty.run ops).n := by rw [← ha]; rfl
  obtain ⟨r, h1, h2, h3⟩ := Tarjan.C14_scc_identity (2 * (RSet.empty.run ops).n) (Ovs.succs (RSet.empty.run ops) I.cs)
    (fun v _ w hw => (Ovs.succs_lt hrel.wf.lt (fun c hc => hn ▸ hr.cs c hc) hw).2) (fun _ => 0)
  obtain ⟨f1, f2⟩ := Ovs.finish_ok (s := RSet.empty.run ops) hrel.wf.lt I r
  refine ⟨_, by unfold Ovs.perform; rw [h1]; rfl, ?_, ?_, ?_, ?_⟩
  · rw [run_append]; exact f1
  · exact okAll_append _ hok (okAll_unifyOps _ (hn ▸ f2))
  · intro i a e; rw [hn]; exact Ovs.finish_ref hrel.wf.lt I r e
  · intro L hL
    rw [Abs.run_append] at hL
    exact sat_unifyOps _ hL

end Jlm.Llvm.Aa
