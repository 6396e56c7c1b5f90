import Verif.Aa.WorklistTame
/-
Unification keeps the invariant of the worklist solver.
-/
set_option linter.unusedSimpArgs false
set_option linter.unusedVariables false
set_option linter.unnecessarySeqFocus false
namespace Jlm.Llvm.Aa
namespace WS
variable {σ : Type}
variable {P : Problem} {ex : Nat → Prop} {e : Option (Nat × Nat)} {exf : Nat → Prop} {nd : Nat → Prop}

/-- the effect of a unification of two different roots -/
structure UnifyEff (s s' : RSet) (root non : Nat) : Prop where
  n : s'.n = s.n
  kind : ∀ i, (s'.obj i).kind = (s.obj i).kind
  esc : ∀ i, s'.escaped i = s.escaped i
  rt : ∀ i, s'.root i = if s.root i = non then root else s.root i
  obj : ∀ i, i ≠ root → s'.obj i = s.obj i
  pe : (s'.obj root).pe = ((s.obj root).pe || (s.obj non).pe)
  pte : (s'.obj root).pte = ((s.obj root).pte || (s.obj non).pte)
  ss : (s'.obj root).ss = ((s.obj root).ss || (s.obj non).ss)
  ls : (s'.obj root).ls = ((s.obj root).ls || (s.obj non).ls)
  ptsR : s'.pts root = uni (s.pts root) (s.pts non)
  ptsN : s'.pts non = []
  pts : ∀ i, i ≠ root → i ≠ non → s'.pts i = s.pts i

theorem unify_eff (s : RSet) {ra rb : Nat} (ha : s.root ra = ra) (hb : s.root rb = rb) (hne : ra ≠ rb) :
    UnifyEff s (s.unify ra rb).2 (s.unify ra rb).1 (if (s.unify ra rb).1 = ra then rb else ra) ∧
    ((s.unify ra rb).1 = ra ∨ (s.unify ra rb).1 = rb) := by
  have key : ∀ (new old : Nat) (rank : Nat → Nat), new ≠ old →
      UnifyEff s { n := s.n, obj := upd s.obj new { s.obj new with pte := (s.obj new).pte || (s.obj old).pte, pe := (s.obj new).pe || (s.obj old).pe, ss := (s.obj new).ss || (s.obj old).ss, ls := (s.obj new).ls || (s.obj old).ls }, root := fun i => if s.root i = old then new else s.root i, rank := rank, pts := upd (upd s.pts new (uni (s.pts new) (s.pts old))) old [] } new old := by
    intro new old rank hno
    refine ⟨rfl, ?_, ?_, fun _ => rfl, fun i hi => upd_ne _ _ hi, ?_, ?_, ?_, ?_, ?_, upd_same .., ?_⟩
    · intro i
      show Obj.kind (upd s.obj new _ i) = _
      by_cases h : i = new
      · subst h; rw [upd_same]
      · rw [upd_ne _ _ h]
    · intro i
      show Obj.escaped (upd s.obj new _ i) = _
      by_cases h : i = new
      · subst h; rw [upd_same]; rfl
      · rw [upd_ne _ _ h]; rfl
    · show Obj.pe (upd s.obj new _ new) = _; rw [upd_same]
    · show Obj.pte (upd s.obj new _ new) = _; rw [upd_same]
    · show Obj.ss (upd s.obj new _ new) = _; rw [upd_same]
    · show Obj.ls (upd s.obj new _ new) = _; rw [upd_same]
    · show upd (upd s.pts new _) old [] new = _; rw [upd_ne _ _ hno, upd_same]
    · intro i h1 h2
      show upd (upd s.pts new _) old [] i = _; rw [upd_ne _ _ h2, upd_ne _ _ h1]
  unfold RSet.unify
  simp only [ha, hb, hne, if_false]
  by_cases hr : s.rank ra < s.rank rb
  · simp only [hr, if_true]
    refine ⟨?_, by simp⟩
    rw [if_neg (Ne.symm hne)]
    exact key rb ra _ (Ne.symm hne)
  · simp only [hr, if_false]
    refine ⟨?_, by simp⟩
    rw [if_pos trivial]
    exact key ra rb _ hne

/-- the pure part of a unification in the solver -/
structure UEff (w w' : WS σ) (root non : Nat) : Prop where
  ne : root ≠ non
  r0 : w.set.root root = root
  r1 : w.set.root non = non
  set : UnifyEff w.set w'.set root non
  edgesR : ∀ s, s ∈ w'.edges root ↔ (s ∈ w.edges root ∨ s ∈ w.edges non) ∧ s ≠ root ∧ s ≠ non
  edgesN : w'.edges non = []
  edges : ∀ i, i ≠ root → i ≠ non → w'.edges i = w.edges i
  storesR : ∀ s, s ∈ w'.stores root ↔ s ∈ w.stores root ∨ s ∈ w.stores non
  storesN : w'.stores non = []
  stores : ∀ i, i ≠ root → i ≠ non → w'.stores i = w.stores i
  loadsR : ∀ s, s ∈ w'.loads root ↔ s ∈ w.loads root ∨ s ∈ w.loads non
  loadsN : w'.loads non = []
  loads : ∀ i, i ≠ root → i ≠ non → w'.loads i = w.loads i
  callsR : ∀ s, s ∈ w'.calls root ↔ s ∈ w.calls root ∨ s ∈ w.calls non
  callsN : w'.calls non = []
  calls : ∀ i, i ≠ root → i ≠ non → w'.calls i = w.calls i
  newPR : w'.newP root = []
  newPN : w'.newP non = []
  newP : ∀ i, i ≠ root → i ≠ non → w'.newP i = w.newP i
  trackedR : w'.tracked root = false
  tracked : ∀ i, i ≠ root → w'.tracked i = w.tracked i
  xR : w'.xSeen root = (w.xSeen root && w.xSeen non)
  x : ∀ i, i ≠ root → w'.xSeen i = w.xSeen i
  peR : w'.peSeen root = (w.peSeen root && w.peSeen non)
  peS : ∀ i, i ≠ root → w'.peSeen i = w.peSeen i
  ref : ∀ i a, w'.ref i = some a → w.ref i = some a ∨ (i = root ∧ w.ref non = some a)
  wl : w'.wl = w.wl
  queue : w'.queue = w.queue
  scc : w'.scc = w.scc

theorem unify_same {hcd : Bool} {a b : Nat} {w : WS σ} (h : w.set.root a = w.set.root b) :
    w.unify hcd a b = (w.set.root a, w) := by
  unfold unify; simp [h]

theorem unify_ueff {hcd : Bool} {a b : Nat} {w : WS σ} (hid : ∀ i, w.set.root (w.set.root i) = w.set.root i)
    (h : w.set.root a ≠ w.set.root b) :
    ∃ non, UEff w (w.unify hcd a b).2 (w.unify hcd a b).1 non ∧
      (((w.unify hcd a b).1 = w.set.root a ∧ non = w.set.root b) ∨ ((w.unify hcd a b).1 = w.set.root b ∧ non = w.set.root a)) ∧
      (w.unify hcd a b).2.set = (w.set.unify (w.set.root a) (w.set.root b)).2 := by
  obtain ⟨he, hr⟩ := unify_eff w.set (hid a) (hid b) h
  unfold unify
  simp only [h, if_false]
  generalize hroot : (w.set.unify (w.set.root a) (w.set.root b)).1 = root at *
  generalize hset : (w.set.unify (w.set.root a) (w.set.root b)).2 = s at *
  generalize hnon : (if root = w.set.root a then w.set.root b else w.set.root a) = non at *
  have hpick : (root = w.set.root a ∧ non = w.set.root b) ∨ (root = w.set.root b ∧ non = w.set.root a) := by
    rcases hr with hr | hr
    · left; subst hnon; simp [hr]
    · right; subst hnon; rw [hr, if_neg (Ne.symm h)]; exact ⟨rfl, rfl⟩
  have hne : root ≠ non := by
    rcases hpick with ⟨h1, h2⟩ | ⟨h1, h2⟩
    · rw [h1, h2]; exact h
    · rw [h1, h2]; exact Ne.symm h
  refine ⟨non, ?_, hpick, trivial⟩
  refine ⟨hne, ?_, ?_, he, ?_, upd_same .., ?_, ?_, upd_same .., ?_, ?_, upd_same .., ?_, ?_, upd_same .., ?_, upd_same .., (by show upd (upd w.newP non []) root [] non = []; rw [upd_ne _ _ (Ne.symm hne), upd_same]), ?_, upd_same .., ?_,
    upd_same .., fun i hi => upd_ne _ _ hi, upd_same .., fun i hi => upd_ne _ _ hi, ?_, rfl, rfl, rfl⟩
  · rcases hpick with ⟨h1, _⟩ | ⟨h1, _⟩ <;> rw [h1] <;> apply hid
  · rcases hpick with ⟨_, h1⟩ | ⟨_, h1⟩ <;> rw [h1] <;> apply hid
  · intro s
    show s ∈ upd (upd w.edges root _) non [] root ↔ _
    rw [upd_ne _ _ hne, upd_same]
    simp only [List.mem_filter, mem_uni, decide_eq_true_eq, and_assoc]
  · intro i h1 h2
    show upd (upd w.edges root _) non [] i = _
    rw [upd_ne _ _ h2, upd_ne _ _ h1]
  · intro s
    show s ∈ upd (upd w.stores root _) non [] root ↔ _
    rw [upd_ne _ _ hne, upd_same, mem_uni]
  · intro i h1 h2
    show upd (upd w.stores root _) non [] i = _
    rw [upd_ne _ _ h2, upd_ne _ _ h1]
  · intro s
    show s ∈ upd (upd w.loads root _) non [] root ↔ _
    rw [upd_ne _ _ hne, upd_same, mem_uni]
  · intro i h1 h2
    show upd (upd w.loads root _) non [] i = _
    rw [upd_ne _ _ h2, upd_ne _ _ h1]
  · intro s
    show s ∈ upd (upd w.calls root _) non [] root ↔ _
    rw [upd_ne _ _ hne, upd_same, List.mem_append]
  · intro i h1 h2
    show upd (upd w.calls root _) non [] i = _
    rw [upd_ne _ _ h2, upd_ne _ _ h1]
  · intro i h1 h2
    show upd (upd w.newP non []) root [] i = _
    rw [upd_ne _ _ h1, upd_ne _ _ h2]
  · intro i h1
    show upd w.tracked root false i = _
    rw [upd_ne _ _ h1]
  · intro i a hi
    simp only at hi
    split at hi
    · by_cases h1 : i = root
      · subst h1; rw [upd_same] at hi; exact .inr ⟨rfl, hi⟩
      · rw [upd_ne _ _ h1] at hi; exact .inl hi
    · exact .inl hi

namespace UEff
variable {w w' : WS σ} {root non : Nat} (u : UEff w w' root non)
include u

theorem root_iff {i j : Nat} (h : w.set.root i = w.set.root j) : w'.set.root i = w'.set.root j := by
  rw [u.set.rt, u.set.rt, h]

theorem rootR : w'.set.root root = root := by rw [u.set.rt, u.r0, if_neg u.ne]
theorem rootN : w'.set.root non = root := by rw [u.set.rt, u.r1, if_pos rfl]

/-- the roots of the new set -/
theorem isRoot {m : Nat} (h : w'.set.root m = m) : w.set.root m = m ∧ m ≠ non := by
  rw [u.set.rt] at h
  split at h
  · rename_i h1; rw [← h, u.r0] at h1; exact absurd h1 u.ne
  · rename_i h1; exact ⟨h, fun h2 => h1 (by rw [h2]; exact u.r1)⟩

theorem keep {m : Nat} (h : w.set.root m = m) (h2 : m ≠ non) : w'.set.root m = m := by
  rw [u.set.rt, h, if_neg h2]

theorem root_cases (i : Nat) : (w.set.root i ≠ root ∧ w.set.root i ≠ non ∧ w'.set.root i = w.set.root i) ∨
    (w'.set.root i = root ∧ (w.set.root i = root ∨ w.set.root i = non)) := by
  have := u.set.rt i
  by_cases h : w.set.root i = non
  · right; rw [this, if_pos h]; exact ⟨rfl, .inr h⟩
  · rw [if_neg h] at this
    by_cases h2 : w.set.root i = root
    · exact .inr ⟨this.trans h2, .inl h2⟩
    · exact .inl ⟨h2, h, this⟩

theorem pe (i : Nat) (h : w.set.pe i = true) : w'.set.pe i = true := by
  unfold RSet.pe at *
  rcases u.root_cases i with ⟨h1, h2, h3⟩ | ⟨h1, h2⟩
  · rw [h3, u.set.obj _ h1]; exact h
  · rw [h1, u.set.pe]; rcases h2 with h2 | h2 <;> rw [h2] at h <;> simp [h]

theorem pte (i : Nat) (h : w.set.pte i = true) : w'.set.pte i = true := by
  unfold RSet.pte at *
  rcases u.root_cases i with ⟨h1, h2, h3⟩ | ⟨h1, h2⟩
  · rw [h3, u.set.obj _ h1]; exact h
  · rw [h1, u.set.pte]; rcases h2 with h2 | h2 <;> rw [h2] at h <;> simp [h]

theorem ss (i : Nat) (h : w.set.ss i = true) : w'.set.ss i = true := by
  unfold RSet.ss at *
  rcases u.root_cases i with ⟨h1, h2, h3⟩ | ⟨h1, h2⟩
  · rw [h3, u.set.obj _ h1]; exact h
  · rw [h1, u.set.ss]; rcases h2 with h2 | h2 <;> rw [h2] at h <;> simp [h]

theorem ls (i : Nat) (h : w.set.ls i = true) : w'.set.ls i = true := by
  unfold RSet.ls at *
  rcases u.root_cases i with ⟨h1, h2, h3⟩ | ⟨h1, h2⟩
  · rw [h3, u.set.obj _ h1]; exact h
  · rw [h1, u.set.ls]; rcases h2 with h2 | h2 <;> rw [h2] at h <;> simp [h]

theorem pts (i x : Nat) (h : x ∈ w.set.pointees i) : x ∈ w'.set.pointees i := by
  unfold RSet.pointees at *
  rcases u.root_cases i with ⟨h1, h2, h3⟩ | ⟨h1, h2⟩
  · rw [h3, u.set.pts _ h1 h2]; exact h
  · rw [h1, u.set.ptsR, mem_uni]
    rcases h2 with h2 | h2 <;> rw [h2] at h
    · exact .inl h
    · exact .inr h

theorem has (a x : Nat) (h : Has w.set a x) : Has w'.set a x :=
  h.imp (u.pts a x) (fun h => ⟨u.pte a h.1, (u.set.esc x).trans h.2⟩)

/-- nothing happens to the other classes -/
theorem same {m : Nat} (hm : w.set.root m = m) (h1 : m ≠ root) (h2 : m ≠ non) : Same w w' m := by
  have hm' := u.keep hm h2
  refine ⟨u.set.pts m h1 h2, u.newP m h1 h2, u.tracked m h1, ?_, ?_⟩
  · unfold RSet.pte; rw [hm', hm, u.set.obj _ h1]
  · unfold RSet.pe; rw [hm', hm, u.set.obj _ h1]

theorem edge_keep {m s : Nat} (h : s ∈ w.edges m) (hm : w.set.root m = m) :
    s ∈ w'.edges (w'.set.root m) ∨ w'.set.root s = w'.set.root m := by
  by_cases h1 : m = root ∨ m = non
  · have hr : w'.set.root m = root := by
      rcases h1 with h1 | h1
      · rw [h1]; exact u.rootR
      · rw [h1]; exact u.rootN
    rw [hr, u.edgesR]
    by_cases h2 : s = root
    · right; rw [h2, u.rootR]
    · by_cases h3 : s = non
      · right; rw [h3, u.rootN]
      · left
        refine ⟨?_, h2, h3⟩
        rcases h1 with h1 | h1 <;> rw [h1] at h
        · exact .inl h
        · exact .inr h
  · simp only [not_or] at h1
    left
    rw [u.keep hm h1.2, u.edges m h1.1 h1.2]; exact h

theorem ext (hid : ∀ i, w.set.root (w.set.root i) = w.set.root i) : Ext w w' :=
  ⟨u.set.n, u.set.kind, fun _ _ h => u.root_iff h, u.pe, u.pte, fun i h => (u.set.esc i).trans h, u.has,
   fun a b h => by
    rcases h with h | ⟨s, h1, h2⟩ | h
    · exact .inl (u.root_iff h)
    · rcases u.edge_keep h1 (hid b) with h3 | h3
      · right; left
        exact ⟨s, by rw [u.root_iff (hid b)] at h3; exact h3, u.root_iff h2⟩
      · left
        rw [← u.root_iff h2, h3, u.root_iff (hid b)]
    · exact .inr (.inr ⟨u.pe b h.1, u.pte a h.2⟩),
   fun p h => by rw [u.queue]; exact h⟩

end UEff

theorem Inv.unifyStep {w w' : WS σ} {root non : Nat} (h : w.Inv P ex e exf) (u : UEff w w' root non) (hok : SetOk w'.set) :
    w'.Inv P (fun m => ex m ∨ m = root) e exf := by
  have x := u.ext h.idem
  have hsplit : ∀ m, w'.set.root m = m → m = root ∨ (w.set.root m = m ∧ m ≠ root ∧ m ≠ non) := by
    intro m hm
    obtain ⟨h1, h2⟩ := u.isRoot hm
    by_cases h3 : m = root
    · exact .inl h3
    · exact .inr ⟨h1, h3, h2⟩
  have hseen : ∀ m, w.set.root m = m → m ≠ root → m ≠ non → ∀ y, w'.Seen m y → w.Seen m y := by
    intro m hm h1 h2 y hy
    have s := u.same hm h1 h2
    exact ⟨by rw [← s.tracked]; exact hy.1, by rw [← s.pts]; exact hy.2.1, by rw [← s.newP]; exact hy.2.2⟩
  have hseenR : ∀ y, ¬ w'.Seen root y := fun y hy => by
    have := hy.1; rw [u.trackedR] at this; cases this
  have hlookup : ∀ {β : Type} (f f' : Nat → List β), (∀ b, b ∈ f' root ↔ b ∈ f root ∨ b ∈ f non) →
      (∀ i, i ≠ root → i ≠ non → f' i = f i) → ∀ p b, b ∈ f (w.set.root p) → b ∈ f' (w'.set.root p) := by
    intro β f f' h1 h2 p b hb
    rcases u.root_cases p with ⟨k1, k2, k3⟩ | ⟨k1, k2⟩
    · rw [k3, h2 _ k1 k2]; exact hb
    · rw [k1, h1]
      rcases k2 with k2 | k2 <;> rw [k2] at hb
      · exact .inl hb
      · exact .inr hb
  have hback : ∀ {β : Type} (f f' : Nat → List β) (Q : β → Prop), (∀ b, b ∈ f' root → b ∈ f root ∨ b ∈ f non) → f' non = [] →
      (∀ i, i ≠ root → i ≠ non → f' i = f i) → (∀ m, ∀ b ∈ f m, Q b) → ∀ m, ∀ b ∈ f' m, Q b := by
    intro β f f' Q h1 h2 h3 hq m b hb
    by_cases k1 : m = root
    · subst k1; exact (h1 b hb).elim (hq _ b) (hq _ b)
    · by_cases k2 : m = non
      · subst k2; rw [h2] at hb; cases hb
      · rw [h3 m k1 k2] at hb; exact hq m b hb
  refine ⟨hok, ?_, x.n.trans h.n, fun i => (x.kind i).trans (h.kind i), fun i y hy => x.has i y (h.basePts i y hy),
    fun i hi => x.pe i (h.basePE i hi), fun i hi => x.pte i (h.basePTE i hi), fun i hi => u.ss i (h.baseSS i hi),
    fun i hi => u.ls i (h.baseLS i hi), fun i hi => x.esc i (h.baseEsc i hi), fun i j hi => x.root i j (h.baseConn i j hi),
    ?_, ?_, ?_, ?_, ?_, ?_, ?_, fun m hm => by rw [u.wl] at hm; rw [x.n]; exact h.wlLt m hm, ?_, ?_⟩
  · refine ⟨?_, ?_, ?_, ?_, ?_, ?_⟩
    · rw [x.n]; exact hback w.edges w'.edges _ (fun b hb => ((u.edgesR b).1 hb).1) u.edgesN u.edges h.rng.edges
    · rw [x.n]; exact hback w.stores w'.stores _ (fun b hb => (u.storesR b).1 hb) u.storesN u.stores h.rng.stores
    · rw [x.n]; exact hback w.loads w'.loads _ (fun b hb => (u.loadsR b).1 hb) u.loadsN u.loads h.rng.loads
    · rw [x.n]; exact hback w.calls w'.calls _ (fun b hb => (u.callsR b).1 hb) u.callsN u.calls h.rng.calls
    · rw [x.n, u.queue]; exact h.rng.queue
    · intro i a hi
      rw [x.n]
      rcases u.ref i a hi with hi | hi
      · exact h.rng.ref i a hi
      · exact h.rng.ref non a hi.2
  · intro m hm y hy
    rcases hsplit m hm with rfl | ⟨h1, h2, h3⟩
    · rw [u.newPR] at hy; cases hy
    · have s := u.same h1 h2 h3
      rw [s.newP] at hy; rw [s.pts]; exact h.newP m h1 y hy
  · intro m hm hx
    rcases hsplit m hm with rfl | ⟨h1, h2, h3⟩
    · rw [u.xR, Bool.and_eq_true] at hx; exact u.pte _ (h.xOk _ u.r0 hx.1)
    · rw [u.x m h2] at hx; exact u.pte _ (h.xOk m h1 hx)
  · intro m hm hx
    rcases hsplit m hm with rfl | ⟨h1, h2, h3⟩
    · rw [u.peR, Bool.and_eq_true] at hx; exact u.pe _ (h.peOk _ u.r0 hx.1)
    · rw [u.peS m h2] at hx; exact u.pe _ (h.peOk m h1 hx)
  · intro m hm y hy
    rcases hsplit m hm with rfl | ⟨h1, h2, h3⟩
    · exact absurd hy (hseenR y)
    · have o := h.obl m h1 y (hseen m h1 h2 h3 y hy)
      refine ⟨?_, ?_, ?_, ?_, ?_, ?_⟩
      · intro s hs; rw [u.edges m h2 h3] at hs
        exact (o.edges s hs).imp (x.has s y) x.exempt
      · intro v hv; rw [u.stores m h2 h3] at hv; exact x.sub (o.stores v hv)
      · intro v hv; rw [u.loads m h2 h3] at hv; exact x.sub (o.loads v hv)
      · intro v hv; rw [u.calls m h2 h3] at hv; exact x.callOk (o.calls v hv)
      · intro hs
        have : w'.set.ss m = w.set.ss m := by unfold RSet.ss; rw [hm, h1, u.set.obj _ h2]
        rw [this] at hs
        exact (o.ss hs).imp (x.pte y) (x.pe m)
      · intro hs
        have : w'.set.ls m = w.set.ls m := by unfold RSet.ls; rw [hm, h1, u.set.obj _ h2]
        rw [this] at hs
        exact (o.ls hs).imp (x.pe y) (x.pe m)
  · intro m hm hx
    rcases hsplit m hm with rfl | ⟨h1, h2, h3⟩
    · rw [u.xR, Bool.and_eq_true] at hx
      have o1 := h.oblX _ u.r0 hx.1
      have o2 := h.oblX _ u.r1 hx.2
      refine ⟨?_, ?_, ?_, ?_⟩
      · intro s hs
        rcases ((u.edgesR s).1 hs).1 with hs | hs
        · exact (o1.edges s hs).imp (x.pte s) x.exempt
        · refine (o2.edges s hs).imp (x.pte s) (fun hx => ?_)
          obtain ⟨p, he, e1, e2⟩ := x.exempt hx
          exact ⟨p, he, by rw [e1, u.rootN, u.rootR], e2⟩
      · intro v hv
        rcases (u.storesR v).1 hv with hv | hv
        · exact x.pe v (o1.stores v hv)
        · exact x.pe v (o2.stores v hv)
      · intro v hv
        rcases (u.loadsR v).1 hv with hv | hv
        · exact x.pte v (o1.loads v hv)
        · exact x.pte v (o2.loads v hv)
      · intro v hv
        rcases (u.callsR v).1 hv with hv | hv
        · exact x.callExt (o1.calls v hv)
        · exact x.callExt (o2.calls v hv)
    · rw [u.x m h2] at hx
      have o := h.oblX m h1 hx
      refine ⟨?_, ?_, ?_, ?_⟩
      · intro s hs; rw [u.edges m h2 h3] at hs
        exact (o.edges s hs).imp (x.pte s) x.exempt
      · intro v hv; rw [u.stores m h2 h3] at hv; exact x.pe v (o.stores v hv)
      · intro v hv; rw [u.loads m h2 h3] at hv; exact x.pte v (o.loads v hv)
      · intro v hv; rw [u.calls m h2 h3] at hv; exact x.callExt (o.calls v hv)
  · intro m hm hx y hy
    rcases hsplit m hm with rfl | ⟨h1, h2, h3⟩
    · exact absurd hy (hseenR y)
    · rw [u.peS m h2] at hx
      exact x.esc y (h.oblPE m h1 hx y (hseen m h1 h2 h3 y hy))
  · intro m hm hmr
    rcases hsplit m hmr with rfl | ⟨h1, h2, h3⟩
    · exact .inr (.inl (.inr rfl))
    · rw [x.n] at hm
      have s := u.same h1 h2 h3
      rcases h.cover m hm h1 with hc | hc | hc
      · left; rw [u.wl]; exact hc
      · exact .inr (.inl (.inl hc))
      · refine .inr (.inr ⟨?_, ?_, ?_⟩)
        · intro y hy
          rw [s.pts] at hy
          have := hc.pts y hy
          exact ⟨by rw [s.tracked]; exact this.1, by rw [s.pts]; exact hy, by rw [s.newP]; exact this.2.2⟩
        · rw [s.pte, u.x m h2]; exact hc.pte
        · rw [s.pe, u.peS m h2]; exact hc.pe
  · intro c hc
    have := h.cs c hc
    cases c with
    | superset a b => exact x.sub this
    | store p v =>
      obtain ⟨v', h1, h2⟩ := this
      exact ⟨v', hlookup w.stores w'.stores u.storesR u.stores p v' h1, x.root _ _ h2⟩
    | load v p =>
      obtain ⟨v', h1, h2⟩ := this
      exact ⟨v', hlookup w.loads w'.loads u.loadsR u.loads p v' h1, x.root _ _ h2⟩
    | call p c => exact hlookup w.calls w'.calls u.callsR u.calls p c this
  · intro f hf hfn hk hex
    rw [x.n] at hfn; rw [x.kind] at hk
    rw [u.set.esc] at hf
    have := h.fns f hf hfn hk hex
    exact ⟨fun a ha => x.pte a (this.1 a ha), fun a ha => x.pe a (this.2 a ha)⟩

/-- what a unification does; `ex'` contains the new root if there was a unification -/
theorem unify_inv {hcd : Bool} {a b : Nat} {w : WS σ} (h : w.Inv P ex e exf) (ha : a < w.set.n) (hb : b < w.set.n) :
    (w.unify hcd a b).2.Inv P (fun m => ex m ∨ m = (w.unify hcd a b).1) e exf ∧ Ext w (w.unify hcd a b).2 ∧
    (w.unify hcd a b).2.set.root a = (w.unify hcd a b).1 ∧ (w.unify hcd a b).2.set.root b = (w.unify hcd a b).1 ∧
    (w.unify hcd a b).2.queue = w.queue ∧ (w.unify hcd a b).2.wl = w.wl ∧ (w.unify hcd a b).2.scc = w.scc ∧
    (w.unify hcd a b).2.set = (w.set.unify (w.set.root a) (w.set.root b)).2 ∧
    (∀ m, w.set.root m = m → (w.unify hcd a b).2.set.root m = m ∧ m ≠ (w.unify hcd a b).1 ∨
      ((w.unify hcd a b).2.set.root m = (w.unify hcd a b).1 ∧ (m = w.set.root a ∨ m = w.set.root b))) := by
  by_cases hr : w.set.root a = w.set.root b
  · rw [unify_same hr]
    refine ⟨h.mono fun _ => .inl, Ext.refl w, rfl, hr.symm, rfl, rfl, rfl, ?_, ?_⟩
    · unfold RSet.unify; simp [hr]
    · intro m hm
      by_cases h1 : m = w.set.root a
      · right; exact ⟨hm.trans h1, .inl h1⟩
      · left; exact ⟨hm, h1⟩
  · obtain ⟨non, u, hp, hset⟩ := unify_ueff (hcd := hcd) h.idem hr
    generalize (w.unify hcd a b).1 = root at *
    generalize (w.unify hcd a b).2 = w' at *
    have hok : SetOk w'.set := by rw [hset]; exact h.ok.step (.unify (w.set.root a) (w.set.root b)) ⟨h.rlt ha, h.rlt hb⟩
    refine ⟨h.unifyStep u hok, u.ext h.idem, ?_, ?_, u.queue, u.wl, u.scc, hset, ?_⟩
    · rw [← u.root_iff (h.idem a)]
      rcases hp with ⟨h1, h2⟩ | ⟨h1, h2⟩
      · rw [← h1]; exact u.rootR
      · rw [← h2]; exact u.rootN
    · rw [← u.root_iff (h.idem b)]
      rcases hp with ⟨h1, h2⟩ | ⟨h1, h2⟩
      · rw [← h2]; exact u.rootN
      · rw [← h1]; exact u.rootR
    · intro m hm
      by_cases h1 : m = root
      · right
        refine ⟨by rw [h1]; exact u.rootR, ?_⟩
        rcases hp with ⟨h3, h2⟩ | ⟨h3, h2⟩
        · exact .inl (h1.trans h3)
        · exact .inr (h1.trans h3)
      · by_cases h2 : m = non
        · right
          refine ⟨by rw [h2]; exact u.rootN, ?_⟩
          rcases hp with ⟨h3, h4⟩ | ⟨h3, h4⟩
          · exact .inr (h2.trans h4)
          · exact .inl (h2.trans h4)
        · left; exact ⟨u.keep hm h2, h1⟩

end WS
end Jlm.Llvm.Aa
