import Verif.Aa.WorklistModel
import Verif.Aa.NaiveProps
import Mathlib.Tactic.Tauto
/-
Invariant of the worklist solver: what has been processed has had its effect, and what has not been
processed is on the worklist.
-/
set_option linter.unusedSimpArgs false
set_option linter.unusedVariables false
set_option linter.unnecessarySeqFocus false
namespace Jlm.Llvm.Aa

/-! ## The pointer object set -/

/-- reachable sets: the forest exists and the classes are sane -/
def SetOk (s : RSet) : Prop := (∃ p, Rel p s) ∧ s.abs.Wf

theorem SetOk.wf {s : RSet} (h : SetOk s) : s.Wf := by obtain ⟨⟨p, hp⟩, _⟩ := h; exact hp.wf

theorem SetOk.step {s : RSet} (h : SetOk s) (op : POp) (hok : s.abs.Ok op) : SetOk (s.step op).2 := by
  obtain ⟨⟨p, hp⟩, w⟩ := h
  obtain ⟨p', _, hp'⟩ := step_rel hp op hok
  exact ⟨⟨p', hp'⟩, by rw [abs_step hp.wf op hok]; exact w.step s.shared op hok⟩

/-- the queries that do not depend on the operation -/
structure SameObj (s s' : RSet) : Prop where
  n : s'.n = s.n
  root : s'.root = s.root
  kind : ∀ i, (s'.obj i).kind = (s.obj i).kind
  ss : ∀ i, s'.ss i = s.ss i
  ls : ∀ i, s'.ls i = s.ls i

theorem SameObj.refl (s : RSet) : SameObj s s := ⟨rfl, rfl, fun _ => rfl, fun _ => rfl, fun _ => rfl⟩

theorem SameObj.trans {s t u : RSet} (h : SameObj s t) (g : SameObj t u) : SameObj s u :=
  ⟨g.n.trans h.n, g.root.trans h.root, fun i => (g.kind i).trans (h.kind i), fun i => (g.ss i).trans (h.ss i), fun i => (g.ls i).trans (h.ls i)⟩

theorem sameObj_of_abs {s s' : RSet} (h1 : s'.root = s.root) (h2 : s'.abs.n = s.abs.n) (h3 : s'.abs.kind = s.abs.kind)
    (h4 : s'.abs.ss = s.abs.ss) (h5 : s'.abs.ls = s.abs.ls) : SameObj s s' :=
  ⟨h2, h1, fun i => congrFun h3 i, fun i => Bool.eq_iff_iff.2 (iff_of_eq (congrFun h4 i)),
   fun i => Bool.eq_iff_iff.2 (iff_of_eq (congrFun h5 i))⟩

theorem markPE_root (s : RSet) (i : Nat) : (s.markPE i).2.root = s.root := by unfold RSet.markPE; split <;> rfl
theorem markPTE_root (s : RSet) (i : Nat) : (s.markPTE i).2.root = s.root := by unfold RSet.markPTE; split <;> rfl
theorem markPE_pts (s : RSet) (i : Nat) : (s.markPE i).2.pts = s.pts := by unfold RSet.markPE; split <;> rfl
theorem markPTE_pts (s : RSet) (i : Nat) : (s.markPTE i).2.pts = s.pts := by unfold RSet.markPTE; split <;> rfl
theorem markEscaped_root (s : RSet) (i : Nat) : (s.markEscaped i).2.root = s.root := by
  unfold RSet.markEscaped; split
  · rfl
  · show ((RSet.markPE _ i).2.markPTE i).2.root = _
    rw [markPTE_root, markPE_root]
theorem markEscaped_pts (s : RSet) (i : Nat) : (s.markEscaped i).2.pts = s.pts := by
  unfold RSet.markEscaped; split
  · rfl
  · show ((RSet.markPE _ i).2.markPTE i).2.pts = _
    rw [markPTE_pts, markPE_pts]
theorem makeSuperset_root (s : RSet) (a b : Nat) : (s.makeSuperset a b).2.root = s.root := by
  unfold RSet.makeSuperset; split
  · rfl
  · simp only []
    split
    · exact markPTE_root _ _
    · rfl

structure MarkPE (s s' : RSet) (a : Nat) : Prop where
  same : SameObj s s'
  pts : s'.pts = s.pts
  pte : ∀ i, s'.pte i = s.pte i
  esc : ∀ i, s'.escaped i = s.escaped i
  pe : ∀ i, s'.pe i = true ↔ s.pe i = true ∨ s.root i = s.root a

structure MarkPTE (s s' : RSet) (a : Nat) : Prop where
  same : SameObj s s'
  pts : s'.pts = s.pts
  pe : ∀ i, s'.pe i = s.pe i
  esc : ∀ i, s'.escaped i = s.escaped i
  pte : ∀ i, s'.pte i = true ↔ s.pte i = true ∨ s.root i = s.root a

structure MarkEsc (s s' : RSet) (a : Nat) : Prop where
  same : SameObj s s'
  pts : s'.pts = s.pts
  pe : ∀ i, s'.pe i = true ↔ s.pe i = true ∨ s.root i = s.root a
  pte : ∀ i, s'.pte i = true ↔ s.pte i = true ∨ s.root i = s.root a
  esc : ∀ i, s'.escaped i = true ↔ s.escaped i = true ∨ i = a

theorem beq_of_abs {f g : Nat → Bool} (h : (fun i => f i = true) = fun i => g i = true) (i : Nat) : f i = g i :=
  Bool.eq_iff_iff.2 (iff_of_eq (congrFun h i))

theorem markPE_eff (s : RSet) (a : Nat) : MarkPE s (s.markPE a).2 a := by
  have h := abs_markPE s a
  refine ⟨sameObj_of_abs (markPE_root s a) (by rw [h]; rfl) (by rw [h]; rfl) (by rw [h]; rfl) (by rw [h]; rfl),
    markPE_pts s a, beq_of_abs (congrArg Abs.pte h), beq_of_abs (congrArg Abs.esc h), ?_⟩
  intro i
  exact iff_of_eq (congrFun (congrArg Abs.pe h) i)

theorem markPTE_eff (s : RSet) (a : Nat) : MarkPTE s (s.markPTE a).2 a := by
  have h := abs_markPTE s a
  refine ⟨sameObj_of_abs (markPTE_root s a) (by rw [h]; rfl) (by rw [h]; rfl) (by rw [h]; rfl) (by rw [h]; rfl),
    markPTE_pts s a, beq_of_abs (congrArg Abs.pe h), beq_of_abs (congrArg Abs.esc h), ?_⟩
  intro i
  exact iff_of_eq (congrFun (congrArg Abs.pte h) i)

theorem markEscaped_eff {s : RSet} (hs : SetOk s) {a : Nat} (ha : a < s.n) (hk : (s.obj a).kind ≠ .register) :
    MarkEsc s (s.markEscaped a).2 a := by
  have h : (s.markEscaped a).2.abs = s.abs.step (.markEscaped a) := abs_step hs.wf (.markEscaped a) ⟨ha, hk⟩
  refine ⟨sameObj_of_abs (markEscaped_root s a) (by rw [h]; rfl) (by rw [h]; rfl) (by rw [h]; rfl) (by rw [h]; rfl),
    markEscaped_pts s a, ?_, ?_, ?_⟩
  · intro i
    have := iff_of_eq (congrFun (congrArg Abs.pe h) i)
    refine this.trans ⟨fun h => h.imp id And.left, ?_⟩
    rintro (h1 | h1)
    · exact .inl h1
    · by_cases he : s.escaped a = true
      · left; exact (s.shared.pe i a h1).2 (hs.2.esc a he).2.2.1
      · exact .inr ⟨h1, he⟩
  · intro i
    have := iff_of_eq (congrFun (congrArg Abs.pte h) i)
    refine this.trans ⟨fun h => h.imp id And.left, ?_⟩
    rintro (h1 | h1)
    · exact .inl h1
    · by_cases he : s.escaped a = true
      · left; exact (s.shared.pte i a h1).2 (hs.2.esc a he).2.2.2
      · exact .inr ⟨h1, he⟩
  · intro i
    exact iff_of_eq (congrFun (congrArg Abs.esc h) i)

structure AddPts (s s' : RSet) (a : Nat) (Q : Nat → Prop) (px : Prop) : Prop where
  same : SameObj s s'
  pe : ∀ i, s'.pe i = s.pe i
  esc : ∀ i, s'.escaped i = s.escaped i
  pte : ∀ i, s'.pte i = true ↔ s.pte i = true ∨ (s.root i = s.root a ∧ px)
  pts : ∀ i x, x ∈ s'.pointees i ↔ x ∈ s.pointees i ∨ (s.root i = s.root a ∧ Q x)

theorem addPointee_eff (s : RSet) (a x : Nat) : AddPts s (s.addPointee a x).2 a (· = x) False := by
  refine ⟨⟨rfl, rfl, fun _ => rfl, fun _ => rfl, fun _ => rfl⟩, fun _ => rfl, fun _ => rfl, fun i => ?_, ?_⟩
  · show s.pte i = true ↔ _; simp
  · intro i y
    show y ∈ upd s.pts (s.root a) (ins (s.pointees a) x) (s.root i) ↔ _
    by_cases h : s.root i = s.root a
    · rw [h, upd_same, mem_ins]
      unfold RSet.pointees; rw [h]; simp
    · rw [upd_ne _ _ h]; simp [h, RSet.pointees]

theorem makeSuperset_eff (s : RSet) (a b : Nat) :
    AddPts s (s.makeSuperset a b).2 a (· ∈ s.pointees b) (s.pte b = true) := by
  have h := abs_makeSuperset (r := s) a b
  refine ⟨sameObj_of_abs (makeSuperset_root s a b) (by rw [h]; rfl) (by rw [h]; rfl) (by rw [h]; rfl) (by rw [h]; rfl),
    beq_of_abs (congrArg Abs.pe h), beq_of_abs (congrArg Abs.esc h), ?_, ?_⟩
  · intro i
    exact iff_of_eq (congrFun (congrArg Abs.pte h) i)
  · intro i x
    exact iff_of_eq (congrFun (congrFun (congrArg Abs.pts h) i) x)

/-! ## The invariant -/

/-- `a` points to `x`, explicitly or implicitly -/
def Has (s : RSet) (a x : Nat) : Prop := x ∈ s.pointees a ∨ (s.pte a = true ∧ s.escaped x = true)

namespace WS
variable {σ : Type}

/-- the subset graph makes `a` a superset of `b`: they are unified, or there is an edge, or all
pointees are implicit -/
def Sub0 (w : WS σ) (a b : Nat) : Prop :=
  w.set.root a = w.set.root b ∨ (∃ s ∈ w.edges (w.set.root b), w.set.root s = w.set.root a) ∨
  (w.set.pe b = true ∧ w.set.pte a = true)

/-- ... or there will be an edge -/
def SubE (w : WS σ) (a b : Nat) : Prop :=
  w.Sub0 a b ∨ ∃ p ∈ w.queue, w.set.root p.1 = w.set.root a ∧ w.set.root p.2 = w.set.root b

def CallExtOk (w : WS σ) (c : Call) : Prop :=
  (∀ i, some i ∈ c.ins → w.set.pe i = true) ∧ (∀ o, some o ∈ c.outs → w.set.pte o = true)

def CallFnOk (w : WS σ) (c : Call) (f : Fn) : Prop :=
  (∀ (k i a : Nat), c.ins[k]? = some (some i) → f.args[k]? = some (some a) → w.SubE a i) ∧
  (∀ (k o r : Nat), c.outs[k]? = some (some o) → f.results[k]? = some (some r) → w.SubE o r)

def CallOk (fn : Nat → Fn) (w : WS σ) (c : Call) (x : Nat) : Prop :=
  ((w.set.obj x).kind = .imported → w.CallExtOk c) ∧ ((w.set.obj x).kind = .function → w.CallFnOk c (fn x))

/-- the edge that is being added -/
def Exempt (w : WS σ) (e : Option (Nat × Nat)) (m s : Nat) : Prop :=
  ∃ p, e = some p ∧ w.set.root p.1 = w.set.root m ∧ w.set.root p.2 = w.set.root s

/-- pointee `x` of root `m` has had its effect -/
structure Obl (fn : Nat → Fn) (w : WS σ) (e : Option (Nat × Nat)) (m x : Nat) : Prop where
  edges : ∀ s ∈ w.edges m, Has w.set s x ∨ w.Exempt e m s
  stores : ∀ v ∈ w.stores m, w.SubE x v
  loads : ∀ v ∈ w.loads m, w.SubE v x
  calls : ∀ c ∈ w.calls m, w.CallOk fn c x
  ss : w.set.ss m = true → w.set.pte x = true ∨ w.set.pe m = true
  ls : w.set.ls m = true → w.set.pe x = true ∨ w.set.pe m = true

/-- that root `m` points outside has had its effect -/
structure OblX (w : WS σ) (e : Option (Nat × Nat)) (m : Nat) : Prop where
  edges : ∀ s ∈ w.edges m, w.set.pte s = true ∨ w.Exempt e m s
  stores : ∀ v ∈ w.stores m, w.set.pe v = true
  loads : ∀ v ∈ w.loads m, w.set.pte v = true
  calls : ∀ c ∈ w.calls m, w.CallExtOk c

def Seen (w : WS σ) (m x : Nat) : Prop := w.tracked m = true ∧ x ∈ w.set.pts m ∧ x ∉ w.newP m

structure AllSeen (w : WS σ) (m : Nat) : Prop where
  pts : ∀ x ∈ w.set.pts m, w.Seen m x
  pte : w.set.pte m = true → w.xSeen m = true
  pe : w.set.pe m = true → w.peSeen m = true

/-- the subset graph represents the constraint -/
def Repr (w : WS σ) : Constraint → Prop
  | .superset a b => w.SubE a b
  | .store p v => ∃ v' ∈ w.stores (w.set.root p), w.set.root v' = w.set.root v
  | .load v p => ∃ v' ∈ w.loads (w.set.root p), w.set.root v' = w.set.root v
  | .call p c => c ∈ w.calls (w.set.root p)

structure Range (w : WS σ) : Prop where
  edges : ∀ m, ∀ s ∈ w.edges m, s < w.set.n
  stores : ∀ m, ∀ s ∈ w.stores m, s < w.set.n
  loads : ∀ m, ∀ s ∈ w.loads m, s < w.set.n
  calls : ∀ m, ∀ c ∈ w.calls m, c.InRange w.set.n
  queue : ∀ p ∈ w.queue, p.1 < w.set.n ∧ p.2 < w.set.n
  ref : ∀ i a, w.ref i = some a → a < w.set.n

/-- The invariant. `ex`: roots that are being processed; `e`: an edge that is being added; `exf`:
functions that are just being marked as escaped. -/
structure Inv (P : Problem) (w : WS σ) (ex : Nat → Prop) (e : Option (Nat × Nat)) (exf : Nat → Prop) : Prop where
  ok : SetOk w.set
  rng : w.Range
  n : w.set.n = P.base.n
  kind : ∀ i, (w.set.obj i).kind = P.base.kind i
  basePts : ∀ i x, P.base.pts i x → Has w.set i x
  basePE : ∀ i, P.base.pe i → w.set.pe i = true
  basePTE : ∀ i, P.base.pte i → w.set.pte i = true
  baseSS : ∀ i, P.base.ss i → w.set.ss i = true
  baseLS : ∀ i, P.base.ls i → w.set.ls i = true
  baseEsc : ∀ i, P.base.esc i → w.set.escaped i = true
  baseConn : ∀ i j, P.base.conn i j → w.set.root i = w.set.root j
  newP : ∀ m, w.set.root m = m → ∀ x ∈ w.newP m, x ∈ w.set.pts m
  xOk : ∀ m, w.set.root m = m → w.xSeen m = true → w.set.pte m = true
  peOk : ∀ m, w.set.root m = m → w.peSeen m = true → w.set.pe m = true
  obl : ∀ m, w.set.root m = m → ∀ x, w.Seen m x → w.Obl P.fn e m x
  oblX : ∀ m, w.set.root m = m → w.xSeen m = true → w.OblX e m
  oblPE : ∀ m, w.set.root m = m → w.peSeen m = true → ∀ x, w.Seen m x → w.set.escaped x = true
  cover : ∀ m, m < w.set.n → w.set.root m = m → w.wl m = true ∨ ex m ∨ w.AllSeen m
  wlLt : ∀ m, w.wl m = true → m < w.set.n
  cs : ∀ c ∈ P.cs, w.Repr c
  fns : ∀ f, w.set.escaped f = true → f < w.set.n → (w.set.obj f).kind = .function → ¬ exf f →
    (∀ a, some a ∈ (P.fn f).args → w.set.pte a = true) ∧ (∀ r, some r ∈ (P.fn f).results → w.set.pe r = true)

/-- `w'` says at least what `w` says -/
structure Ext (w w' : WS σ) : Prop where
  n : w'.set.n = w.set.n
  kind : ∀ i, (w'.set.obj i).kind = (w.set.obj i).kind
  root : ∀ i j, w.set.root i = w.set.root j → w'.set.root i = w'.set.root j
  pe : ∀ i, w.set.pe i = true → w'.set.pe i = true
  pte : ∀ i, w.set.pte i = true → w'.set.pte i = true
  esc : ∀ i, w.set.escaped i = true → w'.set.escaped i = true
  has : ∀ a x, Has w.set a x → Has w'.set a x
  sub0 : ∀ a b, w.Sub0 a b → w'.Sub0 a b
  queue : ∀ p ∈ w.queue, p ∈ w'.queue

theorem Ext.refl (w : WS σ) : Ext w w :=
  ⟨rfl, fun _ => rfl, fun _ _ h => h, fun _ h => h, fun _ h => h, fun _ h => h, fun _ _ h => h, fun _ _ h => h, fun _ h => h⟩

theorem Ext.trans {u v w : WS σ} (h : Ext u v) (g : Ext v w) : Ext u w :=
  ⟨g.n.trans h.n, fun i => (g.kind i).trans (h.kind i), fun i j x => g.root i j (h.root i j x), fun i x => g.pe i (h.pe i x),
   fun i x => g.pte i (h.pte i x), fun i x => g.esc i (h.esc i x), fun a x y => g.has a x (h.has a x y),
   fun a b x => g.sub0 a b (h.sub0 a b x), fun p x => g.queue p (h.queue p x)⟩

theorem Ext.sub {w w' : WS σ} (h : Ext w w') {a b : Nat} (hs : w.SubE a b) : w'.SubE a b := by
  rcases hs with hs | ⟨p, hp, h1, h2⟩
  · exact .inl (h.sub0 a b hs)
  · exact .inr ⟨p, h.queue p hp, h.root _ _ h1, h.root _ _ h2⟩

theorem Ext.callExt {w w' : WS σ} (h : Ext w w') {c : Call} (hs : w.CallExtOk c) : w'.CallExtOk c :=
  ⟨fun i hi => h.pe i (hs.1 i hi), fun i hi => h.pte i (hs.2 i hi)⟩

theorem Ext.callOk {w w' : WS σ} (h : Ext w w') {fn : Nat → Fn} {c : Call} {x : Nat} (hs : w.CallOk fn c x) : w'.CallOk fn c x :=
  ⟨fun hk => h.callExt (hs.1 (by rw [← h.kind]; exact hk)),
   fun hk => by
    have := hs.2 (by rw [← h.kind]; exact hk)
    exact ⟨fun k i a h1 h2 => h.sub (this.1 k i a h1 h2), fun k i a h1 h2 => h.sub (this.2 k i a h1 h2)⟩⟩

theorem Ext.exempt {w w' : WS σ} (h : Ext w w') {e : Option (Nat × Nat)} {m s : Nat} (hs : w.Exempt e m s) : w'.Exempt e m s := by
  obtain ⟨p, he, h1, h2⟩ := hs
  exact ⟨p, he, h.root _ _ h1, h.root _ _ h2⟩

/-- growth without unification -/
structure Grow (w w' : WS σ) : Prop extends Ext w w' where
  same : SameObj w.set w'.set
  stores : w'.stores = w.stores
  loads : w'.loads = w.loads
  calls : w'.calls = w.calls
  edges : ∀ m, ∀ s ∈ w'.edges m, s ∈ w.edges m
  seen : ∀ m x, w.set.root m = m → w'.Seen m x → w.Seen m x
  xSeen : w'.xSeen = w.xSeen
  peSeen : w'.peSeen = w.peSeen

theorem Grow.refl (w : WS σ) : Grow w w :=
  { Ext.refl w with same := SameObj.refl _, stores := rfl, loads := rfl, calls := rfl, edges := fun _ _ h => h, seen := fun _ _ _ h => h, xSeen := rfl, peSeen := rfl }

theorem Grow.trans {u v w : WS σ} (h : Grow u v) (g : Grow v w) : Grow u w :=
  { h.toExt.trans g.toExt with
    same := h.same.trans g.same, stores := g.stores.trans h.stores, loads := g.loads.trans h.loads,
    calls := g.calls.trans h.calls, edges := fun m s x => h.edges m s (g.edges m s x),
    seen := fun m x hm hs => h.seen m x hm (g.seen m x (by rw [h.same.root]; exact hm) hs),
    xSeen := g.xSeen.trans h.xSeen, peSeen := g.peSeen.trans h.peSeen }

theorem Obl.grow {fn : Nat → Fn} {w w' : WS σ} {e : Option (Nat × Nat)} {m x : Nat} (h : w.Obl fn e m x) (g : Grow w w') :
    w'.Obl fn e m x := by
  refine ⟨?_, ?_, ?_, ?_, ?_, ?_⟩
  · intro s hs
    exact (h.edges s (g.edges m s hs)).imp (g.has s x) g.exempt
  · intro v hv; rw [g.stores] at hv; exact g.sub (h.stores v hv)
  · intro v hv; rw [g.loads] at hv; exact g.sub (h.loads v hv)
  · intro c hc; rw [g.calls] at hc; exact g.callOk (h.calls c hc)
  · intro hs; rw [g.same.ss] at hs; exact (h.ss hs).imp (g.pte x) (g.pe m)
  · intro hs; rw [g.same.ls] at hs; exact (h.ls hs).imp (g.pe x) (g.pe m)

theorem OblX.grow {w w' : WS σ} {e : Option (Nat × Nat)} {m : Nat} (h : w.OblX e m) (g : Grow w w') :
    w'.OblX e m := by
  refine ⟨?_, ?_, ?_, ?_⟩
  · intro s hs
    exact (h.edges s (g.edges m s hs)).imp (g.pte s) g.exempt
  · intro v hv; rw [g.stores] at hv; exact g.pe v (h.stores v hv)
  · intro v hv; rw [g.loads] at hv; exact g.pte v (h.loads v hv)
  · intro c hc; rw [g.calls] at hc; exact g.callExt (h.calls c hc)

theorem Repr.grow {w w' : WS σ} {c : Constraint} (h : w.Repr c) (g : Grow w w') : w'.Repr c := by
  cases c with
  | superset a b => exact g.sub h
  | store p v =>
    obtain ⟨v', h1, h2⟩ := h
    exact ⟨v', by rw [g.same.root, g.stores]; exact h1, by rw [g.same.root]; exact h2⟩
  | load v p =>
    obtain ⟨v', h1, h2⟩ := h
    exact ⟨v', by rw [g.same.root, g.loads]; exact h1, by rw [g.same.root]; exact h2⟩
  | call p c =>
    show c ∈ _
    rw [g.same.root, g.calls]; exact h

/-- The invariant is kept by growth. -/
theorem Inv.grow {P : Problem} {w w' : WS σ} {ex ex' : Nat → Prop} {e : Option (Nat × Nat)} {exf exf' : Nat → Prop}
    (h : w.Inv P ex e exf) (g : Grow w w') (hok : SetOk w'.set)
    (hq : ∀ p ∈ w'.queue, p.1 < w.set.n ∧ p.2 < w.set.n) (href : w'.ref = w.ref)
    (hnew : ∀ m, w.set.root m = m → ∀ x ∈ w'.newP m, x ∈ w'.set.pts m)
    (hwl : ∀ m, w'.wl m = true → m < w.set.n)
    (hcov : ∀ m, m < w.set.n → w.set.root m = m → w.wl m = true ∨ ex m ∨ w.AllSeen m → w'.wl m = true ∨ ex' m ∨ w'.AllSeen m)
    (hfns : ∀ f, w'.set.escaped f = true → f < w.set.n → (w.set.obj f).kind = .function → ¬ exf' f →
      (w.set.escaped f = true ∧ ¬ exf f) ∨
      ((∀ a, some a ∈ (P.fn f).args → w'.set.pte a = true) ∧ (∀ r, some r ∈ (P.fn f).results → w'.set.pe r = true))) :
    w'.Inv P ex' e exf' := by
  have hr := g.same.root
  refine ⟨hok, ?_, g.n.trans h.n, fun i => (g.kind i).trans (h.kind i), fun i x hx => g.has i x (h.basePts i x hx),
    fun i hi => g.pe i (h.basePE i hi), fun i hi => g.pte i (h.basePTE i hi), fun i hi => by rw [g.same.ss]; exact h.baseSS i hi,
    fun i hi => by rw [g.same.ls]; exact h.baseLS i hi, fun i hi => g.esc i (h.baseEsc i hi), fun i j hi => by rw [hr]; exact h.baseConn i j hi,
    ?_, ?_, ?_, ?_, ?_, ?_, ?_, fun m hm => by rw [g.n]; exact hwl m hm, fun c hc => (h.cs c hc).grow g, ?_⟩
  · refine ⟨?_, ?_, ?_, ?_, ?_, ?_⟩
    · intro m s hs; rw [g.n]; exact h.rng.edges m s (g.edges m s hs)
    · rw [g.stores, g.n]; exact h.rng.stores
    · rw [g.loads, g.n]; exact h.rng.loads
    · rw [g.calls, g.n]; exact h.rng.calls
    · intro p hp; rw [g.n]; exact hq p hp
    · rw [href, g.n]; exact h.rng.ref
  · intro m hm; rw [hr] at hm; exact hnew m hm
  · intro m hm hx; rw [hr] at hm; rw [g.xSeen] at hx; exact g.pte m (h.xOk m hm hx)
  · intro m hm hx; rw [hr] at hm; rw [g.peSeen] at hx; exact g.pe m (h.peOk m hm hx)
  · intro m hm x hx; rw [hr] at hm; exact (h.obl m hm x (g.seen m x hm hx)).grow g
  · intro m hm hx; rw [hr] at hm; rw [g.xSeen] at hx; exact (h.oblX m hm hx).grow g
  · intro m hm hx x hs; rw [hr] at hm; rw [g.peSeen] at hx; exact g.esc x (h.oblPE m hm hx x (g.seen m x hm hs))
  · intro m hm hmr; rw [hr] at hmr; rw [g.n] at hm; exact hcov m hm hmr (h.cover m hm hmr)
  · intro f hf hfn hk hex
    rw [g.n] at hfn; rw [g.kind] at hk
    rcases hfns f hf hfn hk hex with ⟨h1, h2⟩ | h1
    · have := h.fns f h1 hfn hk h2
      exact ⟨fun a ha => g.pte a (this.1 a ha), fun a ha => g.pe a (this.2 a ha)⟩
    · exact h1

end WS
end Jlm.Llvm.Aa
