import Verif.Aa.WorklistRun
/-
The worklist solver never claims more than any solution of the constraints.
-/
set_option linter.unusedSimpArgs false
set_option linter.unusedVariables false
set_option linter.unnecessarySeqFocus false
namespace Jlm.Llvm.Aa
namespace WS
variable {σ : Type} {P : Problem} {L : Sol} {hcd : Bool}

/-- everything in the state is true of the solution `L` -/
structure MW (P : Problem) (L : Sol) (hcd : Bool) (w : WS σ) : Prop where
  idem : ∀ i, w.set.root (w.set.root i) = w.set.root i
  n : w.set.n = P.base.n
  kind : ∀ i, (w.set.obj i).kind = P.base.kind i
  pts : ∀ i, ∀ x ∈ w.set.pointees i, L.pt i x ∧ x < P.base.n
  pe : ∀ i, w.set.pe i = true → L.PointeesEscape i
  pte : ∀ i, w.set.pte i = true → L.ext i
  esc : ∀ i, w.set.escaped i = true → L.esc i
  ss : ∀ i, w.set.ss i = true → ∀ x, L.pt i x → L.ext x
  ls : ∀ i, w.set.ls i = true → ∀ x, L.pt i x → L.PointeesEscape x
  same : ∀ i j, w.set.root i = w.set.root j → L.Sub i j
  edges : ∀ m, ∀ s ∈ w.edges m, L.Sub s m
  stores : ∀ m, ∀ v ∈ w.stores m, L.Holds P.base.kind P.fn (.store m v)
  loads : ∀ m, ∀ v ∈ w.loads m, L.Holds P.base.kind P.fn (.load v m)
  calls : ∀ m, ∀ c ∈ w.calls m, L.Holds P.base.kind P.fn (.call m c)
  newP : ∀ m, ∀ x ∈ w.newP m, L.pt m x ∧ x < P.base.n
  queue : ∀ p ∈ w.queue, L.Sub p.1 p.2
  scc : ∀ a b, a < w.set.n → b < w.set.n → w.set.root a = a → w.set.root b = b → w.scc a = w.scc b → L.Sub a b
  ref : hcd = true → ∀ i a, w.ref i = some a → ∀ x, L.pt i x → L.Sub x a ∧ L.Sub a x

theorem sub_refl (a : Nat) : L.Sub a a := ⟨fun _ h => h, id⟩
theorem sub_trans {a b c : Nat} (h : L.Sub a b) (g : L.Sub b c) : L.Sub a c := ⟨fun x hx => h.1 x (g.1 x hx), fun hx => h.2 (g.2 hx)⟩
theorem pe_sub {a b : Nat} (h : L.Sub a b) (g : L.PointeesEscape a) : L.PointeesEscape b := fun x hx => g x (h.1 x hx)

/-- the lists of pending work do not matter -/
theorem MW.wl {w : WS σ} (h : MW P L hcd w) (f : Nat → Bool) (d : σ) (t x p : Nat → Bool) :
    MW P L hcd { w with wl := f, det := d, tracked := t, xSeen := x, peSeen := p } :=
  ⟨h.idem, h.n, h.kind, h.pts, h.pe, h.pte, h.esc, h.ss, h.ls, h.same, h.edges, h.stores, h.loads, h.calls, h.newP, h.queue, h.scc, h.ref⟩

theorem MW.push {w : WS σ} (h : MW P L hcd w) (r : Nat) : MW P L hcd (w.push r) := h.wl _ w.det w.tracked w.xSeen w.peSeen

/-- the set changes, not the classes -/
theorem MW.set {w : WS σ} (h : MW P L hcd w) {s : RSet} {np : Nat → List Nat} {wl : Nat → Bool} (same : SameObj w.set s) (pts : ∀ i, ∀ x ∈ s.pointees i, L.pt i x ∧ x < P.base.n)
    (pe : ∀ i, s.pe i = true → L.PointeesEscape i) (pte : ∀ i, s.pte i = true → L.ext i) (esc : ∀ i, s.escaped i = true → L.esc i)
    (hnp : ∀ m, ∀ x ∈ np m, L.pt m x ∧ x < P.base.n) : MW P L hcd { w with set := s, newP := np, wl := wl } := by
  have hr := same.root
  exact ⟨fun i => by show s.root (s.root i) = s.root i; rw [hr]; exact h.idem i, same.n.trans h.n, fun i => (same.kind i).trans (h.kind i), pts, pe, pte, esc,
    fun i hi => h.ss i (by rw [← same.ss]; exact hi), fun i hi => h.ls i (by rw [← same.ls]; exact hi),
    fun i j hij => h.same i j (by rw [← hr]; exact hij), h.edges, h.stores, h.loads, h.calls, hnp, h.queue,
    fun a b ha hb ra rb => h.scc a b (by rw [← same.n]; exact ha) (by rw [← same.n]; exact hb) (by rw [← hr]; exact ra) (by rw [← hr]; exact rb), h.ref⟩

theorem MW.setPE' {w : WS σ} (h : MW P L hcd w) {a : Nat} (ha : L.PointeesEscape a) : MW P L hcd { w with set := (w.set.markPE a).2 } := by
  have g := markPE_eff w.set a
  refine h.set (s := (w.set.markPE a).2) (np := w.newP) (wl := w.wl) g.same ?_ ?_ ?_ ?_ h.newP
  · intro i x hx
    have : x ∈ w.set.pointees i := by unfold RSet.pointees at *; rw [g.pts, g.same.root] at hx; exact hx
    exact h.pts i x this
  · intro i hi
    rcases (g.pe i).1 hi with hi | hi
    · exact h.pe i hi
    · exact pe_sub (h.same a i hi.symm) ha
  · intro i hi; rw [g.pte] at hi; exact h.pte i hi
  · intro i hi; rw [g.esc] at hi; exact h.esc i hi

theorem MW.setPTE' {w : WS σ} (h : MW P L hcd w) {a : Nat} (ha : L.ext a) : MW P L hcd { w with set := (w.set.markPTE a).2 } := by
  have g := markPTE_eff w.set a
  refine h.set (s := (w.set.markPTE a).2) (np := w.newP) (wl := w.wl) g.same ?_ ?_ ?_ ?_ h.newP
  · intro i x hx
    have : x ∈ w.set.pointees i := by unfold RSet.pointees at *; rw [g.pts, g.same.root] at hx; exact hx
    exact h.pts i x this
  · intro i hi; rw [g.pe] at hi; exact h.pe i hi
  · intro i hi
    rcases (g.pte i).1 hi with hi | hi
    · exact h.pte i hi
    · exact (h.same i a hi).2 ha
  · intro i hi; rw [g.esc] at hi; exact h.esc i hi

theorem MW.root {w : WS σ} (h : MW P L hcd w) (a : Nat) : L.Sub a (w.set.root a) ∧ L.Sub (w.set.root a) a :=
  ⟨h.same _ _ (h.idem a).symm, h.same _ _ (h.idem a)⟩

theorem MW.markPE {w : WS σ} (h : MW P L hcd w) {a : Nat} (ha : L.PointeesEscape a) : MW P L hcd (w.markPE a) := by
  unfold WS.markPE
  simp only []
  split
  · exact (h.setPE' (pe_sub (h.root a).1 ha)).wl _ w.det w.tracked w.xSeen w.peSeen
  · exact h

theorem MW.markPTE {w : WS σ} (h : MW P L hcd w) {a : Nat} (ha : L.ext a) : MW P L hcd (w.markPTE a) := by
  unfold WS.markPTE
  simp only []
  split
  · exact (h.setPTE' ((h.root a).2.2 ha)).wl _ w.det w.tracked w.xSeen w.peSeen
  · exact h

theorem foldl_mw {α β : Type} {Q : β → Prop} {f : β → α → β} : ∀ (l : List α) {b : β}, Q b → (∀ a ∈ l, ∀ b, Q b → Q (f b a)) → Q (l.foldl f b) := by
  intro l
  induction l with
  | nil => intro b h _; exact h
  | cons a l ih => intro b h hf; exact ih (hf a (by simp) b h) (fun c hc => hf c (by simp [hc]))

theorem MW.addPointee {w : WS σ} (h : MW P L hcd w) {dp : Bool} {r x : Nat} (hr : L.pt r x) (hx : x < P.base.n) : MW P L hcd (w.addPointee dp r x).2 := by
  have g := addPointee_eff w.set r x
  refine h.set (s := (w.set.addPointee r x).2) (wl := w.wl) g.same ?_ ?_ ?_ ?_ ?_
  · intro i y hy
    rcases (g.pts i y).1 hy with hy | ⟨h1, rfl⟩
    · exact h.pts i y hy
    · exact ⟨(h.same i r h1).1 y hr, hx⟩
  · intro i hi; rw [g.pe] at hi; exact h.pe i hi
  · intro i hi
    rcases (g.pte i).1 hi with hi | hi
    · exact h.pte i hi
    · exact absurd hi.2 id
  · intro i hi; rw [g.esc] at hi; exact h.esc i hi
  · intro m y hy
    split at hy
    · by_cases hm : m = r
      · subst hm
        rw [upd_same, mem_ins] at hy
        rcases hy with hy | rfl
        · exact h.newP m y hy
        · exact ⟨hr, hx⟩
      · rw [upd_ne _ _ hm] at hy; exact h.newP m y hy
    · exact h.newP m y hy

theorem MW.makeSuperset {w : WS σ} (h : MW P L hcd w) {a b : Nat} (hs : L.Sub a b) : MW P L hcd (w.makeSuperset a b).2 := by
  have g := makeSuperset_eff w.set a b
  refine h.set (s := (w.set.makeSuperset a b).2) (wl := w.wl) g.same ?_ ?_ ?_ ?_ ?_
  · intro i y hy
    rcases (g.pts i y).1 hy with hy | ⟨h1, h2⟩
    · exact h.pts i y hy
    · exact ⟨(h.same i a h1).1 y (hs.1 y (h.pts b y h2).1), (h.pts b y h2).2⟩
  · intro i hi; rw [g.pe] at hi; exact h.pe i hi
  · intro i hi
    rcases (g.pte i).1 hi with hi | hi
    · exact h.pte i hi
    · exact (h.same i a hi.1).2 (hs.2 (h.pte b hi.2))
  · intro i hi; rw [g.esc] at hi; exact h.esc i hi
  · intro m y hy
    split at hy
    · by_cases hm : m = a
      · subst hm
        rw [upd_same, mem_uni, List.mem_filter] at hy
        rcases hy with hy | hy
        · exact h.newP m y hy
        · exact ⟨hs.1 y (h.pts b y hy.1).1, (h.pts b y hy.1).2⟩
      · rw [upd_ne _ _ hm] at hy; exact h.newP m y hy
    · exact h.newP m y hy

theorem holds_store {p q v : Nat} (hs : L.Sub p q) (h : L.Holds P.base.kind P.fn (.store p v)) : L.Holds P.base.kind P.fn (.store q v) :=
  ⟨fun x hx => h.1 x (hs.1 x hx), fun hx => h.2 (hs.2 hx)⟩
theorem holds_load {p q v : Nat} (hs : L.Sub p q) (h : L.Holds P.base.kind P.fn (.load v p)) : L.Holds P.base.kind P.fn (.load v q) :=
  ⟨fun x hx => h.1 x (hs.1 x hx), fun hx => h.2 (hs.2 hx)⟩
theorem holds_call {p q : Nat} {c : Call} (hs : L.Sub p q) (h : L.Holds P.base.kind P.fn (.call p c)) : L.Holds P.base.kind P.fn (.call q c) :=
  ⟨fun x hx => h.1 x (hs.1 x hx), fun hx => h.2 (hs.2 hx)⟩

theorem MW.unify {w : WS σ} (h : MW P L hcd w) {a b : Nat} (h1 : L.Sub a b) (h2 : L.Sub b a) : MW P L hcd (w.unify hcd a b).2 := by
  by_cases hr : w.set.root a = w.set.root b
  · rw [unify_same hr]; exact h
  · obtain ⟨non, u, hp, _⟩ := unify_ueff (hcd := hcd) h.idem hr
    have href : ∀ i c, (w.unify hcd a b).2.ref i = some c → w.ref i = some c ∨ (i = (w.unify hcd a b).1 ∧ w.ref non = some c) := u.ref
    generalize (w.unify hcd a b).1 = root at *
    generalize (w.unify hcd a b).2 = v at *
    have hab : L.Sub (w.set.root a) (w.set.root b) := sub_trans (h.root a).2 (sub_trans h1 (h.root b).1)
    have hba : L.Sub (w.set.root b) (w.set.root a) := sub_trans (h.root b).2 (sub_trans h2 (h.root a).1)
    have hrn : L.Sub root non ∧ L.Sub non root := by
      rcases hp with ⟨e1, e2⟩ | ⟨e1, e2⟩
      · rw [e1, e2]; exact ⟨hab, hba⟩
      · rw [e1, e2]; exact ⟨hba, hab⟩
    have hrr : v.set.root root = root := by rw [u.set.rt, u.r0, if_neg u.ne]
    -- the new class of `i`
    have hcl : ∀ i, L.Sub (w.set.root i) (v.set.root i) ∧ L.Sub (v.set.root i) (w.set.root i) := by
      intro i
      rw [u.set.rt]
      split
      · rename_i hi; rw [hi]; exact ⟨hrn.2, hrn.1⟩
      · exact ⟨sub_refl _, sub_refl _⟩
    have hcl' : ∀ i, L.Sub i (v.set.root i) ∧ L.Sub (v.set.root i) i := fun i =>
      ⟨sub_trans (h.root i).1 (hcl i).1, sub_trans (hcl i).2 (h.root i).2⟩
    have hidem : ∀ i, v.set.root (v.set.root i) = v.set.root i := by
      intro i
      rw [u.set.rt i]
      split
      · exact hrr
      · rename_i hi
        rw [u.set.rt, h.idem, if_neg hi]
    have hsame : ∀ i j, v.set.root i = v.set.root j → L.Sub i j := by
      intro i j hij
      exact sub_trans (hcl' i).1 (by rw [hij]; exact (hcl' j).2)
    -- properties that are stored at the roots
    have hflag : ∀ (f : Obj → Bool) (C : Nat → Prop), (∀ i j, L.Sub i j → L.Sub j i → C i → C j) → (f (v.set.obj root) = (f (w.set.obj root) || f (w.set.obj non))) →
        (∀ i, f (w.set.obj (w.set.root i)) = true → C i) → ∀ i, f (v.set.obj (v.set.root i)) = true → C i := by
      intro f C hC hf hw i hi
      have hi' := hcl' i
      by_cases hir : v.set.root i = root
      · rw [hir] at hi hi'
        rw [hf, Bool.or_eq_true] at hi
        rcases hi with hi | hi
        · exact hC root i hi'.2 hi'.1 (hw root (by rw [u.r0]; exact hi))
        · exact hC non i (sub_trans hrn.2 hi'.2) (sub_trans hi'.1 hrn.1) (hw non (by rw [u.r1]; exact hi))
      · rw [u.set.obj _ hir] at hi
        have hii : w.set.root i = v.set.root i := by
          rw [u.set.rt]; split
          · rename_i hin; rw [u.set.rt, if_pos hin] at hir; exact absurd rfl hir
          · rfl
        exact hw i (by rw [hii]; exact hi)
    have hlist : ∀ {β : Type} (f f' : Nat → List β) (C : Nat → β → Prop), (∀ i j, L.Sub i j → L.Sub j i → ∀ c, C i c → C j c) →
        (∀ c, c ∈ f' root → c ∈ f root ∨ c ∈ f non) → (f' non = []) → (∀ i, i ≠ root → i ≠ non → f' i = f i) →
        (∀ m, ∀ c ∈ f m, C m c) → ∀ m, ∀ c ∈ f' m, C m c := by
      intro β f f' C hC g1 g2 g3 hf m c hc
      by_cases m1 : m = root
      · subst m1
        rcases g1 c hc with hc | hc
        · exact hf _ c hc
        · exact hC non _ hrn.2 hrn.1 c (hf non c hc)
      · by_cases m2 : m = non
        · subst m2; rw [g2] at hc; cases hc
        · rw [g3 m m1 m2] at hc; exact hf m c hc
    refine ⟨hidem, u.set.n.trans h.n, fun i => (u.set.kind i).trans (h.kind i), ?_, ?_, ?_, ?_, ?_, ?_, hsame, ?_, ?_, ?_, ?_, ?_, ?_, ?_, ?_⟩
    · intro i x hx
      have hi' := hcl' i
      unfold RSet.pointees at hx
      by_cases hir : v.set.root i = root
      · rw [hir, u.set.ptsR, mem_uni] at hx
        rw [hir] at hi'
        rcases hx with hx | hx
        · have := h.pts root x (by unfold RSet.pointees; rw [u.r0]; exact hx)
          exact ⟨hi'.1.1 x this.1, this.2⟩
        · have := h.pts non x (by unfold RSet.pointees; rw [u.r1]; exact hx)
          exact ⟨hi'.1.1 x (hrn.1.1 x this.1), this.2⟩
      · have hii : w.set.root i = v.set.root i ∧ w.set.root i ≠ non := by
          have := u.set.rt i
          by_cases hin : w.set.root i = non
          · rw [if_pos hin] at this; exact absurd this hir
          · rw [if_neg hin] at this; exact ⟨this.symm, hin⟩
        rw [u.set.pts _ hir (by rw [← hii.1]; exact hii.2), ← hii.1] at hx
        exact h.pts i x hx
    · exact hflag (·.pe) L.PointeesEscape (fun i j s _ h => pe_sub s h) u.set.pe h.pe
    · exact hflag (·.pte) L.ext (fun i j _ s h => s.2 h) u.set.pte h.pte
    · intro i hi; rw [u.set.esc] at hi; exact h.esc i hi
    · exact hflag (·.ss) (fun i => ∀ x, L.pt i x → L.ext x) (fun i j s _ h x hx => h x (s.1 x hx)) u.set.ss h.ss
    · exact hflag (·.ls) (fun i => ∀ x, L.pt i x → L.PointeesEscape x) (fun i j s _ h x hx => h x (s.1 x hx)) u.set.ls h.ls
    · exact hlist w.edges v.edges (fun m s => L.Sub s m) (fun i j s t c hc => sub_trans hc s) (fun c hc => ((u.edgesR c).1 hc).1) u.edgesN u.edges h.edges
    · exact hlist w.stores v.stores (fun m s => L.Holds P.base.kind P.fn (.store m s)) (fun i j s t c hc => holds_store s hc) (fun c hc => (u.storesR c).1 hc) u.storesN u.stores h.stores
    · exact hlist w.loads v.loads (fun m s => L.Holds P.base.kind P.fn (.load s m)) (fun i j s t c hc => holds_load s hc) (fun c hc => (u.loadsR c).1 hc) u.loadsN u.loads h.loads
    · exact hlist w.calls v.calls (fun m s => L.Holds P.base.kind P.fn (.call m s)) (fun i j s t c hc => holds_call s hc) (fun c hc => (u.callsR c).1 hc) u.callsN u.calls h.calls
    · intro m x hx
      by_cases m1 : m = root
      · subst m1; rw [u.newPR] at hx; cases hx
      · by_cases m2 : m = non
        · subst m2; rw [u.newPN] at hx; cases hx
        · rw [u.newP m m1 m2] at hx; exact h.newP m x hx
    · rw [u.queue]; exact h.queue
    · intro i j hi hj ri rj hs
      have key : ∀ i, v.set.root i = i → w.set.root i = i := by
        intro i ri
        rw [u.set.rt] at ri
        split at ri
        · rw [← ri]; exact u.r0
        · exact ri
      rw [u.scc] at hs
      exact h.scc i j (by rw [← u.set.n]; exact hi) (by rw [← u.set.n]; exact hj) (key i ri) (key j rj) hs
    · intro hh i c hc x hx
      rcases href i c hc with hc | ⟨rfl, hc⟩
      · exact h.ref hh i c hc x hx
      · exact h.ref hh non c hc x (hrn.2.1 x hx)

theorem MW.unifyAll : ∀ (l : List (Nat × Nat)) {w : WS σ}, MW P L hcd w → (∀ p ∈ l, L.Sub p.1 p.2 ∧ L.Sub p.2 p.1) → MW P L hcd (w.unifyAll hcd l) :=
  fun l w h hl => foldl_mw l h (fun p hp w hw => hw.unify (hl p hp).1 (hl p hp).2)

theorem path_sub {w : WS σ} (h : MW P L hcd w) {edges : Nat → List Nat} (he : ∀ m, ∀ s ∈ edges m, L.Sub s m) {a b : Nat} (p : Path w.set edges a b) : L.Sub b a := by
  induction p with
  | refl a => exact sub_refl a
  | same hr _ ih => exact sub_trans ih (h.same _ _ hr.symm)
  | edge ht _ ih => exact sub_trans ih (he _ _ ht)

variable {env : Env σ}

theorem MW.detect (hd : DetOk env) {w : WS σ} (h : MW P L env.opts.hcd w) {sub sup : Nat} (hs : L.Sub sup sub) (r1 : w.set.root sub = sub) (r2 : w.set.root sup = sup)
    (hne : sub ≠ sup) : MW P L env.opts.hcd (w.detect env sub sup).2 := by
  unfold WS.detect
  simp only []
  have hp := hd.path w.det w.set w.edges sub sup h.idem r1 r2 hne
  generalize env.det w.det w.set w.edges sub sup = dl at hp
  obtain ⟨d, l⟩ := dl
  have h0 : MW P L env.opts.hcd { w with det := d } := h.wl w.wl d w.tracked w.xSeen w.peSeen
  cases l with
  | nil => exact h0
  | cons p l =>
    have he : ∀ m, ∀ s ∈ withEdge w.edges sub sup m, L.Sub s m := by
      intro m s hsm
      unfold withEdge at hsm
      by_cases hm : m = sub
      · subst hm
        rw [upd_same] at hsm
        rcases List.mem_cons.1 hsm with rfl | hsm
        · exact hs
        · exact h.edges m s hsm
      · rw [upd_ne _ _ hm] at hsm; exact h.edges m s hsm
    exact (MW.unifyAll (p :: l) h0 (fun q hq => ⟨path_sub h he (hp q hq).2, path_sub h he (hp q hq).1⟩)).push _

theorem MW.insEdge {w : WS σ} (h : MW P L hcd w) {sup sub : Nat} (hs : L.Sub sup sub) : MW P L hcd (w.insEdge sup sub) := by
  refine ⟨h.idem, h.n, h.kind, h.pts, h.pe, h.pte, h.esc, h.ss, h.ls, h.same, ?_, h.stores, h.loads, h.calls, h.newP, h.queue, h.scc, h.ref⟩
  intro m s hsm
  change s ∈ upd w.edges sub (ins (w.edges sub) sup) m at hsm
  by_cases hm : m = sub
  · subst hm
    rw [upd_same, mem_ins] at hsm
    rcases hsm with hsm | rfl
    · exact h.edges m s hsm
    · exact hs
  · rw [upd_ne _ _ hm] at hsm; exact h.edges m s hsm

theorem MW.linkEdge (hd : DetOk env) {w : WS σ} (h : MW P L env.opts.hcd w) {sup sub : Nat} (hs : L.Sub sup sub) (r1 : w.set.root sub = sub) (r2 : w.set.root sup = sup)
    (hne : sub ≠ sup) : MW P L env.opts.hcd (w.linkEdge env sup sub) := by
  unfold WS.linkEdge
  split
  · exact h
  · simp only []
    have h1 := h.insEdge hs
    have hroot : ∀ w2 : WS σ, (w2.makeSuperset sup sub).2.set.root = w2.set.root := fun w2 => makeSuperset_root _ _ _
    have fin : ∀ w2 : WS σ, MW P L env.opts.hcd w2 → w2.set.root = w.set.root →
        MW P L env.opts.hcd (if (env.opts.lcd && !List.isEmpty ((if (w2.makeSuperset sup sub).1 = true then (w2.makeSuperset sup sub).2.push sup else (w2.makeSuperset sup sub).2).set.pointees sub) && !(w2.makeSuperset sup sub).1) = true
          then (WS.detect env sub sup (if (w2.makeSuperset sup sub).1 = true then (w2.makeSuperset sup sub).2.push sup else (w2.makeSuperset sup sub).2)).2
          else (if (w2.makeSuperset sup sub).1 = true then (w2.makeSuperset sup sub).2.push sup else (w2.makeSuperset sup sub).2)) := by
      intro w2 h2 hr2
      have h3 := h2.makeSuperset hs
      have h4 : MW P L env.opts.hcd (if (w2.makeSuperset sup sub).1 = true then (w2.makeSuperset sup sub).2.push sup else (w2.makeSuperset sup sub).2) ∧
          (if (w2.makeSuperset sup sub).1 = true then (w2.makeSuperset sup sub).2.push sup else (w2.makeSuperset sup sub).2).set.root = w.set.root := by
        split
        · exact ⟨h3.push _, (hroot w2).trans hr2⟩
        · exact ⟨h3, (hroot w2).trans hr2⟩
      generalize (if (w2.makeSuperset sup sub).1 = true then (w2.makeSuperset sup sub).2.push sup else (w2.makeSuperset sup sub).2) = w3 at *
      split
      · exact h4.1.detect hd hs (by rw [h4.2]; exact r1) (by rw [h4.2]; exact r2) hne
      · exact h4.1
    by_cases ho : env.opts.ocd = true
    · rw [if_pos ho]
      have h2 : MW P L env.opts.hcd ((w.insEdge sup sub).detect env sub sup).2 := h1.detect hd hs r1 r2 hne
      have hroot2 : ((w.insEdge sup sub).detect env sub sup).1 = false → ((w.insEdge sup sub).detect env sub sup).2.set.root = w.set.root := by
        unfold WS.detect
        simp only []
        cases (env.det (w.insEdge sup sub).det (w.insEdge sup sub).set (w.insEdge sup sub).edges sub sup).2 with
        | nil => intro _; rfl
        | cons p l => intro hh; cases hh
      split
      · exact h2
      · rename_i hf
        exact fin _ h2 (hroot2 (by simpa using hf))
    · rw [if_neg ho]
      simp only [Bool.false_eq_true, if_false]
      exact fin _ h1 rfl

theorem MW.addEdge (hd : DetOk env) {w : WS σ} (h : MW P L env.opts.hcd w) {sup sub : Nat} (hs : L.Sub sup sub) : MW P L env.opts.hcd (w.addEdge env sup sub) := by
  have hs' : L.Sub (w.set.root sup) (w.set.root sub) := sub_trans (h.root sup).2 (sub_trans hs (h.root sub).1)
  unfold WS.addEdge
  simp only []
  split
  · exact h
  · rename_i hne
    split
    · exact h
    · split
      · rename_i hc
        simp only [Bool.and_eq_true] at hc
        exact h.markPE (pe_sub hs' (h.pe _ hc.2))
      · exact h.linkEdge hd hs' (h.idem _) (h.idem _) (Ne.symm hne)

theorem MW.queueEdge {w : WS σ} (h : MW P L hcd w) {sup sub : Nat} (hs : L.Sub sup sub) : MW P L hcd (w.queueEdge sup sub) := by
  have hs' : L.Sub (w.set.root sup) (w.set.root sub) := sub_trans (h.root sup).2 (sub_trans hs (h.root sub).1)
  unfold WS.queueEdge
  simp only []
  split
  · exact h
  · split
    · exact h
    · refine ⟨h.idem, h.n, h.kind, h.pts, h.pe, h.pte, h.esc, h.ss, h.ls, h.same, h.edges, h.stores, h.loads, h.calls, h.newP, ?_, h.scc, h.ref⟩
      intro p hp
      rcases List.mem_append.1 hp with hp | hp
      · exact h.queue p hp
      · rw [List.mem_singleton] at hp; subst hp; exact hs'

theorem MW.noQueue {w : WS σ} (h : MW P L hcd w) : MW P L hcd { w with queue := [] } :=
  ⟨h.idem, h.n, h.kind, h.pts, h.pe, h.pte, h.esc, h.ss, h.ls, h.same, h.edges, h.stores, h.loads, h.calls, h.newP, by simp, h.scc, h.ref⟩

theorem MW.flush (hd : DetOk env) (hen : EnOk env) {w : WS σ} (h : MW P L env.opts.hcd w) : MW P L env.opts.hcd (w.flush env) := by
  unfold WS.flush
  simp only []
  exact (foldl_mw (Q := MW P L env.opts.hcd) _ h (fun p hp w' hw' => hw'.addEdge hd (h.queue p ((hen w w.queue p).1 hp)))).noQueue

theorem MW.callExternal {w : WS σ} (h : MW P L hcd w) {c : Call} (hc : L.CallsExternal c) : MW P L hcd (w.callExternal c) := by
  unfold WS.callExternal
  refine foldl_mw _ (foldl_mw _ h ?_) ?_
  · intro a ha w' hw'; exact hw'.markPE (hc.1 a (mem_registers.1 ha))
  · intro a ha w' hw'; exact hw'.markPTE (hc.2 a (mem_registers.1 ha))

theorem MW.callLambda {w : WS σ} (h : MW P L hcd w) {c : Call} {f : Nat} (hc : L.CallsFn c (env.fn f)) : MW P L hcd (w.callLambda env c f) := by
  unfold WS.callLambda
  refine foldl_mw _ (foldl_mw _ h ?_) ?_
  · rintro ⟨a, b⟩ ha w' hw'
    obtain ⟨k, h1, h2⟩ := mem_paired.1 ha
    exact hw'.queueEdge (hc.1 k a b h1 h2)
  · rintro ⟨a, b⟩ ha w' hw'
    obtain ⟨k, h1, h2⟩ := mem_paired.1 ha
    exact hw'.queueEdge (hc.2 k a b h1 h2)

theorem MW.callTarget (hfn : env.fn = P.fn) {w : WS σ} (h : MW P L hcd w) {c : Call} {p x : Nat} (hc : L.Holds P.base.kind P.fn (.call p c)) (hx : L.pt p x) :
    MW P L hcd (w.callTarget env c x) := by
  have := hc.1 x hx
  unfold WS.callTarget
  split
  · rename_i hk; rw [h.kind] at hk; exact h.callExternal (this.1 hk)
  · rename_i hk; rw [h.kind] at hk; exact h.callLambda (by rw [hfn]; exact this.2 hk)
  · exact h

theorem MW.escapedFn {w : WS σ} (h : MW P L hcd w) {f : Fn} (h1 : ∀ a, some a ∈ f.args → L.ext a) (h2 : ∀ r, some r ∈ f.results → L.PointeesEscape r) :
    MW P L hcd (w.escapedFn f) := by
  unfold WS.escapedFn
  refine foldl_mw _ (foldl_mw _ h ?_) ?_
  · intro a ha w' hw'; split
    · exact hw'
    · exact hw'.markPTE (h1 a (mem_registers.1 ha))
  · intro a ha w' hw'; split
    · exact hw'
    · exact hw'.markPE (h2 a (mem_registers.1 ha))

theorem MW.markEscaped' (hL : Sat P L) {w : WS σ} (h : MW P L hcd w) {x : Nat} (hx : L.esc x) : MW P L hcd { w with set := (w.set.markEscaped x).2 } := by
  unfold RSet.markEscaped
  split
  · exact h
  · simp only []
    have h0 : MW P L hcd { w with set := { w.set with obj := upd w.set.obj x { w.set.obj x with escaped := true } } } := by
      have hobj : ∀ (β : Type) (f : Obj → β), (∀ o : Obj, f { o with escaped := true } = f o) → ∀ i, f (upd w.set.obj x { w.set.obj x with escaped := true } i) = f (w.set.obj i) := by
        intro β f hf i
        by_cases hi : i = x
        · subst hi; rw [upd_same]; exact hf _
        · rw [upd_ne _ _ hi]
      refine h.set (np := w.newP) (wl := w.wl) ⟨rfl, rfl, fun i => hobj _ (·.kind) (fun _ => rfl) i, fun i => hobj _ (·.ss) (fun _ => rfl) _, fun i => hobj _ (·.ls) (fun _ => rfl) _⟩ h.pts ?_ ?_ ?_ h.newP
      · intro i hi; exact h.pe i ((hobj _ (·.pe) (fun _ => rfl) _).symm.trans hi)
      · intro i hi; exact h.pte i ((hobj _ (·.pte) (fun _ => rfl) _).symm.trans hi)
      · intro i hi
        by_cases hix : i = x
        · subst hix; exact hx
        · have hi : (upd w.set.obj x { w.set.obj x with escaped := true } i).escaped = true := hi
          rw [upd_ne _ _ hix] at hi; exact h.esc i hi
    exact (h0.setPE' (hL.escaped x hx).2).setPTE' (hL.escaped x hx).1

theorem MW.escapePointee (hL : Sat P L) (hfn : env.fn = P.fn) {w : WS σ} (h : MW P L hcd w) {x : Nat} (hx : L.esc x) (hxn : x < P.base.n) : MW P L hcd (w.escapePointee env x) := by
  unfold WS.escapePointee
  simp only []
  split
  · exact h
  · have h1 := h.markEscaped' hL hx
    have h2 : MW P L hcd (if (({ w with set := (w.set.markEscaped x).2 } : WS σ).set.obj x).kind = Kind.function then WS.escapedFn (env.fn x) { w with set := (w.set.markEscaped x).2 } else { w with set := (w.set.markEscaped x).2 }) := by
      split
      · rename_i hk
        have hk' : P.base.kind x = .function := by rw [← h1.kind]; exact hk
        have := hL.fns x hx hxn hk'
        rw [hfn]
        exact h1.escapedFn this.1 this.2
      · exact h1
    split
    · exact h2
    · exact h2.push _

theorem MW.setRef {w : WS σ} (h : MW P L hcd w) {node a : Nat} (ha : hcd = true → ∀ x, L.pt node x → L.Sub x a ∧ L.Sub a x) :
    MW P L hcd { w with ref := upd w.ref node (some a) } := by
  refine ⟨h.idem, h.n, h.kind, h.pts, h.pe, h.pte, h.esc, h.ss, h.ls, h.same, h.edges, h.stores, h.loads, h.calls, h.newP, h.queue, h.scc, ?_⟩
  intro hh i c hc
  by_cases hi : i = node
  · subst hi; change upd w.ref i (some a) i = some c at hc; rw [upd_same] at hc; cases hc; exact ha hh
  · change upd w.ref node (some a) i = some c at hc
    rw [upd_ne _ _ hi] at hc; exact h.ref hh i c hc

theorem MW.hybridStep {node : Nat} {acc : (Nat × Bool) × WS σ} {x : Nat} (hx : L.pt node x)
    (h : MW P L true acc.2 ∧ ∀ y, L.pt node y → L.Sub y acc.1.1 ∧ L.Sub acc.1.1 y) :
    MW P L true (hybridStep node acc x).2 ∧ ∀ y, L.pt node y → L.Sub y (hybridStep node acc x).1.1 ∧ L.Sub (hybridStep node acc x).1.1 y := by
  obtain ⟨h1, h2⟩ := h
  unfold WS.hybridStep
  split
  · exact ⟨h1, h2⟩
  · rename_i hne
    simp only []
    have hax := h2 x hx
    have s1 : L.Sub acc.1.1 (acc.2.set.root x) := sub_trans hax.2 (h1.root x).1
    have s2 : L.Sub (acc.2.set.root x) acc.1.1 := sub_trans (h1.root x).2 hax.1
    have h3 := h1.unify s1 s2
    have hroot : (acc.2.unify true acc.1.1 (acc.2.set.root x)).1 = acc.2.set.root acc.1.1 ∨ (acc.2.unify true acc.1.1 (acc.2.set.root x)).1 = acc.2.set.root x := by
      by_cases hr : acc.2.set.root acc.1.1 = acc.2.set.root (acc.2.set.root x)
      · rw [unify_same hr]; exact .inl rfl
      · obtain ⟨non, u, hp, _⟩ := unify_ueff (hcd := true) h1.idem hr
        rcases hp with ⟨e, _⟩ | ⟨e, _⟩
        · exact .inl e
        · right; rw [e]; exact h1.idem x
    have key : ∀ y, L.pt node y → L.Sub y (acc.2.unify true acc.1.1 (acc.2.set.root x)).1 ∧ L.Sub (acc.2.unify true acc.1.1 (acc.2.set.root x)).1 y := by
      intro y hy
      have := h2 y hy
      rcases hroot with e | e
      · rw [e]; exact ⟨sub_trans this.1 (h1.root _).1, sub_trans (h1.root _).2 this.2⟩
      · rw [e]; exact ⟨sub_trans this.1 s1, sub_trans s2 this.2⟩
    exact ⟨h3.setRef (fun _ => key), key⟩

theorem MW.hybrid (hen : EnOk env) (hh : env.opts.hcd = true) {w : WS σ} (h : MW P L env.opts.hcd w) {node : Nat} {np : List Nat} (hnp : ∀ x ∈ np, L.pt node x) :
    MW P L env.opts.hcd (w.hybrid env node np).2 := by
  rw [hh] at h ⊢
  unfold WS.hybrid
  cases ha : w.ref node with
  | none => exact h
  | some a =>
    simp only []
    have href := h.ref rfl node a ha
    have h2 : ∀ y, L.pt node y → L.Sub y (w.set.root a) ∧ L.Sub (w.set.root a) y := fun y hy =>
      ⟨sub_trans (href y hy).1 (h.root a).1, sub_trans (h.root a).2 (href y hy).2⟩
    have h1 : MW P L true { w with ref := upd w.ref node (some (w.set.root a)) } := h.setRef (fun _ => h2)
    have := foldl_mw (Q := fun acc : (Nat × Bool) × WS σ => MW P L true acc.2 ∧ ∀ y, L.pt node y → L.Sub y acc.1.1 ∧ L.Sub acc.1.1 y)
      (f := WS.hybridStep node) (env.en { w with ref := upd w.ref node (some (w.set.root a)) } np)
      (b := ((w.set.root a, false), { w with ref := upd w.ref node (some (w.set.root a)) })) ⟨h1, h2⟩
      (fun x hx acc hacc => MW.hybridStep (hnp x ((hen _ np x).1 hx)) hacc)
    split
    · exact this.1.push _
    · exact this.1

theorem MW.pipMark {w : WS σ} (h : MW P L hcd w) (node : Nat) : MW P L hcd (w.pipMark env node) := by
  unfold WS.pipMark
  split
  · rename_i hc
    simp only [Bool.and_eq_true, Bool.not_eq_true', List.any_eq_true] at hc
    obtain ⟨⟨_, hpe⟩, s, hs, hsp⟩ := hc
    have e : w.set.setPE node = (w.set.markPE node).2 := by unfold RSet.markPE; rw [hpe]; rfl
    rw [e]
    exact h.setPE' (pe_sub (h.edges node s hs) (h.pe s hsp))
  · exact h

theorem MW.removeAll {w : WS σ} (h : MW P L hcd w) (node : Nat) : MW P L hcd (w.removeAll node) := by
  have hs : MW P L hcd { w with set := w.set.removeAll node, newP := upd w.newP node [], wl := w.wl } := by
    refine h.set (s := w.set.removeAll node) ⟨rfl, rfl, fun _ => rfl, fun _ => rfl, fun _ => rfl⟩ ?_ h.pe h.pte h.esc ?_
    · intro i x hx
      change x ∈ upd w.set.pts (w.set.root node) [] (w.set.root i) at hx
      by_cases hi : w.set.root i = w.set.root node
      · rw [hi, upd_same] at hx; cases hx
      · rw [upd_ne _ _ hi] at hx; exact h.pts i x hx
    · intro m x hx
      by_cases hm : m = node
      · subst hm; rw [upd_same] at hx; cases hx
      · rw [upd_ne _ _ hm] at hx; exact h.newP m x hx
  exact hs.wl w.wl w.det _ w.xSeen w.peSeen

theorem MW.eraseEdge {w : WS σ} (h : MW P L hcd w) (node s : Nat) : MW P L hcd (w.eraseEdge node s) := by
  refine ⟨h.idem, h.n, h.kind, h.pts, h.pe, h.pte, h.esc, h.ss, h.ls, h.same, ?_, h.stores, h.loads, h.calls, h.newP, h.queue, h.scc, h.ref⟩
  intro m t ht
  change t ∈ upd w.edges node ((w.edges node).filter (· ≠ s)) m at ht
  by_cases hm : m = node
  · subst hm; rw [upd_same] at ht; exact h.edges m t (List.mem_filter.1 ht).1
  · rw [upd_ne _ _ hm] at ht; exact h.edges m t ht

theorem MW.propagate (hen : EnOk env) {w : WS σ} (h : MW P L hcd w) {node sp : Nat} {np : List Nat} {newX : Bool} (hs : L.Sub sp node)
    (hnp : ∀ x ∈ np, L.pt node x ∧ x < P.base.n) (hX : newX = true → L.ext node) :
    MW P L hcd (w.propagate env sp np newX).2 ∧ (w.propagate env sp np newX).2.set.root = w.set.root := by
  unfold WS.propagate
  simp only []
  have h1 := foldl_mw (Q := fun acc : Bool × WS σ => MW P L hcd acc.2 ∧ acc.2.set.root = w.set.root) (env.en w np) (b := (false, w))
    (f := fun (acc : Bool × WS σ) x => let q := acc.2.addPointee env.opts.dp sp x; (acc.1 || q.1, q.2)) ⟨h, rfl⟩ (by
      rintro x hx ⟨b, v⟩ ⟨hv, hr⟩
      have := hnp x ((hen w np x).1 hx)
      exact ⟨hv.addPointee (dp := env.opts.dp) (hs.1 x this.1) this.2, hr⟩)
  generalize List.foldl _ (false, w) (env.en w np) = p at h1
  obtain ⟨b, v⟩ := p
  cases newX with
  | false =>
    simp only [Bool.false_eq_true, if_false]
    cases b with
    | false => exact h1
    | true => exact ⟨h1.1.push _, h1.2⟩
  | true =>
    simp only [if_true]
    have h2 : MW P L hcd { v with set := (v.set.markPTE sp).2 } ∧ (v.set.markPTE sp).2.root = w.set.root :=
      ⟨h1.1.setPTE' (hs.2 (hX rfl)), (markPTE_root _ _).trans h1.2⟩
    split
    · exact ⟨h2.1.push _, h2.2⟩
    · exact h2

theorem MW.edgeLoop (hd : DetOk env) (hen : EnOk env) {node : Nat} {np : List Nat} {newX pes : Bool} (hnp : ∀ x ∈ np, L.pt node x ∧ x < P.base.n) (hX : newX = true → L.ext node) :
    ∀ (l : List Nat) {w : WS σ}, MW P L env.opts.hcd w → w.set.root node = node → (∀ s ∈ l, L.Sub s node) →
    MW P L env.opts.hcd (edgeLoop env node np newX pes l w).2 := by
  intro l
  induction l with
  | nil => intro w h _ _; exact h
  | cons s l ih =>
    intro w h hr hl
    unfold WS.edgeLoop
    simp only []
    have hl' := fun t (ht : t ∈ l) => hl t (List.mem_cons_of_mem s ht)
    split
    · exact ih (h.eraseEdge node s) hr hl'
    · rename_i hne
      split
      · exact ih (h.eraseEdge node s) hr hl'
      · have hs : L.Sub (w.set.root s) node := sub_trans (h.root s).2 (hl s (by simp))
        have hp := h.propagate (env := env) hen (np := np) (newX := newX) hs hnp hX
        have hidem := h.idem s
        generalize w.propagate env (w.set.root s) np newX = p at hp
        obtain ⟨hp1, hp2⟩ := hp
        by_cases hc : (env.opts.lcd && !np.isEmpty && !p.1) = true
        · rw [if_pos hc]
          have hd2 := hp1.detect hd hs (by rw [hp2]; exact hr) (by rw [hp2]; exact hidem) (Ne.symm hne)
          split
          · exact hd2
          · rename_i hf
            refine ih hd2 ?_ hl'
            have : (p.2.detect env node (w.set.root s)).2.set.root = p.2.set.root := by
              revert hf
              unfold WS.detect
              simp only []
              cases (env.det p.2.det p.2.set p.2.edges node (w.set.root s)).2 with
              | nil => intro _; rfl
              | cons q l => intro hf; exact absurd rfl hf
            rw [this, hp2]; exact hr
        · rw [if_neg hc]
          simp only [Bool.false_eq_true, if_false]
          exact ih hp1 (by rw [hp2]; exact hr) hl'

theorem markPE_rt (w : WS σ) (a : Nat) : (w.markPE a).set.root = w.set.root := by
  unfold WS.markPE; dsimp only; split
  · exact markPE_root _ _
  · rfl
theorem markPTE_rt (w : WS σ) (a : Nat) : (w.markPTE a).set.root = w.set.root := by
  unfold WS.markPTE; dsimp only; split
  · exact markPTE_root _ _
  · rfl
theorem foldl_rt {α : Type} {f : WS σ → α → WS σ} (hf : ∀ w a, (f w a).set.root = w.set.root) (l : List α) (w : WS σ) : (l.foldl f w).set.root = w.set.root :=
  foldl_mw (Q := fun v => v.set.root = w.set.root) l rfl (fun a _ v hv => (hf v a).trans hv)
theorem escapedFn_rt (f : Fn) (w : WS σ) : (w.escapedFn f).set.root = w.set.root := by
  unfold WS.escapedFn
  rw [foldl_rt, foldl_rt]
  · intro w a; split
    · rfl
    · exact markPTE_rt w a
  · intro w a; split
    · rfl
    · exact markPE_rt w a
theorem escapePointee_root (w : WS σ) (x : Nat) : (w.escapePointee env x).set.root = w.set.root := by
  unfold WS.escapePointee
  simp only []
  split
  · rfl
  · have : (if (({ w with set := (w.set.markEscaped x).2 } : WS σ).set.obj x).kind = Kind.function then WS.escapedFn (env.fn x) { w with set := (w.set.markEscaped x).2 } else { w with set := (w.set.markEscaped x).2 }).set.root = w.set.root := by
      split
      · rw [escapedFn_rt]; exact markEscaped_root _ _
      · exact markEscaped_root _ _
    split
    · exact this
    · exact this

theorem MW.settle {w : WS σ} (h : MW P L hcd w) (node : Nat) (a b : Bool) : MW P L hcd (w.settle node a b) := by
  unfold WS.settle
  have h1 : MW P L hcd { w with newP := upd w.newP node [] } := by
    refine ⟨h.idem, h.n, h.kind, h.pts, h.pe, h.pte, h.esc, h.ss, h.ls, h.same, h.edges, h.stores, h.loads, h.calls, ?_, h.queue, h.scc, h.ref⟩
    intro m x hx
    by_cases hm : m = node
    · subst hm; change x ∈ upd w.newP m [] m at hx; rw [upd_same] at hx; cases hx
    · change x ∈ upd w.newP node [] m at hx; rw [upd_ne _ _ hm] at hx; exact h.newP m x hx
  exact h1.wl w.wl w.det _ _ _

theorem MW.handleRest (hL : Sat P L) (hd : DetOk env) (hen : EnOk env) (hfn : env.fn = P.fn) {w : WS σ} (h : MW P L env.opts.hcd w) {node : Nat} {np : List Nat} {newX : Bool}
    (hr : w.set.root node = node) (hnp : ∀ x ∈ np, L.pt node x ∧ x < P.base.n) (hX : newX = true → L.ext node) :
    MW P L env.opts.hcd (w.handleRest env node np newX) := by
  unfold WS.handleRest
  simp only []
  have h1 := h.pipMark (env := env) node
  have r1 : (w.pipMark env node).set.root node = node := by
    unfold WS.pipMark; split <;> exact hr
  generalize w.pipMark env node = w1 at h1 r1
  generalize (if env.opts.dp = true then w1.set.pe node && !w1.peSeen node else w1.set.pe node) = newPE
  have h2 : ∃ w2, (if w1.set.pe node = true then List.foldl (fun w x => w.escapePointee env x) w1 (env.en w1 (if newPE = true then w1.set.pointees node else np)) else w1) = w2 ∧
      MW P L env.opts.hcd w2 ∧ w2.set.root node = node := by
    refine ⟨_, rfl, ?_⟩
    split
    · rename_i hpe
      have := foldl_mw (Q := fun v : WS σ => MW P L env.opts.hcd v ∧ v.set.root = w1.set.root) (f := fun w x => w.escapePointee env x)
        (env.en w1 (if newPE = true then w1.set.pointees node else np)) ⟨h1, rfl⟩ (by
          rintro x hx v ⟨hv, hvr⟩
          have hx := (hen w1 _ x).1 hx
          have hx' : L.pt node x ∧ x < P.base.n := by
            split at hx
            · exact h1.pts node x hx
            · exact hnp x hx
          refine ⟨hv.escapePointee hL hfn (h1.pe node hpe x hx'.1) hx'.2, ?_⟩
          rw [escapePointee_root]; exact hvr)
      exact ⟨this.1, by rw [this.2]; exact r1⟩
    · exact ⟨h1, r1⟩
  obtain ⟨w2, e2, h2, r2⟩ := h2
  rw [e2]
  generalize hrem : (env.opts.pip && w2.set.pte node && w2.set.pe node) = rem
  have h3 : MW P L env.opts.hcd (if rem = true then w2.removeAll node else w2) ∧ (if rem = true then w2.removeAll node else w2).set.root node = node := by
    split
    · exact ⟨h2.removeAll node, r2⟩
    · exact ⟨h2, r2⟩
  generalize (if rem = true then w2.removeAll node else w2) = w3 at h3
  obtain ⟨h3, r3⟩ := h3
  have hnp3 : ∀ x ∈ (if rem = true then [] else np), L.pt node x ∧ x < P.base.n := by
    intro x hx
    split at hx
    · cases hx
    · exact hnp x hx
  generalize (if rem = true then [] else np) = np3 at hnp3
  have h4 := h3.edgeLoop hd hen (newX := newX) (pes := w1.set.pe node) hnp3 hX (env.en w3 (w3.edges node)) r3 (fun s hs => h3.edges node s ((hen _ _ s).1 hs))
  generalize WS.edgeLoop env node np3 newX (w1.set.pe node) (env.en w3 (w3.edges node)) w3 = e at h4
  split
  · exact h4
  · have h5 : MW P L env.opts.hcd (e.2.storeLoop env node np3 newX) := by
      unfold WS.storeLoop
      refine foldl_mw (Q := MW P L env.opts.hcd) _ h4 ?_
      intro v hv w' hw'
      have hh := h4.stores node v ((hen _ _ v).1 hv)
      simp only []
      have hw2 : MW P L env.opts.hcd (List.foldl (fun w x => w.queueEdge x v) w' (env.en w' np3)) :=
        foldl_mw (Q := MW P L env.opts.hcd) _ hw' (fun x hx w'' hw'' => hw''.queueEdge (hh.1 x (hnp3 x ((hen _ _ x).1 hx)).1))
      split
      · rename_i hx; exact hw2.markPE (hh.2 (hX hx))
      · exact hw2
    generalize e.2.storeLoop env node np3 newX = w5 at h5
    have h6 : MW P L env.opts.hcd (w5.ssLoop env node np3) := by
      unfold WS.ssLoop
      split
      · rename_i hc
        rw [Bool.and_eq_true] at hc
        exact foldl_mw (Q := MW P L env.opts.hcd) _ h5 (fun x hx w' hw' => hw'.markPTE (h5.ss node hc.1 x (hnp3 x ((hen _ _ x).1 hx)).1))
      · exact h5
    generalize w5.ssLoop env node np3 = w6 at h6
    have h7 : MW P L env.opts.hcd (w6.loadLoop env node np3 newX) := by
      unfold WS.loadLoop
      refine foldl_mw (Q := MW P L env.opts.hcd) _ h6 ?_
      intro v hv w' hw'
      have hh := h6.loads node v ((hen _ _ v).1 hv)
      simp only []
      have hw2 : MW P L env.opts.hcd (List.foldl (fun w x => w.queueEdge v x) w' (env.en w' np3)) :=
        foldl_mw (Q := MW P L env.opts.hcd) _ hw' (fun x hx w'' hw'' => hw''.queueEdge (hh.1 x (hnp3 x ((hen _ _ x).1 hx)).1))
      split
      · rename_i hx; exact hw2.markPTE (hh.2 (hX hx))
      · exact hw2
    generalize w6.loadLoop env node np3 newX = w7 at h7
    have h8 : MW P L env.opts.hcd (w7.lsLoop env node np3) := by
      unfold WS.lsLoop
      split
      · rename_i hc
        rw [Bool.and_eq_true] at hc
        exact foldl_mw (Q := MW P L env.opts.hcd) _ h7 (fun x hx w' hw' => hw'.markPE (h7.ls node hc.1 x (hnp3 x ((hen _ _ x).1 hx)).1))
      · exact h7
    generalize w7.lsLoop env node np3 = w8 at h8
    have h9 : MW P L env.opts.hcd (w8.callLoop env node np3 newX) := by
      unfold WS.callLoop
      refine foldl_mw (Q := MW P L env.opts.hcd) _ h8 ?_
      intro c hv w' hw'
      have hh := h8.calls node c ((hen _ _ c).1 hv)
      simp only []
      have hw2 : MW P L env.opts.hcd (List.foldl (fun w x => w.callTarget env c x) w' (env.en w' np3)) :=
        foldl_mw (Q := MW P L env.opts.hcd) _ hw' (fun x hx w'' hw'' => hw''.callTarget hfn hh (hnp3 x ((hen _ _ x).1 hx)).1)
      split
      · rename_i hx; exact hw2.callExternal (hh.2 (hX hx))
      · exact hw2
    exact (h9.settle node newX newPE).flush hd hen

end WS
end Jlm.Llvm.Aa
