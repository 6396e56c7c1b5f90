import Verif.Aa.WorklistPrec
/-
The worklist solver computes no more than the least solution: the invariant `MW` holds initially
and is kept by every transition.
-/
set_option linter.unusedSimpArgs false
set_option linter.unusedVariables false
set_option linter.unnecessarySeqFocus false
namespace Jlm.Llvm.Aa

/-- flags are only set on objects of the set -/
structure Abs.Dom (A : Abs) : Prop where
  conn : ∀ i j, A.conn i j → i = j ∨ (i < A.n ∧ j < A.n)
  pe : ∀ i, A.pe i → i < A.n
  ss : ∀ i, A.ss i → i < A.n
  ls : ∀ i, A.ls i → i < A.n

theorem Abs.Dom.step {A : Abs} (h : A.Dom) (op : POp) (hok : A.Ok op) : (A.step op).Dom := by
  obtain ⟨h1, h2, h3, h4⟩ := h
  have conn_lt : ∀ {i a}, A.conn i a → a < A.n → i < A.n := by
    intro i a hc ha
    rcases h1 i a hc with rfl | h
    · exact ha
    · exact h.1
  have conn_lt' : ∀ {i a}, A.conn i a → i < A.n → a < A.n := by
    intro i a hc ha
    rcases h1 i a hc with rfl | h
    · exact ha
    · exact h.2
  have merge_lt : ∀ {f : Nat → Prop} {a b i : Nat}, (∀ i, f i → i < A.n) → a < A.n → b < A.n → A.merge a b f i → i < A.n := by
    rintro f a b i hf ha hb (h | ⟨h | h, _⟩)
    · exact hf i h
    · exact conn_lt h ha
    · exact conn_lt h hb
  cases op with
  | add k c =>
    refine ⟨?_, ?_, ?_, ?_⟩
    · intro i j hij
      rcases h1 i j hij with h | h
      · exact .inl h
      · right; show i < A.n + 1 ∧ j < A.n + 1; omega
    · intro i hi
      show i < A.n + 1
      change (if i = A.n then c = false else A.pe i) at hi
      split at hi
      · omega
      · have := h2 i hi; omega
    · intro i hi; have := h3 i hi.2; show i < A.n + 1; omega
    · intro i hi; have := h4 i hi.2; show i < A.n + 1; omega
  | lookup i => exact ⟨h1, h2, h3, h4⟩
  | unify a b =>
    refine ⟨?_, fun i hi => merge_lt h2 hok.1 hok.2 hi, fun i hi => merge_lt h3 hok.1 hok.2 hi, fun i hi => merge_lt h4 hok.1 hok.2 hi⟩
    rintro i j (h | ⟨h, g⟩ | ⟨h, g⟩)
    · exact h1 i j h
    · exact .inr ⟨conn_lt h hok.1, conn_lt' g hok.2⟩
    · exact .inr ⟨conn_lt h hok.2, conn_lt' g hok.1⟩
  | addPointee p x => exact ⟨h1, h2, h3, h4⟩
  | makeSuperset a b => exact ⟨h1, h2, h3, h4⟩
  | removeAll i => exact ⟨h1, h2, h3, h4⟩
  | markPE a => exact ⟨h1, fun i hi => hi.elim (h2 i) (fun h => conn_lt h hok), h3, h4⟩
  | markPTE a => exact ⟨h1, h2, h3, h4⟩
  | markSS a => exact ⟨h1, h2, fun i hi => hi.elim (h3 i) (fun h => conn_lt h hok), h4⟩
  | markLS a => exact ⟨h1, h2, h3, fun i hi => hi.elim (h4 i) (fun h => conn_lt h hok)⟩
  | markEscaped a => exact ⟨h1, fun i hi => hi.elim (h2 i) (fun h => conn_lt h.1 hok.1), h3, h4⟩

theorem Abs.Dom.run : ∀ (ops : List POp) {A : Abs}, A.Dom → A.OkAll ops → (A.run ops).Dom := by
  intro ops
  induction ops with
  | nil => intro A h _; exact h
  | cons op ops ih => intro A h hok; exact ih (h.step op hok.1) hok.2

theorem Abs.Dom.empty : Abs.empty.Dom := by
  refine ⟨fun i j h => ?_, ?_, ?_, ?_⟩ <;> simp_all [Abs.empty]

namespace WS
variable {σ : Type} {P : Problem} {L : Sol} {env : Env σ}

theorem MW.handle (hL : Sat P L) (hd : DetOk env) (hen : EnOk env) (hfn : env.fn = P.fn) {w : WS σ} (h : MW P L env.opts.hcd w) {node : Nat}
    (hi : w.Inv P (· = node) none none2) (hq : w.queue = []) : MW P L env.opts.hcd (w.handle env node) := by
  unfold WS.handle
  split
  · exact h
  · rename_i hr
    rw [not_not] at hr
    simp only []
    have hnp : ∀ x ∈ w.newPointees env node, L.pt node x ∧ x < P.base.n := by
      intro x hx
      unfold WS.newPointees at hx
      split at hx
      · exact h.newP node x hx
      · exact h.pts node x hx
    generalize hX : (if env.opts.dp = true then w.set.pte node && !w.xSeen node else w.set.pte node) = newX
    have hX1 : newX = true → L.ext node := by
      intro hx
      refine h.pte node ?_
      revert hx
      rw [← hX]; split
      · rw [Bool.and_eq_true]; exact And.left
      · exact id
    generalize w.newPointees env node = np at *
    by_cases hh : env.opts.hcd = true
    · have h1 := h.hybrid (env := env) hen hh (node := node) (np := np) (fun x hx => (hnp x hx).1)
      rw [if_pos hh]
      split
      · exact h1
      · rename_i hf
        refine h1.handleRest hL hd hen hfn ?_ hnp hX1
        rcases hybrid_inv hen hi hr hq (fun x hx => by rw [hi.n]; exact (hnp x hx).2) with ⟨e1, _⟩ | ⟨_, _, _, _, e⟩
        · exact absurd e1 hf
        · exact e.rt
    · rw [if_neg hh]
      simp only [Bool.false_eq_true, if_false]
      exact h.handleRest hL hd hen hfn hr hnp hX1

theorem MW.trans (hL : Sat P L) (hd : DetOk env) (hen : EnOk env) (hfn : env.fn = P.fn) {w w' : WS σ} (h : MW P L env.opts.hcd w)
    (hi : w.Inv P none2 none none2) (hq : w.queue = []) {c : Nat} (t : Trans env c w w') : MW P L env.opts.hcd w' := by
  cases t with
  | pop i hw =>
    refine (h.wl _ w.det w.tracked w.xSeen w.peSeen).handle hL hd hen hfn (hi.pop hw) hq
  | sweep scc hs =>
    refine ⟨h.idem, h.n, h.kind, h.pts, h.pe, h.pte, h.esc, h.ss, h.ls, h.same, h.edges, h.stores, h.loads, h.calls, h.newP, h.queue, ?_, h.ref⟩
    intro a b ha hb ra rb hab
    exact path_sub h h.edges (hs b a hab.symm hb ha rb ra)
  | sweepUnify a b ha hb ra rb hne hs =>
    exact (h.unify (h.scc a b ha hb ra rb hs) (h.scc b a hb ha rb ra hs.symm)).wl _ _ _ _ _

/-- the state while the subset graph is built -/
theorem MW.add {hcd : Bool} {w : WS σ} (h : MW P L hcd w) {c : Constraint} (hc : L.Holds P.base.kind P.fn c) : MW P L hcd (w.addConstraint c) := by
  cases c with
  | superset a b =>
    unfold WS.addConstraint
    simp only []
    split
    · exact h
    · exact h.insEdge (sub_trans (h.root a).2 (sub_trans hc (h.root b).1))
  | store p v =>
    refine ⟨h.idem, h.n, h.kind, h.pts, h.pe, h.pte, h.esc, h.ss, h.ls, h.same, h.edges, ?_, h.loads, h.calls, h.newP, h.queue, h.scc, h.ref⟩
    intro m t ht
    change t ∈ upd w.stores (w.set.root p) (ins (w.stores (w.set.root p)) (w.set.root v)) m at ht
    by_cases hm : m = w.set.root p
    · subst hm
      rw [upd_same, mem_ins] at ht
      rcases ht with ht | rfl
      · exact h.stores _ t ht
      · refine holds_store (h.root p).1 ?_
        exact ⟨fun x hx => sub_trans (hc.1 x hx) (h.root v).1, fun hx => pe_sub (h.root v).1 (hc.2 hx)⟩
    · rw [upd_ne _ _ hm] at ht; exact h.stores m t ht
  | load v p =>
    refine ⟨h.idem, h.n, h.kind, h.pts, h.pe, h.pte, h.esc, h.ss, h.ls, h.same, h.edges, h.stores, ?_, h.calls, h.newP, h.queue, h.scc, h.ref⟩
    intro m t ht
    change t ∈ upd w.loads (w.set.root p) (ins (w.loads (w.set.root p)) (w.set.root v)) m at ht
    by_cases hm : m = w.set.root p
    · subst hm
      rw [upd_same, mem_ins] at ht
      rcases ht with ht | rfl
      · exact h.loads _ t ht
      · refine holds_load (h.root p).1 ?_
        exact ⟨fun x hx => sub_trans (h.root v).2 (hc.1 x hx), fun hx => (h.root v).2.2 (hc.2 hx)⟩
    · rw [upd_ne _ _ hm] at ht; exact h.loads m t ht
  | call p c =>
    refine ⟨h.idem, h.n, h.kind, h.pts, h.pe, h.pte, h.esc, h.ss, h.ls, h.same, h.edges, h.stores, h.loads, ?_, h.newP, h.queue, h.scc, h.ref⟩
    intro m t ht
    change t ∈ upd w.calls (w.set.root p) (w.calls (w.set.root p) ++ [c]) m at ht
    by_cases hm : m = w.set.root p
    · subst hm
      rw [upd_same, List.mem_append, List.mem_singleton] at ht
      rcases ht with ht | rfl
      · exact h.calls _ t ht
      · exact holds_call (h.root p).1 hc
    · rw [upd_ne _ _ hm] at ht; exact h.calls m t ht

theorem MW.init (hL : Sat P L) (hfn : env.fn = P.fn) {s : RSet} (hs : SetOk s) (hbase : s.abs = P.base) (hdom : P.base.Dom) {fns : List Nat} (hfns : FnsOk P fns)
    {ref : Nat → Option Nat} (href : env.opts.hcd = true → ∀ i a, ref i = some a → ∀ x, L.pt i x → L.Sub x a ∧ L.Sub a x) {d : σ} {u : List (Nat × Nat)}
    (hu : ∀ p ∈ u, Path s (graph P.cs ref d s).edges p.1 p.2 ∧ Path s (graph P.cs ref d s).edges p.2 p.1) :
    MW P L env.opts.hcd (init env P.cs fns ref d u s) := by
  have hn : s.n = P.base.n := by rw [← hbase]; rfl
  have hpe : ∀ i, s.pe i = true → P.base.pe i := by intro i hi; rw [← hbase]; exact hi
  have hss : ∀ i, s.ss i = true → P.base.ss i := by intro i hi; rw [← hbase]; exact hi
  have hls : ∀ i, s.ls i = true → P.base.ls i := by intro i hi; rw [← hbase]; exact hi
  have h0 : MW (σ := σ) P L env.opts.hcd
      { set := s, edges := fun _ => [], stores := fun _ => [], loads := fun _ => [], calls := fun _ => [],
        newP := fun _ => [], tracked := fun _ => false, xSeen := fun _ => false, peSeen := fun _ => false,
        wl := fun _ => false, queue := [], ref := ref, det := d, scc := id } := by
    refine ⟨hs.wf.idem, hn, fun i => by rw [← hbase]; rfl, ?_, ?_, ?_, ?_, ?_, ?_, ?_, by simp, by simp, by simp, by simp, by simp, by simp, ?_, href⟩
    · intro i x hx
      exact ⟨hL.pts i x (by rw [← hbase]; exact hx), by rw [← hn]; exact (hs.2.ptsLt i x hx).1⟩
    · intro i hi; exact hL.pe i (hdom.pe i (hpe i hi)) (hpe i hi)
    · intro i hi; exact hL.ext i (by rw [← hbase]; exact hi)
    · intro i hi; exact hL.esc i (by rw [← hbase]; exact hi)
    · intro i hi x hx; exact hL.ss i x (hdom.ss i (hss i hi)) (hss i hi) hx
    · intro i hi x hx; exact hL.ls i x (hdom.ls i (hls i hi)) (hls i hi) hx
    · intro i j hij
      have := hL.unified j i (by rw [← hbase]; exact hij.symm)
      exact this
    · intro a b _ _ _ _ hab; cases hab; exact sub_refl a
  have h1 : MW P L env.opts.hcd (graph P.cs ref d s) ∧ (graph P.cs ref d s).set = s := by
    unfold graph
    refine foldl_mw (Q := fun w => MW P L env.opts.hcd w ∧ w.set = s) P.cs ⟨h0, rfl⟩ ?_
    rintro c hc w ⟨hw, hws⟩
    refine ⟨hw.add (hL.cs c hc), ?_⟩
    rw [← hws]
    cases c with
    | superset a b => unfold WS.addConstraint; dsimp only; split <;> rfl
    | store p v => rfl
    | load v p => rfl
    | call p c => rfl
  have h2 : MW P L env.opts.hcd ((graph P.cs ref d s).unifyAll env.opts.hcd u) := by
    refine h1.1.unifyAll u ?_
    intro p hp
    have := hu p hp
    rw [← h1.2] at this
    rw [h1.2] at this
    have hps : ∀ {a b}, Path s (graph P.cs ref d s).edges a b → L.Sub b a := by
      intro a b pth
      have e := h1.2
      exact path_sub h1.1 h1.1.edges (by rw [e]; exact pth)
    exact ⟨hps this.2, hps this.1⟩
  unfold WS.init
  simp only []
  change MW P L env.opts.hcd { (graph P.cs ref d s).unifyAll env.opts.hcd u with wl := _, set := (escapedFns env.fn fns ((graph P.cs ref d s).unifyAll env.opts.hcd u).set).2 }
  generalize (graph P.cs ref d s).unifyAll env.opts.hcd u = w2 at h2
  have h3 : ∀ wl, MW P L env.opts.hcd { w2 with wl := wl } := fun wl => h2.wl wl w2.det w2.tracked w2.xSeen w2.peSeen
  have key : ∀ (wl : Nat → Bool) (l : List Nat) {s : RSet}, MW P L env.opts.hcd { w2 with wl := wl, set := s } → (∀ f ∈ l, f < P.base.n ∧ P.base.kind f = .function) →
      MW P L env.opts.hcd { w2 with wl := wl, set := (escapedFns env.fn l s).2 } := by
    intro wl l
    induction l with
    | nil => intro s h _; exact h
    | cons f l ih =>
      intro s h hl
      have hf := hl f (by simp)
      have he : (escapedFns env.fn (f :: l) s).2 = (escapedFns env.fn l (whenB (s.escaped f) (Jlm.Llvm.Aa.escapedFn (env.fn f)) s).2).2 := rfl
      rw [he]
      refine ih ?_ (fun g hg => hl g (by simp [hg]))
      unfold whenB
      split
      · rename_i hesc
        have hff := hL.fns f (h.esc f hesc) hf.1 hf.2
        rw [hfn]
        have part : ∀ (g : Nat → RSet → Bool × RSet) (l : List Nat), (∀ a ∈ l, ∀ s, MW P L env.opts.hcd { w2 with wl := wl, set := s } → MW P L env.opts.hcd { w2 with wl := wl, set := (g a s).2 }) →
            ∀ s, MW P L env.opts.hcd { w2 with wl := wl, set := s } → MW P L env.opts.hcd { w2 with wl := wl, set := (forEach g l s).2 } := by
          intro g l
          induction l with
          | nil => intro _ s h; exact h
          | cons a l ih2 =>
            intro hg s h
            exact ih2 (fun b hb => hg b (by simp [hb])) _ (hg a (by simp) s h)
        have p1 := part (fun a s => whenB (!s.pte a) (fun s => s.markPTE a) s) (registers (P.fn f).args) (by
          intro a ha s hs
          unfold whenB
          split
          · exact hs.setPTE' (hff.1 a (mem_registers.1 ha))
          · exact hs) s h
        exact part (fun a s => whenB (!s.pe a) (fun s => s.markPE a) s) (registers (P.fn f).results) (by
          intro a ha s hs
          unfold whenB
          split
          · exact hs.setPE' (hff.2 a (mem_registers.1 ha))
          · exact hs) _ p1
      · exact h
  exact key _ fns (h3 _) (fun f hf => (hfns f).1 hf)

/-- what is in the set is true of every solution -/
theorem MW.le (hL : Sat P L) {hcd : Bool} {w : WS σ} (h : MW P L hcd w) : w.set.abs.sol.Le L := by
  refine ⟨?_, h.esc, h.pte⟩
  rintro i x (hx | ⟨h1, h2⟩)
  · exact (h.pts i x hx).1
  · exact hL.implicit i x (h.pte i h1) (h.esc x h2)

end WS
end Jlm.Llvm.Aa
