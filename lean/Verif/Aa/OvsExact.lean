import Verif.Aa.OvsSpec
set_option linter.unusedVariables false
/-
C23: when offline variable substitution does not change the solution.
-/
namespace Jlm.Llvm.Aa
open Jlm.Util
namespace Ovs

/-! ## The meaning of the nodes of the offline graph in a solution -/

/-- the pointees of node `a`: those of object `a` if `a < n`, else what can be read through `a - n` -/
def valPt (K : Sol) (n a x : Nat) : Prop :=
  if a < n then K.pt a x else (∃ y, K.pt (a - n) y ∧ K.pt y x) ∨ (K.ext (a - n) ∧ K.esc x)

def valExt (K : Sol) (n a : Nat) : Prop :=
  if a < n then K.ext a else K.ext (a - n) ∨ ∃ y, K.pt (a - n) y ∧ K.ext y

def VLe (K : Sol) (n a b : Nat) : Prop := (∀ x, valPt K n a x → valPt K n b x) ∧ (valExt K n a → valExt K n b)

theorem VLe.refl (K : Sol) (n a : Nat) : VLe K n a a := ⟨fun _ h => h, fun h => h⟩
theorem VLe.trans {K : Sol} {n a b c : Nat} (h1 : VLe K n a b) (h2 : VLe K n b c) : VLe K n a c :=
  ⟨fun x h => h2.1 x (h1.1 x h), fun h => h2.2 (h1.2 h)⟩

theorem valPt_lt {K : Sol} {n a : Nat} (h : a < n) (x : Nat) : valPt K n a x = K.pt a x := by unfold valPt; rw [if_pos h]
theorem valExt_lt {K : Sol} {n a : Nat} (h : a < n) : valExt K n a = K.ext a := by unfold valExt; rw [if_pos h]
theorem valPt_ge {K : Sol} {n : Nat} (a x : Nat) : valPt K n (a + n) x = ((∃ y, K.pt a y ∧ K.pt y x) ∨ (K.ext a ∧ K.esc x)) := by
  unfold valPt; rw [if_neg (by omega), Nat.add_sub_cancel]
theorem valExt_ge {K : Sol} {n : Nat} (a : Nat) : valExt K n (a + n) = (K.ext a ∨ ∃ y, K.pt a y ∧ K.ext y) := by
  unfold valExt; rw [if_neg (by omega), Nat.add_sub_cancel]

/-- what points to external may point to what escaped, for all nodes -/
theorem val_implicit {P : Problem} {K : Sol} (hK : Sat P K) {n a x : Nat} (h : valExt K n a) (hx : K.esc x) : valPt K n a x := by
  unfold valExt at h
  unfold valPt
  split
  · rw [if_pos ‹_›] at h; exact hK.implicit a x h hx
  · rw [if_neg ‹_›] at h
    rcases h with h | ⟨y, h1, h2⟩
    · exact Or.inr ⟨h, hx⟩
    · exact Or.inl ⟨y, h1, hK.implicit y x h2 hx⟩

/-- the assumptions -/
structure Hyp (s : RSet) (I : In) (K : Sol) : Prop where
  root : ∀ i, s.root i = i
  sat : Sat ⟨s.abs, I.cs, I.fn⟩ K
  least : ∀ L, Sat ⟨s.abs, I.cs, I.fn⟩ L → K.Le L
  inRange : (Problem.mk s.abs I.cs I.fn).InRange
  fns : FnsOk ⟨s.abs, I.cs, I.fn⟩ I.fns
  regs : ∀ i ∈ I.regs, i < s.n ∧ s.abs.kind i = .register
  flag : ∀ i ∈ I.regs, s.abs.pte i → ∃ x, s.abs.pts i x
  mem : ∀ i x, K.pt i x → x < s.n ∧ s.abs.kind x ≠ .register
  escMem : ∀ x, K.esc x → s.abs.kind x ≠ .register
  live : ∀ p v, .store p v ∈ I.cs → Tarjan.Reach (graph s I.cs) (p + s.n) v → (∃ x, K.pt p x) ∨ K.ext p

variable {s : RSet} {I : In} {K : Sol}

/-- an edge from an object or from what is read through it, to an object -/
theorem Hyp.edge_obj (h : Hyp s I K) {a b : Nat} (e : b ∈ succs s I.cs a) (hb : b < s.n) : VLe K s.n a b := by
  obtain ⟨c, hc, e⟩ := mem_succs.1 e
  have hr := h.inRange.cs c hc
  have hs := h.sat.cs c hc
  cases c with
  | superset p q =>
    obtain ⟨hp, hq⟩ : p < s.n ∧ q < s.n := hr
    simp only [edgesOf, h.root, List.mem_cons, Prod.mk.injEq, List.not_mem_nil, or_false] at e
    rcases e with ⟨rfl, rfl⟩ | ⟨rfl, rfl⟩
    · refine ⟨fun x hx => ?_, fun hx => ?_⟩
      · rw [valPt_lt hq] at hx; rw [valPt_lt hp]; exact hs.1 x hx
      · rw [valExt_lt hq] at hx; rw [valExt_lt hp]; exact hs.2 hx
    · omega
  | store p q =>
    simp only [edgesOf, h.root, List.mem_cons, Prod.mk.injEq, List.not_mem_nil, or_false] at e
    obtain ⟨rfl, rfl⟩ := e
    omega
  | load v p =>
    obtain ⟨hv, hp⟩ : v < s.n ∧ p < s.n := hr
    simp only [edgesOf, h.root, List.mem_cons, Prod.mk.injEq, List.not_mem_nil, or_false] at e
    obtain ⟨rfl, rfl⟩ := e
    have h1 : ∀ y, K.pt p y → K.Sub b y := hs.1
    have h2 : K.ext p → K.ext b := hs.2
    refine ⟨fun x hx => ?_, fun hx => ?_⟩
    · rw [valPt_ge] at hx; rw [valPt_lt hv]
      rcases hx with ⟨y, hy, hx⟩ | ⟨he, hx⟩
      · exact (h1 y hy).1 x hx
      · exact h.sat.implicit b x (h2 he) hx
    · rw [valExt_ge] at hx; rw [valExt_lt hv]
      rcases hx with he | ⟨y, hy, hx⟩
      · exact h2 he
      · exact (h1 y hy).2 hx
  | call p c => cases e

/-- an edge on a cycle -/
theorem Hyp.edge_cycle (h : Hyp s I K) {a b : Nat} (e : b ∈ succs s I.cs a) (hb : Tarjan.Reach (graph s I.cs) b a) : VLe K s.n a b := by
  by_cases hbn : b < s.n
  · exact h.edge_obj e hbn
  obtain ⟨c, hc, e⟩ := mem_succs.1 e
  have hr := h.inRange.cs c hc
  have hs := h.sat.cs c hc
  cases c with
  | superset p q =>
    obtain ⟨hp, hq⟩ : p < s.n ∧ q < s.n := hr
    simp only [edgesOf, h.root, List.mem_cons, Prod.mk.injEq, List.not_mem_nil, or_false] at e
    rcases e with ⟨rfl, rfl⟩ | ⟨rfl, rfl⟩
    · omega
    · refine ⟨fun x hx => ?_, fun hx => ?_⟩
      · rw [valPt_ge] at hx ⊢
        rcases hx with ⟨y, hy, hx⟩ | ⟨he, hx⟩
        · exact Or.inl ⟨y, hs.1 y hy, hx⟩
        · exact Or.inr ⟨hs.2 he, hx⟩
      · rw [valExt_ge] at hx ⊢
        rcases hx with he | ⟨y, hy, hx⟩
        · exact Or.inl (hs.2 he)
        · exact Or.inr ⟨y, hs.1 y hy, hx⟩
  | store p v =>
    obtain ⟨hp, hv⟩ : p < s.n ∧ v < s.n := hr
    simp only [edgesOf, h.root, List.mem_cons, Prod.mk.injEq, List.not_mem_nil, or_false] at e
    obtain ⟨rfl, rfl⟩ := e
    have hlive := h.live p a hc hb
    have h1 : ∀ y, K.pt p y → K.Sub y a := hs.1
    have h2 : K.ext p → K.PointeesEscape a := hs.2
    refine ⟨fun x hx => ?_, fun hx => ?_⟩
    · rw [valPt_lt hv] at hx; rw [valPt_ge]
      rcases hlive with ⟨y, hy⟩ | he
      · exact Or.inl ⟨y, hy, (h1 y hy).1 x hx⟩
      · exact Or.inr ⟨he, h2 he x hx⟩
    · rw [valExt_lt hv] at hx; rw [valExt_ge]
      rcases hlive with ⟨y, hy⟩ | he
      · exact Or.inr ⟨y, hy, (h1 y hy).2 hx⟩
      · exact Or.inl he
  | load v p =>
    obtain ⟨hv, hp⟩ : v < s.n ∧ p < s.n := hr
    simp only [edgesOf, h.root, List.mem_cons, Prod.mk.injEq, List.not_mem_nil, or_false] at e
    obtain ⟨rfl, rfl⟩ := e
    omega
  | call p c => cases e

theorem Hyp.cycle (h : Hyp s I K) {a b : Nat} (h1 : Tarjan.Reach (graph s I.cs) a b) (h2 : Tarjan.Reach (graph s I.cs) b a) : VLe K s.n a b := by
  induction h1 using Relation.ReflTransGen.head_induction_on with
  | refl => exact VLe.refl _ _ _
  | head e p ih =>
    obtain ⟨w, hw, rfl⟩ := e
    have : VLe K s.n _ w := h.edge_cycle hw (p.trans h2)
    exact this.trans (ih (h2.trans (.single ⟨w, hw, rfl⟩)))

theorem direct_iff {s : RSet} {I : In} {i : Nat} : direct s I i = true ↔
    i ∈ I.regs ∧ (∀ x, ¬ s.abs.pts i x) ∧ (∀ f ∈ I.fns, some i ∉ (I.fn f).args) ∧ (∀ p c, .call p c ∈ I.cs → some i ∉ c.outs) := by
  unfold direct
  simp only [Bool.and_eq_true, List.contains_iff_mem, Bool.not_eq_true', List.any_eq_false, List.isEmpty_iff, and_assoc]
  refine and_congr_right fun _ => and_congr ?_ (and_congr_right fun _ => ?_)
  · show _ ↔ ∀ x, ¬ x ∈ s.pointees i
    exact List.eq_nil_iff_forall_not_mem
  · constructor
    · intro h p c hc
      have := h _ hc
      simpa [List.contains_iff_mem] using this
    · intro h c hc
      cases c with
      | call p c => simpa [List.contains_iff_mem] using h p c hc
      | _ => simp

/-- a set of direct registers all of whose predecessors outside the set are bounded by node `w` is
bounded by `w`, since the solution is least -/
theorem Hyp.direct_le (h : Hyp s I K) (C : Nat → Prop) (hC : ∀ i, C i → i < s.n ∧ direct s I i = true) (w : Nat)
    (hw : ∀ v t, t ∈ succs s I.cs v → C t → C v ∨ VLe K s.n v w) (u : Nat) (hu : C u) : VLe K s.n u w := by
  have hd := fun i hi => direct_iff.1 (hC i hi).2
  have hreg : ∀ i, C i → s.abs.kind i = .register := fun i hi => (h.regs i (hd i hi).1).2
  have npt : ∀ i x, K.pt i x → ¬ C x := fun i x hx hc => (h.mem i x hx).2 (hreg x hc)
  have nesc : ∀ x, K.esc x → ¬ C x := fun x hx hc => h.escMem x hx (hreg x hc)
  have narg : ∀ f a, f < s.n → s.abs.kind f = .function → some a ∈ (I.fn f).args → ¬ C a :=
    fun f a hf hk ha hc => (hd a hc).2.2.1 f ((h.fns f).2 ⟨hf, hk⟩) ha
  have nout : ∀ p c o, .call p c ∈ I.cs → some o ∈ c.outs → ¬ C o := fun p c o hc ho hco => (hd o hco).2.2.2 p c hc ho
  let K' : Sol := { pt := fun i x => K.pt i x ∧ (C i → valPt K s.n w x), esc := K.esc, ext := fun i => K.ext i ∧ (C i → valExt K s.n w) }
  have ext' : ∀ {i}, ¬ C i → K.ext i → K'.ext i := fun hc he => ⟨he, fun hi => absurd hi hc⟩
  have pe' : ∀ {i}, K.PointeesEscape i → K'.PointeesEscape i := fun hp x hx => hp x hx.1
  have sub' : ∀ {a b}, ¬ C a → K.Sub a b → K'.Sub a b := fun hc hs =>
    ⟨fun x hx => ⟨hs.1 x hx.1, fun ha => absurd ha hc⟩, fun hx => ⟨hs.2 hx.1, fun ha => absurd ha hc⟩⟩
  have sat : Sat ⟨s.abs, I.cs, I.fn⟩ K' := by
    refine ⟨?_, h.sat.esc, ?_, fun i hi hp => pe' (h.sat.pe i hi hp), ?_, ?_, ?_, ?_, ?_, ?_, ?_⟩
    · intro i x hx
      exact ⟨h.sat.pts i x hx, fun hc => absurd hx ((hd i hc).2.1 x)⟩
    · intro i hi
      refine ⟨h.sat.ext i hi, fun hc => ?_⟩
      obtain ⟨x, hx⟩ := h.flag i (hd i hc).1 hi
      exact absurd hx ((hd i hc).2.1 x)
    · intro i j hij
      have : i = j := by rw [← h.root i, ← h.root j]; exact hij
      subst this
      exact ⟨fun _ h => h, fun h => h⟩
    · intro i x hi hx
      exact ⟨h.sat.implicit i x hi.1 hx, fun hc => val_implicit h.sat (hi.2 hc) hx⟩
    · intro x hx
      exact ⟨ext' (nesc x hx) (h.sat.escaped x hx).1, pe' (h.sat.escaped x hx).2⟩
    · intro i x hi hs hx
      exact ext' (npt i x hx.1) (h.sat.ss i x hi hs hx.1)
    · intro i x hi hs hx
      exact pe' (h.sat.ls i x hi hs hx.1)
    · intro c hc
      have hs := h.sat.cs c hc
      have hr := h.inRange.cs c hc
      cases c with
      | superset a b =>
        obtain ⟨ha, hb⟩ : a < s.n ∧ b < s.n := hr
        have hs' : K.Sub a b := hs
        by_cases hca : C a
        · have := hw b a (mem_succs.2 ⟨_, hc, by simp [edgesOf, h.root]⟩) hca
          rcases this with hcb | hle
          · exact ⟨fun x hx => ⟨hs'.1 x hx.1, fun _ => hx.2 hcb⟩, fun hx => ⟨hs'.2 hx.1, fun _ => hx.2 hcb⟩⟩
          · refine ⟨fun x hx => ⟨hs'.1 x hx.1, fun _ => hle.1 x ?_⟩, fun hx => ⟨hs'.2 hx.1, fun _ => hle.2 ?_⟩⟩
            · rw [valPt_lt hb]; exact hx.1
            · rw [valExt_lt hb]; exact hx.1
        · exact sub' hca hs'
      | store p v =>
        exact ⟨fun x hx => sub' (npt p x hx.1) (hs.1 x hx.1), fun hx => pe' (hs.2 hx.1)⟩
      | load v p =>
        obtain ⟨hv, hp⟩ : v < s.n ∧ p < s.n := hr
        have h1 : ∀ y, K.pt p y → K.Sub v y := hs.1
        have h2 : K.ext p → K.ext v := hs.2
        by_cases hcv : C v
        · have hle : VLe K s.n (p + s.n) w := by
            rcases hw (p + s.n) v (mem_succs.2 ⟨_, hc, by simp [edgesOf, h.root]⟩) hcv with hx | hx
            · have := (hC _ hx).1; omega
            · exact hx
          refine ⟨fun y hy => ⟨fun x hx => ⟨(h1 y hy.1).1 x hx.1, fun _ => hle.1 x ?_⟩, fun hx => ⟨(h1 y hy.1).2 hx.1, fun _ => hle.2 ?_⟩⟩,
            fun hx => ⟨h2 hx.1, fun _ => hle.2 ?_⟩⟩
          · rw [valPt_ge]; exact Or.inl ⟨y, hy.1, hx.1⟩
          · rw [valExt_ge]; exact Or.inr ⟨y, hy.1, hx.1⟩
          · rw [valExt_ge]; exact Or.inl hx.1
        · exact ⟨fun x hx => sub' hcv (h1 x hx.1), fun hx => ext' hcv (h2 hx.1)⟩
      | call p c =>
        have ce : K.CallsExternal c → K'.CallsExternal c := fun h => ⟨fun i hi => pe' (h.1 i hi), fun o ho => ext' (nout p c o hc ho) (h.2 o ho)⟩
        refine ⟨fun x hx => ⟨fun hk => ce ((hs.1 x hx.1).1 hk), fun hk => ?_⟩, fun hx => ce (hs.2 hx.1)⟩
        have hcf := (hs.1 x hx.1).2 hk
        refine ⟨fun k i a h1 h2 => sub' ?_ (hcf.1 k i a h1 h2), fun k o r h1 h2 => sub' ?_ (hcf.2 k o r h1 h2)⟩
        · exact narg x a (h.mem p x hx.1).1 hk (List.mem_of_getElem? h2)
        · exact nout p c o hc (List.mem_of_getElem? h1)
    · intro f he hf hk
      have := h.sat.fns f he hf hk
      exact ⟨fun a ha => ext' (narg f a hf hk ha) (this.1 a ha), fun r hr => pe' (this.2 r hr)⟩
  have le := h.least K' sat
  have hun := (hC u hu).1
  refine ⟨fun x hx => ?_, fun hx => ?_⟩
  · rw [valPt_lt hun] at hx; exact (le.1 u x hx).2 hu
  · rw [valExt_lt hun] at hx; exact (le.2.2 u hx).2 hu


/-! ## Labels -/

/-- what `pred` says when the edges for which `E` holds have been seen -/
def PredOk (scc : Nat → Nat) (E : Nat → Nat → Prop) (st : Labels) : Prop :=
  ∀ c, match st.pred c with
    | .noneYet => ∀ v t, E v t → scc t ≠ c
    | .one l => (∃ v t, E v t ∧ scc t = c ∧ st.label (scc v) = some l) ∧ ∀ v t, E v t → scc t = c → st.label (scc v) = some l
    | .several => True

theorem inform_ok {scc : Nat → Nat} {E : Nat → Nat → Prop} {st : Labels} (h : PredOk scc E st) (node l t : Nat)
    (hl : st.label (scc node) = some l) :
    PredOk scc (fun v u => E v u ∨ (v = node ∧ u = t)) (inform scc l st t) ∧ (inform scc l st t).label = st.label ∧
      (inform scc l st t).next = st.next := by
  have hlab : (inform scc l st t).label = st.label ∧ (inform scc l st t).next = st.next := by
    unfold inform; split
    · exact ⟨rfl, rfl⟩
    · exact ⟨rfl, rfl⟩
    · split <;> exact ⟨rfl, rfl⟩
  refine ⟨?_, hlab⟩
  intro c
  rw [hlab.1]
  by_cases hc : c = scc t
  · subst hc
    have hh := h (scc t)
    unfold inform
    cases hp : st.pred (scc t) with
    | several => simp only [hp]
    | noneYet =>
      rw [hp] at hh
      simp only [upd, if_true]
      refine ⟨⟨node, t, Or.inr ⟨rfl, rfl⟩, rfl, hl⟩, ?_⟩
      rintro v u (he | ⟨rfl, rfl⟩) hu
      · exact absurd hu (hh v u he)
      · exact hl
    | one k =>
      rw [hp] at hh
      simp only []
      by_cases hk : k = l
      · rw [if_pos hk, hp]
        subst hk
        simp only []
        refine ⟨⟨node, t, Or.inr ⟨rfl, rfl⟩, rfl, hl⟩, ?_⟩
        rintro v u (he | ⟨rfl, rfl⟩) hu
        · exact hh.2 v u he hu
        · exact hl
      · rw [if_neg hk]
        simp only [upd, if_true]
  · have hh := h c
    have hpred : (inform scc l st t).pred c = st.pred c := by
      unfold inform
      split
      · rfl
      · simp only [upd, if_neg hc]
      · split
        · rfl
        · simp only [upd, if_neg hc]
    rw [hpred]
    split
    · rename_i hp
      rw [hp] at hh
      rintro v u (he | ⟨rfl, rfl⟩) hu
      · exact hh v u he hu
      · exact hc hu.symm
    · rename_i k hp
      rw [hp] at hh
      obtain ⟨⟨v, u, a1, a2, a3⟩, a4⟩ := hh
      refine ⟨⟨v, u, Or.inl a1, a2, a3⟩, ?_⟩
      rintro v u (he | ⟨rfl, rfl⟩) hu
      · exact a4 v u he hu
      · exact absurd hu.symm hc
    · trivial

theorem inform_fold_ok {scc : Nat → Nat} (node l : Nat) : ∀ (ts : List Nat) {E : Nat → Nat → Prop} {st : Labels}, PredOk scc E st →
    st.label (scc node) = some l →
    PredOk scc (fun v u => E v u ∨ (v = node ∧ u ∈ ts)) (ts.foldl (inform scc l) st) ∧ (ts.foldl (inform scc l) st).label = st.label ∧
      (ts.foldl (inform scc l) st).next = st.next
  | [], E, st, h, hl => by
    refine ⟨?_, rfl, rfl⟩
    have : (fun v u => E v u ∨ (v = node ∧ u ∈ ([] : List Nat))) = E := by funext v u; simp
    rw [this]; exact h
  | t :: ts, E, st, h, hl => by
    obtain ⟨h1, h2, h3⟩ := inform_ok h node l t hl
    obtain ⟨h4, h5, h6⟩ := inform_fold_ok node l ts h1 (by rw [h2]; exact hl)
    refine ⟨?_, h5.trans h2, h6.trans h3⟩
    have : (fun v u => E v u ∨ (v = node ∧ u ∈ t :: ts)) = (fun v u => (E v u ∨ (v = node ∧ u = t)) ∨ (v = node ∧ u ∈ ts)) := by
      funext v u; simp only [List.mem_cons, eq_iff_iff]; tauto
    rw [this]; exact h4

/-- what the loop that assigns labels maintains; `pre` are the nodes that have been visited -/
structure LabOk (s : RSet) (I : In) (K : Sol) (scc : Nat → Nat) (pre : List Nat) (st : Labels) : Prop where
  lt : ∀ c l, st.label c = some l → l < st.next
  dom : ∀ c, st.label c ≠ none ↔ ∃ v ∈ pre, scc v = c
  pred : PredOk scc (fun v t => v ∈ pre ∧ t ∈ succs s I.cs v) st
  same : ∀ u v l, u < 2 * s.n → v < 2 * s.n → st.label (scc u) = some l → st.label (scc v) = some l → VLe K s.n u v

variable {scc : Nat → Nat}

theorem LabOk.visit (h : Hyp s I K) {r : Tarjan.Result} (hr : Tarjan.IsScc (graph s I.cs) (fun _ => 0) r) {pre : List Nat} {st : Labels}
    (hl : LabOk s I K r.sccIndex pre st) {node : Nat} (hn : node < 2 * s.n)
    (htop : ∀ v t, t ∈ succs s I.cs v → r.sccIndex t = r.sccIndex node → v ∈ pre ∨ r.sccIndex v = r.sccIndex node) :
    LabOk s I K r.sccIndex (pre ++ [node]) (labelNode (succs s I.cs) r.sccIndex (directOnly s I r.sccIndex) st node) := by
  have hcyc : ∀ u v, u < 2 * s.n → v < 2 * s.n → r.sccIndex u = r.sccIndex v → VLe K s.n u v := by
    intro u v hu hv e
    obtain ⟨a, b⟩ := (hr.same_iff u v ⟨hu, rfl⟩ ⟨hv, rfl⟩).1 e
    exact h.cycle a b
  -- after the component has a label
  have core : ∃ (st' : Labels) (l : Nat), st'.label (r.sccIndex node) = some l ∧ st'.pred = st.pred ∧
      (∀ c, c ≠ r.sccIndex node → st'.label c = st.label c) ∧ (∀ k, st.label (r.sccIndex node) = some k → k = l) ∧
      (∀ c l, st'.label c = some l → l < st'.next) ∧
      (∀ u v l, u < 2 * s.n → v < 2 * s.n → st'.label (r.sccIndex u) = some l → st'.label (r.sccIndex v) = some l → VLe K s.n u v) ∧
      assign r.sccIndex (directOnly s I r.sccIndex) st node = st' := by
    unfold assign
    cases hlab : st.label (r.sccIndex node) with
    | some l =>
      refine ⟨st, l, hlab, rfl, fun _ _ => rfl, fun k hk => by cases hk; rfl, hl.lt, hl.same, rfl⟩
    | none =>
      dsimp only
      have fresh : ∃ (st' : Labels) (l : Nat), st'.label (r.sccIndex node) = some l ∧ st'.pred = st.pred ∧
          (∀ c, c ≠ r.sccIndex node → st'.label c = st.label c) ∧ (∀ k, none = some k → k = l) ∧
          (∀ c l, st'.label c = some l → l < st'.next) ∧
          (∀ u v l, u < 2 * s.n → v < 2 * s.n → st'.label (r.sccIndex u) = some l → st'.label (r.sccIndex v) = some l → VLe K s.n u v) ∧
          st' = { st with label := upd st.label (r.sccIndex node) (some st.next), next := st.next + 1 } ∧ l = st.next := by
        refine ⟨_, st.next, ?_, ?_, ?_, fun k hk => (nomatch hk), ?_, ?_, rfl, rfl⟩
        · simp [upd]
        · rfl
        · intro c hc; simp [upd, hc]
        · intro c l hcl
          dsimp only [upd] at hcl ⊢
          split at hcl
          · cases hcl; omega
          · have := hl.lt c l hcl; omega
        · intro u v l hu hv h1 h2
          dsimp only [upd] at h1 h2
          split at h1
          · cases h1
            split at h2
            · exact hcyc u v hu hv (by rw [‹r.sccIndex u = _›, ‹r.sccIndex v = _›])
            · have := hl.lt _ _ h2; omega
          · split at h2
            · cases h2; have := hl.lt _ _ h1; omega
            · exact hl.same u v l hu hv h1 h2
      cases hdo : directOnly s I r.sccIndex (r.sccIndex node) with
      | false =>
        obtain ⟨st', l, a1, a2, a3, a4, a5, a6, a7, a8⟩ := fresh
        refine ⟨st', l, a1, a2, a3, a4, a5, a6, ?_⟩
        subst a7 a8
        rfl
      | true =>
        cases hpr : st.pred (r.sccIndex node) with
        | noneYet =>
          obtain ⟨st', l, a1, a2, a3, a4, a5, a6, a7, a8⟩ := fresh
          refine ⟨st', l, a1, a2, a3, a4, a5, a6, ?_⟩
          subst a7 a8
          rfl
        | several =>
          obtain ⟨st', l, a1, a2, a3, a4, a5, a6, a7, a8⟩ := fresh
          refine ⟨st', l, a1, a2, a3, a4, a5, a6, ?_⟩
          subst a7 a8
          rfl
        | one l =>
          have hp := hl.pred (r.sccIndex node)
          rw [hpr] at hp
          obtain ⟨⟨w, t, ⟨hwp, hwt⟩, htc, hwl⟩, hall⟩ := hp
          have hnopre : ∀ v ∈ pre, r.sccIndex v ≠ r.sccIndex node := by
            intro v hv e
            have := (hl.dom (r.sccIndex node)).2 ⟨v, hv, e⟩
            exact this hlab
          have hdir : ∀ i, (i < 2 * s.n ∧ r.sccIndex i = r.sccIndex node) → i < s.n ∧ direct s I i = true := by
            rintro i ⟨hi, e⟩
            unfold directOnly at hdo
            rw [List.all_eq_true] at hdo
            have := hdo i (List.mem_range.2 hi)
            simpa [e] using this
          have hroot : s.n = s.n := rfl
          have hlt : ∀ i, i < s.n → s.root i < s.n := fun i hi => by rw [h.root]; exact hi
          have hw2 : w < 2 * s.n := (succs_lt hlt h.inRange.cs hwt).1
          have ht2 : t < 2 * s.n := (succs_lt hlt h.inRange.cs hwt).2
          have hle : ∀ u, u < 2 * s.n → r.sccIndex u = r.sccIndex node → VLe K s.n u w := by
            intro u hu e
            refine h.direct_le (fun i => i < 2 * s.n ∧ r.sccIndex i = r.sccIndex node) hdir w ?_ u ⟨hu, e⟩
            rintro v t hvt ⟨_, htn⟩
            have hv2 := (succs_lt hlt h.inRange.cs hvt).1
            rcases htop v t hvt htn with hv | hv
            · exact Or.inr (hl.same v w l hv2 hw2 (hall v t ⟨hv, hvt⟩ htn) hwl)
            · exact Or.inl ⟨hv2, hv⟩
          have hge : ∀ u, u < 2 * s.n → r.sccIndex u = r.sccIndex node → VLe K s.n w u := by
            intro u hu e
            have h1 := h.edge_obj hwt (hdir t ⟨ht2, htc⟩).1
            exact h1.trans (hcyc t u ht2 hu (htc.trans e.symm))
          refine ⟨{ st with label := upd st.label (r.sccIndex node) (some l) }, l, by simp [upd], rfl, fun c hc => by simp [upd, hc],
            fun k hk => (nomatch hk), ?_, ?_, rfl⟩
          · intro c k hck
            dsimp only [upd] at hck ⊢
            split at hck
            · cases hck; exact hl.lt _ _ hwl
            · exact hl.lt _ _ hck
          · intro u v k hu hv h1 h2
            dsimp only [upd] at h1 h2
            split at h1
            · cases h1
              split at h2
              · exact hcyc u v hu hv (by rw [‹r.sccIndex u = _›, ‹r.sccIndex v = _›])
              · exact (hle u hu ‹_›).trans (hl.same w v l hw2 hv hwl h2)
            · split at h2
              · cases h2; exact (hl.same u w l hu hw2 h1 hwl).trans (hge v hv ‹_›)
              · exact hl.same u v k hu hv h1 h2
  obtain ⟨st', l, a1, a2, a3, a4, a5, a6, a7⟩ := core
  unfold labelNode
  rw [a7]
  dsimp only
  rw [a1, Option.getD_some]
  -- the labels of visited components are unchanged
  have hkeep : ∀ v ∈ pre, st'.label (r.sccIndex v) = st.label (r.sccIndex v) := by
    intro v hv
    by_cases e : r.sccIndex v = r.sccIndex node
    · rw [e, a1]
      have hne := (hl.dom (r.sccIndex node)).2 ⟨v, hv, e⟩
      cases hx : st.label (r.sccIndex node) with
      | none => exact absurd hx hne
      | some k => rw [a4 k hx]
    · exact a3 _ e
  have hpred' : PredOk r.sccIndex (fun v t => v ∈ pre ∧ t ∈ succs s I.cs v) st' := by
    intro c
    have := hl.pred c
    rw [a2]
    split
    · rename_i hp; rw [hp] at this; exact this
    · rename_i k hp
      rw [hp] at this
      obtain ⟨⟨v, t, b1, b2, b3⟩, b4⟩ := this
      exact ⟨⟨v, t, b1, b2, by rw [hkeep v b1.1]; exact b3⟩, fun v t e ht => by rw [hkeep v e.1]; exact b4 v t e ht⟩
    · trivial
  obtain ⟨c1, c2, c3⟩ := inform_fold_ok node l (succs s I.cs node) hpred' a1
  refine ⟨?_, ?_, ?_, ?_⟩
  · intro c k hk; rw [c2] at hk; rw [c3]; exact a5 c k hk
  · intro c
    rw [c2]
    by_cases e : c = r.sccIndex node
    · subst e
      rw [a1]
      simp
    · rw [a3 c e, hl.dom c]
      simp only [List.mem_append, List.mem_singleton]
      constructor
      · rintro ⟨v, hv, hvc⟩; exact ⟨v, Or.inl hv, hvc⟩
      · rintro ⟨v, hv | hv, hvc⟩
        · exact ⟨v, hv, hvc⟩
        · subst hv; exact absurd hvc.symm e
  · have : (fun v t => v ∈ pre ++ [node] ∧ t ∈ succs s I.cs v) =
        (fun v u => (v ∈ pre ∧ u ∈ succs s I.cs v) ∨ (v = node ∧ u ∈ succs s I.cs node)) := by
      funext v u
      simp only [List.mem_append, List.mem_singleton, eq_iff_iff]
      constructor
      · rintro ⟨h1 | rfl, h2⟩
        · exact Or.inl ⟨h1, h2⟩
        · exact Or.inr ⟨rfl, h2⟩
      · rintro (⟨h1, h2⟩ | ⟨rfl, h2⟩)
        · exact ⟨Or.inl h1, h2⟩
        · exact ⟨Or.inr rfl, h2⟩
    rw [this]; exact c1
  · intro u v k hu hv h1 h2
    rw [c2] at h1 h2
    exact a6 u v k hu hv h1 h2

theorem LabOk.fold (h : Hyp s I K) {r : Tarjan.Result} (hr : Tarjan.IsScc (graph s I.cs) (fun _ => 0) r) :
    ∀ (post pre : List Nat) {st : Labels}, r.reverseTopologicalOrder.reverse = pre ++ post → LabOk s I K r.sccIndex pre st →
    LabOk s I K r.sccIndex (pre ++ post) (post.foldl (labelNode (succs s I.cs) r.sccIndex (directOnly s I r.sccIndex)) st)
  | [], pre, st, _, hl => by simpa using hl
  | node :: post, pre, st, e, hl => by
    have hlt : ∀ i, i < s.n → s.root i < s.n := fun i hi => by rw [h.root]; exact hi
    have hmem : ∀ v, v ∈ pre ++ node :: post ↔ v < 2 * s.n := by
      intro v
      rw [← e, List.mem_reverse, hr.order_mem]
      exact ⟨fun h => h.1, fun h => ⟨h, rfl⟩⟩
    have hn : node < 2 * s.n := (hmem node).1 (by simp)
    have hsort : (pre ++ node :: post).Pairwise (fun u v => r.sccIndex v ≤ r.sccIndex u) := by
      rw [← e, List.pairwise_reverse]; exact hr.order_sorted
    have := LabOk.visit h hr hl hn (by
      intro v t hvt htn
      have hv2 := (succs_lt hlt h.inRange.cs hvt).1
      have hle := hr.edge_le v t ⟨hv2, rfl⟩ ⟨t, hvt, rfl⟩
      rcases List.mem_append.1 ((hmem v).2 hv2) with hv | hv
      · exact Or.inl hv
      · right
        rcases List.mem_cons.1 hv with rfl | hv
        · rfl
        · have h1 := (List.pairwise_append.1 hsort).2.1
          have h2 := (List.pairwise_cons.1 h1).1 v hv
          omega)
    have := LabOk.fold h hr post (pre ++ [node]) (by rw [e]; simp) this
    simpa using this

/-- objects with the same label have the same solution -/
theorem Hyp.same_label (h : Hyp s I K) {r : Tarjan.Result} (hr : Tarjan.IsScc (graph s I.cs) (fun _ => 0) r) {i j : Nat}
    (hi : i < s.n) (hj : j < s.n) (e : labelOf s I r i = labelOf s I r j) : K.Sub j i := by
  have hl := LabOk.fold h hr r.reverseTopologicalOrder.reverse [] (st := { label := fun _ => none, pred := fun _ => .noneYet, next := 0 }) rfl
    ⟨fun c l h => (nomatch h), fun c => by simp, fun c => by simp, fun u v l _ _ h => (nomatch h)⟩
  have hmem : ∀ v, v < 2 * s.n → v ∈ r.reverseTopologicalOrder.reverse := fun v hv => by
    rw [List.mem_reverse, hr.order_mem]; exact ⟨hv, rfl⟩
  have some : ∀ v, v < 2 * s.n → ∃ l, (labels (succs s I.cs) r.sccIndex (directOnly s I r.sccIndex) r.reverseTopologicalOrder.reverse).label (r.sccIndex v) = some l := by
    intro v hv
    have := (hl.dom (r.sccIndex v)).2 ⟨v, by simpa using hmem v hv, rfl⟩
    exact Option.ne_none_iff_exists'.1 this
  obtain ⟨l, h1⟩ := some i (by omega)
  obtain ⟨k, h2⟩ := some j (by omega)
  unfold labelOf at e
  rw [h1, h2] at e
  simp only [Option.getD_some] at e
  subst e
  have := hl.same i j l (by omega) (by omega) h1 h2
  refine ⟨fun x hx => ?_, fun hx => ?_⟩
  · have := this.1 x; rw [valPt_lt hi, valPt_lt hj] at this; exact this hx
  · have := this.2; rw [valExt_lt hi, valExt_lt hj] at this; exact this hx

/-! ## Unification -/

/-- only objects with the same label are unified -/
structure UniLab (lab : Nat → Nat) (u : Uni) : Prop where
  cls : ∀ x, lab (u.set.root x) = lab x
  root : ∀ l r, u.root l = some r → lab r = l
  pairs : ∀ p ∈ u.pairs, lab p.1 = lab p.2

theorem UniLab.step {lab : Nat → Nat} {u : Uni} (h : UniLab lab u) (i : Nat) : UniLab lab (uniStep lab u i) := by
  unfold uniStep
  split
  · exact h
  · split
    · rename_i r hr
      obtain ⟨h1, _, h3⟩ := unify_cases u.set i r
      have hri := h.cls i
      have hrr := h.cls r
      have hl := h.root _ r hr
      refine ⟨?_, ?_, ?_⟩
      · intro x
        dsimp only
        rcases h3 x with e | ⟨a | a, e | e⟩
        · rw [e]; exact h.cls x
        · rw [e, ← h.cls x, a]
        · rw [e, ← h.cls x, a]; omega
        · rw [e, ← h.cls x, a]; omega
        · rw [e, ← h.cls x, a]
      · intro l t ht
        dsimp only [upd] at ht
        split at ht
        · cases ht
          rcases h1 with e | e <;> rw [e] <;> omega
        · exact h.root l t ht
      · intro p hp
        rcases List.mem_append.1 hp with hp | hp
        · exact h.pairs p hp
        · rw [List.mem_singleton] at hp; subst hp; exact hl.symm
    · refine ⟨h.cls, ?_, h.pairs⟩
      intro l t ht
      dsimp only [upd] at ht
      split at ht
      · cases ht; exact Eq.symm ‹_›
      · exact h.root l t ht

theorem UniLab.fold {lab : Nat → Nat} : ∀ (l : List Nat) {u : Uni}, UniLab lab u → UniLab lab (l.foldl (uniStep lab) u)
  | [], _, h => h
  | i :: l, _, h => UniLab.fold l (h.step i)

theorem finish_pairs (h : ∀ i, s.root i = i) (r : Tarjan.Result) :
    ∀ p ∈ (finish s I r).pairs, labelOf s I r p.1 = labelOf s I r p.2 :=
  (UniLab.fold (lab := labelOf s I r) (List.range s.n) (u := { set := s, root := fun _ => none, pairs := [] })
    ⟨fun x => by rw [h], fun l r h => (nomatch h), fun p hp => (nomatch hp)⟩).pairs

end Ovs

/-- unifying objects that have the same solution keeps the solution -/
theorem sat_merge {A : Abs} {a b : Nat} {cs : List Constraint} {fn : Nat → Fn} {L : Sol} (h : Sat ⟨A, cs, fn⟩ L)
    (hs : ∀ i j, A.conn i j → A.conn j i) (ha : a < A.n) (hb : b < A.n) (hab : L.Sub a b) (hba : L.Sub b a) :
    Sat ⟨A.step (.unify a b), cs, fn⟩ L := by
  -- all of the class have the solution of `a` and of `b`
  have eqv : ∀ i, (A.conn i a ∨ A.conn i b) → (L.Sub i a ∧ L.Sub i b) ∧ (L.Sub a i ∧ L.Sub b i) := by
    have tr : ∀ {x y z}, L.Sub x y → L.Sub y z → L.Sub x z := fun h1 h2 => ⟨fun x hx => h1.1 x (h2.1 x hx), fun hx => h1.2 (h2.2 hx)⟩
    rintro i (hi | hi)
    · have h1 : L.Sub i a := h.unified a i (hs _ _ hi)
      have h2 : L.Sub a i := h.unified i a hi
      exact ⟨⟨h1, tr h1 hab⟩, h2, tr hba h2⟩
    · have h1 : L.Sub i b := h.unified b i (hs _ _ hi)
      have h2 : L.Sub b i := h.unified i b hi
      exact ⟨⟨tr h1 hba, h1⟩, tr hab h2, h2⟩
  refine ⟨?_, h.esc, ?_, ?_, ?_, h.implicit, h.escaped, ?_, ?_, h.cs, h.fns⟩
  · rintro i x (hx | ⟨hc, hx | hx⟩)
    · exact h.pts i x hx
    · exact (eqv i hc).1.1.1 x (h.pts a x hx)
    · exact (eqv i hc).1.2.1 x (h.pts b x hx)
  · rintro i (hx | ⟨hc, hx | hx⟩)
    · exact h.ext i hx
    · exact (eqv i hc).1.1.2 (h.ext a hx)
    · exact (eqv i hc).1.2.2 (h.ext b hx)
  · rintro i hi (hx | ⟨hc, hx | hx⟩)
    · exact h.pe i hi hx
    · exact fun x hp => h.pe a ha hx x ((eqv i hc).2.1.1 x hp)
    · exact fun x hp => h.pe b hb hx x ((eqv i hc).2.2.1 x hp)
  · rintro i j (hx | ⟨h1, h2⟩ | ⟨h1, h2⟩)
    · exact h.unified i j hx
    · have a1 := (eqv i (Or.inl h1)).2.2
      have a2 := (eqv j (Or.inr (hs _ _ h2))).1.2
      exact ⟨fun x hx => a2.1 x (a1.1 x hx), fun hx => a2.2 (a1.2 hx)⟩
    · have a1 := (eqv i (Or.inr h1)).2.1
      have a2 := (eqv j (Or.inl (hs _ _ h2))).1.1
      exact ⟨fun x hx => a2.1 x (a1.1 x hx), fun hx => a2.2 (a1.2 hx)⟩
  · rintro i x hi (hx | ⟨hc, hx | hx⟩) hp
    · exact h.ss i x hi hx hp
    · exact h.ss a x ha hx ((eqv i hc).2.1.1 x hp)
    · exact h.ss b x hb hx ((eqv i hc).2.2.1 x hp)
  · rintro i x hi (hx | ⟨hc, hx | hx⟩) hp
    · exact h.ls i x hi hx hp
    · exact h.ls a x ha hx ((eqv i hc).2.1.1 x hp)
    · exact h.ls b x hb hx ((eqv i hc).2.2.1 x hp)

theorem sat_mergeOps : ∀ (l : List (Nat × Nat)) {A : Abs} {cs : List Constraint} {fn : Nat → Fn} {L : Sol}, Sat ⟨A, cs, fn⟩ L →
    (∀ i j, A.conn i j → A.conn j i) → (∀ p ∈ l, (p.1 < A.n ∧ p.2 < A.n) ∧ L.Sub p.1 p.2 ∧ L.Sub p.2 p.1) →
    Sat ⟨A.run (unifyOps l), cs, fn⟩ L
  | [], _, _, _, _, h, _, _ => h
  | p :: l, A, _, _, _, h, hs, hp => by
    obtain ⟨⟨h1, h2⟩, h3, h4⟩ := hp p List.mem_cons_self
    refine sat_mergeOps l (A := A.step (.unify p.1 p.2)) (sat_merge h hs h1 h2 h3 h4) ?_ (fun q hq => hp q (List.mem_cons_of_mem _ hq))
    rintro i j (h | ⟨a, b⟩ | ⟨a, b⟩)
    · exact Or.inl (hs _ _ h)
    · exact Or.inr (Or.inr ⟨hs _ _ b, hs _ _ a⟩)
    · exact Or.inr (Or.inl ⟨hs _ _ b, hs _ _ a⟩)

theorem root_markPE (s : RSet) (a : Nat) : (s.markPE a).2.root = s.root := by
  unfold RSet.markPE
  split <;> rfl

theorem root_markPTE (s : RSet) (a : Nat) : (s.markPTE a).2.root = s.root := by
  unfold RSet.markPTE
  split <;> rfl

theorem root_markSS (s : RSet) (a : Nat) : (s.markSS a).2.root = s.root := by
  unfold RSet.markSS
  split <;> rfl

theorem root_markLS (s : RSet) (a : Nat) : (s.markLS a).2.root = s.root := by
  unfold RSet.markLS
  split <;> rfl

/-- without unification every object is its own root -/
theorem root_of_no_unify : ∀ (ops : List POp) (s : RSet), (∀ i, s.root i = i) → (∀ a b, .unify a b ∉ ops) → ∀ i, (s.run ops).root i = i
  | [], s, h, _ => h
  | op :: ops, s, h, hu => by
    refine root_of_no_unify ops _ ?_ (fun a b hm => hu a b (List.mem_cons_of_mem _ hm))
    intro i
    cases op with
    | add k c =>
      show upd s.root s.n s.n i = i
      unfold upd; split
      · exact Eq.symm ‹_›
      · exact h i
    | unify a b => exact absurd List.mem_cons_self (hu a b)
    | lookup a => exact h i
    | addPointee a b => exact h i
    | makeSuperset a b =>
      show (s.makeSuperset a b).2.root i = i
      unfold RSet.makeSuperset
      dsimp only
      split
      · exact h i
      · split
        · dsimp only; rw [root_markPTE]; exact h i
        · exact h i
    | removeAll a => exact h i
    | markPE a => show (s.markPE a).2.root i = i; rw [root_markPE]; exact h i
    | markPTE a => show (s.markPTE a).2.root i = i; rw [root_markPTE]; exact h i
    | markSS a => show (s.markSS a).2.root i = i; rw [root_markSS]; exact h i
    | markLS a => show (s.markLS a).2.root i = i; rw [root_markLS]; exact h i
    | markEscaped a =>
      show (s.markEscaped a).2.root i = i
      unfold RSet.markEscaped
      split
      · exact h i
      · dsimp only; rw [root_markPTE, root_markPE]; exact h i

/-- only memory objects are pointed to or escape in the least solution -/
theorem least_mem (ops : List POp) (hok : Abs.empty.OkAll ops) (cs : List Constraint) (fn : Nat → Fn)
    (hr : (Problem.mk (Abs.empty.run ops) cs fn).InRange) (fns : List Nat) (hf : FnsOk ⟨Abs.empty.run ops, cs, fn⟩ fns)
    (K : Sol) (hK : IsLeast ⟨Abs.empty.run ops, cs, fn⟩ K) :
    (∀ i x, K.pt i x → x < (Abs.empty.run ops).n ∧ (Abs.empty.run ops).kind x ≠ .register) ∧
    (∀ x, K.esc x → x < (Abs.empty.run ops).n ∧ (Abs.empty.run ops).kind x ≠ .register) := by
  have g := good_start ops hok cs fn
  obtain ⟨r, e, g', hs⟩ := solveNaively_spec (ord := fun s i => s.pointees i) (fun s i x => Iff.rfl) hr hf
    ((Abs.empty.run ops).n * (Abs.empty.run ops).n + 3 * (Abs.empty.run ops).n + 1) g (by dsimp only; omega)
  have le := hK.2 _ hs
  have w := g'.2.wf
  have hn := g'.2.n
  have hk := g'.2.kind
  have hesc : ∀ x, r.abs.esc x → x < (Abs.empty.run ops).n ∧ (Abs.empty.run ops).kind x ≠ .register := by
    intro x hx
    have := w.esc x hx
    rw [hk] at this; rw [hn] at this
    exact ⟨this.1, this.2.1⟩
  refine ⟨?_, fun x hx => hesc x (le.2.1 x hx)⟩
  intro i x hx
  rcases le.1 i x hx with h | ⟨_, h⟩
  · have := w.ptsLt i x h
    rw [hk] at this; rw [hn] at this
    exact this
  · exact hesc x h

/-- **C23, substitution, exactness**: if no objects were unified before, no register without explicit
pointees is flagged as pointing to external, and no store that lies on a cycle of the offline graph
goes through a pointer that points to nothing in the solution, then offline variable substitution
does not change the solution. -/
theorem C23_ovs_exact_cycles_partial (ops : List POp) (hok : Abs.empty.OkAll ops) (hu : ∀ a b, .unify a b ∉ ops) (I : Ovs.In)
    (hr : (Problem.mk (Abs.empty.run ops) I.cs I.fn).InRange) (hf : FnsOk ⟨Abs.empty.run ops, I.cs, I.fn⟩ I.fns)
    (hregs : ∀ i ∈ I.regs, i < (Abs.empty.run ops).n ∧ (Abs.empty.run ops).kind i = .register)
    (hflag : ∀ i ∈ I.regs, (Abs.empty.run ops).pte i → ∃ x, (Abs.empty.run ops).pts i x)
    (hlive : ∀ K, IsLeast ⟨Abs.empty.run ops, I.cs, I.fn⟩ K → ∀ p v, .store p v ∈ I.cs →
      Tarjan.Reach (Ovs.graph (RSet.empty.run ops) I.cs) (p + (Abs.empty.run ops).n) v → (∃ x, K.pt p x) ∨ K.ext p) :
    ∃ o, Ovs.perform (RSet.empty.run ops) I = some o ∧ o.set = RSet.empty.run (ops ++ unifyOps o.pairs) ∧
      ∀ K, IsLeast ⟨Abs.empty.run (ops ++ unifyOps o.pairs), I.cs, I.fn⟩ K ↔ IsLeast ⟨Abs.empty.run ops, I.cs, I.fn⟩ K := by
  have ha := abs_run_empty ops hok
  have hn : (Abs.empty.run ops).n = (RSet.empty.run ops).n := by rw [← ha]; rfl
  have hroot := root_of_no_unify ops RSet.empty (fun _ => rfl) hu
  have hlt : ∀ i, i < (RSet.empty.run ops).n → (RSet.empty.run ops).root i < (RSet.empty.run ops).n := fun i hi => by rw [hroot]; exact hi
  obtain ⟨r, h1, h2, h3⟩ := Tarjan.C14_scc_identity (2 * (RSet.empty.run ops).n) (Ovs.succs (RSet.empty.run ops) I.cs)
    (fun v _ w hw => (Ovs.succs_lt hlt (fun c hc => hn ▸ hr.cs c hc) hw).2) (fun _ => 0)
  obtain ⟨f1, f2⟩ := Ovs.finish_ok (s := RSet.empty.run ops) hlt I r
  have f3 := Ovs.finish_pairs (s := RSet.empty.run ops) (I := I) hroot r
  refine ⟨Ovs.finish (RSet.empty.run ops) I r, by unfold Ovs.perform; rw [h1]; rfl, by rw [run_append]; exact f1, ?_⟩
  have back : ∀ L, Sat ⟨Abs.empty.run (ops ++ unifyOps (Ovs.finish (RSet.empty.run ops) I r).pairs), I.cs, I.fn⟩ L →
      Sat ⟨Abs.empty.run ops, I.cs, I.fn⟩ L := by
    intro L hL
    rw [Abs.run_append] at hL
    exact sat_unifyOps _ hL
  have fwd : ∀ L, IsLeast ⟨Abs.empty.run ops, I.cs, I.fn⟩ L →
      Sat ⟨Abs.empty.run (ops ++ unifyOps (Ovs.finish (RSet.empty.run ops) I r).pairs), I.cs, I.fn⟩ L := by
    intro L hL
    obtain ⟨m1, m2⟩ := least_mem ops hok I.cs I.fn hr I.fns hf L hL
    have hyp : Ovs.Hyp (RSet.empty.run ops) I L := by
      refine ⟨hroot, ?_, ?_, ?_, ?_, ?_, ?_, ?_, ?_, ?_⟩
      · rw [ha]; exact hL.1
      · rw [ha]; exact hL.2
      · rw [ha]; exact hr
      · rw [ha]; exact hf
      · rw [ha, ← hn]; exact hregs
      · rw [ha]; exact hflag
      · rw [ha, ← hn]; exact m1
      · rw [ha]; exact fun x hx => (m2 x hx).2
      · rw [← hn]; exact hlive L hL
    rw [Abs.run_append]
    refine sat_mergeOps _ hL.1 ?_ ?_
    · intro i j hij; exact (C20_shared ops hok).equiv.symm hij
    · intro p hp
      obtain ⟨p1, p2⟩ := f2 p hp
      rw [hn]
      exact ⟨⟨p1, p2⟩, hyp.same_label h2 p2 p1 (f3 p hp).symm, hyp.same_label h2 p1 p2 (f3 p hp)⟩
  obtain ⟨k, _, hk⟩ := C21_naive ops hok I.cs I.fn hr I.fns hf (fun s i => s.pointees i) (fun s i x => Iff.rfl) _ (Nat.lt_succ_self _)
  intro L
  constructor
  · intro hL
    refine ⟨back L hL.1, fun M hM => ?_⟩
    have l1 := hL.2 _ (fwd _ hk)
    have l2 := hk.2 M hM
    exact ⟨fun i x h => l2.1 i x (l1.1 i x h), fun x h => l2.2.1 x (l1.2.1 x h), fun i h => l2.2.2 i (l1.2.2 i h)⟩
  · intro hL
    exact ⟨fwd L hL, fun M hM => hL.2 M (back M hM)⟩

/-- **C23, substitution, exactness**: the simpler condition that whatever is stored through points to
something in the solution. -/
theorem C23_ovs_exact_partial (ops : List POp) (hok : Abs.empty.OkAll ops) (hu : ∀ a b, .unify a b ∉ ops) (I : Ovs.In)
    (hr : (Problem.mk (Abs.empty.run ops) I.cs I.fn).InRange) (hf : FnsOk ⟨Abs.empty.run ops, I.cs, I.fn⟩ I.fns)
    (hregs : ∀ i ∈ I.regs, i < (Abs.empty.run ops).n ∧ (Abs.empty.run ops).kind i = .register)
    (hflag : ∀ i ∈ I.regs, (Abs.empty.run ops).pte i → ∃ x, (Abs.empty.run ops).pts i x)
    (hlive : ∀ K, IsLeast ⟨Abs.empty.run ops, I.cs, I.fn⟩ K → ∀ p v, .store p v ∈ I.cs → (∃ x, K.pt p x) ∨ K.ext p) :
    ∃ o, Ovs.perform (RSet.empty.run ops) I = some o ∧ o.set = RSet.empty.run (ops ++ unifyOps o.pairs) ∧
      ∀ K, IsLeast ⟨Abs.empty.run (ops ++ unifyOps o.pairs), I.cs, I.fn⟩ K ↔ IsLeast ⟨Abs.empty.run ops, I.cs, I.fn⟩ K :=
  C23_ovs_exact_cycles_partial ops hok hu I hr hf hregs hflag (fun K hK p v h _ => hlive K hK p v h)

end Jlm.Llvm.Aa
