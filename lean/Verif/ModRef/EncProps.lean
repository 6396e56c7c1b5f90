import Verif.ModRef.EncSpec

set_option linter.unusedSimpArgs false
set_option linter.unusedVariables false

/-! # C50: memory states carry the memory -/

namespace Jlm.ModRef.Enc

/-! ## State maps -/

theorem existing_lookup (st : StateMap) (set : List Nat) (m : Nat) : (existing st set).lookup m = if m ∈ set then st m else none := by
  unfold existing
  induction set with
  | nil => simp
  | cons k ks ih =>
      rw [List.filterMap_cons]
      cases hk : st k with
      | none =>
          simp only [Option.map_none]
          rw [ih]
          by_cases hm : m = k
          · subst hm
            simp [hk]
          · simp [hm]
      | some o =>
          simp only [Option.map_some, List.lookup_cons]
          by_cases hm : m = k
          · subst hm
            simp [hk]
          · have : (m == k) = false := by simpa using hm
            rw [this]
            simp only [ih, List.mem_cons, hm, false_or]

theorem mem_existing {st : StateMap} {set : List Nat} {p : Nat × Out} : p ∈ existing st set ↔ p.1 ∈ set ∧ st p.1 = some p.2 := by
  unfold existing
  rw [List.mem_filterMap]
  constructor
  · rintro ⟨m, hm, h⟩
    cases hs : st m with
    | none => rw [hs] at h; cases h
    | some o => rw [hs] at h; simp at h; subst h; exact ⟨hm, hs⟩
  · rintro ⟨h1, h2⟩
    exact ⟨p.1, h1, by rw [h2]; rfl⟩

theorem mem_keys_existing {st : StateMap} {set : List Nat} {m : Nat} : (∃ p ∈ existing st set, p.1 = m) ↔ m ∈ set ∧ st m ≠ none := by
  constructor
  · rintro ⟨p, hp, rfl⟩
    have := mem_existing.1 hp
    exact ⟨this.1, by rw [this.2]; simp⟩
  · rintro ⟨h1, h2⟩
    cases hs : st m with
    | none => exact absurd hs h2
    | some o => exact ⟨(m, o), mem_existing.2 ⟨h1, hs⟩, rfl⟩

open Classical in
theorem replace_apply (ps : List (Nat × Out)) (i : Nat) : ∀ (st : StateMap) (m : Nat),
    st.replace ps i m = if ∃ p ∈ ps, p.1 = m then some (.node i m) else st m := by
  unfold StateMap.replace
  induction ps with
  | nil => intro st m; simp
  | cons p ps ih =>
      intro st m
      rw [List.foldl_cons, ih]
      by_cases h : ∃ q ∈ ps, q.1 = m
      · rw [if_pos h, if_pos]
        obtain ⟨q, hq, he⟩ := h
        exact ⟨q, List.mem_cons_of_mem _ hq, he⟩
      · rw [if_neg h]
        unfold StateMap.put
        by_cases hm : m = p.1
        · rw [if_pos hm, if_pos ⟨p, by simp, hm.symm⟩, hm]
        · rw [if_neg hm, if_neg]
          rintro ⟨q, hq, he⟩
          rcases List.mem_cons.1 hq with rfl | hq
          · exact hm he.symm
          · exact h ⟨q, hq, he⟩

/-- Memory nodes with a state. -/
def dom (st : StateMap) (m : Nat) : Prop := st m ≠ none

def Out.below (k : Nat) : Out → Prop
  | .arg _ => True
  | .node i _ => i < k

def Below (st : StateMap) (k : Nat) : Prop := ∀ m o, st m = some o → o.below k

theorem Out.below_mono {k k' : Nat} (h : k ≤ k') {o : Out} (ho : o.below k) : o.below k' := by
  cases o with
  | arg => trivial
  | node i m => exact Nat.lt_of_lt_of_le ho h

theorem Below.replace {st : StateMap} {i : Nat} (h : Below st i) (ps : List (Nat × Out)) : Below (st.replace ps i) (i + 1) := by
  intro m o ho
  rw [replace_apply] at ho
  split at ho
  · cases ho; exact Nat.lt_succ_self i
  · exact Out.below_mono (Nat.le_succ i) (h m o ho)

theorem dom_replace {st : StateMap} {set : List Nat} {i : Nat} (m : Nat) : dom (st.replace (existing st set) i) m ↔ dom st m := by
  unfold dom
  rw [replace_apply]
  split
  · next h => simp; exact (mem_keys_existing.1 h).2
  · rfl

/-! ## Executions -/

variable {D : Type} {S : Sem D}

theorem value_congr {α : Memory D} {σ σ' : Nat → Nat → D} {k : Nat} (h : ∀ j < k, σ' j = σ j) {o : Out} (ho : o.below k) :
    value α σ' o = value α σ o := by
  cases o with
  | arg => rfl
  | node i m => simp only [value]; rw [h i ho]

/-- The memory is what the states carry. -/
def Carries (S : Sem D) (val : Out → D) (st : StateMap) (M : Memory D) : Prop :=
  ∀ m, M m = match st m with
    | some o => val o
    | none => S.none

theorem Carries.some {val : Out → D} {st : StateMap} {M : Memory D} (h : Carries S val st M) {m : Nat} {o : Out} (hm : st m = some o) :
    M m = val o := by rw [h m, hm]

theorem Carries.none {val : Out → D} {st : StateMap} {M : Memory D} (h : Carries S val st M) {m : Nat} (hm : st m = none) :
    M m = S.none := by rw [h m, hm]

theorem Carries.congr {α : Memory D} {σ σ' : Nat → Nat → D} {k : Nat} {st : StateMap} {M : Memory D} (h : Carries S (value α σ) st M)
    (hb : Below st k) (hs : ∀ j < k, σ' j = σ j) : Carries S (value α σ') st M := by
  intro m
  cases hm : st m with
  | none => exact h.none hm
  | some o => rw [h.some hm]; exact (value_congr hs (hb m o hm)).symm

theorem view_existing {val : Out → D} {st : StateMap} {M : Memory D} (h : Carries S val st M) (set : List Nat) :
    view S val (existing st set) = mask S set M := by
  funext m
  unfold view mask
  rw [existing_lookup]
  by_cases hm : m ∈ set
  · rw [if_pos hm, if_pos hm, h m]
    cases st m <;> rfl
  · rw [if_neg hm, if_neg hm]

/-- Operands of a node. -/
def operands : GNode → List Out
  | .simple _ ss => ss.map (·.2)
  | .struct _ ss _ => ss.map (·.2)
  | .join _ a b => [a, b]

theorem view_congr {val val' : Out → D} (ss : List (Nat × Out)) (h : ∀ o ∈ ss.map (·.2), val' o = val o) : view S val' ss = view S val ss := by
  funext m
  unfold view
  cases hl : ss.lookup m with
  | none => rfl
  | some o =>
      simp only
      refine h o ?_
      clear h
      induction ss with
      | nil => simp at hl
      | cons p ss ih =>
          rw [List.lookup_cons] at hl
          split at hl
          · cases hl; simp
          · exact List.mem_cons_of_mem _ (ih hl)

theorem holds_congr {env : Nat → D} {val val' : Out → D} {out out' : Memory D} {n : GNode} (h : ∀ o ∈ operands n, val' o = val o)
    (ho : out' = out) (hn : holds S env val out n) : holds S env val' out' n := by
  subst ho
  cases n with
  | simple n ss =>
      unfold holds at hn ⊢
      split at hn
      · next ha => rw [if_pos ha]; exact hn
      · next ha => rw [if_neg ha, view_congr ss h]; exact hn
  | struct h' ss rs =>
      unfold holds at hn ⊢
      rw [view_congr ss h]; exact hn
  | join m a b =>
      unfold holds at hn ⊢
      rw [hn, h a (by simp [operands]), h b (by simp [operands])]

/-- The operands of the nodes come from before. -/
def Acyclic (i : Nat) : List GNode → Prop
  | [] => True
  | n :: ns => (∀ o ∈ operands n, o.below i) ∧ Acyclic (i + 1) ns

theorem Acyclic.append {ns ms : List GNode} : ∀ {i : Nat}, Acyclic i ns → Acyclic (i + ns.length) ms → Acyclic i (ns ++ ms) := by
  induction ns with
  | nil => intro i _ h; exact h
  | cons n ns ih =>
      intro i h1 h2
      refine ⟨h1.1, ih h1.2 ?_⟩
      rw [show i + 1 + ns.length = i + (n :: ns).length by simp; omega]
      exact h2

theorem allHold_append {env : Nat → D} {α : Memory D} {σ : Nat → Nat → D} (ns ms : List GNode) : ∀ (i : Nat),
    allHold S env α σ i (ns ++ ms) ↔ allHold S env α σ i ns ∧ allHold S env α σ (i + ns.length) ms := by
  induction ns with
  | nil => intro i; simp [allHold]
  | cons n ns ih =>
      intro i
      simp only [List.cons_append, allHold, ih, and_assoc]
      rw [show i + 1 + ns.length = i + (n :: ns).length by simp; omega]

theorem allHold_congr {env : Nat → D} {α : Memory D} {σ σ' : Nat → Nat → D} (ns : List GNode) : ∀ (i : Nat), Acyclic i ns →
    (∀ j < i + ns.length, σ' j = σ j) → allHold S env α σ i ns → allHold S env α σ' i ns := by
  induction ns with
  | nil => intro i _ _ _; simp [allHold]
  | cons n ns ih =>
      intro i ha hs h
      simp only [allHold] at h ⊢
      simp only [List.length_cons] at hs
      refine ⟨holds_congr (fun o ho => value_congr (k := i) (fun j hj => hs j (by omega)) (ha.1 o ho)) (hs i (by omega)) h.1, ?_⟩
      exact ih (i + 1) ha.2 (fun j hj => hs j (by omega)) h.2

/-! ## Claims about nodes and regions -/

/-- No memory outside of `A`. -/
def Supp (S : Sem D) (A : Nat → Prop) (M : Memory D) : Prop := ∀ m, ¬ A m → M m = S.none

/-- Both do the same on memory in `A`. -/
def Same (S : Sem D) (A : Nat → Prop) (r r' : Rel D) : Prop :=
  ∀ v M v' M', Supp S A M → (r v M v' M' ↔ r' v M v' M') ∧ (r v M v' M' → Supp S A M')

def NodeOk (S : Sem D) (n : Node) : Prop :=
  ∀ (st : StateMap) (i : Nat) (env : Nat → D) (α : Memory D) (σ : Nat → Nat → D) (M : Memory D), Below st i →
    fitsNode S.foot (dom st) n → Carries S (value α σ) st M →
    (allHold S env α σ i (encNode st i n).1 → ∃ M', stepP S env n M M' ∧ Carries S (value α σ) (encNode st i n).2 M') ∧
    (∀ M', stepP S env n M M' → ∃ σ', (∀ j < i, σ' j = σ j) ∧ allHold S env α σ' i (encNode st i n).1 ∧
      Carries S (value α σ') (encNode st i n).2 M')

def NodesOk (S : Sem D) (ns : List Node) : Prop :=
  ∀ (st : StateMap) (i : Nat) (env : Nat → D) (α : Memory D) (σ : Nat → Nat → D) (M : Memory D), Below st i →
    fitsNodes S.foot (dom st) ns → Carries S (value α σ) st M →
    (allHold S env α σ i (encNodes st i ns).1 → ∃ M', runP S env ns M M' ∧ Carries S (value α σ) (encNodes st i ns).2 M') ∧
    (∀ M', runP S env ns M M' → ∃ σ', (∀ j < i, σ' j = σ j) ∧ allHold S env α σ' i (encNodes st i ns).1 ∧
      Carries S (value α σ') (encNodes st i ns).2 M')

def RegionOk (S : Sem D) (r : Region) : Prop :=
  ∀ (ps : List (Nat × Out)) (set : List Nat), (∀ p ∈ ps, p.1 ∈ set) → fitsRegion S.foot (fun m => ∃ p ∈ ps, p.1 = m) set r →
    Same S (fun m => ∃ p ∈ ps, p.1 = m) (relG S (encRegion ps r)) (relP S set r)

def RegionsOk (S : Sem D) (rs : List Region) : Prop :=
  ∀ (ps : List (Nat × Out)) (set : List Nat), (∀ p ∈ ps, p.1 ∈ set) → fitsRegions S.foot (fun m => ∃ p ∈ ps, p.1 = m) set rs →
    ∀ k : Nat, ((relsG S (encRegions ps rs))[k]? = none ∧ (relsP S set rs)[k]? = none) ∨
      ∃ r r', (relsG S (encRegions ps rs))[k]? = some r ∧ (relsP S set rs)[k]? = some r' ∧ Same S (fun m => ∃ p ∈ ps, p.1 = m) r r'

/-! ## State maps after nodes -/

theorem encNode_spec {foot : Nat → List Nat} (n : Node) (st : StateMap) (i : Nat) (hb : Below st i) (hf : fitsNode foot (dom st) n) :
    Below (encNode st i n).2 (i + (encNode st i n).1.length) ∧ Acyclic i (encNode st i n).1 ∧
    ∀ m, dom (encNode st i n).2 m ↔ availAfter (dom st) n m := by
  cases n with
  | struct h rs =>
      simp only [encNode, List.length_singleton]
      refine ⟨hb.replace _, ⟨?_, trivial⟩, fun m => dom_replace m⟩
      intro o ho
      obtain ⟨p, hp, rfl⟩ := List.mem_map.1 ho
      exact hb p.1 p.2 (mem_existing.1 hp).2
  | simple n =>
      unfold encNode
      by_cases ha : n.alloc = true
      · rw [if_pos ha]
        unfold fitsNode at hf
        rw [if_pos ha] at hf
        cases hs : n.set with
        | nil =>
            simp only [List.length_singleton]
            refine ⟨fun m o h => Out.below_mono (Nat.le_succ i) (hb m o h), ⟨by simp [operands], trivial⟩, ?_⟩
            intro m; simp [availAfter, hs]
        | cons k ks =>
            have hks : ks = [] := by
              rw [hs] at hf
              cases ks with
              | nil => rfl
              | cons a b => simp at hf
            subst hks
            simp only
            have hdom : ∀ (o : Out) (m : Nat), dom (st.put k o) m ↔ availAfter (dom st) (.simple n) m := by
              intro o m
              simp only [dom, StateMap.put, availAfter, hs, ha, List.mem_singleton, true_and]
              by_cases hm : m = k
              · simp [hm]
              · simp [hm]
            cases hk : st k with
            | none =>
                simp only [List.length_singleton]
                refine ⟨?_, ⟨by simp [operands], trivial⟩, hdom _⟩
                intro m o h
                unfold StateMap.put at h
                split at h
                · cases h; exact Nat.lt_succ_self i
                · exact Out.below_mono (Nat.le_succ i) (hb m o h)
            | some o' =>
                simp only [List.length_cons, List.length_nil]
                refine ⟨?_, ⟨by simp [operands], ?_, trivial⟩, hdom _⟩
                · intro m o h
                  unfold StateMap.put at h
                  split at h
                  · cases h; show i + 1 < _; omega
                  · exact Out.below_mono (by omega) (hb m o h)
                · intro o ho
                  simp [operands] at ho
                  rcases ho with rfl | rfl
                  · exact Nat.lt_succ_self i
                  · exact Out.below_mono (Nat.le_succ i) (hb k _ hk)
      · rw [if_neg ha]
        simp only [List.length_singleton]
        refine ⟨hb.replace _, ⟨?_, trivial⟩, fun m => (dom_replace m).trans (by simp [availAfter, ha])⟩
        intro o ho
        obtain ⟨p, hp, rfl⟩ := List.mem_map.1 ho
        exact hb p.1 p.2 (mem_existing.1 hp).2

theorem avail_congr {A B : Nat → Prop} (h : ∀ m, A m ↔ B m) : A = B := funext fun m => propext (h m)

theorem encNodes_spec {foot : Nat → List Nat} (ns : List Node) : ∀ (st : StateMap) (i : Nat), Below st i → fitsNodes foot (dom st) ns →
    Below (encNodes st i ns).2 (i + (encNodes st i ns).1.length) ∧ Acyclic i (encNodes st i ns).1 ∧
    ∀ m, dom (encNodes st i ns).2 m ↔ dom st m ∨ ∃ n, Node.simple n ∈ ns ∧ n.alloc = true ∧ m ∈ n.set := by
  induction ns with
  | nil => intro st i hb _; simp only [encNodes, List.length_nil, Nat.add_zero]; exact ⟨hb, trivial, by simp⟩
  | cons n ns ih =>
      intro st i hb hf
      simp only [fitsNodes] at hf
      obtain ⟨h1, h2, h3⟩ := encNode_spec n st i hb hf.1
      rw [← avail_congr h3] at hf
      obtain ⟨k1, k2, k3⟩ := ih _ _ h1 hf.2
      simp only [encNodes, List.length_append]
      refine ⟨by rw [← Nat.add_assoc]; exact k1, h2.append k2, ?_⟩
      intro m
      rw [k3, h3]
      cases n with
      | simple n =>
          simp only [availAfter, List.mem_cons, Node.simple.injEq]
          constructor
          · rintro ((h | ⟨ha, hm⟩) | ⟨q, hq, h⟩)
            · exact Or.inl h
            · exact Or.inr ⟨n, Or.inl rfl, ha, hm⟩
            · exact Or.inr ⟨q, Or.inr hq, h⟩
          · rintro (h | ⟨q, rfl | hq, h⟩)
            · exact Or.inl (Or.inl h)
            · exact Or.inl (Or.inr h)
            · exact Or.inr ⟨q, hq, h⟩
      | struct h rs => simp [availAfter]

/-! ## Simple nodes -/

theorem simple_ok (hS : S.Local) (n : Simple) : NodeOk S (.simple n) := by
  intro st i env α σ M hb hf hM
  unfold fitsNode at hf
  unfold encNode
  by_cases ha : n.alloc = true
  · simp only [if_pos ha] at hf ⊢
    cases hs : n.set with
    | nil =>
        simp only
        constructor
        · intro h
          simp only [allHold, holds, if_pos ha, and_true] at h
          obtain ⟨c, hc, _⟩ := h
          refine ⟨M, ?_, hM⟩
          simp only [stepP, if_pos ha]
          exact ⟨c, hc, by simp [hs]⟩
        · intro M' h
          simp only [stepP, if_pos ha] at h
          obtain ⟨c, hc, rfl⟩ := h
          refine ⟨σ, fun _ _ => rfl, ?_, ?_⟩
          · simp only [allHold, holds, if_pos ha, and_true]
            exact ⟨c, hc, by simp [hs]⟩
          · simp only [hs, List.not_mem_nil, if_false]; exact hM
    | cons k ks =>
        have hks : ks = [] := by
          rw [hs] at hf
          cases ks with
          | nil => rfl
          | cons a b => simp at hf
        subst hks
        simp only
        cases hk : st k with
        | none =>
            simp only
            have hMk : M k = S.none := hM.none hk
            constructor
            · intro h
              simp only [allHold, holds, if_pos ha, and_true] at h
              obtain ⟨c, hc, ho⟩ := h
              refine ⟨fun m => if m ∈ n.set then S.join c (M m) else M m, ?_, ?_⟩
              · simp only [stepP, if_pos ha]; exact ⟨c, hc, rfl⟩
              · intro m
                simp only [StateMap.put, hs, List.mem_singleton]
                by_cases hm : m = k
                · subst hm
                  simp only [if_true]
                  rw [hMk, hS.join_none]
                  exact (ho m (by simp [hs])).symm
                · simp only [if_neg hm]; exact hM m
            · intro M' h
              simp only [stepP, if_pos ha] at h
              obtain ⟨c, hc, rfl⟩ := h
              refine ⟨fun j => if j = i then fun _ => c else σ j, fun j hj => by simp only; rw [if_neg (by omega)], ?_, ?_⟩
              · simp only [allHold, holds, if_pos ha, and_true]
                exact ⟨c, hc, fun m _ => by simp⟩
              · intro m
                simp only [StateMap.put, hs, List.mem_singleton]
                by_cases hm : m = k
                · subst hm
                  simp only [if_true, value]
                  rw [hMk, hS.join_none]
                · simp only [if_neg hm]
                  exact (hM.congr (k := i) hb (fun j hj => by rw [if_neg (by omega)])) m
        | some o =>
            simp only
            have hMk : M k = value α σ o := hM.some hk
            constructor
            · intro h
              simp only [allHold, holds, if_pos ha, and_true] at h
              obtain ⟨⟨c, hc, ho⟩, hj⟩ := h
              refine ⟨fun m => if m ∈ n.set then S.join c (M m) else M m, ?_, ?_⟩
              · simp only [stepP, if_pos ha]; exact ⟨c, hc, rfl⟩
              · intro m
                simp only [StateMap.put, hs, List.mem_singleton]
                by_cases hm : m = k
                · subst hm
                  simp only [if_true, value]
                  rw [hj, hMk]
                  simp only [value]
                  rw [ho m (by simp [hs])]
                · simp only [if_neg hm]; exact hM m
            · intro M' h
              simp only [stepP, if_pos ha] at h
              obtain ⟨c, hc, rfl⟩ := h
              have hlt : ∀ j < i, (fun j => if j = i then (fun _ => c) else if j = i + 1 then (fun _ => S.join c (M k)) else σ j) j = σ j := by
                intro j hj; simp only; rw [if_neg (by omega), if_neg (by omega)]
              refine ⟨fun j => if j = i then fun _ => c else if j = i + 1 then fun _ => S.join c (M k) else σ j, hlt, ?_, ?_⟩
              · simp only [allHold, holds, if_pos ha, and_true]
                refine ⟨⟨c, hc, fun m _ => by simp⟩, ?_⟩
                rw [value_congr hlt (hb k o hk), ← hMk]
                simp [value]
              · intro m
                simp only [StateMap.put, hs, List.mem_singleton]
                by_cases hm : m = k
                · subst hm
                  simp [value]
                · simp only [if_neg hm]
                  exact (hM.congr (k := i) hb hlt) m
  · simp only [if_neg ha] at hf ⊢
    have hv : ∀ σ', (∀ j < i, σ' j = σ j) → view S (value α σ') (existing st n.set) = mask S n.set M := fun σ' h =>
      view_existing (hM.congr hb h) n.set
    have hfoot : ∀ m ∈ S.foot n.op, mask S n.set M m = M m := fun m hm => by simp [mask, hf m hm]
    constructor
    · intro h
      simp only [allHold, holds, if_neg ha, and_true] at h
      obtain ⟨M1, ho, hout⟩ := h
      rw [hv σ fun _ _ => rfl] at ho
      refine ⟨fun m => if m ∈ S.foot n.op then M1 m else M m, ?_, ?_⟩
      · simp only [stepP, if_neg ha]
        exact hS.depends _ _ _ _ _ M ho (fun m hm => (hfoot m hm).symm)
      · intro m
        rw [replace_apply]
        by_cases hm : ∃ p ∈ existing st n.set, p.1 = m
        · rw [if_pos hm]
          obtain ⟨p, hp, rfl⟩ := hm
          simp only [value]
          rw [hout p hp]
          split
          · rfl
          · next hnf => rw [hS.keeps _ _ _ _ _ ho _ hnf]; simp [mask, (mem_existing.1 hp).1]
        · rw [if_neg hm]
          rw [← hM m]
          show (if m ∈ S.foot n.op then M1 m else M m) = M m
          split
          · next hfm =>
            have hin := hf m hfm
            have hnone : st m = none := by
              by_cases h : st m = none
              · exact h
              · exact absurd (mem_keys_existing.2 ⟨hin, h⟩) hm
            rw [hM.none hnone]
            refine hS.stays _ _ _ _ _ ho m ?_
            rw [hfoot m hfm, hM.none hnone]
          · rfl
    · intro M' h
      simp only [stepP, if_neg ha] at h
      have hlt : ∀ j < i, (fun j => if j = i then M' else σ j) j = σ j := fun j hj => by simp only; rw [if_neg (by omega)]
      refine ⟨fun j => if j = i then M' else σ j, hlt, ?_, ?_⟩
      · simp only [allHold, holds, if_neg ha, and_true]
        rw [hv _ hlt]
        refine ⟨_, hS.depends _ _ _ _ _ (mask S n.set M) h hfoot, ?_⟩
        intro p hp
        simp only [if_true]
        split
        · rfl
        · next hnf => rw [hS.keeps _ _ _ _ _ h _ hnf]; simp [mask, (mem_existing.1 hp).1]
      · intro m
        rw [replace_apply]
        by_cases hm : ∃ p ∈ existing st n.set, p.1 = m
        · rw [if_pos hm]; simp [value]
        · rw [if_neg hm]
          have hM' : M' m = M m := by
            by_cases hfm : m ∈ S.foot n.op
            · have hin := hf m hfm
              have hnone : st m = none := by
                by_cases h : st m = none
                · exact h
                · exact absurd (mem_keys_existing.2 ⟨hin, h⟩) hm
              rw [hM.none hnone]
              exact hS.stays _ _ _ _ _ h m (hM.none hnone)
            · exact hS.keeps _ _ _ _ _ h m hfm
          rw [hM']
          exact (hM.congr (k := i) hb hlt) m

/-! ## Structural nodes -/

theorem iter_same {A : Nat → Prop} {r r' : Rel D} (h : Same S A r r') {v : List D} {M : Memory D} {v' : List D} {M' : Memory D} :
    Supp S A M → (Iter S r v M v' M' → Iter S r' v M v' M' ∧ Supp S A M') := by
  intro hM hi
  induction hi with
  | @stop v M p v' M' hb hp => exact ⟨.stop ((h _ _ _ _ hM).1.1 hb) hp, (h _ _ _ _ hM).2 hb⟩
  | @again v M p v1 M1 v' M' hb hp _ ih =>
      have h1 := (h _ _ _ _ hM).2 hb
      exact ⟨.again ((h _ _ _ _ hM).1.1 hb) hp (ih h1).1, (ih h1).2⟩

theorem Same.symm {A : Nat → Prop} {r r' : Rel D} (h : Same S A r r') : Same S A r' r := by
  intro v M v' M' hM
  exact ⟨(h v M v' M' hM).1.symm, fun hr => (h v M v' M' hM).2 ((h v M v' M' hM).1.2 hr)⟩

theorem struct_same {A : Nat → Prop} {rs rs' : List (Rel D)} (theta : Bool)
    (h : ∀ k : Nat, (rs[k]? = none ∧ rs'[k]? = none) ∨ ∃ r r', rs[k]? = some r ∧ rs'[k]? = some r' ∧ Same S A r r') :
    Same S A (S.struct theta rs) (S.struct theta rs') := by
  have key : ∀ {rs rs' : List (Rel D)}, (∀ k : Nat, (rs[k]? = none ∧ rs'[k]? = none) ∨ ∃ r r', rs[k]? = some r ∧ rs'[k]? = some r' ∧ Same S A r r') →
      ∀ v M v' M', Supp S A M → S.struct theta rs v M v' M' → S.struct theta rs' v M v' M' ∧ Supp S A M' := by
    intro rs rs' h v M v' M' hM hr
    unfold Sem.struct at hr ⊢
    by_cases ht : theta = true
    · rw [if_pos ht] at hr ⊢
      obtain ⟨r, h0, hi⟩ := hr
      rcases h 0 with ⟨hn, _⟩ | ⟨q, q', hq, hq', hs⟩
      · rw [h0] at hn; cases hn
      · rw [h0] at hq; cases hq
        have := iter_same hs hM hi
        exact ⟨⟨q', hq', this.1⟩, this.2⟩
    · rw [if_neg ht] at hr ⊢
      obtain ⟨p, w, r, hv, h0, hi⟩ := hr
      rcases h (S.sel p) with ⟨hn, _⟩ | ⟨q, q', hq, hq', hs⟩
      · rw [h0] at hn; cases hn
      · rw [h0] at hq; cases hq
        exact ⟨⟨p, w, q', hv, hq', (hs _ _ _ _ hM).1.1 hi⟩, (hs _ _ _ _ hM).2 hi⟩
  intro v M v' M' hM
  refine ⟨⟨fun hr => (key h v M v' M' hM hr).1, fun hr => (key ?_ v M v' M' hM hr).1⟩, fun hr => (key h v M v' M' hM hr).2⟩
  intro k
  rcases h k with ⟨h1, h2⟩ | ⟨r, r', h1, h2, h3⟩
  · exact Or.inl ⟨h2, h1⟩
  · exact Or.inr ⟨r', r, h2, h1, h3.symm⟩

theorem struct_ok (h : Head) (rs : List Region) (hrs : RegionsOk S rs) : NodeOk S (.struct h rs) := by
  intro st i env α σ M hb hf hM
  unfold fitsNode at hf
  have hA : (fun m => m ∈ h.set ∧ dom st m) = fun m => ∃ p ∈ existing st h.set, p.1 = m := avail_congr fun m => mem_keys_existing.symm
  rw [hA] at hf
  have hsame := struct_same h.theta (hrs (existing st h.set) h.set (fun p hp => (mem_existing.1 hp).1) hf)
  have hsupp : Supp S (fun m => ∃ p ∈ existing st h.set, p.1 = m) (mask S h.set M) := by
    intro m hm
    unfold mask
    split
    · next hin =>
      have : st m = none := by
        by_cases h' : st m = none
        · exact h'
        · exact absurd (mem_keys_existing.2 ⟨hin, h'⟩) hm
      exact hM.none this
    · rfl
  have hv : ∀ σ', (∀ j < i, σ' j = σ j) → view S (value α σ') (existing st h.set) = mask S h.set M := fun σ' h' =>
    view_existing (hM.congr hb h') h.set
  have hnone : ∀ m, (¬ ∃ p ∈ existing st h.set, p.1 = m) → m ∈ h.set → M m = S.none := by
    intro m hm hin
    have := hsupp m hm
    simpa [mask, hin] using this
  simp only [encNode]
  constructor
  · intro hh
    simp only [allHold, holds, and_true] at hh
    obtain ⟨M1, ho, hout⟩ := hh
    rw [hv σ fun _ _ => rfl] at ho
    have hs1 := (hsame _ _ _ _ hsupp).2 ho
    refine ⟨fun m => if m ∈ h.set then M1 m else M m, ?_, ?_⟩
    · simp only [stepP]
      exact ⟨M1, (hsame _ _ _ _ hsupp).1.1 ho, rfl⟩
    · intro m
      rw [replace_apply]
      by_cases hm : ∃ p ∈ existing st h.set, p.1 = m
      · rw [if_pos hm]
        obtain ⟨p, hp, rfl⟩ := hm
        simp only [value]
        rw [hout p hp, if_pos (mem_existing.1 hp).1]
      · rw [if_neg hm, ← hM m]
        show (if m ∈ h.set then M1 m else M m) = M m
        split
        · next hin => rw [hs1 m hm, hnone m hm hin]
        · rfl
  · intro M' hh
    simp only [stepP] at hh
    obtain ⟨M1, ho, rfl⟩ := hh
    have hg := (hsame _ _ _ _ hsupp).1.2 ho
    have hs1 := (hsame _ _ _ _ hsupp).2 hg
    have hlt : ∀ j < i, (fun j => if j = i then M1 else σ j) j = σ j := fun j hj => by simp only; rw [if_neg (by omega)]
    refine ⟨fun j => if j = i then M1 else σ j, hlt, ?_, ?_⟩
    · simp only [allHold, holds, and_true]
      rw [hv _ hlt]
      exact ⟨M1, hg, fun p hp => by simp⟩
    · intro m
      rw [replace_apply]
      by_cases hm : ∃ p ∈ existing st h.set, p.1 = m
      · rw [if_pos hm]
        obtain ⟨p, hp, rfl⟩ := hm
        simp [value, (mem_existing.1 hp).1]
      · rw [if_neg hm]
        rw [← (hM.congr (k := i) hb hlt) m]
        show (if m ∈ h.set then M1 m else M m) = M m
        split
        · next hin => rw [hs1 m hm, hnone m hm hin]
        · rfl

/-! ## Lists of nodes and regions -/

theorem cons_ok {n : Node} {ns : List Node} (hn : NodeOk S n) (hns : NodesOk S ns) : NodesOk S (n :: ns) := by
  intro st i env α σ M hb hf hM
  simp only [fitsNodes] at hf
  obtain ⟨h1, h2, h3⟩ := encNode_spec n st i hb hf.1
  have hf2 := hf.2
  rw [← avail_congr h3] at hf2
  simp only [encNodes]
  constructor
  · intro h
    rw [allHold_append] at h
    obtain ⟨M1, hs, hc⟩ := (hn st i env α σ M hb hf.1 hM).1 h.1
    obtain ⟨M2, hs2, hc2⟩ := (hns _ _ env α σ M1 h1 hf2 hc).1 h.2
    exact ⟨M2, ⟨M1, hs, hs2⟩, hc2⟩
  · rintro M2 ⟨M1, hs, hs2⟩
    obtain ⟨σ1, e1, a1, c1⟩ := (hn st i env α σ M hb hf.1 hM).2 M1 hs
    obtain ⟨σ2, e2, a2, c2⟩ := (hns _ _ env α σ1 M1 h1 hf2 c1).2 M2 hs2
    refine ⟨σ2, fun j hj => (e2 j (by omega)).trans (e1 j hj), ?_, c2⟩
    rw [allHold_append]
    exact ⟨allHold_congr _ _ h2 e2 a1, a2⟩

theorem arguments_apply (ps : List (Nat × Out)) (m : Nat) : dom (arguments ps) m ↔ ∃ p ∈ ps, p.1 = m := by
  unfold dom arguments
  by_cases h : ps.any (fun p => p.1 == m) = true
  · simp only [h, if_true]
    simp only [List.any_eq_true, beq_iff_eq] at h
    simp
    obtain ⟨p, hp, he⟩ := h
    exact ⟨p.2, by rw [← he]; exact hp⟩
  · simp only [h, if_false]
    simp only [List.any_eq_true, beq_iff_eq] at h
    simp
    intro x hx
    exact h ⟨(m, x), hx, rfl⟩

open Classical in
theorem lookup_map_state (ps : List (Nat × Out)) (f : Nat → Option Out) (m : Nat) :
    (ps.map fun p => (p.1, f p.1)).lookup m = if ∃ p ∈ ps, p.1 = m then some (f m) else none := by
  induction ps with
  | nil => simp
  | cons p ps ih =>
      simp only [List.map_cons, List.lookup_cons]
      by_cases hm : m = p.1
      · have : (m == p.1) = true := by simpa using hm
        rw [this]
        simp only
        rw [if_pos ⟨p, by simp, hm.symm⟩, hm]
      · have : (m == p.1) = false := by simpa using hm
        rw [this]
        simp only
        rw [ih]
        by_cases h : ∃ q ∈ ps, q.1 = m
        · rw [if_pos h, if_pos]
          obtain ⟨q, hq, he⟩ := h
          exact ⟨q, List.mem_cons_of_mem _ hq, he⟩
        · rw [if_neg h, if_neg]
          rintro ⟨q, hq, he⟩
          rcases List.mem_cons.1 hq with rfl | hq
          · exact hm he.symm
          · exact h ⟨q, hq, he⟩

theorem region_mk_ok {args : List Nat} {nodes : List Node} {results : List Nat} (hns : NodesOk S nodes) : RegionOk S (.mk args nodes results) := by
  intro ps set hps hf v α v' β hα
  simp only [fitsRegion] at hf
  have hA : dom (arguments ps) = fun m => ∃ p ∈ ps, p.1 = m := avail_congr (arguments_apply ps)
  have hb : Below (arguments ps) 0 := by
    intro m o h
    unfold arguments at h
    split at h
    · cases h; trivial
    · cases h
  have hf1 := hf.1
  rw [← hA] at hf1
  obtain ⟨e1, e2, e3⟩ := encNodes_spec nodes (arguments ps) 0 hb hf1
  have hstart : ∀ σ, Carries S (value α σ) (arguments ps) (mask S set α) := by
    intro σ m
    by_cases hm : ∃ p ∈ ps, p.1 = m
    · have : arguments ps m = some (.arg m) := by
        unfold arguments
        rw [if_pos]
        obtain ⟨p, hp, he⟩ := hm
        exact List.any_eq_true.2 ⟨p, hp, by simpa using he⟩
      rw [this]
      obtain ⟨p, hp, rfl⟩ := hm
      simp [value, mask, hps p hp]
    · have : arguments ps m = none := by
        have := mt (arguments_apply ps m).1 hm
        unfold dom at this
        simpa using this
      rw [this]
      simp only [mask]
      split
      · exact hα m hm
      · rfl
  -- the memory after the nodes
  have hend : ∀ (σ : Nat → Nat → D) (M1 : Memory D), Carries S (value α σ) (encNodes (arguments ps) 0 nodes).2 M1 →
      (fun m => match (ps.map fun p => (p.1, (encNodes (arguments ps) 0 nodes).2 p.1)).lookup m with
        | some (some o) => value α σ o
        | _ => S.none) = mask S set M1 := by
    intro σ M1 hc
    funext m
    rw [lookup_map_state]
    by_cases hm : ∃ p ∈ ps, p.1 = m
    · rw [if_pos hm]
      have hin : m ∈ set := by obtain ⟨p, hp, rfl⟩ := hm; exact hps p hp
      simp only [mask, if_pos hin]
      rw [hc m]
      cases (encNodes (arguments ps) 0 nodes).2 m <;> rfl
    · rw [if_neg hm]
      simp only [mask]
      split
      · next hin =>
        symm
        refine hc.none ?_
        have : ¬ dom (encNodes (arguments ps) 0 nodes).2 m := by
          rw [e3]
          rintro (h | ⟨n, hn, ha, hmn⟩)
          · exact hm ((arguments_apply ps m).1 h)
          · exact hm (hf.2 n hn ha m hmn hin)
        unfold dom at this
        simpa using this
      · rfl
  have hsupp : relG S (encRegion ps (.mk args nodes results)) v α v' β → Supp S (fun m => ∃ p ∈ ps, p.1 = m) β := by
    intro h
    simp only [encRegion, relG] at h
    obtain ⟨env, σ, _, _, _, rfl⟩ := h
    intro m hm
    simp only
    rw [lookup_map_state, if_neg hm]
  refine ⟨⟨?_, ?_⟩, hsupp⟩
  · intro h
    simp only [encRegion, relG] at h
    obtain ⟨env, σ, h1, h2, h3, rfl⟩ := h
    obtain ⟨M1, hr, hc⟩ := (hns _ _ env α σ _ hb hf1 (hstart σ)).1 h3
    simp only [relP]
    exact ⟨env, M1, h1, h2, hr, hend σ M1 hc⟩
  · intro h
    simp only [relP] at h
    obtain ⟨env, M1, h1, h2, hr, rfl⟩ := h
    obtain ⟨σ, _, h3, hc⟩ := (hns _ _ env α (fun _ _ => S.none) _ hb hf1 (hstart _)).2 M1 hr
    simp only [encRegion, relG]
    exact ⟨env, σ, h1, h2, h3, (hend σ M1 hc).symm⟩

mutual
theorem node_ok (hS : S.Local) : ∀ n : Node, NodeOk S n
  | .simple n => simple_ok hS n
  | .struct h rs => struct_ok h rs (regions_ok hS rs)

theorem nodes_ok (hS : S.Local) : ∀ ns : List Node, NodesOk S ns
  | [] => by
      intro st i env α σ M hb hf hM
      simp only [encNodes]
      refine ⟨fun _ => ⟨M, rfl, hM⟩, ?_⟩
      intro M' h
      simp only [runP] at h
      subst h
      exact ⟨σ, fun _ _ => rfl, trivial, hM⟩
  | n :: ns => cons_ok (node_ok hS n) (nodes_ok hS ns)

theorem region_ok (hS : S.Local) : ∀ r : Region, RegionOk S r
  | .mk _ nodes _ => region_mk_ok (nodes_ok hS nodes)

theorem regions_ok (hS : S.Local) : ∀ rs : List Region, RegionsOk S rs
  | [] => by
      intro ps set _ _ k
      left
      simp [encRegions, relsG, relsP]
  | r :: rs => by
      intro ps set hps hf k
      simp only [fitsRegions] at hf
      cases k with
      | zero => exact Or.inr ⟨_, _, rfl, rfl, region_ok hS r ps set hps hf.1⟩
      | succ k => exact regions_ok hS rs ps set hps hf.2 k
end

/-! ## Functions -/

theorem lambda_keys (set : List Nat) : (fun m => ∃ p ∈ set.map (fun m => (m, Out.arg m)), p.1 = m) = fun m => m ∈ set :=
  avail_congr fun m => by
    constructor
    · rintro ⟨p, hp, rfl⟩
      obtain ⟨k, hk, rfl⟩ := List.mem_map.1 hp
      exact hk
    · intro h
      exact ⟨_, List.mem_map.2 ⟨m, h, rfl⟩, rfl⟩

/-- **C50** A function does the same before and after encoding: in the encoded function, values and memory states of the nodes fit together to
the result `v'` and the memory `M'` if and only if the nodes, executed one after the other on the memory, give them. There is no order in
the encoded function but its edges, so every evaluation order gives what the order of the program gives. -/
theorem C50_encode (hS : S.Local) (set : List Nat) (body : Region) (hf : fitsRegion S.foot (fun m => m ∈ set) set body)
    (v : List D) (M : Memory D) (v' : List D) (M' : Memory D) (hM : ∀ m, m ∉ set → M m = S.none) :
    relG S (encLambda set body) v M v' M' ↔ relP S set body v M v' M' := by
  have h := region_ok hS body (set.map fun m => (m, .arg m)) set (by simp) (by rw [lambda_keys]; exact hf)
  rw [lambda_keys] at h
  exact (h v M v' M' hM).1

/-! ## Encoded functions -/

def Ok (entry : List Nat) (st : StateMap) (k : Nat) : Prop := (∀ m ∈ entry, dom st m) ∧ ∀ m o, st m = some o → o.ok entry k

theorem Out.ok_mono {entry : List Nat} {k k' : Nat} (h : k ≤ k') {o : Out} (ho : o.ok entry k) : o.ok entry k' := by
  cases o with
  | arg => exact ho
  | node i m => exact Nat.lt_of_lt_of_le ho h

theorem Ok.put {entry : List Nat} {st : StateMap} {i k : Nat} (h : Ok entry st i) (m : Nat) {o : Out} (hk : i ≤ k) (ho : o.ok entry k) :
    Ok entry (st.put m o) k := by
  refine ⟨fun a ha => ?_, fun a o' h' => ?_⟩
  · unfold dom StateMap.put
    split
    · simp
    · exact h.1 a ha
  · unfold StateMap.put at h'
    split at h'
    · cases h'; exact ho
    · exact Out.ok_mono hk (h.2 a o' h')

theorem Ok.replace {entry : List Nat} {st : StateMap} {i : Nat} (h : Ok entry st i) (ps : List (Nat × Out)) :
    Ok entry (st.replace ps i) (i + 1) := by
  refine ⟨fun a ha => ?_, fun a o' h' => ?_⟩
  · unfold dom
    rw [replace_apply]
    split
    · simp
    · exact h.1 a ha
  · rw [replace_apply] at h'
    split at h'
    · cases h'; exact Nat.lt_succ_self i
    · exact Out.ok_mono (Nat.le_succ i) (h.2 a o' h')

theorem okNodes_append {entry : List Nat} {ns ms : List GNode} : ∀ {i : Nat}, okNodes entry i ns → okNodes entry (i + ns.length) ms →
    okNodes entry i (ns ++ ms) := by
  induction ns with
  | nil => intro i _ h; exact h
  | cons n ns ih =>
      intro i h1 h2
      simp only [okNodes, List.cons_append] at h1 ⊢
      refine ⟨h1.1, ih h1.2 ?_⟩
      rw [show i + 1 + ns.length = i + (n :: ns).length by simp; omega]
      exact h2

theorem arguments_ok (ps : List (Nat × Out)) : Ok (ps.map (·.1)) (arguments ps) 0 := by
  refine ⟨fun m hm => ?_, fun m o h => ?_⟩
  · rw [arguments_apply]
    obtain ⟨p, hp, he⟩ := List.mem_map.1 hm
    exact ⟨p, hp, he⟩
  · have : dom (arguments ps) m := by unfold dom; rw [h]; simp
    obtain ⟨p, hp, he⟩ := (arguments_apply ps m).1 this
    unfold arguments at h
    split at h
    · cases h; exact List.mem_map.2 ⟨p, hp, he⟩
    · cases h

mutual
theorem encNode_ok (entry : List Nat) : ∀ (n : Node) (st : StateMap) (i : Nat), Ok entry st i →
    okNodes entry i (encNode st i n).1 ∧ Ok entry (encNode st i n).2 (i + (encNode st i n).1.length)
  | .simple n, st, i, h => by
      unfold encNode
      split
      · cases hs : n.set with
        | nil =>
            simp only [okNodes, okNode, List.length_singleton]
            exact ⟨⟨by simp, trivial⟩, h.1, fun m o ho => Out.ok_mono (Nat.le_succ i) (h.2 m o ho)⟩
        | cons m ms =>
            simp only
            cases hk : st m with
            | none =>
                simp only [okNodes, okNode, List.length_singleton]
                exact ⟨⟨by simp, trivial⟩, h.put m (Nat.le_succ i) (Nat.lt_succ_self i)⟩
            | some o =>
                simp only [okNodes, okNode, List.length_cons, List.length_nil]
                exact ⟨⟨by simp, ⟨Nat.lt_succ_self i, Out.ok_mono (Nat.le_succ i) (h.2 m o hk)⟩, trivial⟩,
                  h.put m (by omega) (show i + 1 < _ by omega)⟩
      · simp only [okNodes, okNode, List.length_singleton]
        exact ⟨⟨fun p hp => h.2 _ _ (mem_existing.1 hp).2, trivial⟩, h.replace _⟩
  | .struct hd rs, st, i, h => by
      simp only [encNode, okNodes, okNode, List.length_singleton]
      exact ⟨⟨⟨fun p hp => h.2 _ _ (mem_existing.1 hp).2, encRegions_ok rs _⟩, trivial⟩, h.replace _⟩

theorem encNodes_ok (entry : List Nat) : ∀ (ns : List Node) (st : StateMap) (i : Nat), Ok entry st i →
    okNodes entry i (encNodes st i ns).1 ∧ Ok entry (encNodes st i ns).2 (i + (encNodes st i ns).1.length)
  | [], st, i, h => by simp only [encNodes, okNodes, List.length_nil, Nat.add_zero]; exact ⟨trivial, h⟩
  | n :: ns, st, i, h => by
      have h1 := encNode_ok entry n st i h
      have h2 := encNodes_ok entry ns _ _ h1.2
      simp only [encNodes, List.length_append]
      exact ⟨okNodes_append h1.1 h2.1, by rw [← Nat.add_assoc]; exact h2.2⟩

theorem encRegion_ok : ∀ (r : Region) (ps : List (Nat × Out)), okRegion (ps.map (·.1)) (encRegion ps r)
  | .mk args nodes results, ps => by
      have h := encNodes_ok _ nodes _ _ (arguments_ok ps)
      simp only [encRegion, okRegion]
      refine ⟨h.1, by simp [List.map_map, Function.comp_def], ?_⟩
      intro p hp
      obtain ⟨q, hq, rfl⟩ := List.mem_map.1 hp
      have hd := h.2.1 q.1 (List.mem_map.2 ⟨q, hq, rfl⟩)
      unfold dom at hd
      simp only
      cases hs : (encNodes (arguments ps) 0 nodes).2 q.1 with
      | none => exact absurd hs hd
      | some o =>
          have := h.2.2 _ _ hs
          rw [Nat.zero_add] at this
          exact ⟨o, rfl, this⟩

theorem encRegions_ok : ∀ (rs : List Region) (ps : List (Nat × Out)), okRegions (ps.map (·.1)) (encRegions ps rs)
  | [], ps => by simp [encRegions, okRegions]
  | r :: rs, ps => by
      simp only [encRegions, okRegions]
      exact ⟨encRegion_ok r ps, encRegions_ok rs ps⟩
end

/-- **C50** For all functions and mod/ref sets, the result is a region without cycles: each memory state operand is the argument of the region
for a memory node or the output of an earlier node, in each region nested in the function; and for each memory node that enters a region a
state leaves it, so that the encoder never asks for a state that is not there. -/
theorem C50_closed (set : List Nat) (body : Region) : okRegion set (encLambda set body) := by
  have := encRegion_ok body (set.map fun m => (m, .arg m))
  simpa [List.map_map, Function.comp_def, encLambda] using this

end Jlm.ModRef.Enc
