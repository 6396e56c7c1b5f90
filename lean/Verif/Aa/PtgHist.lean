import Verif.Aa.PtgProps
set_option linter.unusedVariables false
set_option linter.unusedSimpArgs false
namespace Jlm.Llvm.Aa.Ptg
open Jlm.Llvm.Aa

theorem range_filter_upd (n i : Nat) (hi : i < n) (f f' : Nat → Bool) (h : ∀ j, j ≠ i → f' j = f j) (h0 : f i = false) (h1 : f' i = true) :
    ((List.range n).filter f').length = ((List.range n).filter f).length + 1 := by
  induction n with
  | zero => omega
  | succ n ih =>
    rw [List.range_succ, List.filter_append, List.filter_append, List.length_append, List.length_append]
    by_cases e : i = n
    · subst e
      rw [List.filter_congr (p := f') (q := f) (fun j hj => h j (by have := List.mem_range.1 hj; omega))]
      simp [h0, h1]
    · rw [ih (by omega)]
      have : f' n = f n := h n (by omega)
      simp only [List.filter_cons, List.filter_nil, this]
      omega

theorem Inv.change {g g' : Graph} {o : Op} (I : Inv g) (C : Change g o g') : Inv g' := by
  cases C with
  | add _ x z _ hx hk hr hz hf A => exact I.added A hk rfl hr hf
  | map out i hi hr hf =>
    refine ⟨I.pos, I.zero, I.notZero, I.reg, I.beyond, I.tzero, I.tnodup, I.tgt, I.mapIff, I.mapNodup, ?_, ?_, I.regNodes, I.extNodes, I.numAll⟩
    · intro p j h
      rcases List.mem_append.1 h with h | h
      · exact I.regMap p j h
      · simp at h; rw [h.2]; exact ⟨hi, hr⟩
    · exact nodup_snoc I.regNodup hf
  | marked i hi ha => exact I
  | mark i hi ha =>
    have hk : ∀ j, ((upd g.data i { g.data i with all := true }) j).kind = (g.data j).kind := by
      intro j; unfold upd; split
      · rename_i e; subst e; rfl
      · rfl
    have he : ∀ j, ((upd g.data i { g.data i with all := true }) j).ext = (g.data j).ext := by
      intro j; unfold upd; split
      · rename_i e; subst e; rfl
      · rfl
    have hs : ∀ j, ((upd g.data i { g.data i with all := true }) j).size = (g.data j).size := by
      intro j; unfold upd; split
      · rename_i e; subst e; rfl
      · rfl
    refine ⟨I.pos, ⟨?_, ?_, ?_, ?_⟩, ?_, ?_, ?_, I.tzero, I.tnodup, ?_, ?_, I.mapNodup, ?_, I.regNodup, ?_, ?_, ?_⟩
    · show (upd g.data i _ 0).kind = _; rw [hk]; exact I.zero.1
    · show (upd g.data i _ 0).ext = _; rw [he]; exact I.zero.2.1
    · show (upd g.data i _ 0).all = _
      unfold upd; split
      · rfl
      · exact I.zero.2.2.1
    · show (upd g.data i _ 0).size = _; rw [hs]; exact I.zero.2.2.2
    · intro j hj h
      exact I.notZero j hj (by rw [← hk j]; exact h)
    · intro j hj h
      show (upd g.data i _ j).ext = _
      rw [he]; exact I.reg j hj (by rw [← hk j]; exact h)
    · intro j hj
      show (upd g.data i _ j).ext = _
      rw [he]; exact I.beyond j hj
    · intro j t h
      show _ ∧ _ ∧ _ ∧ (upd g.data i _ t).kind ≠ _
      rw [hk]; exact I.tgt j t h
    · intro k p j
      show (p, j) ∈ g.map k ↔ _ ∧ _ ∧ _ ∧ (upd g.data i _ j).kind = k ∧ _
      rw [hk]; exact I.mapIff k p j
    · intro p j h
      show _ ∧ (upd g.data i _ j).kind = _
      rw [hk]; exact I.regMap p j h
    · show g.regNodes = (List.range g.n).filter fun j => (upd g.data i _ j).kind == .register
      simp only [hk]; exact I.regNodes
    · show g.extNodes = (List.range g.n).filter fun j => (upd g.data i _ j).ext
      simp only [he]; exact I.extNodes
    · show g.numAll + 1 = _
      rw [I.numAll]
      refine (range_filter_upd g.n i hi (fun j => (g.data j).all) _ ?_ ha ?_).symm
      · intro j hj; show (upd g.data i _ j).all = _; rw [upd_ne _ _ hj]
      · show (upd g.data i _ i).all = _; rw [upd_same]
  | implicit s t hs ha => exact I
  | explicit s t hs =>
    refine ⟨I.pos, I.zero, I.notZero, I.reg, I.beyond, ?_, ?_, ?_, I.mapIff, I.mapNodup, I.regMap, I.regNodup, I.regNodes, I.extNodes, I.numAll⟩
    · show upd g.targets s _ 0 = []
      rw [upd_ne _ _ (Ne.symm hs.2.2.2.1)]; exact I.tzero
    · intro j
      show (upd g.targets s _ j).Nodup
      unfold upd; split
      · exact nodup_ins (I.tnodup s)
      · exact I.tnodup j
    · intro j u h
      have h : u ∈ upd g.targets s (ins (g.targets s) t) j := h
      unfold upd at h
      split at h
      · rename_i e; subst e
        rcases mem_ins.1 h with h | h
        · exact I.tgt _ _ h
        · rw [h]; exact ⟨hs.1, hs.2.1, hs.2.2.1, hs.2.2.2.2⟩
      · exact I.tgt _ _ h

theorem run_append (g : Graph) (l m : List Op) : g.run (l ++ m) = (g.run l).bind fun g => g.run m := by
  induction l generalizing g with
  | nil => rfl
  | cons o l ih =>
    rw [List.cons_append, Graph.run, Graph.run]
    cases h : g.step o with
    | none => rfl
    | some r => obtain ⟨r, g1⟩ := r; exact ih g1

/-- induction over histories -/
theorem run_induct {P : List Op → Graph → Prop} (h0 : P [] Graph.empty)
    (hs : ∀ ops g o g', P ops g → Change g o g' → P (ops ++ [o]) g') :
    ∀ ops g, Graph.empty.run ops = some g → P ops g := by
  have key : ∀ (l : List Op) (m : List Op) (g g' : Graph), P m g → g.run l = some g' → P (m ++ l) g' := by
    intro l
    induction l with
    | nil => intro m g g' h e; cases e; rw [List.append_nil]; exact h
    | cons o l ih =>
      intro m g g' h e
      rw [Graph.run] at e
      cases hst : g.step o with
      | none => rw [hst] at e; cases e
      | some r =>
        obtain ⟨r, g1⟩ := r
        rw [hst] at e
        have := ih (m ++ [o]) g1 g' (hs m g o g1 h (step_change hst).1) e
        rwa [List.append_assoc] at this
  intro ops g h
  exact key ops [] _ _ h0 h

theorem inv_run {ops : List Op} {g : Graph} (h : Graph.empty.run ops = some g) : Inv g :=
  run_induct (P := fun _ g => Inv g) inv_empty (fun _ _ _ _ I C => I.change C) ops g h

/-- what the graph remembers of the calls -/
structure Hist (ops : List Op) (g : Graph) : Prop where
  n : g.n = (created ops).length
  node : ∀ i x, (created ops)[i]? = some x → (g.data i).kind = x.kind ∧ (g.data i).ext = x.ext ∧
    (g.data i).const = x.const ∧ g.obj i = x.obj
  size : ∀ i x, (created ops)[i]? = some x → (∀ z, x.size = some z → z < 2 ^ 64) →
    (g.data i).size = (NodeData.new x.kind x.ext false x.const x.size).size
  all : ∀ i, i < g.n → ((g.data i).all = true ↔ i = 0 ∨ .mark i ∈ ops)
  tgt : ∀ s t, g.isTargeting s t = true ↔ (((g.data s).all = true ∧ (g.data t).ext = true) ∨ .target s t ∈ ops)
  reg : ∀ o i, (o, i) ∈ g.regMap ↔ .mapRegister o i ∈ ops
  bound : ∀ o ∈ ops, match o with
    | .mark i => i < g.n
    | .target s t => s < g.n ∧ t < g.n ∧ s ≠ 0
    | _ => True

theorem isTargeting_iff {g : Graph} {s t : Nat} :
    g.isTargeting s t = true ↔ ((g.data s).all = true ∧ (g.data t).ext = true) ∨ t ∈ g.targets s := by
  unfold Graph.isTargeting
  by_cases h : ((g.data s).all && (g.data t).ext) = true
  · rw [if_pos h]; simp at h; simp [h]
  · rw [if_neg h]; simp at h
    simp
    intro h1 h2; exact absurd h2 (by simpa using h h1)

theorem created_append (ops : List Op) (o : Op) : created (ops ++ [o]) = created ops ++ (o.info.toList) := by
  unfold created
  rw [List.filterMap_append, List.cons_append]
  cases h : o.info <;> simp [List.filterMap, h]

theorem hist_empty : Hist [] Graph.empty where
  n := rfl
  node := by
    intro i x h
    cases i with
    | zero => cases h; exact ⟨rfl, rfl, rfl, rfl⟩
    | succ i => cases h
  size := by
    intro i x h
    cases i with
    | zero => cases h; intro _; rfl
    | succ i => cases h
  all := by
    intro i hi
    have hn : Graph.empty.n = 1 := rfl
    have : i = 0 := by omega
    subst this
    exact ⟨fun _ => Or.inl rfl, fun _ => rfl⟩
  tgt := by
    intro s t
    rw [isTargeting_iff]
    have : Graph.empty.targets s = [] := by
      show upd _ 0 [] s = []
      unfold upd; split <;> rfl
    simp [this]
  reg := by
    intro o i
    constructor
    · intro h; cases h
    · intro h; cases h
  bound := by intro o h; cases h

theorem Hist.change {ops : List Op} {g g' : Graph} {o : Op} (I : Inv g) (H : Hist ops g) (C : Change g o g') : Hist (ops ++ [o]) g' := by
  cases C with
  | add _ x z _ hx hk hr hz hf A =>
    have hcr : created (ops ++ [o]) = created ops ++ [x] := by rw [created_append, hx]; rfl
    have hno : (∀ i, o ≠ .mark i) ∧ (∀ s t, o ≠ .target s t) ∧ (∀ p i, o ≠ .mapRegister p i) := by
      refine ⟨?_, ?_, ?_⟩ <;> intros <;> intro e <;> subst e <;> cases hx
    have hd : ∀ i, i ≠ g.n → g'.data i = g.data i := fun i hi => by rw [A.data, upd_ne _ _ hi]
    have hdn : g'.data g.n = NodeData.new x.kind x.ext false x.const z := by rw [A.data, upd_same]
    have hlt : ∀ {i y}, (created ops)[i]? = some y → i < g.n := by
      intro i y h
      rw [H.n]
      exact (List.getElem?_eq_some_iff.1 h).1
    have hsplit : ∀ {i y}, (created (ops ++ [o]))[i]? = some y → (i < g.n ∧ (created ops)[i]? = some y) ∨ (i = g.n ∧ y = x) := by
      intro i y h
      rw [hcr] at h
      by_cases hi : i < (created ops).length
      · rw [List.getElem?_append_left hi] at h
        exact Or.inl ⟨by rw [H.n]; exact hi, h⟩
      · rw [List.getElem?_append_right (by omega)] at h
        have : i - (created ops).length = 0 := by
          have := (List.getElem?_eq_some_iff.1 h).1
          simp only [List.length_cons, List.length_nil] at this; omega
        rw [this] at h
        simp at h
        exact Or.inr ⟨by rw [H.n]; omega, h.symm⟩
    have hbn : ∀ q, q ∈ ops → (∀ i, q = .mark i → i < g.n) ∧ (∀ s t, q = .target s t → s < g.n ∧ t < g.n ∧ s ≠ 0) := by
      intro q hq
      have := H.bound q hq
      refine ⟨?_, ?_⟩
      · intro i e; subst e; exact this
      · intro s t e; subst e; exact this
    refine ⟨?_, ?_, ?_, ?_, ?_, ?_, ?_⟩
    · rw [A.n, hcr, List.length_append, H.n]; rfl
    · intro i y h
      rcases hsplit h with ⟨hi, h⟩ | ⟨hi, e⟩
      · rw [hd i (by omega), A.obj, upd_ne _ _ (by omega)]
        exact H.node i y h
      · rw [hi, hdn, A.obj, upd_same, e]
        exact ⟨rfl, rfl, rfl, rfl⟩
    · intro i y h hy
      rcases hsplit h with ⟨hi, h⟩ | ⟨hi, e⟩
      · rw [hd i (by omega)]
        exact H.size i y h hy
      · rw [hi, hdn, e, hz (e ▸ hy)]
    · intro i hi
      rw [A.n] at hi
      rw [List.mem_append]
      by_cases e : i = g.n
      · subst e
        rw [hdn]
        constructor
        · intro h; cases h
        · rintro (h | h | h)
          · have := I.pos; omega
          · exact absurd ((hbn _ h).1 _ rfl) (by omega)
          · simp at h; exact absurd h.symm (hno.1 _)
      · rw [hd i e, H.all i (by omega)]
        constructor
        · rintro (h | h)
          · exact Or.inl h
          · exact Or.inr (Or.inl h)
        · rintro (h | h | h)
          · exact Or.inl h
          · exact Or.inr h
          · simp at h; exact absurd h.symm (hno.1 _)
    · intro s t
      rw [isTargeting_iff]
      have : t ∈ g'.targets s ↔ t ∈ g.targets s := by
        rw [A.targets]; unfold upd
        split
        · rename_i e
          constructor
          · intro h; cases h
          · intro h; have := (I.tgt s t h).1; omega
        · exact Iff.rfl
      rw [this, List.mem_append]
      have ho : Op.target s t ∈ [o] ↔ False := by
        simp; exact fun h => hno.2.1 _ _ h.symm
      rw [ho, or_false]
      constructor
      · rintro (h | h)
        · exact Or.inl h
        · have hb := I.tgt s t h
          rw [hd s (by omega), hd t (by omega)]
          exact (H.tgt s t).1 (isTargeting_iff.2 (Or.inr h))
      · rintro (h | h)
        · exact Or.inl h
        · have hb := (hbn _ h).2 _ _ rfl
          rw [hd s (by omega), hd t (by omega)]
          exact isTargeting_iff.1 ((H.tgt s t).2 (Or.inr h))
    · intro p i
      rw [A.regMap, H.reg, List.mem_append]
      have : Op.mapRegister p i ∈ [o] ↔ False := by simp; exact fun h => hno.2.2 _ _ h.symm
      rw [this, or_false]
    · intro q hq
      rcases List.mem_append.1 hq with h | h
      · have := H.bound q h
        cases q with
        | mark i => dsimp only at this ⊢; rw [A.n]; omega
        | target s t => dsimp only at this ⊢; rw [A.n]; omega
        | _ => trivial
      · simp at h; subst h
        cases q with
        | mark i => exact absurd rfl (hno.1 _)
        | target s t => exact absurd rfl (hno.2.1 _ _)
        | _ => trivial
  | map out i hi hr hf =>
    have hcr : created (ops ++ [.mapRegister out i]) = created ops := by rw [created_append]; simp [Op.info]
    refine ⟨by rw [hcr]; exact H.n, by rw [hcr]; exact H.node, by rw [hcr]; exact H.size, ?_, ?_, ?_, ?_⟩
    · intro j hj
      rw [List.mem_append]
      have := H.all j hj
      simpa using this
    · intro s t
      rw [List.mem_append]
      simp only [List.mem_singleton, reduceCtorEq, or_false]
      exact H.tgt s t
    · intro p j
      rw [List.mem_append, List.mem_append, H.reg]
      simp
    · intro q hq
      rcases List.mem_append.1 hq with h | h
      · exact H.bound q h
      · simp at h; subst h; trivial
  | marked i hi ha =>
    have hcr : created (ops ++ [.mark i]) = created ops := by rw [created_append]; simp [Op.info]
    refine ⟨by rw [hcr]; exact H.n, by rw [hcr]; exact H.node, by rw [hcr]; exact H.size, ?_, ?_, ?_, ?_⟩
    · intro j hj
      rw [List.mem_append, H.all j hj]
      constructor
      · rintro (h | h)
        · exact Or.inl h
        · exact Or.inr (Or.inl h)
      · rintro (h | h | h)
        · exact Or.inl h
        · exact Or.inr h
        · simp at h; subst h; exact (H.all j hi).1 ha
    · intro s t
      rw [List.mem_append, H.tgt s t]
      simp
    · intro p j
      rw [List.mem_append, H.reg]
      simp
    · intro q hq
      rcases List.mem_append.1 hq with h | h
      · exact H.bound q h
      · simp at h; subst h; exact hi
  | mark i hi ha =>
    have hcr : created (ops ++ [.mark i]) = created ops := by rw [created_append]; simp [Op.info]
    have hf : ∀ j, ((upd g.data i { g.data i with all := true }) j).kind = (g.data j).kind ∧
        ((upd g.data i { g.data i with all := true }) j).ext = (g.data j).ext ∧
        ((upd g.data i { g.data i with all := true }) j).const = (g.data j).const ∧
        ((upd g.data i { g.data i with all := true }) j).size = (g.data j).size ∧
        (((upd g.data i { g.data i with all := true }) j).all = true ↔ (g.data j).all = true ∨ j = i) := by
      intro j; unfold upd; split
      · rename_i e; subst e; simp
      · rename_i e; simp [e]
    refine ⟨by rw [hcr]; exact H.n, ?_, ?_, ?_, ?_, ?_, ?_⟩
    · rw [hcr]
      intro j x h
      have := H.node j x h
      show (upd g.data i _ j).kind = _ ∧ (upd g.data i _ j).ext = _ ∧ (upd g.data i _ j).const = _ ∧ _
      rw [(hf j).1, (hf j).2.1, (hf j).2.2.1]
      exact this
    · rw [hcr]
      intro j x h hz
      show (upd g.data i _ j).size = _
      rw [(hf j).2.2.2.1]
      exact H.size j x h hz
    · intro j hj
      show (upd g.data i _ j).all = true ↔ _
      rw [(hf j).2.2.2.2, H.all j hj, List.mem_append]
      simp
      exact or_assoc
    · intro s t
      rw [isTargeting_iff]
      show ((upd g.data i _ s).all = true ∧ (upd g.data i _ t).ext = true) ∨ t ∈ g.targets s ↔
        ((upd g.data i _ s).all = true ∧ (upd g.data i _ t).ext = true) ∨ _
      rw [(hf s).2.2.2.2, (hf t).2.1, List.mem_append]
      have := (isTargeting_iff (g := g) (s := s) (t := t)).symm.trans (H.tgt s t)
      simp only [List.mem_singleton, reduceCtorEq, or_false]
      constructor
      · rintro (h | h)
        · exact Or.inl h
        · rcases this.1 (Or.inr h) with h | h
          · exact Or.inl ⟨Or.inl h.1, h.2⟩
          · exact Or.inr h
      · rintro (h | h)
        · exact Or.inl h
        · rcases this.2 (Or.inr h) with h | h
          · exact Or.inl ⟨Or.inl h.1, h.2⟩
          · exact Or.inr h
    · intro p j
      rw [List.mem_append]
      show (p, j) ∈ g.regMap ↔ _
      rw [H.reg]
      simp
    · intro q hq
      rcases List.mem_append.1 hq with h | h
      · exact H.bound q h
      · simp at h; subst h; exact hi
  | implicit s t hs ha =>
    have hcr : created (ops ++ [.target s t]) = created ops := by rw [created_append]; simp [Op.info]
    refine ⟨by rw [hcr]; exact H.n, by rw [hcr]; exact H.node, by rw [hcr]; exact H.size, ?_, ?_, ?_, ?_⟩
    · intro j hj
      rw [List.mem_append, H.all j hj]
      simp
    · intro s' t'
      rw [List.mem_append, H.tgt s' t']
      constructor
      · rintro (h | h)
        · exact Or.inl h
        · exact Or.inr (Or.inl h)
      · rintro (h | h | h)
        · exact Or.inl h
        · exact Or.inr h
        · simp at h; rw [h.1, h.2]; exact Or.inl ha
    · intro p j
      rw [List.mem_append, H.reg]
      simp
    · intro q hq
      rcases List.mem_append.1 hq with h | h
      · exact H.bound q h
      · simp at h; subst h; exact ⟨hs.1, hs.2.1, hs.2.2.2.1⟩
  | explicit s t hs =>
    have hcr : created (ops ++ [.target s t]) = created ops := by rw [created_append]; simp [Op.info]
    refine ⟨by rw [hcr]; exact H.n, by rw [hcr]; exact H.node, by rw [hcr]; exact H.size, ?_, ?_, ?_, ?_⟩
    · intro j hj
      rw [List.mem_append]
      have := H.all j hj
      simpa using this
    · intro s' t'
      have hm : t' ∈ upd g.targets s (ins (g.targets s) t) s' ↔ t' ∈ g.targets s' ∨ (s' = s ∧ t' = t) := by
        unfold upd; split
        · rename_i e; subst e; rw [mem_ins]; simp
        · rename_i e; simp [e]
      rw [isTargeting_iff]
      show ((g.data s').all = true ∧ (g.data t').ext = true) ∨ t' ∈ upd g.targets s (ins (g.targets s) t) s' ↔
        ((g.data s').all = true ∧ (g.data t').ext = true) ∨ _
      rw [hm, List.mem_append, ← or_assoc, ← isTargeting_iff, H.tgt s' t']
      simp [or_assoc]
    · intro p j
      rw [List.mem_append]
      show (p, j) ∈ g.regMap ↔ _
      rw [H.reg]
      simp
    · intro q hq
      rcases List.mem_append.1 hq with h | h
      · exact H.bound q h
      · simp at h; subst h; exact ⟨hs.1, hs.2.1, hs.2.2.2.1⟩

theorem hist_run {ops : List Op} {g : Graph} (h : Graph.empty.run ops = some g) : Hist ops g := by
  have := run_induct (P := fun ops g => Inv g ∧ Hist ops g) ⟨inv_empty, hist_empty⟩
    (fun _ _ _ _ I C => ⟨I.1.change C, I.2.change I.1 C⟩) ops g h
  exact this.2

end Jlm.Llvm.Aa.Ptg
