import Verif.Util.DisjointSetSpec
import Mathlib.Data.Finset.Basic
import Mathlib.Tactic.Tauto
set_option linter.unusedSimpArgs false
set_option linter.unusedSectionVars false
/- C13: DisjointSet. -/
namespace Jlm.Util.DisjointSet

variable {α : Type} [DecidableEq α]

/-- Invariant of the parent forest: `rep` is the root, `d` decreases along parents. -/
structure Forest (s : DS α) (rep : α → α) (d : α → Nat) : Prop where
  nodup : s.values.Nodup
  repOut : ∀ x, x ∉ s.values → rep x = x
  repMem : ∀ x, x ∈ s.values → rep x ∈ s.values
  parMem : ∀ x ∈ s.values, s.parent x ∈ s.values
  idem : ∀ x, rep (rep x) = rep x
  repPar : ∀ x ∈ s.values, rep (s.parent x) = rep x
  rootIff : ∀ x ∈ s.values, s.parent x = x ↔ rep x = x
  droot : ∀ x ∈ s.values, rep x = x → d x = 0
  dlt : ∀ x ∈ s.values, s.parent x ≠ x → d (s.parent x) < d x
  dbound : ∀ x ∈ s.values, d x < (s.values.filter (fun y => rep y = rep x)).length

/-- Following `nx` from `a` visits the elements of `l` and then `r`. -/
def Walk (nx : α → α) (a : α) : List α → α → Prop
  | [], r => nx a = r
  | b :: l, r => nx a = b ∧ Walk nx b l r

theorem Walk.congr {nx nx' : α → α} {r : α} : ∀ {l : List α} {a b : α}, nx' b = nx a →
    (∀ y ∈ l, nx' y = nx y) → Walk nx a l r → Walk nx' b l r
  | [], _, _, h, _, hw => h.trans hw
  | _ :: _, _, _, h, hl, hw =>
    ⟨h.trans hw.1, Walk.congr (hl _ (by simp)) (fun y hy => hl y (by simp [hy])) hw.2⟩

theorem Walk.append {nx : α → α} {r m : α} : ∀ {l l' : List α} {a : α},
    Walk nx a l m → Walk nx m l' r → Walk nx a (l ++ m :: l') r
  | [], _, _, h, h' => ⟨h, h'⟩
  | _ :: _, _, _, h, h' => ⟨h.1, Walk.append h.2 h'⟩

/-- Invariant of the remaining members. -/
structure Rest (s : DS α) (rep : α → α) : Prop where
  rootsNodup : s.roots.Nodup
  rootsMem : ∀ x, x ∈ s.roots ↔ x ∈ s.values ∧ rep x = x
  sz : ∀ r ∈ s.values, rep r = r → s.size r = (s.values.filter (fun y => rep y = r)).length
  cyc : ∀ r ∈ s.values, rep r = r → ∃ l : List α, (l ++ [r]).Nodup ∧
    (∀ y, y ∈ l ++ [r] ↔ y ∈ s.values ∧ rep y = r) ∧
    Walk s.next r l r

theorem rootLoop_spec {rep : α → α} {d : α → Nat} (x : α) :
    ∀ (n : Nat) (child : α) (s : DS α), Forest s rep d → x ∈ s.values → child ∈ s.values →
      rep child = rep x → d child ≤ d x → (child = x ∨ s.parent x ≠ x) → d child ≤ n →
      ∃ p, rootLoop x n child (s.parent child) s = some (rep x, { s with parent := p }) ∧
        Forest { s with parent := p } rep d := by
  intro n
  induction n with
  | zero =>
    intro child s hf hx hc hrep _ _ hn
    have hroot : s.parent child = child := by
      by_contra hne
      have := hf.dlt child hc hne; omega
    refine ⟨s.parent, ?_, hf⟩
    rw [rootLoop, if_pos hroot, ← hrep, (hf.rootIff child hc).mp hroot]
  | succ n ih =>
    intro child s hf hx hc hrep hd hcx hn
    rw [rootLoop]
    by_cases hroot : s.parent child = child
    · refine ⟨s.parent, ?_, hf⟩
      rw [if_pos hroot, ← hrep, (hf.rootIff child hc).mp hroot]
    · rw [if_neg hroot]
      have hxroot : s.parent x ≠ x := by
        rcases hcx with rfl | h
        · exact hroot
        · exact h
      have hpm := hf.parMem child hc
      have hdp := hf.dlt child hc hroot
      have hne : s.parent child ≠ x := fun h => by rw [h] at hdp; omega
      have hdpp : d (s.parent (s.parent child)) ≤ d (s.parent child) := by
        by_cases h : s.parent (s.parent child) = s.parent child
        · rw [h]
        · exact (hf.dlt _ hpm h).le
      have hppm := hf.parMem _ hpm
      have hpx : s.parent (s.parent child) ≠ x := fun h => by rw [h] at hdpp; omega
      let s' : DS α := { s with parent := Function.update s.parent x (s.parent (s.parent child)) }
      have hs' : ∀ y, s'.parent y = if y = x then s.parent (s.parent child) else s.parent y := by
        intro y; simp only [s', Function.update_apply]
      have hf' : Forest s' rep d := by
        refine ⟨hf.nodup, hf.repOut, hf.repMem, ?_, hf.idem, ?_, ?_, hf.droot, ?_, hf.dbound⟩
        · intro y hy; rw [hs']; split
          · exact hppm
          · exact hf.parMem y hy
        · intro y hy; rw [hs']; split
          · rename_i h; subst h
            rw [hf.repPar _ hpm, hf.repPar _ hc, hrep]
          · exact hf.repPar y hy
        · intro y hy; rw [hs']; split
          · rename_i h; subst h
            constructor
            · intro h; exact absurd h hpx
            · intro h; exact absurd ((hf.rootIff y hy).mpr h) hxroot
          · exact hf.rootIff y hy
        · intro y hy; rw [hs']; split
          · rename_i h; subst h; intro _; omega
          · exact hf.dlt y hy
      have hcp : s'.parent (s.parent child) = s'.parent x := by
        rw [hs', hs', if_neg hne, if_pos rfl]
      have := ih (s.parent child) s' hf' hx hpm (by rw [hf.repPar _ hc, hrep]) (by omega)
        (Or.inr (by rw [hs', if_pos rfl]; exact hpx)) (by omega)
      obtain ⟨p, h1, h2⟩ := this
      refine ⟨p, ?_, h2⟩
      show rootLoop x n (s.parent child) (s'.parent x) s' = _
      rw [← hcp]; exact h1

theorem root_spec {s : DS α} {rep : α → α} {d : α → Nat} (hf : Forest s rep d) {x : α}
    (hx : x ∈ s.values) :
    ∃ p, root s x = some (rep x, { s with parent := p }) ∧ Forest { s with parent := p } rep d := by
  apply rootLoop_spec x _ x s hf hx hx rfl (le_refl _) (Or.inl rfl)
  have := hf.dbound x hx
  have h2 := List.length_filter_le (fun y => decide (rep y = rep x)) s.values
  omega

theorem rest_parent {s : DS α} {rep : α → α} (h : Rest s rep) (p : α → α) :
    Rest { s with parent := p } rep := ⟨h.rootsNodup, h.rootsMem, h.sz, h.cyc⟩

/-- Full invariant relating an object to a history. -/
structure Inv (s : DS α) (h : Hist α) (rep : α → α) (d : α → Nat) : Prop where
  forest : Forest s rep d
  rest : Rest s rep
  elems : ∀ x, x ∈ s.values ↔ x ∈ h.elems
  merged : ∀ a b, (a, b) ∈ h.merged → a ∈ h.elems ∧ b ∈ h.elems
  conn : ∀ x y, rep x = rep y ↔ h.Conn x y

theorem inv_empty : Inv (empty : DS α) Hist.empty id (fun _ => 0) := by
  refine ⟨⟨by simp [empty], by simp [empty], by simp [empty], by simp [empty], by simp, by simp [empty],
    by simp [empty], by simp [empty], by simp [empty], by simp [empty]⟩,
    ⟨by simp [empty], by simp [empty], by simp [empty], by simp [empty]⟩,
    by simp [empty, Hist.empty], by simp [Hist.empty], fun x y => ?_⟩
  constructor
  · intro h; simp at h; subst h; exact .refl _
  · intro h; induction h with
    | rel a b h => simp [Hist.empty] at h
    | refl a => rfl
    | symm a b _ ih => exact ih.symm
    | trans a b c _ _ h1 h2 => exact h1.trans h2

theorem inv_parent {s : DS α} {h : Hist α} {rep d} (hi : Inv s h rep d) {p : α → α}
    (hf : Forest { s with parent := p } rep d) : Inv { s with parent := p } h rep d :=
  ⟨hf, rest_parent hi.rest p, hi.elems, hi.merged, hi.conn⟩

theorem find_spec {s : DS α} {h : Hist α} {rep d} (hi : Inv s h rep d) {x : α}
    (hx : x ∈ h.elems) :
    ∃ p, find s x = some (rep x, { s with parent := p }) ∧ Inv { s with parent := p } h rep d := by
  have hx' := (hi.elems x).mpr hx
  obtain ⟨p, h1, h2⟩ := root_spec hi.forest hx'
  refine ⟨p, ?_, inv_parent hi h2⟩
  rw [find, if_pos (by simpa [contains] using hx'), h1]

theorem insert_spec {s : DS α} {h : Hist α} {rep d} (hi : Inv s h rep d) (x : α) :
    ∃ d', Inv (insert s x).2 (h.step (.insert x)) rep d' := by
  unfold insert
  by_cases hx : x ∈ s.values
  · rw [if_pos (by simpa [contains] using hx)]
    refine ⟨d, hi.forest, hi.rest, fun y => ?_, fun a b hab => ?_, hi.conn⟩
    · rw [hi.elems]; simp [Hist.step]; rintro rfl; exact (hi.elems y).mp hx
    · obtain ⟨h1, h2⟩ := hi.merged a b hab
      exact ⟨Finset.mem_insert_of_mem h1, Finset.mem_insert_of_mem h2⟩
  · rw [if_neg (by simpa [contains] using hx)]
    have hrx := hi.forest.repOut x hx
    have hne : ∀ y ∈ s.values, y ≠ x := fun y hy h => hx (h ▸ hy)
    have hrne : ∀ y ∈ s.values, rep y ≠ x := fun y hy h => hx (h ▸ hi.forest.repMem y hy)
    have hf := hi.forest
    have hr := hi.rest
    have hfilt : ∀ r, r ≠ x → (x :: s.values).filter (fun y => decide (rep y = r))
        = s.values.filter (fun y => decide (rep y = r)) := by
      intro r hrr
      rw [List.filter_cons_of_neg]; simp [hrx]; exact fun h => hrr h.symm
    have hfiltx : (x :: s.values).filter (fun y => decide (rep y = x)) = [x] := by
      rw [List.filter_cons_of_pos (by simp [hrx])]
      congr 1; rw [List.filter_eq_nil_iff]; intro y hy; simp [hrne y hy]
    refine ⟨Function.update d x 0, ⟨?_, ?_, ?_, ?_, hf.idem, ?_, ?_, ?_, ?_, ?_⟩, ⟨?_, ?_, ?_, ?_⟩, ?_, ?_, hi.conn⟩
    · exact List.nodup_cons.mpr ⟨hx, hf.nodup⟩
    · intro y hy; simp at hy; exact hf.repOut y hy.2
    · intro y hy
      simp only at hy ⊢
      rcases List.mem_cons.mp hy with rfl | hy
      · rw [hrx]; simp
      · exact List.mem_cons_of_mem _ (hf.repMem y hy)
    · intro y hy
      simp only at hy ⊢
      rcases List.mem_cons.mp hy with rfl | hy
      · simp
      · rw [Function.update_of_ne (hne y hy)]; exact List.mem_cons_of_mem _ (hf.parMem y hy)
    · intro y hy
      simp only at hy ⊢
      rcases List.mem_cons.mp hy with rfl | hy
      · simp
      · rw [Function.update_of_ne (hne y hy)]; exact hf.repPar y hy
    · intro y hy
      simp only at hy ⊢
      rcases List.mem_cons.mp hy with rfl | hy
      · simp [hrx]
      · rw [Function.update_of_ne (hne y hy)]; exact hf.rootIff y hy
    · intro y hy hry
      simp only at hy ⊢
      rcases List.mem_cons.mp hy with rfl | hy
      · simp
      · rw [Function.update_of_ne (hne y hy)]; exact hf.droot y hy hry
    · intro y hy
      simp only at hy ⊢
      rcases List.mem_cons.mp hy with rfl | hy
      · simp
      · simp only [Function.update_of_ne (hne y hy), Function.update_of_ne (hne _ (hf.parMem y hy))]
        exact hf.dlt y hy
    · intro y hy
      simp only at hy ⊢
      rcases List.mem_cons.mp hy with rfl | hy
      · simp only [Function.update_self, hrx, hfiltx]; simp
      · rw [Function.update_of_ne (hne y hy), hfilt _ (hrne y hy)]
        exact hf.dbound y hy
    · exact List.nodup_cons.mpr ⟨fun h => hx ((hr.rootsMem x).mp h).1, hr.rootsNodup⟩
    · intro y; simp only [List.mem_cons, hr.rootsMem]
      constructor
      · rintro (rfl | h); exacts [⟨Or.inl rfl, hrx⟩, ⟨Or.inr h.1, h.2⟩]
      · rintro ⟨rfl | h, h2⟩; exacts [Or.inl rfl, Or.inr ⟨h, h2⟩]
    · intro r hr' hrr
      simp only at hr' ⊢
      rcases List.mem_cons.mp hr' with rfl | hr'
      · simp only [Function.update_self, hfiltx]; rfl
      · rw [Function.update_of_ne (hne r hr'), hfilt r (hne r hr')]
        exact hr.sz r hr' hrr
    · intro r hr' hrr
      simp only at hr' ⊢
      rcases List.mem_cons.mp hr' with rfl | hr'
      · refine ⟨[], by simp, fun y => ?_, by simp [Walk]⟩
        rw [List.nil_append, List.mem_singleton, List.mem_cons]
        constructor
        · rintro rfl; exact ⟨Or.inl rfl, hrx⟩
        · rintro ⟨rfl | h, h2⟩; exacts [rfl, absurd h2 (hrne y h)]
      · obtain ⟨l, h1, h2, h3⟩ := hr.cyc r hr' hrr
        have hrnx := hne r hr'
        refine ⟨l, h1, fun y => ?_, ?_⟩
        · rw [h2]; simp only [List.mem_cons]
          constructor
          · rintro ⟨h, h'⟩; exact ⟨Or.inr h, h'⟩
          · rintro ⟨rfl | h, h'⟩
            · rw [hrx] at h'; exact absurd h'.symm hrnx
            · exact ⟨h, h'⟩
        · refine Walk.congr ?_ (fun y hy => ?_) h3
          · rw [Function.update_of_ne (hne r hr')]
          · rw [Function.update_of_ne (hne y ((h2 y).mp (by simp [hy])).1)]
    · intro y; simp [Hist.step, hi.elems]
    · intro a b hab
      obtain ⟨h1, h2⟩ := hi.merged a b hab
      exact ⟨Finset.mem_insert_of_mem h1, Finset.mem_insert_of_mem h2⟩

theorem conn_up {h : Hist α} {a b x y : α} (hc : h.Conn x y) :
    (h.step (.merge a b)).Conn x y := by
  induction hc with
  | rel u v huv => exact .rel _ _ (List.mem_cons_of_mem _ huv)
  | refl u => exact .refl _
  | symm u v _ ih => exact .symm _ _ ih
  | trans u v w _ _ h1 h2 => exact .trans _ _ _ h1 h2

/-- Linking two different roots. -/
theorem link_core {s : DS α} {h : Hist α} {rep d} (hi : Inv s h rep d) {a b : α}
    (ha : a ∈ h.elems) (hb : b ∈ h.elems) (r1 r2 : α) (hne : r1 ≠ r2)
    (hab : (rep a = r1 ∧ rep b = r2) ∨ (rep a = r2 ∧ rep b = r1)) :
    Inv { s with
      next := Function.update (Function.update s.next r1 (s.next r2)) r2 (s.next r1)
      roots := s.roots.filter (fun y => y ≠ r2)
      parent := Function.update s.parent r2 r1
      size := Function.update s.size r1 (s.size r1 + s.size r2) }
      (h.step (.merge a b)) (fun y => if rep y = r2 then r1 else rep y)
      (fun y => if rep y = r2 then d y + 1 else d y) := by
  have hf := hi.forest
  have hr := hi.rest
  have hr1 : rep r1 = r1 ∧ r1 ∈ s.values := by
    rcases hab with ⟨h1, h2⟩ | ⟨h1, h2⟩
    · exact ⟨by rw [← h1]; exact hf.idem _, by rw [← h1]; exact hf.repMem _ ((hi.elems _).mpr ha)⟩
    · exact ⟨by rw [← h2]; exact hf.idem _, by rw [← h2]; exact hf.repMem _ ((hi.elems _).mpr hb)⟩
  have hr2 : rep r2 = r2 ∧ r2 ∈ s.values := by
    rcases hab with ⟨h1, h2⟩ | ⟨h1, h2⟩
    · exact ⟨by rw [← h2]; exact hf.idem _, by rw [← h2]; exact hf.repMem _ ((hi.elems _).mpr hb)⟩
    · exact ⟨by rw [← h1]; exact hf.idem _, by rw [← h1]; exact hf.repMem _ ((hi.elems _).mpr ha)⟩
  -- class sizes
  have hcount : (s.values.filter (fun y => decide ((if rep y = r2 then r1 else rep y) = r1))).length
      = (s.values.filter (fun y => decide (rep y = r1))).length
        + (s.values.filter (fun y => decide (rep y = r2))).length := by
    generalize s.values = l
    induction l with
    | nil => rfl
    | cons y ys ih =>
      by_cases h2 : rep y = r2
      · have h1 : rep y ≠ r1 := fun h => hne (h.symm.trans h2)
        simp only [List.filter_cons, h2, if_true, decide_true, List.length_cons, ih]
        have : (decide (r2 = r1)) = false := by simp; exact fun h => hne h.symm
        simp only [this]; simp; omega
      · by_cases h1 : rep y = r1
        · simp only [List.filter_cons, h1]
          have : (decide (r1 = r2)) = false := by simp; exact hne
          simp only [this, hne, if_false, decide_true, if_true, List.length_cons, ih]; simp; omega
        · simp only [List.filter_cons, h1, h2, if_false, decide_false]; simp; simpa using ih
  have hother : ∀ r, r ≠ r1 → r ≠ r2 →
      s.values.filter (fun y => decide ((if rep y = r2 then r1 else rep y) = r))
      = s.values.filter (fun y => decide (rep y = r)) := by
    intro r h1 h2
    apply List.filter_congr
    intro y _
    by_cases hy : rep y = r2
    · simp [hy]; constructor
      · intro h; exact absurd h.symm h1
      · intro h; exact absurd h.symm h2
    · simp [hy]
  have hpos : ∀ r ∈ s.values, rep r = r → 0 < (s.values.filter (fun y => decide (rep y = r))).length := by
    intro r hr hrr
    apply List.length_pos_of_mem (a := r)
    simp [hr, hrr]
  obtain ⟨l1, n1, m1, c1⟩ := hr.cyc r1 hr1.2 hr1.1
  obtain ⟨l2, n2, m2, c2⟩ := hr.cyc r2 hr2.2 hr2.1
  refine ⟨⟨hf.nodup, ?_, ?_, ?_, ?_, ?_, ?_, ?_, ?_, ?_⟩, ⟨hr.rootsNodup.filter _, ?_, ?_, ?_⟩, hi.elems, ?_, ?_⟩
  · intro y hy
    have := hf.repOut y hy
    simp only [this]; rw [if_neg]; rintro rfl; exact hy hr2.2
  · intro y hy; simp only; split
    · exact hr1.2
    · exact hf.repMem y hy
  · intro y hy; simp only [Function.update_apply]; split
    · exact hr1.2
    · exact hf.parMem y hy
  · intro y
    by_cases hy : rep y = r2
    · simp [hy, hr1.1, hne]
    · simp [hy, hf.idem]
  · intro y hy; simp only [Function.update_apply]
    by_cases hy2 : y = r2
    · subst hy2; simp [hr1.1, hne, hr2.1]
    · simp only [if_neg hy2, hf.repPar y hy]
  · intro y hy; simp only [Function.update_apply]
    by_cases hy2 : y = r2
    · subst hy2; simp [hr2.1]
    · rw [if_neg hy2, hf.rootIff y hy]
      by_cases hyr : rep y = r2
      · simp only [hyr, if_true]
        constructor
        · intro h; exact absurd h.symm hy2
        · rintro rfl; rw [hr1.1] at hyr; exact absurd hyr hne
      · simp only [hyr, if_false]
  · intro y hy hry
    by_cases hyr : rep y = r2
    · rw [if_pos hyr] at hry; subst hry; rw [hr1.1] at hyr; exact absurd hyr hne
    · rw [if_neg hyr] at hry ⊢; exact hf.droot y hy hry
  · intro y hy; simp only [Function.update_apply]
    by_cases hy2 : y = r2
    · subst hy2
      intro _
      simp only [if_true, hr1.1, hne, if_false, hr2.1]
      have hd0 := hf.droot r1 hr1.2 hr1.1
      omega
    · simp only [if_neg hy2, hf.repPar y hy]
      intro hp
      have := hf.dlt y hy hp
      split <;> omega
  · intro y hy; simp only
    have hb := hf.dbound y hy
    by_cases hyr : rep y = r2
    · simp only [hyr, if_true, hcount]
      rw [hyr] at hb
      have := hpos r1 hr1.2 hr1.1
      omega
    · simp only [hyr, if_false]
      by_cases hy1 : rep y = r1
      · rw [hy1, hcount]; rw [hy1] at hb; omega
      · rw [hother _ hy1 hyr]; exact hb
  · intro y; simp only [List.mem_filter, hr.rootsMem, decide_eq_true_eq]
    constructor
    · rintro ⟨⟨h1, h2⟩, h3⟩
      exact ⟨h1, by rw [if_neg (by rw [h2]; exact h3)]; exact h2⟩
    · rintro ⟨h1, h2⟩
      by_cases hy : rep y = r2
      · rw [if_pos hy] at h2; subst h2; rw [hr1.1] at hy; exact absurd hy hne
      · rw [if_neg hy] at h2
        exact ⟨⟨h1, h2⟩, fun h => hy (by rw [h2, h])⟩
  · intro r hrm hrr
    simp only at hrr ⊢
    by_cases hy : rep r = r2
    · rw [if_pos hy] at hrr; subst hrr; rw [hr1.1] at hy; exact absurd hy hne
    · rw [if_neg hy] at hrr
      have hr2' : r ≠ r2 := fun h => hy (by rw [hrr, h])
      by_cases h1 : r = r1
      · subst h1
        rw [Function.update_self, hcount, hr.sz r hrm hrr, hr.sz r2 hr2.2 hr2.1]
      · rw [Function.update_of_ne h1, hother r h1 hr2']
        exact hr.sz r hrm hrr
  · intro r hrm hrr
    simp only at hrr ⊢
    by_cases hy : rep r = r2
    · rw [if_pos hy] at hrr; subst hrr; rw [hr1.1] at hy; exact absurd hy hne
    · rw [if_neg hy] at hrr
      have hr2' : r ≠ r2 := fun h => hy (by rw [hrr, h])
      have hnext : ∀ a, a ≠ r1 → a ≠ r2 →
          Function.update (Function.update s.next r1 (s.next r2)) r2 (s.next r1) a = s.next a := by
        intro a h1 h2; rw [Function.update_of_ne h2, Function.update_of_ne h1]
      by_cases h1 : r = r1
      · subst h1
        -- the two cycles are spliced
        refine ⟨(l2 ++ [r2]) ++ l1, ?_, fun y => ?_, ?_⟩
        · rw [List.append_assoc, List.nodup_append]
          refine ⟨n2, n1, ?_⟩
          intro a ha b hb hab'
          subst hab'
          have e1 := ((m2 a).mp ha).2
          have e2 := ((m1 a).mp hb).2
          exact hne (e2.symm.trans e1)
        · rw [List.append_assoc, List.mem_append, m2, m1]
          constructor
          · rintro (⟨h, h'⟩ | ⟨h, h'⟩)
            · exact ⟨h, by simp [h']⟩
            · exact ⟨h, by rw [if_neg]; exact h'; rw [h']; exact hne⟩
          · rintro ⟨h, h'⟩
            by_cases hyy : rep y = r2
            · exact Or.inl ⟨h, hyy⟩
            · rw [if_neg hyy] at h'; exact Or.inr ⟨h, h'⟩
        · have hl1 : ∀ y ∈ l1, y ≠ r ∧ y ≠ r2 := by
            intro y hy1
            refine ⟨?_, ?_⟩
            · rintro rfl
              rw [List.nodup_append] at n1; exact n1.2.2 y hy1 y (by simp) rfl
            · rintro rfl
              have := ((m1 y).mp (by simp [hy1])).2
              rw [hr2.1] at this; exact hne this.symm
          have hl2 : ∀ y ∈ l2, y ≠ r ∧ y ≠ r2 := by
            intro y hy1
            refine ⟨?_, ?_⟩
            · rintro rfl
              have := ((m2 y).mp (by simp [hy1])).2
              rw [hr1.1] at this; exact hne this
            · rintro rfl
              rw [List.nodup_append] at n2; exact n2.2.2 y hy1 y (by simp) rfl
          rw [List.append_assoc]
          refine Walk.append (Walk.congr ?_ (fun y hy => ?_) c2) (Walk.congr ?_ (fun y hy => ?_) c1)
          · rw [Function.update_of_ne hne, Function.update_self]
          · exact hnext y (hl2 y hy).1 (hl2 y hy).2
          · rw [Function.update_self]
          · exact hnext y (hl1 y hy).1 (hl1 y hy).2
      · obtain ⟨l, h2, h3, h4⟩ := hr.cyc r hrm hrr
        refine ⟨l, h2, fun y => ?_, ?_⟩
        · rw [h3]
          by_cases hyy : rep y = r2
          · simp only [hyy, if_true]
            constructor
            · rintro ⟨_, h⟩; exact absurd h.symm hr2'
            · rintro ⟨_, h⟩; exact absurd h.symm h1
          · simp only [hyy, if_false]
        · refine Walk.congr ?_ (fun y hy => ?_) h4
          · exact hnext r h1 hr2'
          · have := ((h3 y).mp (by simp [hy])).2
            apply hnext
            · rintro rfl; rw [hr1.1] at this; exact h1 this.symm
            · rintro rfl; rw [hr2.1] at this; exact hr2' this.symm
  · intro x y hxy
    simp only [Hist.step, List.mem_cons, Prod.mk.injEq] at hxy ⊢
    rcases hxy with ⟨rfl, rfl⟩ | h
    · exact ⟨ha, hb⟩
    · exact hi.merged x y h
  · intro x y
    have up : ∀ {x y}, h.Conn x y → (h.step (.merge a b)).Conn x y := by
      intro x y hc
      exact conn_up hc
    have hlink : (h.step (.merge a b)).Conn r1 r2 := by
      have hmab : (h.step (.merge a b)).Conn a b := .rel _ _ (by simp [Hist.step])
      have h1 : ∀ z, (h.step (.merge a b)).Conn z (rep z) := fun z =>
        up ((hi.conn _ _).mp (hf.idem z).symm)
      rcases hab with ⟨e1, e2⟩ | ⟨e1, e2⟩
      · rw [← e1, ← e2]
        exact .trans _ _ _ (.symm _ _ (h1 a)) (.trans _ _ _ hmab (h1 b))
      · rw [← e1, ← e2]
        exact .trans _ _ _ (.symm _ _ (h1 b)) (.trans _ _ _ (.symm _ _ hmab) (h1 a))
    have hto : ∀ z, (h.step (.merge a b)).Conn z (if rep z = r2 then r1 else rep z) := by
      intro z
      have h1 : (h.step (.merge a b)).Conn z (rep z) := up ((hi.conn _ _).mp (hf.idem z).symm)
      split
      · rename_i hz; rw [hz] at h1; exact .trans _ _ _ h1 (.symm _ _ hlink)
      · exact h1
    constructor
    · intro he
      have := hto y; rw [← he] at this
      exact .trans _ _ _ (hto x) (.symm _ _ this)
    · intro hc
      induction hc with
      | rel u v huv =>
        simp only [Hist.step, List.mem_cons, Prod.mk.injEq] at huv
        rcases huv with ⟨rfl, rfl⟩ | huv
        · rcases hab with ⟨e1, e2⟩ | ⟨e1, e2⟩ <;> simp [e1, e2, hne]
        · have := (hi.conn u v).mpr (.rel _ _ huv); simp only [this]
      | refl u => rfl
      | symm u v _ ih => exact ih.symm
      | trans u v w _ _ h1 h2 => exact h1.trans h2

theorem merge_same {s : DS α} {h : Hist α} {rep d} (hi : Inv s h rep d) {a b : α}
    (ha : a ∈ h.elems) (hb : b ∈ h.elems) (he : rep a = rep b) :
    Inv s (h.step (.merge a b)) rep d := by
  refine ⟨hi.forest, hi.rest, hi.elems, ?_, fun x y => ?_⟩
  · intro x y hxy
    simp only [Hist.step, List.mem_cons, Prod.mk.injEq] at hxy ⊢
    rcases hxy with ⟨rfl, rfl⟩ | h
    · exact ⟨ha, hb⟩
    · exact hi.merged x y h
  · rw [hi.conn]
    constructor
    · exact fun hc => conn_up hc
    · intro hc
      induction hc with
      | rel u v huv =>
        simp only [Hist.step, List.mem_cons, Prod.mk.injEq] at huv
        rcases huv with ⟨rfl, rfl⟩ | huv
        · exact (hi.conn _ _).mp he
        · exact .rel _ _ huv
      | refl u => exact .refl _
      | symm u v _ ih => exact .symm _ _ ih
      | trans u v w _ _ h1 h2 => exact .trans _ _ _ h1 h2

theorem merge_spec {s : DS α} {h : Hist α} {rep d} (hi : Inv s h rep d) {a b : α}
    (ha : a ∈ h.elems) (hb : b ∈ h.elems) :
    ∃ s' rep' d', merge s a b = some (rep' a, s') ∧ Inv s' (h.step (.merge a b)) rep' d' := by
  obtain ⟨p1, e1, i1⟩ := find_spec hi ha
  obtain ⟨p2, e2, i2⟩ := find_spec i1 hb
  simp only [merge, e1, e2]
  by_cases he : rep a = rep b
  · rw [if_pos he]
    exact ⟨_, rep, d, rfl, merge_same i2 ha hb he⟩
  · rw [if_neg he]
    unfold link
    by_cases hsz : s.size (rep a) < s.size (rep b)
    · have := link_core i2 ha hb (rep b) (rep a) (fun h => he h.symm) (Or.inr ⟨rfl, rfl⟩)
      refine ⟨_, _, _, ?_, this⟩
      simp only [hsz, if_true]
      rw [Nat.add_comm (s.size (rep a))]
    · have := link_core i2 ha hb (rep a) (rep b) he (Or.inl ⟨rfl, rfl⟩)
      refine ⟨_, _, _, ?_, this⟩
      simp only [hsz, if_false, he]

theorem membersLoop_spec (s : DS α) (r : α) (hr : s.parent r = r) :
    ∀ (l : List α) (n : Nat) (a : α), Walk s.next a l r → (∀ y ∈ l, s.parent y ≠ y) → l.length < n →
      membersLoop s n (s.next a) = some (l ++ [r]) := by
  intro l
  induction l with
  | nil =>
    intro n a hw _ hn
    obtain ⟨n, rfl⟩ : ∃ m, n = m + 1 := ⟨n - 1, by simp at hn; omega⟩
    simp only [Walk] at hw
    rw [hw, membersLoop, if_pos hr]; rfl
  | cons b l ih =>
    intro n a hw hl hn
    obtain ⟨n, rfl⟩ : ∃ m, n = m + 1 := ⟨n - 1, by simp at hn; omega⟩
    rw [hw.1, membersLoop, if_neg (hl b (by simp)),
      ih n b hw.2 (fun y hy => hl y (by simp [hy])) (by simp at hn; omega)]
    rfl

theorem members_spec {s : DS α} {h : Hist α} {rep d} (hi : Inv s h rep d) {x : α}
    (hx : x ∈ h.elems) :
    ∃ l p, members s x = some (l, { s with parent := p }) ∧ Inv { s with parent := p } h rep d ∧
      l.Nodup ∧ ∀ y, y ∈ l ↔ y ∈ h.elems ∧ rep y = rep x := by
  have hx' := (hi.elems x).mpr hx
  obtain ⟨p, h1, h2⟩ := root_spec hi.forest hx'
  have i2 := inv_parent hi h2
  obtain ⟨l, n1, m1, c1⟩ := i2.rest.cyc (rep x) (hi.forest.repMem x hx') (hi.forest.idem x)
  have hroot : p (rep x) = rep x :=
    (h2.rootIff (rep x) (hi.forest.repMem x hx')).mpr (hi.forest.idem x)
  refine ⟨l ++ [rep x], p, ?_, i2, n1, fun y => by rw [m1, hi.elems]⟩
  simp only [members, h1]
  have hsub : (l ++ [rep x]).length ≤ s.values.length :=
    (List.Nodup.subperm n1 (fun y hy => ((m1 y).mp hy).1)).length_le
  rw [membersLoop_spec { s with parent := p } (rep x) hroot l s.values.length (rep x) c1]
  · rfl
  · intro y hy hpy
    have hm := (m1 y).mp (by simp [hy])
    have := (h2.rootIff y hm.1).mp hpy
    rw [hm.2] at this
    rw [List.nodup_append] at n1
    exact n1.2.2 y hy (rep x) (by simp) this.symm
  · simp at hsub; omega

theorem step_spec {s : DS α} {h : Hist α} {rep d} (hi : Inv s h rep d) (op : Op α) :
    (h.legal op → ∃ s' rep' d', step s op = some s' ∧ Inv s' (h.step op) rep' d') ∧
    (¬ h.legal op → step s op = none) := by
  have hc : ∀ x, contains s x = true ↔ x ∈ h.elems := fun x => by
    rw [← hi.elems]; simp [contains]
  have hcn : ∀ x, x ∉ h.elems → contains s x = false := fun x hx => by
    by_contra hcon; exact hx ((hc x).mp (by simpa using hcon))
  have hfn : ∀ x, x ∉ h.elems → find s x = none := fun x hx => by
    rw [find, hcn x hx]; rfl
  cases op with
  | insert x =>
    refine ⟨fun _ => ?_, fun hn => absurd trivial hn⟩
    obtain ⟨d', hd⟩ := insert_spec hi x
    exact ⟨_, rep, d', rfl, hd⟩
  | find x =>
    refine ⟨fun hx => ?_, fun hn => ?_⟩
    · obtain ⟨p, h1, h2⟩ := find_spec hi hx
      exact ⟨_, rep, d, by simp only [step, h1]; rfl, h2⟩
    · simp only [step, hfn x hn]; rfl
  | findOrInsert x =>
    refine ⟨fun _ => ?_, fun hn => absurd trivial hn⟩
    by_cases hx : x ∈ h.elems
    · obtain ⟨p, h1, h2⟩ := find_spec hi hx
      refine ⟨_, rep, d, by simp only [step, findOrInsert, (hc x).mpr hx, if_true, h1]; rfl, ?_⟩
      have : h.step (.findOrInsert x) = h := by
        simp only [Hist.step, Finset.insert_eq_of_mem hx]
      rw [this]; exact h2
    · obtain ⟨d', hd⟩ := insert_spec hi x
      exact ⟨_, rep, d', by simp only [step, findOrInsert, hcn x hx]; rfl, hd⟩
  | merge a b =>
    refine ⟨fun hx => ?_, fun hn => ?_⟩
    · obtain ⟨s', rep', d', h1, h2⟩ := merge_spec hi hx.1 hx.2
      exact ⟨s', rep', d', by simp only [step, h1]; rfl, h2⟩
    · by_cases ha : a ∈ h.elems
      · have hb : b ∉ h.elems := fun hb => hn ⟨ha, hb⟩
        obtain ⟨p, h1, h2⟩ := find_spec hi ha
        have : find { s with parent := p } b = none := by
          rw [find, if_neg]
          simp only [contains]
          intro hcon
          exact hb ((hi.elems b).mp (by simpa using hcon))
        simp only [step, merge, h1, this]; rfl
      · simp only [step, merge, hfn a ha]; rfl
  | nmembers x =>
    refine ⟨fun hx => ?_, fun hn => ?_⟩
    · obtain ⟨p, h1, h2⟩ := root_spec hi.forest ((hi.elems x).mpr hx)
      exact ⟨_, rep, d, by simp only [step, (hc x).mpr hx, if_true, nmembers, h1]; rfl,
        inv_parent hi h2⟩
    · simp only [step, hcn x hn]; rfl
  | members x =>
    refine ⟨fun hx => ?_, fun hn => ?_⟩
    · obtain ⟨l, p, h1, h2, _⟩ := members_spec hi hx
      exact ⟨_, rep, d, by simp only [step, (hc x).mpr hx, if_true, h1]; rfl, h2⟩
    · simp only [step, hcn x hn]; rfl
  | clear =>
    exact ⟨fun _ => ⟨_, id, fun _ => 0, rfl, inv_empty⟩, fun hn => absurd trivial hn⟩

theorem run_spec (ops : List (Op α)) : ∀ {s : DS α} {h : Hist α} {rep d}, Inv s h rep d →
    (h.legalRun ops → ∃ s' rep' d', run s ops = some s' ∧ Inv s' (h.run ops) rep' d') ∧
    (¬ h.legalRun ops → run s ops = none) := by
  induction ops with
  | nil => intro s h rep d hi; exact ⟨fun _ => ⟨s, rep, d, rfl, hi⟩, fun hn => absurd trivial hn⟩
  | cons op ops ih =>
    intro s h rep d hi
    obtain ⟨h1, h2⟩ := step_spec hi op
    by_cases hl : h.legal op
    · obtain ⟨s', rep', d', e, i'⟩ := h1 hl
      obtain ⟨g1, g2⟩ := ih i'
      simp only [run, e, Option.bind_some, Hist.legalRun, Hist.run]
      exact ⟨fun hr => g1 hr.2, fun hn => g2 (fun hr => hn ⟨hl, hr⟩)⟩
    · simp only [run, h2 hl, Option.bind_none, Hist.legalRun]
      exact ⟨fun hr => absurd hr.1 hl, fun _ => trivial⟩

/-- A history runs to completion (every loop terminates, no assertion fails) exactly when it
only names inserted elements. -/
theorem C13_total (ops : List (Op α)) :
    (run empty ops).isSome = true ↔ Hist.empty.legalRun ops := by
  obtain ⟨h1, h2⟩ := run_spec ops (inv_empty (α := α))
  constructor
  · intro h; by_contra hn; rw [h2 hn] at h; simp at h
  · intro h; obtain ⟨s, _, _, e, _⟩ := h1 h; simp [e]

/-- After any history, the partition is the finest one generated by the merges, and all
observers agree with it. -/
theorem C13_partition (ops : List (Op α)) (s : DS α) (hs : run empty ops = some s) :
    let h : Hist α := Hist.empty.run ops
    -- the elements
    (∀ x, contains s x = true ↔ x ∈ h.elems) ∧ nvalues s = h.elems.card ∧
    -- representatives: find terminates, returns a member of the class, the same for the whole class
    (∀ x ∈ h.elems, ∃ r s', find s x = some (r, s') ∧ r ∈ h.elems ∧ h.Conn x r) ∧
    (∀ x ∈ h.elems, ∀ y ∈ h.elems,
      (find s x).map (·.1) = (find s y).map (·.1) ↔ h.Conn x y) ∧
    -- the number of sets and the sets
    nsets s = (h.elems.image h.cls).card ∧
    s.roots.Nodup ∧ (∀ x ∈ h.elems, ∃ r ∈ s.roots, h.Conn x r) ∧
    (∀ r ∈ s.roots, r ∈ h.elems ∧ ∀ r' ∈ s.roots, h.Conn r r' → r = r') ∧
    -- the members of a set
    (∀ x ∈ h.elems, (nmembers s x).map (·.1) = some (h.cls x).card ∧
      ∃ l, (members s x).map (·.1) = some l ∧ l.Nodup ∧ l.toFinset = h.cls x) := by
  intro h
  have hl : Hist.empty.legalRun ops := (C13_total ops).mp (by simp [hs])
  obtain ⟨s', rep, d, e, hi⟩ := (run_spec ops inv_empty).1 hl
  rw [hs] at e; simp only [Option.some.injEq] at e; subst e
  have hcls : ∀ x y, y ∈ h.cls x ↔ y ∈ h.elems ∧ rep x = rep y := fun x y => by
    unfold Hist.cls; simp [hi.conn, h]
  have hval : s.values.toFinset = h.elems := by ext x; simp [hi.elems, h]
  have hrep : ∀ x ∈ h.elems, rep x ∈ h.elems := fun x hx =>
    (hi.elems _).mp (hi.forest.repMem x ((hi.elems x).mpr hx))
  have hfind : ∀ x ∈ h.elems, (find s x).map (·.1) = some (rep x) := fun x hx => by
    obtain ⟨p, h1, _⟩ := find_spec hi hx; rw [h1]; rfl
  have hroots : ∀ r, r ∈ s.roots ↔ r ∈ h.elems ∧ rep r = r := fun r => by
    rw [hi.rest.rootsMem, hi.elems]
  refine ⟨fun x => ?_, ?_, fun x hx => ?_, fun x hx y hy => ?_, ?_, hi.rest.rootsNodup,
    fun x hx => ?_, fun r hr => ⟨((hroots r).mp hr).1, fun r' hr' hc => ?_⟩, fun x hx => ⟨?_, ?_⟩⟩
  · rw [← hi.elems]; simp [contains]
  · rw [nvalues, ← List.toFinset_card_of_nodup hi.forest.nodup, hval]
  · obtain ⟨p, h1, _⟩ := find_spec hi hx
    exact ⟨_, _, h1, hrep x hx, (hi.conn _ _).mp (hi.forest.idem x).symm⟩
  · rw [hfind x hx, hfind y hy, Option.some.injEq, hi.conn]
  · -- number of classes
    rw [nsets, ← List.toFinset_card_of_nodup hi.rest.rootsNodup]
    have : h.elems.image h.cls = s.roots.toFinset.image h.cls := by
      ext c; simp only [Finset.mem_image, List.mem_toFinset, hroots]
      constructor
      · rintro ⟨x, hx, rfl⟩
        refine ⟨rep x, ⟨hrep x hx, hi.forest.idem x⟩, ?_⟩
        ext y; rw [hcls, hcls, hi.forest.idem]
      · rintro ⟨r, ⟨hr, _⟩, rfl⟩; exact ⟨r, hr, rfl⟩
    rw [this, Finset.card_image_of_injOn]
    intro r hr r' hr' he
    simp only [Finset.mem_coe, List.mem_toFinset, hroots] at hr hr'
    have : r ∈ h.cls r' := by
      have := (hcls r r).mpr ⟨hr.1, rfl⟩
      rw [← he]; exact this
    have := ((hcls r' r).mp this).2
    rw [hr.2, hr'.2] at this; exact this.symm
  · exact ⟨rep x, (hroots _).mpr ⟨hrep x hx, hi.forest.idem x⟩,
      (hi.conn _ _).mp (hi.forest.idem x).symm⟩
  · have := (hi.conn r r').mpr hc
    rw [((hroots r).mp hr).2, ((hroots r').mp hr').2] at this; exact this
  · obtain ⟨p, h1, h2⟩ := root_spec hi.forest ((hi.elems x).mpr hx)
    rw [nmembers, h1]
    simp only [Option.map_some, Option.some.injEq]
    rw [hi.rest.sz (rep x) (hi.forest.repMem x ((hi.elems x).mpr hx)) (hi.forest.idem x),
      ← List.toFinset_card_of_nodup (hi.forest.nodup.filter _)]
    congr 1; ext y; rw [hcls]; simp [hi.elems, h, eq_comm]
  · obtain ⟨l, p, h1, _, h3, h4⟩ := members_spec hi hx
    refine ⟨l, by rw [h1]; rfl, h3, ?_⟩
    ext y; rw [List.mem_toFinset, h4, hcls]; simp [eq_comm, h]

/-- `merge` returns the representative of the merged set; `insert` of a new element and
`find_or_insert` return the representative of the element. -/
theorem C13_results (ops : List (Op α)) (s : DS α) (hs : run empty ops = some s) :
    let h : Hist α := Hist.empty.run ops
    (∀ a ∈ h.elems, ∀ b ∈ h.elems, ∃ r s', merge s a b = some (r, s') ∧
      (find s' a).map (·.1) = some r ∧ (find s' b).map (·.1) = some r) ∧
    (∀ x, ∃ r s', findOrInsert s x = some (r, s') ∧ (find s' x).map (·.1) = some r) ∧
    (∀ x, (insert s x).1 = x) := by
  intro h
  have hl : Hist.empty.legalRun ops := (C13_total ops).mp (by simp [hs])
  obtain ⟨s', rep, d, e, hi⟩ := (run_spec ops inv_empty).1 hl
  rw [hs] at e; simp only [Option.some.injEq] at e; subst e
  refine ⟨fun a ha b hb => ?_, fun x => ?_, fun x => ?_⟩
  · obtain ⟨s', rep', d', h1, h2⟩ := merge_spec hi ha hb
    obtain ⟨p, h3, _⟩ := find_spec h2 (x := a) ha
    obtain ⟨q, h4, _⟩ := find_spec h2 (x := b) hb
    have : rep' b = rep' a :=
      (h2.conn b a).mpr (.symm _ _ (.rel _ _ (by simp [Hist.step])))
    exact ⟨_, _, h1, by rw [h3]; rfl, by rw [h4, this]; rfl⟩
  · by_cases hx : x ∈ h.elems
    · obtain ⟨p, h1, h2⟩ := find_spec hi hx
      obtain ⟨q, h3, _⟩ := find_spec h2 hx
      refine ⟨_, _, ?_, by rw [h3]; rfl⟩
      rw [findOrInsert, if_pos (by simpa [contains, hi.elems] using hx), h1]
    · obtain ⟨d', hd⟩ := insert_spec hi x
      obtain ⟨q, h3, _⟩ := find_spec hd (x := x) (by simp [Hist.step])
      refine ⟨_, _, by rw [findOrInsert, if_neg (by simpa [contains, hi.elems] using hx)], ?_⟩
      rw [h3, hi.forest.repOut x (by rw [hi.elems]; exact hx)]
      unfold insert; split <;> rfl
  · unfold insert; split <;> rfl

/-- A concrete history: 1-2, 3-4 merged, then 2-3; 5 alone. -/
example : ∃ s, run (empty : DS Nat) [.insert 1, .insert 2, .insert 3, .insert 4, .insert 5,
    .merge 1 2, .merge 3 4, .merge 2 3] = some s ∧ nsets s = 2 ∧
    (members s 4).map (·.1) = some [4, 3, 2, 1] := by
  refine ⟨_, rfl, rfl, by decide⟩

end Jlm.Util.DisjointSet
