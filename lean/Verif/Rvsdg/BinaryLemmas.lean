import Verif.Rvsdg.BinarySpec
import Mathlib.Data.List.Perm.Basic
import Mathlib.Data.List.Basic
set_option linter.unusedSimpArgs false
set_option linter.unusedSectionVars false
namespace Jlm.Rvsdg
open Expr

section lists
variable {V : Type} [Inhabited V]
open Binary

theorem fold1_cons_append {f : V → V → V} (hf : Assoc f) (m : List V) (hm : m ≠ []) :
    ∀ (l : List V) (a : V), (l ++ m).foldl f a = f (l.foldl f a) (fold1 f m) := by
  obtain ⟨x, m, rfl⟩ := List.exists_cons_of_ne_nil hm
  intro l a
  simp only [List.foldl_append, List.foldl_cons, fold1]
  generalize l.foldl f a = b
  clear hm
  induction m generalizing b x with
  | nil => rfl
  | cons y m ih =>
    simp only [List.foldl_cons]
    rw [hf]; exact ih _ _

theorem fold1_append {f : V → V → V} (hf : Assoc f) {l m : List V} (hl : l ≠ []) (hm : m ≠ []) :
    fold1 f (l ++ m) = f (fold1 f l) (fold1 f m) := by
  obtain ⟨x, l, rfl⟩ := List.exists_cons_of_ne_nil hl
  exact fold1_cons_append hf m hm l x

theorem fold1_cons {f : V → V → V} (hf : Assoc f) (a : V) {m : List V} (hm : m ≠ []) :
    fold1 f (a :: m) = f a (fold1 f m) := fold1_append hf (l := [a]) (by simp) hm

theorem fold1_perm {f : V → V → V} (hf : Assoc f) (hc : Comm f) {l m : List V} (h : l.Perm m) :
    fold1 f l = fold1 f m := by
  induction h with
  | nil => rfl
  | @cons x l m h ih =>
    by_cases hl : l = []
    · subst hl; have := h.nil_eq; subst this; rfl
    · have hm : m ≠ [] := by rintro rfl; exact hl h.eq_nil
      rw [fold1_cons hf x hl, fold1_cons hf x hm, ih]
  | swap x y l =>
    by_cases hl : l = []
    · subst hl; exact hc _ _
    · rw [fold1_cons hf _ (by simp), fold1_cons hf _ hl, fold1_cons hf _ (by simp), fold1_cons hf _ hl,
        ← hf, ← hf, hc y x]
  | trans _ _ ih1 ih2 => exact ih1.trans ih2

end lists

namespace Binary
variable {β V : Type} [DecidableEq β] [Inhabited V]

theorem evals_eq_map (f : β → V → V → V) (env : Nat → V) (l : List (E β)) :
    evals f env l = l.map (eval f env) := by
  induction l with
  | nil => simp [evals]
  | cons a l ih => simp [evals, ih]

theorem WFs_iff (l : List (E β)) : WFs l ↔ ∀ e ∈ l, WF e := by
  induction l with
  | nil => simp [WFs]
  | cons a l ih => simp [WFs, ih]

theorem NoFlats_iff (l : List (E β)) : NoFlats l ↔ ∀ e ∈ l, NoFlat e := by
  induction l with
  | nil => simp [NoFlats]
  | cons a l ih => simp [NoFlats, ih]

/-- Everything about associative_flatten with the tester of FlattenAssociativeBinaryOperation. -/
theorem flatten_spec (o : β) : ∀ (l : List (E β)), (∀ e ∈ l, WF e) →
    ∃ l', associativeFlatten (flattenTester o) l = some l' ∧
      (∀ e ∈ l', WF e ∧ flattenTester o e = false) ∧
      (l.length ≤ l'.length) ∧
      ((∃ e ∈ l, flattenTester o e = true) → l.length < l'.length) ∧
      ((∀ e ∈ l, flattenTester o e = false) → l' = l) ∧
      ∀ (f : β → V → V → V) (env : Nat → V), Assoc (f o) →
        fold1 (f o) (l'.map (eval f env)) = fold1 (f o) (l.map (eval f env)) := by
  intro l
  induction l using associativeFlatten.induct (flattenTester o) with
  | case1 => intro _; exact ⟨[], by simp [associativeFlatten]⟩
  | case2 rest i h => simp [flattenTester] at h
  | case3 rest op h =>
    intro hw
    have := hw (.node op []) (by simp)
    cases op with
    | bin o' => simp [WF] at this
    | flat o' n => simp [WF] at this; omega
  | case4 rest op s subs h ih =>
    intro hw
    have hn := hw (.node op (s :: subs)) (by simp)
    have hrest : ∀ e ∈ rest, WF e := fun e he => hw e (by simp [he])
    have hlen : 1 ≤ subs.length ∧ WFs (s :: subs) := by
      cases op with
      | bin o' => simp only [WF, List.length_cons] at hn; exact ⟨by omega, hn.2⟩
      | flat o' n => simp only [WF, List.length_cons] at hn; exact ⟨by omega, hn.2.2⟩
    have hws := (WFs_iff _).1 hlen.2
    obtain ⟨l', h1, h2, h3, h4, h5, h6⟩ := ih (by
      intro e he
      rw [← List.cons_append, List.mem_append] at he
      rcases he with he | he
      · exact hws e he
      · exact hrest e he)
    have hev : ∀ (f : β → V → V → V) env,
        eval f env (.node op (s :: subs)) = fold1 (f o) ((s :: subs).map (eval f env)) := by
      intro f env
      cases op with
      | bin o' => simp [flattenTester] at h; subst h; simp [eval, evals_eq_map]
      | flat o' n => simp [flattenTester] at h; subst h; simp [eval, evals_eq_map]
    simp only [List.length_cons, List.length_append] at h3
    refine ⟨l', by rw [associativeFlatten]; simp [h, h1], h2, ?_, ?_, ?_, ?_⟩
    · simp only [List.length_cons]; omega
    · intro _; simp only [List.length_cons]; omega
    · intro hall; have := hall _ (List.mem_cons_self ..); rw [h] at this; simp at this
    · intro f env hf
      rw [h6 f env hf, ← List.cons_append, List.map_append, List.map_cons (l := rest), hev]
      by_cases hr : rest = []
      · subst hr; simp [fold1]
      · rw [fold1_append hf (by simp) (by simp [hr]), fold1_cons hf _ (by simp [hr])]
  | case5 a rest h ih =>
    intro hw
    obtain ⟨l', h1, h2, h3, h4, h5, h6⟩ := ih (fun e he => hw e (by simp [he]))
    have h' : flattenTester o a = false := by simpa using h
    refine ⟨a :: l', by rw [associativeFlatten.eq_def]; simp [h', h1], ?_, ?_, ?_, ?_, ?_⟩
    · intro e he
      rcases List.mem_cons.1 he with rfl | he
      · exact ⟨hw _ (by simp), h'⟩
      · exact h2 e he
    · simp; omega
    · rintro ⟨e, he, hte⟩
      rcases List.mem_cons.1 he with rfl | he
      · rw [h'] at hte; simp at hte
      · have := h4 ⟨e, he, hte⟩; simp; omega
    · intro hall; rw [h5 (fun e he => hall e (by simp [he]))]
    · intro f env hf
      by_cases hr : rest = []
      · have hl' : l' = [] := by rw [h5 (by simp [hr])]; exact hr
        subst hr hl'; rfl
      · have hl' : l' ≠ [] := by
          rintro rfl; apply hr; exact List.length_eq_zero_iff.1 (by simpa using h3)
        rw [List.map_cons, List.map_cons, fold1_cons hf _ (by simp [hl']), fold1_cons hf _ (by simp [hr]),
          h6 f env hf]

end Binary

/-! ### pair reductions -/
section
variable {α V : Type} [Inhabited V]
open Binary

theorem pairwiseReduceLoop_spec (red : α → α → Option α) (ev : α → V) (f : V → V → V) (hf : Assoc f)
    (hs : ∀ a b e, red a b = some e → ev e = f (ev a) (ev b)) :
    ∀ (rest dn : List α) (left : α),
      fold1 f ((pairwiseReduceLoop red dn left rest).map ev) =
        fold1 f ((dn.reverse ++ left :: rest).map ev) := by
  intro rest
  induction rest with
  | nil => intro dn left; simp [pairwiseReduceLoop]
  | cons r rest ih =>
    intro dn left
    rw [pairwiseReduceLoop]
    cases h : red left r with
    | none => simp only []; rw [ih]; simp
    | some x =>
      simp only []
      rw [ih]
      simp only [List.map_append, List.map_cons, hs _ _ _ h]
      have key : fold1 f (f (ev left) (ev r) :: rest.map ev) = fold1 f (ev left :: ev r :: rest.map ev) := by
        simp [fold1]
      by_cases hd : dn = []
      · subst hd; simpa using key
      · rw [fold1_append hf (by simp [hd]) (by simp), fold1_append hf (by simp [hd]) (by simp), key]

theorem pairwiseReduceLoop_length (red : α → α → Option α) : ∀ (rest dn : List α) (left : α),
    dn.length + 1 ≤ (pairwiseReduceLoop red dn left rest).length ∧
    (pairwiseReduceLoop red dn left rest).length ≤ dn.length + 1 + rest.length ∧
    ((pairwiseReduceLoop red dn left rest).length = dn.length + 1 + rest.length →
      pairwiseReduceLoop red dn left rest = dn.reverse ++ left :: rest) := by
  intro rest
  induction rest with
  | nil => intro dn left; simp [pairwiseReduceLoop]
  | cons r rest ih =>
    intro dn left
    rw [pairwiseReduceLoop]
    cases h : red left r with
    | none =>
      simp only []
      obtain ⟨h1, h2, h3⟩ := ih (left :: dn) r
      simp only [List.length_cons] at h1 h2 h3 ⊢
      refine ⟨by omega, by omega, fun h => ?_⟩
      rw [h3 (by omega)]; simp
    | some x =>
      simp only []
      obtain ⟨h1, h2, h3⟩ := ih dn x
      simp only [List.length_cons] at h1 h2 h3 ⊢
      exact ⟨by omega, by omega, fun h => by omega⟩

/-- Replacing positions l<r by the result and the last element. -/
theorem set_set_dropLast_perm {args : List α} {l r : Nat} (hlr : l < r) (hr : r < args.length) (x : α)
    (hne : args ≠ []) :
    ∃ others : List α, args.Perm (args[l] :: args[r] :: others) ∧
      (((args.set l x).set r (args.getLast hne)).dropLast).Perm (x :: others) := by
  obtain ⟨A, a, R, rfl, hA⟩ : ∃ A a R, args = A ++ a :: R ∧ A.length = l :=
    ⟨args.take l, args[l], args.drop (l+1), by simp, by simp; omega⟩
  obtain ⟨B, b, C, rfl, hB⟩ : ∃ B b C, R = B ++ b :: C ∧ B.length = r - l - 1 := by
    have : r - l - 1 < R.length := by simp at hr; omega
    exact ⟨R.take (r-l-1), R[r-l-1], R.drop (r-l-1+1), by simp, by simp; omega⟩
  subst hA
  have hrr : r = A.length + (B.length + 1) := by omega
  subst hrr
  rcases List.eq_nil_or_concat C with rfl | ⟨C', c, rfl⟩
  · refine ⟨A ++ B, ?_, ?_⟩
    · simp only [List.getElem_append_right (Nat.le_refl _), Nat.sub_self, List.getElem_cons_zero]
      have : (A ++ a :: (B ++ [b]))[A.length + (B.length + 1)]'(by simp) = b := by
        rw [List.getElem_append_right (by omega)]; simp [List.getElem_cons_succ]
      rw [this]
      refine List.perm_middle.trans (List.Perm.cons _ ?_)
      rw [← List.append_assoc]
      exact List.perm_append_comm
    · have : (((A ++ a :: (B ++ [b])).set A.length x).set (A.length + (B.length + 1))
          ((A ++ a :: (B ++ [b])).getLast hne)).dropLast = A ++ x :: B := by
        rw [List.set_append_right _ _ (Nat.le_refl _), Nat.sub_self, List.set_cons_zero,
          List.set_append_right _ _ (by omega), Nat.add_sub_cancel_left, List.set_cons_succ,
          List.set_append_right _ _ (Nat.le_refl _), Nat.sub_self, List.set_cons_zero]
        rw [← List.cons_append, ← List.append_assoc, List.dropLast_concat]
      rw [this]; exact List.perm_middle
  · refine ⟨A ++ B ++ c :: C', ?_, ?_⟩
    · simp only [List.getElem_append_right (Nat.le_refl _), Nat.sub_self, List.getElem_cons_zero]
      have : (A ++ a :: (B ++ b :: (C'.concat c)))[A.length + (B.length + 1)]'(by simp) = b := by
        rw [List.getElem_append_right (by omega)]; simp [List.getElem_cons_succ]
      rw [this]
      refine List.perm_middle.trans (List.Perm.cons _ ?_)
      rw [← List.append_assoc]
      refine List.perm_middle.trans (List.Perm.cons _ ?_)
      rw [List.concat_eq_append]
      exact List.Perm.append_left _ List.perm_append_comm
    · have : (((A ++ a :: (B ++ b :: C'.concat c)).set A.length x).set (A.length + (B.length + 1))
          ((A ++ a :: (B ++ b :: C'.concat c)).getLast hne)).dropLast = A ++ x :: (B ++ c :: C') := by
        have hl : (A ++ a :: (B ++ b :: C'.concat c)).getLast hne = c := by
          simp [List.concat_eq_append]
        rw [hl]
        rw [List.set_append_right _ _ (Nat.le_refl _), Nat.sub_self, List.set_cons_zero,
          List.set_append_right _ _ (by omega), Nat.add_sub_cancel_left, List.set_cons_succ,
          List.set_append_right _ _ (Nat.le_refl _), Nat.sub_self, List.set_cons_zero, List.concat_eq_append]
        rw [show A ++ x :: (B ++ c :: (C' ++ [c])) = (A ++ x :: (B ++ c :: C')) ++ [c] by simp,
          List.dropLast_concat]
      rw [this]
      refine List.perm_middle.trans (List.Perm.cons _ ?_)
      simp

theorem commPairwiseReduceLoop_spec (red : α → α → Option α) (ev : α → V) (f : V → V → V)
    (hf : Assoc f) (hc : Comm f) (hs : ∀ a b e, red a b = some e → ev e = f (ev a) (ev b)) :
    ∀ (args : List α) (l r : Nat), l < r →
      fold1 f ((commPairwiseReduceLoop red args l r).map ev) = fold1 f (args.map ev) := by
  intro args l r
  induction args, l, r using commPairwiseReduceLoop.induct red with
  | case1 args l r hl hr res hres ih =>
    intro hlr
    rw [commPairwiseReduceLoop]
    simp only [hl, hr, hres, dite_true]
    rw [ih (by omega)]
    obtain ⟨others, p1, p2⟩ := set_set_dropLast_perm hlr hr res (List.ne_nil_of_length_pos (by omega))
    rw [fold1_perm hf hc (p1.map ev), fold1_perm hf hc (p2.map ev)]
    simp [fold1, hs _ _ _ hres]
  | case2 args l r hl hr hres ih =>
    intro hlr
    rw [commPairwiseReduceLoop]
    simp only [hl, hr, hres, dite_true]
    exact ih (by omega)
  | case3 args l r hl hr ih =>
    intro hlr
    rw [commPairwiseReduceLoop]
    simp only [hl, hr, dite_true, dite_false]
    exact ih (by omega)
  | case4 args l r hl =>
    intro _
    rw [commPairwiseReduceLoop]; simp [hl]

theorem commPairwiseReduceLoop_length (red : α → α → Option α) :
    ∀ (args : List α) (l r : Nat), l < r →
      (args ≠ [] → commPairwiseReduceLoop red args l r ≠ []) ∧
      (commPairwiseReduceLoop red args l r).length ≤ args.length ∧
      ((commPairwiseReduceLoop red args l r).length = args.length →
        commPairwiseReduceLoop red args l r = args) := by
  intro args l r
  induction args, l, r using commPairwiseReduceLoop.induct red with
  | case1 args l r hl hr res hres ih =>
    intro hlr
    rw [commPairwiseReduceLoop]
    simp only [hl, hr, hres, dite_true]
    obtain ⟨h1, h2, h3⟩ := ih (by omega)
    simp only [List.length_dropLast, List.length_set] at h1 h2 h3
    refine ⟨fun _ => h1 (List.ne_nil_of_length_pos (by simp; omega)), by omega, fun h => by omega⟩
  | case2 args l r hl hr hres ih =>
    intro hlr
    rw [commPairwiseReduceLoop]
    simp only [hl, hr, hres, dite_true]
    exact ih (by omega)
  | case3 args l r hl hr ih =>
    intro hlr
    rw [commPairwiseReduceLoop]
    simp only [hl, hr, dite_true, dite_false]
    exact ih (by omega)
  | case4 args l r hl =>
    intro _
    rw [commPairwiseReduceLoop]; simp [hl]

/-- After commutative_pairwise_reduce no pair is reducible. -/
theorem commPairwiseReduceLoop_irreducible (red : α → α → Option α) :
    ∀ (args : List α) (l r : Nat), l < r →
      (∀ i j (hi : i < args.length) (hj : j < args.length), i < j → (i < l ∨ (i = l ∧ j < r)) →
        red args[i] args[j] = none) →
      (commPairwiseReduceLoop red args l r).Pairwise (fun a b => red a b = none) := by
  intro args l r
  induction args, l, r using commPairwiseReduceLoop.induct red with
  | case1 args l r hl hr res hres ih =>
    intro hlr _
    rw [commPairwiseReduceLoop]
    simp only [hl, hr, hres, dite_true]
    exact ih (by omega) (fun i j hi hj hij h => by omega)
  | case2 args l r hl hr hres ih =>
    intro hlr hinv
    rw [commPairwiseReduceLoop]
    simp only [hl, hr, hres, dite_true]
    refine ih (by omega) (fun i j hi hj hij h => ?_)
    by_cases h' : i = l ∧ j = r
    · obtain ⟨rfl, rfl⟩ := h'; exact hres
    · exact hinv i j hi hj hij (by omega)
  | case3 args l r hl hr ih =>
    intro hlr hinv
    rw [commPairwiseReduceLoop]
    simp only [hl, hr, dite_true, dite_false]
    exact ih (by omega) (fun i j hi hj hij h => hinv i j hi hj hij (by omega))
  | case4 args l r hl =>
    intro _ hinv
    rw [commPairwiseReduceLoop]
    simp only [hl, dite_false]
    rw [List.pairwise_iff_getElem]
    intro i j hi hj hij
    exact hinv i j hi hj hij (by omega)

end
end Jlm.Rvsdg
