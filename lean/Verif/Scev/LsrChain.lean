import Verif.Scev.LsrInv

/-! # Short chain recurrences of loop variables and expressions -/

set_option linter.unusedSimpArgs false
set_option linter.unusedVariables false

namespace Jlm.Scev.Lsr

open Jlm.Scev

variable {R : Type} [CommRing R]

theorem sum_sanes (P : Out → Prop) (n : Nat) (k : Lp) (xs ys : List S) (hx : sanes P xs) (hy : sanes P ys) :
    sanes P (asChrec k (addFold n (some (.chrec k xs)) (some (.chrec k ys)))).2 := by
  cases n with
  | zero => simp [addFold, asChrec, sanes, sane]
  | succ n => simpa [addFold, asChrec] using padZip_sanes P n xs ys hx hy

theorem prod_sanes (P : Out → Prop) : ∀ (n : Nat) (k : Lp) (xs ys : List S), sanes P xs → sanes P ys → xs ≠ [] → ys ≠ [] →
    sanes P (prodFold n (k, xs) (k, ys)).2
  | 0, k, xs, ys, _, _, _, _ => by simp [prodFold, sanes, sane]
  | n + 1, k, [], ys, _, _, h, _ => absurd rfl h
  | n + 1, k, xs, [], _, _, _, h => absurd rfl h
  | n + 1, k, [x], y :: ys, hx, hy, _, _ => by
    simp only [sanes] at hx
    simpa [prodFold] using mulListL_sane P n x (y :: ys) hy hx.1
  | n + 1, k, x :: x' :: xs, [y], hx, hy, _, _ => by
    simp only [sanes] at hy
    simpa [prodFold] using (mul_sane P n).2 (x :: x' :: xs) y hx hy.1
  | n + 1, k, x :: x' :: xs, y :: y' :: ys, hx, hy, _, _ => by
    have key : ∀ (a : S) (as : List S) (b : S) (bs : List S), sanes P (a :: as) → sanes P (b :: bs) → as ≠ [] → bs ≠ [] →
        sanes P
          (let f := stepRec k (a :: as)
           let g := stepRec k (b :: bs)
           let g' := asChrec k (addFold n (some (.chrec k (b :: bs))) (some (.chrec g.1 g.2)))
           let res1 := prodFold n (k, a :: as) g
           let res2 := prodFold n g' f
           let res := asChrec k (addFold n (some (.chrec res1.1 res1.2)) (some (.chrec res2.1 res2.2)))
           (mulFold n a b :: res.2)) := by
      intro a as b bs ha hb hna hnb
      have fa := flats_of_sanes P _ ha
      have fb := flats_of_sanes P _ hb
      have fa' : a.flat = true ∧ flats as = true := by simpa [flats] using fa
      have fb' : b.flat = true ∧ flats bs = true := by simpa [flats] using fb
      have ha' : sane P a ∧ sanes P as := by simpa [sanes] using ha
      have hb' : sane P b ∧ sanes P bs := by simpa [sanes] using hb
      rw [stepRec_flat k _ fa, stepRec_flat k _ fb]
      simp only [List.tail_cons]
      obtain ⟨gs, hg1, hg2, hg3, hg4⟩ := sum_spec (R := Int) n k (b :: bs) bs fb fb'.2
      have hgs : sanes P gs := by
        have := sum_sanes P n k (b :: bs) bs hb hb'.2
        rwa [hg1] at this
      rw [hg1]
      have p1 := (prod_sound (R := Int) n k (a :: as) bs fa fb'.2 (by simp) hnb).1
      have q1 := (prod_sound (R := Int) n k gs as hg2 fa'.2 (hg3 (by simp)) hna).1
      rw [p1, q1]
      simp only [sanes]
      exact ⟨(mul_sane P n).1 a b ha'.1 hb'.1, sum_sanes P n k _ _ (prod_sanes P n k _ _ ha hb'.2 (by simp) hnb)
        (prod_sanes P n k _ _ hgs ha'.2 (hg3 (by simp)) hna)⟩
    by_cases hlen : xs.length < ys.length
    · simpa [prodFold, hlen] using key y (y' :: ys) x (x' :: xs) hy hx (by simp) (by simp)
    · simpa [prodFold, hlen] using key x (x' :: xs) y (y' :: ys) hx hy (by simp) (by simp)

theorem short_prod {P : Out → Prop} {xs ys : List S} (n : Nat) (k : Lp) (hx : Short P xs) (hy : Short P ys) (hx0 : xs ≠ []) (hy0 : ys ≠ []) :
    Short P (prodFold n (k, xs) (k, ys)).2 := by
  refine ⟨prod_sanes _ n k xs ys hx.1 hy.1 hx0 hy0, fun hu => ?_⟩
  obtain ⟨u1, u2, _⟩ := (prod_sound (R := Int) n k xs ys (flats_of_sanes _ _ hx.1) (flats_of_sanes _ _ hy.1) hx0 hy0).2.2.2 hu
  cases n with
  | zero => simp [prodFold, isUnknowns, S.isUnknown] at hu
  | succ n =>
    match xs, ys, hx0, hy0 with
    | [x], y :: ys, _, _ =>
      have hr : (prodFold (n + 1) (k, [x]) (k, y :: ys)).2 = mulListL n x (y :: ys) := by simp [prodFold]
      rw [hr] at hu ⊢
      have hl := mulListL_len n x (y :: ys) hu
      have hxx : sane P x := by simpa [sanes] using (hx.2 u1).2 (by simp)
      refine ⟨fun h => ?_, fun h => mulListL_sane P n x _ ((hy.2 u2).2 (by omega)) hxx⟩
      cases n with
      | zero => simp [mulListL, sanes]
      | succ n =>
        simp only [mulListL, List.tail_cons]
        exact mulListL_sane P n x _ ((hy.2 u2).1 (by rw [← hl]; exact h)) hxx
    | x :: x' :: xs, [y], _, _ =>
      have hr : (prodFold (n + 1) (k, x :: x' :: xs) (k, [y])).2 = mulList n (x :: x' :: xs) y := by simp [prodFold]
      rw [hr] at hu ⊢
      have hl := mulList_len n (x :: x' :: xs) y hu
      have hyy : sane P y := by simpa [sanes] using (hy.2 u2).2 (by simp)
      refine ⟨fun h => ?_, fun h => (mul_sane P n).2 _ y ((hx.2 u1).2 (by omega)) hyy⟩
      cases n with
      | zero => simp [mulList, sanes]
      | succ n =>
        simp only [mulList, List.tail_cons]
        exact (mul_sane P n).2 _ y ((hx.2 u1).1 (by rw [← hl]; exact h)) hyy
    | x :: x' :: xs, y :: y' :: ys, _, _ =>
      have := prod_len (n + 1) k x x' y y' xs ys (flats_of_sanes _ _ hx.1) (flats_of_sanes _ _ hy.1) hu
      exact ⟨fun h => by omega, fun h => by omega⟩

/-! ## Steps -/

theorem stepOf_short {P : Out → Prop} {m : Chrecs} (hm : ∀ (o : Out) (ws : List S), m o = some ws → Short P ws ∧ ws ≠ []) (n : Nat) (k : Lp) (v : Out) : ∀ s : S,
    (s.free v → Short P (stepOf n k m v s) ∧ stepOf n k m v s ≠ []) ∧ (s.inc v → Short P (stepOf n k m v s))
  | .const c => ⟨fun _ => ⟨by simp [stepOf, Short, sanes, sane], by simp [stepOf]⟩, fun h => h.elim⟩
  | .ph o => by
    refine ⟨fun hf => ?_, fun hf => ?_⟩
    · have hf' : ¬ o = v := hf
      cases hmo : m o with
      | none => simpa [stepOf, hf', hmo] using short_unknown P
      | some ws =>
        simp only [stepOf, hf', if_false, hmo, Option.getD_some]
        exact hm o ws hmo
    · have hf' : o = v := hf
      subst hf'
      simp [stepOf, Short, sanes, isUnknowns]
  | .add l r => by
    have il := stepOf_short hm n k v l
    have ir := stepOf_short hm n k v r
    refine ⟨fun hf => ⟨?_, ?_⟩, fun hf => ?_⟩
    · exact short_sum n k (il.1 hf.1).1 (ir.1 hf.2).1
    · obtain ⟨ws, h1, h2, h3, h4⟩ := sum_spec (R := Int) n k _ _ (flats_of_sanes _ _ (il.1 hf.1).1.1) (flats_of_sanes _ _ (ir.1 hf.2).1.1)
      simp only [stepOf, h1]
      exact h3 (il.1 hf.1).2
    · rcases hf with ⟨a, b⟩ | ⟨a, b⟩
      · exact short_sum n k (il.2 a) (ir.1 b).1
      · exact short_sum n k (il.1 a).1 (ir.2 b)
  | .mul l r => by
    have il := stepOf_short hm n k v l
    have ir := stepOf_short hm n k v r
    refine ⟨fun hf => ?_, fun h => h.elim⟩
    cases n with
    | zero => simpa [stepOf, mulFold, asChrec] using short_unknown P
    | succ n =>
      have hred : stepOf (n + 1) k m v (.mul l r) = (prodFold n (k, stepOf (n + 1) k m v l) (k, stepOf (n + 1) k m v r)).2 := by
        simp [stepOf, mulFold, asChrec]
      rw [hred]
      exact ⟨short_prod n k (il.1 hf.1).1 (ir.1 hf.2).1 (il.1 hf.1).2 (ir.1 hf.2).2,
        (prod_sound (R := Int) n k _ _ (flats_of_sanes _ _ (il.1 hf.1).1.1) (flats_of_sanes _ _ (ir.1 hf.2).1.1) (il.1 hf.1).2 (ir.1 hf.2).2).2.2.1⟩
  | .unknown => ⟨fun _ => by simpa [stepOf] using short_unknown P, fun h => h.elim⟩
  | .init _ => ⟨fun _ => by simpa [stepOf] using short_unknown P, fun h => h.elim⟩
  | .chrec _ _ => ⟨fun _ => by simpa [stepOf] using short_unknown P, fun h => h.elim⟩
  | .nadd _ => ⟨fun _ => by simpa [stepOf] using short_unknown P, fun h => h.elim⟩
  | .nmul _ => ⟨fun _ => by simpa [stepOf] using short_unknown P, fun h => h.elim⟩

/-! ## A run of the loop, with arbitrary values of the nodes that are not looked at -/

/-- `xs j` are the values of the variables in iteration `j`, `ns j` those of the nodes that are not looked at. -/
def Run (lp : Loop) (ns : Nat → Nat → R) (xs : Nat → Out → R) : Prop :=
  ∀ (j : Nat) (o : Out), xs (j + 1) o = (lp.post o).eval (fun i _ => ns j i) (xs j)

/-- The variable never changes. -/
def Inv (xs : Nat → Out → R) (o : Out) : Prop := ∀ j : Nat, xs j o = xs 0 o

/-- What is known about the chains so far. -/
structure Good2 (R : Type) [CommRing R] (m : Chrecs) (xs : Nat → Out → R) : Prop where
  good : Good R m (xs 0) xs
  short : ∀ (o : Out) (ws : List S), m o = some ws → Short (Inv xs) ws ∧ ws ≠ []

theorem chrecOf_good2 {lp : Loop} {ns : Nat → Nat → R} {xs : Nat → Out → R} (hrun : Run lp ns xs) (hs : lp.starts (xs 0)) {m : Chrecs}
    (hm : Good2 R m xs) (n : Nat) (k : Lp) {v : Out} (hv : (lp.post v).increments v) :
    Good2 R (fun o => if o = v then some (lp.chrecOf n k m v) else m o) xs := by
  obtain ⟨h1, h2⟩ := stepOf_inc hm.good n k v (scevOf (lp.post v)) (scevOf_inc v _ hv)
  have hsh := (stepOf_short hm.short n k v (scevOf (lp.post v))).2 (scevOf_inc v _ hv)
  have hval : ∀ (e : Env R) (j : Nat), e.init = xs 0 → isUnknowns (lp.chrecOf n k m v) = false → xs j v = cr j (evs e (lp.chrecOf n k m v)) := by
    intro e j he hu
    simp only [Loop.chrecOf, isUnknowns, Bool.or_eq_false_iff] at hu
    obtain ⟨hc, h3⟩ := h2 hu.2
    simp only [Loop.chrecOf, evs]
    induction j with
    | zero =>
      cases hst : lp.start v with
      | none => simp [cr, S.ev, he]
      | some c => simp [cr, S.ev, hs v c hst]
    | succ j ih =>
      simp only [cr, List.tail_cons, hrun j v, ← ih]
      have h4 := h3 e ⟨e.it, e.init, xs j⟩ j he rfl
      rw [scevOf_ev (fun i _ => ns j i) _ _ hc] at h4
      exact h4.symm
  refine ⟨⟨?_, ?_⟩, ?_⟩
  · intro o ws ho
    try dsimp only at ho
    split at ho
    · injection ho with ho
      subst ho
      refine ⟨?_, by simp [Loop.chrecOf]⟩
      simp only [Loop.chrecOf, flats, h1, Bool.and_true]
      split <;> rfl
    · exact hm.good.flat o ws ho
  · intro o ws ho hu e j he
    try dsimp only at ho
    split at ho
    · rename_i hov
      subst hov
      injection ho with ho
      subst ho
      exact hval e j he hu
    · exact hm.good.val o ws ho hu e j he
  · intro o ws ho
    try dsimp only at ho
    split at ho
    · rename_i hov
      subst hov
      injection ho with ho
      subst ho
      refine ⟨⟨?_, fun hu => ⟨fun hl => ?_, fun hl => ?_⟩⟩, by simp [Loop.chrecOf]⟩
      · simp only [Loop.chrecOf, sanes]
        refine ⟨?_, hsh.1⟩
        split <;> simp [sane]
      · simp only [Loop.chrecOf, List.tail_cons, List.length_cons] at hl ⊢
        simp only [Loop.chrecOf, isUnknowns, Bool.or_eq_false_iff] at hu
        exact (hsh.2 hu.2).2 (by omega)
      · have hnil : stepOf n k m o (scevOf (lp.post o)) = [] := by
          simp only [Loop.chrecOf, List.length_cons] at hl
          exact List.length_eq_zero_iff.1 (by omega)
        have hinv : Inv xs o := by
          intro j
          rw [hval ⟨fun _ => 0, xs 0, fun _ => 0⟩ j rfl hu, hval ⟨fun _ => 0, xs 0, fun _ => 0⟩ 0 rfl hu]
          simp [Loop.chrecOf, hnil, evs, cr_single]
        simp only [Loop.chrecOf, hnil, sanes]
        refine ⟨?_, trivial⟩
        split
        · simp [sane]
        · simpa [sane] using hinv
    · exact hm.short o ws ho

theorem analyze_good2 {lp : Loop} {ns : Nat → Nat → R} {xs : Nat → Out → R} (hrun : Run lp ns xs) (hs : lp.starts (xs 0)) (n : Nat) (k : Lp) :
    ∀ (order : List Out) (m : Chrecs), Good2 R m xs → (∀ v ∈ order, (lp.post v).increments v) → Good2 R (lp.analyze n k order m) xs
  | [], m, hm, _ => hm
  | v :: vs, m, hm, h => by
    simp only [Loop.analyze]
    exact analyze_good2 hrun hs n k vs _ (chrecOf_good2 hrun hs hm n k (h v (by simp))) fun w hw => h w (by simp [hw])

theorem chrecs_good2 {lp : Loop} {ns : Nat → Nat → R} {xs : Nat → Out → R} (hrun : Run lp ns xs) (hs : lp.starts (xs 0)) (n : Nat) (k : Lp)
    {order : List Out} (h : ∀ v ∈ order, (lp.post v).increments v) : Good2 R (lp.chrecs n k order) xs := by
  have hg : Good2 R (lp.analyze n k order fun _ => none) xs :=
    analyze_good2 hrun hs n k order _ ⟨⟨by simp, by simp⟩, by simp⟩ h
  refine ⟨⟨?_, ?_⟩, ?_⟩
  · intro o ws ho
    simp only [Loop.chrecs] at ho
    split at ho
    · exact hg.good.flat o ws ho
    · split at ho
      · injection ho with ho
        subst ho
        simp [flats, S.flat]
      · exact absurd ho (by simp)
  · intro o ws ho hu
    simp only [Loop.chrecs] at ho
    split at ho
    · exact hg.good.val o ws ho hu
    · split at ho
      · injection ho with ho
        subst ho
        simp [isUnknowns, S.isUnknown] at hu
      · exact absurd ho (by simp)
  · intro o ws ho
    simp only [Loop.chrecs] at ho
    split at ho
    · exact hg.short o ws ho
    · split at ho
      · injection ho with ho
        subst ho
        exact ⟨short_unknown _, by simp⟩
      · exact absurd ho (by simp)

/-- Everything that is known about the chain of an expression. -/
theorem chain_good {lp : Loop} {ns : Nat → Nat → R} {xs : Nat → Out → R} (hrun : Run lp ns xs) (hs : lp.starts (xs 0)) (n : Nat) (k : Lp)
    {order : List Out} (h : ∀ v ∈ order, (lp.post v).increments v) (out : Out) (x : Expr) (hx : x.free out) :
    Short (Inv xs) (lp.chrecOfExpr n k order out x) ∧ lp.chrecOfExpr n k order out x ≠ [] ∧
      (isUnknowns (lp.chrecOfExpr n k order out x) = false → ∀ (e : Env R) (opq : Nat → (Out → R) → R) (j : Nat), e.init = xs 0 →
        x.eval opq (xs j) = cr j (evs e (lp.chrecOfExpr n k order out x))) := by
  have hg := chrecs_good2 hrun hs n k h
  have h1 := (stepOf_short hg.short n k out (scevOf x)).1 (scevOf_free out x hx)
  refine ⟨h1.1, h1.2, fun hu e opq j he => ?_⟩
  obtain ⟨_, _, h3⟩ := stepOf_free hg.good n k out (scevOf x) (scevOf_free out x hx)
  obtain ⟨hc, hval⟩ := h3 hu
  rw [Loop.chrecOfExpr, hval e ⟨e.it, e.init, xs j⟩ j he rfl, scevOf_ev opq _ _ hc]

end Jlm.Scev.Lsr
