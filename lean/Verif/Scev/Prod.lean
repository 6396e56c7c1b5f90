import Verif.Scev.Mul

/-! # Products of chain recurrences -/

set_option linter.unusedSimpArgs false
set_option linter.unusedVariables false

namespace Jlm.Scev

variable {R : Type} [CommRing R]

theorem stepRec_flat (k : Lp) : ∀ xs : List S, flats xs = true → stepRec k xs = (k, xs.tail)
  | [], _ => rfl
  | [_], _ => rfl
  | [x, y], h => by
    simp only [flats, Bool.and_eq_true] at h
    cases y <;> simp [S.flat] at h <;> rfl
  | _ :: _ :: _ :: _, _ => by simp [stepRec]

/-- The sum of two chains. -/
theorem sum_spec (n : Nat) (k : Lp) (xs ys : List S) (hx : flats xs = true) (hy : flats ys = true) :
    ∃ ws : List S, asChrec k (addFold n (some (.chrec k xs)) (some (.chrec k ys))) = (k, ws) ∧ flats ws = true ∧
      (xs ≠ [] → ws ≠ []) ∧ (isUnknowns ws = false → isUnknowns xs = false ∧ isUnknowns ys = false ∧
        ∀ (e : Env R) (j : Nat), cr j (evs e ws) = cr j (evs e xs) + cr j (evs e ys)) := by
  cases n with
  | zero => exact ⟨[.unknown], rfl, rfl, by simp, by simp [isUnknowns, S.isUnknown]⟩
  | succ n =>
    refine ⟨padZip (addFold n) xs ys, by simp [addFold, asChrec], padZip_flat n xs ys hx hy, ?_, ?_⟩
    · intro h
      cases xs with
      | nil => exact absurd rfl h
      | cons x xs => exact padZip_ne ys
    · intro h
      refine ⟨(padZip_spec (R := R) (addFold_sound n) ⟨fun _ => 0, fun _ => 0, fun _ => 0⟩ xs ys (goods_of_flats xs hx) (goods_of_flats ys hy) h).1,
        (padZip_spec (R := R) (addFold_sound n) ⟨fun _ => 0, fun _ => 0, fun _ => 0⟩ xs ys (goods_of_flats xs hx) (goods_of_flats ys hy) h).2.1, ?_⟩
      intro e j
      rw [(padZip_spec (addFold_sound n) e xs ys (goods_of_flats xs hx) (goods_of_flats ys hy) h).2.2.2, cr_padAdd]

/-- What the product of two chains of the same loop is. -/
def ProdOk (R : Type) [CommRing R] (k : Lp) (xs ys : List S) (p : Lp × List S) : Prop :=
  p.1 = k ∧ flats p.2 = true ∧ p.2 ≠ [] ∧ (isUnknowns p.2 = false → isUnknowns xs = false ∧ isUnknowns ys = false ∧
    ∀ (e : Env R) (j : Nat), cr j (evs e p.2) = cr j (evs e xs) * cr j (evs e ys))

theorem prodOk_comm {k : Lp} {xs ys : List S} {p : Lp × List S} (h : ProdOk R k xs ys p) : ProdOk R k ys xs p :=
  ⟨h.1, h.2.1, h.2.2.1, fun hu => ⟨(h.2.2.2 hu).2.1, (h.2.2.2 hu).1, fun e j => by rw [(h.2.2.2 hu).2.2 e j, mul_comm]⟩⟩

/-- `ComputeProductOfChrecs` multiplies. -/
theorem prod_sound : ∀ (n : Nat) (k : Lp) (xs ys : List S), flats xs = true → flats ys = true → xs ≠ [] → ys ≠ [] →
    ProdOk R k xs ys (prodFold n (k, xs) (k, ys))
  | 0, k, xs, ys, _, _, _, _ => ⟨by simp [prodFold], by simp [prodFold, flats, S.flat], by simp [prodFold],
      by simp [prodFold, isUnknowns, S.isUnknown]⟩
  | n + 1, k, [], ys, _, _, h, _ => absurd rfl h
  | n + 1, k, xs, [], _, _, _, h => absurd rfl h
  | n + 1, k, [x], y :: ys, hx, hy, _, _ => by
    simp only [flats, Bool.and_true] at hx
    refine ⟨by simp [prodFold], by simpa [prodFold] using mulListL_flat n x (y :: ys) hy hx, ?_, ?_⟩
    · cases n <;> simp [prodFold, mulListL]
    · intro h
      have h' : isUnknowns (mulListL n x (y :: ys)) = false := by simpa [prodFold] using h
      refine ⟨?_, ?_, ?_⟩
      · simpa [isUnknowns] using (mulListL_sound (R := R) ⟨fun _ => 0, fun _ => 0, fun _ => 0⟩ n x (y :: ys) hy hx h').2.1 (by simp)
      · exact (mulListL_sound (R := R) ⟨fun _ => 0, fun _ => 0, fun _ => 0⟩ n x (y :: ys) hy hx h').1
      · intro e j
        simp only [prodFold]
        rw [(mulListL_sound e n x (y :: ys) hy hx h').2.2, cr_map_mul_left]
        simp [evs, cr_single]
  | n + 1, k, x :: x' :: xs, [y], hx, hy, _, _ => by
    simp only [flats, Bool.and_true] at hy
    refine ⟨by simp [prodFold], by simpa [prodFold] using (mul_flat n).2 (x :: x' :: xs) y hx hy, ?_, ?_⟩
    · cases n <;> simp [prodFold, mulList]
    · intro h
      have h' : isUnknowns (mulList n (x :: x' :: xs) y) = false := by simpa [prodFold] using h
      refine ⟨?_, ?_, ?_⟩
      · exact ((mul_sound (R := R) ⟨fun _ => 0, fun _ => 0, fun _ => 0⟩ n).2 (x :: x' :: xs) y hx hy h').1
      · simpa [isUnknowns] using ((mul_sound (R := R) ⟨fun _ => 0, fun _ => 0, fun _ => 0⟩ n).2 (x :: x' :: xs) y hx hy h').2.1 (by simp)
      · intro e j
        simp only [prodFold]
        rw [((mul_sound e n).2 (x :: x' :: xs) y hx hy h').2.2, cr_map_mul]
        simp [evs, cr_single]
  | n + 1, k, x :: x' :: xs, y :: y' :: ys, hx, hy, _, _ => by
    have key : ∀ (a : S) (as : List S) (b : S) (bs : List S), flats (a :: as) = true → flats (b :: bs) = true → as ≠ [] → bs ≠ [] →
        ProdOk R k (a :: as) (b :: bs)
          (let f := stepRec k (a :: as)
           let g := stepRec k (b :: bs)
           let g' := asChrec k (addFold n (some (.chrec k (b :: bs))) (some (.chrec g.1 g.2)))
           let res1 := prodFold n (k, a :: as) g
           let res2 := prodFold n g' f
           let res := asChrec k (addFold n (some (.chrec res1.1 res1.2)) (some (.chrec res2.1 res2.2)))
           (res.1, mulFold n a b :: res.2)) := by
      intro a as b bs ha hb hna hnb
      have ha' : a.flat = true ∧ flats as = true := by simpa [flats] using ha
      have hb' : b.flat = true ∧ flats bs = true := by simpa [flats] using hb
      rw [stepRec_flat k _ ha, stepRec_flat k _ hb]
      simp only [List.tail_cons]
      obtain ⟨gs, hg1, hg2, hg3, hg4⟩ := sum_spec (R := R) n k (b :: bs) bs hb hb'.2
      rw [hg1]
      obtain ⟨p1, p2, p3, p4⟩ := prod_sound n k (a :: as) bs ha hb'.2 (by simp) hnb
      obtain ⟨q1, q2, q3, q4⟩ := prod_sound n k gs as hg2 ha'.2 (hg3 (by simp)) hna
      rw [p1, q1]
      obtain ⟨ws, hw1, hw2, hw3, hw4⟩ := sum_spec (R := R) n k _ _ p2 q2
      rw [hw1]
      refine ⟨rfl, ?_, by simp, ?_⟩
      · simp [flats, hw2, (mul_flat n).1 a b ha'.1 hb'.1]
      · intro h
        simp only [isUnknowns, Bool.or_eq_false_iff] at h
        obtain ⟨u1, u2, u3⟩ := hw4 h.2
        obtain ⟨v1, v2, v3⟩ := p4 u1
        obtain ⟨w1, w2, w3⟩ := q4 u2
        obtain ⟨t1, t2, t3⟩ := hg4 w1
        refine ⟨v1, t1, ?_⟩
        intro e j
        have hm := ((mul_sound e n).1 a b ha'.1 hb'.1 h.1).2.2
        simp only [evs, hm]
        apply cr_prod
        intro i
        rw [u3 e i, v3 e i, w3 e i, t3 e i]
        simp [evs]
    by_cases hlen : xs.length < ys.length
    · have hred : prodFold (n + 1) (k, x :: x' :: xs) (k, y :: y' :: ys) =
          (let f := stepRec k (y :: y' :: ys)
           let g := stepRec k (x :: x' :: xs)
           let g' := asChrec k (addFold n (some (.chrec k (x :: x' :: xs))) (some (.chrec g.1 g.2)))
           let res1 := prodFold n (k, y :: y' :: ys) g
           let res2 := prodFold n g' f
           let res := asChrec k (addFold n (some (.chrec res1.1 res1.2)) (some (.chrec res2.1 res2.2)))
           (res.1, mulFold n y x :: res.2)) := by
        simp [prodFold, hlen]
      rw [hred]
      exact prodOk_comm (key y (y' :: ys) x (x' :: xs) hy hx (by simp) (by simp))
    · have hred : prodFold (n + 1) (k, x :: x' :: xs) (k, y :: y' :: ys) =
          (let f := stepRec k (x :: x' :: xs)
           let g := stepRec k (y :: y' :: ys)
           let g' := asChrec k (addFold n (some (.chrec k (y :: y' :: ys))) (some (.chrec g.1 g.2)))
           let res1 := prodFold n (k, x :: x' :: xs) g
           let res2 := prodFold n g' f
           let res := asChrec k (addFold n (some (.chrec res1.1 res1.2)) (some (.chrec res2.1 res2.2)))
           (res.1, mulFold n x y :: res.2)) := by
        simp [prodFold, hlen]
      rw [hred]
      exact key x (x' :: xs) y (y' :: ys) hx hy (by simp) (by simp)

end Jlm.Scev
