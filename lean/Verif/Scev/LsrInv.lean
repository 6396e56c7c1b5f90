import Verif.Scev.Main

/-! # Which loop variables occur in short chain recurrences -/

set_option linter.unusedSimpArgs false
set_option linter.unusedVariables false

namespace Jlm.Scev.Lsr

open Jlm.Scev

variable {R : Type} [CommRing R]

mutual

/-- A tree without chain recurrences, in which only initial values of variables with `P` occur, and in which n-ary expressions have
at least two operands (or an unknown one). -/
def sane (P : Out → Prop) : S → Prop
  | .unknown => True
  | .init o => P o
  | .const _ => True
  | .nadd xs => (2 ≤ xs.length ∨ isUnknowns xs = true) ∧ sanes P xs
  | .nmul xs => (2 ≤ xs.length ∨ isUnknowns xs = true) ∧ sanes P xs
  | _ => False

def sanes (P : Out → Prop) : List S → Prop
  | [] => True
  | x :: xs => sane P x ∧ sanes P xs

end

def saneO (P : Out → Prop) : Option S → Prop
  | none => True
  | some x => sane P x

mutual

theorem flat_of_sane (P : Out → Prop) : ∀ x : S, sane P x → x.flat = true
  | .unknown, _ => rfl
  | .init _, _ => rfl
  | .const _, _ => rfl
  | .nadd xs, h => by
    simp only [sane] at h
    have := flats_of_sanes P xs h.2
    simp only [S.flat, this, Bool.and_true]
    cases xs with
    | nil => simp [isUnknowns] at h
    | cons x xs => rfl
  | .nmul xs, h => by
    simp only [sane] at h
    simp [S.flat, flats_of_sanes P xs h.2]
  | .ph _, h => by simp [sane] at h
  | .add _ _, h => by simp [sane] at h
  | .mul _ _, h => by simp [sane] at h
  | .chrec _ _, h => by simp [sane] at h

theorem flats_of_sanes (P : Out → Prop) : ∀ xs : List S, sanes P xs → flats xs = true
  | [], _ => rfl
  | x :: xs, h => by
    simp only [sanes] at h
    simp [flats, flat_of_sane P x h.1, flats_of_sanes P xs h.2]

end

mutual

theorem sane_mono {P Q : Out → Prop} (hPQ : ∀ o : Out, P o → Q o) : ∀ x : S, sane P x → sane Q x
  | .unknown, _ => by simp [sane]
  | .init o, h => by simp only [sane] at h ⊢; exact hPQ o h
  | .const _, _ => by simp [sane]
  | .nadd xs, h => by simp only [sane] at h ⊢; exact ⟨h.1, sanes_mono hPQ xs h.2⟩
  | .nmul xs, h => by simp only [sane] at h ⊢; exact ⟨h.1, sanes_mono hPQ xs h.2⟩
  | .ph _, h => by simp [sane] at h
  | .add _ _, h => by simp [sane] at h
  | .mul _ _, h => by simp [sane] at h
  | .chrec _ _, h => by simp [sane] at h

theorem sanes_mono {P Q : Out → Prop} (hPQ : ∀ o : Out, P o → Q o) : ∀ xs : List S, sanes P xs → sanes Q xs
  | [], _ => by simp [sanes]
  | x :: xs, h => by simp only [sanes] at h ⊢; exact ⟨sane_mono hPQ x h.1, sanes_mono hPQ xs h.2⟩

end

theorem sanes_append (P : Out → Prop) : ∀ xs ys : List S, sanes P (xs ++ ys) ↔ sanes P xs ∧ sanes P ys
  | [], ys => by simp [sanes]
  | x :: xs, ys => by simp [sanes, sanes_append P xs ys, and_assoc]

theorem addConst_sanes (P : Out → Prop) (c : Int) : ∀ xs : List S, sanes P xs → sanes P (addConst c xs)
  | [], _ => by simp [addConst, sanes, sane]
  | x :: xs, h => by
    have ih := addConst_sanes P c xs
    cases x <;> simp_all [addConst, sanes, sane]

theorem mulConst_sanes (P : Out → Prop) (c : Int) : ∀ xs : List S, sanes P xs → sanes P (mulConst c xs)
  | [], _ => by simp [mulConst, sanes, sane]
  | x :: xs, h => by
    have ih := mulConst_sanes P c xs
    cases x <;> simp_all [mulConst, sanes, sane]

theorem addConst_len (c : Int) : ∀ xs : List S, (2 ≤ xs.length ∨ isUnknowns xs = true) → (2 ≤ (addConst c xs).length ∨ isUnknowns (addConst c xs) = true) := by
  intro xs h
  rcases h with h | h
  · left
    have : ∀ ys : List S, ys.length ≤ (addConst c ys).length := by
      intro ys
      induction ys with
      | nil => simp [addConst]
      | cons y ys ih => cases y <;> simp [addConst] <;> omega
    exact Nat.le_trans h (this xs)
  · right
    rw [(addConst_spec (R := Int) ⟨fun _ => 0, fun _ => 0, fun _ => 0⟩ c xs).1]
    exact h

theorem mulConst_len (c : Int) : ∀ xs : List S, (2 ≤ xs.length ∨ isUnknowns xs = true) → (2 ≤ (mulConst c xs).length ∨ isUnknowns (mulConst c xs) = true) := by
  intro xs h
  rcases h with h | h
  · left
    have : ∀ ys : List S, ys.length ≤ (mulConst c ys).length := by
      intro ys
      induction ys with
      | nil => simp [mulConst]
      | cons y ys ih => cases y <;> simp [mulConst] <;> omega
    exact Nat.le_trans h (this xs)
  · right
    rw [(mulConst_spec (R := Int) ⟨fun _ => 0, fun _ => 0, fun _ => 0⟩ c xs).1]
    exact h

theorem two_append {a b : Nat} (u v w : Bool) (h : 2 ≤ a ∨ u = true) : 2 ≤ a + b ∨ (u = true ∨ v = true) := by
  rcases h with h | h
  · exact .inl (by omega)
  · exact .inr (.inl h)

theorem addFold_sane (P : Out → Prop) : ∀ (n : Nat) (l r : Option S), saneO P l → saneO P r → sane P (addFold n l r)
  | 0, _, _, _, _ => by simp [addFold, sane]
  | n + 1, none, none, _, _ => by simp [addFold, sane]
  | n + 1, none, some y, _, hr => by
    cases y <;> simp [saneO, sane] at hr <;> simp [addFold, sane, hr]
  | n + 1, some x, none, hl, _ => by
    cases x <;> simp [saneO, sane] at hl <;> simp [addFold, sane, hl]
  | n + 1, some x, some y, hl, hr => by
    cases x <;> cases y <;> simp [saneO, sane] at hl hr <;> simp only [addFold] <;> (try split) <;>
      simp [sane, sanes, sanes_append, isUnknowns, unknowns_append, S.isUnknown, hl, hr, addConst_sanes] <;>
      first
      | exact addConst_len _ _ (by simp [hl])
      | exact addConst_len _ _ (by simp [hr])
      | (rcases hl.1 with h | h
         · exact .inl (by omega)
         · exact .inr (by simp [h]))
      | (rcases hr.1 with h | h
         · exact .inl (by omega)
         · exact .inr (by simp [h]))

theorem mulList_len : ∀ (n : Nat) (xs : List S) (o : S), isUnknowns (mulList n xs o) = false → (mulList n xs o).length = xs.length
  | 0, _, _, h => by simp [mulList, isUnknowns, S.isUnknown] at h
  | n + 1, [], _, _ => by simp [mulList]
  | n + 1, x :: xs, o, h => by
    simp only [mulList, isUnknowns, Bool.or_eq_false_iff] at h
    simp [mulList, mulList_len n xs o h.2]

theorem mulListL_len : ∀ (n : Nat) (o : S) (xs : List S), isUnknowns (mulListL n o xs) = false → (mulListL n o xs).length = xs.length
  | 0, _, _, h => by simp [mulListL, isUnknowns, S.isUnknown] at h
  | n + 1, _, [], _ => by simp [mulListL]
  | n + 1, o, x :: xs, h => by
    simp only [mulListL, isUnknowns, Bool.or_eq_false_iff] at h
    simp [mulListL, mulListL_len n o xs h.2]

theorem mul_sane (P : Out → Prop) : ∀ n : Nat,
    (∀ x y : S, sane P x → sane P y → sane P (mulFold n x y)) ∧
    (∀ (xs : List S) (o : S), sanes P xs → sane P o → sanes P (mulList n xs o))
  | 0 => ⟨by intros; simp [mulFold, sane], by intros; simp [mulList, sanes, sane]⟩
  | n + 1 => by
    obtain ⟨ih1, ih2⟩ := mul_sane P n
    have nl : ∀ (xs : List S) (o : S), sane P o → (2 ≤ xs.length ∨ isUnknowns xs = true) ∧ sanes P xs → sane P (S.nadd (mulList n xs o)) := by
      intro xs o ho hx
      simp only [sane]
      refine ⟨?_, ih2 xs o hx.2 ho⟩
      cases hu : isUnknowns (mulList n xs o) with
      | true => exact .inr rfl
      | false =>
        left
        rw [mulList_len n xs o hu]
        rcases hx.1 with h | h
        · exact h
        · have := ((mul_sound (R := Int) ⟨fun _ => 0, fun _ => 0, fun _ => 0⟩ n).2 xs o (flats_of_sanes P xs hx.2) (flat_of_sane P o ho) hu).1
          rw [this] at h
          exact absurd h (by simp)
    refine ⟨?_, ?_⟩
    · intro x y hx hy
      cases x <;> cases y <;> simp [sane] at hx hy <;> simp only [mulFold] <;> (try split) <;>
        first
        | exact nl _ _ (by simp [sane, hy]) hx
        | exact nl _ _ (by simp [sane, hx]) hy
        | (simp [sane, sanes, sanes_append, isUnknowns, unknowns_append, S.isUnknown, hx, hy, mulConst_sanes]; done)
        | (simp [sane, sanes, sanes_append, isUnknowns, unknowns_append, S.isUnknown, hx, hy, mulConst_sanes]
           first
           | exact mulConst_len _ _ hx.1
           | exact mulConst_len _ _ hy.1
           | (rcases hx.1 with h | h
              · exact .inl (by omega)
              · exact .inr (by simp [h]))
           | (rcases hy.1 with h | h
              · exact .inl (by omega)
              · exact .inr (by simp [h])))
    · intro xs o hx ho
      cases xs with
      | nil => simp [mulList, sanes]
      | cons x xs =>
        simp only [sanes] at hx
        simp [mulList, sanes, ih1 x o hx.1 ho, ih2 xs o hx.2 ho]

theorem mulListL_sane (P : Out → Prop) : ∀ (n : Nat) (o : S) (xs : List S), sanes P xs → sane P o → sanes P (mulListL n o xs)
  | 0, _, _, _, _ => by simp [mulListL, sanes, sane]
  | n + 1, _, [], _, _ => by simp [mulListL, sanes]
  | n + 1, o, x :: xs, hx, ho => by
    simp only [sanes] at hx
    simp [mulListL, sanes, (mul_sane P n).1 o x ho hx.1, mulListL_sane P n o xs hx.2 ho]

/-! ## Chains -/

/-- All operands are sane; a chain with at most two operands has initial values of variables with `P` only in its step, and a chain
with one operand has no other initial values at all. -/
def Short (P : Out → Prop) (ws : List S) : Prop :=
  sanes (fun _ => True) ws ∧ (isUnknowns ws = false →
    (ws.length ≤ 2 → sanes P ws.tail) ∧ (ws.length ≤ 1 → sanes P ws))

theorem padZip_len (f : Option S → Option S → S) : ∀ xs ys : List S, (padZip f xs ys).length = max xs.length ys.length
  | [], ys => by simp [padZip]
  | x :: xs, [] => by simp [padZip, padZip_len f xs []]
  | x :: xs, y :: ys => by simp [padZip, padZip_len f xs ys]

theorem padZip_sanes (P : Out → Prop) (n : Nat) : ∀ xs ys : List S, sanes P xs → sanes P ys → sanes P (padZip (addFold n) xs ys)
  | [], [], _, _ => by simp [padZip_nil, sanes]
  | x :: xs, [], hx, hy => by
    simp only [sanes] at hx
    simp [padZip_left, sanes, addFold_sane P n (some x) none hx.1 trivial, padZip_sanes P n xs [] hx.2 (by simp [sanes])]
  | [], y :: ys, hx, hy => by
    simp only [sanes] at hy
    simp [padZip_right, sanes, addFold_sane P n none (some y) trivial hy.1, padZip_sanes P n [] ys (by simp [sanes]) hy.2]
  | x :: xs, y :: ys, hx, hy => by
    simp only [sanes] at hx hy
    simp [padZip_both, sanes, addFold_sane P n (some x) (some y) hx.1 hy.1, padZip_sanes P n xs ys hx.2 hy.2]

theorem padZip_tail (f : Option S → Option S → S) (xs ys : List S) : (padZip f xs ys).tail = padZip f xs.tail ys.tail := by
  cases xs <;> cases ys <;> simp [padZip, padZip_nil, padZip_left, padZip_right, padZip_both]

theorem unknowns_tail {ws : List S} (h : isUnknowns ws = false) : isUnknowns ws.tail = false := by
  cases ws with
  | nil => rfl
  | cons w ws => simp only [isUnknowns, Bool.or_eq_false_iff] at h; exact h.2

theorem short_unknown (P : Out → Prop) : Short P [.unknown] := by simp [Short, sanes, sane, isUnknowns, S.isUnknown]

theorem short_sum {P : Out → Prop} {xs ys : List S} (n : Nat) (k : Lp) (hx : Short P xs) (hy : Short P ys) :
    Short P (asChrec k (addFold n (some (.chrec k xs)) (some (.chrec k ys)))).2 := by
  cases n with
  | zero => exact short_unknown P
  | succ n =>
    have hred : (asChrec k (addFold (n + 1) (some (.chrec k xs)) (some (.chrec k ys)))).2 = padZip (addFold n) xs ys := by
      simp [addFold, asChrec]
    obtain ⟨ws, h1, h2, h3, h4⟩ := sum_spec (R := Int) (n + 1) k xs ys (flats_of_sanes _ _ hx.1) (flats_of_sanes _ _ hy.1)
    have hws : ws = padZip (addFold n) xs ys := by rw [← hred, h1]
    rw [hred]
    refine ⟨padZip_sanes _ n xs ys hx.1 hy.1, fun hu => ?_⟩
    obtain ⟨u1, u2, _⟩ := h4 (hws ▸ hu)
    rw [padZip_len, padZip_tail]
    refine ⟨fun hl => padZip_sanes P n _ _ ((hx.2 u1).1 (by omega)) ((hy.2 u2).1 (by omega)),
      fun hl => padZip_sanes P n _ _ ((hx.2 u1).2 (by omega)) ((hy.2 u2).2 (by omega))⟩

/-- The product of two chains with at least two operands has more than two. -/
theorem prod_len (n : Nat) (k : Lp) (x x' y y' : S) (xs ys : List S) (hx : flats (x :: x' :: xs) = true) (hy : flats (y :: y' :: ys) = true)
    (hu : isUnknowns (prodFold n (k, x :: x' :: xs) (k, y :: y' :: ys)).2 = false) :
    2 < (prodFold n (k, x :: x' :: xs) (k, y :: y' :: ys)).2.length := by
  cases n with
  | zero => simp [prodFold, isUnknowns, S.isUnknown] at hu
  | succ n =>
    have one : ∀ (m : Nat) (as bs : List S), flats as = true → flats bs = true → 2 ≤ as.length → bs ≠ [] →
        isUnknowns (prodFold m (k, as) (k, bs)).2 = false → 2 ≤ (prodFold m (k, as) (k, bs)).2.length := by
      intro m
      induction m with
      | zero => intro as bs _ _ _ _ hu; simp [prodFold, isUnknowns, S.isUnknown] at hu
      | succ m ih =>
        intro as bs ha hb hla hlb hu
        match as, bs, hla, hlb with
        | a :: a' :: as, [b], _, _ =>
          have hr : (prodFold (m + 1) (k, a :: a' :: as) (k, [b])).2 = mulList m (a :: a' :: as) b := by simp [prodFold]
          rw [hr] at hu ⊢
          rw [mulList_len m _ _ hu]
          simp
        | a :: a' :: as, b :: b' :: bs, _, _ =>
          have hr : (prodFold (m + 1) (k, a :: a' :: as) (k, b :: b' :: bs)).2.length ≥ 2 ∨
              isUnknowns (prodFold (m + 1) (k, a :: a' :: as) (k, b :: b' :: bs)).2 = true := by
            left
            have := (prod_sound (R := Int) (m + 1) k (a :: a' :: as) (b :: b' :: bs) ha hb (by simp) (by simp))
            have key : ∀ (p : S) (ps : List S) (q : S) (qs : List S), flats (p :: ps) = true → flats (q :: qs) = true → ps ≠ [] → qs ≠ [] →
                2 ≤ (mulFold m p q :: (asChrec k (addFold m (some (.chrec (prodFold m (k, p :: ps) (stepRec k (q :: qs))).1 (prodFold m (k, p :: ps) (stepRec k (q :: qs))).2))
                  (some (.chrec (prodFold m (asChrec k (addFold m (some (.chrec k (q :: qs))) (some (.chrec (stepRec k (q :: qs)).1 (stepRec k (q :: qs)).2)))) (stepRec k (p :: ps))).1
                    (prodFold m (asChrec k (addFold m (some (.chrec k (q :: qs))) (some (.chrec (stepRec k (q :: qs)).1 (stepRec k (q :: qs)).2)))) (stepRec k (p :: ps))).2)))).2).length := by
              intro p ps q qs hp hq hps hqs
              have hp' : p.flat = true ∧ flats ps = true := by simpa [flats] using hp
              have hq' : q.flat = true ∧ flats qs = true := by simpa [flats] using hq
              rw [stepRec_flat k _ hp, stepRec_flat k _ hq]
              simp only [List.tail_cons]
              obtain ⟨gs, hg1, hg2, hg3, hg4⟩ := sum_spec (R := Int) m k (q :: qs) qs hq hq'.2
              rw [hg1]
              obtain ⟨p1, p2, p3, p4⟩ := prod_sound (R := Int) m k (p :: ps) qs hp hq'.2 (by simp) hqs
              obtain ⟨q1, q2, q3, q4⟩ := prod_sound (R := Int) m k gs ps hg2 hp'.2 (hg3 (by simp)) hps
              rw [p1, q1]
              obtain ⟨ws, hw1, hw2, hw3, hw4⟩ := sum_spec (R := Int) m k _ _ p2 q2
              rw [hw1]
              have := List.length_pos_iff.2 (hw3 p3)
              simp only [List.length_cons]
              omega
            by_cases hlen : as.length < bs.length
            · simpa [prodFold, hlen] using key b (b' :: bs) a (a' :: as) hb ha (by simp) (by simp)
            · simpa [prodFold, hlen] using key a (a' :: as) b (b' :: bs) ha hb (by simp) (by simp)
          rcases hr with h | h
          · exact h
          · rw [h] at hu; exact absurd hu (by simp)
    have key : ∀ (p : S) (ps : List S) (q : S) (qs : List S), flats (p :: ps) = true → flats (q :: qs) = true → ps ≠ [] → qs ≠ [] →
        isUnknowns (mulFold n p q :: (asChrec k (addFold n (some (.chrec (prodFold n (k, p :: ps) (stepRec k (q :: qs))).1 (prodFold n (k, p :: ps) (stepRec k (q :: qs))).2))
          (some (.chrec (prodFold n (asChrec k (addFold n (some (.chrec k (q :: qs))) (some (.chrec (stepRec k (q :: qs)).1 (stepRec k (q :: qs)).2)))) (stepRec k (p :: ps))).1
            (prodFold n (asChrec k (addFold n (some (.chrec k (q :: qs))) (some (.chrec (stepRec k (q :: qs)).1 (stepRec k (q :: qs)).2)))) (stepRec k (p :: ps))).2)))).2) = false →
        2 < (mulFold n p q :: (asChrec k (addFold n (some (.chrec (prodFold n (k, p :: ps) (stepRec k (q :: qs))).1 (prodFold n (k, p :: ps) (stepRec k (q :: qs))).2))
          (some (.chrec (prodFold n (asChrec k (addFold n (some (.chrec k (q :: qs))) (some (.chrec (stepRec k (q :: qs)).1 (stepRec k (q :: qs)).2)))) (stepRec k (p :: ps))).1
            (prodFold n (asChrec k (addFold n (some (.chrec k (q :: qs))) (some (.chrec (stepRec k (q :: qs)).1 (stepRec k (q :: qs)).2)))) (stepRec k (p :: ps))).2)))).2).length := by
      intro p ps q qs hp hq hps hqs
      have hp' : p.flat = true ∧ flats ps = true := by simpa [flats] using hp
      have hq' : q.flat = true ∧ flats qs = true := by simpa [flats] using hq
      rw [stepRec_flat k _ hp, stepRec_flat k _ hq]
      simp only [List.tail_cons]
      obtain ⟨gs, hg1, hg2, hg3, hg4⟩ := sum_spec (R := Int) n k (q :: qs) qs hq hq'.2
      rw [hg1]
      obtain ⟨p1, p2, p3, p4⟩ := prod_sound (R := Int) n k (p :: ps) qs hp hq'.2 (by simp) hqs
      obtain ⟨q1, q2, q3, q4⟩ := prod_sound (R := Int) n k gs ps hg2 hp'.2 (hg3 (by simp)) hps
      rw [p1, q1]
      obtain ⟨ws, hw1, hw2, hw3, hw4⟩ := sum_spec (R := Int) n k _ _ p2 q2
      rw [hw1]
      intro hu
      simp only [isUnknowns, Bool.or_eq_false_iff] at hu
      obtain ⟨v1, v2, _⟩ := hw4 hu.2
      have hl := one n (p :: ps) qs hp hq'.2 (by
        have := List.length_pos_iff.2 hps
        simp only [List.length_cons]; omega) hqs v1
      cases n with
      | zero => simp [addFold, asChrec] at hw1; subst hw1; simp [isUnknowns, S.isUnknown] at hu
      | succ n =>
        have hws : ws = padZip (addFold n) (prodFold (n + 1) (k, p :: ps) (k, qs)).2 (prodFold (n + 1) (k, gs) (k, ps)).2 := by
          have := congrArg Prod.snd hw1
          simpa [addFold, asChrec] using this.symm
        simp only [List.length_cons, hws, padZip_len]
        omega
    by_cases hlen : xs.length < ys.length
    · have := key y (y' :: ys) x (x' :: xs) hy hx (by simp) (by simp)
      simp only [prodFold, List.length_cons, List.headD_cons] at hu ⊢
      rw [if_pos (by omega)] at hu ⊢
      exact this hu
    · have := key x (x' :: xs) y (y' :: ys) hx hy (by simp) (by simp)
      simp only [prodFold, List.length_cons, List.headD_cons] at hu ⊢
      rw [if_neg (by omega)] at hu ⊢
      exact this hu

end Jlm.Scev.Lsr
