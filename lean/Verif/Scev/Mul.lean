import Verif.Scev.Fold

/-! # Folding of products -/

set_option linter.unusedSimpArgs false
set_option linter.unusedVariables false

namespace Jlm.Scev

variable {R : Type} [CommRing R]

mutual

theorem good_of_flat : ∀ x : S, x.flat = true → x.good = true
  | .unknown, _ => rfl
  | .init _, _ => rfl
  | .const _, _ => rfl
  | .nadd xs, h => by
    simp only [S.flat, Bool.and_eq_true] at h
    simpa [S.good] using goods_of_flats xs h.2
  | .nmul xs, h => by
    simp only [S.flat] at h
    simpa [S.good] using goods_of_flats xs h
  | .ph _, h => by simp [S.flat] at h
  | .add _ _, h => by simp [S.flat] at h
  | .mul _ _, h => by simp [S.flat] at h
  | .chrec _ _, h => by simp [S.flat] at h

theorem goods_of_flats : ∀ xs : List S, flats xs = true → goods xs = true
  | [], _ => rfl
  | x :: xs, h => by
    simp only [flats, Bool.and_eq_true] at h
    simp [goods, good_of_flat x h.1, goods_of_flats xs h.2]

end

mutual

/-- The value of a tree without chain recurrences does not change from iteration to iteration. -/
theorem flat_ev (e e' : Env R) (h : e.init = e'.init) : ∀ x : S, x.flat = true → x.ev e = x.ev e'
  | .unknown, _ => rfl
  | .init _, _ => by simp [S.ev, h]
  | .const _, _ => rfl
  | .nadd xs, hf => by
    simp only [S.flat, Bool.and_eq_true] at hf
    simp [S.ev, flat_evs e e' h xs hf.2]
  | .nmul xs, hf => by
    simp only [S.flat] at hf
    simp [S.ev, flat_evs e e' h xs hf]
  | .ph _, h => by simp [S.flat] at h
  | .add _ _, h => by simp [S.flat] at h
  | .mul _ _, h => by simp [S.flat] at h
  | .chrec _ _, h => by simp [S.flat] at h

theorem flat_evs (e e' : Env R) (h : e.init = e'.init) : ∀ xs : List S, flats xs = true → evs e xs = evs e' xs
  | [], _ => rfl
  | x :: xs, hf => by
    simp only [flats, Bool.and_eq_true] at hf
    simp [evs, flat_ev e e' h x hf.1, flat_evs e e' h xs hf.2]

end

def flatO : Option S → Bool
  | none => true
  | some x => x.flat

theorem goodO_of_flatO : ∀ x : Option S, flatO x = true → goodO x = true
  | none, _ => rfl
  | some x, h => good_of_flat x h

theorem addConst_ne (c : Int) : ∀ xs : List S, (addConst c xs).isEmpty = false
  | [] => rfl
  | x :: xs => by cases x <;> rfl

theorem addConst_flats (c : Int) : ∀ xs : List S, flats (addConst c xs) = flats xs
  | [] => by simp [addConst, flats, S.flat]
  | x :: xs => by
    have ih := addConst_flats c xs
    cases x <;> simp [addConst, flats, S.flat, ih]

theorem mulConst_flats (c : Int) : ∀ xs : List S, flats (mulConst c xs) = flats xs
  | [] => by simp [mulConst, flats, S.flat]
  | x :: xs => by
    have ih := mulConst_flats c xs
    cases x <;> simp [mulConst, flats, S.flat, ih]

theorem addFold_flat : ∀ (n : Nat) (l r : Option S), flatO l = true → flatO r = true → (addFold n l r).flat = true
  | 0, _, _, _, _ => rfl
  | n + 1, none, none, _, _ => rfl
  | n + 1, none, some y, _, hr => by
    cases y <;> simp [flatO, S.flat] at hr <;> simp [addFold, S.flat, hr]
  | n + 1, some x, none, hl, _ => by
    cases x <;> simp [flatO, S.flat] at hl <;> simp [addFold, S.flat, hl]
  | n + 1, some x, some y, hl, hr => by
    cases x <;> cases y <;> simp [flatO, S.flat] at hl hr <;> simp [addFold, S.flat] <;> (try split) <;>
      simp [S.flat, flats, flats_append, addConst_flats, addConst_ne, hl, hr]

theorem padZip_flat (n : Nat) : ∀ xs ys : List S, flats xs = true → flats ys = true → flats (padZip (addFold n) xs ys) = true
  | [], [], _, _ => by simp [padZip_nil, padZip_left, padZip_right, padZip_both, flats]
  | x :: xs, [], hx, _ => by
    simp only [flats, Bool.and_eq_true] at hx
    simp [padZip_nil, padZip_left, padZip_right, padZip_both, flats, addFold_flat n (some x) none hx.1 rfl, padZip_flat n xs [] hx.2 rfl]
  | [], y :: ys, _, hy => by
    simp only [flats, Bool.and_eq_true] at hy
    simp [padZip_nil, padZip_left, padZip_right, padZip_both, flats, addFold_flat n none (some y) rfl hy.1, padZip_flat n [] ys rfl hy.2]
  | x :: xs, y :: ys, hx, hy => by
    simp only [flats, Bool.and_eq_true] at hx hy
    simp [padZip_nil, padZip_left, padZip_right, padZip_both, flats, addFold_flat n (some x) (some y) hx.1 hy.1, padZip_flat n xs ys hx.2 hy.2]

/-! ## Products of trees without chain recurrences -/

theorem mulList_ne : ∀ (n : Nat) (xs : List S) (o : S), xs ≠ [] → (mulList n xs o).isEmpty = false
  | 0, _, _, _ => by simp [mulList]
  | n + 1, [], _, h => absurd rfl h
  | n + 1, x :: xs, o, _ => by simp [mulList]

theorem mul_flat : ∀ n : Nat,
    (∀ x y : S, x.flat = true → y.flat = true → (mulFold n x y).flat = true) ∧
    (∀ (xs : List S) (o : S), flats xs = true → o.flat = true → flats (mulList n xs o) = true)
  | 0 => ⟨by intros; simp [mulFold, S.flat], by intros; simp [mulList, flats, S.flat]⟩
  | n + 1 => by
    obtain ⟨ih1, ih2⟩ := mul_flat n
    have nl : ∀ (xs : List S) (o : S), o.flat = true → ¬ xs = [] → flats xs = true → (S.nadd (mulList n xs o)).flat = true := by
      intro xs o ho hn hf
      simp only [S.flat, Bool.and_eq_true, Bool.not_eq_true']
      exact ⟨mulList_ne n xs o hn, ih2 xs o hf ho⟩
    refine ⟨?_, ?_⟩
    · intro x y hx hy
      cases x <;> cases y <;> simp [S.flat] at hx hy <;> simp only [mulFold] <;> (try split) <;>
        first
        | exact nl _ _ (by simp [S.flat, hy]) hx.1 hx.2
        | exact nl _ _ (by simp [S.flat, hx]) hy.1 hy.2
        | simp [S.flat, flats, flats_append, mulConst_flats, hx, hy]
    · intro xs o hx ho
      cases xs with
      | nil => simp [mulList, flats]
      | cons x xs =>
        simp only [flats, Bool.and_eq_true] at hx
        simp [mulList, flats, ih1 x o hx.1 ho, ih2 xs o hx.2 ho]

theorem sum_map_mul (c : R) : ∀ xs : List R, (xs.map (· * c)).sum = xs.sum * c
  | [] => by simp
  | x :: xs => by simp [sum_map_mul c xs]; ring

/-- `ApplyMulFolding` multiplies (trees without chain recurrences). -/
theorem mul_sound (e : Env R) : ∀ n : Nat,
    (∀ x y : S, x.flat = true → y.flat = true → (mulFold n x y).isUnknown = false →
      x.isUnknown = false ∧ y.isUnknown = false ∧ (mulFold n x y).ev e = x.ev e * y.ev e) ∧
    (∀ (xs : List S) (o : S), flats xs = true → o.flat = true → isUnknowns (mulList n xs o) = false →
      isUnknowns xs = false ∧ (xs ≠ [] → o.isUnknown = false) ∧ evs e (mulList n xs o) = (evs e xs).map (· * o.ev e))
  | 0 => ⟨by intro x y _ _ h; simp [mulFold, S.isUnknown] at h, by intro xs o _ _ h; simp [mulList, isUnknowns, S.isUnknown] at h⟩
  | n + 1 => by
    obtain ⟨ih1, ih2⟩ := mul_sound e n
    have nl : ∀ (xs : List S) (o : S), o.flat = true → ¬ xs = [] → flats xs = true →
        (S.nadd (mulList n xs o)).isUnknown = false →
        (S.nadd xs).isUnknown = false ∧ o.isUnknown = false ∧ (S.nadd (mulList n xs o)).ev e = (S.nadd xs).ev e * o.ev e := by
      intro xs o ho hn hf h
      simp only [S.isUnknown] at h ⊢
      obtain ⟨h1, h2, h3⟩ := ih2 xs o hf ho h
      exact ⟨h1, h2 hn, by simp only [S.ev, h3, sum_map_mul]⟩
    have nr : ∀ (xs : List S) (o : S), o.flat = true → ¬ xs = [] → flats xs = true →
        (S.nadd (mulList n xs o)).isUnknown = false →
        o.isUnknown = false ∧ (S.nadd xs).isUnknown = false ∧ (S.nadd (mulList n xs o)).ev e = o.ev e * (S.nadd xs).ev e := by
      intro xs o ho hn hf h
      obtain ⟨h1, h2, h3⟩ := nl xs o ho hn hf h
      exact ⟨h2, h1, by rw [h3, mul_comm]⟩
    have hmc : ∀ (c : Int) (xs : List S), isUnknowns (mulConst c xs) = isUnknowns xs ∧
        (evs e (mulConst c xs)).prod = (evs e xs).prod * (c : R) := fun c xs =>
      ⟨(mulConst_spec e c xs).1, (mulConst_spec e c xs).2.2⟩
    refine ⟨?_, ?_⟩
    · intro x y hx hy h
      cases x <;> cases y <;> simp [S.flat] at hx hy <;> simp only [mulFold] at h ⊢ <;>
        first
        | exact nl _ _ (by simp [S.flat, hy]) hx.1 hx.2 h
        | exact nr _ _ (by simp [S.flat, hx]) hy.1 hy.2 h
        | (simp [S.isUnknown] at h; done)
        | ((try split at h) <;> (try simp_all) <;>
            simp_all [S.isUnknown, isUnknowns, S.ev, evs, evs_append, unknowns_append] <;> (try ring))
    · intro xs o hx ho h
      cases xs with
      | nil => simp [mulList, isUnknowns, evs]
      | cons x xs =>
        simp only [flats, Bool.and_eq_true] at hx
        simp only [mulList, isUnknowns, Bool.or_eq_false_iff] at h
        obtain ⟨h1, h2, h3⟩ := ih1 x o hx.1 ho h.1
        obtain ⟨h4, h5, h6⟩ := ih2 xs o hx.2 ho h.2
        exact ⟨by simp [isUnknowns, h1, h4], fun _ => h2, by simp [mulList, evs, h3, h6]⟩

theorem mulListL_flat : ∀ (n : Nat) (o : S) (xs : List S), flats xs = true → o.flat = true → flats (mulListL n o xs) = true
  | 0, _, _, _, _ => by simp [mulListL, flats, S.flat]
  | n + 1, _, [], _, _ => by simp [mulListL, flats]
  | n + 1, o, x :: xs, hx, ho => by
    simp only [flats, Bool.and_eq_true] at hx
    simp [mulListL, flats, (mul_flat n).1 o x ho hx.1, mulListL_flat n o xs hx.2 ho]

theorem mulListL_sound (e : Env R) : ∀ (n : Nat) (o : S) (xs : List S), flats xs = true → o.flat = true →
    isUnknowns (mulListL n o xs) = false →
    isUnknowns xs = false ∧ (xs ≠ [] → o.isUnknown = false) ∧ evs e (mulListL n o xs) = (evs e xs).map (o.ev e * ·)
  | 0, _, _, _, _, h => by simp [mulListL, isUnknowns, S.isUnknown] at h
  | n + 1, _, [], _, _, _ => by simp [mulListL, isUnknowns, evs]
  | n + 1, o, x :: xs, hx, ho, h => by
    simp only [flats, Bool.and_eq_true] at hx
    simp only [mulListL, isUnknowns, Bool.or_eq_false_iff] at h
    obtain ⟨h1, h2, h3⟩ := (mul_sound e n).1 o x ho hx.1 h.1
    obtain ⟨h4, h5, h6⟩ := mulListL_sound e n o xs hx.2 ho h.2
    exact ⟨by simp [isUnknowns, h2, h4], fun _ => h1, by simp [mulListL, evs, h3, h6]⟩

end Jlm.Scev
