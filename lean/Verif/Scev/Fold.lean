import Verif.Scev.Spec

/-! # Folding is addition and multiplication -/

set_option linter.unusedSimpArgs false
set_option linter.unusedVariables false

namespace Jlm.Scev

variable {R : Type} [CommRing R]

mutual

/-- Trees that folding deals with: no binary expressions and placeholders, and chain recurrences have operands. -/
def S.good : S → Bool
  | .unknown => true
  | .init _ => true
  | .const _ => true
  | .chrec _ xs => !xs.isEmpty && goods xs
  | .nadd xs => goods xs
  | .nmul xs => goods xs
  | _ => false

def goods : List S → Bool
  | [] => true
  | x :: xs => x.good && goods xs

end

mutual

/-- Trees without chain recurrences and empty sums. -/
def S.flat : S → Bool
  | .unknown => true
  | .init _ => true
  | .const _ => true
  | .nadd xs => !xs.isEmpty && flats xs
  | .nmul xs => flats xs
  | _ => false

def flats : List S → Bool
  | [] => true
  | x :: xs => x.flat && flats xs

end

theorem evs_append (e : Env R) : ∀ xs ys : List S, evs e (xs ++ ys) = evs e xs ++ evs e ys
  | [], ys => rfl
  | x :: xs, ys => by simp [evs, evs_append e xs ys]

theorem unknowns_append : ∀ xs ys : List S, isUnknowns (xs ++ ys) = (isUnknowns xs || isUnknowns ys)
  | [], ys => by simp [isUnknowns]
  | x :: xs, ys => by simp [isUnknowns, unknowns_append xs ys, Bool.or_assoc]

theorem goods_append : ∀ xs ys : List S, goods (xs ++ ys) = (goods xs && goods ys)
  | [], ys => by simp [goods]
  | x :: xs, ys => by simp [goods, goods_append xs ys, Bool.and_assoc]

theorem flats_append : ∀ xs ys : List S, flats (xs ++ ys) = (flats xs && flats ys)
  | [], ys => by simp [flats]
  | x :: xs, ys => by simp [flats, flats_append xs ys, Bool.and_assoc]

theorem addConst_spec (e : Env R) (c : Int) : ∀ xs : List S, isUnknowns (addConst c xs) = isUnknowns xs ∧
    (goods (addConst c xs) = goods xs) ∧ (flats (addConst c xs) = flats xs) ∧ (evs e (addConst c xs)).sum = (evs e xs).sum + (c : R)
  | [] => by simp [addConst, isUnknowns, goods, flats, evs, S.isUnknown, S.good, S.flat, S.ev]
  | x :: xs => by
    have ih := addConst_spec e c xs
    cases x <;> simp [addConst, isUnknowns, goods, flats, evs, S.isUnknown, S.good, S.flat, S.ev, ih] <;> ring

theorem mulConst_spec (e : Env R) (c : Int) : ∀ xs : List S, isUnknowns (mulConst c xs) = isUnknowns xs ∧
    (flats (mulConst c xs) = flats xs) ∧ (evs e (mulConst c xs)).prod = (evs e xs).prod * (c : R)
  | [] => by simp [mulConst, isUnknowns, flats, evs, S.isUnknown, S.flat, S.ev]
  | x :: xs => by
    have ih := mulConst_spec e c xs
    cases x <;> simp [mulConst, isUnknowns, flats, evs, S.isUnknown, S.flat, S.ev, ih] <;> ring

/-! ## Values of chains -/

theorem cr_nil : ∀ j : Nat, cr j ([] : List R) = 0
  | 0 => rfl
  | j + 1 => by simp [cr, cr_nil j]

/-- Sum of two chains. -/
def padAdd : List R → List R → List R
  | [], bs => bs
  | as, [] => as
  | a :: as, b :: bs => (a + b) :: padAdd as bs

theorem cr_padAdd : ∀ (j : Nat) (as bs : List R), cr j (padAdd as bs) = cr j as + cr j bs
  | 0, [], bs => by simp [cr, padAdd]
  | 0, a :: as, [] => by simp [cr, padAdd]
  | 0, a :: as, b :: bs => by simp [cr, padAdd]
  | j + 1, [], bs => by simp [padAdd, cr_nil]
  | j + 1, a :: as, [] => by simp [padAdd, cr_nil]
  | j + 1, a :: as, b :: bs => by
    have h1 := cr_padAdd j (a :: as) (b :: bs)
    have h2 := cr_padAdd j as bs
    simp only [padAdd] at h1
    simp only [cr, padAdd, List.tail_cons, h1, h2]
    ring

theorem cr_map_mul (c : R) : ∀ (j : Nat) (as : List R), cr j (as.map (· * c)) = cr j as * c
  | 0, [] => by simp [cr]
  | 0, a :: as => by simp [cr]
  | j + 1, as => by
    simp only [cr, cr_map_mul c j as, ← List.map_tail, cr_map_mul c j as.tail]
    ring

theorem cr_map_mul_left (c : R) : ∀ (j : Nat) (as : List R), cr j (as.map (c * ·)) = c * cr j as
  | 0, [] => by simp [cr]
  | 0, a :: as => by simp [cr]
  | j + 1, as => by
    simp only [cr, cr_map_mul_left c j as, ← List.map_tail, cr_map_mul_left c j as.tail]
    ring

theorem cr_single (a : R) : ∀ j : Nat, cr j [a] = a
  | 0 => rfl
  | j + 1 => by simp [cr, cr_single a j, cr_nil]

/-- The start value only shifts the chain. -/
theorem cr_cons_add (a b : R) (as : List R) : ∀ j : Nat, cr j ((a + b) :: as) = cr j (a :: as) + b
  | 0 => by simp [cr]
  | j + 1 => by simp only [cr, List.tail_cons, cr_cons_add a b as j]; ring

/-- The product rule of Bachmann, Wang and Zima. -/
theorem cr_prod {a b : R} {as bs ts : List R}
    (h : ∀ j : Nat, cr j ts = cr j (a :: as) * cr j bs + (cr j (b :: bs) + cr j bs) * cr j as) :
    ∀ j : Nat, cr j ((a * b) :: ts) = cr j (a :: as) * cr j (b :: bs)
  | 0 => by simp [cr]
  | j + 1 => by
    simp only [cr, List.tail_cons, cr_prod h j, h j]
    ring

/-! ## Addition -/

def knownO : Option S → Bool
  | none => true
  | some x => !x.isUnknown

def goodO : Option S → Bool
  | none => true
  | some x => x.good

def evO (e : Env R) : Option S → R
  | none => 0
  | some x => x.ev e

/-- What `addFold n` does. -/
def AddSound (R : Type) [CommRing R] (f : Option S → Option S → S) : Prop :=
  ∀ (e : Env R) (l r : Option S), goodO l = true → goodO r = true → (f l r).isUnknown = false →
    knownO l = true ∧ knownO r = true ∧ (f l r).good = true ∧ (f l r).ev e = evO e l + evO e r

theorem padZip_nil (f : Option S → Option S → S) : padZip f [] [] = [] := rfl

theorem padZip_right (f : Option S → Option S → S) (y : S) (ys : List S) :
    padZip f [] (y :: ys) = f none (some y) :: padZip f [] ys := rfl

theorem padZip_left (f : Option S → Option S → S) (x : S) (xs : List S) :
    padZip f (x :: xs) [] = f (some x) none :: padZip f xs [] := rfl

theorem padZip_both (f : Option S → Option S → S) (x : S) (xs : List S) (y : S) (ys : List S) :
    padZip f (x :: xs) (y :: ys) = f (some x) (some y) :: padZip f xs ys := rfl

theorem padZip_spec {f : Option S → Option S → S} (hf : AddSound R f) (e : Env R) : ∀ xs ys : List S, goods xs = true → goods ys = true →
    isUnknowns (padZip f xs ys) = false →
    isUnknowns xs = false ∧ isUnknowns ys = false ∧ goods (padZip f xs ys) = true ∧
      evs e (padZip f xs ys) = padAdd (evs e xs) (evs e ys)
  | [], [], _, _, _ => by simp [padZip_nil, padZip_left, padZip_right, padZip_both, goods, evs, padAdd, isUnknowns]
  | x :: xs, [], hx, _, h => by
    simp only [goods, Bool.and_eq_true] at hx
    simp only [padZip_nil, padZip_left, padZip_right, padZip_both, isUnknowns, Bool.or_eq_false_iff] at h
    obtain ⟨h1, _, h3, h4⟩ := hf e (some x) none hx.1 rfl h.1
    obtain ⟨h5, _, h7, h8⟩ := padZip_spec hf e xs [] hx.2 rfl h.2
    simp only [knownO, Bool.not_eq_true'] at h1
    refine ⟨by simp [isUnknowns, h1, h5], rfl, by simp [padZip_nil, padZip_left, padZip_right, padZip_both, goods, h3, h7], ?_⟩
    have : padAdd (evs e xs) ([] : List R) = evs e xs := by cases xs <;> simp [evs, padAdd]
    simp [padZip_nil, padZip_left, padZip_right, padZip_both, evs, h4, h8, padAdd, evO, this]
  | [], y :: ys, _, hy, h => by
    simp only [goods, Bool.and_eq_true] at hy
    simp only [padZip_nil, padZip_left, padZip_right, padZip_both, isUnknowns, Bool.or_eq_false_iff] at h
    obtain ⟨_, h1, h3, h4⟩ := hf e none (some y) rfl hy.1 h.1
    obtain ⟨_, h5, h7, h8⟩ := padZip_spec hf e [] ys rfl hy.2 h.2
    simp only [knownO, Bool.not_eq_true'] at h1
    refine ⟨rfl, by simp [isUnknowns, h1, h5], by simp [padZip_nil, padZip_left, padZip_right, padZip_both, goods, h3, h7], ?_⟩
    simp [padZip_nil, padZip_left, padZip_right, padZip_both, evs, h4, h8, padAdd, evO]
  | x :: xs, y :: ys, hx, hy, h => by
    simp only [goods, Bool.and_eq_true] at hx hy
    simp only [padZip_nil, padZip_left, padZip_right, padZip_both, isUnknowns, Bool.or_eq_false_iff] at h
    obtain ⟨h1, h2, h3, h4⟩ := hf e (some x) (some y) hx.1 hy.1 h.1
    obtain ⟨h5, h6, h7, h8⟩ := padZip_spec hf e xs ys hx.2 hy.2 h.2
    simp only [knownO, Bool.not_eq_true'] at h1 h2
    exact ⟨by simp [isUnknowns, h1, h5], by simp [isUnknowns, h2, h6], by simp [padZip_nil, padZip_left, padZip_right, padZip_both, goods, h3, h7],
      by simp [padZip_nil, padZip_left, padZip_right, padZip_both, evs, h4, h8, padAdd, evO]⟩

theorem padZip_ne {f : Option S → Option S → S} {x : S} {xs : List S} : ∀ ys : List S, padZip f (x :: xs) ys ≠ []
  | [] => by simp [padZip_left, padZip_both]
  | y :: ys => by simp [padZip_left, padZip_both]

theorem addToStart_spec {f : Option S → Option S → S} (hf : AddSound R f) (e : Env R) {k : Lp} {xs : List S} {o : Option S}
    (hg : (S.chrec k xs).good = true) (ho : goodO o = true) (h : (addToStart f k xs o).isUnknown = false) :
    (S.chrec k xs).isUnknown = false ∧ knownO o = true ∧ (addToStart f k xs o).good = true ∧
      (addToStart f k xs o).ev e = (S.chrec k xs).ev e + evO e o := by
  by_cases hz : o = some (.const 0)
  · subst hz
    simp only [addToStart] at h ⊢
    refine ⟨h, by simp [knownO, S.isUnknown], hg, by simp [evO, S.ev]⟩
  · cases xs with
    | nil => simp [S.good] at hg
    | cons x xs =>
      have hred : addToStart f k (x :: xs) o = .chrec k (f (some x) o :: xs) := by
        unfold addToStart
        split
        · exact absurd rfl hz
        · rfl
      rw [hred] at h ⊢
      simp only [S.good, goods, List.isEmpty_cons, Bool.not_false, Bool.true_and, Bool.and_eq_true] at hg
      simp only [S.isUnknown, isUnknowns, Bool.or_eq_false_iff] at h
      obtain ⟨h1, h2, h3, h4⟩ := hf e (some x) o hg.1 ho h.1
      simp only [knownO, Bool.not_eq_true'] at h1
      refine ⟨by simp [S.isUnknown, isUnknowns, h1, h.2], h2, by simp [S.good, goods, h3, hg.2], ?_⟩
      simp only [S.ev, evs, h4, evO]
      exact cr_cons_add ..

/-- `ApplyAddFolding` adds. -/
theorem addFold_sound : ∀ n : Nat, AddSound R (addFold n)
  | 0 => by intro e l r _ _ h; simp [addFold, S.isUnknown] at h
  | n + 1 => by
    intro e l r hl hr h
    have ih := addFold_sound n
    have hadd : ∀ (c : Int) (xs : List S), isUnknowns (addConst c xs) = isUnknowns xs ∧
        (goods (addConst c xs) = goods xs) ∧ (evs e (addConst c xs)).sum = (evs e xs).sum + (c : R) := fun c xs =>
      ⟨(addConst_spec e c xs).1, (addConst_spec e c xs).2.1, (addConst_spec e c xs).2.2.2⟩
    by_cases hch : ∃ k xs, l = some (.chrec k xs)
    · obtain ⟨k, xs, rfl⟩ := hch
      by_cases hr' : ∃ m ys, r = some (.chrec m ys)
      · obtain ⟨m, ys, rfl⟩ := hr'
        simp only [addFold] at h ⊢
        simp only [goodO] at hl hr
        split at h
        · rename_i hkm
          subst hkm
          rw [if_pos rfl]
          simp only [S.isUnknown] at h
          have hl' : xs ≠ [] ∧ goods xs = true := by simpa [S.good] using hl
          have hr' : ys ≠ [] ∧ goods ys = true := by simpa [S.good] using hr
          obtain ⟨h1, h2, h3, h4⟩ := padZip_spec ih e xs ys hl'.2 hr'.2 h
          refine ⟨by simp [knownO, S.isUnknown, h1], by simp [knownO, S.isUnknown, h2], ?_, ?_⟩
          · cases xs with
            | nil => exact absurd rfl hl'.1
            | cons x xs => simp [S.good, padZip_ne ys, h3]
          · simp [S.ev, evO, h4, cr_padAdd]
        · rename_i hkm
          rw [if_neg hkm]
          simp only [S.isUnknown, isUnknowns, Bool.or_false, Bool.or_eq_false_iff] at h
          refine ⟨by simp [knownO, S.isUnknown, h.1], by simp [knownO, S.isUnknown, h.2], ?_, ?_⟩
          · simp only [S.good, goods, List.isEmpty_cons, Bool.not_false, Bool.true_and, Bool.and_true] at hl hr ⊢
            simp [hl, hr]
          · simp [S.ev, evs, evO, cr_single]
      · by_cases hu : r = some .unknown
        · subst hu
          simp [addFold, S.isUnknown] at h
        · have hred : addFold (n + 1) (some (.chrec k xs)) r = addToStart (addFold n) k xs r := by
            clear h hr
            match r with
            | none => simp [addFold]
            | some x => cases x <;> simp [addFold] at hr' hu ⊢
          rw [hred] at h ⊢
          obtain ⟨h1, h2, h3, h4⟩ := addToStart_spec ih e hl hr h
          exact ⟨by simp [knownO, h1], h2, h3, h4⟩
    · by_cases hr' : ∃ m ys, r = some (.chrec m ys)
      · obtain ⟨k, xs, rfl⟩ := hr'
        by_cases hu : l = some .unknown
        · subst hu
          simp [addFold, S.isUnknown] at h
        · have hred : addFold (n + 1) l (some (.chrec k xs)) = addToStart (addFold n) k xs l := by
            clear h hl
            match l with
            | none => simp [addFold]
            | some x => cases x <;> simp [addFold] at hch hu ⊢
          rw [hred] at h ⊢
          obtain ⟨h1, h2, h3, h4⟩ := addToStart_spec ih e hr hl h
          refine ⟨h2, by simp [knownO, h1], h3, ?_⟩
          rw [h4, add_comm]; rfl
      · match l, r with
        | none, none => simp [addFold, S.isUnknown] at h
        | none, some y =>
          cases y <;> simp [goodO, S.good] at hr <;> simp [addFold, S.isUnknown] at h hr' ⊢ <;>
            simp [goodO, S.good, knownO, S.isUnknown, evO, S.ev, h, hr]
        | some x, none =>
          cases x <;> simp [goodO, S.good] at hl <;> simp [addFold, S.isUnknown] at h hch ⊢ <;>
            simp [goodO, S.good, knownO, S.isUnknown, evO, S.ev, h, hl]
        | some x, some y =>
          cases x <;> cases y <;> simp [goodO, S.good] at hl hr hch hr' <;> simp [addFold, S.isUnknown] at h ⊢ <;>
            (try split at h) <;> (try simp_all) <;>
            simp_all [goodO, S.good, goods, knownO, S.isUnknown, isUnknowns, evO, S.ev, evs, evs_append, unknowns_append, goods_append] <;>
            (try ring)

end Jlm.Scev
