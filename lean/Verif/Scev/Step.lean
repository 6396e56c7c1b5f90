import Verif.Scev.Prod

/-! # From expressions to chain recurrences -/

set_option linter.unusedSimpArgs false
set_option linter.unusedVariables false

namespace Jlm.Scev

variable {R : Type} [CommRing R]

/-- A tree of the shape `scevOf` builds, without unknown values. -/
def S.clean : S → Bool
  | .ph _ => true
  | .const _ => true
  | .add l r => l.clean && r.clean
  | .mul l r => l.clean && r.clean
  | _ => false

/-- `v` does not occur. -/
def S.free (v : Out) : S → Prop
  | .ph o => o ≠ v
  | .add l r => l.free v ∧ r.free v
  | .mul l r => l.free v ∧ r.free v
  | _ => True

/-- `v` plus something without `v`. -/
def S.inc (v : Out) : S → Prop
  | .ph o => o = v
  | .add l r => (l.inc v ∧ r.free v) ∨ (l.free v ∧ r.inc v)
  | _ => False

theorem neg_mul (l r : S) : (neg (.mul l r) = r ∧ l = .const (-1)) ∨ (neg (.mul l r) = l ∧ r = .const (-1)) ∨
    neg (.mul l r) = .mul (.const (-1)) (.mul l r) := by
  unfold neg
  split
  · exact .inl ⟨rfl, rfl⟩
  · exact .inr (.inl ⟨rfl, rfl⟩)
  · exact .inr (.inr rfl)

theorem neg_clean : ∀ s : S, (neg s).clean = s.clean
  | .mul l r => by
    rcases neg_mul l r with ⟨h, h'⟩ | ⟨h, h'⟩ | h <;> rw [h] <;> (try subst h') <;> simp [S.clean]
  | .add l r => by simp [neg, S.clean, neg_clean l, neg_clean r]
  | .const c => rfl
  | .unknown => rfl
  | .init _ => rfl
  | .ph _ => rfl
  | .chrec _ _ => rfl
  | .nadd _ => rfl
  | .nmul _ => rfl

theorem neg_free (v : Out) : ∀ s : S, s.free v → (neg s).free v
  | .mul l r, h => by
    rcases neg_mul l r with ⟨h1, h'⟩ | ⟨h1, h'⟩ | h1 <;> rw [h1]
    · exact h.2
    · exact h.1
    · exact ⟨trivial, h⟩
  | .add l r, h => ⟨neg_free v l h.1, neg_free v r h.2⟩
  | .const c, _ => trivial
  | .unknown, _ => ⟨trivial, trivial⟩
  | .init _, _ => ⟨trivial, trivial⟩
  | .ph _, h => ⟨trivial, h⟩
  | .chrec _ _, _ => ⟨trivial, trivial⟩
  | .nadd _, _ => ⟨trivial, trivial⟩
  | .nmul _, _ => ⟨trivial, trivial⟩

theorem neg_ev (e : Env R) : ∀ s : S, (neg s).ev e = -s.ev e
  | .mul l r => by
    rcases neg_mul l r with ⟨h, h'⟩ | ⟨h, h'⟩ | h <;> rw [h] <;> (try subst h') <;> simp [S.ev]
  | .add l r => by simp [neg, S.ev, neg_ev e l, neg_ev e r]; ring
  | .const c => by simp [neg, S.ev]
  | .unknown => by simp [neg, S.ev]
  | .init _ => by simp [neg, S.ev]
  | .ph _ => by simp [neg, S.ev]
  | .chrec _ _ => by simp [neg, S.ev]
  | .nadd _ => by simp [neg, S.ev]
  | .nmul _ => by simp [neg, S.ev]

theorem scevOf_free (v : Out) : ∀ e : Expr, e.free v → (scevOf e).free v
  | .var o, h => h
  | .const _, _ => trivial
  | .add l r, h => ⟨scevOf_free v l h.1, scevOf_free v r h.2⟩
  | .sub l r, h => ⟨scevOf_free v l h.1, neg_free v _ (scevOf_free v r h.2)⟩
  | .mul l r, h => ⟨scevOf_free v l h.1, scevOf_free v r h.2⟩
  | .shl l k, h => ⟨scevOf_free v l h, trivial⟩
  | .ext l, h => scevOf_free v l h
  | .other _, _ => trivial

theorem scevOf_inc (v : Out) : ∀ e : Expr, e.increments v → (scevOf e).inc v
  | .var o, h => h
  | .add l r, h => h.elim (fun h => .inl ⟨scevOf_inc v l h.1, scevOf_free v r h.2⟩) (fun h => .inr ⟨scevOf_free v l h.1, scevOf_inc v r h.2⟩)
  | .sub l r, h => .inl ⟨scevOf_inc v l h.1, neg_free v _ (scevOf_free v r h.2)⟩
  | .ext l, h => scevOf_inc v l h

theorem scevOf_ev (opq : Nat → (Out → R) → R) (e : Env R) : ∀ x : Expr, (scevOf x).clean = true → (scevOf x).ev e = x.eval opq e.ph
  | .var o, _ => rfl
  | .const _, _ => rfl
  | .add l r, h => by
    simp only [scevOf, S.clean, Bool.and_eq_true] at h
    simp [scevOf, S.ev, Expr.eval, scevOf_ev opq e l h.1, scevOf_ev opq e r h.2]
  | .sub l r, h => by
    simp only [scevOf, S.clean, Bool.and_eq_true, neg_clean] at h
    simp [scevOf, S.ev, Expr.eval, neg_ev, scevOf_ev opq e l h.1, scevOf_ev opq e r h.2]
    ring
  | .mul l r, h => by
    simp only [scevOf, S.clean, Bool.and_eq_true] at h
    simp [scevOf, S.ev, Expr.eval, scevOf_ev opq e l h.1, scevOf_ev opq e r h.2]
  | .shl l k, h => by
    simp only [scevOf, S.clean, Bool.and_eq_true] at h
    simp [scevOf, S.ev, Expr.eval, scevOf_ev opq e l h.1]
  | .ext l, h => by
    simp only [scevOf] at h
    simp [scevOf, Expr.eval, scevOf_ev opq e l h]
  | .other _, h => by simp [scevOf, S.clean] at h

/-! ## Steps -/

/-- What is known about the chains so far: they describe the values of the loop variables in every iteration. -/
structure Good (R : Type) [CommRing R] (m : Chrecs) (x₀ : Out → R) (xs : Nat → Out → R) : Prop where
  flat : ∀ (o : Out) (ws : List S), m o = some ws → flats ws = true ∧ ws ≠ []
  val : ∀ (o : Out) (ws : List S), m o = some ws → isUnknowns ws = false →
    ∀ (e : Env R) (j : Nat), e.init = x₀ → xs j o = cr j (evs e ws)

theorem stepOf_free {m : Chrecs} {x₀ : Out → R} {xs : Nat → Out → R} (hm : Good R m x₀ xs) (n : Nat) (k : Lp) (v : Out) : ∀ s : S, s.free v →
    flats (stepOf n k m v s) = true ∧ stepOf n k m v s ≠ [] ∧ (isUnknowns (stepOf n k m v s) = false →
      s.clean = true ∧ ∀ (e e' : Env R) (j : Nat), e.init = x₀ → e'.ph = xs j → cr j (evs e (stepOf n k m v s)) = s.ev e')
  | .const c, _ => by
    refine ⟨by simp [stepOf, flats, S.flat], by simp [stepOf], fun _ => ⟨rfl, ?_⟩⟩
    intro e e' j _ _
    simp [stepOf, evs, S.ev, cr_single]
  | .ph o, hf => by
    have hf' : ¬ o = v := hf
    cases hmo : m o with
    | none => simp [stepOf, hf', hmo, flats, S.flat, isUnknowns, S.isUnknown]
    | some ws =>
      simp only [stepOf, hf', if_false, hmo, Option.getD_some]
      refine ⟨(hm.flat o ws hmo).1, (hm.flat o ws hmo).2, fun hu => ⟨rfl, ?_⟩⟩
      intro e e' j he he'
      rw [← hm.val o ws hmo hu e j he]
      simp [S.ev, he']
  | .add l r, hf => by
    obtain ⟨l1, l2, l3⟩ := stepOf_free hm n k v l hf.1
    obtain ⟨r1, r2, r3⟩ := stepOf_free hm n k v r hf.2
    obtain ⟨ws, h1, h2, h3, h4⟩ := sum_spec (R := R) n k _ _ l1 r1
    simp only [stepOf, h1]
    refine ⟨h2, h3 l2, fun hu => ?_⟩
    obtain ⟨u1, u2, u3⟩ := h4 hu
    obtain ⟨a1, a2⟩ := l3 u1
    obtain ⟨b1, b2⟩ := r3 u2
    refine ⟨by simp [S.clean, a1, b1], fun e e' j he he' => ?_⟩
    rw [u3 e j, a2 e e' j he he', b2 e e' j he he']
    rfl
  | .mul l r, hf => by
    obtain ⟨l1, l2, l3⟩ := stepOf_free hm n k v l hf.1
    obtain ⟨r1, r2, r3⟩ := stepOf_free hm n k v r hf.2
    cases n with
    | zero => simp [stepOf, mulFold, asChrec, flats, S.flat, isUnknowns, S.isUnknown]
    | succ n =>
      obtain ⟨h1, h2, h3, h4⟩ := prod_sound (R := R) n k _ _ l1 r1 l2 r2
      have hred : stepOf (n + 1) k m v (.mul l r) = (prodFold n (k, stepOf (n + 1) k m v l) (k, stepOf (n + 1) k m v r)).2 := by
        simp [stepOf, mulFold, asChrec]
      rw [hred]
      refine ⟨h2, h3, fun hu => ?_⟩
      obtain ⟨u1, u2, u3⟩ := h4 hu
      obtain ⟨a1, a2⟩ := l3 u1
      obtain ⟨b1, b2⟩ := r3 u2
      refine ⟨by simp [S.clean, a1, b1], fun e e' j he he' => ?_⟩
      rw [u3 e j, a2 e e' j he he', b2 e e' j he he']
      rfl
  | .unknown, _ => by simp [stepOf, flats, S.flat, isUnknowns, S.isUnknown]
  | .init _, _ => by simp [stepOf, flats, S.flat, isUnknowns, S.isUnknown]
  | .chrec _ _, _ => by simp [stepOf, flats, S.flat, isUnknowns, S.isUnknown]
  | .nadd _, _ => by simp [stepOf, flats, S.flat, isUnknowns, S.isUnknown]
  | .nmul _, _ => by simp [stepOf, flats, S.flat, isUnknowns, S.isUnknown]

theorem stepOf_inc {m : Chrecs} {x₀ : Out → R} {xs : Nat → Out → R} (hm : Good R m x₀ xs) (n : Nat) (k : Lp) (v : Out) : ∀ s : S, s.inc v →
    flats (stepOf n k m v s) = true ∧ (isUnknowns (stepOf n k m v s) = false →
      s.clean = true ∧ ∀ (e e' : Env R) (j : Nat), e.init = x₀ → e'.ph = xs j → xs j v + cr j (evs e (stepOf n k m v s)) = s.ev e')
  | .ph o, hf => by
    have hf' : o = v := hf
    subst hf'
    refine ⟨by simp [stepOf, flats], fun _ => ⟨rfl, ?_⟩⟩
    intro e e' j _ he'
    simp [stepOf, evs, cr_nil, S.ev, he']
  | .add l r, hf => by
    rcases hf with ⟨hl, hr⟩ | ⟨hl, hr⟩
    · obtain ⟨l1, l3⟩ := stepOf_inc hm n k v l hl
      obtain ⟨r1, r2, r3⟩ := stepOf_free hm n k v r hr
      obtain ⟨ws, h1, h2, h3, h4⟩ := sum_spec (R := R) n k _ _ l1 r1
      simp only [stepOf, h1]
      refine ⟨h2, fun hu => ?_⟩
      obtain ⟨u1, u2, u3⟩ := h4 hu
      obtain ⟨a1, a2⟩ := l3 u1
      obtain ⟨b1, b2⟩ := r3 u2
      refine ⟨by simp [S.clean, a1, b1], fun e e' j he he' => ?_⟩
      rw [u3 e j, b2 e e' j he he', ← add_assoc, a2 e e' j he he']
      rfl
    · obtain ⟨l1, l2, l3⟩ := stepOf_free hm n k v l hl
      obtain ⟨r1, r3⟩ := stepOf_inc hm n k v r hr
      obtain ⟨ws, h1, h2, h3, h4⟩ := sum_spec (R := R) n k _ _ l1 r1
      simp only [stepOf, h1]
      refine ⟨h2, fun hu => ?_⟩
      obtain ⟨u1, u2, u3⟩ := h4 hu
      obtain ⟨a1, a2⟩ := l3 u1
      obtain ⟨b1, b2⟩ := r3 u2
      refine ⟨by simp [S.clean, a1, b1], fun e e' j he he' => ?_⟩
      rw [u3 e j, a2 e e' j he he', S.ev, ← b2 e e' j he he']
      ring

end Jlm.Scev
