import Verif.Bits.Spec
/- Helper lemmas for Verif.Bits.Props. -/
namespace Jlm.Bits

/-! ### numeric value of known bit lists -/

def bv (b : Bit) : Nat := if b = .one then 1 else 0

def val : BVR → Nat
  | [] => 0
  | b :: bs => bv b + 2 * val bs

def KnownB (b : Bit) : Prop := b = .zero ∨ b = .one

def Known (a : BVR) : Prop := ∀ b ∈ a, KnownB b

@[simp] theorem known_nil : Known [] := by simp [Known]
@[simp] theorem known_cons {b : Bit} {a : BVR} : Known (b :: a) ↔ KnownB b ∧ Known a := by
  simp [Known]
@[simp] theorem known_append {a b : BVR} : Known (a ++ b) ↔ Known a ∧ Known b := by
  simp only [Known, List.mem_append]
  constructor
  · intro h; exact ⟨fun x hx => h x (Or.inl hx), fun x hx => h x (Or.inr hx)⟩
  · rintro ⟨h1, h2⟩ x (hx | hx)
    · exact h1 x hx
    · exact h2 x hx
theorem known_take {a : BVR} (n : Nat) (h : Known a) : Known (a.take n) :=
  fun b hb => h b (List.mem_of_mem_take hb)
theorem known_drop {a : BVR} (n : Nat) (h : Known a) : Known (a.drop n) :=
  fun b hb => h b (List.mem_of_mem_drop hb)
theorem known_replicate {n : Nat} {b : Bit} (h : KnownB b) : Known (List.replicate n b) := by
  intro x hx; rw [List.mem_replicate] at hx; rw [hx.2]; exact h
theorem known_reverse {a : BVR} (h : Known a) : Known a.reverse := by
  intro x hx; exact h x (by simpa using hx)

theorem bv_lt (b : Bit) : bv b < 2 := by cases b <;> simp [bv]

theorem val_lt (a : BVR) : val a < 2 ^ a.length := by
  induction a with
  | nil => simp [val]
  | cons b bs ih =>
    have := bv_lt b
    simp only [val, List.length_cons, Nat.pow_succ]; omega

theorem knownB_eq {a b : Bit} (ha : KnownB a) (hb : KnownB b) (h : bv a = bv b) : a = b := by
  rcases ha with rfl | rfl <;> rcases hb with rfl | rfl <;> simp_all [bv]

theorem known_ext {a b : BVR} (ha : Known a) (hb : Known b) (hl : a.length = b.length)
    (hv : val a = val b) : a = b := by
  induction a generalizing b with
  | nil => cases b with
    | nil => rfl
    | cons => simp at hl
  | cons x xs ih =>
    cases b with
    | nil => simp at hl
    | cons y ys =>
      simp only [known_cons] at ha hb
      simp only [val] at hv
      have h1 := bv_lt x
      have h2 := bv_lt y
      have : bv x = bv y := by omega
      rw [knownB_eq ha.1 hb.1 this, ih ha.2 hb.2 (by simpa using hl) (by omega)]

theorem val_append (a b : BVR) : val (a ++ b) = val a + 2 ^ a.length * val b := by
  induction a with
  | nil => simp [val]
  | cons x xs ih =>
    simp only [List.cons_append, val, ih, List.length_cons, Nat.pow_succ]
    rw [Nat.mul_add]
    have : 2 * (2 ^ xs.length * val b) = 2 ^ xs.length * 2 * val b := by
      rw [Nat.mul_comm (2 ^ xs.length) 2, Nat.mul_assoc]
    omega

theorem val_take_add (a : BVR) (n : Nat) (h : n ≤ a.length) :
    val a = val (a.take n) + 2 ^ n * val (a.drop n) := by
  conv => lhs; rw [← List.take_append_drop n a]
  rw [val_append, List.length_take, Nat.min_eq_left h]

theorem val_take (a : BVR) (n : Nat) (h : n ≤ a.length) : val (a.take n) = val a % 2 ^ n := by
  have h1 := val_take_add a n h
  have h2 := val_lt (a.take n)
  rw [List.length_take, Nat.min_eq_left h] at h2
  rw [h1, Nat.add_mul_mod_self_left, Nat.mod_eq_of_lt h2]

theorem val_drop (a : BVR) (n : Nat) (h : n ≤ a.length) : val (a.drop n) = val a / 2 ^ n := by
  have h1 := val_take_add a n h
  have h2 := val_lt (a.take n)
  rw [List.length_take, Nat.min_eq_left h] at h2
  rw [h1, Nat.add_mul_div_left _ _ (Nat.two_pow_pos n), Nat.div_eq_of_lt h2, Nat.zero_add]

@[simp] theorem val_replicate_zero (n : Nat) : val (List.replicate n .zero) = 0 := by
  induction n with
  | zero => rfl
  | succ n ih => simp [List.replicate_succ, val, ih, bv]

theorem val_replicate_one (n : Nat) : val (List.replicate n .one) = 2 ^ n - 1 := by
  induction n with
  | zero => rfl
  | succ n ih =>
    have := Nat.two_pow_pos n
    simp only [List.replicate_succ, val, ih, bv, Nat.pow_succ]; simp; omega

/-! ### representation of machine words -/

@[simp] theorem repr_length {n : Nat} (x : BitVec n) : (repr x).length = n := by simp [repr]

theorem knownB_bitOf (b : Bool) : KnownB (bitOf b) := by cases b <;> simp [bitOf, KnownB]

theorem repr_known {n : Nat} (x : BitVec n) : Known (repr x) := by
  intro b hb
  simp only [repr, List.mem_map] at hb
  obtain ⟨i, _, rfl⟩ := hb
  exact knownB_bitOf _

theorem val_mapRange (f : Nat → Bool) (n : Nat) (m : Nat)
    (h : ∀ i, i < n → f i = m.testBit i) :
    val ((List.range n).map (fun i => bitOf (f i))) = m % 2 ^ n := by
  induction n generalizing f m with
  | zero => simp [val, Nat.mod_one]
  | succ n ih =>
    rw [List.range_succ_eq_map, List.map_cons, List.map_map]
    simp only [val]
    have := ih (fun i => f (i + 1)) (m / 2) (by
      intro i hi; rw [h (i + 1) (by omega), Nat.testBit_succ])
    have h2 : (fun i => bitOf (f i)) ∘ Nat.succ = (fun i => bitOf (f (i + 1))) := rfl
    rw [h2, this]
    have h0 := h 0 (by omega)
    rw [Nat.testBit_zero] at h0
    have hb : bv (bitOf (f 0)) = m % 2 := by
      rw [h0]
      rcases Nat.mod_two_eq_zero_or_one m with e | e <;> simp [e, bitOf, bv]
    rw [hb, Nat.pow_succ, Nat.mul_comm (2 ^ n) 2, Nat.mod_mul]

@[simp] theorem val_repr {n : Nat} (x : BitVec n) : val (repr x) = x.toNat := by
  rw [repr, val_mapRange x.getLsbD n x.toNat (fun i _ => rfl), Nat.mod_eq_of_lt x.isLt]

theorem eq_repr {n : Nat} {a : BVR} (x : BitVec n) (hk : Known a) (hl : a.length = n)
    (hv : val a = x.toNat) : a = repr x :=
  known_ext hk (repr_known x) (by simp [hl]) (by simp [hv])

theorem eq_repr_ofNat {n : Nat} {a : BVR} (hk : Known a) (hl : a.length = n) :
    a = repr (BitVec.ofNat n (val a)) :=
  eq_repr _ hk hl (by
    have := val_lt a
    rw [hl] at this
    simp [Nat.mod_eq_of_lt this])

/-! ### the refinement order on four-valued bits -/

/-- `c` is at most as unknown as `b` -/
def bitLe (c b : Bit) : Prop := b = .D ∨ b = .X ∨ c = b

instance (c b : Bit) : Decidable (bitLe c b) := by unfold bitLe; infer_instance

def Ref : BVR → BVR → Prop
  | [], [] => True
  | c :: cs, b :: bs => bitLe c b ∧ Ref cs bs
  | _, _ => False

theorem bitLe_refl (b : Bit) : bitLe b b := by cases b <;> decide

theorem Ref.length {c b : BVR} (h : Ref c b) : c.length = b.length := by
  induction c generalizing b with
  | nil => cases b with
    | nil => rfl
    | cons => exact absurd h (by simp [Ref])
  | cons x xs ih => cases b with
    | nil => exact absurd h (by simp [Ref])
    | cons y ys => simp [ih h.2]

theorem Ref.refl (b : BVR) : Ref b b := by
  induction b with
  | nil => trivial
  | cons x xs ih => exact ⟨bitLe_refl x, ih⟩

theorem ref_append {c b c' b' : BVR} (h : Ref c b) (h' : Ref c' b') : Ref (c ++ c') (b ++ b') := by
  induction c generalizing b with
  | nil => cases b with
    | nil => exact h'
    | cons => exact absurd h (by simp [Ref])
  | cons x xs ih => cases b with
    | nil => exact absurd h (by simp [Ref])
    | cons y ys => exact ⟨h.1, ih h.2⟩

theorem ref_take {c b : BVR} (n : Nat) (h : Ref c b) : Ref (c.take n) (b.take n) := by
  induction c generalizing b n with
  | nil => cases b with
    | nil => simp [Ref]
    | cons => exact absurd h (by simp [Ref])
  | cons x xs ih => cases b with
    | nil => exact absurd h (by simp [Ref])
    | cons y ys => cases n with
      | zero => simp [Ref]
      | succ n => exact ⟨h.1, ih n h.2⟩

theorem ref_drop {c b : BVR} (n : Nat) (h : Ref c b) : Ref (c.drop n) (b.drop n) := by
  induction c generalizing b n with
  | nil => cases b with
    | nil => simp [Ref]
    | cons => exact absurd h (by simp [Ref])
  | cons x xs ih => cases b with
    | nil => exact absurd h (by simp [Ref])
    | cons y ys => cases n with
      | zero => exact h
      | succ n => exact ih n h.2

theorem ref_replicate {c b : Bit} (n : Nat) (h : bitLe c b) :
    Ref (List.replicate n c) (List.replicate n b) := by
  induction n with
  | zero => trivial
  | succ n ih => exact ⟨h, ih⟩

theorem ref_iff {c b : BVR} : Ref c b ↔ c.length = b.length ∧
    ∀ i (h1 : i < c.length) (h2 : i < b.length), bitLe c[i] b[i] := by
  induction c generalizing b with
  | nil => cases b with
    | nil => simp [Ref]
    | cons => simp [Ref]
  | cons x xs ih => cases b with
    | nil => simp [Ref]
    | cons y ys =>
      simp only [Ref, ih, List.length_cons, Nat.add_right_cancel_iff]
      constructor
      · rintro ⟨h0, hl, h⟩
        refine ⟨hl, ?_⟩
        intro i h1 h2
        cases i with
        | zero => exact h0
        | succ i => exact h i (by simpa using h1) (by simpa using h2)
      · rintro ⟨hl, h⟩
        exact ⟨h 0 (by simp) (by simp), hl, fun i h1 h2 =>
          h (i + 1) (by simpa using h1) (by simpa using h2)⟩

theorem ref_set {c b : BVR} {x y : Bit} (n : Nat) (h : Ref c b) (hx : bitLe x y) :
    Ref (c.set n x) (b.set n y) := by
  induction c generalizing b n with
  | nil => cases b with
    | nil => simp [Ref]
    | cons => exact absurd h (by simp [Ref])
  | cons z zs ih => cases b with
    | nil => exact absurd h (by simp [Ref])
    | cons w ws => cases n with
      | zero => exact ⟨hx, h.2⟩
      | succ n => exact ⟨h.1, ih n h.2⟩

theorem ref_getLast {c b : BVR} (h : Ref c b) {s : Bit} (hs : b.getLast? = some s) :
    ∃ t, c.getLast? = some t ∧ bitLe t s := by
  have hl := h.length
  rw [ref_iff] at h
  rw [List.getLast?_eq_getElem?] at hs ⊢
  have hb : b.length - 1 < b.length := by
    rcases Nat.lt_or_ge (b.length - 1) b.length with h' | h'
    · exact h'
    · rw [List.getElem?_eq_none h'] at hs; cases hs
  rw [List.getElem?_eq_getElem hb] at hs
  have hc : c.length - 1 < c.length := by omega
  refine ⟨c[c.length - 1], List.getElem?_eq_getElem hc, ?_⟩
  have := h.2 (b.length - 1) (by omega) hb
  cases hs
  simpa [hl] using this

theorem allows_iff (c : Bit) (b : Bool) : Allows c b ↔ bitLe (bitOf b) c := by
  cases c <;> cases b <;> simp [Allows, bitLe, bitOf]

theorem stands_iff {n : Nat} {a : BVR} {x : BitVec n} : Stands a x ↔ Ref (repr x) a := by
  rw [ref_iff]
  simp only [Stands, repr_length, allows_iff]
  constructor
  · rintro ⟨hl, h⟩
    refine ⟨hl.symm, fun i h1 h2 => ?_⟩
    simpa [repr] using h i h2
  · rintro ⟨hl, h⟩
    refine ⟨hl.symm, fun i h1 => ?_⟩
    have := h i (by omega) h1
    simpa [repr] using this

/-! ### monotonicity of the bit operations -/

theorem lor_mono {a a' b b' : Bit} (h : bitLe a a') (h' : bitLe b b') :
    bitLe (.lor a b) (.lor a' b') := by
  revert h h'; cases a <;> cases a' <;> cases b <;> cases b' <;> decide
theorem land_mono {a a' b b' : Bit} (h : bitLe a a') (h' : bitLe b b') :
    bitLe (.land a b) (.land a' b') := by
  revert h h'; cases a <;> cases a' <;> cases b <;> cases b' <;> decide
theorem lxor_mono {a a' b b' : Bit} (h : bitLe a a') (h' : bitLe b b') :
    bitLe (.lxor a b) (.lxor a' b') := by
  revert h h'; cases a <;> cases a' <;> cases b <;> cases b' <;> decide
theorem lnot_mono {a a' : Bit} (h : bitLe a a') : bitLe (.lnot a) (.lnot a') :=
  lxor_mono (bitLe_refl _) h
theorem carry_mono {a a' b b' c c' : Bit} (h : bitLe a a') (h' : bitLe b b') (h'' : bitLe c c') :
    bitLe (.carry a b c) (.carry a' b' c') :=
  lor_mono (lor_mono (land_mono h h') (land_mono h h'')) (land_mono h' h'')
theorem add_mono {a a' b b' c c' : Bit} (h : bitLe a a') (h' : bitLe b b') (h'' : bitLe c c') :
    bitLe (.add a b c) (.add a' b' c') := lxor_mono (lxor_mono h h') h''

/-! ### known bits -/

theorem lor_known {a b : Bit} (ha : KnownB a) (hb : KnownB b) : KnownB (.lor a b) := by
  rcases ha with rfl | rfl <;> rcases hb with rfl | rfl <;> simp [Bit.lor, KnownB]
theorem land_known {a b : Bit} (ha : KnownB a) (hb : KnownB b) : KnownB (.land a b) := by
  rcases ha with rfl | rfl <;> rcases hb with rfl | rfl <;> simp [Bit.land, KnownB]
theorem lxor_known {a b : Bit} (ha : KnownB a) (hb : KnownB b) : KnownB (.lxor a b) := by
  rcases ha with rfl | rfl <;> rcases hb with rfl | rfl <;> simp [Bit.lxor, KnownB]
theorem one_known : KnownB .one := Or.inr rfl
theorem zero_known : KnownB .zero := Or.inl rfl
theorem lnot_known {a : Bit} (ha : KnownB a) : KnownB (.lnot a) := lxor_known one_known ha
theorem carry_known {a b c : Bit} (ha : KnownB a) (hb : KnownB b) (hc : KnownB c) :
    KnownB (.carry a b c) :=
  lor_known (lor_known (land_known ha hb) (land_known ha hc)) (land_known hb hc)
theorem add3_known {a b c : Bit} (ha : KnownB a) (hb : KnownB b) (hc : KnownB c) :
    KnownB (.add a b c) := lxor_known (lxor_known ha hb) hc

theorem full_adder {a b c : Bit} (ha : KnownB a) (hb : KnownB b) (hc : KnownB c) :
    bv (.add a b c) + 2 * bv (.carry a b c) = bv a + bv b + bv c := by
  rcases ha with rfl | rfl <;> rcases hb with rfl | rfl <;> rcases hc with rfl | rfl <;> decide

theorem bv_land {a b : Bit} (ha : KnownB a) (hb : KnownB b) : bv (.land a b) = bv a * bv b := by
  rcases ha with rfl | rfl <;> rcases hb with rfl | rfl <;> decide

namespace BVR

/-! ### add, neg -/

theorem addLoop_length (c : Bit) (a b : BVR) (h : a.length = b.length) :
    (addLoop c a b).length = a.length := by
  induction a generalizing b c with
  | nil => cases b <;> simp_all [addLoop]
  | cons x xs ih => cases b with
    | nil => simp at h
    | cons y ys => simp [addLoop, ih _ ys (by simpa using h)]

theorem addLoop_known {c : Bit} {a b : BVR} (hc : KnownB c) (ha : Known a) (hb : Known b) :
    Known (addLoop c a b) := by
  induction a generalizing b c with
  | nil => cases b <;> simp [addLoop]
  | cons x xs ih => cases b with
    | nil => simp [addLoop]
    | cons y ys =>
      simp only [known_cons] at ha hb
      simp only [addLoop, known_cons]
      exact ⟨add3_known ha.1 hb.1 hc, ih (carry_known ha.1 hb.1 hc) ha.2 hb.2⟩

theorem addLoop_val {c : Bit} {a b : BVR} (hc : KnownB c) (ha : Known a) (hb : Known b)
    (h : a.length = b.length) :
    val (addLoop c a b) = (val a + val b + bv c) % 2 ^ a.length := by
  induction a generalizing b c with
  | nil => cases b <;> simp_all [addLoop, val, Nat.mod_one]
  | cons x xs ih => cases b with
    | nil => simp at h
    | cons y ys =>
      simp only [known_cons] at ha hb
      simp only [addLoop, val, List.length_cons]
      rw [ih (carry_known ha.1 hb.1 hc) ha.2 hb.2 (by simpa using h)]
      have hfa := full_adder ha.1 hb.1 hc
      rw [Nat.pow_succ, Nat.mul_comm (2 ^ xs.length) 2, Nat.mod_mul]
      have hb2 := bv_lt (.add x y c)
      have e1 : bv x + 2 * val xs + (bv y + 2 * val ys) + bv c
        = bv (.add x y c) + 2 * (val xs + val ys + bv (.carry x y c)) := by omega
      rw [e1]
      congr 1
      · omega
      · congr 2; omega

theorem addLoop_mono {c c' : Bit} {a b a' b' : BVR} (hc : bitLe c c') (ha : Ref a a')
    (hb : Ref b b') : Ref (addLoop c a b) (addLoop c' a' b') := by
  induction a generalizing b c a' b' c' with
  | nil => cases a' with
    | nil => simp [addLoop, Ref]
    | cons => exact absurd ha (by simp [Ref])
  | cons x xs ih => cases a' with
    | nil => exact absurd ha (by simp [Ref])
    | cons x' xs' => cases b with
      | nil => cases b' with
        | nil => simp [addLoop, Ref]
        | cons => exact absurd hb (by simp [Ref])
      | cons y ys => cases b' with
        | nil => exact absurd hb (by simp [Ref])
        | cons y' ys' =>
          exact ⟨add_mono ha.1 hb.1 hc, ih (carry_mono ha.1 hb.1 hc) ha.2 hb.2⟩

theorem add_eq {a b : BVR} (h : a.length = b.length) (h0 : a ≠ []) :
    add a b = some (addLoop .zero a b) := by
  have : a.length ≠ 0 := by simpa using h0
  rw [add, if_neg (by simpa using h), rep, if_neg this]
  rfl

theorem negLoop_eq (c : Bit) (a : BVR) :
    negLoop c a = addLoop c (a.map (Bit.lxor · .one)) (List.replicate a.length .zero) := by
  induction a generalizing c with
  | nil => rfl
  | cons x xs ih => simp [negLoop, addLoop, ih, List.replicate_succ]

theorem known_map_lnot {a : BVR} (h : Known a) : Known (a.map (Bit.lxor · .one)) := by
  intro b hb
  rw [List.mem_map] at hb
  obtain ⟨x, hx, rfl⟩ := hb
  exact lxor_known (h x hx) one_known

theorem val_map_lnot {a : BVR} (h : Known a) :
    val (a.map (Bit.lxor · .one)) + val a + 1 = 2 ^ a.length := by
  induction a with
  | nil => rfl
  | cons x xs ih =>
    simp only [known_cons] at h
    have := ih h.2
    simp only [List.map_cons, val, List.length_cons, Nat.pow_succ]
    have h2 : bv (Bit.lxor x .one) + bv x = 1 := by rcases h.1 with rfl | rfl <;> decide
    omega

theorem neg_eq {a : BVR} (h0 : a ≠ []) : neg a = some (negLoop .one a) := by
  have : a.length ≠ 0 := by simpa using h0
  rw [neg, rep, if_neg this]; rfl

theorem negLoop_length (c : Bit) (a : BVR) : (negLoop c a).length = a.length := by
  rw [negLoop_eq, addLoop_length _ _ _ (by simp)]; simp

theorem negLoop_known {c : Bit} {a : BVR} (hc : KnownB c) (ha : Known a) : Known (negLoop c a) := by
  rw [negLoop_eq]; exact addLoop_known hc (known_map_lnot ha) (known_replicate zero_known)

theorem negLoop_val {a : BVR} (ha : Known a) :
    val (negLoop .one a) = (2 ^ a.length - val a) % 2 ^ a.length := by
  rw [negLoop_eq, addLoop_val one_known (known_map_lnot ha) (known_replicate zero_known) (by simp)]
  have := val_map_lnot ha
  have hb : bv Bit.one = 1 := by decide
  simp only [val_replicate_zero, List.length_map, hb]
  congr 1; omega

theorem ref_map {f g : Bit → Bit} {a a' : BVR} (hf : ∀ x y, bitLe x y → bitLe (f x) (g y))
    (h : Ref a a') : Ref (a.map f) (a'.map g) := by
  induction a generalizing a' with
  | nil => cases a' with
    | nil => trivial
    | cons => exact absurd h (by simp [Ref])
  | cons x xs ih => cases a' with
    | nil => exact absurd h (by simp [Ref])
    | cons y ys => exact ⟨hf _ _ h.1, ih h.2⟩

theorem negLoop_mono {c c' : Bit} {a a' : BVR} (hc : bitLe c c') (ha : Ref a a') :
    Ref (negLoop c a) (negLoop c' a') := by
  rw [negLoop_eq, negLoop_eq, ha.length]
  exact addLoop_mono hc (ref_map (fun x y h => lxor_mono h (bitLe_refl _)) ha) (Ref.refl _)

/-! ### exactness on machine words -/

theorem repr_ne_nil {n : Nat} (hn : 0 < n) (x : BitVec n) : repr x ≠ [] := by
  intro h
  have := congrArg List.length h
  simp at this; omega

theorem addLoop_repr {n : Nat} (x y : BitVec n) : addLoop .zero (repr x) (repr y) = repr (x + y) := by
  apply eq_repr
  · exact addLoop_known zero_known (repr_known x) (repr_known y)
  · rw [addLoop_length _ _ _ (by simp)]; simp
  · rw [addLoop_val zero_known (repr_known x) (repr_known y) (by simp)]
    have hb : bv Bit.zero = 0 := by decide
    simp [BitVec.toNat_add, hb]

theorem negLoop_repr {n : Nat} (x : BitVec n) : negLoop .one (repr x) = repr (-x) := by
  apply eq_repr
  · exact negLoop_known one_known (repr_known x)
  · rw [negLoop_length]; simp
  · rw [negLoop_val (repr_known x)]; simp [BitVec.toNat_neg]

theorem add_repr {n : Nat} (hn : 0 < n) (x y : BitVec n) :
    add (repr x) (repr y) = some (repr (x + y)) := by
  rw [add_eq (by simp) (repr_ne_nil hn x), addLoop_repr]

theorem neg_repr {n : Nat} (hn : 0 < n) (x : BitVec n) : neg (repr x) = some (repr (-x)) := by
  rw [neg_eq (repr_ne_nil hn x), negLoop_repr]

theorem sub_repr {n : Nat} (hn : 0 < n) (x y : BitVec n) :
    sub (repr x) (repr y) = some (repr (x - y)) := by
  rw [sub, neg_repr hn]
  show add _ _ = _
  rw [add_repr hn, BitVec.sub_eq_add_neg]

/-! ### bitwise operations -/

theorem zipWith_repr {n : Nat} (f : Bit → Bit → Bit) (g : Bool → Bool → Bool)
    (hfg : ∀ p q, f (bitOf p) (bitOf q) = bitOf (g p q)) (x y z : BitVec n)
    (hz : ∀ i, i < n → z.getLsbD i = g (x.getLsbD i) (y.getLsbD i)) :
    List.zipWith f (repr x) (repr y) = repr z := by
  apply List.ext_getElem
  · simp
  · intro i h1 h2
    simp at h2
    simp [repr, hfg, hz i h2]

theorem bitwise_repr {n : Nat} (hn : 0 < n) (f : Bit → Bit → Bit) (g : Bool → Bool → Bool)
    (hfg : ∀ p q, f (bitOf p) (bitOf q) = bitOf (g p q)) (x y z : BitVec n)
    (hz : ∀ i, i < n → z.getLsbD i = g (x.getLsbD i) (y.getLsbD i)) :
    bitwise f (repr x) (repr y) = some (repr z) := by
  rw [bitwise, if_neg (by simp), rep, if_neg (by simp; omega), zipWith_repr f g hfg x y z hz]; rfl

theorem land_repr {n : Nat} (hn : 0 < n) (x y : BitVec n) :
    land (repr x) (repr y) = some (repr (x &&& y)) :=
  bitwise_repr hn _ (· && ·) (by decide) x y _ (by simp)
theorem lor_repr {n : Nat} (hn : 0 < n) (x y : BitVec n) :
    lor (repr x) (repr y) = some (repr (x ||| y)) :=
  bitwise_repr hn _ (· || ·) (by decide) x y _ (by simp)
theorem lxor_repr {n : Nat} (hn : 0 < n) (x y : BitVec n) :
    lxor (repr x) (repr y) = some (repr (x ^^^ y)) :=
  bitwise_repr hn _ (fun p q => p ^^ q) (by decide) x y _ (by simp)

theorem replicate_one_repr (n : Nat) : List.replicate n Bit.one = repr (BitVec.allOnes n) := by
  apply eq_repr
  · exact known_replicate one_known
  · simp
  · rw [val_replicate_one]; simp

theorem replicate_zero_repr (n : Nat) : List.replicate n Bit.zero = repr (0#n) := by
  apply eq_repr
  · exact known_replicate zero_known
  · simp
  · simp

theorem lnot_repr {n : Nat} (hn : 0 < n) (x : BitVec n) : lnot (repr x) = some (repr (~~~x)) := by
  rw [lnot, repr_length, rep, if_neg (by omega), replicate_one_repr]
  show lxor _ _ = _
  rw [lxor_repr hn, BitVec.xor_allOnes]

theorem zipWith_mono {f : Bit → Bit → Bit}
    (hf : ∀ a a' b b', bitLe a a' → bitLe b b' → bitLe (f a b) (f a' b')) {a b a' b' : BVR}
    (ha : Ref a a') (hb : Ref b b') : Ref (List.zipWith f a b) (List.zipWith f a' b') := by
  rw [ref_iff] at *
  refine ⟨by simp [ha.1, hb.1], fun i h1 h2 => ?_⟩
  simp at h1 h2
  simpa using hf _ _ _ _ (ha.2 i (by omega) (by omega)) (hb.2 i (by omega) (by omega))

end BVR
end Jlm.Bits
