import Verif.Bits.Lemmas
/- Helper lemmas: comparisons, slices, shifts, multiplication, division, conversions. -/
set_option linter.unusedSimpArgs false
namespace Jlm.Bits
namespace BVR

/-! ### comparisons -/

theorem ultStep {a b v : Bit} (ha : KnownB a) (hb : KnownB b) (hv : KnownB v) :
    KnownB (Bit.land (.lor (.lnot a) b) (.lor (.land (.lnot a) b) v)) ∧
    (Bit.land (.lor (.lnot a) b) (.lor (.land (.lnot a) b) v) = .one ↔
      (bv a < bv b ∨ (bv a = bv b ∧ v = .one))) := by
  rcases ha with rfl | rfl <;> rcases hb with rfl | rfl <;> rcases hv with rfl | rfl <;>
    simp [Bit.land, Bit.lor, Bit.lnot, Bit.lxor, bv, KnownB]

theorem uleStep {a b v : Bit} (ha : KnownB a) (hb : KnownB b) (hv : KnownB v) :
    KnownB (Bit.land (.land (.lor (.lnot a) b) (.lor (.lnot a) v)) (.lor v b)) ∧
    (Bit.land (.land (.lor (.lnot a) b) (.lor (.lnot a) v)) (.lor v b) = .one ↔
      (bv a < bv b ∨ (bv a = bv b ∧ v = .one))) := by
  rcases ha with rfl | rfl <;> rcases hb with rfl | rfl <;> rcases hv with rfl | rfl <;>
    simp [Bit.land, Bit.lor, Bit.lnot, Bit.lxor, bv, KnownB]

theorem ultLoop_spec {v : Bit} {a b : BVR} (hv : KnownB v) (ha : Known a) (hb : Known b)
    (h : a.length = b.length) :
    KnownB (ultLoop v a b) ∧
    (ultLoop v a b = .one ↔ (val a < val b ∨ (val a = val b ∧ v = .one))) := by
  induction a generalizing b v with
  | nil => cases b <;> simp_all [ultLoop, val]
  | cons x xs ih => cases b with
    | nil => simp at h
    | cons y ys =>
      simp only [known_cons] at ha hb
      have hs := ultStep ha.1 hb.1 hv
      have hi := ih hs.1 ha.2 hb.2 (by simpa using h)
      refine ⟨hi.1, ?_⟩
      simp only [ultLoop]
      rw [hi.2, hs.2]
      simp only [val]
      have := bv_lt x
      have := bv_lt y
      by_cases hv1 : v = .one <;> simp only [hv1, and_true, and_false, or_false] <;> omega

theorem uleLoop_spec {v : Bit} {a b : BVR} (hv : KnownB v) (ha : Known a) (hb : Known b)
    (h : a.length = b.length) :
    KnownB (uleLoop v a b) ∧
    (uleLoop v a b = .one ↔ (val a < val b ∨ (val a = val b ∧ v = .one))) := by
  induction a generalizing b v with
  | nil => cases b <;> simp_all [uleLoop, val]
  | cons x xs ih => cases b with
    | nil => simp at h
    | cons y ys =>
      simp only [known_cons] at ha hb
      have hs := uleStep ha.1 hb.1 hv
      have hi := ih hs.1 ha.2 hb.2 (by simpa using h)
      refine ⟨hi.1, ?_⟩
      simp only [uleLoop]
      rw [hi.2, hs.2]
      simp only [val]
      have := bv_lt x
      have := bv_lt y
      by_cases hv1 : v = .one <;> simp only [hv1, and_true, and_false, or_false] <;> omega

theorem eq_bitOf {b : Bit} {p : Bool} (hk : KnownB b) (h : b = .one ↔ p = true) : b = bitOf p := by
  rcases hk with rfl | rfl <;> cases p <;> simp_all [bitOf]

theorem lnot_bitOf (p : Bool) : Bit.lnot (bitOf p) = bitOf (!p) := by cases p <;> decide

theorem ult_spec {a b : BVR} (ha : Known a) (hb : Known b) (h : a.length = b.length)
    (h0 : a ≠ []) : ult a b = some (bitOf (decide (val a < val b))) := by
  cases a with
  | nil => exact absurd rfl h0
  | cons x xs => cases b with
    | nil => simp at h
    | cons y ys =>
      simp only [known_cons] at ha hb
      rw [ult, if_neg (by simpa using h)]
      simp only [Option.some.injEq]
      have hk : KnownB (Bit.land (.lnot x) y) := land_known (lnot_known ha.1) hb.1
      have hs := ultLoop_spec hk ha.2 hb.2 (by simpa using h)
      apply eq_bitOf hs.1
      rw [hs.2]
      rw [decide_eq_true_eq]
      simp only [val]
      have hxy : Bit.land (.lnot x) y = .one ↔ bv x < bv y := by
        rcases ha.1 with rfl | rfl <;> rcases hb.1 with rfl | rfl <;>
          simp [Bit.land, Bit.lnot, Bit.lxor, bv]
      rw [hxy]
      have := bv_lt x
      have := bv_lt y
      omega

theorem ule_spec {a b : BVR} (ha : Known a) (hb : Known b) (h : a.length = b.length) :
    ule a b = some (bitOf (decide (val a ≤ val b))) := by
  rw [ule, if_neg (by simpa using h)]
  simp only [Option.some.injEq]
  have hs := uleLoop_spec one_known ha hb h
  apply eq_bitOf hs.1
  rw [hs.2]
  simp only [decide_eq_true_eq, and_true]
  omega

theorem neLoop_spec {v : Bit} {a b : BVR} (hv : KnownB v) (ha : Known a) (hb : Known b)
    (h : a.length = b.length) :
    KnownB (neLoop v a b) ∧ (neLoop v a b = .one ↔ (v = .one ∨ val a ≠ val b)) := by
  induction a generalizing b v with
  | nil => cases b <;> simp_all [neLoop, val]
  | cons x xs ih => cases b with
    | nil => simp at h
    | cons y ys =>
      simp only [known_cons] at ha hb
      have hk : KnownB (Bit.lor v (.lxor x y)) := lor_known hv (lxor_known ha.1 hb.1)
      have hi := ih hk ha.2 hb.2 (by simpa using h)
      refine ⟨hi.1, ?_⟩
      simp only [neLoop]
      rw [hi.2]
      have hs : Bit.lor v (.lxor x y) = .one ↔ (v = .one ∨ bv x ≠ bv y) := by
        rcases hv with rfl | rfl <;> rcases ha.1 with rfl | rfl <;> rcases hb.1 with rfl | rfl <;>
          simp [Bit.lor, Bit.lxor, bv]
      rw [hs]
      simp only [val]
      have := bv_lt x
      have := bv_lt y
      by_cases hv1 : v = .one <;> simp only [hv1, true_or, false_or] <;> omega

theorem ne_spec {a b : BVR} (ha : Known a) (hb : Known b) (h : a.length = b.length) :
    ne a b = some (bitOf (decide (val a ≠ val b))) := by
  rw [ne, if_neg (by simpa using h)]
  simp only [Option.some.injEq]
  have hs := neLoop_spec zero_known ha hb h
  apply eq_bitOf hs.1
  rw [hs.2]; simp

/-! sign bit -/

theorem sign_repr {n : Nat} (hn : 0 < n) (x : BitVec n) : sign (repr x) = some (bitOf x.msb) := by
  have hi : n - 1 < (repr x).length := by simp; omega
  rw [sign, List.getLast?_eq_getElem?, repr_length, List.getElem?_eq_getElem hi]
  simp [repr, BitVec.msb_eq_getLsbD_last]

theorem isNegative_repr {n : Nat} (hn : 0 < n) (x : BitVec n) : isNegative (repr x) = x.msb := by
  rw [isNegative, sign_repr hn]; cases x.msb <;> rfl

theorem flipSign_repr {n : Nat} (hn : 0 < n) (x : BitVec n) :
    ∃ t, flipSign (repr x) = some t ∧ Known t ∧ t.length = n ∧
      (val t : Int) = x.toInt + 2 ^ (n - 1) := by
  refine ⟨(repr x).set ((repr x).length - 1) (.lnot (bitOf x.msb)), ?_, ?_, ?_, ?_⟩
  · rw [flipSign, sign_repr hn]; rfl
  · intro b hb
    rcases List.mem_or_eq_of_mem_set hb with h | rfl
    · exact repr_known x b h
    · exact lnot_known (knownB_bitOf _)
  · simp
  · have key : ∀ (l : BVR) (s : Bit), val (l.set (l.length - 1) s) + (if l = [] then 0 else
        2 ^ (l.length - 1) * bv (l.getLastD .zero)) = val l + (if l = [] then 0 else
        2 ^ (l.length - 1) * bv s) := by
      intro l s
      rcases List.eq_nil_or_concat l with rfl | ⟨l', z, rfl⟩
      · simp
      · simp [val_append, val]; omega
    have hne := repr_ne_nil hn x
    have := key (repr x) (.lnot (bitOf x.msb))
    have hs := sign_repr hn x
    rw [sign] at hs
    rw [if_neg hne, if_neg hne, List.getLastD_eq_getLast?, hs, lnot_bitOf] at this
    simp only [Option.getD_some, repr_length, val_repr] at this
    rw [repr_length, lnot_bitOf]
    have h2 : 2 ^ n = 2 * 2 ^ (n - 1) := by
      rw [← Nat.pow_succ']; congr 1; omega
    have hlt := x.isLt
    rw [BitVec.toInt_eq_msb_cond]
    have e : ((2 ^ n : Nat) : Int) = 2 * 2 ^ (n - 1) := by rw [h2]; simp
    have e2 : ((2 ^ (n - 1) : Nat) : Int) = 2 ^ (n - 1) := by simp
    cases hm : x.msb <;> rw [hm] at this <;> simp [bitOf, bv] at this ⊢
    · omega
    · have e' : (2 : Int) ^ n = 2 * 2 ^ (n - 1) := by simpa using e
      rw [e']
      omega

theorem slt_repr {n : Nat} (hn : 0 < n) (x y : BitVec n) :
    slt (repr x) (repr y) = some (bitOf (decide (x.toInt < y.toInt))) := by
  obtain ⟨t, h1, k1, l1, v1⟩ := flipSign_repr hn x
  obtain ⟨u, h2, k2, l2, v2⟩ := flipSign_repr hn y
  rw [slt, h1, h2]
  show ult t u = _
  rw [ult_spec k1 k2 (by omega) (by intro h; simp [h] at l1; omega)]
  congr 3
  rw [eq_iff_iff]
  omega

theorem sle_repr {n : Nat} (hn : 0 < n) (x y : BitVec n) :
    sle (repr x) (repr y) = some (bitOf (decide (x.toInt ≤ y.toInt))) := by
  obtain ⟨t, h1, k1, l1, v1⟩ := flipSign_repr hn x
  obtain ⟨u, h2, k2, l2, v2⟩ := flipSign_repr hn y
  rw [sle, h1, h2]
  show ule t u = _
  rw [ule_spec k1 k2 (by omega)]
  congr 3
  rw [eq_iff_iff]
  omega

/-! monotonicity of the comparison loops -/

theorem ultLoop_mono {v v' : Bit} {a b a' b' : BVR} (hv : bitLe v v') (ha : Ref a a')
    (hb : Ref b b') : bitLe (ultLoop v a b) (ultLoop v' a' b') := by
  induction a generalizing b v a' b' v' with
  | nil => cases a' with
    | nil => simpa [ultLoop] using hv
    | cons => exact absurd ha (by simp [Ref])
  | cons x xs ih => cases a' with
    | nil => exact absurd ha (by simp [Ref])
    | cons x' xs' => cases b with
      | nil => cases b' with
        | nil => simpa [ultLoop] using hv
        | cons => exact absurd hb (by simp [Ref])
      | cons y ys => cases b' with
        | nil => exact absurd hb (by simp [Ref])
        | cons y' ys' =>
          simp only [ultLoop]
          exact ih (land_mono (lor_mono (lnot_mono ha.1) hb.1)
            (lor_mono (land_mono (lnot_mono ha.1) hb.1) hv)) ha.2 hb.2

theorem uleLoop_mono {v v' : Bit} {a b a' b' : BVR} (hv : bitLe v v') (ha : Ref a a')
    (hb : Ref b b') : bitLe (uleLoop v a b) (uleLoop v' a' b') := by
  induction a generalizing b v a' b' v' with
  | nil => cases a' with
    | nil => simpa [uleLoop] using hv
    | cons => exact absurd ha (by simp [Ref])
  | cons x xs ih => cases a' with
    | nil => exact absurd ha (by simp [Ref])
    | cons x' xs' => cases b with
      | nil => cases b' with
        | nil => simpa [uleLoop] using hv
        | cons => exact absurd hb (by simp [Ref])
      | cons y ys => cases b' with
        | nil => exact absurd hb (by simp [Ref])
        | cons y' ys' =>
          simp only [uleLoop]
          exact ih (land_mono (land_mono (lor_mono (lnot_mono ha.1) hb.1)
            (lor_mono (lnot_mono ha.1) hv)) (lor_mono hv hb.1)) ha.2 hb.2

theorem neLoop_mono {v v' : Bit} {a b a' b' : BVR} (hv : bitLe v v') (ha : Ref a a')
    (hb : Ref b b') : bitLe (neLoop v a b) (neLoop v' a' b') := by
  induction a generalizing b v a' b' v' with
  | nil => cases a' with
    | nil => simpa [neLoop] using hv
    | cons => exact absurd ha (by simp [Ref])
  | cons x xs ih => cases a' with
    | nil => exact absurd ha (by simp [Ref])
    | cons x' xs' => cases b with
      | nil => cases b' with
        | nil => simpa [neLoop] using hv
        | cons => exact absurd hb (by simp [Ref])
      | cons y ys => cases b' with
        | nil => exact absurd hb (by simp [Ref])
        | cons y' ys' =>
          simp only [neLoop]
          exact ih (lor_mono hv (lxor_mono ha.1 hb.1)) ha.2 hb.2

theorem ult_mono {a b a' b' : BVR} {r : Bit} (ha : Ref a a') (hb : Ref b b')
    (h : ult a' b' = some r) : ∃ s, ult a b = some s ∧ bitLe s r := by
  have la := ha.length
  have lb := hb.length
  unfold ult at h ⊢
  split at h
  · cases h
  · rename_i hl
    rw [if_neg (by omega)]
    cases a' with
    | nil => simp at h
    | cons x' xs' => cases b' with
      | nil => simp at h
      | cons y' ys' => cases a with
        | nil => simp at la
        | cons x xs => cases b with
          | nil => simp at lb
          | cons y ys =>
            simp only [Option.some.injEq] at h
            subst h
            exact ⟨_, rfl, ultLoop_mono (land_mono (lnot_mono ha.1) hb.1) ha.2 hb.2⟩

theorem ule_mono {a b a' b' : BVR} {r : Bit} (ha : Ref a a') (hb : Ref b b')
    (h : ule a' b' = some r) : ∃ s, ule a b = some s ∧ bitLe s r := by
  have la := ha.length
  have lb := hb.length
  unfold ule at h ⊢
  split at h
  · cases h
  · rw [if_neg (by omega)]
    cases h
    exact ⟨_, rfl, uleLoop_mono (bitLe_refl _) ha hb⟩

theorem ne_mono {a b a' b' : BVR} {r : Bit} (ha : Ref a a') (hb : Ref b b')
    (h : ne a' b' = some r) : ∃ s, ne a b = some s ∧ bitLe s r := by
  have la := ha.length
  have lb := hb.length
  unfold ne at h ⊢
  split at h
  · cases h
  · rw [if_neg (by omega)]
    cases h
    exact ⟨_, rfl, neLoop_mono (bitLe_refl _) ha hb⟩

theorem flipSign_mono {a a' r : BVR} (ha : Ref a a') (h : flipSign a' = some r) :
    ∃ s, flipSign a = some s ∧ Ref s r := by
  unfold flipSign sign at *
  cases hg : a'.getLast? with
  | none => simp [hg] at h
  | some z =>
    obtain ⟨t, ht, hle⟩ := ref_getLast ha hg
    rw [hg] at h
    rw [ht]
    simp only [Option.bind_eq_bind, Option.bind_some, Option.some.injEq] at h ⊢
    subst h
    refine ⟨_, rfl, ?_⟩
    rw [ha.length]
    exact ref_set _ ha (lnot_mono hle)

theorem slt_mono {a b a' b' : BVR} {r : Bit} (ha : Ref a a') (hb : Ref b b')
    (h : slt a' b' = some r) : ∃ s, slt a b = some s ∧ bitLe s r := by
  unfold slt at *
  simp only [Option.bind_eq_bind, Option.bind_eq_some_iff] at h
  obtain ⟨t1, h1, t2, h2, h3⟩ := h
  obtain ⟨s1, e1, r1⟩ := flipSign_mono ha h1
  obtain ⟨s2, e2, r2⟩ := flipSign_mono hb h2
  rw [e1, e2]
  exact ult_mono r1 r2 h3

theorem sle_mono {a b a' b' : BVR} {r : Bit} (ha : Ref a a') (hb : Ref b b')
    (h : sle a' b' = some r) : ∃ s, sle a b = some s ∧ bitLe s r := by
  unfold sle at *
  simp only [Option.bind_eq_bind, Option.bind_eq_some_iff] at h
  obtain ⟨t1, h1, t2, h2, h3⟩ := h
  obtain ⟨s1, e1, r1⟩ := flipSign_mono ha h1
  obtain ⟨s2, e2, r2⟩ := flipSign_mono hb h2
  rw [e1, e2]
  exact ule_mono r1 r2 h3

/-! ### slices, extensions, shifts -/

theorem getElem_repr {n : Nat} (x : BitVec n) (i : Nat) (h : i < (repr x).length) :
    (repr x)[i] = bitOf (x.getLsbD i) := by simp [repr]

theorem slice_repr {n : Nat} (x : BitVec n) (lo hi : Nat) (h1 : lo < hi) (h2 : hi ≤ n) :
    slice (repr x) lo hi = some (repr (x.extractLsb' lo (hi - lo))) := by
  rw [slice, if_neg (by simp; omega)]
  congr 1
  apply List.ext_getElem
  · simp; omega
  · intro i h3 h4
    simp at h4
    simp [getElem_repr, h4]

theorem ofIntLoop_zero (n : Nat) : ofIntLoop n 0 = List.replicate n .zero := by
  induction n with
  | zero => rfl
  | succ n ih => simp [ofIntLoop, ih, List.replicate_succ]

theorem ofInt_zero {n : Nat} (hn : 0 < n) : ofInt n 0 = some (List.replicate n .zero) := by
  rw [ofInt, if_neg (by omega), if_neg (by simp), ofIntLoop_zero]

theorem zext_eq (a : BVR) (k : Nat) : zext a k = some (a ++ List.replicate k .zero) := by
  rw [zext]
  split
  · simp_all
  · rw [ofInt_zero (by omega)]; rfl

theorem sext_eq (a : BVR) (k : Nat) {s : Bit} (h : sign a = some s) :
    sext a k = some (a ++ List.replicate k s) := by
  rw [sext, h]
  split
  · simp_all
  · rename_i hk
    simp only [Option.bind_eq_bind, Option.bind_some]
    rw [rep, if_neg hk]; rfl

theorem zext_list_repr {n : Nat} (x : BitVec n) (k : Nat) :
    repr x ++ List.replicate k .zero = repr (x.setWidth (n + k)) := by
  apply List.ext_getElem
  · simp
  · intro i h1 h2
    simp at h2
    rw [List.getElem_append]
    split
    · simp [getElem_repr, h2]
    · rename_i h; simp at h
      have : x.getLsbD i = false := BitVec.getLsbD_of_ge x i h
      simp [getElem_repr, this, bitOf]

theorem sext_list_repr {n : Nat} (x : BitVec n) (k : Nat) :
    repr x ++ List.replicate k (bitOf x.msb) = repr (x.signExtend (n + k)) := by
  apply List.ext_getElem
  · simp
  · intro i h1 h2
    simp at h2
    rw [List.getElem_append]
    simp only [repr_length]
    split
    · rename_i h
      rw [getElem_repr, getElem_repr, BitVec.getLsbD_signExtend]
      simp [h2, h]
    · rename_i h
      rw [getElem_repr, BitVec.getLsbD_signExtend]
      simp [h2, h]

theorem shr_repr {n : Nat} (hn : 0 < n) (x : BitVec n) (s : Nat) :
    shr (repr x) s = some (repr (x >>> s)) := by
  rw [shr]
  split
  · rename_i h
    simp at h
    rw [rep, if_neg (by simp; omega)]
    congr 1
    apply List.ext_getElem
    · simp
    · intro i h1 h2
      have : x.getLsbD (s + i) = false := BitVec.getLsbD_of_ge x _ (by omega)
      simp [getElem_repr, this, bitOf]
  · rename_i h
    simp at h
    rw [zext_eq]
    congr 1
    apply List.ext_getElem
    · simp; omega
    · intro i h1 h2
      rw [List.getElem_append]
      split
      · simp [getElem_repr]
      · rename_i h3
        simp at h3
        have : x.getLsbD (s + i) = false := BitVec.getLsbD_of_ge x _ (by omega)
        simp [getElem_repr, this, bitOf]

theorem ashr_repr {n : Nat} (hn : 0 < n) (x : BitVec n) (s : Nat) :
    ashr (repr x) s = some (repr (x.sshiftRight s)) := by
  rw [ashr]
  split
  · rename_i h
    simp at h
    rw [sign_repr hn]
    simp only [Option.bind_eq_bind, Option.bind_some]
    rw [rep, if_neg (by simp; omega)]
    congr 1
    apply List.ext_getElem
    · simp
    · intro i h1 h2
      simp at h2
      have : ¬ (s + i < n) := by omega
      rw [getElem_repr, BitVec.getLsbD_sshiftRight]
      simp [getElem_repr, this, h2, Nat.not_le.mpr h2]
  · rename_i h
    simp at h
    have hd : sign ((repr x).drop s) = some (bitOf x.msb) := by
      rw [← sign_repr hn x, sign, sign, List.getLast?_drop]
      simp; omega
    rw [sext_eq _ _ hd]
    congr 1
    apply List.ext_getElem
    · simp; omega
    · intro i h1 h2
      simp at h2
      rw [List.getElem_append]
      simp only [List.length_drop, repr_length]
      split
      · rename_i h3
        have : s + i < n := by omega
        rw [getElem_repr _ i, BitVec.getLsbD_sshiftRight]
        simp [getElem_repr, this, h2, Nat.not_le.mpr h2]
      · rename_i h3
        have : ¬ (s + i < n) := by omega
        rw [getElem_repr, BitVec.getLsbD_sshiftRight]
        simp [getElem_repr, this, h2, Nat.not_le.mpr h2]

theorem shl_repr {n : Nat} (hn : 0 < n) (x : BitVec n) (s : Nat) :
    shl (repr x) s = some (repr (x <<< s)) := by
  rw [shl]
  split
  · simp_all
  · split
    · rename_i h0 h
      simp at h
      rw [rep, if_neg (by simp; omega)]
      congr 1
      apply List.ext_getElem
      · simp
      · intro i h1 h2
        simp at h2
        have : i < s := by omega
        simp [getElem_repr, h2, this, bitOf]
    · rename_i h0 h
      simp at h
      rw [rep, if_neg h0, slice, if_neg (by simp; omega)]
      simp only [Option.bind_eq_bind, Option.bind_some, Option.some.injEq, concat]
      apply List.ext_getElem
      · simp; omega
      · intro i h1 h2
        simp at h2
        rw [List.getElem_append]
        simp only [List.length_replicate]
        split
        · rename_i h3; simp [getElem_repr, h3, bitOf]
        · rename_i h3; rw [getElem_repr, BitVec.getLsbD_shiftLeft]; simp [getElem_repr, h3, h2, -BitVec.getLsbD_eq_getElem]

/-! ### multiplication -/

theorem mulRow_length (f : Bit) (c : Bit) (g p : BVR) : (mulRow f c g p).length = p.length := by
  induction g generalizing c p with
  | nil => cases p <;> simp [mulRow]
  | cons x xs ih => cases p with
    | nil => simp [mulRow]
    | cons y ys => simp [mulRow, ih]

theorem mulRow_known {f c : Bit} {g p : BVR} (hf : KnownB f) (hc : KnownB c) (hg : Known g)
    (hp : Known p) : Known (mulRow f c g p) := by
  induction g generalizing c p with
  | nil => simpa [mulRow] using hp
  | cons x xs ih => cases p with
    | nil => simp [mulRow]
    | cons y ys =>
      simp only [known_cons] at hg hp
      simp only [mulRow, known_cons]
      exact ⟨add3_known (land_known hf hg.1) hp.1 hc,
        ih (carry_known (land_known hf hg.1) hp.1 hc) hg.2 hp.2⟩

theorem mulRow_mono {f f' c c' : Bit} {g g' p p' : BVR} (hf : bitLe f f') (hc : bitLe c c')
    (hg : Ref g g') (hp : Ref p p') : Ref (mulRow f c g p) (mulRow f' c' g' p') := by
  induction g generalizing c p g' c' p' with
  | nil => cases g' with
    | nil => cases p <;> cases p' <;> simpa [mulRow] using hp
    | cons => exact absurd hg (by simp [Ref])
  | cons x xs ih => cases g' with
    | nil => exact absurd hg (by simp [Ref])
    | cons x' xs' => cases p with
      | nil => cases p' with
        | nil => simp [mulRow, Ref]
        | cons => exact absurd hp (by simp [Ref])
      | cons y ys => cases p' with
        | nil => exact absurd hp (by simp [Ref])
        | cons y' ys' =>
          exact ⟨add_mono (land_mono hf hg.1) hp.1 hc,
            ih (carry_mono (land_mono hf hg.1) hp.1 hc) hg.2 hp.2⟩

theorem mulRow_val {f c : Bit} {g p : BVR} (hf : KnownB f) (hc : KnownB c) (hg : Known g)
    (hp : Known p) (hl : g.length ≤ p.length) :
    val (mulRow f c g p) % 2 ^ g.length = (val p + bv f * val g + bv c) % 2 ^ g.length := by
  induction g generalizing c p with
  | nil => simp [Nat.mod_one]
  | cons x xs ih => cases p with
    | nil => simp at hl
    | cons y ys =>
      simp only [known_cons] at hg hp
      have hlf := land_known hf hg.1
      have hi := ih (carry_known hlf hp.1 hc) hg.2 hp.2 (by simpa using hl)
      have hfa := full_adder hlf hp.1 hc
      have hb2 := bv_lt (.add (.land f x) y c)
      have hla := bv_land hf hg.1
      simp only [mulRow, val, List.length_cons]
      rw [Nat.pow_succ, Nat.mul_comm (2 ^ xs.length) 2]
      have e1 : bv y + 2 * val ys + bv f * (bv x + 2 * val xs) + bv c
        = bv (.add (.land f x) y c) + 2 * (val ys + bv f * val xs + bv (.carry (.land f x) y c)) := by
        rw [Nat.mul_add, ← hla, Nat.mul_left_comm]; omega
      rw [e1, Nat.mod_mul, Nat.mod_mul]
      have e2 : ∀ z, (bv (.add (.land f x) y c) + 2 * z) / 2 = z := by intro z; omega
      have e3 : ∀ z, (bv (.add (.land f x) y c) + 2 * z) % 2 = bv (.add (.land f x) y c) := by
        intro z; omega
      rw [e2, e2, e3, e3, hi]

theorem mulLoop_length (a g p : BVR) (h : a.length ≤ p.length) :
    (mulLoop a g p).length = p.length := by
  induction a generalizing p with
  | nil => simp [mulLoop]
  | cons f fs ih =>
    simp only [mulLoop]
    have := mulRow_length f .zero g p
    split
    · rename_i h2; rw [h2] at this; simpa using this
    · rename_i q qs h2
      rw [h2] at this
      simp at this h
      rw [List.length_cons, ih qs (by omega)]; omega

theorem mulLoop_known {a g p : BVR} (ha : Known a) (hg : Known g) (hp : Known p) :
    Known (mulLoop a g p) := by
  induction a generalizing p with
  | nil => simpa [mulLoop] using hp
  | cons f fs ih =>
    simp only [known_cons] at ha
    simp only [mulLoop]
    have := mulRow_known ha.1 zero_known hg hp
    split
    · simp
    · rename_i q qs h2
      rw [h2] at this
      simp only [known_cons] at this ⊢
      exact ⟨this.1, ih ha.2 this.2⟩

theorem mulLoop_mono {a g p a' g' p' : BVR} (ha : Ref a a') (hg : Ref g g') (hp : Ref p p') :
    Ref (mulLoop a g p) (mulLoop a' g' p') := by
  induction a generalizing p a' p' with
  | nil => cases a' with
    | nil => simpa [mulLoop] using hp
    | cons => exact absurd ha (by simp [Ref])
  | cons f fs ih => cases a' with
    | nil => exact absurd ha (by simp [Ref])
    | cons f' fs' =>
      simp only [mulLoop]
      have h := mulRow_mono ha.1 (bitLe_refl .zero) hg hp
      revert h
      cases mulRow f .zero g p with
      | nil => cases mulRow f' .zero g' p' with
        | nil => simp [Ref]
        | cons => simp [Ref]
      | cons q qs => cases mulRow f' .zero g' p' with
        | nil => simp [Ref]
        | cons q' qs' => intro h; exact ⟨h.1, ih ha.2 h.2⟩

theorem mulLoop_val {a g p : BVR} (ha : Known a) (hg : Known g) (hp : Known p)
    (hl : a.length + g.length ≤ p.length) :
    val (mulLoop a g p) % 2 ^ g.length = (val p + val a * val g) % 2 ^ g.length := by
  induction a generalizing p with
  | nil => simp [mulLoop, val]
  | cons f fs ih =>
    simp only [known_cons] at ha
    simp only [mulLoop]
    have hrow := mulRow_val ha.1 zero_known hg hp (by simp at hl; omega)
    have hk := mulRow_known ha.1 zero_known hg hp
    have hlen := mulRow_length f .zero g p
    split
    · rename_i h2
      rw [h2] at hlen
      simp at hlen hl
      omega
    · rename_i q qs h2
      rw [h2] at hrow hk hlen
      simp only [known_cons] at hk
      simp only [List.length_cons] at hl hlen
      have hi := ih ha.2 hk.2 (by omega)
      have hb : bv Bit.zero = 0 := by decide
      simp only [val, hb, Nat.add_zero] at hrow ⊢
      -- val (q :: mulLoop ..) ≡ q + 2 (qs + fs*g)
      calc (bv q + 2 * val (mulLoop fs g qs)) % 2 ^ g.length
          = (bv q + 2 * (val (mulLoop fs g qs) % 2 ^ g.length)) % 2 ^ g.length := by
            rw [Nat.add_mod, Nat.mul_mod, ← Nat.mul_mod, Nat.add_mod (bv q) (2 * _), Nat.mul_mod 2 (_ % _),
              Nat.mod_mod, ← Nat.mul_mod]
        _ = (bv q + 2 * ((val qs + val fs * val g) % 2 ^ g.length)) % 2 ^ g.length := by rw [hi]
        _ = (bv q + 2 * (val qs + val fs * val g)) % 2 ^ g.length := by
            rw [Nat.add_mod, Nat.mul_mod, Nat.mod_mod, ← Nat.mul_mod, ← Nat.add_mod]
        _ = ((bv q + 2 * val qs) + 2 * (val fs * val g)) % 2 ^ g.length := by congr 1; omega
        _ = ((bv q + 2 * val qs) % 2 ^ g.length + 2 * (val fs * val g)) % 2 ^ g.length := by
            rw [Nat.mod_add_mod]
        _ = ((val p + bv f * val g) % 2 ^ g.length + 2 * (val fs * val g)) % 2 ^ g.length := by
            rw [hrow]
        _ = (val p + (bv f + 2 * val fs) * val g) % 2 ^ g.length := by
            rw [Nat.mod_add_mod, Nat.add_mul, Nat.mul_assoc]; congr 1; omega

theorem mul_repr {n : Nat} (hn : 0 < n) (x y : BitVec n) :
    mul (repr x) (repr y) = some (repr (x * y)) := by
  rw [mul, if_neg (by simp), repr_length, ofInt_zero (by omega)]
  simp only [Option.bind_eq_bind, Option.bind_some]
  have hlen : (mulLoop (repr x) (repr y) (List.replicate (2 * n) .zero)).length = 2 * n := by
    rw [mulLoop_length _ _ _ (by simp; omega)]; simp
  rw [slice, if_neg (by omega)]
  congr 1
  have hk := mulLoop_known (repr_known x) (repr_known y) (known_replicate (n := 2 * n) zero_known)
  apply eq_repr
  · simpa using known_take _ hk
  · simp; omega
  · simp only [List.drop_zero, Nat.sub_zero]
    rw [val_take _ _ (by omega)]
    have := mulLoop_val (repr_known x) (repr_known y) (known_replicate (n := 2 * n) zero_known)
      (by simp; omega)
    simp only [repr_length, val_repr, val_replicate_zero, Nat.zero_add] at this
    rw [this, BitVec.toNat_mul]

/-- high half of a product of two 2n-bit words -/
theorem mulh_repr {n : Nat} (hn : 0 < n) (x y : BitVec (n + n)) :
    slice (mulLoop (repr x) (repr y) (List.replicate (4 * n) .zero)) n (2 * n)
      = some (repr ((x * y).extractLsb' n n)) := by
  have hlen : (mulLoop (repr x) (repr y) (List.replicate (4 * n) .zero)).length = 4 * n := by
    rw [mulLoop_length _ _ _ (by simp; omega)]; simp
  rw [slice, if_neg (by omega)]
  congr 1
  have hk := mulLoop_known (repr_known x) (repr_known y) (known_replicate (n := 4 * n) zero_known)
  apply eq_repr
  · exact known_take _ (known_drop _ hk)
  · simp; omega
  · rw [val_take _ _ (by simp; omega), val_drop _ _ (by omega)]
    have := mulLoop_val (repr_known x) (repr_known y) (known_replicate (n := 4 * n) zero_known)
      (by simp; omega)
    simp only [repr_length, val_repr, val_replicate_zero, Nat.zero_add] at this
    have e : 2 * n - n = n := by omega
    rw [e, BitVec.extractLsb'_toNat, BitVec.toNat_mul, Nat.shiftRight_eq_div_pow, ← this]
    rw [Nat.pow_add, Nat.mod_mul_right_div_self, Nat.mod_mod]

/-! ### division -/

theorem sub_eq {a b : BVR} (h : a.length = b.length) (h0 : a ≠ []) :
    sub a b = some (addLoop .zero a (negLoop .one b)) := by
  have hb0 : b ≠ [] := by rintro rfl; simp at h; exact h0 h
  rw [sub, neg_eq hb0]
  show add _ _ = _
  rw [add_eq (by rw [negLoop_length, h]) h0]

theorem shlset_eq {r : BVR} (d : Bit) (h0 : r ≠ []) :
    ∃ r1, shl r 1 = some r1 ∧ r1.set 0 d = d :: r.take (r.length - 1) := by
  have hl : 0 < r.length := List.length_pos_iff.mpr h0
  rw [shl, if_neg (by omega)]
  split
  · rename_i h
    have h1 : r.length = 1 := by omega
    rw [rep, if_neg (by omega), h1]
    exact ⟨_, rfl, by simp⟩
  · rename_i h
    rw [rep, if_neg (by omega), slice, if_neg (by omega)]
    exact ⟨_, rfl, by simp [concat]⟩

theorem udivLoop_spec {dv : BVR} (hdv : Known dv) (hd0 : dv ≠ []) (ds : List Bit) (q r : BVR)
    (hds : Known ds) (hq : Known q) (hr : Known r) (hrl : r.length = dv.length)
    (k : Nat) (hk : k + ds.length ≤ dv.length) (hrk : val r < 2 ^ k)
    (hrd : 0 < val dv → val r < val dv) :
    ∃ q' r', udivLoop dv ds q r = some (q', r') ∧ Known q' ∧ Known r' ∧
      q'.length = q.length + ds.length ∧ r'.length = dv.length ∧
      (val dv * val q' + val r' =
        val dv * (2 ^ ds.length * val q) + 2 ^ ds.length * val r + val ds.reverse) ∧
      (0 < val dv → val r' < val dv) ∧
      (val dv = 0 → q' = List.replicate ds.length .one ++ q) := by
  induction ds generalizing q r k with
  | nil => exact ⟨q, r, rfl, hq, hr, by simp, hrl, by simp [val], hrd, fun _ => by simp⟩
  | cons d ds ih =>
    simp only [known_cons] at hds
    simp only [List.length_cons] at hk
    have hr0 : r ≠ [] := by
      rintro rfl
      simp at hrl
      exact hd0 (List.length_eq_zero_iff.mp hrl.symm)
    have hrpos : 0 < r.length := List.length_pos_iff.mpr hr0
    obtain ⟨r1, e1, e2⟩ := shlset_eq d hr0
    simp only [udivLoop, e1, Option.bind_eq_bind, Option.bind_some, e2]
    have hv2 : val (d :: r.take (r.length - 1)) = bv d + 2 * val r := by
      simp only [val]
      rw [val_take _ _ (by omega), Nat.mod_eq_of_lt]
      exact Nat.lt_of_lt_of_le hrk (Nat.pow_le_pow_right (by omega) (by omega))
    have hk2 : Known (d :: r.take (r.length - 1)) := by
      simp only [known_cons]; exact ⟨hds.1, known_take _ hr⟩
    have hl2 : (d :: r.take (r.length - 1)).length = dv.length := by simp; omega
    have hb := bv_lt d
    have hvlt : val (d :: r.take (r.length - 1)) < 2 ^ (k + 1) := by
      rw [hv2, Nat.pow_succ]; omega
    rw [uge, ult_spec hk2 hdv hl2 (by simp)]
    simp only [Option.map_some, lnot_bitOf, Option.bind_some]
    have hrev : val (d :: ds).reverse = val ds.reverse + 2 ^ ds.length * bv d := by
      rw [List.reverse_cons, val_append]; simp [val]
    have hone : bv Bit.one = 1 := by decide
    have hzero : bv Bit.zero = 0 := by decide
    by_cases hge : val (d :: r.take (r.length - 1)) < val dv
    · rw [if_neg (by simp [hge, bitOf])]
      have hi := ih (.zero :: q) (d :: r.take (r.length - 1)) hds.2
        (by simp only [known_cons]; exact ⟨zero_known, hq⟩) hk2 hl2 (k + 1) (by omega) hvlt
        (fun _ => hge)
      obtain ⟨q', r', h1, h2, h3, h4, h5, h6, h7, h8⟩ := hi
      refine ⟨q', r', h1, h2, h3, by simp at h4; simp; omega, h5, ?_, h7, fun h => by omega⟩
      rw [h6, hrev, hv2]
      simp only [val, hzero, List.length_cons, Nat.pow_succ, Nat.mul_add, Nat.zero_add]
      simp only [Nat.mul_assoc]
      omega
    · rw [if_pos (by simp [hge, bitOf])]
      rw [sub_eq hl2 (by simp)]
      simp only [Option.bind_some]
      have hkn := negLoop_known one_known hdv
      have hln : (d :: r.take (r.length - 1)).length = (negLoop .one dv).length := by
        rw [negLoop_length]; exact hl2
      have hv3 : val (addLoop .zero (d :: r.take (r.length - 1)) (negLoop .one dv))
          = val (d :: r.take (r.length - 1)) - val dv := by
        rw [addLoop_val zero_known hk2 hkn hln, negLoop_val hdv, hl2, hzero, Nat.add_zero]
        have hdlt := val_lt dv
        have h2lt := val_lt (d :: r.take (r.length - 1))
        rw [hl2] at h2lt
        rw [Nat.add_mod_mod]
        have e : val (d :: r.take (r.length - 1)) + (2 ^ dv.length - val dv)
          = 2 ^ dv.length + (val (d :: r.take (r.length - 1)) - val dv) := by omega
        rw [e, Nat.add_mod_left, Nat.mod_eq_of_lt (by omega)]
      have hi := ih (.one :: q) (addLoop .zero (d :: r.take (r.length - 1)) (negLoop .one dv)) hds.2
        (by simp only [known_cons]; exact ⟨one_known, hq⟩)
        (addLoop_known zero_known hk2 hkn) (by rw [addLoop_length _ _ _ hln]; exact hl2)
        (k + 1) (by omega) (by rw [hv3]; omega)
        (fun h => by rw [hv3]; have := hrd h; omega)
      obtain ⟨q', r', h1, h2, h3, h4, h5, h6, h7, h8⟩ := hi
      refine ⟨q', r', h1, h2, h3, by simp at h4; simp; omega, h5, ?_, h7, fun h => by
        rw [h8 h, List.length_cons, List.replicate_succ']; simp⟩
      rw [h6, hrev, hv3, hv2]
      rw [hv2] at hge
      simp only [val, hone, List.length_cons, Nat.pow_succ]
      generalize 2 ^ ds.length = P
      have e : val dv * (P * (1 + 2 * val q)) = P * val dv + val dv * (P * 2 * val q) := by
        rw [Nat.mul_left_comm, Nat.mul_add, Nat.mul_add, Nat.mul_one, ← Nat.mul_left_comm, Nat.mul_assoc P 2]
      have e3 : P * (bv d + 2 * val r - val dv) + P * val dv = P * (bv d + 2 * val r) := by
        rw [← Nat.mul_add]; congr 1; omega
      have e4 : P * (bv d + 2 * val r) = P * bv d + P * 2 * val r := by
        rw [Nat.mul_add, Nat.mul_assoc]
      rw [e]
      omega

theorem udivrem_repr {n : Nat} (hn : 0 < n) (x y : BitVec n) :
    udivrem (repr x) (repr y) = some (repr (x.smtUDiv y), repr (x.umod y)) := by
  rw [udivrem, repr_length, ofInt_zero hn]
  simp only [Option.bind_eq_bind, Option.bind_some]
  rw [if_neg (by simp), if_neg (by simp; omega)]
  obtain ⟨q', r', h1, h2, h3, h4, h5, h6, h7, h8⟩ := udivLoop_spec (repr_known y)
    (repr_ne_nil hn y) (repr x).reverse [] (List.replicate n .zero) (known_reverse (repr_known x))
    (by simp) (known_replicate zero_known) (by simp) 0 (by simp) (by simp) (by simp)
  rw [h1]
  simp [val] at h4 h5 h6 h7 h8
  congr 2
  · by_cases hy : y = 0#n
    · subst hy
      rw [h8 (by simp), BitVec.smtUDiv_zero, replicate_one_repr]
    · have hy0 : y.toNat ≠ 0 := fun h => hy (by apply BitVec.eq_of_toNat_eq; simpa using h)
      apply eq_repr _ h2 h4
      rw [BitVec.smtUDiv_eq]
      rw [if_neg hy, BitVec.toNat_udiv, ← h6]
      rw [Nat.mul_add_div (by omega), Nat.div_eq_of_lt (h7 (by omega))]; simp
  · apply eq_repr _ h3 h5
    rw [BitVec.umod_eq, BitVec.toNat_umod, ← h6, Nat.mul_add_mod]
    by_cases hy0 : y.toNat = 0
    · simp [hy0]
    · rw [Nat.mod_eq_of_lt (h7 (by omega))]

theorem sdivrem_repr {n : Nat} (hn : 0 < n) (x y : BitVec n) :
    sdivrem (repr x) (repr y) = some (repr (x.smtSDiv y), repr (x.srem y)) := by
  unfold sdivrem
  simp only [isNegative_repr hn, neg_repr hn, BitVec.smtSDiv_eq, BitVec.srem_eq]
  cases hx : x.msb <;> cases hy : y.msb <;>
    simp [udivrem_repr hn, neg_repr hn]

/-! ### conversions -/

theorem toUintLoop_known {a : BVR} (h : Known a) (p r : Nat) :
    toUintLoop a p r = some (r + p * val a) := by
  induction a generalizing p r with
  | nil => simp [toUintLoop, val]
  | cons b bs ih =>
    simp only [known_cons] at h
    rcases h.1 with rfl | rfl
    · simp only [toUintLoop, ih h.2, val]
      simp [bv, Nat.mul_left_comm, Nat.mul_assoc]
    · simp only [toUintLoop, ih h.2, val]
      simp [bv, Nat.mul_add, Nat.mul_left_comm, Nat.mul_assoc, Nat.add_assoc]

theorem toUintLoop_some {a : BVR} {p r m : Nat} (h : toUintLoop a p r = some m) : Known a := by
  induction a generalizing p r with
  | nil => simp
  | cons b bs ih =>
    cases b with
    | zero => simp only [toUintLoop] at h; simp only [known_cons]; exact ⟨zero_known, ih h⟩
    | one => simp only [toUintLoop] at h; simp only [known_cons]; exact ⟨one_known, ih h⟩
    | D => simp [toUintLoop] at h
    | X => simp [toUintLoop] at h

theorem val_eq_zero {a : BVR} (h : Known a) : val a = 0 ↔ ∀ b ∈ a, b = .zero := by
  induction a with
  | nil => simp [val]
  | cons b bs ih =>
    simp only [known_cons] at h
    have := ih h.2
    simp only [val, List.mem_cons, forall_eq_or_imp]
    rcases h.1 with rfl | rfl
    · rw [← this]; simp [bv]; omega
    · simp [bv]

theorem toUint_repr {n : Nat} (x : BitVec n) :
    toUint (repr x) = if x.toNat < 2 ^ 64 then some x.toNat else none := by
  unfold toUint
  simp only [repr_length]
  have hk := repr_known x
  have hm : min n 64 ≤ (repr x).length := by simp; omega
  have hd : val ((repr x).drop (min n 64)) = x.toNat / 2 ^ (min n 64) := by
    rw [val_drop _ _ hm, val_repr]
  have ht : val ((repr x).take (min n 64)) = x.toNat % 2 ^ (min n 64) := by
    rw [val_take _ _ hm, val_repr]
  have hz := val_eq_zero (known_drop (min n 64) hk)
  have hlt := x.isLt
  have hiff : x.toNat < 2 ^ 64 ↔ val ((repr x).drop (min n 64)) = 0 := by
    rw [hd, Nat.div_eq_zero_iff]
    rcases Nat.le_total n 64 with h | h
    · rw [Nat.min_eq_left h]
      have : 2 ^ n ≤ 2 ^ 64 := Nat.pow_le_pow_right (by omega) h
      omega
    · rw [Nat.min_eq_right h]; simp
  by_cases hlt64 : x.toNat < 2 ^ 64
  · have hall := hz.mp (hiff.mp hlt64)
    rw [if_neg (by simpa using hall), if_pos hlt64, toUintLoop_known (known_take _ hk), ht]
    congr 1
    rw [Nat.mod_eq_of_lt]
    · omega
    · rcases Nat.le_total n 64 with h | h
      · rw [Nat.min_eq_left h]; exact hlt
      · rw [Nat.min_eq_right h]; exact hlt64
  · rw [if_neg hlt64, if_pos]
    have : ¬ ∀ b ∈ (repr x).drop (min n 64), b = .zero := fun h => hlt64 (hiff.mpr (hz.mpr h))
    simpa using this

theorem toUint_some {a : BVR} {m : Nat} (h : toUint a = some m) : Known a := by
  unfold toUint at h
  simp only at h
  split at h
  · cases h
  · rename_i h1
    have h2 := toUintLoop_some h
    have h3 : Known (a.drop (min a.length 64)) := by
      intro b hb
      simp at h1
      exact Or.inl (h1 b hb)
    rw [← List.take_append_drop (min a.length 64) a]
    simp only [known_append]
    exact ⟨h2, h3⟩

theorem toIntLoop_known {l : List Bit} (h : Known l) (k : Nat) (r : BitVec 64) :
    ∃ r', toIntLoop l k r = some r' ∧
      ∀ i, i < 64 → r'.getLsbD i = (r.getLsbD i || (k ≤ i && l.getD (i - k) .zero == .one)) := by
  induction l generalizing k r with
  | nil => exact ⟨r, rfl, by simp⟩
  | cons b bs ih =>
    simp only [known_cons] at h
    have key : ∀ i, k ≤ i → k ≠ i → (b :: bs).getD (i - k) .zero = bs.getD (i - (k + 1)) .zero := by
      intro i h1 h2
      have : i - k = (i - (k + 1)) + 1 := by omega
      rw [this]; simp
    rcases h.1 with rfl | rfl
    · obtain ⟨r', h1, h2⟩ := ih h.2 (k + 1) r
      refine ⟨r', h1, fun i hi => ?_⟩
      rw [h2 i hi]
      congr 1
      by_cases hki : k ≤ i
      · by_cases he : k = i
        · subst he
          have : ¬ k + 1 ≤ k := by omega
          simp [this]
        · have : k + 1 ≤ i := by omega
          simp only [key i hki he, hki, this]
      · have : ¬ k + 1 ≤ i := by omega
        simp [hki, this]
    · obtain ⟨r', h1, h2⟩ := ih h.2 (k + 1) (r ||| BitVec.twoPow 64 k)
      refine ⟨r', h1, fun i hi => ?_⟩
      rw [h2 i hi, BitVec.getLsbD_or, BitVec.getLsbD_twoPow]
      by_cases hki : k ≤ i
      · by_cases he : k = i
        · subst he; simp [hi]
        · have h3 : k + 1 ≤ i := by omega
          simp only [key i hki he, hki, h3]
          simp [he]
      · have h3 : ¬ k + 1 ≤ i := by omega
        have h4 : ¬ k = i := by omega
        simp [hki, h3, h4]

theorem toIntLoop_some {l : List Bit} {k : Nat} {r r' : BitVec 64}
    (h : toIntLoop l k r = some r') : Known l := by
  induction l generalizing k r with
  | nil => simp
  | cons b bs ih =>
    cases b with
    | zero => simp only [toIntLoop] at h; simp only [known_cons]; exact ⟨zero_known, ih h⟩
    | one => simp only [toIntLoop] at h; simp only [known_cons]; exact ⟨one_known, ih h⟩
    | D => simp [toIntLoop] at h
    | X => simp [toIntLoop] at h

theorem bitOf_inj {a b : Bool} : bitOf a = bitOf b ↔ a = b := by cases a <;> cases b <;> decide

theorem signExtend_of_bits {n : Nat} (x : BitVec n) (h63 : 64 ≤ n)
    (h : ∀ i, 63 ≤ i → i < n → x.getLsbD i = x.msb) : (x.setWidth 64).signExtend n = x := by
  apply BitVec.eq_of_getLsbD_eq
  intro i hi
  rw [BitVec.getLsbD_signExtend]
  by_cases hi64 : i < 64
  · simp [hi, hi64]
  · have h1 : (x.setWidth 64).msb = x.msb := by
      rw [BitVec.msb_eq_getLsbD_last]
      simp only [Nat.reduceSub, BitVec.getLsbD_setWidth]
      rw [h 63 (by omega) (by omega)]; simp
    rw [h1, ← h i (by omega) hi]
    simp [hi, hi64]

theorem signExtend_fits {n : Nat} (hn : 0 < n) (x : BitVec n) :
    (-(2 : Int) ^ 63 ≤ x.toInt ∧ x.toInt < 2 ^ 63) ↔
      ∀ i, 63 ≤ i → i < n → x.getLsbD i = x.msb := by
  have hlo := BitVec.le_toInt x
  have hhi := BitVec.toInt_lt (x := x)
  rcases Nat.lt_or_ge n 64 with hlt | hge
  · constructor
    · intro _ i h1 h2
      have : i = n - 1 := by omega
      subst this
      rw [BitVec.msb_eq_getLsbD_last]
    · intro _
      have h1 : (2 : Int) ^ (n - 1) ≤ 2 ^ 63 :=
        by exact_mod_cast Nat.pow_le_pow_right (n := 2) (by omega) (show n - 1 ≤ 63 by omega)
      omega
  · constructor
    · intro h i h1 h2
      have hy : (BitVec.ofInt 64 x.toInt).toInt = x.toInt := by
        rw [BitVec.toInt_ofInt_eq_self (by omega) (by simpa using h.1) (by simpa using h.2)]
      have hx : (BitVec.ofInt 64 x.toInt).signExtend n = x := by
        apply BitVec.eq_of_toInt_eq
        rw [BitVec.toInt_signExtend_of_le hge, hy]
      have key : ∀ j, 63 ≤ j → j < n → x.getLsbD j = (BitVec.ofInt 64 x.toInt).msb := by
        intro j hj1 hj2
        conv => lhs; rw [← hx]
        rw [BitVec.getLsbD_signExtend]
        by_cases hj : j < 64
        · have : j = 63 := by omega
          subst this
          rw [BitVec.msb_eq_getLsbD_last]
          simp [hj2]
        · simp [hj, hj2]
      rw [key i h1 h2, BitVec.msb_eq_getLsbD_last (x := x), key (n - 1) (by omega) (by omega)]
    · intro h
      have hx := signExtend_of_bits x hge h
      have : x.toInt = (x.setWidth 64).toInt := by
        conv => lhs; rw [← hx]
        rw [BitVec.toInt_signExtend_of_le hge]
      rw [this]
      have h1 := BitVec.le_toInt (x.setWidth 64)
      have h2 := BitVec.toInt_lt (x := x.setWidth 64)
      simpa using And.intro h1 h2

theorem toInt_repr {n : Nat} (hn : 0 < n) (x : BitVec n) :
    toInt (repr x) = if -(2 : Int) ^ 63 ≤ x.toInt ∧ x.toInt < 2 ^ 63 then some x.toInt else none := by
  unfold toInt
  rw [sign_repr hn]
  simp only [Option.bind_eq_bind, Option.bind_some, repr_length]
  have hmem : (∀ b ∈ (repr x).drop (min n 63), b = bitOf x.msb) ↔
      ∀ i, 63 ≤ i → i < n → x.getLsbD i = x.msb := by
    constructor
    · intro h i h1 h2
      have := h ((repr x)[i]'(by simpa using h2)) (by
        rw [List.mem_drop_iff_getElem]
        exact ⟨i - 63, by simp; omega, by congr 1; omega⟩)
      rw [getElem_repr, bitOf_inj] at this
      exact this
    · intro h b hb
      rw [List.mem_drop_iff_getElem] at hb
      obtain ⟨i, hi, rfl⟩ := hb
      simp at hi
      rw [getElem_repr, h _ (by omega) (by omega)]
  have hfit := signExtend_fits hn x
  by_cases hr : -(2 : Int) ^ 63 ≤ x.toInt ∧ x.toInt < 2 ^ 63
  · have hbits := hfit.mp hr
    have hall := hmem.mpr hbits
    rw [if_neg (by simpa using hall), if_pos hr]
    have hgd : ∀ i, (repr x).getD i (bitOf x.msb)
        = bitOf (if i < n then x.getLsbD i else x.msb) := by
      intro i
      rw [List.getD_eq_getElem?_getD]
      by_cases h : i < n
      · rw [List.getElem?_eq_getElem (by simpa using h), if_pos h]
        simp [getElem_repr]
      · rw [List.getElem?_eq_none (by simpa using h), if_neg h]; rfl
    have hknown : Known ((List.range 64).map (fun i => (repr x).getD i (bitOf x.msb))) := by
      intro b hb
      rw [List.mem_map] at hb
      obtain ⟨i, _, rfl⟩ := hb
      rw [hgd]; exact knownB_bitOf _
    obtain ⟨r', h1, h2⟩ := toIntLoop_known hknown 0 0
    rw [h1]
    simp only [Option.bind_some, Option.some.injEq]
    have hr' : r' = x.signExtend 64 := by
      apply BitVec.eq_of_getLsbD_eq
      intro i hi
      rw [h2 i hi, BitVec.getLsbD_signExtend]
      rw [List.getD_eq_getElem?_getD, List.getElem?_map, Nat.sub_zero, List.getElem?_range hi]
      simp only [Option.map_some, Option.getD_some, hgd]
      cases h3 : (if i < n then x.getLsbD i else x.msb) <;> simp [bitOf, hi]
    rw [hr']
    rcases Nat.le_total n 64 with h | h
    · exact BitVec.toInt_signExtend_of_le h
    · have e : x.signExtend 64 = x.setWidth 64 := by
        exact BitVec.signExtend_eq_setWidth_of_le x h
      rw [e]
      have hx := signExtend_of_bits x h hbits
      conv => rhs; rw [← hx]
      rw [BitVec.toInt_signExtend_of_le h]
  · rw [if_neg hr, if_pos]
    have : ¬ ∀ b ∈ (repr x).drop (min n 63), b = bitOf x.msb :=
      fun h => hr (hfit.mpr (hmem.mp h))
    simpa using this

theorem toInt_some {a : BVR} {m : Int} (h : toInt a = some m) : Known a := by
  unfold toInt at h
  simp only [Option.bind_eq_bind, Option.bind_eq_some_iff] at h
  obtain ⟨s, hs, h⟩ := h
  split at h
  · cases h
  · rename_i h1
    rw [Option.bind_eq_some_iff] at h
    obtain ⟨r, hr, _⟩ := h
    have hk := toIntLoop_some hr
    have hpos : ∀ i, i < 64 → KnownB (a.getD i s) := fun i hi =>
      hk _ (List.mem_map.mpr ⟨i, List.mem_range.mpr hi, rfl⟩)
    simp only [List.any_eq_true, not_exists, not_and, decide_eq_true_eq, Classical.not_not] at h1
    intro b hb
    rw [List.mem_iff_getElem] at hb
    obtain ⟨i, hi, rfl⟩ := hb
    rcases Nat.lt_or_ge i 64 with h64 | h64
    · have := hpos i h64
      rwa [List.getD_eq_getElem?_getD, List.getElem?_eq_getElem hi] at this
    · have e1 : a[i] = s := h1 _ (by
        rw [List.mem_drop_iff_getElem]
        exact ⟨i - 63, by omega, by congr 1; omega⟩)
      have e2 : a[63] = s := h1 _ (by
        rw [List.mem_drop_iff_getElem]
        exact ⟨0, by omega, by congr 1; omega⟩)
      have := hpos 63 (by omega)
      rw [List.getD_eq_getElem?_getD, List.getElem?_eq_getElem (by omega)] at this
      simp only [Option.getD_some] at this
      rw [e1, ← e2]; exact this

theorem ofIntLoop_length (n : Nat) (v : Int) : (ofIntLoop n v).length = n := by
  induction n generalizing v with
  | zero => rfl
  | succ n ih => simp [ofIntLoop, ih]

theorem ofIntLoop_known (n : Nat) (v : Int) : Known (ofIntLoop n v) := by
  induction n generalizing v with
  | zero => simp [ofIntLoop]
  | succ n ih =>
    simp only [ofIntLoop, known_cons]
    refine ⟨?_, ih _⟩
    split
    · exact one_known
    · exact zero_known

theorem ofIntLoop_val (n : Nat) (v : Int) : (val (ofIntLoop n v) : Int) = v % 2 ^ n := by
  induction n generalizing v with
  | zero => simp [ofIntLoop, val]
  | succ n ih =>
    simp only [ofIntLoop, val]
    rw [Int.natCast_add, Int.natCast_mul, ih]
    have h1 : (v >>> (1 : Nat)) = v / 2 := by rw [Int.shiftRight_eq_div_pow]; rfl
    have hb : ((bv (if v % 2 = 1 then Bit.one else .zero) : Nat) : Int) = v % 2 := by
      split
      · simp_all [bv]
      · simp [bv]; omega
    rw [hb, h1, Int.pow_succ, Int.mul_comm ((2 : Int) ^ n) 2]
    have hp : (0 : Int) < 2 ^ n := Int.pow_pos (by omega)
    have e := Int.emod_add_mul_ediv v 2
    have e2 := Int.emod_add_mul_ediv (v / 2) (2 ^ n)
    have h3 := Int.emod_nonneg (v / 2) (b := 2 ^ n) (by omega)
    have h4 := Int.emod_lt_of_pos (v / 2) hp
    symm
    have e5 : v = (v % 2 + 2 * ((v / 2) % 2 ^ n)) + (2 * 2 ^ n) * (v / 2 / 2 ^ n) := by
      have : (2 * (2 : Int) ^ n) * (v / 2 / 2 ^ n) = 2 * (2 ^ n * (v / 2 / 2 ^ n)) := by
        rw [Int.mul_assoc]
      rw [this]
      generalize 2 ^ n * (v / 2 / 2 ^ n) = t at *
      omega
    conv => lhs; rw [e5]
    have h6 : v % 2 < 2 := Int.emod_lt_of_pos v (by omega)
    have h7 : 0 ≤ v % 2 := Int.emod_nonneg v (by omega)
    have hlt : v % 2 + 2 * (v / 2 % 2 ^ n) < 2 * 2 ^ n := by
      clear e5 e2 hb h1 ih e
      generalize v / 2 % 2 ^ n = t at *
      generalize (2 : Int) ^ n = P at *
      omega
    rw [Int.add_mul_emod_self_left, Int.emod_eq_of_lt (by omega) hlt]
    rfl

theorem ofIntLoop_repr (n : Nat) (v : Int) : ofIntLoop n v = repr (BitVec.ofInt n v) := by
  apply eq_repr _ (ofIntLoop_known n v) (ofIntLoop_length n v)
  have h := ofIntLoop_val n v
  have : ((BitVec.ofInt n v).toNat : Int) = v % 2 ^ n := by
    rw [BitVec.toNat_ofInt]
    have hp : (0 : Int) < 2 ^ n := Int.pow_pos (by omega)
    have := Int.emod_nonneg v (b := 2 ^ n) (by omega)
    simp
    omega
  omega

theorem ofIntLoop_drop (k m : Nat) (v : Int) :
    (ofIntLoop (k + m) v).drop k = ofIntLoop m (v >>> k) := by
  induction k generalizing v with
  | zero => simp
  | succ k ih =>
    rw [show k + 1 + m = (k + m) + 1 by omega]
    simp only [ofIntLoop, List.drop_succ_cons, ih]
    rw [← Int.shiftRight_add, Nat.add_comm]

theorem extract_high_ofInt (n : Nat) (hn : 0 < n) (P : Int) :
    repr ((BitVec.ofInt (n + n) P).extractLsb' n n) = repr (BitVec.ofInt n (P / 2 ^ n)) := by
  have h1 := slice_repr (BitVec.ofInt (n + n) P) n (n + n) (by omega) (by omega)
  rw [← ofIntLoop_repr, slice, if_neg (by rw [ofIntLoop_length]; omega), ofIntLoop_drop,
    List.take_of_length_le (by rw [ofIntLoop_length]; omega), ofIntLoop_repr,
    Int.shiftRight_eq_div_pow] at h1
  simp only [Option.some.injEq] at h1
  have e : n + n - n = n := by omega
  rw [e] at h1
  rw [← h1]; simp

/-! ### totality and monotonicity of the operations on four-valued operands -/

theorem bitwise_mono {f : Bit → Bit → Bit}
    (hf : ∀ a a' b b', bitLe a a' → bitLe b b' → bitLe (f a b) (f a' b')) {a b a' b' : BVR}
    (ha : Ref a a') (hb : Ref b b') (h : a'.length = b'.length) (h0 : a' ≠ []) :
    ∃ r s, bitwise f a' b' = some r ∧ bitwise f a b = some s ∧ Ref s r := by
  have la := ha.length
  have lb := hb.length
  have hp : 0 < a'.length := List.length_pos_iff.mpr h0
  refine ⟨List.zipWith f a' b', List.zipWith f a b, ?_, ?_, zipWith_mono hf ha hb⟩
  · rw [bitwise, if_neg (by omega), rep, if_neg (by omega)]; rfl
  · rw [bitwise, if_neg (by omega), rep, if_neg (by omega)]; rfl

theorem add_mono' {a b a' b' : BVR} (ha : Ref a a') (hb : Ref b b') (h : a'.length = b'.length)
    (h0 : a' ≠ []) : ∃ r s, add a' b' = some r ∧ add a b = some s ∧ Ref s r := by
  have la := ha.length
  have lb := hb.length
  have h1 : a ≠ [] := by rintro rfl; exact h0 (List.length_eq_zero_iff.mp la.symm)
  exact ⟨_, _, add_eq h h0, add_eq (by omega) h1, addLoop_mono (bitLe_refl _) ha hb⟩

theorem neg_mono' {a a' : BVR} (ha : Ref a a') (h0 : a' ≠ []) :
    ∃ r s, neg a' = some r ∧ neg a = some s ∧ Ref s r := by
  have la := ha.length
  have h1 : a ≠ [] := by rintro rfl; exact h0 (List.length_eq_zero_iff.mp la.symm)
  exact ⟨_, _, neg_eq h0, neg_eq h1, negLoop_mono (bitLe_refl _) ha⟩

theorem sub_mono' {a b a' b' : BVR} (ha : Ref a a') (hb : Ref b b') (h : a'.length = b'.length)
    (h0 : a' ≠ []) : ∃ r s, sub a' b' = some r ∧ sub a b = some s ∧ Ref s r := by
  have la := ha.length
  have lb := hb.length
  have h1 : a ≠ [] := by rintro rfl; exact h0 (List.length_eq_zero_iff.mp la.symm)
  exact ⟨_, _, sub_eq h h0, sub_eq (by omega) h1,
    addLoop_mono (bitLe_refl _) ha (negLoop_mono (bitLe_refl _) hb)⟩

theorem mul_eq {a b : BVR} (h : a.length = b.length) (h0 : a ≠ []) :
    mul a b = some ((mulLoop a b (List.replicate (2 * a.length) .zero)).take a.length) := by
  have hp : 0 < a.length := List.length_pos_iff.mpr h0
  rw [mul, if_neg (by omega), ofInt_zero (by omega)]
  simp only [Option.bind_eq_bind, Option.bind_some]
  have hl : (mulLoop a b (List.replicate (2 * a.length) .zero)).length = 2 * a.length := by
    rw [mulLoop_length _ _ _ (by simp; omega)]; simp
  rw [slice, if_neg (by omega)]
  simp

theorem mul_mono' {a b a' b' : BVR} (ha : Ref a a') (hb : Ref b b') (h : a'.length = b'.length)
    (h0 : a' ≠ []) : ∃ r s, mul a' b' = some r ∧ mul a b = some s ∧ Ref s r := by
  have la := ha.length
  have lb := hb.length
  have h1 : a ≠ [] := by rintro rfl; exact h0 (List.length_eq_zero_iff.mp la.symm)
  refine ⟨_, _, mul_eq h h0, mul_eq (by omega) h1, ?_⟩
  rw [la]
  exact ref_take _ (mulLoop_mono ha hb (Ref.refl _))

theorem sign_mono {a a' : BVR} (ha : Ref a a') (h0 : a' ≠ []) :
    ∃ s s', sign a = some s ∧ sign a' = some s' ∧ bitLe s s' := by
  cases hs : a'.getLast? with
  | none => simp at hs; exact absurd hs h0
  | some z =>
    obtain ⟨t, ht, hle⟩ := ref_getLast ha hs
    exact ⟨t, z, ht, hs, hle⟩

theorem shr_mono' {a a' : BVR} (ha : Ref a a') (h0 : a' ≠ []) (k : Nat) :
    ∃ r s, shr a' k = some r ∧ shr a k = some s ∧ Ref s r := by
  have la := ha.length
  have hp : 0 < a'.length := List.length_pos_iff.mpr h0
  unfold shr
  rw [la]
  split
  · rw [rep, if_neg (by omega)]; exact ⟨_, _, rfl, rfl, Ref.refl _⟩
  · rw [zext_eq, zext_eq]
    exact ⟨_, _, rfl, rfl, ref_append (ref_drop _ ha) (Ref.refl _)⟩

theorem ashr_mono' {a a' : BVR} (ha : Ref a a') (h0 : a' ≠ []) (k : Nat) :
    ∃ r s, ashr a' k = some r ∧ ashr a k = some s ∧ Ref s r := by
  have la := ha.length
  have hp : 0 < a'.length := List.length_pos_iff.mpr h0
  unfold ashr
  rw [la]
  split
  · obtain ⟨s, s', h1, h2, h3⟩ := sign_mono ha h0
    simp only [h1, h2, Option.bind_eq_bind, Option.bind_some]
    rw [rep, rep, if_neg (by omega), if_neg (by omega)]
    exact ⟨_, _, rfl, rfl, ref_replicate _ h3⟩
  · obtain ⟨s, s', h1, h2, h3⟩ := sign_mono (ref_drop k ha) (by
      intro h; have := congrArg List.length h; simp at this; omega)
    rw [sext_eq _ _ h1, sext_eq _ _ h2]
    exact ⟨_, _, rfl, rfl, ref_append (ref_drop _ ha) (ref_replicate _ h3)⟩

theorem shl_mono' {a a' : BVR} (ha : Ref a a') (h0 : a' ≠ []) (k : Nat) :
    ∃ r s, shl a' k = some r ∧ shl a k = some s ∧ Ref s r := by
  have la := ha.length
  have hp : 0 < a'.length := List.length_pos_iff.mpr h0
  unfold shl
  rw [la]
  split
  · exact ⟨_, _, rfl, rfl, ha⟩
  · split
    · rw [rep, if_neg (by omega)]; exact ⟨_, _, rfl, rfl, Ref.refl _⟩
    · rw [rep, if_neg (by omega), slice, slice, if_neg (by omega), if_neg (by omega)]
      simp only [Option.bind_eq_bind, Option.bind_some]
      exact ⟨_, _, rfl, rfl, ref_append (Ref.refl _) (ref_take _ (ref_drop _ ha))⟩

theorem ult_mono' {a b a' b' : BVR} (ha : Ref a a') (hb : Ref b b') (h : a'.length = b'.length)
    (h0 : a' ≠ []) : ∃ r s, ult a' b' = some r ∧ ult a b = some s ∧ bitLe s r := by
  have : ∃ r, ult a' b' = some r := by
    cases a' with
    | nil => exact absurd rfl h0
    | cons x xs => cases b' with
      | nil => simp at h
      | cons y ys => exact ⟨_, by rw [ult, if_neg (by simpa using h)]⟩
  obtain ⟨r, hr⟩ := this
  obtain ⟨s, h1, h2⟩ := ult_mono ha hb hr
  exact ⟨r, s, hr, h1, h2⟩

theorem ule_mono' {a b a' b' : BVR} (ha : Ref a a') (hb : Ref b b') (h : a'.length = b'.length) :
    ∃ r s, ule a' b' = some r ∧ ule a b = some s ∧ bitLe s r := by
  have hr : ∃ r, ule a' b' = some r := ⟨_, by rw [ule, if_neg (by simpa using h)]⟩
  obtain ⟨r, hr⟩ := hr
  obtain ⟨s, h1, h2⟩ := ule_mono ha hb hr
  exact ⟨r, s, hr, h1, h2⟩

theorem ne_mono' {a b a' b' : BVR} (ha : Ref a a') (hb : Ref b b') (h : a'.length = b'.length) :
    ∃ r s, ne a' b' = some r ∧ ne a b = some s ∧ bitLe s r := by
  have hr : ∃ r, ne a' b' = some r := ⟨_, by rw [ne, if_neg (by simpa using h)]⟩
  obtain ⟨r, hr⟩ := hr
  obtain ⟨s, h1, h2⟩ := ne_mono ha hb hr
  exact ⟨r, s, hr, h1, h2⟩

theorem flipSign_some {a : BVR} (h0 : a ≠ []) :
    ∃ r, flipSign a = some r ∧ r.length = a.length := by
  unfold flipSign sign
  cases hs : a.getLast? with
  | none => simp at hs; exact absurd hs h0
  | some z => exact ⟨_, rfl, by simp⟩

theorem slt_mono' {a b a' b' : BVR} (ha : Ref a a') (hb : Ref b b') (h : a'.length = b'.length)
    (h0 : a' ≠ []) : ∃ r s, slt a' b' = some r ∧ slt a b = some s ∧ bitLe s r := by
  have h0' : b' ≠ [] := by rintro rfl; exact h0 (List.length_eq_zero_iff.mp h)
  obtain ⟨t1, e1, l1⟩ := flipSign_some h0
  obtain ⟨t2, e2, l2⟩ := flipSign_some h0'
  obtain ⟨r, _, hr, _⟩ := ult_mono' (Ref.refl t1) (Ref.refl t2) (by omega) (by
    rintro rfl; exact h0 (List.length_eq_zero_iff.mp l1.symm))
  have hr' : slt a' b' = some r := by rw [slt, e1, e2]; exact hr
  obtain ⟨s, h1, h2⟩ := slt_mono ha hb hr'
  exact ⟨r, s, hr', h1, h2⟩

theorem sle_mono' {a b a' b' : BVR} (ha : Ref a a') (hb : Ref b b') (h : a'.length = b'.length)
    (h0 : a' ≠ []) : ∃ r s, sle a' b' = some r ∧ sle a b = some s ∧ bitLe s r := by
  have h0' : b' ≠ [] := by rintro rfl; exact h0 (List.length_eq_zero_iff.mp h)
  obtain ⟨t1, e1, l1⟩ := flipSign_some h0
  obtain ⟨t2, e2, l2⟩ := flipSign_some h0'
  obtain ⟨r, _, hr, _⟩ := ule_mono' (Ref.refl t1) (Ref.refl t2) (by omega)
  have hr' : sle a' b' = some r := by rw [sle, e1, e2]; exact hr
  obtain ⟨s, h1, h2⟩ := sle_mono ha hb hr'
  exact ⟨r, s, hr', h1, h2⟩

/-- combine monotonicity with exactness on machine words -/
theorem sound2 {op : BVR → BVR → Option BVR} {n : Nat} {a b : BVR} {x y z : BitVec n}
    (hmono : ∃ r s, op a b = some r ∧ op (repr x) (repr y) = some s ∧ Ref s r)
    (hex : op (repr x) (repr y) = some (repr z)) : ∃ r, op a b = some r ∧ Stands r z := by
  obtain ⟨r, s, h1, h2, h3⟩ := hmono
  rw [hex] at h2
  cases h2
  exact ⟨r, h1, stands_iff.mpr h3⟩

theorem soundc {op : BVR → BVR → Option Bit} {n : Nat} {a b : BVR} {x y : BitVec n} {p : Bool}
    (hmono : ∃ r s, op a b = some r ∧ op (repr x) (repr y) = some s ∧ bitLe s r)
    (hex : op (repr x) (repr y) = some (bitOf p)) : ∃ r, op a b = some r ∧ Allows r p := by
  obtain ⟨r, s, h1, h2, h3⟩ := hmono
  rw [hex] at h2
  cases h2
  exact ⟨r, h1, (allows_iff _ _).mpr h3⟩

theorem map_lnot_mono {op : BVR → BVR → Option Bit} {a b a' b' : BVR}
    (h : ∃ r s, op a' b' = some r ∧ op a b = some s ∧ bitLe s r) :
    ∃ r s, (op a' b').map Bit.lnot = some r ∧ (op a b).map Bit.lnot = some s ∧ bitLe s r := by
  obtain ⟨r, s, h1, h2, h3⟩ := h
  exact ⟨_, _, by rw [h1]; rfl, by rw [h2]; rfl, lnot_mono h3⟩

end BVR
end Jlm.Bits
