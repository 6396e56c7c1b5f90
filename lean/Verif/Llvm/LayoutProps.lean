import Verif.Llvm.LayoutSpec
import Verif.Util.MathProps
/-
C25: the layout of types and the offsets of constant GetElementPtr operations.
-/
set_option linter.unusedSimpArgs false
namespace Jlm.Llvm.Layout

/-! ### rounding -/

theorem log2Floor1_spec (v : Nat) : v < 2 ^ log2Floor1 v ∧ (0 < v → 2 ^ (log2Floor1 v - 1) ≤ v) := by
  induction v using Nat.strongRecOn with
  | _ v ih =>
    rw [log2Floor1]
    split
    · simp_all
    · rename_i h
      have ⟨h1, h2⟩ := ih (v / 2) (by omega)
      refine ⟨by rw [Nat.pow_add]; omega, fun _ => ?_⟩
      by_cases hv : v / 2 = 0
      · rw [hv]; simp [log2Floor1]; omega
      · have := h2 (by omega)
        have hp : log2Floor1 (v/2) ≠ 0 := by
          rw [log2Floor1]; simp [hv]
        have : 2 ^ (1 + log2Floor1 (v/2) - 1) = 2 * 2 ^ (log2Floor1 (v/2) - 1) := by
          rw [← Nat.pow_succ']; congr 1; omega
        omega

theorem Least.unique {P : Nat → Prop} {a b : Nat} (h : Least P a) (h' : Least P b) : a = b :=
  Nat.le_antisymm (h.2 _ h'.1) (h'.2 _ h.1)

theorem roundUpToPowerOf2_spec (v : Nat) : NextPowerOf2 v (roundUpToPowerOf2 v) := by
  rw [roundUpToPowerOf2]
  split
  · exact ⟨⟨by omega, 0, rfl⟩, fun k hk => by obtain ⟨j, rfl⟩ := hk.2; exact Nat.one_le_two_pow⟩
  · have ⟨h1, h2⟩ := log2Floor1_spec (v - 1)
    refine ⟨⟨by omega, _, rfl⟩, fun k hk => ?_⟩
    obtain ⟨hk, j, rfl⟩ := hk
    have := h2 (by omega)
    apply Nat.pow_le_pow_right (by omega)
    have : log2Floor1 (v - 1) - 1 < j := (Nat.pow_lt_pow_iff_right (a := 2) (by omega)).1 (by omega)
    omega

theorem roundUpToMultipleOf_spec (v m : Nat) (hm : 0 < m) :
    NextMultiple v m (roundUpToMultipleOf v m) := by
  have hlt := Nat.mod_lt v hm
  have hdm := Nat.div_add_mod v m
  simp only [roundUpToMultipleOf]
  split
  · exact ⟨⟨Nat.le_refl _, Nat.dvd_of_mod_eq_zero (by assumption)⟩, fun k hk => hk.1⟩
  · rename_i h
    have e : v + m - v % m = m * (v / m + 1) := by rw [Nat.mul_add]; omega
    refine ⟨⟨by omega, e ▸ Nat.dvd_mul_right _ _⟩, fun k hk => ?_⟩
    obtain ⟨hk, j, rfl⟩ := hk
    rw [e]
    apply Nat.mul_le_mul_left
    have : v / m < j := by
      rw [Nat.div_lt_iff_lt_mul hm, Nat.mul_comm]
      rcases Nat.lt_or_eq_of_le hk with h' | h'
      · exact h'
      · exact absurd (by rw [h']; simp) h
    omega

theorem roundUp_lt (v m : Nat) (hm : 0 < m) : roundUpToMultipleOf v m < v + m := by
  simp only [roundUpToMultipleOf]
  split <;> omega

theorem roundUp_one (v : Nat) : roundUpToMultipleOf v 1 = v := by
  simp [roundUpToMultipleOf, Nat.mod_one]

/-- The rounding of the layout model is the rounding function of `Math.hpp`, as modelled for
C16, whenever that one does not wrap around. -/
theorem roundUp_is_math (v m : Nat) (hm : 0 < m) (h : v + m < 2 ^ 64) :
    Util.Math.roundUpToMultipleOf ⟨false, 64⟩ v m
      = .val (roundUpToMultipleOf v m : Nat) := by
  have hlt := Nat.mod_lt v hm
  have hle := Nat.mod_le v m
  have ht : Int.tmod (v : Int) m = ((v % m : Nat) : Int) := by
    simp [Int.tmod]
  have hm' : ¬ ((m : Int) = 0) := by omega
  simp only [Util.Math.roundUpToMultipleOf, hm', if_false, ht, Util.Math.IntTy.promote,
    Util.Math.IntTy.arith, Util.Math.IntTy.conv, Bool.false_eq_true,
    show ¬ (64 < 32) from by omega, Util.Math.bind_val, roundUpToMultipleOf, Util.Math.pure_val]
  have e1 : (((v % m : Nat) : Int)) % 2 ^ 64 = ((v % m : Nat) : Int) :=
    Int.emod_eq_of_lt (by omega) (by omega)
  rw [e1, if_neg (by omega)]
  by_cases hz : v % m = 0
  · rw [if_pos (by omega), if_pos hz]
  · rw [if_neg (by omega), if_neg hz]
    have e2 : ((v : Int) + m) % 2 ^ 64 = (v : Int) + m := Int.emod_eq_of_lt (by omega) (by omega)
    rw [e2]
    have e3 : ((v : Int) + m - ((v % m : Nat) : Int)) % 2 ^ 64 = (v : Int) + m - ((v % m : Nat) : Int) :=
      Int.emod_eq_of_lt (by omega) (by omega)
    rw [e3, e3]
    congr 1
    omega

/-! ### the equations of the C++ functions -/

theorem storeSize_arr (n : Nat) (e : Ty) : storeSize (.arr n e) = n * allocSize e := by
  simp [storeSize, layout, allocSize]
theorem storeSize_vec (n : Nat) (e : Ty) : storeSize (.vec n e) = n * allocSize e := by
  simp [storeSize, layout, allocSize]
theorem storeSize_struct (p : Bool) (fs : List Ty) :
    storeSize (.struct p fs)
      = roundUpToMultipleOf (structLoop p fs 0 1).1 (structLoop p fs 0 1).2 := by
  simp [storeSize, layout]
theorem alignment_struct (p : Bool) (fs : List Ty) :
    alignment (.struct p fs) = (structLoop p fs 0 1).2 := by
  simp [alignment, layout]
theorem alignment_arr (n : Nat) (e : Ty) : alignment (.arr n e) = alignment e := by
  simp [alignment, layout]
/-- types.cpp:487-492 -/
theorem alignment_eq_pow2 (t : Ty)
    (h : (match t with | .bits _ | .ptr | .fp _ | .vec _ _ => true | _ => false) = true) :
    alignment t = roundUpToPowerOf2 (storeSize t) := by
  cases t <;> simp [alignment, storeSize, layout] at h ⊢
/-- types.cpp:472-482 -/
theorem allocSize_eq (t : Ty) : allocSize t =
    match t with
    | .struct _ _ | .arr _ _ => storeSize t
    | _ => roundUpToMultipleOf (storeSize t) (alignment t) := by
  cases t <;> simp [allocSize, allocOf, storeSize, alignment]
/-- one round of the loop over the fields, types.cpp:429-446 -/
theorem structLoop_cons (p : Bool) (f : Ty) (fs : List Ty) (total al : Nat) :
    structLoop p (f :: fs) total al =
      structLoop p fs
        (roundUpToMultipleOf total (if p then 1 else alignment f) + allocSize f)
        (Nat.lcm al (if p then 1 else alignment f)) := by
  simp [structLoop, alignment, allocSize]

/-! ### powers of two -/

def IsPow2 (n : Nat) : Prop := ∃ k, n = 2 ^ k

theorem lcm_pow2 {a b : Nat} (ha : IsPow2 a) (hb : IsPow2 b) : IsPow2 (Nat.lcm a b) := by
  obtain ⟨i, rfl⟩ := ha
  obtain ⟨j, rfl⟩ := hb
  rcases Nat.le_total i j with h | h
  · exact ⟨j, Nat.lcm_eq_right (Nat.pow_dvd_pow 2 h)⟩
  · exact ⟨i, Nat.lcm_eq_left (Nat.pow_dvd_pow 2 h)⟩

theorem structLoop_pow2 (p : Bool) (fs : List Ty) (h : ∀ f ∈ fs, IsPow2 (alignment f)) :
    ∀ total al, IsPow2 al → IsPow2 (structLoop p fs total al).2 := by
  induction fs with
  | nil => intro _ _ h; simpa [structLoop] using h
  | cons f fs ih =>
    intro total al hal
    rw [structLoop_cons]
    refine ih (fun g hg => h g (List.mem_cons_of_mem _ hg)) _ _ (lcm_pow2 hal ?_)
    cases p
    · exact h f List.mem_cons_self
    · exact ⟨0, rfl⟩

theorem alignment_pow2 (t : Ty) : IsPow2 (alignment t) := by
  refine Ty.rec (motive_1 := fun t => IsPow2 (alignment t))
    (motive_2 := fun fs => ∀ f ∈ fs, IsPow2 (alignment f)) ?_ ?_ ?_ ?_ ?_ ?_ ?_ ?_ ?_ t
  · intro n; rw [alignment_eq_pow2 _ rfl]; exact (roundUpToPowerOf2_spec _).1.2
  · rw [alignment_eq_pow2 _ rfl]; exact (roundUpToPowerOf2_spec _).1.2
  · intro n e ih; rw [alignment_arr]; exact ih
  · intro k; rw [alignment_eq_pow2 _ rfl]; exact (roundUpToPowerOf2_spec _).1.2
  · intro p fs ih
    rw [alignment_struct]; exact structLoop_pow2 _ _ ih _ _ ⟨0, rfl⟩
  · intro n e _; rw [alignment_eq_pow2 _ rfl]; exact (roundUpToPowerOf2_spec _).1.2
  · exact ⟨0, by simp [alignment, layout]⟩
  · intro f hf; cases hf
  · intro f fs ih1 ih2 g hg
    rcases List.mem_cons.1 hg with rfl | h
    · exact ih1
    · exact ih2 g h

theorem alignment_pos (t : Ty) : 0 < alignment t := by
  obtain ⟨k, hk⟩ := alignment_pow2 t
  rw [hk]; exact Nat.two_pow_pos k

/-! ### the model computes the specified layout -/

/-- offsets and alignments of the fields, for the proofs -/
def offsets (p : Bool) : List Ty → Nat → List Nat
  | [], _ => []
  | f :: fs, start =>
    let o := roundUpToMultipleOf start (if p then 1 else alignment f)
    o :: offsets p fs (o + allocSize f)

theorem structLoop_lcm (p : Bool) (fs : List Ty) : ∀ total al, 0 < al →
    Least (fun a => 0 < a ∧ al ∣ a ∧ ∀ b ∈ fs.map (fun f => if p then 1 else alignment f), b ∣ a)
      (structLoop p fs total al).2 := by
  induction fs with
  | nil =>
    intro total al h
    simp only [structLoop, List.map_nil]
    exact ⟨⟨h, Nat.dvd_refl _, by simp⟩, fun k hk => Nat.le_of_dvd hk.1 hk.2.1⟩
  | cons f fs ih =>
    intro total al h
    rw [structLoop_cons]
    have hpos : 0 < (if p then 1 else alignment f) := by
      split
      · omega
      · exact alignment_pos f
    obtain ⟨⟨h1, h2, h3⟩, h4⟩ := ih
      (roundUpToMultipleOf total (if p then 1 else alignment f) + allocSize f)
      (Nat.lcm al (if p then 1 else alignment f)) (Nat.lcm_pos h hpos)
    refine ⟨⟨h1, Nat.dvd_trans (Nat.dvd_lcm_left _ _) h2, ?_⟩, ?_⟩
    · intro b hb
      rcases List.mem_cons.1 hb with rfl | hb
      · exact Nat.dvd_trans (Nat.dvd_lcm_right _ _) h2
      · exact h3 b hb
    · rintro k ⟨hk1, hk2, hk3⟩
      exact h4 k ⟨hk1, Nat.lcm_dvd hk2 (hk3 _ (by simp)),
        fun b hb => hk3 b (by simp only [List.map_cons]; exact List.mem_cons_of_mem _ hb)⟩

theorem structLoop_fst_al (p : Bool) (fs : List Ty) : ∀ total al al',
    (structLoop p fs total al).1 = (structLoop p fs total al').1 := by
  induction fs with
  | nil => intros; rfl
  | cons f fs ih => intro total al al'; rw [structLoop_cons, structLoop_cons]; exact ih _ _ _

theorem fieldsLayout_model (p : Bool) (fs : List Ty)
    (h : ∀ f ∈ fs, HasLayout f (storeSize f) (allocSize f) (alignment f)) : ∀ start al,
    FieldsLayout p start fs (offsets p fs start)
      (fs.map (fun f => if p then 1 else alignment f)) (structLoop p fs start al).1 := by
  induction fs with
  | nil => intro start al; exact .nil
  | cons f fs ih =>
    intro start al
    rw [structLoop_cons]
    simp only [offsets, List.map_cons]
    have ih' := ih (fun g hg => h g (List.mem_cons_of_mem _ hg))
    have hf := h f List.mem_cons_self
    cases p
    · exact .aligned hf (roundUpToMultipleOf_spec _ _ (alignment_pos f)) (ih' _ _)
    · simp only [if_true, roundUp_one]
      exact .packed hf (ih' _ _)

theorem hasLayout_model (t : Ty) : HasLayout t (storeSize t) (allocSize t) (alignment t) := by
  refine Ty.rec (motive_1 := fun t => HasLayout t (storeSize t) (allocSize t) (alignment t))
    (motive_2 := fun fs => ∀ f ∈ fs, HasLayout f (storeSize f) (allocSize f) (alignment f))
    ?_ ?_ ?_ ?_ ?_ ?_ ?_ ?_ ?_ t
  · intro n
    refine .bits ?_ ?_ ?_
    · simp only [storeSize, layout]
      exact ⟨by omega, fun k hk => by omega⟩
    · rw [alignment_eq_pow2 _ rfl]; exact roundUpToPowerOf2_spec _
    · rw [allocSize_eq]; exact roundUpToMultipleOf_spec _ _ (alignment_pos _)
  · have : (storeSize .ptr, allocSize .ptr, alignment .ptr) = (8, 8, 8) := by
      simp [storeSize, allocSize, alignment, layout, allocOf, roundUpToPowerOf2,
        roundUpToMultipleOf, log2Floor1]
    simp only [Prod.mk.injEq] at this
    obtain ⟨h1, h2, h3⟩ := this
    rw [h1, h2, h3]; exact .ptr
  · intro n e ih
    rw [alignment_arr, allocSize_eq]
    simp only []
    rw [storeSize_arr]
    exact .arr ih
  · intro k
    cases k <;>
    simp [storeSize, allocSize, alignment, layout, allocOf, roundUpToPowerOf2,
        roundUpToMultipleOf, log2Floor1, fpStoreSize] <;> constructor
  · intro p fs ih
    rw [allocSize_eq, storeSize_struct, alignment_struct]
    refine .struct (fieldsLayout_model p fs ih 0 1) ?_ ?_
    · have h := structLoop_lcm p fs 0 1 (by omega)
      exact ⟨⟨h.1.1, h.1.2.2⟩, fun k hk => h.2 k ⟨hk.1, Nat.one_dvd _, hk.2⟩⟩
    · refine roundUpToMultipleOf_spec _ _ ?_
      have := alignment_pos (.struct p fs)
      rwa [alignment_struct] at this
  · intro n e ih
    rw [storeSize_vec]
    refine .vec ih ?_ ?_
    · rw [alignment_eq_pow2 _ rfl, storeSize_vec]; exact roundUpToPowerOf2_spec _
    · rw [← storeSize_vec, allocSize_eq]; exact roundUpToMultipleOf_spec _ _ (alignment_pos _)
  · have : (storeSize .fn, allocSize .fn, alignment .fn) = (0, 0, 1) := by
      simp [storeSize, allocSize, alignment, layout, allocOf, roundUpToMultipleOf]
    simp only [Prod.mk.injEq] at this
    obtain ⟨h1, h2, h3⟩ := this
    rw [h1, h2, h3]; exact .fn
  · intro f hf; cases hf
  · intro f fs ih1 ih2 g hg
    rcases List.mem_cons.1 hg with rfl | h
    · exact ih1
    · exact ih2 g h

mutual
theorem HasLayout.det {t : Ty} {s c a s' c' a' : Nat} (h : HasLayout t s c a)
    (h' : HasLayout t s' c' a') : s = s' ∧ c = c' ∧ a = a' := by
  cases h with
  | bits h1 h2 h3 =>
    cases h' with
    | bits g1 g2 g3 =>
      obtain rfl := h1.unique g1
      obtain rfl := Least.unique h2 g2
      exact ⟨rfl, Least.unique h3 g3, rfl⟩
  | ptr => cases h'; exact ⟨rfl, rfl, rfl⟩
  | half => cases h'; exact ⟨rfl, rfl, rfl⟩
  | flt => cases h'; exact ⟨rfl, rfl, rfl⟩
  | dbl => cases h'; exact ⟨rfl, rfl, rfl⟩
  | fp128 => cases h'; exact ⟨rfl, rfl, rfl⟩
  | x86fp80 => cases h'; exact ⟨rfl, rfl, rfl⟩
  | fn => cases h'; exact ⟨rfl, rfl, rfl⟩
  | arr h1 =>
    cases h' with
    | arr g1 => obtain ⟨rfl, rfl, rfl⟩ := h1.det g1; exact ⟨rfl, rfl, rfl⟩
  | vec h1 h2 h3 =>
    cases h' with
    | vec g1 g2 g3 =>
      obtain ⟨rfl, rfl, rfl⟩ := h1.det g1
      obtain rfl := Least.unique h2 g2
      exact ⟨rfl, Least.unique h3 g3, rfl⟩
  | struct h1 h2 h3 =>
    cases h' with
    | struct g1 g2 g3 =>
      obtain ⟨rfl, rfl, rfl⟩ := h1.det g1
      obtain rfl := h2.unique g2
      obtain rfl := Least.unique h3 g3
      exact ⟨rfl, rfl, rfl⟩
theorem FieldsLayout.det {p : Bool} {start : Nat} {fs : List Ty} {o a o' a' : List Nat}
    {n n' : Nat} (h : FieldsLayout p start fs o a n) (h' : FieldsLayout p start fs o' a' n') :
    o = o' ∧ a = a' ∧ n = n' := by
  cases h with
  | nil => cases h'; exact ⟨rfl, rfl, rfl⟩
  | packed h1 h2 =>
    cases h' with
    | packed g1 g2 =>
      obtain ⟨rfl, rfl, rfl⟩ := h1.det g1
      obtain ⟨rfl, rfl, rfl⟩ := h2.det g2
      exact ⟨rfl, rfl, rfl⟩
  | aligned h1 h3 h2 =>
    cases h' with
    | aligned g1 g3 g2 =>
      obtain ⟨rfl, rfl, rfl⟩ := h1.det g1
      obtain rfl := Least.unique h3 g3
      obtain ⟨rfl, rfl, rfl⟩ := h2.det g2
      exact ⟨rfl, rfl, rfl⟩
end

/-- **C25 (layout).** The three layout functions compute exactly the layout the LLVM rules
specify: the specification determines the store size, the alloc size and the alignment of every
type, and these are the values computed. -/
theorem C25_layout (t : Ty) (s c a : Nat) :
    HasLayout t s c a ↔ storeSize t = s ∧ allocSize t = c ∧ alignment t = a := by
  constructor
  · intro h; exact (hasLayout_model t).det h
  · rintro ⟨rfl, rfl, rfl⟩; exact hasLayout_model t

/-- a concrete case: `{ i8, i33, [3 x <{ i8, float }>], fp80 }` -/
example : HasLayout
    (.struct false [.bits 8, .bits 33, .arr 3 (.struct true [.bits 8, .fp .flt]), .fp .x86fp80])
    48 48 16 := by
  rw [C25_layout]
  simp [storeSize, allocSize, alignment, layout, allocOf, structLoop, roundUpToPowerOf2,
    roundUpToMultipleOf, log2Floor1, fpStoreSize, Nat.lcm]

/-- **C25 (sizes).** Alignments are powers of two; the alloc size is the store size rounded up
to a multiple of the alignment. -/
theorem C25_sizes (t : Ty) :
    (∃ k, alignment t = 2 ^ k) ∧ NextMultiple (storeSize t) (alignment t) (allocSize t) := by
  refine ⟨alignment_pow2 t, ?_⟩
  have key : ∀ t, alignment t ∣ allocSize t := by
    intro t
    refine Ty.rec (motive_1 := fun t => alignment t ∣ allocSize t)
      (motive_2 := fun _ => True) ?_ ?_ ?_ ?_ ?_ ?_ ?_ ?_ ?_ t
    · intro n; exact (roundUpToMultipleOf_spec _ _ (alignment_pos _)).1.2
    · exact (roundUpToMultipleOf_spec _ _ (alignment_pos _)).1.2
    · intro n e ih
      rw [alignment_arr, allocSize_eq]; simp only [storeSize_arr]
      exact Nat.dvd_trans ih (Nat.dvd_mul_left _ _)
    · intro k; exact (roundUpToMultipleOf_spec _ _ (alignment_pos _)).1.2
    · intro p fs _
      rw [allocSize_eq, alignment_struct]; simp only [storeSize_struct]
      refine (roundUpToMultipleOf_spec _ _ ?_).1.2
      have := alignment_pos (.struct p fs)
      rwa [alignment_struct] at this
    · intro n e _; exact (roundUpToMultipleOf_spec _ _ (alignment_pos _)).1.2
    · rw [allocSize_eq]; exact (roundUpToMultipleOf_spec _ _ (alignment_pos _)).1.2
    · trivial
    · intros; trivial
  have hk := key t
  cases t with
  | struct p fs => exact ⟨⟨Nat.le_refl _, hk⟩, fun k h => h.1⟩
  | arr n e => exact ⟨⟨Nat.le_refl _, hk⟩, fun k h => h.1⟩
  | _ => exact roundUpToMultipleOf_spec _ _ (alignment_pos _)

/-! ### fields -/

theorem fieldOffsetLoop_eq (p : Bool) (k : Nat) (fs : List Ty) : ∀ i start, i ≤ k →
    fieldOffsetLoop p k fs i start = (offsets p fs start)[k - i]? := by
  induction fs with
  | nil => intros; simp [fieldOffsetLoop, offsets]
  | cons f fs ih =>
    intro i start hi
    simp only [fieldOffsetLoop, offsets]
    by_cases h : i = k
    · subst h; simp
    · rw [if_neg h, ih _ _ (by omega)]
      have : k - i = (k - (i + 1)) + 1 := by omega
      rw [this, List.getElem?_cons_succ]

/-- **C25 (field offsets).** `GetFieldOffset` returns the offset at which the specification
places the field, and nothing for an index that names no field. -/
theorem C25_fieldOffset (p : Bool) (fs : List Ty) (offs aligns : List Nat) (fin : Nat)
    (h : FieldsLayout p 0 fs offs aligns fin) (k : Nat) :
    getFieldOffset p fs k = offs[k]? := by
  obtain ⟨rfl, _, _⟩ := h.det (fieldsLayout_model p fs (fun f _ => hasLayout_model f) 0 1)
  exact fieldOffsetLoop_eq p k fs 0 0 (Nat.zero_le _)

theorem FieldsLayout.facts {p : Bool} {start : Nat} {fs : List Ty} {offs aligns : List Nat}
    {fin : Nat} (h : FieldsLayout p start fs offs aligns fin) :
    start ≤ fin ∧ offs.length = fs.length ∧
    (∀ (k : Nat) f o, fs[k]? = some f → offs[k]? = some o →
      start ≤ o ∧ o + allocSize f ≤ fin ∧ (p = false → alignment f ∣ o ∧ alignment f ∈ aligns)) ∧
    (∀ (i j : Nat) f o o', i < j → fs[i]? = some f → offs[i]? = some o → offs[j]? = some o' →
      o + allocSize f ≤ o') := by
  induction fs generalizing start offs aligns with
  | nil =>
    cases h
    exact ⟨Nat.le_refl _, rfl, by simp, by simp⟩
  | cons f fs ih =>
    cases h with
    | packed h1 h2 =>
      obtain ⟨_, hc, _⟩ := (C25_layout _ _ _ _).1 h1
      subst hc
      obtain ⟨i1, i2, i3, i4⟩ := ih h2
      refine ⟨by omega, by simp [i2], ?_, ?_⟩
      · intro k g o hg ho
        cases k with
        | zero => simp at hg ho; subst hg ho; exact ⟨Nat.le_refl _, i1, by simp⟩
        | succ k =>
          simp at hg ho
          obtain ⟨j1, j2, j3⟩ := i3 k g o hg ho
          exact ⟨by omega, j2, by simp⟩
      · intro i j g o o' hij hg ho ho'
        cases j with
        | zero => omega
        | succ j =>
          have hj : j < fs.length := by
            rw [← i2]; exact (List.getElem?_eq_some_iff.1 (by simpa using ho')).1
          cases i with
          | zero =>
            simp at hg ho ho'; subst hg ho
            exact (i3 j fs[j] o' (by simp [hj]) ho').1
          | succ i => simp at hg ho ho'; exact i4 i j g o o' (by omega) hg ho ho'
    | aligned h1 h3 h2 =>
      obtain ⟨_, hc, ha⟩ := (C25_layout _ _ _ _).1 h1
      subst hc ha
      obtain ⟨i1, i2, i3, i4⟩ := ih h2
      have hs := h3.1.1
      have hd := h3.1.2
      refine ⟨by omega, by simp [i2], ?_, ?_⟩
      · intro k g o hg ho
        cases k with
        | zero =>
          simp at hg ho; subst hg ho; exact ⟨hs, i1, fun _ => ⟨hd, by simp⟩⟩
        | succ k =>
          simp at hg ho
          obtain ⟨j1, j2, j3⟩ := i3 k g o hg ho
          exact ⟨by omega, j2, fun hp => ⟨(j3 hp).1, List.mem_cons_of_mem _ (j3 hp).2⟩⟩
      · intro i j g o o' hij hg ho ho'
        cases j with
        | zero => omega
        | succ j =>
          have hj : j < fs.length := by
            rw [← i2]; exact (List.getElem?_eq_some_iff.1 (by simpa using ho')).1
          cases i with
          | zero =>
            simp at hg ho ho'; subst hg ho
            exact (i3 j fs[j] o' (by simp [hj]) ho').1
          | succ i => simp at hg ho ho'; exact i4 i j g o o' (by omega) hg ho ho'

theorem struct_inv {p : Bool} {fs : List Ty} : ∃ offs aligns fin,
    FieldsLayout p 0 fs offs aligns fin ∧
    Least (fun a => 0 < a ∧ ∀ b ∈ aligns, b ∣ a) (alignment (.struct p fs)) ∧
    fin ≤ allocSize (.struct p fs) ∧ allocSize (.struct p fs) = storeSize (.struct p fs) := by
  have h := hasLayout_model (.struct p fs)
  generalize hs : storeSize (.struct p fs) = s at h
  generalize hc : allocSize (.struct p fs) = c at h
  cases h with
  | struct h1 h2 h3 => exact ⟨_, _, _, h1, h2, h3.1.1, rfl⟩

/-- **C25 (fields).** Every field of a structure has an offset; the field lies within the
structure; two different fields do not overlap; in a structure that is not packed the offset is
aligned to the field, and the alignment of the structure is a multiple of that of the field. -/
theorem C25_fields (p : Bool) (fs : List Ty) :
    (∀ k f, fs[k]? = some f → ∃ o, getFieldOffset p fs k = some o ∧
      o + allocSize f ≤ storeSize (.struct p fs) ∧
      (p = false → alignment f ∣ o ∧ alignment f ∣ alignment (.struct p fs))) ∧
    (∀ k, fs.length ≤ k → getFieldOffset p fs k = none) ∧
    (∀ (i j : Nat) f o o', i < j → fs[i]? = some f → getFieldOffset p fs i = some o →
      getFieldOffset p fs j = some o' → o + allocSize f ≤ o') := by
  obtain ⟨offs, aligns, fin, h, hl, hfin, hs⟩ := struct_inv (p := p) (fs := fs)
  obtain ⟨f1, f2, f3, f4⟩ := h.facts
  simp only [C25_fieldOffset p fs offs aligns fin h]
  refine ⟨?_, ?_, ?_⟩
  · intro k f hf
    have hk : k < offs.length := by rw [f2]; exact (List.getElem?_eq_some_iff.1 hf).1
    obtain ⟨g1, g2, g3⟩ := f3 k f offs[k] hf (by simp [hk])
    exact ⟨offs[k], by simp [hk], by omega, fun hp => ⟨(g3 hp).1, hl.1.2 _ (g3 hp).2⟩⟩
  · intro k hk
    exact List.getElem?_eq_none (by omega)
  · intro i j f o o' hij hf ho ho'
    exact f4 i j f o o' hij hf ho ho'

/-- a concrete case: the fields of `{ i8, i33, i8 }` and of `<{ i8, i33, i8 }>` -/
example : (List.range 4).map (getFieldOffset false [.bits 8, .bits 33, .bits 8])
      = [some 0, some 8, some 16, none] ∧
    (List.range 4).map (getFieldOffset true [.bits 8, .bits 33, .bits 8])
      = [some 0, some 1, some 9, none] := by
  constructor <;>
  simp [List.range, List.range.loop, getFieldOffset, fieldOffsetLoop, allocSize, alignment, layout, allocOf,
    roundUpToPowerOf2, roundUpToMultipleOf, log2Floor1]

/-! ### GetElementPtr -/

/-- a signed 64-bit value -/
def I64 (i : Int) : Prop := -2 ^ 63 ≤ i ∧ i < 2 ^ 63

theorem ofInt_toNat {k : Nat} (h : (k : Int) < 2 ^ 63) : (BitVec.ofInt 64 (k : Int)).toNat = k := by
  simp [BitVec.toNat_ofInt]
  omega

theorem ofInt_mul_ofNat (i : Int) (c : Nat) :
    BitVec.ofInt 64 i * BitVec.ofNat 64 c = BitVec.ofInt 64 (i * c) := by
  rw [BitVec.ofInt_mul, BitVec.ofInt_natCast]

theorem intraTypeOffset_reach {root t : Ty} {path : List Int} {off : Int}
    (h : Reach root path off t) (hp : ∀ i ∈ path, I64 i) :
    intraTypeOffset (path.map (BitVec.ofInt 64)) root = .val (BitVec.ofInt 64 off) := by
  induction h with
  | nil => simp [intraTypeOffset]
  | arr h1 h2 ih =>
    obtain ⟨_, rfl, _⟩ := (C25_layout _ _ _ _).1 h1
    simp only [List.map_cons, intraTypeOffset]
    rw [ih (fun i hi => hp i (List.mem_cons_of_mem _ hi))]
    simp only []
    rw [ofInt_mul_ofNat, BitVec.ofInt_add]
  | @field packed fs offs aligns fin f path t k o off h1 h2 h3 h4 ih =>
    simp only [List.map_cons, intraTypeOffset]
    have hk := hp k List.mem_cons_self
    rw [ofInt_toNat hk.2, h2, C25_fieldOffset _ _ _ _ _ h1, h3]
    simp only []
    rw [ih (fun i hi => hp i (List.mem_cons_of_mem _ hi))]
    simp only []
    rw [BitVec.ofInt_add, BitVec.ofInt_natCast]

theorem reach_of_intraTypeOffset (idxs : List (BitVec 64)) : ∀ (root : Ty) (v : BitVec 64),
    intraTypeOffset idxs root = .val v →
    ∃ path off t, path.map (BitVec.ofInt 64) = idxs ∧ Reach root path off t ∧
      v = BitVec.ofInt 64 off := by
  induction idxs with
  | nil =>
    intro root v h
    simp only [intraTypeOffset, Out.val.injEq] at h
    exact ⟨[], 0, root, rfl, .nil, by rw [← h]; rfl⟩
  | cons idx idxs ih =>
    intro root v h
    cases root with
    | arr n e =>
      simp only [intraTypeOffset] at h
      split at h
      · rename_i o ho
        obtain ⟨path, off, t, h1, h2, h3⟩ := ih e o ho
        simp only [Out.val.injEq] at h
        refine ⟨idx.toInt :: path, _, t, by simp [h1], .arr (hasLayout_model e) h2, ?_⟩
        rw [BitVec.ofInt_add, ← ofInt_mul_ofNat, BitVec.ofInt_toInt, ← h3, h]
      · rename_i e' he
        exact absurd h (he v)
    | struct p fs =>
      simp only [intraTypeOffset] at h
      split at h
      · rename_i f o hf ho
        split at h
        · rename_i o' ho'
          obtain ⟨path, off, t, h1, h2, h3⟩ := ih f o' ho'
          simp only [Out.val.injEq] at h
          have hfl := fieldsLayout_model p fs (fun f _ => hasLayout_model f) 0 1
          refine ⟨(idx.toNat : Int) :: path, _, t, by simp [h1],
            .field hfl hf ((C25_fieldOffset _ _ _ _ _ hfl _).symm.trans ho) h2, ?_⟩
          rw [BitVec.ofInt_add, BitVec.ofInt_natCast, ← h3, h]
        · rename_i e' he
          exact absurd h (he v)
      · simp at h
    | _ => simp [intraTypeOffset] at h

/-- **C25 (GetElementPtr offset).** For every pointee type and every list of signed 64-bit
indices that names a sub-object, `getOffsetInBytes` is the offset of the sub-object, plus the
first index times the size of the pointee type (modulo 2^64, the width of an address). -/
theorem C25_gep_offset (root t : Ty) (i : Int) (path : List Int) (off : Int) (s c a : Nat)
    (hroot : HasLayout root s c a) (h : Reach root path off t) (hp : ∀ i ∈ path, I64 i) :
    getOffsetInBytes root ((i :: path).map (BitVec.ofInt 64))
      = .val (BitVec.ofInt 64 (i * c + off)) := by
  obtain ⟨_, rfl, _⟩ := (C25_layout _ _ _ _).1 hroot
  simp only [List.map_cons, getOffsetInBytes]
  rw [intraTypeOffset_reach h hp]
  simp only []
  rw [ofInt_mul_ofNat, BitVec.ofInt_add]

/-- **C25 (GetElementPtr offset, converse).** A returned offset is always the offset of a
sub-object the indices name. -/
theorem C25_gep_offset_only (root : Ty) (idxs : List (BitVec 64)) (v : BitVec 64)
    (h : getOffsetInBytes root idxs = .val v) :
    ∃ (i : Int) (path : List Int) (off : Int) (t : Ty) (s c a : Nat),
      idxs = (i :: path).map (BitVec.ofInt 64) ∧ HasLayout root s c a ∧
      Reach root path off t ∧ v = BitVec.ofInt 64 (i * c + off) := by
  cases idxs with
  | nil => simp [getOffsetInBytes] at h
  | cons idx idxs =>
    simp only [getOffsetInBytes] at h
    split at h
    · rename_i o ho
      obtain ⟨path, off, t, h1, h2, h3⟩ := reach_of_intraTypeOffset _ _ _ ho
      simp only [Out.val.injEq] at h
      refine ⟨idx.toInt, path, off, t, _, _, _, by simp [h1], hasLayout_model root, h2, ?_⟩
      rw [BitVec.ofInt_add, ← ofInt_mul_ofNat, BitVec.ofInt_toInt, ← h3, h]
    · rename_i e' he
      exact absurd h (he v)

/-- **C25 (sub-objects are within bounds).** -/
theorem C25_subobject_within (root t : Ty) (path : List Int) (off : Int) (s c a s' c' a' : Nat)
    (hroot : HasLayout root s c a) (ht : HasLayout t s' c' a') (h : Reach root path off t)
    (hb : InBounds root path) : 0 ≤ off ∧ off + c' ≤ c := by
  rw [← ((C25_layout _ _ _ _).1 hroot).2.1, ← ((C25_layout _ _ _ _).1 ht).2.1]
  clear hroot ht
  induction h with
  | nil => simp
  | @arr n e s c a i path off t h1 h2 ih =>
    obtain ⟨_, rfl, _⟩ := (C25_layout _ _ _ _).1 h1
    simp only [InBounds] at hb
    obtain ⟨b1, b2, b3⟩ := hb
    obtain ⟨g1, g2⟩ := ih b3
    rw [allocSize_eq (.arr n e)]
    simp only [storeSize_arr]
    have h1 : 0 ≤ i * (allocSize e : Int) := Int.mul_nonneg b1 (by omega)
    have h2 : (i + 1) * (allocSize e : Int) ≤ n * allocSize e :=
      Int.mul_le_mul_of_nonneg_right (by omega) (by omega)
    rw [Int.add_mul, Int.one_mul] at h2
    refine ⟨by omega, ?_⟩
    push_cast
    omega
  | @field packed fs offs aligns fin f path t k o off h1 h2 h3 h4 ih =>
    simp only [InBounds] at hb
    obtain ⟨_, f', hf', b⟩ := hb
    simp only [Int.toNat_natCast, h2, Option.some.injEq] at hf'
    subst hf'
    obtain ⟨g1, g2⟩ := ih b
    obtain ⟨offs', aligns', fin', h, hl, hfin, hs⟩ := struct_inv (p := packed) (fs := fs)
    obtain ⟨rfl, rfl, rfl⟩ := h1.det h
    have := (h1.facts.2.2.1 k f o h2 h3).2.1
    omega

/-- **C25 (sub-objects are aligned).** If no packed structure is on the path, the offset and the
alignment of the root are multiples of the alignment of the sub-object. -/
theorem C25_subobject_aligned (root t : Ty) (path : List Int) (off : Int)
    (s c a s' c' a' : Nat)
    (hroot : HasLayout root s c a) (ht : HasLayout t s' c' a') (h : Reach root path off t)
    (hu : Unpacked root path) : (a' : Int) ∣ off ∧ a' ∣ a := by
  rw [← ((C25_layout _ _ _ _).1 hroot).2.2, ← ((C25_layout _ _ _ _).1 ht).2.2]
  clear hroot ht
  induction h with
  | nil => exact ⟨Int.dvd_zero _, Nat.dvd_refl _⟩
  | @arr n e s c a i path off t h1 h2 ih =>
    obtain ⟨_, rfl, _⟩ := (C25_layout _ _ _ _).1 h1
    simp only [Unpacked] at hu
    obtain ⟨g1, g2⟩ := ih hu
    rw [alignment_arr]
    refine ⟨Int.dvd_add (Int.dvd_trans ?_ (Int.dvd_mul_left _ _)) g1, g2⟩
    exact Int.natCast_dvd_natCast.2 (Nat.dvd_trans g2 (C25_sizes e).2.1.2)
  | @field packed fs offs aligns fin f path t k o off h1 h2 h3 h4 ih =>
    simp only [Unpacked] at hu
    obtain ⟨hp, f', hf', b⟩ := hu
    simp only [Int.toNat_natCast, h2, Option.some.injEq] at hf'
    subst hf'
    obtain ⟨g1, g2⟩ := ih b
    obtain ⟨o', ho', _, hal⟩ := (C25_fields packed fs).1 k f h2
    rw [C25_fieldOffset _ _ _ _ _ h1, h3, Option.some.injEq] at ho'
    subst ho'
    obtain ⟨a1, a2⟩ := hal hp
    exact ⟨Int.dvd_add (Int.natCast_dvd_natCast.2 (Nat.dvd_trans g2 a1)) g1, Nat.dvd_trans g2 a2⟩

/-- **C25 (different sub-objects do not overlap).** Two in-bounds paths of which neither is a
prefix of the other name disjoint byte ranges. -/
theorem C25_subobjects_disjoint (root t t' : Ty) (path path' : List Int) (off off' : Int)
    (s c a s' c' a' : Nat)
    (ht : HasLayout t s c a) (ht' : HasLayout t' s' c' a')
    (h : Reach root path off t) (h' : Reach root path' off' t')
    (hb : InBounds root path) (hb' : InBounds root path')
    (hp : ¬ path <+: path') (hp' : ¬ path' <+: path) :
    off + c ≤ off' ∨ off' + c' ≤ off := by
  induction h generalizing path' off' with
  | nil => exact absurd (List.nil_prefix) hp
  | @arr n e s₁ c₁ a₁ i path off t h1 h2 ih =>
    cases h' with
    | nil => exact absurd (List.nil_prefix) hp'
    | @arr _ _ s₂ c₂ a₂ i' path' off' _ h1' h2' =>
      obtain ⟨_, rfl, _⟩ := h1.det h1'
      simp only [InBounds] at hb hb'
      have w := C25_subobject_within _ _ _ _ _ _ _ _ _ _ h1 ht h2 hb.2.2
      have w' := C25_subobject_within _ _ _ _ _ _ _ _ _ _ h1 ht' h2' hb'.2.2
      rcases Int.lt_trichotomy i i' with hlt | heq | hgt
      · left
        have : (i + 1) * (c₁ : Int) ≤ i' * c₁ :=
          Int.mul_le_mul_of_nonneg_right (by omega) (by omega)
        rw [Int.add_mul, Int.one_mul] at this
        omega
      · subst heq
        have := ih path' off' ht h2' hb.2.2 hb'.2.2
          (fun hh => hp (List.cons_prefix_cons.2 ⟨rfl, hh⟩))
          (fun hh => hp' (List.cons_prefix_cons.2 ⟨rfl, hh⟩))
        omega
      · right
        have : (i' + 1) * (c₁ : Int) ≤ i * c₁ :=
          Int.mul_le_mul_of_nonneg_right (by omega) (by omega)
        rw [Int.add_mul, Int.one_mul] at this
        omega
  | @field packed fs offs aligns fin f path t k o off h1 h2 h3 h4 ih =>
    cases h' with
    | nil => exact absurd (List.nil_prefix) hp'
    | @field _ _ offs' aligns' fin' f' path' _ k' o' off' h1' h2' h3' h4' =>
      obtain ⟨rfl, _, _⟩ := h1.det h1'
      simp only [InBounds, Int.toNat_natCast, h2, h2', Option.some.injEq] at hb hb'
      obtain ⟨_, g, rfl, hb⟩ := hb
      obtain ⟨_, g', rfl, hb'⟩ := hb'
      have w := C25_subobject_within _ _ _ _ _ _ _ _ _ _ (hasLayout_model _) ht h4 hb
      have w' := C25_subobject_within _ _ _ _ _ _ _ _ _ _ (hasLayout_model _) ht' h4' hb'
      rcases Nat.lt_trichotomy k k' with hlt | heq | hgt
      · left
        have := h1.facts.2.2.2 k k' _ _ _ hlt h2 h3 h3'
        omega
      · subst heq
        rw [h2] at h2'; rw [h3] at h3'
        obtain rfl := Option.some.inj h2'
        obtain rfl := Option.some.inj h3'
        have := ih path' off' ht h4' hb hb'
          (fun hh => hp (List.cons_prefix_cons.2 ⟨rfl, hh⟩))
          (fun hh => hp' (List.cons_prefix_cons.2 ⟨rfl, hh⟩))
        omega
      · right
        have := h1.facts.2.2.2 k' k _ _ _ hgt h2' h3' h3
        omega

/-- the operands `idxs` of a GetElementPtr denote the path: structure indices are 32-bit
constants; array indices need not be constant -/
def Denotes : Ty → List Int → List Index → Prop
  | .arr _ e, _ :: path, _ :: idxs => Denotes e path idxs
  | .struct _ fs, k :: path, idx :: idxs =>
    idx.nbits = 32 ∧ 0 ≤ k ∧ idx.const = some k.toNat ∧
      ∃ f, fs[k.toNat]? = some f ∧ Denotes f path idxs
  | _, [], [] => True
  | _, _, _ => False

/-- **C25 (indexed type).** `getIndexedType` returns the type of the sub-object the indices
name. -/
theorem C25_indexedType (root t : Ty) (path : List Int) (off : Int) (i : Index)
    (idxs : List Index) (h : Reach root path off t) (hd : Denotes root path idxs) :
    getIndexedType root (i :: idxs) = .val (some t) := by
  simp only [getIndexedType]
  induction h generalizing idxs with
  | @nil t =>
    cases idxs with
    | nil => simp [indexedTypeLoop]
    | cons => cases t <;> simp [Denotes] at hd
  | arr h1 h2 ih =>
    cases idxs with
    | nil => simp [Denotes] at hd
    | cons j idxs =>
      simp only [Denotes] at hd
      simp only [indexedTypeLoop]
      exact ih idxs hd
  | @field packed fs offs aligns fin f path t k o off h1 h2 h3 h4 ih =>
    cases idxs with
    | nil => simp [Denotes] at hd
    | cons j idxs =>
      simp only [Denotes, Int.toNat_natCast, h2, Option.some.injEq] at hd
      obtain ⟨d1, _, d2, g, rfl, d3⟩ := hd
      have hk : k < fs.length := (List.getElem?_eq_some_iff.1 h2).1
      simp only [indexedTypeLoop, d2, d1, h2]
      simp only [ne_eq, not_true_eq_false, if_false, show ¬ k > fs.length from by omega]
      exact ih idxs d3

/-- **C25 (zero indices).** The rewrite of a GetElementPtr with only zero indices to its base
address is right: whatever is reached by zero indices is at offset 0. -/
theorem C25_zero_indices (root t : Ty) (path : List Int) (off : Int)
    (h : Reach root path off t) (hz : ∀ i ∈ path, i = 0) : off = 0 := by
  induction h with
  | nil => rfl
  | arr h1 h2 ih =>
    have e := hz _ List.mem_cons_self
    rw [ih (fun i hi => hz i (List.mem_cons_of_mem _ hi)), e]; simp
  | @field packed fs offs aligns fin f path t k o off h1 h2 h3 h4 ih =>
    have e := hz _ List.mem_cons_self
    rw [ih (fun i hi => hz i (List.mem_cons_of_mem _ hi))]
    have hk : k = 0 := by omega
    subst hk
    cases h1 with
    | nil => simp at h2
    | packed g1 g2 => simp at h3; omega
    | aligned g1 g2 g3 =>
      simp at h3; subst h3
      have := g2.2 0 ⟨Nat.le_refl _, Nat.dvd_zero _⟩
      omega

/-- `normalizeIdempotent` only fires for a list of zero indices, and the offset is then 0. -/
theorem C25_normalizeIdempotent (root : Ty) (idxs : List (Option (BitVec 64)))
    (vals : List (BitVec 64)) (v : BitVec 64) (hv : idxs = vals.map some)
    (hn : normalizeIdempotent idxs = true) (h : getOffsetInBytes root vals = .val v) : v = 0 := by
  subst hv
  have hz : ∀ x ∈ vals, x = 0 := by
    simp only [normalizeIdempotent, List.all_map, List.all_eq_true, Function.comp] at hn
    intro x hx
    simpa using hn x hx
  have key : ∀ (idxs : List (BitVec 64)) (root : Ty) (v : BitVec 64), (∀ x ∈ idxs, x = 0) →
      intraTypeOffset idxs root = .val v → v = 0 := by
    intro idxs
    induction idxs with
    | nil => intro root v _ h; simp only [intraTypeOffset] at h; rw [← Out.val.inj h]
    | cons x xs ih =>
      intro root v hx h
      have hx0 := hx x List.mem_cons_self
      subst hx0
      have ih := fun r v => ih r v (fun y hy => hx y (List.mem_cons_of_mem _ hy))
      cases root with
      | arr n e =>
        simp only [intraTypeOffset] at h
        split at h
        · rename_i o ho
          rw [ih e o ho] at h
          rw [← Out.val.inj h]; simp
        · rename_i e' he; exact absurd h (he v)
      | struct p fs =>
        simp only [intraTypeOffset] at h
        split at h
        · rename_i f o hf ho
          split at h
          · rename_i o' ho'
            rw [ih f o' ho'] at h
            have : o = 0 := by
              cases fs with
              | nil => simp at hf
              | cons g gs =>
                simp [getFieldOffset, fieldOffsetLoop, roundUpToMultipleOf] at ho
                omega
            subst this
            rw [← Out.val.inj h]; simp
          · rename_i e' he; exact absurd h (he v)
        · simp at h
      | _ => simp [intraTypeOffset] at h
  cases vals with
  | nil => simp [getOffsetInBytes] at h
  | cons x xs =>
    have hx0 := hz x List.mem_cons_self
    subst hx0
    simp only [getOffsetInBytes] at h
    split at h
    · rename_i o ho
      rw [key xs root o (fun y hy => hz y (List.mem_cons_of_mem _ hy)) ho] at h
      rw [← Out.val.inj h]; simp
    · rename_i e' he; exact absurd h (he v)

/-! ### where the code leaves the specification -/

/-- Finding 7: the index that is equal to the number of fields passes the range check of
`getIndexedType` (`>` instead of `>=`) and runs into the assertion of `getElementType`, for every
structure. -/
theorem C25_indexedType_off_by_one (p : Bool) (fs : List Ty) (i : Index) :
    getIndexedType (.struct p fs) [i, ⟨32, some fs.length⟩] = .assertion := by
  simp [getIndexedType, indexedTypeLoop]

/-- Finding 18: a path through a vector is accepted by `getIndexedType`, and terminates the
process in `getOffsetInBytes`. -/
theorem C25_vector_terminates (n : Nat) (e : Ty) (i j : Index) (x y : BitVec 64) :
    getIndexedType (.vec n e) [i, j] = .val (some e) ∧
    getOffsetInBytes (.vec n e) [x, y] = .terminate := by
  simp [getIndexedType, indexedTypeLoop, getOffsetInBytes, intraTypeOffset]

/-- a concrete path: `a[2].f1` in `[4 x { i8, i32 }]` -/
example : ∃ off, Reach (.arr 4 (.struct false [.bits 8, .bits 32])) [2, 1] off (.bits 32) ∧
    InBounds (.arr 4 (.struct false [.bits 8, .bits 32])) [2, 1] ∧
    Unpacked (.arr 4 (.struct false [.bits 8, .bits 32])) [2, 1] ∧ off = 20 ∧
    Denotes (.arr 4 (.struct false [.bits 8, .bits 32])) [2, 1] [⟨64, none⟩, ⟨32, some 1⟩] ∧
    getOffsetInBytes (.arr 4 (.struct false [.bits 8, .bits 32])) [0, 2, 1] = .val 20 := by
  have hfl := fieldsLayout_model false [.bits 8, .bits 32] (fun f _ => hasLayout_model f) 0 1
  have e1 : (offsets false [.bits 8, .bits 32] 0) = [0, 4] := by
    simp [offsets, allocSize, alignment, layout, allocOf, roundUpToPowerOf2,
      roundUpToMultipleOf, log2Floor1]
  have e2 : allocSize (.struct false [.bits 8, .bits 32]) = 8 := by
    simp [allocSize, layout, allocOf, structLoop, roundUpToPowerOf2,
      roundUpToMultipleOf, log2Floor1, Nat.lcm]
  rw [e1] at hfl
  refine ⟨_, .arr (hasLayout_model _) (.field (k := 1) (o := 4) hfl rfl rfl .nil), ?_, ?_, ?_, ?_, ?_⟩
  · simp [InBounds]
  · simp [Unpacked]
  · rw [e2]; rfl
  · simp [Denotes]
  · simp [getOffsetInBytes, intraTypeOffset, e2, C25_fieldOffset _ _ _ _ _ hfl]

end Jlm.Llvm.Layout
