import Verif.Opt.SroaSpec
import Verif.Llvm.LayoutProps

set_option linter.unusedSimpArgs false
set_option linter.unusedVariables false

/-!
# Aggregate alloca splitting: the elements of a struct
-/

namespace Jlm.Opt.Sroa

open Jlm.Llvm.Layout

theorem reach_pathOff {t t' : Ty} {p : List Int} {off : Int} (h : Reach t p off t') : pathOff t p = some off := by
  induction h with
  | nil => simp [pathOff]
  | @arr n e s c a i path off t h1 h2 ih =>
    obtain ⟨_, rfl, _⟩ := (C25_layout _ _ _ _).1 h1
    simp [pathOff, ih]
  | @field packed fs offs aligns fin f path t k o off h1 h2 h3 h4 ih =>
    simp only [pathOff, Int.toNat_natCast, h2, C25_fieldOffset _ _ _ _ _ h1, h3, ih]
    simp

/-- The prefix relation on paths, in both directions. -/
def Apart (a b : List Int × Ty) : Prop := ¬ a.1 <+: b.1 ∧ ¬ b.1 <+: a.1

mutual

theorem leaves_spec : ∀ (t : Ty) (path : List Int) (q : List Int) (t' : Ty), (q, t') ∈ leaves t path →
    ∃ p off, q = path ++ p ∧ Reach t p off t' ∧ InBounds t p
  | .struct pk fs, path, q, t', h => by
    simp only [leaves] at h
    obtain ⟨offs, aligns, fin, hl, -⟩ := struct_inv (p := pk) (fs := fs)
    obtain ⟨j, f, p, off, h1, h2, h3, h4⟩ := leavesF_spec fs path 0 q t' h
    have hj : ∃ o, offs[j]? = some o := by
      obtain ⟨o, ho, _⟩ := (C25_fields pk fs).1 j f h2
      rw [C25_fieldOffset _ _ _ _ _ hl] at ho
      exact ⟨o, ho⟩
    obtain ⟨o, ho⟩ := hj
    refine ⟨(j : Int) :: p, o + off, by simpa using h1, .field hl h2 ho h3, ?_⟩
    simp only [InBounds, Int.toNat_natCast]
    exact ⟨by omega, f, h2, h4⟩
  | .bits n, path, q, t', h => by
    simp only [leaves, List.mem_singleton, Prod.mk.injEq] at h
    obtain ⟨rfl, rfl⟩ := h
    exact ⟨[], 0, by simp, .nil, trivial⟩
  | .ptr, path, q, t', h => by
    simp only [leaves, List.mem_singleton, Prod.mk.injEq] at h
    obtain ⟨rfl, rfl⟩ := h
    exact ⟨[], 0, by simp, .nil, trivial⟩
  | .arr n e, path, q, t', h => by
    simp only [leaves, List.mem_singleton, Prod.mk.injEq] at h
    obtain ⟨rfl, rfl⟩ := h
    exact ⟨[], 0, by simp, .nil, trivial⟩
  | .fp n, path, q, t', h => by
    simp only [leaves, List.mem_singleton, Prod.mk.injEq] at h
    obtain ⟨rfl, rfl⟩ := h
    exact ⟨[], 0, by simp, .nil, trivial⟩
  | .vec n e, path, q, t', h => by
    simp only [leaves, List.mem_singleton, Prod.mk.injEq] at h
    obtain ⟨rfl, rfl⟩ := h
    exact ⟨[], 0, by simp, .nil, trivial⟩
  | .fn, path, q, t', h => by
    simp only [leaves, List.mem_singleton, Prod.mk.injEq] at h
    obtain ⟨rfl, rfl⟩ := h
    exact ⟨[], 0, by simp, .nil, trivial⟩

theorem leavesF_spec : ∀ (fs : List Ty) (path : List Int) (i : Nat) (q : List Int) (t' : Ty), (q, t') ∈ leavesF fs path i →
    ∃ (j : Nat) (f : Ty) (p : List Int) (off : Int), q = path ++ ((i + j : Nat) : Int) :: p ∧ fs[j]? = some f ∧ Reach f p off t' ∧ InBounds f p
  | [], path, i, q, t', h => by simp [leavesF] at h
  | f :: fs, path, i, q, t', h => by
    simp only [leavesF, List.mem_append] at h
    rcases h with h | h
    · obtain ⟨p, off, h1, h2, h3⟩ := leaves_spec f _ q t' h
      exact ⟨0, f, p, off, by simpa using h1, rfl, h2, h3⟩
    · obtain ⟨j, g, p, off, h1, h2, h3, h4⟩ := leavesF_spec fs path (i + 1) q t' h
      refine ⟨j + 1, g, p, off, ?_, by simpa using h2, h3, h4⟩
      rw [h1]
      congr 2
      omega

end

theorem leaf_single {a : List Int × Ty} : List.Pairwise Apart [a] := List.pairwise_singleton _ _

mutual

theorem leaves_apart : ∀ (t : Ty) (path : List Int), (leaves t path).Pairwise Apart
  | .struct pk fs, path => by simpa only [leaves] using leavesF_apart fs path 0
  | .bits n, path => by simpa only [leaves] using leaf_single
  | .ptr, path => by simpa only [leaves] using leaf_single
  | .arr n e, path => by simpa only [leaves] using leaf_single
  | .fp n, path => by simpa only [leaves] using leaf_single
  | .vec n e, path => by simpa only [leaves] using leaf_single
  | .fn, path => by simpa only [leaves] using leaf_single

theorem leavesF_apart : ∀ (fs : List Ty) (path : List Int) (i : Nat), (leavesF fs path i).Pairwise Apart
  | [], path, i => by simp [leavesF]
  | f :: fs, path, i => by
    simp only [leavesF]
    rw [List.pairwise_append]
    refine ⟨leaves_apart f _, leavesF_apart fs path (i + 1), ?_⟩
    rintro ⟨q, t⟩ hq ⟨q', t'⟩ hq'
    obtain ⟨p, off, rfl, -⟩ := leaves_spec f _ q t hq
    obtain ⟨j, g, p', off', rfl, -⟩ := leavesF_spec fs path (i + 1) q' t' hq'
    constructor
    · intro h
      simp only [List.append_assoc, List.prefix_append_right_inj, List.singleton_append, List.cons_prefix_cons] at h
      omega
    · intro h
      simp only [List.append_assoc, List.prefix_append_right_inj, List.singleton_append, List.cons_prefix_cons] at h
      omega

end

/-- The offset of an element. -/
theorem element_off {t : Ty} {i : Nat} {x : List Int × Ty} (h : (elements t)[i]? = some x) :
    ∃ off : Nat, gepOff t x.1 = some (off : Int) ∧ off + allocSize x.2 ≤ allocSize t := by
  obtain ⟨q, t'⟩ := x
  obtain ⟨p, off, rfl, h2, h3⟩ := leaves_spec t [0] q t' (List.mem_of_getElem? h)
  have hw := C25_subobject_within t t' p off _ _ _ _ _ _ (hasLayout_model t) (hasLayout_model t') h2 h3
  refine ⟨off.toNat, ?_, by simp only; omega⟩
  simp only [List.singleton_append, gepOff, reach_pathOff h2, Option.map_some, Int.zero_mul, Int.zero_add, Option.some.injEq]
  omega

/-- Different elements do not overlap. -/
theorem elements_disjoint {t : Ty} {i j : Nat} {x y : List Int × Ty} {a b : Nat} (hi : (elements t)[i]? = some x)
    (hj : (elements t)[j]? = some y) (hne : i ≠ j) (ha : gepOff t x.1 = some (a : Int)) (hb : gepOff t y.1 = some (b : Int)) :
    a + allocSize x.2 ≤ b ∨ b + allocSize y.2 ≤ a := by
  have hap : Apart x y := by
    have hp : (elements t).Pairwise Apart := leaves_apart t [0]
    rw [List.pairwise_iff_getElem] at hp
    obtain ⟨hi', hi⟩ := List.getElem?_eq_some_iff.mp hi
    obtain ⟨hj', hj⟩ := List.getElem?_eq_some_iff.mp hj
    rcases Nat.lt_or_gt_of_ne hne with h | h
    · have := hp i j hi' hj' h
      rw [hi, hj] at this
      exact this
    · have := hp j i hj' hi' h
      rw [hi, hj] at this
      exact ⟨this.2, this.1⟩
  obtain ⟨q, t1⟩ := x
  obtain ⟨q', t2⟩ := y
  obtain ⟨p, off, rfl, h2, h3⟩ := leaves_spec t [0] q t1 (List.mem_of_getElem? hi)
  obtain ⟨p', off', rfl, h2', h3'⟩ := leaves_spec t [0] q' t2 (List.mem_of_getElem? hj)
  have hd := C25_subobjects_disjoint t t1 t2 p p' off off' _ _ _ _ _ _ (hasLayout_model t1) (hasLayout_model t2) h2 h2' h3 h3'
    (fun h => hap.1 (by simpa using h)) (fun h => hap.2 (by simpa using h))
  simp only [List.singleton_append, gepOff, reach_pathOff h2, reach_pathOff h2', Option.map_some, Int.zero_mul, Int.zero_add,
    Option.some.injEq] at ha hb
  simp only
  omega

end Jlm.Opt.Sroa
