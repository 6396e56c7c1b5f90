/-
C38, continued: `normalizeIOBarrierAddress` of loads (jlm/llvm/ir/operators/Load.cpp:366-404) and of
stores (jlm/llvm/ir/operators/Store.cpp:279-312). An I/O barrier keeps an access behind the I/O before
it, because the access may trap. The normalization removes the barrier if the access lies within an
object that is allocated anyway.
-/
namespace Jlm.Mem

/-- conversion of `int64_t` to `size_t` -/
def toSizeT (i : Int) : Nat := (i % 2 ^ 64).toNat

/-- The test `offsetInBytes + GetTypeStoreSize(...) > allocationSizeInBytes`, Load.cpp:385-395,
Store.cpp:298-308; `true` means that the barrier is removed. All numbers are `size_t`; `offset` is the
`int64_t` that `TracePointerOriginPrecise` reports, which always has one. -/
def removeBarrier (offset : Int) (size alloc : Nat) : Bool :=
  !decide ((toSizeT offset + size) % 2 ^ 64 > alloc)

/-- Specification: an access of `size` bytes at `base + offset` touches only the `alloc` bytes at
`base`. -/
def InBounds (offset : Int) (size alloc : Nat) : Prop :=
  ∀ i : Nat, i < size → 0 ≤ offset + i ∧ offset + i < alloc

theorem removeBarrier_iff (offset : Int) (size alloc : Nat) :
    removeBarrier offset size alloc = true ↔ ((offset % 2 ^ 64).toNat + size) % 2 ^ 64 ≤ alloc := by
  unfold removeBarrier toSizeT
  by_cases h : ((offset % 2 ^ 64).toNat + size) % 2 ^ 64 > alloc
  · rw [decide_eq_true h]; simp; omega
  · rw [decide_eq_false h]; simp; omega

/-- **Barriers are removed from accesses within the object**, if the offset is not negative. -/
theorem C38_io_barrier_partial (offset : Int) (size alloc : Nat) (h0 : 0 ≤ offset)
    (ho : offset < 2 ^ 63) (hs : size < 2 ^ 63) (h : removeBarrier offset size alloc = true) :
    InBounds offset size alloc := by
  intro i hi
  obtain ⟨k, rfl⟩ := Int.eq_ofNat_of_zero_le h0
  rw [removeBarrier_iff] at h
  omega

/-- accesses within the object always lose the barrier -/
theorem C38_io_barrier_complete (offset : Int) (size alloc : Nat) (hp : 0 < size)
    (ha : alloc < 2 ^ 63) (h : InBounds offset size alloc) :
    removeBarrier offset size alloc = true := by
  have h1 := h 0 hp
  have h2 := h (size - 1) (by omega)
  obtain ⟨k, rfl⟩ := Int.eq_ofNat_of_zero_le (by omega : 0 ≤ offset)
  rw [removeBarrier_iff]
  omega

/-- **The test of /repo is wrong for negative offsets** that the size of the access makes up for: a
load of four bytes just before an object of four bytes may trap, but loses its barrier. -/
theorem C38_io_barrier_wrong : removeBarrier (-4) 4 4 = true ∧ ¬ InBounds (-4) 4 4 := by
  refine ⟨by decide +kernel, fun h => ?_⟩
  have := h 0 (by omega)
  omega

/-- exactly which negative offsets are let through -/
theorem C38_io_barrier_negative (offset : Int) (size alloc : Nat) (h0 : offset < 0)
    (ho : -2 ^ 63 ≤ offset) (hs : size < 2 ^ 63) (ha : alloc < 2 ^ 63) :
    removeBarrier offset size alloc = true ↔ -offset ≤ size ∧ offset + size ≤ alloc := by
  rw [removeBarrier_iff]
  omega

end Jlm.Mem
