import Verif.Util.IHashSpec
import Verif.Util.IListHistory
import Mathlib.Data.List.Forall2
import Mathlib.Data.List.Nodup

/-! # C55: histories of operations on intrusive hash tables -/

set_option linter.unusedSimpArgs false
set_option linter.unusedVariables false

namespace Jlm.Util.IH

open IL (Heap Lst Rep)

variable {α κ : Type} [DecidableEq α]

/-! ## Lists -/

theorem push_spec {p : IL.Pair α} {xs : List α} {x : α} (h : Rep p xs) (hx : x ∉ xs) : Rep (IL.pushBack p x) (xs ++ [x]) ∧
    ∀ z, z ∉ xs → z ≠ x → (IL.pushBack p x).1.next z = p.1.next z ∧ (IL.pushBack p x).1.prev z = p.1.prev z := by
  have he : IL.pushBack p x = IL.link p ([] : List α).head? x x := by
    rw [IL.pushBack_eq_insert]
    · rfl
    · intro y hy hyx
      rw [IL.rep_last h] at hy
      exact hx (hyx ▸ IL.last_mem hy)
    · intro hl
      rw [IL.rep_last h] at hl
      rw [IL.rep_first h]
      simpa using hl
  have h' : Rep p (xs ++ []) := by simpa using h
  have hn : (xs ++ [x] ++ []).Nodup := by
    rw [List.append_nil, List.nodup_append]
    refine ⟨h.1, by simp, fun a ha b hb hab => ?_⟩
    simp only [List.mem_singleton] at hb
    exact hx (by rw [← hb, ← hab]; exact ha)
  rw [he]
  constructor
  · have := IL.link_spec (y := x) (m := []) h' rfl trivial hn
    simpa using this
  · intro z hz hzx
    exact IL.link_frame h' hz (by simp) hzx hzx

theorem erase_spec {p : IL.Pair α} {a b : List α} {x : α} (h : Rep p (a ++ x :: b)) : Rep (IL.erase p x) (a ++ b) ∧
    ∀ z, z ∉ a ++ x :: b → (IL.erase p x).1.next z = p.1.next z ∧ (IL.erase p x).1.prev z = p.1.prev z := by
  have h' : Rep p (a ++ [x] ++ b) := by simpa using h
  have hnx : p.1.next x = b.head? := ((IL.ring_mid a x [] b).1 h'.2).2.2.2.2.1
  rw [IL.erase_eq_unlink, hnx]
  refine ⟨(IL.unlink_spec h').1, fun z hz => IL.unlink_frame h' ?_ ?_⟩
  · intro hc; exact hz (by simp [hc])
  · intro hc; exact hz (by simp [hc])

/-- Following the successors gives the list. -/
def Chain (h : Heap α) : Option α → List α → Prop
  | o, [] => o = none
  | o, x :: xs => o = some x ∧ Chain h (h.next x) xs

theorem Chain.congr {h h' : Heap α} : ∀ {xs : List α} {o : Option α}, (∀ x ∈ xs, h'.next x = h.next x) → Chain h o xs → Chain h' o xs
  | [], _, _, hc => hc
  | x :: xs, _, hh, hc => ⟨hc.1, by
      rw [hh x (by simp)]
      exact Chain.congr (fun y hy => hh y (by simp [hy])) hc.2⟩

theorem chain_path {p : IL.Pair α} : ∀ (xs : List α), IL.Path (IL.nx p) (IL.pv p) (xs.map some ++ [none]) → Chain p.1 xs.head? xs
  | [], _ => rfl
  | [x], h => ⟨rfl, h.1⟩
  | x :: y :: xs, h => ⟨rfl, by
      have h1 : p.1.next x = some y := h.1
      rw [h1]
      exact chain_path (y :: xs) h.2.2⟩

theorem rep_chain {p : IL.Pair α} {xs : List α} (h : Rep p xs) : Chain p.1 p.2.first xs := by
  rw [IL.rep_first h]
  exact chain_path xs ((IL.ring_append [] xs).1 h.2).2.2.2

theorem rep_nil (h : Heap α) : Rep (h, Lst.nil) [] := by simp [Rep, IL.ring, IL.Path, IL.nx, IL.pv, Lst.nil]

/-! ## Buckets -/

/-- The elements of a bucket. -/
abbrev part (K : Keys α κ) (mask : Nat) (xs : List α) (i : Nat) : List α := xs.filter (fun x => K.idx mask x == i)

/-- The buckets contain the elements. -/
structure BRep (K : Keys α κ) (p : Bs α) (mask : Nat) (xs : List α) : Prop where
  rep : ∀ (i : Nat) (b : Lst α), p.2[i]? = some b → Rep (p.1, b) (part K mask xs i)

theorem idx_mem {K : Keys α κ} {mask : Nat} {xs : List α} {i : Nat} {x : α} : x ∈ part K mask xs i ↔ x ∈ xs ∧ K.idx mask x = i := by
  simp [part, List.mem_filter]

theorem insertInto_spec {K : Keys α κ} {p : Bs α} {mask : Nat} {xs : List α} {x : α} (h : BRep K p mask xs) (hx : x ∉ xs)
    (hl : K.idx mask x < p.2.length) : ∃ q, insertInto K p mask x = some q ∧ BRep K q mask (xs ++ [x]) ∧ q.2.length = p.2.length ∧
      ∀ z, z ∉ xs → z ≠ x → q.1.next z = p.1.next z ∧ q.1.prev z = p.1.prev z := by
  obtain ⟨b, hb⟩ : ∃ b, p.2[K.idx mask x]? = some b := ⟨_, List.getElem?_eq_getElem hl⟩
  have hr := h.rep _ b hb
  obtain ⟨h1, h2⟩ := push_spec hr (x := x) (fun hm => hx (idx_mem.mp hm).1)
  refine ⟨((IL.pushBack (p.1, b) x).1, p.2.set (K.idx mask x) (IL.pushBack (p.1, b) x).2), by simp only [insertInto, hb], ⟨fun i b' hb' => ?_⟩, by simp, fun z hz hzx => h2 z (fun hm => hz (idx_mem.mp hm).1) hzx⟩
  simp only [List.getElem?_set] at hb'
  by_cases hi : K.idx mask x = i
  · rw [if_pos hi, if_pos (by omega)] at hb'
    injection hb' with hb'
    subst hb'
    have : part K mask (xs ++ [x]) i = part K mask xs (K.idx mask x) ++ [x] := by
      simp only [part, List.filter_append, hi]
      simp [hi]
    rw [this]
    exact h1
  · rw [if_neg hi] at hb'
    have : part K mask (xs ++ [x]) i = part K mask xs i := by
      simp only [part, List.filter_append]
      simp [hi]
    rw [this]
    refine IL.rep_frame (fun z hz => ?_) (h.rep i b' hb')
    have hz := idx_mem.mp hz
    exact h2 z (fun hm => hi (by rw [← (idx_mem.mp hm).2, hz.2])) (fun hzx => hx (hzx ▸ hz.1))

theorem moveBucket_spec {K : Keys α κ} {mask : Nat} : ∀ (xs : List α) (n : Nat) (p : Bs α) (dn : List α) (o : Option α), BRep K p mask dn →
    (∀ x, K.idx mask x < p.2.length) → Chain p.1 o xs → (dn ++ xs).Nodup → xs.length ≤ n →
    ∃ q, moveBucket K mask n p o = some q ∧ BRep K q mask (dn ++ xs) ∧ q.2.length = p.2.length ∧
      ∀ z, z ∉ dn → z ∉ xs → q.1.next z = p.1.next z ∧ q.1.prev z = p.1.prev z
  | [], n, p, dn, o, h, hl, hc, hn, hx => by
    have : o = none := hc
    subst this
    exact ⟨p, by cases n <;> rfl, by simpa using h, rfl, fun _ _ _ => ⟨rfl, rfl⟩⟩
  | x :: xs, 0, p, dn, o, h, hl, hc, hn, hx => by simp at hx
  | x :: xs, n + 1, p, dn, o, h, hl, hc, hn, hx => by
    obtain ⟨rfl, hc⟩ := hc
    have hn' : (dn ++ [x] ++ xs).Nodup := by simpa using hn
    have hxd : x ∉ dn := fun hm => (List.nodup_append.mp hn).2.2 x hm x (by simp) rfl
    obtain ⟨q, h1, h2, h3, h4⟩ := insertInto_spec h hxd (hl x)
    have hc' : Chain q.1 (p.1.next x) xs := by
      refine Chain.congr (fun z hz => (h4 z ?_ ?_).1) hc
      · exact fun hm => (List.nodup_append.mp hn).2.2 z hm z (by simp [hz]) rfl
      · rintro rfl
        exact (List.nodup_cons.mp (List.nodup_append.mp hn).2.1).1 hz
    obtain ⟨r, h5, h6, h7, h8⟩ := moveBucket_spec xs n q (dn ++ [x]) _ h2 (fun y => by rw [h3]; exact hl y) hc' hn'
      (by simp at hx; omega)
    refine ⟨r, by simp only [moveBucket, h1]; exact h5, by simpa using h6, by omega, fun z hz hzx => ?_⟩
    simp only [List.mem_cons, not_or] at hzx
    obtain ⟨a1, a2⟩ := h4 z hz hzx.1
    obtain ⟨b1, b2⟩ := h8 z (by simp [hz, hzx.1]) hzx.2
    exact ⟨b1.trans a1, b2.trans a2⟩

theorem moveAll_spec {K : Keys α κ} {mask n : Nat} : ∀ (xss : List (List α)) (bs : List (Lst α)) (p : Bs α) (dn : List α), BRep K p mask dn →
    (∀ x, K.idx mask x < p.2.length) → List.Forall₂ (fun xs b => Chain p.1 b.first xs) xss bs → (dn ++ xss.flatten).Nodup →
    (∀ xs ∈ xss, xs.length ≤ n) →
    ∃ q, moveAll K mask n bs p = some q ∧ BRep K q mask (dn ++ xss.flatten) ∧ q.2.length = p.2.length ∧
      ∀ z, z ∉ dn → z ∉ xss.flatten → q.1.next z = p.1.next z ∧ q.1.prev z = p.1.prev z
  | [], bs, p, dn, h, hl, hc, hn, hx => by
    cases hc
    exact ⟨p, rfl, by simpa using h, rfl, fun _ _ _ => ⟨rfl, rfl⟩⟩
  | xs :: xss, bs, p, dn, h, hl, hc, hn, hx => by
    cases hc with
    | @cons _ b _ bs hb hbs =>
    have hn' : (dn ++ xs ++ xss.flatten).Nodup := by simpa using hn
    obtain ⟨q, h1, h2, h3, h4⟩ := moveBucket_spec xs n p dn _ h hl hb (List.nodup_append.mp hn').1 (hx xs (by simp))
    have hc' : List.Forall₂ (fun xs b => Chain q.1 b.first xs) xss bs := by
      have hz : ∀ ys ∈ xss, ∀ z ∈ ys, q.1.next z = p.1.next z := by
        intro ys hys z hz
        have hzf : z ∈ xss.flatten := List.mem_flatten.mpr ⟨ys, hys, hz⟩
        refine (h4 z ?_ ?_).1
        · exact fun hm => (List.nodup_append.mp hn').2.2 z (by simp [hm]) z hzf rfl
        · exact fun hm => (List.nodup_append.mp hn').2.2 z (by simp [hm]) z hzf rfl
      clear hx hn hn' h2 h4
      induction hbs with
      | nil => exact .nil
      | @cons ys b' yss bs' hy _ ih =>
        exact .cons (Chain.congr (hz ys (by simp)) hy) (ih fun zs hzs => hz zs (by simp [hzs]))
    obtain ⟨r, h5, h6, h7, h8⟩ := moveAll_spec xss bs q (dn ++ xs) h2 (fun y => by rw [h3]; exact hl y) hc' hn'
      (fun ys hys => hx ys (by simp [hys]))
    refine ⟨r, by simp only [moveAll, h1]; exact h5, by simpa using h6, by omega, fun z hz hzx => ?_⟩
    simp only [List.flatten_cons, List.mem_append, not_or] at hzx
    obtain ⟨a1, a2⟩ := h4 z hz hzx.1
    obtain ⟨b1, b2⟩ := h8 z (by simp [hz, hzx.1]) hzx.2
    exact ⟨b1.trans a1, b2.trans a2⟩

/-! ## Tables -/

/-- The number of buckets is a power of two. -/
def Shape (t : Table α) : Prop := (t.buckets = [] ∧ t.mask = 0) ∨ ∃ e, t.buckets.length = 2 ^ e ∧ t.mask = 2 ^ e - 1

/-- The table contains the elements. -/
structure TRep (K : Keys α κ) (h : Heap α) (t : Table α) (xs : List α) : Prop where
  shape : Shape t
  size : t.size = xs.length
  nodup : xs.Nodup
  some : xs ≠ [] → t.buckets ≠ []
  rep : BRep K (h, t.buckets) t.mask xs

theorem and_lt {e n : Nat} : n &&& (2 ^ e - 1) < 2 ^ e := by
  rw [Nat.and_two_pow_sub_one_eq_mod]
  exact Nat.mod_lt _ (Nat.two_pow_pos e)

theorem Shape.lt {t : Table α} (h : Shape t) (hb : t.buckets ≠ []) (n : Nat) : n &&& t.mask < t.buckets.length := by
  rcases h with h | ⟨e, h1, h2⟩
  · exact absurd h.1 hb
  · rw [h1, h2]; exact and_lt

/-- The contents of the buckets. -/
def parts (K : Keys α κ) (t : Table α) (xs : List α) : List (List α) := (List.range t.buckets.length).map (part K t.mask xs)

theorem flatMap_single {β : Type} {f : Nat → List β} {j : Nat} : ∀ n, j < n → (∀ i, i < n → i ≠ j → f i = []) → (List.range n).flatMap f = f j
  | 0, h, _ => by omega
  | n + 1, h, hf => by
    rw [List.range_succ, List.flatMap_append]
    by_cases hj : j = n
    · have : (List.range n).flatMap f = [] := by
        rw [List.flatMap_eq_nil_iff]
        intro i hi
        exact hf i (by have := List.mem_range.mp hi; omega) (by have := List.mem_range.mp hi; omega)
      rw [this, hj]
      simp
    · rw [flatMap_single n (by omega) fun i hi hij => hf i (by omega) hij]
      simp [hf n (by omega) fun h => hj h.symm]

theorem parts_flatten (K : Keys α κ) (t : Table α) (xs : List α) : (parts K t xs).flatten = (List.range t.buckets.length).flatMap (part K t.mask xs) := by
  simp [parts, List.flatMap]

theorem parts_mem {K : Keys α κ} {t : Table α} {xs : List α} (hs : Shape t) (hb : xs ≠ [] → t.buckets ≠ []) {x : α} :
    x ∈ (parts K t xs).flatten ↔ x ∈ xs := by
  rw [parts_flatten, List.mem_flatMap]
  constructor
  · rintro ⟨i, -, hx⟩
    exact (idx_mem.mp hx).1
  · intro hx
    exact ⟨K.idx t.mask x, List.mem_range.mpr (hs.lt (hb (fun h => by rw [h] at hx; simp at hx)) _), idx_mem.mpr ⟨hx, rfl⟩⟩

theorem parts_nodup {K : Keys α κ} {t : Table α} {xs : List α} (hn : xs.Nodup) : (parts K t xs).flatten.Nodup := by
  rw [parts_flatten, List.nodup_flatMap]
  refine ⟨fun i _ => hn.filter _, ?_⟩
  refine List.Nodup.pairwise_of_forall_ne List.nodup_range fun i _ j _ hij => ?_
  intro x hx hy
  exact hij ((idx_mem.mp hx).2.symm.trans (idx_mem.mp hy).2)

theorem parts_perm {K : Keys α κ} {t : Table α} {xs : List α} (hs : Shape t) (hb : xs ≠ [] → t.buckets ≠ []) (hn : xs.Nodup) :
    (parts K t xs).flatten.Perm xs := by
  rw [List.perm_ext_iff_of_nodup (parts_nodup hn) hn]
  exact fun x => parts_mem hs hb

/-- Every element is in the same bucket as before, or in the new one that has been split from it, in the same order. -/
theorem parts_part {K : Keys α κ} {t : Table α} {xs : List α} {e : Nat} (hl : t.buckets.length = 2 ^ e) (hm : t.mask = 2 ^ e - 1) (j : Nat) :
    part K (2 ^ (e + 1) - 1) (parts K t xs).flatten j = part K (2 ^ (e + 1) - 1) xs j := by
  rw [parts_flatten]
  simp only [part, List.filter_flatMap]
  have hidx : ∀ x : α, K.idx (2 ^ (e + 1) - 1) x = j → K.idx t.mask x = j % 2 ^ e := by
    intro x hx
    simp only [Keys.idx, hm, Nat.and_two_pow_sub_one_eq_mod] at hx ⊢
    rw [← hx, Nat.mod_mod_of_dvd _ (Nat.pow_dvd_pow 2 (by omega))]
  rw [flatMap_single (j := j % 2 ^ e) _ (by rw [hl]; exact Nat.mod_lt _ (Nat.two_pow_pos e))]
  · rw [List.filter_filter]
    apply List.filter_congr
    intro x _
    by_cases hx : K.idx (2 ^ (e + 1) - 1) x = j
    · simp [hx, hidx x hx]
    · simp [hx]
  · intro i _ hij
    rw [List.filter_filter, List.filter_eq_nil_iff]
    intro x _ hx
    simp only [Bool.and_eq_true, beq_iff_eq] at hx
    exact hij (by rw [← hx.2, hidx x hx.1])

theorem forall₂_parts {K : Keys α κ} {h : Heap α} {t : Table α} {xs : List α} (hr : BRep K (h, t.buckets) t.mask xs) :
    List.Forall₂ (fun ys b => Rep (h, b) ys) (parts K t xs) t.buckets := by
  rw [List.forall₂_iff_get]
  refine ⟨by simp [parts], fun i hi hj => ?_⟩
  have : (parts K t xs).get ⟨i, hi⟩ = part K t.mask xs i := by simp [parts]
  rw [this]
  exact hr.rep i _ (by simp)

/-- Before `insert` puts the new element into its bucket: the size is already larger. -/
theorem rehash_spec {K : Keys α κ} {h : Heap α} {t : Table α} {xs : List α} (ht : TRep K h t xs) {m : Nat} (hm : t.size ≤ m) :
    ∃ h' t', rehash K h { t with size := m } = some (h', t') ∧ Shape t' ∧ t'.buckets ≠ [] ∧ t'.size = m ∧ BRep K (h', t'.buckets) t'.mask xs ∧
      ∀ z, z ∉ xs → h'.next z = h.next z ∧ h'.prev z = h.prev z := by
  have hlen : ∃ e, max 1 (t.buckets.length * 2) = 2 ^ e ∧ ∀ j, part K (2 ^ e - 1) (parts K t xs).flatten j = part K (2 ^ e - 1) xs j := by
    rcases ht.shape with ⟨h1, h2⟩ | ⟨e, h1, h2⟩
    · refine ⟨0, by simp [h1], fun j => ?_⟩
      have hx : xs = [] := by
        by_cases hx : xs = []
        · exact hx
        · exact absurd h1 (ht.some hx)
      subst hx
      simp [parts, h1, part]
    · refine ⟨e + 1, ?_, parts_part h1 h2⟩
      have := Nat.two_pow_pos e
      rw [h1, Nat.pow_succ]
      omega
  obtain ⟨e, he, hp⟩ := hlen
  have h0 : BRep K (h, List.replicate (2 ^ e) (Lst.nil : Lst α)) (2 ^ e - 1) [] := by
    refine ⟨fun i b hb => ?_⟩
    obtain ⟨-, rfl⟩ := List.mem_replicate.mp (List.mem_of_getElem? hb)
    exact rep_nil h
  have hf := forall₂_parts ht.rep
  obtain ⟨q, h1, h2, h3, h4⟩ := moveAll_spec (n := m) (parts K t xs) t.buckets (h, List.replicate (2 ^ e) Lst.nil) [] h0
    (fun x => by
      rw [List.length_replicate]
      exact and_lt) (hf.imp fun ys b hr => rep_chain hr) (by simpa using parts_nodup ht.nodup) (by
      intro ys hys
      simp only [parts, List.mem_map, List.mem_range] at hys
      obtain ⟨i, -, rfl⟩ := hys
      have : (part K t.mask xs i).length ≤ xs.length := List.length_filter_le _ _
      have := ht.size
      omega)
  refine ⟨q.1, ⟨m, 2 ^ e - 1, q.2⟩, ?_, .inr ⟨e, by simpa using h3, rfl⟩, ?_, rfl, ⟨fun i b hb => ?_⟩, fun z hz => ?_⟩
  · simp only [rehash, he, h1]
  · intro hn
    simp only at hn
    have := Nat.two_pow_pos e
    simp [hn] at h3
    omega
  · have := h2.rep i b hb
    rw [List.nil_append, hp] at this
    exact this
  · exact h4 z (by simp) fun hm => hz ((parts_mem ht.shape ht.some).mp hm)

theorem insert_spec {K : Keys α κ} {h : Heap α} {t : Table α} {xs : List α} {x : α} (ht : TRep K h t xs) (hx : x ∉ xs) :
    ∃ h' t', insert K h t x = some (h', t') ∧ TRep K h' t' (xs ++ [x]) ∧
      ∀ z, z ∉ xs → z ≠ x → h'.next z = h.next z ∧ h'.prev z = h.prev z := by
  have hstep : ∃ h1 t1, (if t.size + 1 > t.buckets.length then rehash K h { t with size := t.size + 1 }
        else some (h, { t with size := t.size + 1 })) = some (h1, t1) ∧ Shape t1 ∧ t1.buckets ≠ [] ∧ t1.size = t.size + 1 ∧
        BRep K (h1, t1.buckets) t1.mask xs ∧ ∀ z, z ∉ xs → h1.next z = h.next z ∧ h1.prev z = h.prev z := by
    by_cases hc : t.size + 1 > t.buckets.length
    · rw [if_pos hc]
      exact rehash_spec ht (by omega)
    · rw [if_neg hc]
      refine ⟨h, _, rfl, ht.shape, ?_, rfl, ht.rep, fun _ _ => ⟨rfl, rfl⟩⟩
      intro hb
      simp only at hb
      rw [hb] at hc
      simp at hc
  obtain ⟨h1, t1, e1, e2, e3, e4, e5, e6⟩ := hstep
  obtain ⟨q, a1, a2, a3, a4⟩ := insertInto_spec e5 hx (e2.lt e3 _)
  have a3' : q.2.length = t1.buckets.length := a3
  refine ⟨q.1, { t1 with buckets := q.2 }, ?_, ⟨?_, ?_, ?_, ?_, ?_⟩, fun z hz hzx => ?_⟩
  · simp only [insert, e1, a1]
  · rcases e2 with h | ⟨e, h, h'⟩
    · exact absurd h.1 e3
    · exact .inr ⟨e, by simpa [a3'] using h, h'⟩
  · simp [e4, ht.size]
  · rw [List.nodup_append]
    refine ⟨ht.nodup, by simp, fun a ha b hb hab => ?_⟩
    simp only [List.mem_singleton] at hb
    exact hx (by rw [← hb, ← hab]; exact ha)
  · intro _ hb
    simp only at hb
    rw [hb] at a3'
    exact e3 (List.length_eq_zero_iff.mp a3'.symm)
  · exact a2
  · obtain ⟨b1, b2⟩ := a4 z hz hzx
    obtain ⟨c1, c2⟩ := e6 z hz
    exact ⟨b1.trans c1, b2.trans c2⟩

theorem eraseTab_spec {K : Keys α κ} {h : Heap α} {t : Table α} {a b : List α} {x : α} (ht : TRep K h t (a ++ x :: b)) :
    ∃ h' t', erase K h t x = some (h', t') ∧ TRep K h' t' (a ++ b) ∧ t'.buckets.length = t.buckets.length ∧ t'.mask = t.mask ∧
      ∀ z, z ∉ a ++ x :: b → h'.next z = h.next z ∧ h'.prev z = h.prev z := by
  have hlt : K.idx t.mask x < t.buckets.length := ht.shape.lt (ht.some (by simp)) (K.hash (K.key x))
  obtain ⟨bk, hb⟩ : ∃ b, t.buckets[K.idx t.mask x]? = some b := ⟨_, List.getElem?_eq_getElem hlt⟩
  have hr := ht.rep.rep _ bk hb
  have hp : part K t.mask (a ++ x :: b) (K.idx t.mask x) = part K t.mask a (K.idx t.mask x) ++ x :: part K t.mask b (K.idx t.mask x) := by
    simp [part, List.filter_append]
  rw [hp] at hr
  obtain ⟨h1, h2⟩ := erase_spec hr
  refine ⟨(IL.erase (h, bk) x).1, ⟨t.size - 1, t.mask, t.buckets.set (K.idx t.mask x) (IL.erase (h, bk) x).2⟩, by simp only [erase, hb], ⟨?_, ?_, ?_, ?_, ⟨fun i b' hb' => ?_⟩⟩, by simp, rfl, fun z hz => h2 z fun hm => ?_⟩
  · rcases ht.shape with h | ⟨e, h, h'⟩
    · exact absurd h.1 (ht.some (by simp))
    · exact .inr ⟨e, by simpa using h, h'⟩
  · have := ht.size
    simp only [List.length_append, List.length_cons] at this ⊢
    omega
  · exact ht.nodup.sublist (List.Sublist.append (List.Sublist.refl a) (List.sublist_cons_self x b))
  · intro _
    simpa using ht.some (by simp)
  · simp only [List.getElem?_set] at hb'
    by_cases hi : K.idx t.mask x = i
    · rw [if_pos hi, if_pos (by omega)] at hb'
      injection hb' with hb'
      subst hb'
      subst hi
      simpa [part, List.filter_append] using h1
    · rw [if_neg hi] at hb'
      have hr' := ht.rep.rep i b' hb'
      have hp' : part K t.mask (a ++ x :: b) i = part K t.mask (a ++ b) i := by
        simp [part, List.filter_append, hi]
      rw [hp'] at hr'
      refine IL.rep_frame (fun z hz => h2 z fun hm => ?_) hr'
      rw [← hp] at hm
      exact hi (by rw [← (idx_mem.mp hz).2, (idx_mem.mp hm).2])
  · rw [← hp] at hm
    exact hz (idx_mem.mp hm).1

theorem chain_spec {K : Keys α κ} {h : Heap α} {k : κ} : ∀ (xs : List α) (n : Nat) (o : Option α), Chain h o xs → xs.length ≤ n →
    chain K h k n o = some (xs.find? fun x => K.eq k (K.key x))
  | [], n, o, hc, _ => by
    have : o = none := hc
    subst this
    cases n <;> rfl
  | x :: xs, 0, o, hc, hn => by simp at hn
  | x :: xs, n + 1, o, hc, hn => by
    obtain ⟨rfl, hc⟩ := hc
    simp only [chain, List.find?_cons]
    by_cases he : K.eq k (K.key x) = true
    · rw [if_pos he, he]
    · rw [if_neg he, chain_spec xs n _ hc (by simp at hn; omega)]
      simp only [Bool.not_eq_true] at he
      rw [he]

theorem lookup_spec {K : Keys α κ} (hK : ∀ a b, K.eq a b = true → K.hash a = K.hash b) {h : Heap α} {t : Table α} {xs : List α}
    (ht : TRep K h t xs) (k : κ) : lookup K h t k = some (xs.find? fun x => K.eq k (K.key x)) := by
  simp only [lookup]
  by_cases hs : t.size = 0
  · rw [if_pos hs]
    have : xs = [] := List.length_eq_zero_iff.mp (by rw [← ht.size]; exact hs)
    rw [this]
    rfl
  · rw [if_neg hs]
    have hne : xs ≠ [] := fun hx => hs (by rw [ht.size, hx]; rfl)
    have hlt := ht.shape.lt (ht.some hne) (K.hash k)
    obtain ⟨bk, hb⟩ : ∃ b, t.buckets[K.hash k &&& t.mask]? = some b := ⟨_, List.getElem?_eq_getElem hlt⟩
    rw [hb]
    have hr := ht.rep.rep _ bk hb
    simp only
    rw [chain_spec _ _ _ (rep_chain hr) (by
      have := List.length_filter_le (fun x => K.idx t.mask x == K.hash k &&& t.mask) xs
      have := ht.size
      simp only [part]
      omega)]
    rw [part, List.find?_filter]
    congr 2
    funext x
    by_cases he : K.eq k (K.key x) = true
    · simp [he, Keys.idx, hK _ _ he]
    · simp [he]

/-! ## Iteration -/

theorem findSome_parts {h : Heap α} : ∀ {yss : List (List α)} {bs : List (Lst α)}, List.Forall₂ (fun ys b => Rep (h, b) ys) yss bs →
    bs.findSome? (·.first) = yss.flatten.head?
  | [], [], _ => rfl
  | ys :: yss, b :: bs, .cons hr hrs => by
    have h1 : b.first = ys.head? := IL.rep_first hr
    simp only [List.findSome?_cons, h1, List.flatten_cons]
    cases ys with
    | nil => simpa using findSome_parts hrs
    | cons y ys => rfl

theorem flat_cases : ∀ (yss : List (List α)), yss.flatten = [] ∨
    ∃ (j : Nat) (y : α) (b : List α), yss[j]? = some (y :: b) ∧ yss.flatten = y :: b ++ (yss.drop (j + 1)).flatten
  | [] => .inl rfl
  | (y :: b) :: yss => .inr ⟨0, y, b, rfl, by simp⟩
  | [] :: yss => by
    rcases flat_cases yss with h | ⟨j, y, b, h1, h2⟩
    · exact .inl (by simpa using h)
    · exact .inr ⟨j + 1, y, b, by simpa using h1, by simpa using h2⟩

theorem forall₂_drop {β γ : Type} {R : β → γ → Prop} : ∀ (n : Nat) {xs : List β} {ys : List γ}, List.Forall₂ R xs ys →
    List.Forall₂ R (xs.drop n) (ys.drop n)
  | 0, _, _, h => by simpa using h
  | n + 1, _, _, .nil => by simp
  | n + 1, _, _, .cons _ h => by simpa using forall₂_drop n h

theorem next_spec {K : Keys α κ} {h : Heap α} {t : Table α} {xs : List α} (ht : TRep K h t xs) {i : Nat} {a b : List α} {x : α}
    (hi : (parts K t xs)[i]? = some (a ++ x :: b)) : next K h t x = (b ++ ((parts K t xs).drop (i + 1)).flatten).head? := by
  have hf := forall₂_parts ht.rep
  have hil : i < t.buckets.length := by
    have := (List.getElem?_eq_some_iff.mp hi).1
    simpa [parts] using this
  have hpi : part K t.mask xs i = a ++ x :: b := by
    simp only [parts, List.getElem?_map, List.getElem?_range hil, Option.map_some, Option.some.injEq] at hi
    exact hi
  have hx : K.idx t.mask x = i := (idx_mem.mp (by rw [hpi]; simp : x ∈ part K t.mask xs i)).2
  have hr := ht.rep.rep i _ (List.getElem?_eq_getElem hil)
  rw [hpi] at hr
  have hr' : Rep (h, t.buckets[i]) (a ++ [x] ++ b) := by simpa using hr
  have hnx : h.next x = b.head? := ((IL.ring_mid a x [] b).1 hr'.2).2.2.2.2.1
  simp only [next, hnx, hx]
  cases b with
  | nil => simpa using findSome_parts (forall₂_drop (i + 1) hf)
  | cons y b => rfl

theorem walk_spec {K : Keys α κ} {h : Heap α} {t : Table α} {xs : List α} (ht : TRep K h t xs) : ∀ (n i : Nat) (a : List α) (x : α) (b : List α),
    (parts K t xs)[i]? = some (a ++ x :: b) → walk K h t n (some x) = (x :: b ++ ((parts K t xs).drop (i + 1)).flatten).take n
  | 0, _, _, _, _, _ => by simp [walk]
  | n + 1, i, a, x, b, hi => by
    simp only [walk, next_spec ht hi, List.cons_append, List.take_succ_cons, List.cons.injEq, true_and]
    cases b with
    | cons y b =>
      have := walk_spec ht n i (a ++ [x]) y b (by simpa using hi)
      simpa using this
    | nil =>
      rcases flat_cases ((parts K t xs).drop (i + 1)) with h | ⟨j, y, b, h1, h2⟩
      · rw [h]
        cases n <;> simp [walk]
      · rw [List.nil_append, h2]
        rw [List.getElem?_drop] at h1
        have := walk_spec ht n (i + 1 + j) [] y b (by simpa using h1)
        rw [List.cons_append, List.head?_cons, this]
        simp [List.drop_drop, Nat.add_assoc]

theorem walk_begin {K : Keys α κ} {h : Heap α} {t : Table α} {xs : List α} (ht : TRep K h t xs) (n : Nat) :
    walk K h t n t.begin = (parts K t xs).flatten.take n := by
  rw [Table.begin, findSome_parts (forall₂_parts ht.rep)]
  rcases flat_cases (parts K t xs) with h | ⟨j, y, b, h1, h2⟩
  · rw [h]
    cases n <;> simp [walk]
  · rw [h2, List.cons_append, List.head?_cons]
    exact walk_spec ht n j [] y b (by simpa using h1)

theorem trep_shows {K : Keys α κ} (hK : ∀ a b, K.eq a b = true → K.hash a = K.hash b) {h : Heap α} {t : Table α} {xs : List α}
    (ht : TRep K h t xs) : Shows K h t xs :=
  ⟨ht.size, lookup_spec hK ht, _, parts_perm ht.shape ht.some ht.nodup, walk_begin ht⟩

/-! ## Histories -/

structure Inv (K : Keys α κ) (s : State α) (A : Abs α) : Prop where
  rep : ∀ k, TRep K s.heap (s.tabs k) (A k)
  disj : ∀ (k j : Nat) (x : α), x ∈ A k → x ∈ A j → k = j

theorem trep_frame {K : Keys α κ} {h h' : Heap α} {t : Table α} {xs : List α}
    (hf : ∀ x ∈ xs, h'.next x = h.next x ∧ h'.prev x = h.prev x) (ht : TRep K h t xs) : TRep K h' t xs :=
  ⟨ht.shape, ht.size, ht.nodup, ht.some, ⟨fun i b hb => IL.rep_frame (fun x hx => hf x (idx_mem.mp hx).1) (ht.rep.rep i b hb)⟩⟩

theorem erase_inv {K : Keys α κ} {s : State α} {A : Abs α} (hi : Inv K s A) {k : Nat} {x : α} {a b : List α} (hA : A k = a ++ x :: b) :
    ∃ s', (IH.erase K s.heap (s.tabs k) x).map (s.set k) = some s' ∧ Inv K s' (A.set k (a ++ b)) := by
  have ht := hi.rep k
  rw [hA] at ht
  obtain ⟨h', t', h1, h2, -, -, h3⟩ := eraseTab_spec ht
  refine ⟨_, by rw [h1]; rfl, fun j => ?_, ?_⟩
  · by_cases hj : j = k
    · subst hj
      simpa [State.set, Abs.set] using h2
    · simp only [State.set, Abs.set, hj, if_false]
      refine trep_frame (fun z hz => h3 z fun hm => ?_) (hi.rep j)
      exact hj (hi.disj j k z hz (by rw [hA]; exact hm))
  · have hsub : ∀ (j : Nat) (z : α), z ∈ A.set k (a ++ b) j → z ∈ A j := by
      intro j z hz
      simp only [Abs.set] at hz
      split at hz
      · rename_i hj
        subst hj
        rw [hA]
        simp only [List.mem_append, List.mem_cons] at hz ⊢
        rcases hz with hz | hz
        · exact .inl hz
        · exact .inr (.inr hz)
      · exact hz
    exact fun i j z hz hz' => hi.disj i j z (hsub i z hz) (hsub j z hz')

theorem exec_inv {K : Keys α κ} (hK : ∀ a b, K.eq a b = true → K.hash a = K.hash b) {s : State α} {A B : Abs α} {op : Op α κ}
    (hi : Inv K s A) (h : Step K A op B) : ∃ s', s.exec K op = some s' ∧ Inv K s' B := by
  cases h with
  | insert k x hx =>
    obtain ⟨h', t', h1, h2, h3⟩ := insert_spec (hi.rep k) (hx k)
    refine ⟨_, by simp only [State.exec, h1]; rfl, fun j => ?_, ?_⟩
    · by_cases hj : j = k
      · subst hj
        simpa [State.set, Abs.set] using h2
      · simp only [State.set, Abs.set, hj, if_false]
        refine trep_frame (fun z hz => h3 z (fun hm => hj (hi.disj j k z hz hm)) ?_) (hi.rep j)
        rintro rfl
        exact hx j hz
    · intro i j z hz hz'
      simp only [Abs.set] at hz hz'
      split at hz <;> split at hz'
      · omega
      · rename_i hik hjk
        rcases List.mem_append.mp hz with hz | hz
        · rw [hik]; exact hi.disj k j z hz hz'
        · simp only [List.mem_singleton] at hz
          exact absurd (hz ▸ hz') (hx j)
      · rename_i hik hjk
        rcases List.mem_append.mp hz' with hz' | hz'
        · rw [hjk]; exact hi.disj i k z hz hz'
        · simp only [List.mem_singleton] at hz'
          exact absurd (hz' ▸ hz) (hx i)
      · exact hi.disj i j z hz hz'
  | erase k x a b hA => exact erase_inv hi hA
  | eraseKey k key =>
    simp only [State.exec, eraseKey, lookup_spec hK (hi.rep k)]
    cases hf : (A k).find? fun x => K.eq key (K.key x) with
    | none =>
      rw [List.find?_eq_none] at hf
      rw [List.eraseP_of_forall_not hf]
      refine ⟨_, rfl, ?_⟩
      have h1 : A.set k (A k) = A := by
        funext j
        simp only [Abs.set]
        split
        · rename_i hj; rw [hj]
        · rfl
      have h2 : s.set k (s.heap, s.tabs k) = s := by
        simp only [State.set]
        congr 1
        funext j
        split
        · rename_i hj; rw [hj]
        · rfl
      rw [h1, h2]
      exact hi
    | some x =>
      obtain ⟨hx, a, b, hA, ha⟩ := List.find?_eq_some_iff_append.mp hf
      have : (A k).eraseP (fun x => K.eq key (K.key x)) = a ++ b := by
        rw [hA, List.eraseP_append_right _ (fun y hy => by simpa using ha y hy), List.eraseP_cons_of_pos (p := fun x => K.eq key (K.key x)) hx]
      rw [this]
      exact erase_inv hi hA
  | clear k =>
    refine ⟨_, rfl, fun j => ?_, ?_⟩
    · by_cases hj : j = k
      · subst hj
        simp only [State.set, Abs.set, if_true]
        have ht := hi.rep j
        refine ⟨?_, ?_, List.nodup_nil, fun h => absurd rfl h, ⟨fun i b hb => ?_⟩⟩
        · rcases ht.shape with ⟨h1, h2⟩ | ⟨e, h1, h2⟩
          · exact .inl ⟨by simp [Table.clear, h1], h2⟩
          · exact .inr ⟨e, by simpa [Table.clear] using h1, h2⟩
        · simp only [Table.clear, List.length_nil]
          split
          · rename_i hb
            simp only [List.isEmpty_iff] at hb
            have := ht.some
            by_cases hA : A j = []
            · rw [ht.size, hA]; rfl
            · exact absurd hb (this hA)
          · rfl
        · simp only [Table.clear, List.getElem?_map, Option.map_eq_some_iff] at hb
          obtain ⟨_, _, rfl⟩ := hb
          exact rep_nil _
      · simp only [State.set, Abs.set, hj, if_false]
        exact hi.rep j
    · intro i j z hz hz'
      simp only [Abs.set] at hz hz'
      split at hz
      · simp at hz
      · split at hz'
        · simp at hz'
        · exact hi.disj i j z hz hz'
  | swap k j =>
    refine ⟨_, rfl, fun i => ?_, fun i i' z hz hz' => ?_⟩
    · by_cases h1 : i = k
      · simp only [h1, if_true]; exact hi.rep j
      · by_cases h2 : i = j
        · subst h2; simp only [h1, if_false, if_true]; exact hi.rep k
        · simp only [h1, h2, if_false]; exact hi.rep i
    · have hd := hi.disj
      split at hz <;> split at hz' <;> (try split at hz) <;> (try split at hz') <;> (first | omega | skip) <;>
        (have := hd _ _ _ hz hz'; omega)

theorem run_inv {K : Keys α κ} (hK : ∀ a b, K.eq a b = true → K.hash a = K.hash b) {A B : Abs α} {ops : List (Op α κ)} (h : Steps K A ops B) :
    ∀ s : State α, Inv K s A → ∃ s', s.run K ops = some s' ∧ Inv K s' B := by
  induction h with
  | nil => exact fun s hi => ⟨s, rfl, hi⟩
  | cons h1 _ ih =>
    intro s hi
    obtain ⟨s1, e1, hi1⟩ := exec_inv hK hi h1
    obtain ⟨s2, e2, hi2⟩ := ih s1 hi1
    exact ⟨s2, by simp [State.run, e1, e2], hi2⟩

theorem empty_inv (K : Keys α κ) (h : Heap α) : Inv K (State.empty h) (fun _ => []) :=
  ⟨fun k => ⟨.inl ⟨rfl, rfl⟩, rfl, List.nodup_nil, fun h => absurd rfl h, ⟨fun i b hb => by simp [State.empty, Table.nil] at hb⟩⟩,
    fun k j x hx => by simp at hx⟩

/-- After every history of valid operations every table shows its contents: the loops have finished, no bucket was accessed out of bounds,
the size is the number of elements, `find` gives the oldest element with the key, and iteration sees every element once. -/
theorem C55_history {K : Keys α κ} (hK : ∀ a b, K.eq a b = true → K.hash a = K.hash b) (h : Heap α) (ops : List (Op α κ)) (B : Abs α)
    (hs : Steps K (fun _ => []) ops B) : ∃ s, (State.empty h).run K ops = some s ∧ ∀ k, Shows K s.heap (s.tabs k) (B k) := by
  obtain ⟨s, h1, hi⟩ := run_inv hK hs _ (empty_inv K h)
  exact ⟨s, h1, fun k => trep_shows hK (hi.rep k)⟩

theorem parts_erase {K : Keys α κ} {h h' : Heap α} {t t' : Table α} {a b : List α} {x : α} (hn : (a ++ x :: b).Nodup)
    (hl : t'.buckets.length = t.buckets.length) (hm : t'.mask = t.mask) :
    (parts K t' (a ++ b)).flatten = (parts K t (a ++ x :: b)).flatten.filter (· ≠ x) := by
  rw [parts_flatten, parts_flatten, hl, hm, List.filter_flatMap]
  congr 1
  funext i
  have hxa : ∀ y ∈ a, y ≠ x := fun y hy hyx => (List.nodup_append.mp hn).2.2 y hy x (by simp) hyx
  have hxb : ∀ y ∈ b, y ≠ x := fun y hy hyx => (List.nodup_cons.mp (List.nodup_append.mp hn).2.1).1 (hyx ▸ hy)
  have h0 : (a ++ x :: b).filter (· ≠ x) = a ++ b := by
    rw [List.filter_append, List.filter_cons_of_neg (by simp), List.filter_eq_self.mpr (by simpa using hxa),
      List.filter_eq_self.mpr (by simpa using hxb)]
  rw [← h0]
  simp only [part, List.filter_filter]
  congr 1
  funext y
  rw [Bool.and_comm]

/-- An element that is erased does not change the order in which the others are visited. -/
theorem C55_erase_order {K : Keys α κ} (hK : ∀ a b, K.eq a b = true → K.hash a = K.hash b) (h : Heap α) (ops : List (Op α κ)) (B : Abs α)
    (hs : Steps K (fun _ => []) ops B) {s s' : State α} (h1 : (State.empty h).run K ops = some s) {k : Nat} {x : α} (hx : x ∈ B k)
    (h2 : s.exec K (.erase k x) = some s') (n : Nat) (hn : (B k).length ≤ n) :
    walk K s'.heap (s'.tabs k) n (s'.tabs k).begin = (walk K s.heap (s.tabs k) n (s.tabs k).begin).filter (· ≠ x) := by
  obtain ⟨s0, h0, hi⟩ := run_inv hK hs _ (empty_inv K h)
  rw [h1] at h0
  injection h0 with h0
  subst h0
  obtain ⟨a, b, hA⟩ := List.append_of_mem hx
  have ht := hi.rep k
  rw [hA] at ht
  obtain ⟨h', t', e1, e2, e3, e4, -⟩ := eraseTab_spec ht
  simp only [State.exec, e1, Option.map_some, Option.some.injEq] at h2
  subst h2
  simp only [State.set, if_true]
  rw [walk_begin ht, walk_begin e2, parts_erase (h := h) (h' := h') ht.nodup e3 e4]
  have hl := (parts_perm (K := K) ht.shape ht.some ht.nodup).length_eq
  rw [hA] at hn
  rw [List.take_of_length_le (l := (parts K (s.tabs k) (a ++ x :: b)).flatten) (by omega), List.take_of_length_le]
  exact Nat.le_trans (List.length_filter_le _ _) (by omega)

theorem next_flat {K : Keys α κ} {h : Heap α} {t : Table α} {xs : List α} (ht : TRep K h t xs) {u v : List α} {x : α}
    (hL : (parts K t xs).flatten = u ++ x :: v) : next K h t x = v.head? := by
  have hx : x ∈ (parts K t xs).flatten := by rw [hL]; simp
  obtain ⟨ys, hys, hxy⟩ := List.mem_flatten.mp hx
  obtain ⟨i, hi, rfl⟩ := List.getElem_of_mem hys
  obtain ⟨a, b, hab⟩ := List.append_of_mem hxy
  have hg : (parts K t xs)[i]? = some (a ++ x :: b) := by rw [List.getElem?_eq_getElem hi, hab]
  rw [next_spec ht hg]
  have hd : (parts K t xs).flatten = ((parts K t xs).take i).flatten ++ a ++ x :: (b ++ ((parts K t xs).drop (i + 1)).flatten) := by
    conv => lhs; rw [← List.take_append_drop i (parts K t xs), List.drop_eq_getElem_cons hi, hab]
    simp
  have hn := parts_nodup (K := K) (t := t) ht.nodup
  rw [hL] at hd
  rw [hL] at hn
  have huv : ∀ (u u' v v' : List α), u ++ x :: v = u' ++ x :: v' → (u ++ x :: v).Nodup → v = v' := by
    intro u
    induction u with
    | nil =>
      intro u' v v' he hn
      cases u' with
      | nil => simpa using he
      | cons y u' =>
        simp only [List.nil_append, List.cons_append, List.cons.injEq] at he
        obtain ⟨rfl, he⟩ := he
        rw [List.nil_append, List.nodup_cons] at hn
        exact absurd (by rw [he]; simp) hn.1
    | cons w u ih =>
      intro u' v v' he hn
      cases u' with
      | nil =>
        simp only [List.nil_append, List.cons_append, List.cons.injEq] at he
        obtain ⟨rfl, he⟩ := he
        rw [List.cons_append, List.nodup_cons] at hn
        exact absurd (by simp) hn.1
      | cons y u' =>
        simp only [List.cons_append, List.cons.injEq] at he
        exact ih u' v v' he.2 (List.nodup_cons.mp (by simpa using hn)).2
  rw [huv _ _ _ _ hd hn]

theorem filter_ne {u v : List α} {x : α} (hn : (u ++ x :: v).Nodup) : (u ++ x :: v).filter (· ≠ x) = u ++ v := by
  have hxa : ∀ y ∈ u, y ≠ x := fun y hy hyx => (List.nodup_append.mp hn).2.2 y hy x (by simp) hyx
  have hxb : ∀ y ∈ v, y ≠ x := fun y hy hyx => (List.nodup_cons.mp (List.nodup_append.mp hn).2.1).1 (hyx ▸ hy)
  rw [List.filter_append, List.filter_cons_of_neg (by simp), List.filter_eq_self.mpr (by simpa using hxa),
    List.filter_eq_self.mpr (by simpa using hxb)]

theorem eraseRange_spec {K : Keys α κ} : ∀ (m : List α) (n : Nat) (h : Heap α) (t : Table α) (xs c d : List α), TRep K h t xs →
    (parts K t xs).flatten = c ++ m ++ d → m.length < n →
    ∃ h' t', eraseRange K n h t (m ++ d).head? d.head? = some (h', t') ∧ TRep K h' t' (xs.filter (· ∉ m)) ∧ (parts K t' (xs.filter (· ∉ m))).flatten = c ++ d
  | [], n + 1, h, t, xs, c, d, ht, hL, hn => by
    refine ⟨h, t, by simp [eraseRange], ?_, ?_⟩
    · simpa using ht
    · simpa using hL
  | _, 0, h, t, xs, c, d, ht, hL, hn => by omega
  | x :: m, n + 1, h, t, xs, c, d, ht, hL, hn => by
    have hL' : (parts K t xs).flatten = c ++ x :: (m ++ d) := by simpa using hL
    have hnd := parts_nodup (K := K) (t := t) ht.nodup
    rw [hL'] at hnd
    have hne : some x ≠ d.head? := by
      intro he
      have := IL.head_mem he.symm
      exact (List.nodup_cons.mp (List.nodup_append.mp hnd).2.1).1 (by simp [this])
    have hx : x ∈ xs := (parts_mem (K := K) ht.shape ht.some).mp (by rw [hL']; simp)
    obtain ⟨a, b, rfl⟩ := List.append_of_mem hx
    obtain ⟨h', t', e1, e2, e3, e4, -⟩ := eraseTab_spec ht
    have hp := parts_erase (K := K) (h := h) (h' := h') ht.nodup e3 e4
    rw [hL', filter_ne hnd] at hp
    obtain ⟨h2, t2, r1, r2, r3⟩ := eraseRange_spec m n h' t' (a ++ b) c d e2 (by rw [hp]; simp) (by simp at hn; omega)
    have hfil : (a ++ x :: b).filter (· ∉ x :: m) = (a ++ b).filter (· ∉ m) := by
      rw [← filter_ne ht.nodup, List.filter_filter]
      congr 1
      funext y
      by_cases h1 : y = x <;> by_cases h2 : y ∈ m <;> simp [h1, h2]
    refine ⟨h2, t2, ?_, by rw [hfil]; exact r2, by rw [hfil]; exact r3⟩
    simp only [eraseRange, List.cons_append, List.head?_cons, hne, if_false, e1, next_flat ht hL']
    exact r1

/-- `erase(begin, end)`: the elements from `begin` up to (not including) `end`, in the order of iteration, are erased, and the others are
visited in the same order as before. -/
theorem C55_eraseRange {K : Keys α κ} (hK : ∀ a b, K.eq a b = true → K.hash a = K.hash b) (h : Heap α) (ops : List (Op α κ)) (B : Abs α)
    (hs : Steps K (fun _ => []) ops B) {s : State α} (h1 : (State.empty h).run K ops = some s) {k : Nat} {c m d : List α} {n : Nat}
    (hw : walk K s.heap (s.tabs k) ((B k).length) (s.tabs k).begin = c ++ m ++ d) (hn : m.length < n) :
    ∃ h' t', eraseRange K n s.heap (s.tabs k) (m ++ d).head? d.head? = some (h', t') ∧ Shows K h' t' ((B k).filter (· ∉ m)) ∧
      ∀ i, walk K h' t' i t'.begin = (c ++ d).take i := by
  obtain ⟨s0, h0, hi⟩ := run_inv hK hs _ (empty_inv K h)
  rw [h1] at h0
  injection h0 with h0
  subst h0
  have ht := hi.rep k
  rw [walk_begin ht, List.take_of_length_le (Nat.le_of_eq (parts_perm ht.shape ht.some ht.nodup).length_eq)] at hw
  obtain ⟨h', t', e1, e2, e3⟩ := eraseRange_spec m n _ _ _ c d ht hw hn
  exact ⟨h', t', e1, trep_shows hK e2, fun i => by rw [walk_begin e2, e3]⟩

/-- No element is in two tables, and none is twice in a table, so the conditions of `Step` can be met. -/
theorem C55_disjoint {K : Keys α κ} (hK : ∀ a b, K.eq a b = true → K.hash a = K.hash b) (ops : List (Op α κ)) (B : Abs α)
    (hs : Steps K (fun _ => []) ops B) : (∀ k : Nat, (B k).Nodup) ∧ ∀ (k j : Nat) (x : α), x ∈ B k → x ∈ B j → k = j := by
  obtain ⟨s, -, hi⟩ := run_inv hK hs _ (empty_inv K ⟨fun _ => none, fun _ => none⟩)
  exact ⟨fun k => (hi.rep k).nodup, hi.disj⟩

/-! ## An example -/

namespace Ex

/-- Elements are numbers, the last digit is the key, and the hash function is bad. -/
def K : Keys Nat Nat := ⟨fun x => x % 10, fun k => k * 2, fun a b => a == b⟩

theorem hK : ∀ a b, K.eq a b = true → K.hash a = K.hash b := by
  intro a b h
  have : a = b := by simpa [K] using h
  rw [this]

def ops : List (Op Nat Nat) := [.insert 0 11, .insert 0 21, .insert 1 33, .insert 0 12, .insert 0 31, .insert 0 13, .eraseKey 0 1, .erase 0 12,
  .eraseKey 0 7, .swap 0 2]

theorem steps : Steps K (fun _ => []) ops (fun i => if i = 2 then [21, 31, 13] else if i = 1 then [33] else []) := by
  refine .cons (.insert 0 11 (by simp)) ?_
  refine .cons (.insert 0 21 (by intro j; by_cases h : j = 0 <;> simp [Abs.set, h])) ?_
  refine .cons (.insert 1 33 (by intro j; by_cases h : j = 0 <;> simp [Abs.set, h])) ?_
  refine .cons (.insert 0 12 (by intro j; by_cases h : j = 0 <;> by_cases h1 : j = 1 <;> simp [Abs.set, h, h1])) ?_
  refine .cons (.insert 0 31 (by intro j; by_cases h : j = 0 <;> by_cases h1 : j = 1 <;> simp [Abs.set, h, h1])) ?_
  refine .cons (.insert 0 13 (by intro j; by_cases h : j = 0 <;> by_cases h1 : j = 1 <;> simp [Abs.set, h, h1])) ?_
  refine .cons (.eraseKey 0 1) ?_
  refine .cons (.erase 0 12 [21] [31, 13] (by decide)) ?_
  refine .cons (.eraseKey 0 7) ?_
  refine .cons (.swap 0 2) ?_
  have : (fun i => if i = 2 then [21, 31, 13] else if i = 1 then [33] else []) = (fun i : Nat => if i = 0 then ([] : List Nat) else
      if i = 2 then [21, 31, 13] else if i = 1 then [33] else []) := by
    funext i
    by_cases h : i = 0 <;> simp [h]
  rw [this]
  convert Steps.nil _ using 2 with i
  by_cases h : i = 0
  · subst h; decide
  · by_cases h2 : i = 2
    · subst h2; decide
    · by_cases h1 : i = 1
      · subst h1; decide
      · simp [Abs.set, h, h1, h2]

/-- The hypotheses are met, and the result is not trivial. -/
theorem shows : ∃ s, (State.empty ⟨fun _ => none, fun _ => none⟩).run K ops = some s ∧ Shows K s.heap (s.tabs 2) [21, 31, 13] := by
  obtain ⟨s, h1, h2⟩ := C55_history hK ⟨fun _ => none, fun _ => none⟩ ops _ steps
  exact ⟨s, h1, h2 2⟩

theorem order : ((State.empty ⟨fun _ => none, fun _ => none⟩).run K ops).map (fun s => ((s.tabs 2).buckets.length, walk K s.heap (s.tabs 2) 9 (s.tabs 2).begin)) =
    some (8, [21, 31, 13]) := by decide +kernel

end Ex

end Jlm.Util.IH
