import Verif.Util.BijectiveMapModel
import Mathlib.Data.Finset.Card
import Mathlib.Data.Finset.Image
import Mathlib.Tactic.ByContra
/- C12: BijectiveMap stays a bijection. -/
set_option linter.unusedSectionVars false
set_option linter.unusedSimpArgs false
namespace Jlm.Util.BijectiveMap
variable {K V : Type} [DecidableEq K] [DecidableEq V]

/-! #### Specification: a finite set of pairs -/

/-- A set of pairs in which no key and no value occurs twice. -/
def Bijective (S : Finset (K × V)) : Prop :=
  ∀ p ∈ S, ∀ q ∈ S, (p.1 = q.1 ∨ p.2 = q.2) → p = q

open Classical in
/-- Adding one pair: refused if key or value are taken. -/
noncomputable def specInsert (S : Finset (K × V)) (p : K × V) : Finset (K × V) :=
  if ∃ q ∈ S, q.1 = p.1 ∨ q.2 = p.2 then S else Insert.insert p S

/-- The effect of each operation on the set of pairs. -/
noncomputable def specStep (S : Finset (K × V)) : Op K V → Finset (K × V)
  | .insert k v => specInsert S (k, v)
  | .insertPairs ps => ps.foldl specInsert S
  | .removeKey k => S.filter (fun p => p.1 ≠ k)
  | .removeValue v => S.filter (fun p => p.2 ≠ v)
  | .removeWhere f => S.filter (fun p => f p.1 p.2 = false)
  | .clear => ∅

/-! #### Invariant -/

/-- representation invariant -/
structure Inv (m : BMap K V) : Prop where
  keys : (m.fwd.map (·.1)).Nodup
  vals : (m.rev.map (·.1)).Nodup
  same : ∀ k v, (k, v) ∈ m.fwd ↔ (v, k) ∈ m.rev

theorem find_eq_some {A B : Type} [DecidableEq A] {m : List (A × B)}
    (h : (m.map (·.1)).Nodup) {a : A} {b : B} : find m a = some b ↔ (a, b) ∈ m := by
  unfold find
  induction m with
  | nil => simp
  | cons p ps ih =>
    simp only [List.map_cons, List.nodup_cons] at h
    rw [List.find?_cons]
    by_cases hp : p.1 = a
    · simp only [hp, decide_true, Option.map_some, Option.some.injEq, List.mem_cons]
      constructor
      · rintro rfl; left; rw [← hp]
      · rintro (he | hm)
        · rw [← he]
        · exact absurd (List.mem_map.mpr ⟨(a, b), hm, rfl⟩) (by rw [← hp]; exact h.1)
    · simp only [hp, decide_false, List.mem_cons]
      rw [ih h.2]
      constructor
      · exact Or.inr
      · rintro (he | hm)
        · exact absurd (by rw [← he]) hp
        · exact hm

theorem find_isSome {A B : Type} [DecidableEq A] {m : List (A × B)} {a : A} :
    (find m a).isSome ↔ ∃ b, (a, b) ∈ m := by
  unfold find
  simp only [Option.isSome_map, List.find?_isSome, decide_eq_true_eq]
  constructor
  · rintro ⟨p, hp, rfl⟩; exact ⟨p.2, hp⟩
  · rintro ⟨b, hb⟩; exact ⟨_, hb, rfl⟩

theorem nodup_erase {A B : Type} [DecidableEq A] {m : List (A × B)} (h : (m.map (·.1)).Nodup)
    (a : A) : ((erase m a).map (·.1)).Nodup :=
  (List.filter_sublist.map _).nodup h

theorem inv_empty : Inv (empty : BMap K V) := ⟨by simp [empty], by simp [empty], by simp [empty]⟩

theorem inv_bij {m : BMap K V} (h : Inv m) {k k' : K} {v v' : V} (h1 : (k, v) ∈ m.fwd)
    (h2 : (k', v') ∈ m.fwd) : (k = k' ↔ v = v') := by
  constructor
  · rintro rfl
    have e1 := (find_eq_some h.keys).mpr h1
    have e2 := (find_eq_some h.keys).mpr h2
    rw [e1] at e2; cases e2; rfl
  · rintro rfl
    have e1 := (find_eq_some h.vals).mpr ((h.same _ _).mp h1)
    have e2 := (find_eq_some h.vals).mpr ((h.same _ _).mp h2)
    rw [e1] at e2; cases e2; rfl

theorem inv_eraseAt {m : BMap K V} (h : Inv m) {k : K} {v : V} (hm : (k, v) ∈ m.fwd) :
    Inv (eraseAt m (k, v)) := by
  refine ⟨nodup_erase h.keys k, nodup_erase h.vals v, ?_⟩
  intro k' v'
  simp only [eraseAt, erase, List.mem_filter, h.same, ne_eq, decide_eq_true_eq]
  constructor
  · rintro ⟨h1, h2⟩
    exact ⟨h1, fun he => h2 ((inv_bij h ((h.same _ _).mpr h1) hm).mpr he)⟩
  · rintro ⟨h1, h2⟩
    exact ⟨h1, fun he => h2 ((inv_bij h ((h.same _ _).mpr h1) hm).mp he)⟩

/-- the pairs stored -/
def pairs (m : BMap K V) : Finset (K × V) := m.fwd.toFinset

theorem pairs_eraseAt {m : BMap K V} (h : Inv m) {k : K} {v : V} (hm : (k, v) ∈ m.fwd) :
    pairs (eraseAt m (k, v)) = (pairs m).erase (k, v) := by
  ext ⟨k', v'⟩
  simp only [pairs, eraseAt, erase, List.mem_toFinset, List.mem_filter, ne_eq, decide_eq_true_eq,
    Finset.mem_erase, Prod.mk.injEq]
  constructor
  · rintro ⟨h1, h2⟩; exact ⟨fun he => h2 he.1, h1⟩
  · rintro ⟨h1, h2⟩
    exact ⟨h2, fun he => h1 ⟨he, (inv_bij h h2 hm).mp he⟩⟩

theorem insert_spec {m : BMap K V} (h : Inv m) (k : K) (v : V) :
    Inv (insert m k v).1 ∧ pairs (insert m k v).1 = specInsert (pairs m) (k, v) ∧
    ((insert m k v).2 = true ↔ ¬ ∃ q ∈ pairs m, q.1 = k ∨ q.2 = v) := by
  have hkey : hasKey m k = true ↔ ∃ q ∈ pairs m, q.1 = k := by
    rw [hasKey, find_isSome]
    simp only [pairs, List.mem_toFinset, Prod.exists]
    constructor
    · rintro ⟨b, hb⟩; exact ⟨k, b, hb, rfl⟩
    · rintro ⟨a, b, hb, rfl⟩; exact ⟨b, hb⟩
  have hval : hasValue m v = true ↔ ∃ q ∈ pairs m, q.2 = v := by
    rw [hasValue, find_isSome]
    simp only [pairs, List.mem_toFinset, Prod.exists, ← h.same]
    constructor
    · rintro ⟨b, hb⟩; exact ⟨b, v, hb, rfl⟩
    · rintro ⟨a, b, hb, rfl⟩; exact ⟨a, hb⟩
  have hor : (hasKey m k || hasValue m v) = true ↔ ∃ q ∈ pairs m, q.1 = k ∨ q.2 = v := by
    rw [Bool.or_eq_true, hkey, hval]
    constructor
    · rintro (⟨q, h1, h2⟩ | ⟨q, h1, h2⟩)
      · exact ⟨q, h1, Or.inl h2⟩
      · exact ⟨q, h1, Or.inr h2⟩
    · rintro ⟨q, h1, h2 | h2⟩
      · exact Or.inl ⟨q, h1, h2⟩
      · exact Or.inr ⟨q, h1, h2⟩
  unfold insert specInsert
  by_cases hc : (hasKey m k || hasValue m v) = true
  · rw [if_pos hc, if_pos (by simpa using hor.mp hc)]
    exact ⟨h, rfl, by simp only [Bool.false_eq_true, false_iff, not_not]; exact hor.mp hc⟩
  · rw [if_neg hc, if_neg (fun he => hc (hor.mpr (by simpa using he)))]
    have hc' : hasKey m k = false ∧ hasValue m v = false := by
      cases h1 : hasKey m k <;> cases h2 : hasValue m v <;> simp_all
    have e1 : mapInsert m.fwd k v = (k, v) :: m.fwd := by
      have : (find m.fwd k).isSome = false := hc'.1
      simp [mapInsert, this]
    have e2 : mapInsert m.rev v k = (v, k) :: m.rev := by
      have : (find m.rev v).isSome = false := hc'.2
      simp [mapInsert, this]
    have n1 : k ∉ m.fwd.map (·.1) := by
      intro hm
      rw [List.mem_map] at hm
      obtain ⟨⟨a, b⟩, hb, rfl⟩ := hm
      have : hasKey m a = true := by rw [hasKey, find_isSome]; exact ⟨b, hb⟩
      simp_all
    have n2 : v ∉ m.rev.map (·.1) := by
      intro hm
      rw [List.mem_map] at hm
      obtain ⟨⟨a, b⟩, hb, rfl⟩ := hm
      have : hasValue m a = true := by rw [hasValue, find_isSome]; exact ⟨b, hb⟩
      simp_all
    refine ⟨⟨?_, ?_, ?_⟩, ?_, ?_⟩
    · simp only [e1, List.map_cons, List.nodup_cons]; exact ⟨n1, h.keys⟩
    · simp only [e2, List.map_cons, List.nodup_cons]; exact ⟨n2, h.vals⟩
    · intro k' v'
      simp only [e1, e2, List.mem_cons, Prod.mk.injEq, h.same]
      constructor
      · rintro (⟨rfl, rfl⟩ | h') <;> simp_all
      · rintro (⟨rfl, rfl⟩ | h') <;> simp_all
    · simp [pairs, e1]
    · simp only [true_iff]
      exact fun he => hc (hor.mpr he)

theorem insertPairs_spec {m : BMap K V} (h : Inv m) (ps : List (K × V)) :
    Inv (insertPairs m ps).1 ∧ pairs (insertPairs m ps).1 = ps.foldl specInsert (pairs m) ∧
    (pairs (insertPairs m ps).1).card = (pairs m).card + (insertPairs m ps).2 := by
  induction ps generalizing m with
  | nil => exact ⟨h, rfl, rfl⟩
  | cons p ps ih =>
    obtain ⟨h1, h2, h3⟩ := insert_spec h p.1 p.2
    obtain ⟨i1, i2, i3⟩ := ih h1
    simp only [insertPairs]
    refine ⟨i1, by rw [i2, h2]; rfl, ?_⟩
    rw [i3, h2]
    unfold specInsert
    by_cases hb : (insert m p.1 p.2).2 = true
    · have hne := h3.mp hb
      rw [if_neg (by simpa using hne), if_pos hb, Finset.card_insert_of_notMem]
      · omega
      · exact fun hm => hne ⟨p, by simpa using hm, Or.inl rfl⟩
    · have hex : ∃ q ∈ pairs m, q.1 = p.1 ∨ q.2 = p.2 := by
        by_contra hc; exact hb (h3.mpr hc)
      rw [if_pos (by simpa using hex), if_neg hb]

theorem removeWhereLoop_spec (f : K → V → Bool) (ps : List (K × V)) (m : BMap K V) (n : Nat)
    (h : Inv m) (hps : ∀ p ∈ ps, p ∈ m.fwd) (hnd : ps.Nodup) :
    Inv (removeWhereLoop f ps m n).1 ∧
    pairs (removeWhereLoop f ps m n).1 = (pairs m).filter (fun p => ¬ (p ∈ ps ∧ f p.1 p.2 = true)) ∧
    (removeWhereLoop f ps m n).2 = n + (ps.filter (fun p => f p.1 p.2)).length := by
  induction ps generalizing m n with
  | nil => exact ⟨h, by simp [removeWhereLoop], by simp [removeWhereLoop]⟩
  | cons p ps ih =>
    simp only [List.nodup_cons] at hnd
    have hpm : p ∈ m.fwd := hps p (by simp)
    unfold removeWhereLoop
    by_cases hf : f p.1 p.2 = true
    · rw [if_pos hf]
      have hinv : Inv (eraseAt m p) := inv_eraseAt h (k := p.1) (v := p.2) hpm
      have hpairs : pairs (eraseAt m p) = (pairs m).erase p := pairs_eraseAt h (k := p.1) (v := p.2) hpm
      have hsub : ∀ q ∈ ps, q ∈ (eraseAt m p).fwd := by
        intro q hq
        have h1 : q ∈ pairs (eraseAt m p) := by
          rw [hpairs, Finset.mem_erase]
          exact ⟨fun e => hnd.1 (e ▸ hq), by simpa [pairs] using hps q (by simp [hq])⟩
        simpa [pairs] using h1
      obtain ⟨i1, i2, i3⟩ := ih (eraseAt m p) (n + 1) hinv hsub hnd.2
      refine ⟨i1, ?_, ?_⟩
      · rw [i2, hpairs]
        ext q
        simp only [Finset.mem_filter, Finset.mem_erase, List.mem_cons, not_and]
        constructor
        · rintro ⟨⟨h1, h2⟩, h3⟩
          exact ⟨h2, fun hq => by rcases hq with rfl | hq; exact absurd rfl h1; exact h3 hq⟩
        · rintro ⟨h1, h2⟩
          exact ⟨⟨fun e => h2 (Or.inl e) (e ▸ hf), h1⟩, fun hq => h2 (Or.inr hq)⟩
      · rw [i3]; simp [List.filter_cons, hf]; omega
    · rw [if_neg hf]
      obtain ⟨i1, i2, i3⟩ := ih m n h (fun q hq => hps q (by simp [hq])) hnd.2
      refine ⟨i1, ?_, ?_⟩
      · rw [i2]
        ext q
        simp only [Finset.mem_filter, List.mem_cons, not_and]
        constructor
        · rintro ⟨h1, h2⟩
          exact ⟨h1, fun hq => by rcases hq with rfl | hq; exact hf; exact h2 hq⟩
        · rintro ⟨h1, h2⟩
          exact ⟨h1, fun hq => h2 (Or.inr hq)⟩
      · rw [i3]; simp [List.filter_cons, hf]

theorem fwd_nodup {m : BMap K V} (h : Inv m) : m.fwd.Nodup := List.Nodup.of_map _ h.keys

theorem step_spec (m : BMap K V) (h : Inv m) (op : Op K V) :
    Inv (step m op).1 ∧ pairs (step m op).1 = specStep (pairs m) op := by
  cases op with
  | insert k v => obtain ⟨h1, h2, _⟩ := insert_spec h k v; exact ⟨h1, h2⟩
  | insertPairs ps => obtain ⟨h1, h2, _⟩ := insertPairs_spec h ps; exact ⟨h1, h2⟩
  | removeKey k =>
    simp only [step, removeKey, specStep]
    cases hf : find m.fwd k with
    | none =>
      refine ⟨h, ?_⟩
      symm
      rw [Finset.filter_eq_self]
      rintro ⟨a, b⟩ hp rfl
      simp only [pairs, List.mem_toFinset] at hp
      rw [(find_eq_some h.keys).mpr hp] at hf
      cases hf
    | some v =>
      have hm := (find_eq_some h.keys).mp hf
      refine ⟨inv_eraseAt h hm, ?_⟩
      simp only
      rw [pairs_eraseAt h hm]
      ext ⟨a, b⟩
      simp only [Finset.mem_erase, Finset.mem_filter, ne_eq, Prod.mk.injEq, pairs, List.mem_toFinset]
      constructor
      · rintro ⟨h1, h2⟩; exact ⟨h2, fun e => h1 ⟨e, (inv_bij h h2 hm).mp e⟩⟩
      · rintro ⟨h1, h2⟩; exact ⟨fun e => h2 e.1, h1⟩
  | removeValue v =>
    simp only [step, removeValue, specStep]
    cases hf : find m.rev v with
    | none =>
      refine ⟨h, ?_⟩
      symm
      rw [Finset.filter_eq_self]
      rintro ⟨a, b⟩ hp rfl
      simp only [pairs, List.mem_toFinset] at hp
      rw [(find_eq_some h.vals).mpr ((h.same _ _).mp hp)] at hf
      cases hf
    | some k =>
      have hm : (k, v) ∈ m.fwd := (h.same _ _).mpr ((find_eq_some h.vals).mp hf)
      refine ⟨inv_eraseAt h hm, ?_⟩
      simp only
      show pairs (eraseAt m (k, v)) = _
      rw [pairs_eraseAt h hm]
      ext ⟨a, b⟩
      simp only [Finset.mem_erase, Finset.mem_filter, ne_eq, Prod.mk.injEq, pairs, List.mem_toFinset]
      constructor
      · rintro ⟨h1, h2⟩; exact ⟨h2, fun e => h1 ⟨(inv_bij h h2 hm).mpr e, e⟩⟩
      · rintro ⟨h1, h2⟩; exact ⟨fun e => h2 e.2, h1⟩
  | removeWhere f =>
    obtain ⟨h1, h2, _⟩ := removeWhereLoop_spec f m.fwd m 0 h (fun _ h => h) (fwd_nodup h)
    refine ⟨h1, ?_⟩
    simp only [step, removeWhere, specStep]
    rw [h2]
    ext q
    simp only [Finset.mem_filter, pairs, List.mem_toFinset, not_and, Bool.not_eq_true]
    constructor
    · rintro ⟨h3, h4⟩; exact ⟨h3, h4 h3⟩
    · rintro ⟨h3, h4⟩; exact ⟨h3, fun _ => h4⟩
  | clear => exact ⟨inv_empty, rfl⟩

theorem run_spec (m : BMap K V) (h : Inv m) (ops : List (Op K V)) :
    Inv (run m ops) ∧ pairs (run m ops) = ops.foldl specStep (pairs m) := by
  induction ops generalizing m with
  | nil => exact ⟨h, rfl⟩
  | cons op ops ih =>
    obtain ⟨h1, h2⟩ := step_spec m h op
    obtain ⟨h3, h4⟩ := ih _ h1
    exact ⟨h3, by rw [run, List.foldl_cons, List.foldl_cons, ← h2]; exact h4⟩

/-! #### C12 -/

/-- **C12** After any history the map represents exactly the set of pairs the operations prescribe,
that set is a bijection, both lookups answer according to it (hence are mutually inverse), and
`Size` (whose internal assertion never fails) is its cardinality. -/
theorem C12_bijection (ops : List (Op K V)) :
    ∃ S : Finset (K × V), S = ops.foldl specStep ∅ ∧ Bijective S ∧
      (∀ k v, lookupKey (run empty ops) k = some v ↔ (k, v) ∈ S) ∧
      (∀ k v, lookupValue (run empty ops) v = some k ↔ (k, v) ∈ S) ∧
      (∀ k, hasKey (run empty ops) k = true ↔ ∃ v, (k, v) ∈ S) ∧
      (∀ v, hasValue (run empty ops) v = true ↔ ∃ k, (k, v) ∈ S) ∧
      size (run empty ops) = some S.card := by
  obtain ⟨h, hp⟩ := run_spec (empty : BMap K V) inv_empty ops
  refine ⟨_, rfl, ?_⟩
  have e : pairs (empty : BMap K V) = ∅ := rfl
  rw [e] at hp
  rw [← hp]
  have mem : ∀ k v, (k, v) ∈ pairs (run empty ops) ↔ (k, v) ∈ (run (empty : BMap K V) ops).fwd := by
    intro k v; simp [pairs]
  refine ⟨?_, ?_, ?_, ?_, ?_, ?_⟩
  · rintro ⟨k, v⟩ h1 ⟨k', v'⟩ h2 h3
    rw [mem] at h1 h2
    have := inv_bij h h1 h2
    simp only at h3
    rcases h3 with h3 | h3
    · rw [h3, this.mp h3]
    · rw [h3, this.mpr h3]
  · intro k v; rw [mem]; exact find_eq_some h.keys
  · intro k v; rw [mem, h.same]; exact find_eq_some h.vals
  · intro k; simp only [mem]; exact find_isSome
  · intro v; simp only [mem, h.same]; exact find_isSome
  · have hlen : (run (empty : BMap K V) ops).fwd.length = (run (empty : BMap K V) ops).rev.length := by
      have h1 := List.toFinset_card_of_nodup (fwd_nodup h)
      have h2 := List.toFinset_card_of_nodup (List.Nodup.of_map _ h.vals)
      rw [← h1, ← h2, ← Finset.card_image_of_injective _ Prod.swap_injective]
      congr 1
      ext ⟨v, k⟩
      simp only [Finset.mem_image, List.mem_toFinset, Prod.exists, Prod.swap_prod_mk, Prod.mk.injEq]
      constructor
      · rintro ⟨a, b, h3, rfl, rfl⟩; exact (h.same _ _).mp h3
      · intro h3; exact ⟨k, v, (h.same _ _).mpr h3, rfl, rfl⟩
    rw [size, if_pos hlen, pairs, List.toFinset_card_of_nodup (fwd_nodup h)]

/-- `LookupKey` and `LookupValue` are mutually inverse after every history. -/
theorem C12_lookup_inverse (ops : List (Op K V)) (k : K) (v : V) :
    lookupKey (run empty ops) k = some v ↔ lookupValue (run empty ops) v = some k := by
  obtain ⟨S, _, _, h1, h2, _⟩ := C12_bijection ops
  rw [h1, h2]

/-- A failed `Insert` returns false exactly if key or value are taken, and changes nothing. -/
theorem C12_insert (ops : List (Op K V)) (k : K) (v : V) :
    ((insert (run empty ops) k v).2 = false ↔
      (hasKey (run empty ops) k = true ∨ hasValue (run empty ops) v = true)) ∧
    ((insert (run empty ops) k v).2 = false → (insert (run empty ops) k v).1 = run empty ops) := by
  unfold insert
  cases hasKey (run empty ops) k <;> cases hasValue (run empty ops) v <;> simp

/-- `InsertPairs` and `RemoveWhere` return the change of `Size`. -/
theorem C12_counts (ops : List (Op K V)) (ps : List (K × V)) (f : K → V → Bool) :
    ∃ n, size (run empty ops) = some n ∧
      size (insertPairs (run empty ops) ps).1 = some (n + (insertPairs (run empty ops) ps).2) ∧
      size (removeWhere (run empty ops) f).1 = some (n - (removeWhere (run empty ops) f).2) ∧
      (removeWhere (run empty ops) f).2 ≤ n := by
  obtain ⟨h, _⟩ := run_spec (empty : BMap K V) inv_empty ops
  have hsz : ∀ m : BMap K V, (∃ os : List (Op K V), m = run empty os) → size m = some (pairs m).card := by
    rintro m ⟨os, rfl⟩
    obtain ⟨S, hS, _, _, _, _, _, hc⟩ := C12_bijection os
    obtain ⟨_, hp⟩ := run_spec (empty : BMap K V) inv_empty os
    rw [hc, hp, hS]; rfl
  refine ⟨_, hsz _ ⟨ops, rfl⟩, ?_, ?_, ?_⟩
  · rw [hsz _ ⟨ops ++ [.insertPairs ps], by simp [run, step]⟩, (insertPairs_spec h ps).2.2]
  · rw [hsz _ ⟨ops ++ [.removeWhere f], by simp [run, step]⟩]
    obtain ⟨_, h2, h3⟩ := removeWhereLoop_spec f _ _ 0 h (fun _ h => h) (fwd_nodup h)
    simp only [removeWhere]
    rw [h2, h3, Nat.zero_add, ← List.toFinset_card_of_nodup ((fwd_nodup h).filter _)]
    congr 1
    have : (pairs (run empty ops)).filter (fun p => ¬ (p ∈ (run empty ops).fwd ∧ f p.1 p.2 = true))
        = pairs (run empty ops) \ ((run empty ops).fwd.filter (fun p => f p.1 p.2)).toFinset := by
      ext q; simp [pairs]
    rw [this, Finset.card_sdiff_of_subset]
    intro q hq
    simp [pairs] at hq ⊢; exact hq.1
  · obtain ⟨_, _, h3⟩ := removeWhereLoop_spec f _ _ 0 h (fun _ h => h) (fwd_nodup h)
    simp only [removeWhere]
    rw [h3, Nat.zero_add, pairs, List.toFinset_card_of_nodup (fwd_nodup h)]
    exact List.length_filter_le _ _

-- non-vacuity: refused inserts, removal by value
example :
    let m := run (empty : BMap Nat Nat) [.insert 1 10, .insert 2 10, .insert 1 20, .insert 3 30,
      .removeValue 30, .insert 4 30]
    (lookupKey m 1, lookupKey m 2, lookupValue m 30, size m) = (some 10, none, some 4, some 2) := by
  decide

end Jlm.Util.BijectiveMap
