import Verif.Rvsdg.GammaSpec
import Verif.Bits.Props
import Mathlib.Data.List.Nodup
import Mathlib.Tactic.Push
import Mathlib.Data.List.Perm.Subperm
/-
C09: gamma reductions; C10: if-conversion.
-/
set_option linter.unusedSimpArgs false
namespace Jlm.Rvsdg.Gamma
open Jlm.Bits

theorem decode_eq_val (b : BVR) : decode b = val b := by
  induction b with
  | nil => rfl
  | cons b bs ih => rw [decode, ih]; cases b <;> simp [val, bv]

@[simp] theorem decode_repr {n : Nat} (x : BitVec n) : decode (repr x) = x.toNat := by
  rw [decode_eq_val]; simp

/-! ### predicate reduction -/

/-- A gamma whose predicate is a control constant is replaced by the selected subregion: every exit
variable is diverted to an output with its value. -/
theorem C09_predicate (w : World) (g : Gamma) (a n : Nat) (results : List BranchOrigin)
    (hp : g.pred = .ctl a n) (ha : a < g.nsubregions) (hl : results.length = g.nsubregions)
    (hj : ∀ j, .entry j ∈ results → j < g.entries.length) (hm : .matchContent ∉ results) :
    ∃ o, predicateReduction g a results = .divert o ∧ exitVal w g results = some (evalOut w o) := by
  have hlt : a < results.length := by omega
  have hmem : results[a] ∈ results := List.getElem_mem hlt
  have hget : results[a]? = some results[a] := List.getElem?_eq_getElem hlt
  unfold predicateReduction exitVal
  rw [hp]
  simp only [predVal]
  rw [hget]
  generalize results[a] = r at *
  cases r with
  | entry j =>
    have := hj j hmem
    simp [List.getElem?_eq_getElem this, branchVal, evalOut]
  | matchContent => exact absurd hmem hm
  | ctl a' n' => simp [branchVal, evalOut]
  | computed c =>
    simp only [Option.bind_some, branchVal, Act.divert.injEq, exists_eq_left', evalOut, List.map_map]
    have : w.env = evalOut w ∘ Out.orig := by funext i; simp [evalOut]
    rw [this]

/-! ### invariant reduction -/

/-- Invariant reduction is correct for exit variables all of whose branches return the same entry
variable. (Missing: the code also diverts when the entry variables differ, see the next theorem.) -/
theorem C09_invariant_partial (w : World) (g : Gamma) (results : List BranchOrigin) (j : Nat)
    (hp : PredOk w g) (hl : results.length = g.nsubregions) (hj : j < g.entries.length)
    (h : ∀ r ∈ results, r = .entry j) : Preserves w g results (invariantReduction g results) := by
  obtain ⟨⟨k, hk, hlt⟩, -⟩ := hp
  have hloop : ∀ l : List BranchOrigin, (∀ r ∈ l, r = .entry j) → invariantLoop l = some () := by
    intro l
    induction l with
    | nil => intro _; rfl
    | cons a l ih =>
      intro h
      have ha := h a (by simp); subst ha
      rw [invariantLoop]; exact ih (fun r hr => h r (by simp [hr]))
  cases results with
  | nil => simp at hl; omega
  | cons r rest =>
    have hr := h r (by simp); subst hr
    have := hloop rest (fun r hr => h r (by simp [hr]))
    simp only [invariantReduction, this, List.getElem?_eq_getElem hj, Preserves, exitVal, hk]
    have hg : (BranchOrigin.entry j :: rest)[k]? = some (.entry j) := by
      rw [List.getElem?_eq_getElem (by omega)]
      congr 1
      exact h _ (List.getElem_mem _)
    rw [hg]
    simp [branchVal, List.getElem?_eq_getElem hj, evalOut]

/-- An exit variable that is not routed through in branch 0 is left alone. -/
theorem C09_invariant_keep (g : Gamma) (r : BranchOrigin) (rest : List BranchOrigin)
    (h : (∃ a n, r = .ctl a n) ∨ ∃ c, r = .computed c) : invariantReduction g (r :: rest) = .keep := by
  rcases h with ⟨a, n, rfl⟩ | ⟨c, rfl⟩ <;> rfl

/-- Finding 2: the reduction merges different entry variables, changing the value, and has undefined
behaviour if a later branch computes its result. -/
theorem C09_invariant_wrong :
    (∃ (w : World) (g : Gamma) (results : List BranchOrigin), PredOk w g ∧
      results.length = g.nsubregions ∧ (∀ r ∈ results, ∃ j, r = .entry j ∧ j < g.entries.length) ∧
      ∃ o, invariantReduction g results = .divert o ∧ exitVal w g results ≠ some (evalOut w o)) ∧
    (∀ (g : Gamma) (j c : Nat), invariantReduction g [.entry j, .computed c] = .abort) := by
  refine ⟨⟨⟨fun i => .data i, fun _ _ => .data 0, .data 0⟩, ⟨.ctl 1 2, 2, [5, 6], [], []⟩,
    [.entry 0, .entry 1], ⟨⟨1, rfl, by decide⟩, trivial⟩, rfl, ?_, .orig 5, rfl, ?_⟩, ?_⟩
  · intro r hr
    simp at hr
    rcases hr with rfl | rfl
    · exact ⟨0, rfl, by decide⟩
    · exact ⟨1, rfl, by decide⟩
  · simp [exitVal, predVal, branchVal, evalOut]
  · intro g j c; rfl

/-! ### control constants -/

theorem inverseMap_foldl (n : Nat) : ∀ (l : List (Nat × Nat)) (acc : Option Nat),
    (l.map (·.2)).Nodup → acc = none ∨ n ∉ l.map (·.2) →
    l.foldl (fun acc p => if p.2 = n then some p.1 else acc) acc =
      match l.find? (fun p => p.2 = n) with
      | some p => some p.1
      | none => acc := by
  intro l
  induction l with
  | nil => intro acc _ _; rfl
  | cons p l ih =>
    intro acc hnd hacc
    simp only [List.map_cons, List.nodup_cons] at hnd
    rw [List.foldl_cons]
    by_cases h : p.2 = n
    · rw [if_pos h, ih _ hnd.2 (Or.inr (by rw [← h]; exact hnd.1))]
      have : l.find? (fun p => p.2 = n) = none := by
        rw [List.find?_eq_none]
        intro q hq; simp only [decide_eq_true_eq]
        intro hqn; apply hnd.1; rw [h, ← hqn]; exact List.mem_map_of_mem hq
      rw [this, List.find?_cons_of_pos (by simpa using h)]
    · rw [if_neg h, List.find?_cons_of_neg (by simpa using h)]
      refine ih _ hnd.2 ?_
      rcases hacc with h' | h'
      · exact Or.inl h'
      · right; simp at h' ⊢; intro x; exact h'.2 x

/-- With pairwise different alternatives the inverse map is the inverse. -/
theorem inverseMap_spec (l : List (Nat × Nat)) (hnd : (l.map (·.2)).Nodup) (n : Nat) :
    (∀ key, inverseMap l n = some key ↔ (key, n) ∈ l) ∧
    (inverseMap l n = none ↔ n ∉ l.map (·.2)) := by
  unfold inverseMap
  rw [inverseMap_foldl n l none hnd (Or.inl rfl)]
  cases h : l.find? (fun p => p.2 = n) with
  | none =>
    rw [List.find?_eq_none] at h
    refine ⟨fun key => ⟨fun hk => by simp at hk, fun hm => ?_⟩, ?_⟩
    · have := h _ hm; simp at this
    · simp only [true_iff, List.mem_map, not_exists, not_and]
      intro p hp; simpa using h p hp
  | some p =>
    have hp := List.mem_of_find?_eq_some h
    have hpn : p.2 = n := by simpa using List.find?_some h
    refine ⟨fun key => ?_, ?_⟩
    · constructor
      · intro hk; simp only [Option.some.injEq] at hk; subst hk; subst hpn; exact hp
      · intro hm
        have : p = (key, n) := List.inj_on_of_nodup_map hnd hp hm hpn
        rw [this]
    · simp only [reduceCtorEq, false_iff, not_not]
      rw [← hpn]; exact List.mem_map_of_mem hp

theorem lookup_upsert (k v x : Nat) (l : List (Nat × Nat)) :
    (upsert k v l).lookup x = if x = k then some v else l.lookup x := by
  unfold upsert
  by_cases h : x = k
  · subst h; simp [List.lookup]
  · have hk : (x == k) = false := by simpa using h
    rw [if_neg h, List.lookup_cons, hk]
    simp only []
    induction l with
    | nil => rfl
    | cons p l ih =>
      by_cases hp : p.1 = k
      · have hpx : (x == p.1) = false := by rw [hp]; exact hk
        rw [List.filter_cons_of_neg (by simpa using hp), ih, List.lookup_cons, hpx]
      · rw [List.filter_cons_of_pos (by simpa using hp), List.lookup_cons, List.lookup_cons, ih]

/-- The constant alternative a branch returns. -/
def altOf : BranchOrigin → Nat
  | .ctl a _ => a
  | _ => 0

def IsCtl2 (r : BranchOrigin) : Prop := ∃ a, r = .ctl a 2

theorem newMapping_spec (inv : Nat → Option Nat)
    (hinj : ∀ i j x, inv i = some x → inv j = some x → i = j) :
    ∀ (rs : List BranchOrigin) (n : Nat) (mp : List (Nat × Nat)) (d k : Nat), (∀ r ∈ rs, IsCtl2 r) →
    (∀ x i (hi : i < rs.length), inv (n + i) = some x →
      (newMapping inv n rs mp d k).1.lookup x = some (altOf rs[i])) ∧
    (∀ x, (∀ i, i < rs.length → inv (n + i) ≠ some x) →
      (newMapping inv n rs mp d k).1.lookup x = mp.lookup x) ∧
    (∀ i (hi : i < rs.length), inv (n + i) = none →
      (∀ j, j < rs.length → inv (n + j) = none → j = i) →
      (newMapping inv n rs mp d k).2.1 = altOf rs[i]) ∧
    ((∀ i, i < rs.length → inv (n + i) ≠ none) → (newMapping inv n rs mp d k).2.1 = d) ∧
    (newMapping inv n rs mp d k).2.2 = if rs = [] then k else 2 := by
  intro rs
  induction rs with
  | nil => intro n mp d k _; simp [newMapping]
  | cons r rs ih =>
    intro n mp d k hall
    obtain ⟨a, rfl⟩ := hall r (by simp)
    have hall' : ∀ r ∈ rs, IsCtl2 r := fun r hr => hall r (by simp [hr])
    rw [newMapping]
    cases hn : inv n with
    | some key =>
      simp only []
      obtain ⟨h1, h2, h3, h4, h5⟩ := ih (n + 1) (upsert key a mp) d 2 hall'
      have e : ∀ i, n + 1 + i = n + (i + 1) := fun i => by omega
      simp only [e] at h1 h2 h3 h4
      refine ⟨?_, ?_, ?_, ?_, ?_⟩
      · intro x i hi hx
        cases i with
        | zero =>
          have : key = x := by rw [Nat.add_zero, hn] at hx; simpa using hx
          subst this
          rw [h2 key (fun i _ hi' => by have := hinj _ _ _ hn hi'; omega), lookup_upsert]
          simp [altOf]
        | succ i => exact h1 x i (by simpa using hi) hx
      · intro x hx
        rw [h2 x (fun i hi => hx (i + 1) (by simpa using hi)), lookup_upsert, if_neg]
        rintro rfl; exact hx 0 (by simp) (by simpa using hn)
      · intro i hi hni hu
        cases i with
        | zero => rw [Nat.add_zero, hn] at hni; simp at hni
        | succ i =>
          exact h3 i (by simpa using hi) hni (fun j hj hnj => by
            have := hu (j + 1) (by simpa using hj) hnj; omega)
      · intro hni; exact h4 (fun i hi => hni (i + 1) (by simpa using hi))
      · rw [h5]; split <;> simp
    | none =>
      simp only []
      obtain ⟨h1, h2, h3, h4, h5⟩ := ih (n + 1) mp a 2 hall'
      have e : ∀ i, n + 1 + i = n + (i + 1) := fun i => by omega
      simp only [e] at h1 h2 h3 h4
      refine ⟨?_, ?_, ?_, ?_, ?_⟩
      · intro x i hi hx
        cases i with
        | zero => rw [Nat.add_zero, hn] at hx; simp at hx
        | succ i => exact h1 x i (by simpa using hi) hx
      · intro x hx; exact h2 x (fun i hi => hx (i + 1) (by simpa using hi))
      · intro i hi hni hu
        have h0 : (0 : Nat) = i := hu 0 (by simp) (by simpa using hn)
        subst h0
        rw [h4 (fun i hi hc => by have := hu (i + 1) (by simpa using hi) hc; omega)]
        simp [altOf]
      · intro hni; exact absurd hn (by simpa using hni 0 (by simp))
      · rw [h5]; split <;> simp

theorem lookup_eq_some_iff (l : List (Nat × Nat)) (hnd : (l.map (·.1)).Nodup) (x a : Nat) :
    l.lookup x = some a ↔ (x, a) ∈ l := by
  induction l with
  | nil => simp
  | cons p l ih =>
    simp only [List.map_cons, List.nodup_cons] at hnd
    rw [List.lookup_cons]
    by_cases h : x = p.1
    · have : (x == p.1) = true := by simpa using h
      rw [this]
      simp only [Option.some.injEq, List.mem_cons]
      constructor
      · intro ha; left; rw [h, ← ha]
      · rintro (ha | ha)
        · rw [← ha]
        · exfalso; apply hnd.1; rw [← h]; exact List.mem_map_of_mem (f := (·.1)) ha
    · have : (x == p.1) = false := by simpa using h
      rw [this]
      simp only [List.mem_cons]
      rw [ih hnd.2]
      constructor
      · exact Or.inr
      · rintro (ha | ha)
        · exact absurd (by rw [← ha]) h
        · exact ha

theorem ctlReducible_all {g : Gamma} {m : Match} {c : Bool} {results : List BranchOrigin}
    (h : ctlReducible g m c results = true) : (∀ r ∈ results, IsCtl2 r) := by
  simp only [ctlReducible, Bool.and_eq_true, List.all_eq_true] at h
  intro r hr
  have := h.2 r hr
  cases r with
  | ctl a n => simp at this; subst this; exact ⟨a, rfl⟩
  | _ => simp at this

/-- Replacing a gamma output that only selects between control constants by a new match is correct if
the match maps different values to different alternatives and no value to the default alternative.
(Missing: other mappings, for which the code is wrong, see the next theorem.) -/
theorem C09_controlConstant_partial (w : World) (g : Gamma) (m : Match) (i : Nat) (isCtl : Bool)
    (results : List BranchOrigin) (hpred : g.pred = .mtch m i) (hp : PredOk w g)
    (hl : results.length = g.nsubregions) (hd : m.defaultAlternative < g.nsubregions)
    (halt : ∀ p ∈ m.mapping, p.2 < g.nsubregions)
    (hinj : (m.mapping.map (·.2)).Nodup) (hdef : m.defaultAlternative ∉ m.mapping.map (·.2)) :
    Preserves w g results (ctlReduction g isCtl results) ∧
    ∀ o, ctlReduction g isCtl results = .divert o → ∃ m', o = .mtch m' (.orig i) ∧
      m'.nalternatives = 2 ∧ m'.nbits = m.nbits := by
  obtain ⟨⟨k, hk, hlt⟩, hm⟩ := hp
  rw [hpred] at hm
  simp only at hm
  obtain ⟨⟨x, hx, henv⟩, hkeys, -⟩ := hm
  rw [ctlReduction, hpred]
  simp only
  cases hred : ctlReducible g m isCtl results with
  | false => simp [Preserves]
  | true =>
    have hall := ctlReducible_all hred
    have hinv := fun n => inverseMap_spec m.mapping hinj n
    have hiinj : ∀ a b y, inverseMap m.mapping a = some y → inverseMap m.mapping b = some y → a = b := by
      intro a b y ha hb
      rw [(hinv a).1] at ha; rw [(hinv b).1] at hb
      have := List.inj_on_of_nodup_map hkeys ha hb rfl
      simpa using this
    obtain ⟨h1, h2, h3, h4, h5⟩ := newMapping_spec (inverseMap m.mapping) hiinj results 0 [] 0 0 hall
    simp only [Nat.zero_add] at h1 h2 h3 h4
    have hne : results ≠ [] := by rintro rfl; simp at hl; omega
    -- every alternative is the default or the image of a key
    have hcover : ∀ n, n < results.length → inverseMap m.mapping n = none → n = m.defaultAlternative := by
      intro n hn hnone
      rw [(hinv n).2] at hnone
      by_contra hc
      simp only [ctlReducible, Bool.and_eq_true, decide_eq_true_eq] at hred
      have hlen := hred.1.1
      have hnd : (m.defaultAlternative :: m.mapping.map (·.2)).Nodup := List.nodup_cons.2 ⟨hdef, hinj⟩
      rw [hnd.dedup] at hlen
      have hsub : (n :: m.defaultAlternative :: m.mapping.map (·.2)).Subperm (List.range g.nsubregions) := by
        apply List.subperm_of_subset
        · refine List.nodup_cons.2 ⟨?_, hnd⟩
          simp only [List.mem_cons, not_or]; exact ⟨hc, hnone⟩
        · intro y hy
          rw [List.mem_range]
          simp only [List.mem_cons, List.mem_map] at hy
          rcases hy with rfl | rfl | ⟨p, hp, rfl⟩
          · omega
          · exact hd
          · exact halt p hp
      have := hsub.length_le
      simp only [List.length_cons, List.length_range] at this hlen
      omega
    refine ⟨?_, ?_⟩
    · simp only [if_true, Preserves, exitVal, hk, evalOut, henv, matchVal, decode_repr, Match.alternative]
      rw [hpred] at hk
      simp only [predVal, henv, matchVal, decode_repr, Match.alternative, Val.ctl.injEq] at hk
      have hklt : k < results.length := by omega
      have hb : results[k]?.bind (branchVal w g) = some (.ctl (altOf results[k])) := by
        rw [List.getElem?_eq_getElem hklt]
        obtain ⟨a, ha⟩ := hall _ (List.getElem_mem hklt)
        rw [ha]; simp [branchVal, altOf]
      rw [hb]
      congr 2
      cases hlook : m.mapping.lookup x.toNat with
      | some a =>
        rw [hlook] at hk
        simp only at hk
        subst hk
        rw [lookup_eq_some_iff _ hkeys] at hlook
        rw [h1 x.toNat a hklt (((hinv a).1 _).2 hlook)]
      | none =>
        rw [hlook] at hk
        simp only at hk
        subst hk
        rw [h2 x.toNat (by
          intro n _ hn
          rw [(hinv n).1] at hn
          rw [(lookup_eq_some_iff _ hkeys _ _).2 hn] at hlook; simp at hlook)]
        simp only [List.lookup_nil]
        rw [h3 m.defaultAlternative hklt ((hinv _).2.2 hdef)]
        intro n hn hnone
        exact hcover n hn hnone
    · intro o ho
      simp only [if_true, Act.divert.injEq] at ho
      exact ⟨_, ho.symm, by rw [h5, if_neg hne], rfl⟩

/-- Finding 3: with two values mapped to the same alternative, or with the default alternative also
the image of a value, the new match computes a different control value. -/
theorem C09_controlConstant_wrong :
    (∃ (w : World) (g : Gamma) (results : List BranchOrigin) (m : Match), g.pred = .mtch m 0 ∧
      PredOk w g ∧ results.length = g.nsubregions ∧ m.defaultAlternative ∉ m.mapping.map (·.2) ∧
      ∃ o, ctlReduction g true results = .divert o ∧ exitVal w g results ≠ some (evalOut w o)) ∧
    (∃ (w : World) (g : Gamma) (results : List BranchOrigin) (m : Match), g.pred = .mtch m 0 ∧
      PredOk w g ∧ results.length = g.nsubregions ∧ (m.mapping.map (·.2)).Nodup ∧
      ∃ o, ctlReduction g true results = .divert o ∧ exitVal w g results ≠ some (evalOut w o)) := by
  constructor
  · -- 0 -> 0, 1 -> 0, default 1; value 0
    refine ⟨⟨fun _ => .bits (repr (0 : BitVec 8)), fun _ _ => .data 0, .data 0⟩,
      ⟨.mtch ⟨8, [(0, 0), (1, 0)], 1, 2⟩ 0, 2, [], [], []⟩, [.ctl 1 2, .ctl 0 2], _, rfl,
      ⟨⟨0, by decide, by decide⟩, ⟨⟨0, by decide, rfl⟩, by decide, by decide⟩⟩, rfl, by decide, _, rfl, ?_⟩
    simp only [evalOut, exitVal, predVal, matchVal, decode_repr]
    decide
  · -- 0 -> 0, 1 -> 1, default 1; value 5
    refine ⟨⟨fun _ => .bits (repr (5 : BitVec 8)), fun _ _ => .data 0, .data 0⟩,
      ⟨.mtch ⟨8, [(0, 0), (1, 1)], 1, 2⟩ 0, 2, [], [], []⟩, [.ctl 0 2, .ctl 1 2], _, rfl,
      ⟨⟨1, by decide, by decide⟩, ⟨⟨5, by decide, rfl⟩, by decide, by decide⟩⟩, rfl, by decide, _, rfl, ?_⟩
    simp only [evalOut, exitVal, predVal, matchVal, decode_repr]
    decide

/-! ### if-conversion -/

theorem asInt64_small {v : Nat} (h : v < 2 ^ 63) : asInt64 v = v := by
  unfold asInt64
  rw [BitVec.toInt_eq_toNat_cond, BitVec.toNat_ofNat, Nat.mod_eq_of_lt (by omega), if_pos (by omega)]

theorem asInt64_big {v : Nat} (h : ¬ v < 2 ^ 63) (h' : v < 2 ^ 64) : asInt64 v = (v : Int) - 2 ^ 64 := by
  unfold asInt64
  rw [BitVec.toInt_eq_toNat_cond, BitVec.toNat_ofNat, Nat.mod_eq_of_lt (by omega), if_neg (by omega)]
  rfl

/-- The constant built for the case value writes that value. -/
theorem const_decode (n v : Nat) (hn : 0 < n) (hv : v < 2 ^ n) (hv64 : v < 2 ^ 64)
    (h : n ≤ 64 ∨ v < 2 ^ 63) : ∃ c, BVR.ofInt n (asInt64 v) = some c ∧ decode c = v := by
  by_cases hs : v < 2 ^ 63
  · rw [asInt64_small hs, C06_ofInt n v (by omega), if_neg (by omega)]
    have h1 : -2 ^ n ≤ (v : Int) ∧ (v : Int) < 2 ^ n := by
      have : ((2 ^ n : Nat) : Int) = 2 ^ n := by simp
      omega
    rw [if_pos h1]
    refine ⟨_, rfl, ?_⟩
    rw [decode_repr, BitVec.ofInt_natCast, BitVec.toNat_ofNat, Nat.mod_eq_of_lt hv]
  · have hn64 : n = 64 := by
      rcases h with h | h
      · by_contra hc
        have : 2 ^ n ≤ 2 ^ 63 := Nat.pow_le_pow_right (by omega) (by omega)
        omega
      · exact absurd h hs
    subst hn64
    have e := asInt64_big hs hv64
    have : -2 ^ 63 ≤ asInt64 v ∧ asInt64 v < 2 ^ 63 := by rw [e]; omega
    rw [C06_ofInt 64 _ this, if_neg (by omega), if_pos (by omega)]
    refine ⟨_, rfl, ?_⟩
    rw [decode_repr, asInt64, BitVec.ofInt_toInt, BitVec.toNat_ofNat, Nat.mod_eq_of_lt hv]

theorem repr_one_iff (x : BitVec 1) : (Val.bits (repr x) = .bits [.one]) ↔ x.toNat = 1 := by
  have h := BitVec.eq_zero_or_eq_one x
  rcases h with rfl | rfl <;> decide

/-- Every exit variable that if-conversion diverts keeps its value, and if-conversion does not abort,
provided the match operand has at most 64 bits or the case value is below 2^63.
(Missing: wider match operands with larger case values, see the next theorem.) -/
theorem C10_ifConversion_partial (w : World) (g : Gamma) (results : List BranchOrigin)
    (hp : PredOk w g) (hl : results.length = g.nsubregions)
    (hj : ∀ j, .entry j ∈ results → j < g.entries.length) (hmc : .matchContent ∉ results)
    (hmatch : ∀ m i, g.pred = .mtch m i → m.defaultAlternative < 2 ∧
      ∀ p ∈ m.mapping, p.2 < 2 ∧ (m.mapping.length = 1 → p.2 ≠ m.defaultAlternative) ∧
        (m.nbits ≤ 64 ∨ p.1 < 2 ^ 63)) :
    Preserves w g results (ifConvert g results) := by
  obtain ⟨⟨k, hk, hlt⟩, hm⟩ := hp
  unfold ifConvert
  by_cases h2 : g.nsubregions = 2
  · rw [if_neg (by simpa using h2)]
    have hk2 : k = 0 ∨ k = 1 := by omega
    obtain ⟨r0, r1, rfl⟩ : ∃ r0 r1, results = [r0, r1] := by
      match results, hl with
      | [r0, r1], _ => exact ⟨r0, r1, rfl⟩
      | [], hl => simp at hl; omega
      | [_], hl => simp at hl; omega
      | _ :: _ :: _ :: _, hl => simp at hl; omega
    cases r0 with
    | ctl => cases r1 <;> simp [Preserves]
    | computed => cases r1 <;> simp [Preserves]
    | matchContent => simp at hmc
    | entry j0 =>
      cases r1 with
      | ctl => simp [Preserves]
      | computed => simp [Preserves]
      | matchContent => simp at hmc
      | entry j1 =>
        have hj0 := hj j0 (by simp)
        have hj1 := hj j1 (by simp)
        simp only [List.getElem?_eq_getElem hj0, List.getElem?_eq_getElem hj1]
        generalize hi0 : g.entries[j0] = i0
        generalize hi1 : g.entries[j1] = i1
        have hexit : exitVal w g [.entry j0, .entry j1] =
            some (if k = 0 then w.env i0 else w.env i1) := by
          rw [exitVal, hk]
          rcases hk2 with rfl | rfl <;>
            simp [branchVal, List.getElem?_eq_getElem hj0, List.getElem?_eq_getElem hj1, hi0, hi1]
        by_cases heq : i0 = i1
        · rw [if_pos heq]
          simp only [Preserves, hexit, evalOut, heq]; split <;> rfl
        · rw [if_neg heq]
          cases hpred : g.pred with
          | ctl a n =>
            simp only [Preserves, hexit, evalOut]
            rw [hpred] at hk
            simp only [predVal, Val.ctl.injEq] at hk
            subst hk
            rcases hk2 with rfl | rfl <;> simp
          | other i =>
            simp only [Preserves, hexit, evalOut]
            rw [hpred] at hk
            simp only [predVal] at hk
            rw [hk]
            rcases hk2 with rfl | rfl <;> simp
          | mtch m i =>
            simp only
            obtain ⟨hd, hmap⟩ := hmatch m i hpred
            rw [hpred] at hm hk
            simp only at hm
            obtain ⟨⟨x, hx, henv⟩, hkeys, hkr⟩ := hm
            simp only [predVal, henv, matchVal, decode_repr, Val.ctl.injEq] at hk
            match hmm : m.mapping with
            | [] => simp [Preserves]
            | _ :: _ :: _ => simp [Preserves]
            | [(cv, cs)] =>
              simp only
              obtain ⟨hcs, hne, hw64⟩ := hmap (cv, cs) (by rw [hmm]; simp)
              obtain ⟨hcv64, hcvn⟩ := hkr (cv, cs) (by rw [hmm]; simp)
              simp only at hcs hne hw64 hcv64 hcvn
              have hne' := hne (by rw [hmm]; rfl)
              rw [if_neg hne']
              have halt : k = if x.toNat = cv then cs else m.defaultAlternative := by
                rw [← hk, Match.alternative, hmm, List.lookup_cons]
                by_cases hxc : x.toNat = cv
                · simp [hxc]
                · have : (x.toNat == cv) = false := by simpa using hxc
                  simp [this, hxc]
              by_cases hid : m.nbits = 1 ∧ cv = cs
              · rw [if_pos hid]
                simp only [Preserves, hexit, evalOut, henv]
                have hx1 : x.toNat < 2 := by have := x.isLt; have e : 2 ^ m.nbits = 2 := by rw [hid.1]
                                             omega
                have : (Val.bits (repr x) = .bits [.one]) ↔ x.toNat = 1 := by
                  obtain ⟨hn1, -⟩ := hid
                  clear henv halt hk hmm hcvn hkr hkeys hmap hpred hw64 hne hne' hd hmatch
                  obtain ⟨nb, mp, da, na⟩ := m
                  simp only at hn1
                  subst hn1
                  exact repr_one_iff x
                by_cases hx1' : x.toNat = 1
                · rw [if_pos (this.2 hx1')]
                  have : k = 1 := by rw [halt]; split <;> omega
                  simp [this]
                · rw [if_neg (fun h => hx1' (this.1 h))]
                  have : k = 0 := by rw [halt]; split <;> omega
                  simp [this]
              · rw [if_neg hid]
                obtain ⟨c, hc, hdc⟩ := const_decode m.nbits cv hx hcvn hcv64 hw64
                rw [hc]
                simp only [Preserves, hexit, evalOut, henv, hdc, decode_repr]
                by_cases hxc : x.toNat = cv
                · rw [if_pos hxc] at halt
                  subst halt
                  by_cases hcs0 : k = 0 <;> simp [hxc, hcs0]
                · rw [if_neg hxc] at halt
                  have hxc' : ¬ cv = x.toNat := fun h => hxc h.symm
                  by_cases hcs0 : cs = 0
                  · have hk0 : ¬ k = 0 := by omega
                    simp [hxc', hcs0, hk0]
                  · have hk0 : k = 0 := by omega
                    simp [hxc', hcs0, hk0]
  · rw [if_pos (by simpa using h2)]; simp [Preserves]

/-- Finding 16: for match operands wider than 64 bits, a case value of at least 2^63 is passed as a
signed 64-bit number and sign-extended, so the select takes the wrong alternative. -/
theorem C10_wide_match_wrong : ∃ (w : World) (g : Gamma) (results : List BranchOrigin) (o : Out),
    PredOk w g ∧ results.length = g.nsubregions ∧ ifConvert g results = .divert o ∧
    exitVal w g results ≠ some (evalOut w o) := by
  refine ⟨⟨fun i => if i = 0 then .bits (repr (9223372036854775808 : BitVec 65)) else .data i,
      fun _ _ => .data 0, .data 0⟩,
    ⟨.mtch ⟨65, [(9223372036854775808, 1)], 0, 2⟩ 0, 2, [1, 2], [], []⟩, [.entry 0, .entry 1],
    .select (.eq (.const (repr (BitVec.ofInt 65 (-9223372036854775808)))) (.orig 0)) (.orig 2) (.orig 1),
    ⟨⟨1, ?_, by decide⟩, ⟨⟨_, by decide, rfl⟩, by decide, by decide⟩⟩, rfl, ?_, ?_⟩
  · simp [predVal, matchVal, Match.alternative, List.lookup]
  · have h1 : BVR.ofInt 65 (asInt64 9223372036854775808) =
        some (Bits.repr (BitVec.ofInt 65 (-9223372036854775808))) := by
      rw [asInt64_big (by omega) (by omega), C06_ofInt 65 _ (by omega), if_neg (by omega),
        if_pos (by omega)]
      rfl
    simp [ifConvert, h1]
  · simp [exitVal, predVal, matchVal, Match.alternative, List.lookup, branchVal, evalOut]

/-! Concrete cases. -/

/-- A two-way gamma on an 8-bit value: case 7 goes to subregion 0, everything else to subregion 1. -/
example : PredOk ⟨fun i => if i = 0 then .bits (repr (7 : BitVec 8)) else .data i, fun _ _ => .data 0, .data 0⟩
    ⟨.mtch ⟨8, [(7, 0)], 1, 2⟩ 0, 2, [1, 2], [], []⟩ ∧
    ifConvert ⟨.mtch ⟨8, [(7, 0)], 1, 2⟩ 0, 2, [1, 2], [], []⟩ [.entry 0, .entry 1] =
      .divert (.select (.eq (.const (repr (7 : BitVec 8))) (.orig 0)) (.orig 1) (.orig 2)) := by
  refine ⟨⟨⟨0, ?_, by decide⟩, ⟨⟨7, by decide, by simp⟩, by decide, by decide⟩⟩, ?_⟩
  · simp [predVal, matchVal, Match.alternative, List.lookup]
  · rfl

/-- An injective match without values mapped to the default: 3 -> 0, 5 -> 1, default 2. -/
example : ctlReduction ⟨.mtch ⟨8, [(3, 0), (5, 1)], 2, 3⟩ 0, 3, [], [], []⟩ true
      [.ctl 1 2, .ctl 0 2, .ctl 1 2] = .divert (.mtch ⟨8, [(5, 0), (3, 1)], 1, 2⟩ (.orig 0)) := by
  rfl

example : predicateReduction ⟨.ctl 1 2, 2, [4, 5], [], []⟩ 1 [.entry 0, .computed 3] =
    .divert (.copied 3 [.orig 4, .orig 5]) := rfl

end Jlm.Rvsdg.Gamma
