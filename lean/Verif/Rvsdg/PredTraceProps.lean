import Verif.Rvsdg.PredTraceSpec

/-!
# The region predicate trace computes what the specification says
-/

set_option linter.unusedVariables false
set_option linter.unusedSimpArgs false

namespace Jlm.Rvsdg.PredTrace

open Jlm.Rvsdg.Tracer (Nd Rg Out)

/-! ## Ranges -/

theorem Range.length_empty (n : Nat) : (Range.empty n).length = n := by simp [Range.empty]
theorem Range.length_unknown (n : Nat) : (Range.unknown n).length = n := by simp [Range.unknown]
theorem Range.length_single (n v : Nat) : (Range.single n v).length = n := by simp [Range.single]

theorem Range.length_union (a b : Range) : (a.union b).length = a.length := by
  induction a generalizing b with
  | nil => cases b <;> simp [Range.union]
  | cons x xs ih => cases b <;> simp [Range.union, ih]

theorem Range.allows_empty (n v : Nat) : (Range.empty n).allows v = false := by
  simp only [Range.allows, Range.empty, List.getD_eq_getElem?_getD, List.getElem?_replicate]
  split <;> rfl

theorem Range.allows_unknown (n v : Nat) : (Range.unknown n).allows v = true ↔ v < n := by
  simp only [Range.allows, Range.unknown, List.getD_eq_getElem?_getD, List.getElem?_replicate]
  split <;> simp_all

theorem Range.allows_single (n v w : Nat) (h : v < n) : (Range.single n v).allows w = true ↔ w = v := by
  simp only [Range.allows, Range.single, List.getD_eq_getElem?_getD, List.getElem?_set, List.getElem?_replicate, List.length_replicate]
  split
  · rename_i e; subst e; simp [h]
  · rename_i e
    have e' : ¬ w = v := fun hh => e hh.symm
    split <;> simp [e']

theorem Range.allows_union (a b : Range) (v : Nat) (h : a.length = b.length) :
    (a.union b).allows v = true ↔ a.allows v = true ∨ b.allows v = true := by
  induction a generalizing b v with
  | nil =>
    cases b with
    | nil => simp [Range.union, Range.allows]
    | cons _ _ => simp at h
  | cons x xs ih =>
    cases b with
    | nil => simp at h
    | cons y ys =>
      cases v with
      | zero => simp [Range.union, Range.allows]
      | succ v =>
        have := ih ys v (by simpa using h)
        simpa [Range.union, Range.allows] using this

/-! ## Reachability -/

theorem Leads.Star.trans {G : Graph} {a b c : Inp} (h : Leads.Star G a b) (h' : Leads.Star G b c) : Leads.Star G a c := by
  induction h' with
  | refl => exact h
  | tail j k _ l ih => exact .tail _ _ _ ih l

theorem Leads.Star.head {G : Graph} {a b c : Inp} (h : Leads G a b) (h' : Leads.Star G b c) : Leads.Star G a c :=
  Leads.Star.trans (.tail _ _ _ (.refl _) h) h'

theorem Leads.Star.cases_head {G : Graph} {a c : Inp} (h : Leads.Star G a c) : a = c ∨ ∃ b, Leads G a b ∧ Leads.Star G b c := by
  induction h with
  | refl => exact .inl rfl
  | tail j k _ l ih =>
    rcases ih with rfl | ⟨b, hb, hs⟩
    · exact .inr ⟨_, l, .refl _⟩
    · exact .inr ⟨b, hb, .tail _ _ _ hs l⟩

theorem may_iff {G : Graph} {c : Nat} {i : Inp} {v : Nat} :
    May G c i v ↔ Source G c i v ∨ ∃ j, Leads G i j ∧ May G c j v := by
  constructor
  · rintro ⟨j, hs, hsrc⟩
    rcases hs.cases_head with rfl | ⟨b, hb, hs⟩
    · exact .inl hsrc
    · exact .inr ⟨b, hb, j, hs, hsrc⟩
  · rintro (h | ⟨j, hl, k, hs, hsrc⟩)
    · exact ⟨i, .refl _, h⟩
    · exact ⟨k, .head hl hs, hsrc⟩

theorem Sub.trans {G : Graph} {a b c : Rg} (h : Sub G a b) (h' : Sub G b c) : Sub G a c := by
  induction h with
  | refl => exact h'
  | up n k w _ ih => exact .up n k _ (ih h')

section
variable {G : Graph} {rank : Out → Nat} {depth : Rg → Nat}

theorem Graph.Wf.leads_ctl (W : G.Wf rank depth) {i j : Inp} {c : Nat} (hc : G.ctl i = some c) (h : Leads G i j) : G.ctl j = some c := by
  cases h with
  | gammaOut n x k ho hk hlt => exact W.gammaOut i c n x k hc ho hk hlt
  | gammaArg n k a ho hk ha => exact W.gammaArg i c n k a hc ho hk ha
  | thetaOut n x ho hk hinv => exact (W.thetaOut i c n x hc ho hk).1
  | thetaPost n x ho hk hinv => exact (W.thetaOut i c n x hc ho hk).2
  | thetaArg n k a ho hk hinv => exact (W.thetaArg i c n k a hc ho hk).2.1

theorem Graph.Wf.star_ctl (W : G.Wf rank depth) {i j : Inp} {c : Nat} (hc : G.ctl i = some c) (h : Leads.Star G i j) :
    G.ctl j = some c := by
  induction h with
  | refl => exact hc
  | tail j k _ l ih => exact W.leads_ctl ih l

theorem Graph.Wf.leads_rank (W : G.Wf rank depth) {i j : Inp} {c : Nat} (hc : G.ctl i = some c) (h : Leads G i j) :
    rank (G.origin j) < rank (G.origin i) := by
  have hj := W.leads_ctl hc h
  cases h with
  | gammaOut n x k ho hk hlt =>
    rw [ho]; apply W.rankUp n k; rw [W.origin _ _ hj]; exact .refl _
  | gammaArg n k a ho hk ha =>
    rw [ho]; exact W.rankIn n a c k _ hj (.refl _)
  | thetaOut n x ho hk hinv => rw [ho]; exact W.rankOut n x c x hj
  | thetaPost n x ho hk hinv =>
    rw [ho]; apply W.rankUp n 0; rw [W.origin _ _ hj]; exact .refl _
  | thetaArg n k a ho hk hinv => rw [ho]; exact W.rankIn n a c k _ hj (.refl _)

theorem Graph.Wf.star_rank (W : G.Wf rank depth) {i j : Inp} {c : Nat} (hc : G.ctl i = some c) (h : Leads.Star G i j) :
    rank (G.origin j) ≤ rank (G.origin i) := by
  induction h with
  | refl => exact Nat.le_refl _
  | tail j k hs l ih => exact Nat.le_trans (Nat.le_of_lt (W.leads_rank (W.star_ctl hc hs) l)) ih

theorem Graph.invariant_iff {m : Nd} {k a : Nat} :
    G.invariant m k a = true ↔ G.origin (.res (some (m, k)) (a + 1)) = .arg (some (m, k)) a := by
  simp [Graph.invariant]

/-! ## The recursion -/

theorem lookup_update_self (k : Rg) (v w : Range) (l : List (Rg × Range)) (h : l.lookup k = some w) :
    (update k v l).lookup k = some v := by
  induction l with
  | nil => simp at h
  | cons e l ih =>
    obtain ⟨k', v'⟩ := e
    rw [update]
    by_cases hk : k' = k
    · rw [if_pos hk]; simp [List.lookup, hk]
    · rw [if_neg hk]
      have hk' : ¬ k = k' := fun hh => hk hh.symm
      have hb : (k == k') = false := by simp [hk']
      simp only [List.lookup, hb] at h ⊢
      exact ih h

theorem lookup_update_ne (k j : Rg) (v : Range) (l : List (Rg × Range)) (h : j ≠ k) :
    (update k v l).lookup j = l.lookup j := by
  induction l with
  | nil => rfl
  | cons e l ih =>
    obtain ⟨k', v'⟩ := e
    rw [update]
    by_cases hk : k' = k
    · rw [if_pos hk]
      have hb : (j == k') = false := by simp [hk, h]
      simp only [List.lookup, hb]
    · rw [if_neg hk]
      simp only [List.lookup, ih]

/-- The range is that of the input. -/
def Good (G : Graph) (c : Nat) (i : Inp) (r : Range) : Prop := r.length = c ∧ ∀ v, r.allows v = true ↔ May G c i v

def Vis (s : St) (i : Inp) : Prop := ∃ r, s.vis.lookup i = some r

structure Inv (G : Graph) (c : Nat) (use : Inp) (s : St) : Prop where
  good : ∀ i r, s.vis.lookup i = some r → Good G c i r
  star : ∀ i, Vis s i → Leads.Star G use i
  closed : ∀ i j, Vis s i → Leads G i j → Vis s j
  root : s.rr.lookup none = none
  hasR : ∀ p ρ, s.rr.lookup (some p) = some ρ → ρ.length = c ∧ (∃ x, Vis s (.res (some p) x)) ∧
    ∀ v, ρ.allows v = true ↔ ∃ x, Vis s (.res (some p) x) ∧ May G c (.res (some p) x) v
  noR : ∀ p, s.rr.lookup (some p) = none → ∀ x, ¬ Vis s (.res (some p) x)

/-- What a call leaves. -/
structure Post (G : Graph) (rank : Out → Nat) (c : Nat) (use : Inp) (i : Inp) (s s' : St) : Prop where
  inv : Inv G c use s'
  mono : ∀ j, Vis s j → Vis s' j
  new : ∀ j, Vis s' j → Vis s j ∨ rank (G.origin j) ≤ rank (G.origin i)

theorem branches_ok (W : G.Wf rank depth) {c : Nat} {use i : Inp} {go : Inp → M Range} {m : Nd} {x b : Nat}
    (hgo : ∀ j s, G.ctl j = some c → rank (G.origin j) < b → Leads.Star G use j → Inv G c use s →
      ∃ r s', go j s = .ok (r, s') ∧ Good G c j r ∧ Vis s' j ∧ Post G rank c use j s s') :
    ∀ (ks : List Nat) (range : Range) (s : St), range.length = c → Inv G c use s →
      (∀ k ∈ ks, G.ctl (.res (some (m, k)) x) = some c ∧ rank (G.origin (.res (some (m, k)) x)) < b ∧
        Leads.Star G use (.res (some (m, k)) x)) →
      ∃ r s', branches go m x ks range s = .ok (r, s') ∧ r.length = c ∧
        (∀ v, r.allows v = true ↔ range.allows v = true ∨ ∃ k ∈ ks, May G c (.res (some (m, k)) x) v) ∧
        Inv G c use s' ∧ (∀ j, Vis s j → Vis s' j) ∧ (∀ j, Vis s' j → Vis s j ∨ rank (G.origin j) < b) ∧
        ∀ k ∈ ks, Vis s' (.res (some (m, k)) x) := by
  intro ks
  induction ks with
  | nil =>
    intro range s hl hi _
    exact ⟨range, s, rfl, hl, by simp, hi, fun _ h => h, fun _ h => .inl h, by simp⟩
  | cons k ks ih =>
    intro range s hl hi hks
    have hk := hks k (by simp)
    obtain ⟨r, s₁, hr, hg, hv, hp⟩ := hgo _ s hk.1 hk.2.1 hk.2.2 hi
    obtain ⟨r', s₂, hr', hl', ha', hi', hm', hn', hv'⟩ := ih (range.union r) s₁ (by rw [Range.length_union]; exact hl) hp.inv
      (fun k' h => hks k' (by simp [h]))
    refine ⟨r', s₂, ?_, hl', ?_, hi', fun j h => hm' j (hp.mono j h), ?_, ?_⟩
    · rw [branches]; dsimp only; rw [hr]; exact hr'
    · intro v
      rw [ha' v, Range.allows_union _ _ _ (by rw [hl, hg.1]), hg.2 v]
      constructor
      · rintro ((h | h) | ⟨k', hk', h⟩)
        · exact .inl h
        · exact .inr ⟨k, by simp, h⟩
        · exact .inr ⟨k', by simp [hk'], h⟩
      · rintro (h | ⟨k', hk', h⟩)
        · exact .inl (.inl h)
        · rcases List.mem_cons.mp hk' with rfl | hk'
          · exact .inl (.inr h)
          · exact .inr ⟨k', hk', h⟩
    · intro j h
      rcases hn' j h with h | h
      · rcases hp.new j h with h | h
        · exact .inl h
        · exact .inr (Nat.lt_of_le_of_lt h hk.2.1)
      · exact .inr h
    · intro k' h
      rcases List.mem_cons.mp h with rfl | h
      · exact hm' _ hv
      · exact hv' k' h

/-- What `Compute` returns. -/
structure CPost (G : Graph) (rank : Out → Nat) (c : Nat) (use : Inp) (i : Inp) (r : Range) (s s' : St) : Prop where
  good : Good G c i r
  inv : Inv G c use s'
  mono : ∀ j, Vis s j → Vis s' j
  new : ∀ j, Vis s' j → Vis s j ∨ rank (G.origin j) < rank (G.origin i)
  next : ∀ j, Leads G i j → Vis s' j

theorem cpost_unknown (W : G.Wf rank depth) {c : Nat} {use i : Inp} {s : St} (hi : Inv G c use s) (ho : Opaque G i)
    (hno : ∀ j, ¬ Leads G i j) (hnc : ∀ n x m v, G.origin i = .out n x → G.kind n ≠ .const m v) :
    CPost G rank c use i (Range.unknown c) s s := by
  refine ⟨⟨Range.length_unknown c, fun v => ?_⟩, hi, fun _ h => h, fun _ h => .inl h, fun j h => absurd h (hno j)⟩
  rw [Range.allows_unknown, may_iff]
  constructor
  · intro h; exact .inl (.inr ⟨ho, h⟩)
  · rintro ((⟨n, x, m, h1, h2⟩ | ⟨_, h⟩) | ⟨j, h, _⟩)
    · exact absurd h2 (hnc n x m v h1)
    · exact h
    · exact absurd h (hno j)

theorem cpost_go (W : G.Wf rank depth) {c : Nat} {use i j : Inp} {go : Inp → M Range} {s : St} (hc : G.ctl i = some c)
    (hgo : ∀ j s, G.ctl j = some c → rank (G.origin j) < rank (G.origin i) → Leads.Star G use j → Inv G c use s →
      ∃ r s', go j s = .ok (r, s') ∧ Good G c j r ∧ Vis s' j ∧ Post G rank c use j s s')
    (hs : Leads.Star G use i) (hi : Inv G c use s) (hl : Leads G i j) (huniq : ∀ j', Leads G i j' → j' = j)
    (hns : ∀ v, ¬ Source G c i v) :
    ∃ r s', go j s = .ok (r, s') ∧ CPost G rank c use i r s s' := by
  have hr := W.leads_rank hc hl
  obtain ⟨r, s', h1, h2, h3, h4⟩ := hgo j s (W.leads_ctl hc hl) hr (.tail _ _ _ hs hl) hi
  refine ⟨r, s', h1, ⟨h2.1, fun v => ?_⟩, h4.inv, h4.mono, ?_, ?_⟩
  · rw [h2.2 v, may_iff (i := i)]
    constructor
    · intro h; exact .inr ⟨j, hl, h⟩
    · rintro (h | ⟨j', hj', h⟩)
      · exact absurd h (hns v)
      · rw [← huniq j' hj']; exact h
  · intro k hk
    rcases h4.new k hk with h | h
    · exact .inl h
    · exact .inr (Nat.lt_of_le_of_lt h hr)
  · intro k hk; rw [huniq k hk]; exact h3

theorem compute_ok (W : G.Wf rank depth) {c : Nat} {use i : Inp} {go : Inp → M Range} {s : St} (hc : G.ctl i = some c)
    (hgo : ∀ j s, G.ctl j = some c → rank (G.origin j) < rank (G.origin i) → Leads.Star G use j → Inv G c use s →
      ∃ r s', go j s = .ok (r, s') ∧ Good G c j r ∧ Vis s' j ∧ Post G rank c use j s s')
    (hs : Leads.Star G use i) (hi : Inv G c use s) :
    ∃ r s', compute G c go (G.origin i) s = .ok (r, s') ∧ CPost G rank c use i r s s' := by
  cases ho : G.origin i with
  | out m x =>
    simp only [compute]
    cases hk : G.kind m with
    | const n v =>
      obtain ⟨hn, hv⟩ := W.const i c m x n v hc ho hk
      refine ⟨_, _, rfl, ⟨by rw [Range.length_single, hn], fun w => ?_⟩, hi, fun _ h => h, fun _ h => .inl h, ?_⟩
      · rw [Range.allows_single _ _ _ (by omega), may_iff]
        constructor
        · rintro rfl; exact .inl (.inl ⟨m, x, n, ho, hk⟩)
        · rintro ((⟨n', x', m', h1, h2⟩ | ⟨h, _⟩) | ⟨j, h, _⟩)
          · rw [ho] at h1; cases h1; rw [hk] at h2; cases h2; rfl
          · cases h <;> simp_all
          · cases h <;> simp_all
      · intro j h; cases h <;> simp_all
    | simple =>
      exact ⟨_, _, rfl, cpost_unknown W hi (.simple i m x ho hk) (by intro j h; cases h <;> simp_all)
        (by intro n x m v h1 h2; simp_all)⟩
    | other =>
      exact ⟨_, _, rfl, cpost_unknown W hi (.node i m x ho hk) (by intro j h; cases h <;> simp_all)
        (by intro n x m v h1 h2; simp_all)⟩
    | gamma =>
      simp only [computeOut]
      have hb : ∀ k ∈ List.range (G.nsub m), Leads G i (.res (some (m, k)) x) := fun k h =>
        .gammaOut i m x k ho hk (List.mem_range.mp h)
      obtain ⟨r, s', h1, h2, h3, h4, h5, h6, h7⟩ := branches_ok W (i := i) (m := m) (x := x) hgo (List.range (G.nsub m)) (Range.empty c) s
        (Range.length_empty c) hi
        (fun k h => ⟨W.leads_ctl hc (hb k h), W.leads_rank hc (hb k h), .tail _ _ _ hs (hb k h)⟩)
      refine ⟨r, s', h1, ⟨h2, fun v => ?_⟩, h4, h5, h6, ?_⟩
      · rw [h3 v, may_iff (i := i)]
        constructor
        · rintro (h | ⟨k, hk', h⟩)
          · rw [Range.allows_empty] at h; cases h
          · exact .inr ⟨_, hb k hk', h⟩
        · rintro ((⟨n', x', m', e1, e2⟩ | ⟨h, _⟩) | ⟨j, h, hm⟩)
          · simp_all
          · cases h <;> simp_all
          · cases h with
            | gammaOut n x' k e1 e2 e3 =>
              rw [ho] at e1; cases e1
              exact .inr ⟨k, List.mem_range.mpr e3, hm⟩
            | _ => simp_all
      · intro j h
        cases h with
        | gammaOut n x' k e1 e2 e3 =>
          rw [ho] at e1; cases e1
          exact h7 k (List.mem_range.mpr e3)
        | _ => simp_all
    | theta =>
      simp only [computeOut]
      have hns : ∀ v, ¬ Source G c i v := by
        rintro v (⟨n', x', m', e1, e2⟩ | ⟨h, _⟩)
        · simp_all
        · cases h <;> simp_all
      by_cases hin : G.invariant m 0 x = true
      · rw [if_pos hin]
        have hin' := Graph.invariant_iff.mp hin
        refine cpost_go W hc hgo hs hi (.thetaOut i m x ho hk hin') ?_ hns
        intro j h
        cases h with
        | thetaOut n x' e1 e2 e3 => rw [ho] at e1; cases e1; rfl
        | thetaPost n x' e1 e2 e3 => rw [ho] at e1; cases e1; exact absurd hin' e3
        | _ => simp_all
      · rw [if_neg hin]
        have hin' := fun h => hin (Graph.invariant_iff.mpr h)
        refine cpost_go W hc hgo hs hi (.thetaPost i m x ho hk hin') ?_ hns
        intro j h
        cases h with
        | thetaOut n x' e1 e2 e3 => rw [ho] at e1; cases e1; exact absurd e3 hin'
        | thetaPost n x' e1 e2 e3 => rw [ho] at e1; cases e1; rfl
        | _ => simp_all
  | arg rg a =>
    cases rg with
    | none =>
      exact ⟨_, _, rfl, cpost_unknown W hi (.root i a ho) (by intro j h; cases h <;> simp_all)
        (by intro n x m v h1 h2; simp_all)⟩
    | some p =>
      obtain ⟨m, k⟩ := p
      simp only [compute]
      cases hk : G.kind m with
      | gamma =>
        simp only [computeArg]
        by_cases ha : a = 0
        · rw [if_pos ha]; subst ha
          exact ⟨_, _, rfl, cpost_unknown W hi (.content i m k ho hk) (by intro j h; cases h <;> simp_all)
            (by intro n x m v h1 h2; simp_all)⟩
        · rw [if_neg ha]
          refine cpost_go W hc hgo hs hi (.gammaArg i m k a ho hk ha) ?_ ?_
          · intro j h
            cases h with
            | gammaArg n k' a' e1 e2 e3 => rw [ho] at e1; cases e1; rfl
            | _ => simp_all
          · rintro v (⟨n', x', m', e1, e2⟩ | ⟨h, _⟩)
            · simp_all
            · cases h <;> simp_all
      | theta =>
        simp only [computeArg]
        by_cases hin : G.invariant m k a = true
        · rw [if_pos hin]
          have hin' := Graph.invariant_iff.mp hin
          refine cpost_go W hc hgo hs hi (.thetaArg i m k a ho hk hin') ?_ ?_
          · intro j h
            cases h with
            | thetaArg n k' a' e1 e2 e3 => rw [ho] at e1; cases e1; rfl
            | _ => simp_all
          · rintro v (⟨n', x', m', e1, e2⟩ | ⟨h, _⟩)
            · simp_all
            · cases h with
              | loop n k' a' e1 e2 e3 => rw [ho] at e1; cases e1; exact e3 hin'
              | _ => simp_all
        · rw [if_neg hin]
          have hin' := fun h => hin (Graph.invariant_iff.mpr h)
          refine ⟨_, _, rfl, cpost_unknown W hi (.loop i m k a ho hk hin') ?_ (by intro n x m v h1 h2; simp_all)⟩
          intro j h
          cases h with
          | thetaArg n k' a' e1 e2 e3 => rw [ho] at e1; cases e1; exact hin' e3
          | _ => simp_all
      | const n v =>
        exact ⟨_, _, rfl, cpost_unknown W hi (.arg i m k a ho (by simp [hk]) (by simp [hk])) (by intro j h; cases h <;> simp_all)
          (by intro n x m v h1 h2; simp_all)⟩
      | simple =>
        exact ⟨_, _, rfl, cpost_unknown W hi (.arg i m k a ho (by simp [hk]) (by simp [hk])) (by intro j h; cases h <;> simp_all)
          (by intro n x m v h1 h2; simp_all)⟩
      | other =>
        exact ⟨_, _, rfl, cpost_unknown W hi (.arg i m k a ho (by simp [hk]) (by simp [hk])) (by intro j h; cases h <;> simp_all)
          (by intro n x m v h1 h2; simp_all)⟩

theorem vis_cons {i j : Inp} {r : Range} {s : St} {rr : List (Rg × Range)} :
    Vis ⟨rr, (i, r) :: s.vis⟩ j ↔ j = i ∨ Vis s j := by
  simp only [Vis]
  by_cases h : j = i
  · subst h
    constructor
    · intro _; exact .inl rfl
    · intro _; exact ⟨r, by simp [List.lookup]⟩
  · have hb : (j == i) = false := by simp [h]
    simp only [List.lookup, hb, h, false_or]

theorem finish_inv (W : G.Wf rank depth) {c : Nat} {use i : Inp} {r : Range} {s : St} (hg : Good G c i r) (hi : Inv G c use s)
    (hs : Leads.Star G use i) (hn : ∀ j, Leads G i j → Vis s j) (hnv : s.vis.lookup i = none) :
    Inv G c use ⟨record i r s.rr, (i, r) :: s.vis⟩ := by
  have hvis : ∀ j, Vis ⟨record i r s.rr, (i, r) :: s.vis⟩ j ↔ j = i ∨ Vis s j := fun j => vis_cons
  refine ⟨?_, ?_, ?_, ?_, ?_, ?_⟩
  · intro j r' h
    by_cases e : j = i
    · subst e; simp [List.lookup] at h; subst h; exact hg
    · have hb : (j == i) = false := by simp [e]
      simp only [List.lookup, hb] at h
      exact hi.good j r' h
  · intro j h
    rcases (hvis j).mp h with rfl | h
    · exact hs
    · exact hi.star j h
  · intro j k h hl
    rcases (hvis j).mp h with rfl | h
    · exact (hvis k).mpr (.inr (hn k hl))
    · exact (hvis k).mpr (.inr (hi.closed j k h hl))
  · show (record i r s.rr).lookup none = none
    unfold record
    split
    · rename_i p x
      split
      · rw [lookup_update_ne _ _ _ _ (by simp)]; exact hi.root
      · have hb : ((none : Rg) == some p) = false := by simp
        simp only [List.lookup, hb]; exact hi.root
    · exact hi.root
  · intro p ρ h
    change (record i r s.rr).lookup (some p) = some ρ at h
    by_cases e : ∃ x, i = .res (some p) x
    · obtain ⟨x, rfl⟩ := e
      simp only [record] at h
      cases hl : s.rr.lookup (some p) with
      | none =>
        rw [hl] at h
        simp [List.lookup] at h; subst h
        refine ⟨hg.1, ⟨x, (hvis _).mpr (.inl rfl)⟩, fun v => ?_⟩
        rw [hg.2 v]
        constructor
        · intro hm; exact ⟨x, (hvis _).mpr (.inl rfl), hm⟩
        · rintro ⟨y, hy, hm⟩
          rcases (hvis _).mp hy with e | hy
          · cases e; exact hm
          · exact absurd hy (hi.noR p hl y)
      | some old =>
        rw [hl] at h; simp only at h
        rw [lookup_update_self _ _ _ _ hl] at h
        cases h
        obtain ⟨o1, o2, o3⟩ := hi.hasR p old hl
        refine ⟨by rw [Range.length_union]; exact o1, ⟨x, (hvis _).mpr (.inl rfl)⟩, fun v => ?_⟩
        rw [Range.allows_union _ _ _ (by rw [o1, hg.1]), o3 v, hg.2 v]
        constructor
        · rintro (⟨y, hy, hm⟩ | hm)
          · exact ⟨y, (hvis _).mpr (.inr hy), hm⟩
          · exact ⟨x, (hvis _).mpr (.inl rfl), hm⟩
        · rintro ⟨y, hy, hm⟩
          rcases (hvis _).mp hy with e | hy
          · cases e; exact .inr hm
          · exact .inl ⟨y, hy, hm⟩
    · have hsame : (record i r s.rr).lookup (some p) = s.rr.lookup (some p) := by
        unfold record
        split
        · rename_i q x
          have hq : (some p : Rg) ≠ some q := by rintro h; cases h; exact e ⟨x, rfl⟩
          split
          · rw [lookup_update_ne _ _ _ _ hq]
          · have hb : ((some p : Rg) == some q) = false := by simpa using hq
            simp only [List.lookup, hb]
        · rfl
      rw [hsame] at h
      obtain ⟨o1, ⟨x, o2⟩, o3⟩ := hi.hasR p ρ h
      refine ⟨o1, ⟨x, (hvis _).mpr (.inr o2)⟩, fun v => ?_⟩
      rw [o3 v]
      constructor
      · rintro ⟨y, hy, hm⟩; exact ⟨y, (hvis _).mpr (.inr hy), hm⟩
      · rintro ⟨y, hy, hm⟩
        rcases (hvis _).mp hy with e' | hy
        · exact absurd ⟨y, e'.symm⟩ e
        · exact ⟨y, hy, hm⟩
  · intro p h x hx
    change (record i r s.rr).lookup (some p) = none at h
    by_cases e : ∃ x, i = .res (some p) x
    · obtain ⟨y, rfl⟩ := e
      simp only [record] at h
      cases hl : s.rr.lookup (some p) with
      | none => rw [hl] at h; simp [List.lookup] at h
      | some old => rw [hl] at h; simp only at h; rw [lookup_update_self _ _ _ _ hl] at h; cases h
    · have hsame : (record i r s.rr).lookup (some p) = s.rr.lookup (some p) := by
        unfold record
        split
        · rename_i q x
          have hq : (some p : Rg) ≠ some q := by rintro h; cases h; exact e ⟨x, rfl⟩
          split
          · rw [lookup_update_ne _ _ _ _ hq]
          · have hb : ((some p : Rg) == some q) = false := by simpa using hq
            simp only [List.lookup, hb]
        · rfl
      rw [hsame] at h
      rcases (hvis _).mp hx with e' | hx
      · exact e ⟨x, e'.symm⟩
      · exact hi.noR p h x hx

theorem computeAndRecord_ok (W : G.Wf rank depth) {c : Nat} {use : Inp} : ∀ (f : Nat) (i : Inp) (s : St), G.ctl i = some c →
    rank (G.origin i) < f → Leads.Star G use i → Inv G c use s →
    ∃ r s', computeAndRecord G c f i s = .ok (r, s') ∧ Good G c i r ∧ Vis s' i ∧ Post G rank c use i s s' := by
  intro f
  induction f with
  | zero => intro i s _ h; omega
  | succ f ih =>
    intro i s hc hr hs hi
    rw [computeAndRecord]
    dsimp only
    cases hv : s.vis.lookup i with
    | some r => exact ⟨r, s, rfl, hi.good i r hv, ⟨r, hv⟩, hi, fun _ h => h, fun _ h => .inl h⟩
    | none =>
      simp only
      obtain ⟨r, s', h1, h2⟩ := compute_ok W hc (go := computeAndRecord G c f)
        (fun j s hj hrj hsj hij => ih j s hj (by omega) hsj hij) hs hi
      have hnv : s'.vis.lookup i = none := by
        cases h : s'.vis.lookup i with
        | none => rfl
        | some r' =>
          rcases h2.new i ⟨r', h⟩ with ⟨r'', h'⟩ | h'
          · rw [hv] at h'; cases h'
          · omega
      refine ⟨r, ⟨record i r s'.rr, (i, r) :: s'.vis⟩, ?_, h2.good, vis_cons.mpr (.inl rfl),
        finish_inv W h2.good h2.inv hs h2.next hnv, fun j h => vis_cons.mpr (.inr (h2.mono j h)), ?_⟩
      · rw [h1]; simp only [finish, hnv]
      · intro j h
        rcases vis_cons.mp h with rfl | h
        · exact .inr (Nat.le_refl _)
        · rcases h2.new j h with h | h
          · exact .inl h
          · exact .inr (Nat.le_of_lt h)

theorem inv_start (G : Graph) (c : Nat) (use : Inp) : Inv G c use ⟨[], []⟩ :=
  ⟨by intro i r h; simp at h, by rintro i ⟨r, h⟩; simp at h, by rintro i j ⟨r, h⟩; simp at h, rfl, by intro p ρ h; simp at h,
    by rintro p _ x ⟨r, h⟩; simp at h⟩

/-- The map that is made for a predicate. -/
structure RecordOk (G : Graph) (c : Nat) (use : Inp) (rr : List (Rg × Range)) : Prop where
  exact : ∀ r v, (rangeOf rr c r).allows v = true ↔ Assigns G c r use v
  keys : ∀ p x, Leads.Star G use (.res (some p) x) → (rr.lookup (some p)).isSome

theorem record_ok (W : G.Wf rank depth) {c fuel : Nat} {use : Inp} (hc : G.ctl use = some c) (hf : rank (G.origin use) < fuel) :
    ∃ r s, computeAndRecord G c fuel use ⟨[], []⟩ = .ok (r, s) ∧ RecordOk G c use s.rr := by
  obtain ⟨r, s, h1, h2, h3, h4⟩ := computeAndRecord_ok W fuel use ⟨[], []⟩ hc hf (.refl _) (inv_start G c use)
  have hall : ∀ j, Leads.Star G use j ↔ Vis s j := by
    intro j
    constructor
    · intro h
      induction h with
      | refl => exact h3
      | tail j k _ l ih => exact h4.inv.closed j k ih l
    · exact h4.inv.star j
  refine ⟨r, s, h1, ?_, ?_⟩
  · intro R v
    cases R with
    | none =>
      rw [rangeOf, h4.inv.root, Option.getD_none, Range.allows_unknown]
      simp [Assigns]
    | some p =>
      cases hl : s.rr.lookup (some p) with
      | none =>
        rw [rangeOf, hl, Option.getD_none, Range.allows_unknown]
        have hn := h4.inv.noR p hl
        constructor
        · intro h; exact .inr ⟨fun x _ hs => hn x ((hall _).mp hs), h⟩
        · rintro (⟨x, _, hs, _⟩ | ⟨_, h⟩)
          · exact absurd ((hall _).mp hs) (hn x)
          · exact h
      | some ρ =>
        rw [rangeOf, hl, Option.getD_some]
        obtain ⟨o1, ⟨y, o2⟩, o3⟩ := h4.inv.hasR p ρ hl
        rw [o3 v]
        constructor
        · rintro ⟨x, hx, hm⟩; exact .inl ⟨x, by simp, (hall _).mpr hx, hm⟩
        · rintro (⟨x, _, hs, hm⟩ | ⟨hno, _⟩)
          · exact ⟨x, (hall _).mp hs, hm⟩
          · exact absurd ((hall _).mpr o2) (hno y (by simp))
  · intro p x h
    cases hl : s.rr.lookup (some p) with
    | none => exact absurd ((hall _).mp h) (h4.inv.noR p hl x)
    | some ρ => rfl

end

end Jlm.Rvsdg.PredTrace
