import Verif.Rvsdg.PredTraceExec

/-!
# Theorems about the region predicate trace
-/

set_option linter.unusedVariables false
set_option linter.unusedSimpArgs false

namespace Jlm.Rvsdg.PredTrace

open Jlm.Rvsdg.Tracer (Nd Rg Out)

section
variable {G : Graph} {rank : Out → Nat} {depth : Rg → Nat}

/-! ## The state of the trace -/

/-- What is stored is true of the graph, and what it depends on is observed. -/
structure TInv (G : Graph) (T : Trace) : Prop where
  sat : ∀ r l, T.sat.lookup r = some l → (∀ use v, (use, v) ∈ l ↔ Requires G r use v) ∧ ∀ w, Sub G r w → w ∈ T.obs
  assign : ∀ use rr, T.assign.lookup use = some rr → ∃ c, G.ctl use = some c ∧ RecordOk G c use rr ∧
    ∀ j, Leads.Star G use j → G.regionI j ∈ T.obs

theorem mem_observe {r w : Rg} {l : List Rg} : w ∈ observe r l ↔ w = r ∨ w ∈ l := by
  rw [observe]
  split
  · rename_i h
    constructor
    · exact .inr
    · rintro (rfl | h')
      · exact h
      · exact h'
  · simp

theorem mem_observeAll {rr : List (Rg × Range)} {l : List Rg} {w : Rg} : w ∈ observeAll rr l ↔ (∃ ρ, (w, ρ) ∈ rr) ∨ w ∈ l := by
  induction rr with
  | nil => simp [observeAll]
  | cons e rr ih =>
    change w ∈ observe e.1 (observeAll rr l) ↔ _
    rw [mem_observe, ih]
    constructor
    · rintro (rfl | ⟨ρ, h⟩ | h)
      · exact .inl ⟨e.2, by simp⟩
      · exact .inl ⟨ρ, by simp [h]⟩
      · exact .inr h
    · rintro (⟨ρ, h⟩ | h)
      · rcases List.mem_cons.mp h with rfl | h
        · exact .inl rfl
        · exact .inr (.inl ⟨ρ, h⟩)
      · exact .inr (.inr h)

theorem mem_of_lookup {rr : List (Rg × Range)} {w : Rg} (h : (rr.lookup w).isSome) : ∃ ρ, (w, ρ) ∈ rr := by
  induction rr with
  | nil => simp at h
  | cons e rr ih =>
    obtain ⟨k, ρ⟩ := e
    by_cases hk : w = k
    · subst hk; exact ⟨ρ, by simp⟩
    · have hb : (w == k) = false := by simp [hk]
      simp only [List.lookup, hb] at h
      obtain ⟨ρ', h'⟩ := ih h
      exact ⟨ρ', by simp [h']⟩

theorem requires_none {use : Inp} {v : Nat} : ¬ Requires G none use v := by
  rintro ⟨n, _, _, h⟩
  cases h

theorem requires_some {n : Nd} {k : Nat} {use : Inp} {v : Nat} :
    Requires G (some (n, k)) use v ↔ Requires G (G.region n) use v ∨ (use, v) ∈ ownReq G n k := by
  constructor
  · rintro ⟨m, h1, h2, h3⟩
    cases h3 with
    | refl => exact .inr (by rw [ownReq, h2, h1]; simp)
    | up _ _ _ h => exact .inl ⟨m, h1, h2, h⟩
  · rintro (⟨m, h1, h2, h3⟩ | h)
    · exact ⟨m, h1, h2, .up n k _ h3⟩
    · cases hk : G.kind n with
      | gamma =>
        rw [ownReq, hk] at h
        simp at h
        obtain ⟨rfl, rfl⟩ := h
        exact ⟨n, rfl, hk, .refl _⟩
      | _ => rw [ownReq, hk] at h; simp at h

theorem tinv_obs {T : Trace} {obs : List Rg} (h : TInv G T) (hs : ∀ w, w ∈ T.obs → w ∈ obs) : TInv G { T with obs := obs } :=
  ⟨fun r l hl => ⟨(h.sat r l hl).1, fun w hw => hs w ((h.sat r l hl).2 w hw)⟩, fun use rr hl => by
    obtain ⟨c, h1, h2, h3⟩ := h.assign use rr hl
    exact ⟨c, h1, h2, fun j hj => hs _ (h3 j hj)⟩⟩

theorem tinv_sat {T : Trace} {r : Rg} {l : List (Inp × Nat)} (h : TInv G T) (hl : ∀ use v, (use, v) ∈ l ↔ Requires G r use v)
    (ho : ∀ w, Sub G r w → w ∈ T.obs) : TInv G { T with sat := (r, l) :: T.sat } := by
  refine ⟨fun r' l' hl' => ?_, h.assign⟩
  by_cases e : r' = r
  · subst e
    simp [List.lookup] at hl'
    subst hl'
    exact ⟨hl, ho⟩
  · have hb : (r' == r) = false := by simp [e]
    simp only [List.lookup, hb] at hl'
    exact h.sat r' l' hl'

theorem getSat_ok (W : G.Wf rank depth) : ∀ (f : Nat) (T : Trace) (r : Rg), depth r < f → TInv G T →
    ∃ l T', getSat G f T r = .ok (l, T') ∧ (∀ use v, (use, v) ∈ l ↔ Requires G r use v) ∧ TInv G T' ∧
      (∀ w, Sub G r w → w ∈ T'.obs) ∧ ∀ w, w ∈ T.obs → w ∈ T'.obs := by
  intro f
  induction f with
  | zero => intro T r h; omega
  | succ f ih =>
    intro T r hd hT
    unfold getSat
    have hmono : ∀ w, w ∈ T.obs → w ∈ observe r T.obs := fun w h => mem_observe.mpr (.inr h)
    cases hl : T.sat.lookup r with
    | some l =>
      obtain ⟨h1, h2⟩ := hT.sat r l hl
      exact ⟨l, _, rfl, h1, tinv_obs hT hmono, fun w hw => hmono w (h2 w hw), hmono⟩
    | none =>
      simp only
      cases r with
      | none =>
        have hreq : ∀ use v, (use, v) ∈ ([] : List (Inp × Nat)) ↔ Requires G none use v := fun use v => by
          simp [requires_none]
        have hobs : ∀ w, Sub G none w → w ∈ observe none T.obs := fun w hw => by cases hw; exact mem_observe.mpr (.inl rfl)
        exact ⟨[], _, rfl, hreq, tinv_sat (T := { T with obs := observe none T.obs }) (tinv_obs hT hmono) hreq hobs, hobs, hmono⟩
      | some p =>
        obtain ⟨n, k⟩ := p
        have hd' : depth (G.region n) < f := by rw [W.depth] at hd; omega
        obtain ⟨l, T', h1, h2, h3, h4, h5⟩ := ih { T with obs := observe (some (n, k)) T.obs } (G.region n) hd' (tinv_obs hT hmono)
        simp only [h1]
        have hreq : ∀ use v, (use, v) ∈ l ++ ownReq G n k ↔ Requires G (some (n, k)) use v := fun use v => by
          rw [List.mem_append, h2, requires_some]
        have hobs : ∀ w, Sub G (some (n, k)) w → w ∈ T'.obs := fun w hw => by
          cases hw with
          | refl => exact h5 _ (mem_observe.mpr (.inl rfl))
          | up _ _ _ hw => exact h4 w hw
        exact ⟨_, _, rfl, hreq, tinv_sat h3 hreq hobs, hobs, fun w hw => h5 w (hmono w hw)⟩

/-- What a predicate depends on is observed. -/
theorem star_obs (W : G.Wf rank depth) {c : Nat} {use : Inp} (hc : G.ctl use = some c) {obs : List Rg}
    (hu : ∀ w, Sub G (G.regionI use) w → w ∈ obs) (hk : ∀ p x, Leads.Star G use (.res (some p) x) → some p ∈ obs) {j : Inp}
    (hs : Leads.Star G use j) : ∀ w, Sub G (G.regionI j) w → w ∈ obs := by
  induction hs with
  | refl => exact hu
  | tail j j' hs hl ih =>
    have hreg := W.origin j _ (W.star_ctl hc hs)
    have hst' : Leads.Star G use j' := .tail _ _ _ hs hl
    intro w hw
    cases hl with
    | gammaOut n x k ho h1 h2 =>
      rw [ho] at hreg; change G.region n = _ at hreg
      cases hw with
      | refl => exact hk _ x hst'
      | up _ _ _ hw => exact ih w (by rw [← hreg]; exact hw)
    | gammaArg n k a ho h1 h2 =>
      rw [ho] at hreg; change some (n, k) = _ at hreg
      exact ih w (by rw [← hreg]; exact .up n k _ hw)
    | thetaOut n x ho h1 h2 =>
      rw [ho] at hreg; change G.region n = _ at hreg
      exact ih w (by rw [← hreg]; exact hw)
    | thetaPost n x ho h1 h2 =>
      rw [ho] at hreg; change G.region n = _ at hreg
      cases hw with
      | refl => exact hk _ _ hst'
      | up _ _ _ hw => exact ih w (by rw [← hreg]; exact hw)
    | thetaArg n k a ho h1 h2 =>
      rw [ho] at hreg; change some (n, k) = _ at hreg
      exact ih w (by rw [← hreg]; exact .up n k _ hw)

theorem getAssign_ok (W : G.Wf rank depth) {fuel : Nat} (hf : ∀ o, rank o < fuel) {T : Trace} (hT : TInv G T) {r : Rg} {use : Inp}
    {c : Nat} (hc : G.ctl use = some c) (hu : ∀ w, Sub G (G.regionI use) w → w ∈ T.obs) :
    ∃ a T', getAssign G fuel T r use = .ok (a, T') ∧ (∀ v, a.allows v = true ↔ Assigns G c r use v) ∧ TInv G T' ∧
      ∀ w, w ∈ T.obs → w ∈ T'.obs := by
  rw [getAssign, hc]
  simp only
  cases hl : T.assign.lookup use with
  | some rr =>
    obtain ⟨c', h1, h2, h3⟩ := hT.assign use rr hl
    rw [hc] at h1; cases h1
    exact ⟨_, _, rfl, h2.exact r, hT, fun _ h => h⟩
  | none =>
    obtain ⟨q, s, h1, h2⟩ := record_ok W hc (hf _)
    simp only [h1]
    have hmono : ∀ w, w ∈ T.obs → w ∈ observeAll s.rr T.obs := fun w h => mem_observeAll.mpr (.inr h)
    refine ⟨_, _, rfl, h2.exact r, ⟨fun r l hl => ?_, fun use' rr hl' => ?_⟩, hmono⟩
    · obtain ⟨o1, o2⟩ := hT.sat r l hl
      exact ⟨o1, fun w hw => hmono w (o2 w hw)⟩
    · by_cases e : use' = use
      · subst e
        simp [List.lookup] at hl'
        subst hl'
        refine ⟨c, hc, h2, fun j hj => ?_⟩
        refine star_obs W hc (obs := observeAll s.rr T.obs) (fun w hw => hmono w (hu w hw)) ?_ hj _ (.refl _)
        intro p x hx
        exact mem_observeAll.mpr (.inl (mem_of_lookup (h2.keys p x hx)))
      · have hb : (use' == use) = false := by simp [e]
        simp only [List.lookup, hb] at hl'
        obtain ⟨c', o1, o2, o3⟩ := hT.assign use' rr hl'
        exact ⟨c', o1, o2, fun j hj => hmono _ (o3 j hj)⟩

theorem checkAll_ok (W : G.Wf rank depth) {fuel : Nat} (hf : ∀ o, rank o < fuel) {r t : Rg} : ∀ (l : List (Inp × Nat)) (T : Trace),
    TInv G T → (∀ use v, (use, v) ∈ l → Requires G t use v) → (∀ w, Sub G t w → w ∈ T.obs) →
    ∃ b T', checkAll G fuel r l T = .ok (b, T') ∧ TInv G T' ∧
      (b = true ↔ ∀ use v, (use, v) ∈ l → ∃ c, G.ctl use = some c ∧ Assigns G c r use v) := by
  intro l
  induction l with
  | nil => intro T hT _ _; exact ⟨true, T, rfl, hT, by simp⟩
  | cons e l ih =>
    obtain ⟨use, v⟩ := e
    intro T hT hreq hobs
    obtain ⟨n, hu, hk, hsub⟩ := hreq use v (by simp)
    have hc : G.ctl use = some (G.nsub n) := by rw [hu]; exact W.gamma n hk
    obtain ⟨a, T', h1, h2, h3, h4⟩ := getAssign_ok W hf hT (r := r) hc (fun w hw => hobs w (by
      rw [hu] at hw; exact hsub.trans (.up n v w hw)))
    rw [checkAll, h1]
    simp only
    by_cases ha : a.allows v = true
    · rw [if_pos ha]
      obtain ⟨b, T'', o1, o2, o3⟩ := ih T' h3 (fun use' v' h => hreq use' v' (by simp [h])) (fun w hw => h4 w (hobs w hw))
      refine ⟨b, T'', o1, o2, o3.trans ⟨fun h use' v' hm => ?_, fun h use' v' hm => h use' v' (by simp [hm])⟩⟩
      rcases List.mem_cons.mp hm with e | hm
      · cases e; exact ⟨_, hc, (h2 v).mp ha⟩
      · exact h use' v' hm
    · rw [if_neg ha]
      refine ⟨false, T', rfl, h3, ⟨fun h => by simp at h, fun h => ?_⟩⟩
      obtain ⟨c, hc', has⟩ := h use v (by simp)
      rw [hc] at hc'; cases hc'
      exact absurd ((h2 v).mpr has) ha

theorem check_ok (W : G.Wf rank depth) {fuel : Nat} (hf : ∀ o, rank o < fuel) (hd : ∀ r, depth r < fuel) {T : Trace} (hT : TInv G T)
    (r t : Rg) :
    ∃ b T', check G fuel T r t = .ok (b, T') ∧ TInv G T' ∧
      (b = true ↔ ∀ use v, Requires G t use v → ∃ c, G.ctl use = some c ∧ Assigns G c r use v) := by
  obtain ⟨l, T', h1, h2, h3, h4, _⟩ := getSat_ok W fuel T t (hd t) hT
  obtain ⟨b, T'', o1, o2, o3⟩ := checkAll_ok W hf (r := r) (t := t) l T' h3 (fun use v h => (h2 use v).mp h) h4
  refine ⟨b, T'', ?_, o2, o3.trans ⟨fun h use v hr => h use v ((h2 use v).mpr hr), fun h use v hm => h use v ((h2 use v).mp hm)⟩⟩
  rw [check, h1]; exact o1

/-! ## Changes of the graph -/

/-- The graphs agree on what is looked at for input `j`. -/
structure Same (G G' : Graph) (j : Inp) : Prop where
  kind : G'.kind = G.kind
  nsub : G'.nsub = G.nsub
  origin : G'.origin j = G.origin j
  out : ∀ n x, G.origin j = .out n x → G.kind n = .theta → G'.origin (.res (some (n, 0)) (x + 1)) = G.origin (.res (some (n, 0)) (x + 1))
  arg : ∀ n k a, G.origin j = .arg (some (n, k)) a → G.kind n = .theta →
    G'.origin (.res (some (n, k)) (a + 1)) = G.origin (.res (some (n, k)) (a + 1))

theorem Same.symm {G G' : Graph} {j : Inp} (h : Same G G' j) : Same G' G j :=
  ⟨h.kind.symm, h.nsub.symm, h.origin.symm, fun n x h1 h2 => (h.out n x (by rw [← h.origin, h1]) (by rw [← h.kind, h2])).symm,
    fun n k a h1 h2 => (h.arg n k a (by rw [← h.origin, h1]) (by rw [← h.kind, h2])).symm⟩

theorem Same.leads {G G' : Graph} {j k : Inp} (h : Same G G' j) (hl : Leads G j k) : Leads G' j k := by
  cases hl with
  | gammaOut n x k ho h1 h2 => exact .gammaOut j n x k (by rw [h.origin, ho]) (by rw [h.kind, h1]) (by rw [h.nsub]; exact h2)
  | gammaArg n k a ho h1 h2 => exact .gammaArg j n k a (by rw [h.origin, ho]) (by rw [h.kind, h1]) h2
  | thetaOut n x ho h1 h2 => exact .thetaOut j n x (by rw [h.origin, ho]) (by rw [h.kind, h1]) (by rw [h.out n x ho h1, h2])
  | thetaPost n x ho h1 h2 => exact .thetaPost j n x (by rw [h.origin, ho]) (by rw [h.kind, h1]) (by rw [h.out n x ho h1]; exact h2)
  | thetaArg n k a ho h1 h2 => exact .thetaArg j n k a (by rw [h.origin, ho]) (by rw [h.kind, h1]) (by rw [h.arg n k a ho h1, h2])

theorem Same.source {G G' : Graph} {j : Inp} {c v : Nat} (h : Same G G' j) (hs : Source G c j v) : Source G' c j v := by
  rcases hs with ⟨n, x, m, h1, h2⟩ | ⟨ho, hv⟩
  · exact .inl ⟨n, x, m, by rw [h.origin, h1], by rw [h.kind, h2]⟩
  · refine .inr ⟨?_, hv⟩
    cases ho with
    | simple n x h1 h2 => exact .simple j n x (by rw [h.origin, h1]) (by rw [h.kind, h2])
    | node n x h1 h2 => exact .node j n x (by rw [h.origin, h1]) (by rw [h.kind, h2])
    | root a h1 => exact .root j a (by rw [h.origin, h1])
    | content n k h1 h2 => exact .content j n k (by rw [h.origin, h1]) (by rw [h.kind, h2])
    | loop n k a h1 h2 h3 => exact .loop j n k a (by rw [h.origin, h1]) (by rw [h.kind, h2]) (by rw [h.arg n k a h1 h2]; exact h3)
    | arg n k a h1 h2 h3 => exact .arg j n k a (by rw [h.origin, h1]) (by rw [h.kind]; exact h2) (by rw [h.kind]; exact h3)

theorem star_same {G G' : Graph} {use j : Inp} (h : ∀ j, Leads.Star G use j → Same G G' j) : Leads.Star G' use j ↔ Leads.Star G use j := by
  constructor
  · intro hs
    induction hs with
    | refl => exact .refl _
    | tail j k _ hl ih => exact .tail _ _ _ ih ((h j ih).symm.leads hl)
  · intro hs
    induction hs with
    | refl => exact .refl _
    | tail j k hs hl ih => exact .tail _ _ _ ih ((h j hs).leads hl)

theorem may_same {G G' : Graph} {use j : Inp} {c v : Nat} (h : ∀ j, Leads.Star G use j → Same G G' j) (hj : Leads.Star G use j) :
    May G' c j v ↔ May G c j v := by
  have hs : ∀ k, Leads.Star G j k → Same G G' k := fun k hk => h k (hj.trans hk)
  constructor
  · rintro ⟨k, h1, h2⟩
    have h1' := (star_same hs).mp h1
    exact ⟨k, h1', (hs k h1').symm.source h2⟩
  · rintro ⟨k, h1, h2⟩
    exact ⟨k, (star_same hs).mpr h1, (hs k h1).source h2⟩

theorem assigns_same {G G' : Graph} {use : Inp} {c v : Nat} {r : Rg} (h : ∀ j, Leads.Star G use j → Same G G' j) :
    Assigns G' c r use v ↔ Assigns G c r use v := by
  constructor
  · rintro (⟨x, h1, h2, h3⟩ | ⟨h1, h2⟩)
    · have h2' := (star_same h).mp h2
      exact .inl ⟨x, h1, h2', (may_same h h2').mp h3⟩
    · exact .inr ⟨fun x h3 h4 => h1 x h3 ((star_same h).mpr h4), h2⟩
  · rintro (⟨x, h1, h2, h3⟩ | ⟨h1, h2⟩)
    · exact .inl ⟨x, h1, (star_same h).mpr h2, (may_same h h2).mpr h3⟩
    · exact .inr ⟨fun x h3 h4 => h1 x h3 ((star_same h).mp h4), h2⟩

theorem Sub.divert {i : Inp} {o : Out} {r w : Rg} : Sub (G.divert i o) r w ↔ Sub G r w := by
  constructor
  · intro h
    induction h with
    | refl => exact .refl _
    | up n k w _ ih => exact .up n k w ih
  · intro h
    induction h with
    | refl => exact .refl _
    | up n k w _ ih => exact .up n k w ih

theorem requires_divert {i : Inp} {o : Out} {r : Rg} {use : Inp} {v : Nat} : Requires (G.divert i o) r use v ↔ Requires G r use v := by
  constructor
  · rintro ⟨n, h1, h2, h3⟩; exact ⟨n, h1, h2, Sub.divert.mp h3⟩
  · rintro ⟨n, h1, h2, h3⟩; exact ⟨n, h1, h2, Sub.divert.mpr h3⟩

theorem tinv_divert (W : G.Wf rank depth) {T : Trace} (hT : TInv G T) {i : Inp} {o : Out}
    (hinv : ∀ n k a, i = .res (some (n, k)) (a + 1) → G.kind n = .theta → G.origin i ≠ .arg (some (n, k)) a) :
    TInv (G.divert i o) (onInputChange G i T) := by
  rw [onInputChange]
  by_cases hcl : G.regionI i ∈ T.obs ∧ (G.ctl i).isSome
  · rw [if_pos hcl]
    exact ⟨by intro r l h; simp at h, by intro r l h; simp at h⟩
  · rw [if_neg hcl]
    refine ⟨fun r l hl => ?_, fun use rr hl => ?_⟩
    · obtain ⟨h1, h2⟩ := hT.sat r l hl
      exact ⟨fun use v => (h1 use v).trans requires_divert.symm, fun w hw => h2 w (Sub.divert.mp hw)⟩
    · obtain ⟨c, h1, h2, h3⟩ := hT.assign use rr hl
      have hne : ∀ j, G.regionI j ∈ T.obs → G.ctl j = some c → j ≠ i := by
        rintro j hj hc rfl
        exact hcl ⟨hj, by rw [hc]; rfl⟩
      have hsame : ∀ j, Leads.Star G use j → Same G (G.divert i o) j := by
        intro j hj
        have hc := W.star_ctl h1 hj
        have hd : ∀ k, k ≠ i → (G.divert i o).origin k = G.origin k := fun k hk => by simp [Graph.divert, hk]
        refine ⟨rfl, rfl, hd j (hne j (h3 j hj) hc), fun n x ho hk => hd _ ?_, fun n k a ho hk => hd _ ?_⟩
        · by_cases hin : G.origin (.res (some (n, 0)) (x + 1)) = .arg (some (n, 0)) x
          · rintro rfl
            exact hinv n 0 x rfl hk hin
          · have hl := Leads.thetaPost j n x ho hk hin
            exact hne _ (h3 _ (.tail _ _ _ hj hl)) (W.leads_ctl hc hl)
        · refine hne _ ?_ (W.thetaArg j c n k a hc ho hk).2.2
          have := W.origin j c hc
          rw [ho] at this
          have hj' := h3 j hj
          rw [← this] at hj'
          exact hj'
      refine ⟨c, h1, ⟨fun r v => (h2.exact r v).trans (assigns_same hsame).symm, fun p x hx => h2.keys p x ((star_same hsame).mp hx)⟩,
        fun j hj => h3 j ((star_same hsame).mp hj)⟩

theorem history_ok {fuel : Nat} {G : Graph} {T : Trace} (h : History fuel false G T) :
    (∃ rank depth, G.Wf rank depth ∧ (∀ o, rank o < fuel) ∧ ∀ r, depth r < fuel) ∧ TInv G T := by
  induction h with
  | start G rank depth W hf hd =>
    exact ⟨⟨rank, depth, W, hf, hd⟩, ⟨by intro r l h; simp at h, by intro r l h; simp at h⟩⟩
  | check G T T' r t b _ hch ih =>
    obtain ⟨⟨rank, depth, W, hf, hd⟩, hT⟩ := ih
    obtain ⟨b', T'', h1, h2, _⟩ := check_ok W hf hd hT r t
    rw [h1] at hch; cases hch
    exact ⟨⟨rank, depth, W, hf, hd⟩, h2⟩
  | divert G T i o rank depth _ W' hf' hd' hinv ih =>
    obtain ⟨⟨rank0, depth0, W, hf, hd⟩, hT⟩ := ih
    exact ⟨⟨rank, depth, W', hf', hd'⟩, tinv_divert W hT (hinv rfl)⟩

end

/-! ## The theorems -/

/-- **C59** On a well-formed graph `GetRegionPredicateAssignConstraints` terminates without a failing assertion, and it returns the values
that the predicate can have if it gets the value of a result of the region - all of them if no result of the region matters. -/
theorem C59_assign_exact (G : Graph) (rank : Out → Nat) (depth : Rg → Nat) (W : G.Wf rank depth) (fuel : Nat) (hf : ∀ o, rank o < fuel)
    (r : Rg) (use : Inp) (c : Nat) (hc : G.ctl use = some c) :
    ∃ a T, getAssign G fuel {} r use = .ok (a, T) ∧ ∀ v, a.allows v = true ↔ Assigns G c r use v := by
  rw [getAssign, hc]
  obtain ⟨q, s, h1, h2⟩ := record_ok W hc (hf _)
  simp only [List.lookup, h1]
  exact ⟨_, _, rfl, h2.exact r⟩

/-- **C59** Whatever the trace was used for before, `GetRegionSatRequired` returns the predicates of the gamma nodes around the region, with
the branches that it is in. -/
theorem C59_required_exact (fuel : Nat) (G : Graph) (T : Trace) (h : History fuel false G T) (r : Rg) :
    ∃ l T', getSat G fuel T r = .ok (l, T') ∧ ∀ use v, (use, v) ∈ l ↔ Requires G r use v := by
  obtain ⟨⟨rank, depth, W, hf, hd⟩, hT⟩ := history_ok h
  obtain ⟨l, T', h1, h2, _⟩ := getSat_ok W fuel T r (hd r) hT
  exact ⟨l, T', h1, h2⟩

/-- **C59** Whatever the trace was used for before and however the graph was changed since, the check says yes if and only if the origin
region can assign to each predicate around the target region the value that it needs. *Partial*: in the history, no loop variable that was
invariant is changed (`C59_stale`). -/
theorem C59_check_exact_partial (fuel : Nat) (G : Graph) (T : Trace) (h : History fuel false G T) (r t : Rg) :
    ∃ b T', check G fuel T r t = .ok (b, T') ∧
      (b = true ↔ ∀ use v, Requires G t use v → ∃ c, G.ctl use = some c ∧ Assigns G c r use v) := by
  obtain ⟨⟨rank, depth, W, hf, hd⟩, hT⟩ := history_ok h
  obtain ⟨b, T', h1, _, h2⟩ := check_ok W hf hd hT r t
  exact ⟨b, T', h1, h2⟩

/-- **C59** If the check says no, no value made in the origin region can be used in the target region, unless it goes through a back edge of
a loop. *Partial*: no gamma node hands a value of a predicate around the target region through (`C59_handed_through_unsound`), and the
histories are those of `C59_check_exact_partial`. -/
theorem C59_unreachable_partial (fuel : Nat) (G : Graph) (T T' : Trace) (h : History fuel false G T) (r t : Rg)
    (hn : ∀ use v, Requires G t use v → NotHandedThrough G use) (hc : check G fuel T r t = .ok (false, T')) : NeverSeen G r t := by
  obtain ⟨⟨rank, depth, W, hf, hd⟩, hT⟩ := history_ok h
  obtain ⟨b, T'', h1, _, h2⟩ := check_ok W hf hd hT r t
  rw [h1] at hc; cases hc
  intro E O i j hi hj hs
  have : false = true := h2.mpr fun use v hr => by
    have hnt := hn use v hr
    obtain ⟨g, hu, hk, hsub⟩ := hr
    subst hu
    refine ⟨_, W.gamma g hk, ?_⟩
    rw [← hj]
    exact assigns_of_seen W O hk (by rw [hi]; exact hsub) hnt hs
  cases this

end Jlm.Rvsdg.PredTrace
