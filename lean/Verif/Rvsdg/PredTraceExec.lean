import Verif.Rvsdg.PredTraceProps

/-!
# The region predicate trace and executions
-/

set_option linter.unusedVariables false
set_option linter.unusedSimpArgs false

namespace Jlm.Rvsdg.PredTrace

open Jlm.Rvsdg.Tracer (Nd Rg Out)

section
variable {G : Graph} {rank : Out → Nat} {depth : Rg → Nat} {E : Exec}

/-! ## Instances -/

theorem Around.trans {a b c : E.I} (h : Around E a b) (h' : Around E b c) : Around E a c := by
  induction h with
  | refl => exact h'
  | up i n k j hr _ ih => exact .up i n k c hr (ih h')

theorem Around.sub (O : E.Of G) {a b : E.I} (h : Around E a b) : Sub G (E.rg a) (E.rg b) := by
  induction h with
  | refl => exact .refl _
  | up i n k j hr _ ih => rw [hr]; rw [O.up i n k hr] at ih; exact .up n k _ ih

theorem Sub.depth_le (W : G.Wf rank depth) {r w : Rg} (h : Sub G r w) : depth w ≤ depth r := by
  induction h with
  | refl => exact Nat.le_refl _
  | up n k w _ ih => rw [W.depth]; omega

theorem around_unique (W : G.Wf rank depth) (O : E.Of G) {i a b : E.I} (ha : Around E i a) (hb : Around E i b)
    (h : E.rg a = E.rg b) : a = b := by
  induction ha with
  | refl i =>
    cases hb with
    | refl => rfl
    | up _ n k _ hr hb =>
      have := (hb.sub O).depth_le W
      rw [← h, hr, W.depth, O.up i n k hr] at this; omega
  | up i n k a hr ha ih =>
    cases hb with
    | refl =>
      have := (ha.sub O).depth_le W
      rw [h, hr, W.depth, O.up _ n k hr] at this; omega
    | up _ n' k' _ hr' hb => exact ih hb h

theorem around_total {i a b : E.I} (ha : Around E i a) (hb : Around E i b) : Around E a b ∨ Around E b a := by
  induction ha with
  | refl i => exact .inl hb
  | up i n k a hr ha ih =>
    cases hb with
    | refl => exact .inr (.up _ n k a hr ha)
    | up _ n' k' _ hr' hb => exact ih hb

theorem sub_around (O : E.Of G) {r w : Rg} (h : Sub G r w) : ∀ i : E.I, E.rg i = r → ∃ a, Around E i a ∧ E.rg a = w := by
  induction h with
  | refl r => intro i hi; exact ⟨i, .refl i, hi⟩
  | up n k w _ ih =>
    intro i hi
    obtain ⟨a, ha, hw⟩ := ih (E.up i) (O.up i n k hi)
    exact ⟨a, .up i n k a hi ha, hw⟩

theorem Seen.up' {i j : E.I} {n : Nd} {k : Nat} (h : Seen G E i j) (hr : E.rg j = some (n, k)) : Seen G E i (E.up j) := by
  cases h with
  | around _ h => exact .around _ (h.trans (.up j n k _ hr (.refl _)))
  | gamma _ n' k' h _ _ _ => exact h
  | theta _ n' h _ _ _ _ => exact h

theorem seen_unique (W : G.Wf rank depth) (O : E.Of G) {i a b : E.I} (ha : Seen G E i a) (hb : Seen G E i b) (h : E.rg a = E.rg b) :
    a = b := by
  induction ha generalizing b with
  | around a ha =>
    cases hb with
    | around _ hb => exact around_unique W O ha hb h
    | gamma _ n k hb hr hk hno => exact absurd (h.trans hr) (hno a k ha)
    | theta _ n hb hr hk hl hno => exact absurd (h.trans hr) (hno a 0 ha)
  | gamma a n k ha hr hk hno ih =>
    cases hb with
    | around _ hb => exact absurd (h.symm.trans hr) (hno b k hb)
    | gamma _ n' k' hb hr' hk' hno' =>
      have e : some (n, k) = some (n', k') := by rw [← hr, h, hr']
      cases e
      exact O.once a b n k hr hr' hk (ih hb (by rw [O.up a n k hr, O.up b n k hr']))
    | theta _ n' hb hr' hk' hl hno' =>
      have e : some (n, k) = some (n', 0) := by rw [← hr, h, hr']
      cases e; rw [hk] at hk'; cases hk'
  | theta a n ha hr hk hl hno ih =>
    cases hb with
    | around _ hb => exact absurd (h.symm.trans hr) (hno b 0 hb)
    | gamma _ n' k' hb hr' hk' hno' =>
      have e : some (n, 0) = some (n', k') := by rw [← hr, h, hr']
      cases e; rw [hk] at hk'; cases hk'
    | theta _ n' hb hr' hk' hl' hno' =>
      have e : some (n, 0) = some (n', 0) := by rw [← hr, h, hr']
      cases e
      exact O.lastOnce a b n hr hr' hk (ih hb (by rw [O.up a n 0 hr, O.up b n 0 hr'])) hl hl'

/-! ## Values -/

theorem theta_inv (O : E.Of G) {n : Nd} {a c v : Nat} (hk : G.kind n = .theta) (hc : G.ctl (.inp n a) = some c)
    (hin : G.origin (.res (some (n, 0)) (a + 1)) = .arg (some (n, 0)) a) : ∀ (t : Nat) (j : E.I), E.iter j ≤ t →
    E.rg j = some (n, 0) → E.val j (.arg (some (n, 0)) a) = some v → E.val (E.up j) (G.origin (.inp n a)) = some v := by
  intro t
  induction t using Nat.strongRecOn with
  | ind t ih =>
    intro j hle hr hv
    rcases O.thetaIn j n hr hk with h | ⟨j', hr', hu, hlt, h⟩
    · rw [← h a c hc]; exact hv
    · have := h a c hc
      rw [hv, hin] at this
      have := ih (E.iter j') (by omega) j' (Nat.le_refl _) hr' this.symm
      rw [hu] at this; exact this

/-- An input has only values that it can have. -/
theorem may_of_val (W : G.Wf rank depth) (O : E.Of G) {c v : Nat} : ∀ (t : Nat) (j : Inp) (q : E.I), rank (G.origin j) ≤ t →
    G.ctl j = some c → E.rg q = G.regionI j → E.val q (G.origin j) = some v → May G c j v := by
  intro t
  induction t using Nat.strongRecOn with
  | ind t ih =>
    intro j q hle hc hq hv
    have hlt := O.typed q j c v hq hc hv
    have step : ∀ j' q', Leads G j j' → E.rg q' = G.regionI j' → E.val q' (G.origin j') = some v → May G c j v := by
      intro j' q' hl hq' hv'
      exact may_iff.mpr (.inr ⟨j', hl, ih (rank (G.origin j')) (Nat.lt_of_lt_of_le (W.leads_rank hc hl) hle) j' q' (Nat.le_refl _)
        (W.leads_ctl hc hl) hq' hv'⟩)
    have hreg := W.origin j c hc
    have opq : Opaque G j → May G c j v := fun h => may_iff.mpr (.inl (.inr ⟨h, hlt⟩))
    cases ho : G.origin j with
    | out m x =>
      rw [ho] at hv hreg
      change G.region m = _ at hreg
      rw [← hreg] at hq
      cases hk : G.kind m with
      | const n w =>
        rw [O.const q m x n w v hq hk hv]
        exact may_iff.mpr (.inl (.inl ⟨m, x, n, ho, hk⟩))
      | simple => exact opq (.simple j m x ho hk)
      | other => exact opq (.node j m x ho hk)
      | gamma =>
        obtain ⟨⟨i, k, hr, hu⟩, hall⟩ := O.gammaOut q m x v hq hk hv
        exact step _ i (.gammaOut j m x k ho hk (O.taken i m k hr hk).2) hr (hall i k hr hu)
      | theta =>
        obtain ⟨⟨i, hr, hu, hl⟩, hall⟩ := O.thetaOut q m x v hq hk hv
        have hvi := hall i hr hu hl
        by_cases hin : G.origin (.res (some (m, 0)) (x + 1)) = .arg (some (m, 0)) x
        · rw [hin] at hvi
          have := theta_inv O hk (W.thetaOut j c m x hc ho hk).1 hin _ i (Nat.le_refl _) hr hvi
          rw [hu] at this
          exact step _ q (.thetaOut j m x ho hk hin) hq this
        · exact step _ i (.thetaPost j m x ho hk hin) hr hvi
    | arg rg a =>
      rw [ho] at hv hreg
      change rg = _ at hreg
      rw [← hreg] at hq
      cases rg with
      | none => exact opq (.root j a ho)
      | some p =>
        obtain ⟨m, k⟩ := p
        by_cases hg : G.kind m = .gamma
        · by_cases ha : a = 0
          · subst ha; exact opq (.content j m k ho hg)
          · rw [O.gammaIn q m k a c hq hg ha (W.gammaArg j c m k a hc ho hg ha)] at hv
            exact step _ (E.up q) (.gammaArg j m k a ho hg ha) (O.up q m k hq) hv
        · by_cases ht : G.kind m = .theta
          · obtain ⟨rfl, hci, hcr⟩ := W.thetaArg j c m k a hc ho ht
            by_cases hin : G.origin (.res (some (m, 0)) (a + 1)) = .arg (some (m, 0)) a
            · exact step _ (E.up q) (.thetaArg j m 0 a ho ht hin) (O.up q m 0 hq)
                (theta_inv O ht hci hin _ q (Nat.le_refl _) hq hv)
            · exact opq (.loop j m 0 a ho ht hin)
          · exact opq (.arg j m k a ho hg ht)

/-! ## The predicate of a gamma node around -/

/-- What the nodes of region `(m, k)` see of it is seen. -/
def Ex (G : Graph) (E : Exec) (i : E.I) (m : Nd) (k : Nat) : Prop :=
  ∀ q, Seen G E i q → E.rg q = G.region m → ∃ b, Seen G E i b ∧ E.rg b = some (m, k) ∧ E.up b = q

theorem around_ex (W : G.Wf rank depth) (O : E.Of G) {i b : E.I} {m : Nd} {k : Nat} (hb : Around E i b) (hr : E.rg b = some (m, k)) :
    Ex G E i m k := by
  intro q hq hrq
  have hs : Seen G E i b := .around b hb
  exact ⟨b, hs, hr, seen_unique W O (hs.up' hr) hq (by rw [O.up b m k hr, hrq])⟩

theorem not_around (W : G.Wf rank depth) (O : E.Of G) {i b : E.I} {g : Nd} {k : Nat} (hb : Around E i b) (hr : E.rg b = some (g, k))
    (hg : G.kind g = .gamma) {j : Inp} (hs : Leads.Star G (.inp g 0) j) {m : Nd} {x : Nat} (ho : G.origin j = .out m x) :
    ∀ a k', Around E i a → E.rg a ≠ some (m, k') := by
  intro a k' ha hra
  have hc := W.gamma g hg
  have hle := W.star_rank hc hs
  rw [ho] at hle
  have ho1 := W.origin _ _ hc
  change _ = G.region g at ho1
  rcases around_total ha hb with h | h
  · cases h with
    | refl =>
      rw [hr] at hra; cases hra
      have := W.rankOut g 0 _ x hc; omega
    | up _ n k'' _ e h =>
      rw [hra] at e; cases e
      have hsub := h.sub O
      rw [O.up a m k' hra, hr] at hsub
      have := W.rankIn g 0 _ k (.out m x) hc hsub
      omega
  · cases h with
    | refl =>
      rw [hra] at hr; cases hr
      have := W.rankOut g 0 _ x hc; omega
    | up _ n k'' _ e h =>
      rw [hr] at e; cases e
      have hsub := h.sub O
      rw [O.up b g k hr, hra] at hsub
      have := W.rankUp m k' (G.origin (.inp g 0)) x (by rw [ho1]; exact hsub)
      omega

/-- Where the value of the predicate comes from, it is seen. -/
theorem flow (W : G.Wf rank depth) (O : E.Of G) {i b : E.I} {g : Nd} {k : Nat} (hb : Around E i b) (hr : E.rg b = some (g, k))
    (hg : G.kind g = .gamma) (hn : NotHandedThrough G (.inp g 0)) {j : Inp} (hs : Leads.Star G (.inp g 0) j) :
    (∀ q, Seen G E i q → E.rg q = G.regionI j → E.val q (G.origin j) = some k) ∧
    ∀ m l, Sub G (G.regionI j) (some (m, l)) → Ex G E i m l ∨
      (G.kind m = .gamma ∧ ∃ x, Leads.Star G (.inp g 0) (.res (some (m, l)) x) ∧ Leads.Star G (.res (some (m, l)) x) j) := by
  have hc0 := W.gamma g hg
  induction hs with
  | refl =>
    have hub : Around E i (E.up b) := hb.trans (.up b g k _ hr (.refl _))
    refine ⟨fun q hq hrq => ?_, fun m l hsub => .inl ?_⟩
    · have : q = E.up b := seen_unique W O hq (.around _ hub) (by rw [hrq, O.up b g k hr]; rfl)
      subst this
      exact (O.taken b g k hr hg).1
    · obtain ⟨a, ha, hra⟩ := sub_around O hsub (E.up b) (O.up b g k hr)
      exact around_ex W O (hub.trans ha) hra
  | tail j j' hs hl ih =>
    obtain ⟨ihv, ihe⟩ := ih
    have hc := W.star_ctl hc0 hs
    have hc' := W.leads_ctl hc hl
    have hreg := W.origin j _ hc
    have keep : ∀ m l, Sub G (G.regionI j) (some (m, l)) → Ex G E i m l ∨
        (G.kind m = .gamma ∧ ∃ x, Leads.Star G (.inp g 0) (.res (some (m, l)) x) ∧ Leads.Star G (.res (some (m, l)) x) j') := by
      intro m l hsub
      rcases ihe m l hsub with h | ⟨h1, x, h2, h3⟩
      · exact .inl h
      · exact .inr ⟨h1, x, h2, .tail _ _ _ h3 hl⟩
    have hst' : Leads.Star G (.inp g 0) j' := .tail _ _ _ hs hl
    cases hl with
    | gammaOut n x l ho hk hlt =>
      rw [ho] at hreg; change G.region n = _ at hreg
      refine ⟨fun q hq hrq => ?_, fun m l' hsub => ?_⟩
      · change E.rg q = some (n, l) at hrq
        have hup := O.up q n l hrq
        have hv := ihv (E.up q) (hq.up' hrq) (by rw [hup, hreg])
        rw [ho] at hv
        exact (O.gammaOut (E.up q) n x k hup hk hv).2 q l hrq rfl
      · generalize hw : some (m, l') = w at hsub
        cases hsub with
        | refl => change some (m, l') = some (n, l) at hw; cases hw; exact .inr ⟨hk, x, hst', .refl _⟩
        | up _ _ _ hsub => subst hw; rw [hreg] at hsub; exact keep m l' hsub
    | gammaArg n l a ho hk ha =>
      rw [ho] at hreg; change some (n, l) = _ at hreg
      refine ⟨fun q hq hrq => ?_, fun m l' hsub => keep m l' (by rw [← hreg]; exact .up n l _ hsub)⟩
      rcases ihe n l (by rw [← hreg]; exact .refl _) with h | ⟨_, x, h2, h3⟩
      · obtain ⟨b', hb1, hb2, hb3⟩ := h q hq hrq
        have hv := ihv b' hb1 (by rw [hb2, hreg])
        rw [ho, O.gammaIn b' n l a _ hb2 hk ha hc', hb3] at hv
        exact hv
      · exact absurd (.tail _ _ _ h3 (.gammaArg j n l a ho hk ha)) (hn n l x a hk ha h2)
    | thetaOut n x ho hk hin =>
      rw [ho] at hreg; change G.region n = _ at hreg
      refine ⟨fun q hq hrq => ?_, fun m l' hsub => keep m l' (by rw [← hreg]; exact hsub)⟩
      change E.rg q = G.region n at hrq
      have hv := ihv q hq (by rw [hrq, hreg])
      rw [ho] at hv
      obtain ⟨⟨l, hr1, hr2, hr3⟩, hall⟩ := O.thetaOut q n x k hrq hk hv
      have hvl := hall l hr1 hr2 hr3
      rw [hin] at hvl
      have := theta_inv O hk hc' hin _ l (Nat.le_refl _) hr1 hvl
      rw [hr2] at this; exact this
    | thetaPost n x ho hk hin =>
      rw [ho] at hreg; change G.region n = _ at hreg
      have hna := not_around W O hb hr hg hs ho
      refine ⟨fun q hq hrq => ?_, fun m l' hsub => ?_⟩
      · change E.rg q = some (n, 0) at hrq
        have hup := O.up q n 0 hrq
        have hv := ihv (E.up q) (hq.up' hrq) (by rw [hup, hreg])
        rw [ho] at hv
        have hlast : E.last q := by
          cases hq with
          | around _ h => exact absurd hrq (hna q 0 h)
          | gamma _ n' k' _ hr' hk' _ => rw [hrq] at hr'; cases hr'; rw [hk] at hk'; cases hk'
          | theta _ n' _ _ _ hl _ => exact hl
        exact (O.thetaOut (E.up q) n x k hup hk hv).2 q hrq rfl hlast
      · generalize hw : some (m, l') = w at hsub
        cases hsub with
        | refl =>
          change some (m, l') = some (n, 0) at hw; cases hw
          refine .inl fun q hq hrq => ?_
          have hv := ihv q hq (by rw [hrq, hreg])
          rw [ho] at hv
          obtain ⟨⟨l, hr1, hr2, hr3⟩, _⟩ := O.thetaOut q n x k hrq hk hv
          exact ⟨l, .theta l n (by rw [hr2]; exact hq) hr1 hk hr3 hna, hr1, hr2⟩
        | up _ _ _ hsub => subst hw; rw [hreg] at hsub; exact keep m l' hsub
    | thetaArg n l a ho hk hin =>
      rw [ho] at hreg; change some (n, l) = _ at hreg
      obtain ⟨rfl, _, _⟩ := W.thetaArg j _ n l a hc ho hk
      refine ⟨fun q hq hrq => ?_, fun m l' hsub => keep m l' (by rw [← hreg]; exact .up n 0 _ hsub)⟩
      rcases ihe n 0 (by rw [← hreg]; exact .refl _) with h | ⟨h1, _⟩
      · obtain ⟨b', hb1, hb2, hb3⟩ := h q hq hrq
        have hv := ihv b' hb1 (by rw [hb2, hreg])
        rw [ho] at hv
        have := theta_inv O hk hc' hin _ b' (Nat.le_refl _) hb2 hv
        rw [hb3] at this; exact this
      · rw [hk] at h1; cases h1

/-- What is seen of a region assigns the value that the predicate has. -/
theorem assigns_of_seen (W : G.Wf rank depth) (O : E.Of G) {i j : E.I} {g : Nd} {k : Nat} (hg : G.kind g = .gamma)
    (hsub : Sub G (E.rg i) (some (g, k))) (hn : NotHandedThrough G (.inp g 0)) (hj : Seen G E i j) :
    Assigns G (G.nsub g) (E.rg j) (.inp g 0) k := by
  obtain ⟨b, hb, hr⟩ := sub_around O hsub i rfl
  have hc := W.gamma g hg
  by_cases h : ∃ x, E.rg j ≠ none ∧ Leads.Star G (.inp g 0) (.res (E.rg j) x)
  · obtain ⟨x, h1, h2⟩ := h
    refine .inl ⟨x, h1, h2, ?_⟩
    have := (flow W O hb hr hg hn h2).1 j hj rfl
    exact may_of_val W O _ _ j (Nat.le_refl _) (W.star_ctl hc h2) rfl this
  · exact .inr ⟨fun x h1 h2 => h ⟨x, h1, h2⟩, (O.taken b g k hr hg).2⟩

end

end Jlm.Rvsdg.PredTrace
