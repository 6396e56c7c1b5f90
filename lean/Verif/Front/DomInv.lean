import Verif.Front.DomOrder

set_option linter.unusedSimpArgs false
set_option linter.unusedVariables false

/-! # Invariants of the iteration of `domtree` -/

namespace Jlm.Front.Dom

/-- `c` is `b` or above it. -/
inductive Chain (entry : Nat) (doms : Doms) (c : Nat) : Nat → Prop
  | self : Chain entry doms c c
  | up {b d : Nat} : b ≠ entry → doms b = some d → Chain entry doms c d → Chain entry doms c b

variable {G : Cfg} {doms : Doms}

/-- Positions in the reverse postorder. -/
def Cfg.pos (G : Cfg) (b : Nat) : Nat := G.rpo.idxOf b

/-- All nodes can be reached. -/
structure Setup (G : Cfg) : Prop where
  wf : G.WF
  reach : ∀ b < G.num, Reachable G b

theorem walk_lt {G : Cfg} (hG : G.WF) {b : Nat} {l : List Nat} (h : Walk G b l) : b < G.num := by
  induction h with
  | entry => exact hG.entry
  | step _ hv ih => exact hG.succs _ ih _ hv

theorem Setup.mem (hG : Setup G) {b : Nat} : b ∈ G.rpo ↔ b < G.num := by
  rw [(C51_rpo G hG.wf).2]
  exact ⟨fun ⟨l, hl⟩ => walk_lt hG.wf hl, hG.reach b⟩

theorem length_of_perm_range {l : List Nat} {n : Nat} (hn : l.Nodup) (hm : ∀ b, b ∈ l ↔ b < n) : l.length = n := by
  have : l.Perm (List.range n) := (List.perm_ext_iff_of_nodup hn List.nodup_range).2 (by intro a; rw [hm, List.mem_range])
  rw [this.length_eq, List.length_range]

theorem Setup.length (hG : Setup G) : G.rpo.length = G.num := length_of_perm_range (C51_rpo G hG.wf).1 fun _ => hG.mem

theorem Setup.pos_lt (hG : Setup G) {b : Nat} (hb : b < G.num) : G.pos b < G.num := by
  rw [← hG.length]
  exact List.idxOf_lt_length_of_mem (hG.mem.2 hb)

theorem Setup.pos_inj (hG : Setup G) {a b : Nat} (ha : a < G.num) (hb : b < G.num) (h : G.pos a = G.pos b) : a = b := by
  unfold Cfg.pos at h
  exact (List.idxOf_inj (hG.mem.2 ha)).1 h

theorem Setup.pos_entry (hG : Setup G) : G.pos G.entry = 0 := by
  obtain ⟨l, hl⟩ := (C51_rpo_order G hG.wf).1
  unfold Cfg.pos
  rw [hl]; simp

theorem Setup.fwd (hG : Setup G) {b : Nat} (hb : b < G.num) (hbe : b ≠ G.entry) : ∃ p ∈ G.preds b, p < G.num ∧ G.pos p < G.pos b := by
  obtain ⟨p, h1, h2, h3⟩ := (C51_rpo_order G hG.wf).2 b (hG.mem.2 hb) hbe
  have hp := hG.mem.1 h2
  exact ⟨p, (hG.wf.preds p b hb).2 ⟨hp, h1⟩, hp, h3⟩

theorem Setup.index (hG : Setup G) {a b : Nat} (ha : a < G.num) (hb : b < G.num) :
    (G.index a = G.index b ↔ a = b) ∧ (G.index a < G.index b ↔ G.pos b < G.pos a) := by
  have h1 := hG.pos_lt ha
  have h2 := hG.pos_lt hb
  have h3 := hG.pos_inj ha hb
  unfold Cfg.pos at h1 h2 h3
  unfold Cfg.index Cfg.pos
  refine ⟨⟨fun h => h3 (by omega), fun h => by rw [h]⟩, by omega⟩

/-! ## Chains -/

/-- What holds at all times. -/
structure Base (G : Cfg) (doms : Doms) : Prop where
  entry : doms G.entry = some G.entry
  up : ∀ b d, doms b = some d → b ≠ G.entry → b < G.num ∧ d < G.num ∧ doms d ≠ none ∧ G.pos d < G.pos b

theorem Base.lt (hB : Base G doms) (hG : Setup G) {b : Nat} (h : doms b ≠ none) : b < G.num := by
  by_cases hb : b = G.entry
  · rw [hb]; exact hG.wf.entry
  · cases hd : doms b with
    | none => exact absurd hd h
    | some d => exact (hB.up b d hd hb).1

theorem Base.chain {c b : Nat} (hB : Base G doms) (h : Chain G.entry doms c b) : c = b ∨ (doms c ≠ none ∧ G.pos c < G.pos b) := by
  induction h with
  | self => exact Or.inl rfl
  | @up b d hb hd _ ih =>
      have := hB.up b d hd hb
      rcases ih with rfl | ih
      · exact Or.inr ⟨this.2.2.1, this.2.2.2⟩
      · exact Or.inr ⟨ih.1, by omega⟩

theorem Base.le {c b : Nat} (hB : Base G doms) (h : Chain G.entry doms c b) : G.pos c ≤ G.pos b := by
  rcases hB.chain h with rfl | h
  · exact Nat.le_refl _
  · omega

theorem Base.processed {c b : Nat} (hB : Base G doms) (h : Chain G.entry doms c b) (hb : doms b ≠ none) : doms c ≠ none := by
  rcases hB.chain h with rfl | h
  · exact hb
  · exact h.1

theorem Chain.trans {e a b c : Nat} (h : Chain e doms a b) (k : Chain e doms b c) : Chain e doms a c := by
  induction k with
  | self => exact h
  | up h1 h2 _ ih => exact .up h1 h2 ih

theorem chain_up {e c b d : Nat} (hb : b ≠ e) (hd : doms b = some d) : Chain e doms c b ↔ c = b ∨ Chain e doms c d := by
  constructor
  · intro h
    cases h with
    | self => exact Or.inl rfl
    | up _ h2 h3 => rw [hd] at h2; cases h2; exact Or.inr h3
  · rintro (rfl | h)
    · exact .self
    · exact .up hb hd h

theorem chain_entry {e c : Nat} : Chain e doms c e ↔ c = e := by
  constructor
  · intro h
    cases h with
    | self => rfl
    | up h1 _ _ => exact absurd rfl h1
  · rintro rfl; exact .self

/-! ## Intersections -/

theorem intersect_spec (hG : Setup G) (hB : Base G doms) : ∀ (f p q : Nat), doms p ≠ none → doms q ≠ none → G.pos p + G.pos q < f →
    ∃ r, intersect G.index doms f p q = some r ∧ doms r ≠ none ∧
      ∀ c, Chain G.entry doms c r ↔ Chain G.entry doms c p ∧ Chain G.entry doms c q
  | 0, p, q, hp, hq, hf => absurd hf (Nat.not_lt_zero _)
  | f + 1, p, q, hp, hq, hf => by
      have hpn := hB.lt hG hp
      have hqn := hB.lt hG hq
      have hi := hG.index hpn hqn
      unfold intersect
      by_cases he : G.index p = G.index q
      · rw [if_pos he]
        have := hi.1.1 he
        subst this
        exact ⟨p, rfl, hp, fun c => by simp⟩
      · rw [if_neg he]
        have hne : p ≠ q := fun h => he (hi.1.2 h)
        by_cases hlt : G.index p < G.index q
        · rw [if_pos hlt]
          have hpos := hi.2.1 hlt
          have hpe : p ≠ G.entry := by
            intro h
            rw [h, hG.pos_entry] at hpos
            omega
          cases hd : doms p with
          | none => exact absurd hd hp
          | some d =>
              have hu := hB.up p d hd hpe
              simp only
              obtain ⟨r, h1, h2, h3⟩ := intersect_spec hG hB f d q hu.2.2.1 hq (by omega)
              refine ⟨r, h1, h2, fun c => ?_⟩
              rw [h3, chain_up hpe hd]
              constructor
              · rintro ⟨a, b⟩; exact ⟨Or.inr a, b⟩
              · rintro ⟨rfl | a, b⟩
                · have := hB.le b; omega
                · exact ⟨a, b⟩
        · rw [if_neg hlt]
          have hpos : G.pos p < G.pos q := by
            have hne' : G.pos p ≠ G.pos q := fun h => hne (hG.pos_inj hpn hqn h)
            have := mt hi.2.2 hlt
            omega
          have hqe : q ≠ G.entry := by
            intro h
            rw [h, hG.pos_entry] at hpos
            omega
          cases hd : doms q with
          | none => exact absurd hd hq
          | some d =>
              have hu := hB.up q d hd hqe
              simp only
              obtain ⟨r, h1, h2, h3⟩ := intersect_spec hG hB f p d hp hu.2.2.1 (by omega)
              refine ⟨r, h1, h2, fun c => ?_⟩
              rw [h3, chain_up hqe hd]
              constructor
              · rintro ⟨a, b⟩; exact ⟨a, Or.inr b⟩
              · rintro ⟨a, rfl | b⟩
                · have := hB.le a; omega
                · exact ⟨a, b⟩

theorem mergePreds_spec (hG : Setup G) (hB : Base G doms) (pred : Nat) : ∀ (ps : List Nat) (cur : Nat), doms cur ≠ none →
    ∃ r, mergePreds G.index doms (2 * G.num + 1) pred ps cur = some r ∧ doms r ≠ none ∧
      ∀ c, Chain G.entry doms c r ↔ Chain G.entry doms c cur ∧ ∀ p ∈ ps, p ≠ pred → doms p ≠ none → Chain G.entry doms c p
  | [], cur, hc => ⟨cur, rfl, hc, fun c => by simp⟩
  | p :: ps, cur, hc => by
      unfold mergePreds
      by_cases hp : p = pred
      · rw [if_pos hp]
        obtain ⟨r, h1, h2, h3⟩ := mergePreds_spec hG hB pred ps cur hc
        refine ⟨r, h1, h2, fun c => ?_⟩
        rw [h3]
        simp [hp]
      · rw [if_neg hp]
        by_cases hd : doms p = none
        · rw [if_neg (by simp [hd])]
          obtain ⟨r, h1, h2, h3⟩ := mergePreds_spec hG hB pred ps cur hc
          refine ⟨r, h1, h2, fun c => ?_⟩
          rw [h3]
          simp [hd]
        · rw [if_pos (by simpa [Option.isSome_iff_ne_none] using hd)]
          have b1 := hG.pos_lt (hB.lt hG hd)
          have b2 := hG.pos_lt (hB.lt hG hc)
          obtain ⟨s, h1, h2, h3⟩ := intersect_spec hG hB (2 * G.num + 1) p cur hd hc (by omega)
          rw [h1]
          simp only
          obtain ⟨r, k1, k2, k3⟩ := mergePreds_spec hG hB pred ps s h2
          refine ⟨r, k1, k2, fun c => ?_⟩
          rw [k3, h3]
          simp only [List.mem_cons, forall_eq_or_imp]
          constructor
          · rintro ⟨⟨a, b⟩, e⟩; exact ⟨b, fun _ _ => a, e⟩
          · rintro ⟨b, a, e⟩; exact ⟨⟨a hp hd, b⟩, e⟩

/-- Nodes before a processed node are processed. -/
def Prefix (G : Cfg) (doms : Doms) : Prop := ∀ b p, doms b ≠ none → p < G.num → G.pos p < G.pos b → doms p ≠ none

/-- What `newIdom` computes. -/
theorem newIdom_spec (hG : Setup G) (hB : Base G doms) {x : Nat} (hx : x < G.num) (hxe : x ≠ G.entry)
    (hpre : ∀ p < G.num, G.pos p < G.pos x → doms p ≠ none) :
    ∃ e, G.newIdom doms x = some e ∧ doms e ≠ none ∧ G.pos e < G.pos x ∧
      ∀ c, Chain G.entry doms c e ↔ ∀ p ∈ G.preds x, doms p ≠ none → Chain G.entry doms c p := by
  obtain ⟨p0, hp0, hn0, hl0⟩ := hG.fwd hx hxe
  have hd0 := hpre p0 hn0 hl0
  unfold Cfg.newIdom
  cases hf : (G.preds x).find? (fun p => (doms p).isSome) with
  | none =>
      have := List.find?_eq_none.1 hf p0 hp0
      exact absurd (by simpa [Option.isSome_iff_ne_none] using hd0) this
  | some pred =>
      have h1 := List.find?_some hf
      have h2 := List.mem_of_find?_eq_some hf
      have hd1 : doms pred ≠ none := by simpa [Option.isSome_iff_ne_none] using h1
      simp only
      obtain ⟨r, k1, k2, k3⟩ := mergePreds_spec hG hB pred (G.preds x) pred hd1
      have key : ∀ c, Chain G.entry doms c r ↔ ∀ p ∈ G.preds x, doms p ≠ none → Chain G.entry doms c p := by
        intro c
        rw [k3]
        constructor
        · rintro ⟨a, b⟩ p hp hd
          by_cases h : p = pred
          · rw [h]; exact a
          · exact b p hp h hd
        · intro h
          exact ⟨h pred h2 hd1, fun p hp _ hd => h p hp hd⟩
      refine ⟨r, k1, k2, ?_, key⟩
      have := (key r).1 .self p0 hp0 hd0
      have := hB.le this
      omega

/-! ## The invariant -/

structure Inv (G : Cfg) (k : Nat) (doms : Doms) : Prop where
  base : Base G doms
  prefix_ : Prefix G doms
  first : ∀ b < G.num, G.pos b < k → doms b ≠ none
  before : ∀ b d c p, doms b = some d → b ≠ G.entry → G.pos b < k → Chain G.entry doms c d → p ∈ G.preds b → G.pos p < G.pos b →
    Chain G.entry doms c p
  after : ∀ b d c p, doms b = some d → b ≠ G.entry → k ≤ G.pos b → Chain G.entry doms c d → k ≤ G.pos c → p ∈ G.preds b →
    G.pos p < G.pos b → Chain G.entry doms c p
  shrink : ∀ b d c, doms b = some d → b ≠ G.entry → (∀ p ∈ G.preds b, doms p ≠ none → Chain G.entry doms c p) → Chain G.entry doms c d
  sound : ∀ b c, doms b ≠ none → Dominates G c b → Chain G.entry doms c b

def set (doms : Doms) (x e : Nat) : Doms := fun k => if k = x then some e else doms k

theorem set_eq {x e : Nat} (h : doms x = some e) : set doms x e = doms := by
  funext k
  unfold set
  split
  · next hk => rw [hk, h]
  · rfl

variable {x e : Nat}

theorem set_chain_not (hx : ∀ b d, doms b = some d → b ≠ G.entry → True) {c b : Nat} (h : ¬ Chain G.entry doms x b) :
    Chain G.entry (set doms x e) c b ↔ Chain G.entry doms c b := by
  constructor
  · intro hc
    induction hc with
    | self => exact .self
    | @up b d hb hd _ ih =>
        have hbx : b ≠ x := fun hbx => h (hbx ▸ .self)
        simp only [set, if_neg hbx] at hd
        exact .up hb hd (ih fun hc => h (.up hb hd hc))
  · intro hc
    induction hc with
    | self => exact .self
    | @up b d hb hd _ ih =>
        have hbx : b ≠ x := fun hbx => h (hbx ▸ .self)
        refine .up hb (d := d) ?_ (ih fun hc => h (.up hb hd hc))
        simp only [set, if_neg hbx]
        exact hd

theorem set_chain (hB : Base G doms) (hxe : x ≠ G.entry) (he : ¬ Chain G.entry doms x e) {c b : Nat} (h : Chain G.entry doms x b) :
    Chain G.entry (set doms x e) c b ↔ (Chain G.entry doms c b ∧ G.pos x ≤ G.pos c) ∨ Chain G.entry doms c e := by
  induction h with
  | self =>
      rw [chain_up (doms := set doms x e) hxe (d := e) (by simp [set]), set_chain_not (fun _ _ _ _ => trivial) he]
      constructor
      · rintro (rfl | h)
        · exact Or.inl ⟨.self, Nat.le_refl _⟩
        · exact Or.inr h
      · rintro (⟨h, hp⟩ | h)
        · rcases hB.chain h with rfl | h
          · exact Or.inl rfl
          · omega
        · exact Or.inr h
  | @up b d hb hd hc ih =>
      by_cases hbx : b = x
      · subst hbx
        have := hB.le hc
        have := (hB.up _ _ hd hb).2.2.2
        omega
      · rw [chain_up (doms := set doms x e) hb (d := d) (by simp only [set, if_neg hbx]; exact hd), ih, chain_up hb hd]
        have hle := hB.le hc
        have := (hB.up _ _ hd hb).2.2.2
        constructor
        · rintro (rfl | ⟨h1, h2⟩ | h)
          · exact Or.inl ⟨Or.inl rfl, by omega⟩
          · exact Or.inl ⟨Or.inr h1, h2⟩
          · exact Or.inr h
        · rintro (⟨rfl | h1, h2⟩ | h)
          · exact Or.inl rfl
          · exact Or.inr (Or.inl ⟨h1, h2⟩)
          · exact Or.inr (Or.inr h)

/-- From `x`, the nodes below it can be reached by nodes after it. -/
theorem fwd_walk (hG : Setup G) {k : Nat} (hI : Inv G k doms) (hxe : x ≠ G.entry) (hk : k ≤ G.pos x) : ∀ (m b : Nat), G.pos b < m → doms b ≠ none →
    Chain G.entry doms x b → ∀ l, Walk G x l → ∃ l', Walk G b (l' ++ l) ∧ ∀ y ∈ l', G.pos x < G.pos y
  | 0, b, hm, hb, hc, l, hl => absurd hm (Nat.not_lt_zero _)
  | m + 1, b, hm, hb, hc, l, hl => by
      by_cases hbx : b = x
      · subst hbx
        exact ⟨[], hl, by simp⟩
      · have hbe : b ≠ G.entry := by
          rintro rfl
          exact hxe (chain_entry.1 hc)
        cases hd : doms b with
        | none => exact absurd hd hb
        | some d =>
            have hn := hI.base.lt hG hb
            have hlt : G.pos x < G.pos b := by
              rcases hI.base.chain hc with h | h
              · exact absurd h.symm hbx
              · exact h.2
            obtain ⟨p, hp, hpn, hpl⟩ := hG.fwd hn hbe
            have hcd : Chain G.entry doms x d := by
              rcases (chain_up hbe hd).1 hc with h | h
              · exact absurd h.symm hbx
              · exact h
            have hcp := hI.after b d x p hd hbe (by omega) hcd hk hp hpl
            obtain ⟨l', h1, h2⟩ := fwd_walk hG hI hxe hk m p (by omega) (hI.prefix_ b p hb hpn hpl) hcp l hl
            refine ⟨b :: l', h1.step ((hG.wf.preds p b hn).1 hp).2, ?_⟩
            intro y hy
            rcases List.mem_cons.1 hy with rfl | hy
            · exact hlt
            · exact h2 y hy

theorem Inv.step (hG : Setup G) {k : Nat} (hI : Inv G k doms) (hx : x < G.num) (hxe : x ≠ G.entry) (hk : G.pos x = k) (hde : doms e ≠ none)
    (hpe : G.pos e < G.pos x) (hE : ∀ c, Chain G.entry doms c e ↔ ∀ p ∈ G.preds x, doms p ≠ none → Chain G.entry doms c p) :
    Inv G (k + 1) (set doms x e) := by
  have hB := hI.base
  have hnxe : ¬ Chain G.entry doms x e := fun h => by have := hB.le h; omega
  have hex : e ≠ x := fun h => by rw [h] at hpe; omega
  have not_ : ∀ {c b : Nat}, ¬ Chain G.entry doms x b → (Chain G.entry (set doms x e) c b ↔ Chain G.entry doms c b) :=
    fun h => set_chain_not (G := G) (fun _ _ _ _ => trivial) h
  have yes_ : ∀ {c b : Nat}, Chain G.entry doms x b →
      (Chain G.entry (set doms x e) c b ↔ (Chain G.entry doms c b ∧ G.pos x ≤ G.pos c) ∨ Chain G.entry doms c e) :=
    fun h => set_chain hB hxe hnxe h
  have small : ∀ {b : Nat}, G.pos b < k → ¬ Chain G.entry doms x b := fun hb h => by have := hB.le h; omega
  have other : ∀ {b d : Nat}, b ≠ x → (set doms x e b = some d ↔ doms b = some d) := by
    intro b d hb
    simp only [set, if_neg hb]
  have proc : ∀ {b : Nat}, set doms x e b ≠ none ↔ b = x ∨ doms b ≠ none := by
    intro b
    unfold set
    by_cases hb : b = x
    · simp [hb]
    · simp [hb]
  have selfx : set doms x e x = some e := by simp [set]
  -- the chain of `e` is part of the chain of `x`
  have below : ∀ {c p : Nat}, doms p ≠ none → Chain G.entry doms x p → Chain G.entry doms c e → Chain G.entry doms c p := by
    intro c p hp hxp hc
    have hdx := hB.processed hxp hp
    cases hd : doms x with
    | none => exact absurd hd hdx
    | some d =>
        have := hI.shrink x d c hd hxe fun q hq hdq => (hE c).1 hc q hq hdq
        exact (Chain.up hxe hd this).trans hxp
  have old : ∀ {c p : Nat}, doms p ≠ none → Chain G.entry (set doms x e) c p → Chain G.entry doms c p := by
    intro c p hp hc
    by_cases hxp : Chain G.entry doms x p
    · rcases (yes_ hxp).1 hc with h | h
      · exact h.1
      · exact below hp hxp h
    · exact (not_ hxp).1 hc
  have firstx : ∀ p < G.num, G.pos p < k → doms p ≠ none := hI.first
  refine ⟨⟨?_, ?_⟩, ?_, ?_, ?_, ?_, ?_, ?_⟩
  · rw [other (Ne.symm hxe)]; exact hB.entry
  · intro b d hd hb
    by_cases hbx : b = x
    · subst hbx
      rw [selfx] at hd
      cases hd
      exact ⟨hx, hB.lt hG hde, proc.2 (Or.inr hde), hpe⟩
    · have := hB.up b d ((other hbx).1 hd) hb
      exact ⟨this.1, this.2.1, proc.2 (Or.inr this.2.2.1), this.2.2.2⟩
  · intro b p hb hp hl
    refine proc.2 ?_
    rcases proc.1 hb with rfl | hb
    · exact Or.inr (hI.first p hp (by omega))
    · exact Or.inr (hI.prefix_ b p hb hp hl)
  · intro b hb hl
    refine proc.2 ?_
    by_cases h : G.pos b < k
    · exact Or.inr (hI.first b hb h)
    · exact Or.inl (hG.pos_inj hb hx (by omega))
  · intro b d c p hd hb hl hc hp hpl
    by_cases hbx : b = x
    · subst hbx
      rw [selfx] at hd
      cases hd
      rw [not_ hnxe] at hc
      rw [not_ (small (by omega))]
      exact (hE c).1 hc p hp (hI.first p ((hG.wf.preds p b hx).1 hp).1 (by omega))
    · have hd' := (other hbx).1 hd
      have hu := hB.up b d hd' hb
      have hlt : G.pos b < k := by
        have : G.pos b ≠ G.pos x := fun h => hbx (hG.pos_inj hu.1 hx h)
        omega
      rw [not_ (small (by omega))] at hc ⊢
      exact hI.before b d c p hd' hb hlt hc hp hpl
  · intro b d c p hd hb hl hc hcl hp hpl
    have hbx : b ≠ x := by rintro rfl; omega
    have hd' := (other hbx).1 hd
    have hu := hB.up b d hd' hb
    have hc' := old hu.2.2.1 hc
    have hp' := hI.after b d c p hd' hb (by omega) hc' (by omega) hp hpl
    by_cases hxp : Chain G.entry doms x p
    · exact (yes_ hxp).2 (Or.inl ⟨hp', by omega⟩)
    · exact (not_ hxp).2 hp'
  · intro b d c hd hb hall
    by_cases hbx : b = x
    · subst hbx
      rw [selfx] at hd
      cases hd
      rw [not_ hnxe]
      by_cases hce : Chain G.entry doms c e
      · exact hce
      · rw [hE]
        intro p hp hdp
        exact old hdp (hall p hp (proc.2 (Or.inr hdp)))
    · have hd' := (other hbx).1 hd
      have hu := hB.up b d hd' hb
      have hold : ∀ p ∈ G.preds b, doms p ≠ none → Chain G.entry doms c p := fun p hp hdp => old hdp (hall p hp (proc.2 (Or.inr hdp)))
      have hcd := hI.shrink b d c hd' hb hold
      by_cases hxd : Chain G.entry doms x d
      · rw [yes_ hxd]
        have hxb := hB.le hxd
        obtain ⟨p, hp, hpn, hpl⟩ := hG.fwd hu.1 hb
        have hdp : doms p ≠ none := hI.prefix_ b p (by rw [hd']; simp) hpn hpl
        have hxp := hI.after b d x p hd' hb (by omega) hxd (by omega) hp hpl
        rcases (yes_ hxp).1 (hall p hp (proc.2 (Or.inr hdp))) with h | h
        · exact Or.inl ⟨hcd, h.2⟩
        · exact Or.inr h
      · rw [not_ hxd]; exact hcd
  · intro b c hb hdom
    have domx : c ≠ x → Dominates G c x → Chain G.entry doms c e := by
      intro hcx hdx
      rw [hE]
      intro p hp hdp
      refine hI.sound p c hdp ?_
      intro l hl
      have := hdx _ (hl.step ((hG.wf.preds p x hx).1 hp).2)
      rcases List.mem_cons.1 this with h | h
      · exact absurd h hcx
      · exact h
    by_cases hbx : b = x
    · subst hbx
      by_cases hcx : c = b
      · subst hcx; exact .self
      · refine .up hxe selfx ?_
        rw [not_ hnxe]
        exact domx hcx hdom
    · have hdb : doms b ≠ none := by
        rcases proc.1 hb with h | h
        · exact absurd h hbx
        · exact h
      have hcb := hI.sound b c hdb hdom
      by_cases hxb : Chain G.entry doms x b
      · rw [yes_ hxb]
        by_cases hpos : G.pos x ≤ G.pos c
        · exact Or.inl ⟨hcb, hpos⟩
        · right
          refine domx (by rintro rfl; omega) ?_
          intro l hl
          obtain ⟨l', h1, h2⟩ := fwd_walk hG hI hxe (by omega) (G.pos b + 1) b (by omega) hdb hxb l hl
          rcases List.mem_append.1 (hdom _ h1) with h | h
          · have := h2 c h; omega
          · exact h
      · rw [not_ hxb]; exact hcb

theorem Inv.restart {k : Nat} (hG : Setup G) (hk : G.num ≤ k) (hI : Inv G k doms) : Inv G 0 doms := by
  refine ⟨hI.base, hI.prefix_, fun b hb h => absurd h (Nat.not_lt_zero _), fun b d c p _ _ h => absurd h (Nat.not_lt_zero _), ?_, hI.shrink, hI.sound⟩
  intro b d c p hd hb _ hc _ hp hl
  have := hG.pos_lt (hI.base.up b d hd hb).1
  exact hI.before b d c p hd hb (by omega) hc hp hl

theorem Inv.init (hG : Setup G) : Inv G 0 (fun b => if b = G.entry then some G.entry else none) := by
  have only : ∀ {b d : Nat}, (if b = G.entry then some G.entry else none) = some d → b = G.entry := by
    intro b d h
    split at h
    · assumption
    · cases h
  refine ⟨⟨by simp, fun b d h hb => absurd (only h) hb⟩, ?_, fun b hb h => absurd h (Nat.not_lt_zero _),
    fun b d c p h hb => absurd (only h) hb, fun b d c p h hb => absurd (only h) hb, fun b d c h hb => absurd (only h) hb, ?_⟩
  · intro b p hb hp hl
    by_cases h : b = G.entry
    · rw [h, hG.pos_entry] at hl; omega
    · simp [h] at hb
  · intro b c hb hdom
    by_cases h : b = G.entry
    · subst h
      have := hdom _ .entry
      simp at this
      rw [this]
      exact .self
    · simp [h] at hb

end Jlm.Front.Dom
