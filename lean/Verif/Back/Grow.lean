import Verif.Back.Rep

/-!
# What the conversion of a region adds to the control flow graph
-/

set_option linter.unusedSimpArgs false
set_option linter.unusedVariables false

namespace Jlm.Back

open Jlm.Opt Jlm.Front

/-- A phi operation of block `b` has one operand for each predecessor among the blocks `P`. -/
def PhiOk (blk : Nat → Block) (P : Nat → Prop) (b : Nat) (p : Phi) : Prop :=
  (p.ins.map Prod.fst).Nodup ∧ (∀ z ∈ p.ins.map Prod.fst, P z) ∧
    ∀ z, P z → (z ∈ p.ins.map Prod.fst ↔ b ∈ (blk z).succs)

/-- A block with successors: it ends in a branch operation if there are several. -/
def Full (b : Block) : Prop := b.succs ≠ [] ∧ (2 ≤ b.succs.length → (branchVar b.code).isSome)

/-- From `g` to `g'`, blocks are added and the last block is continued. -/
structure Grow (g g' : G) : Prop where
  oldlt : g.last < g.next
  next : g.next ≤ g'.next
  lastlt : g'.last < g'.next
  lastnew : g'.last = g.last ∨ g.next ≤ g'.last
  opened : (g'.blk g'.last).succs = []
  keep : ∀ b, b < g.next → b ≠ g.last → g'.blk b = g.blk b
  lastPhis : (g'.blk g.last).phis = (g.blk g.last).phis
  bound : ∀ z, (z = g.last ∨ g.next ≤ z) → z < g'.next → ∀ y ∈ (g'.blk z).succs, g.next ≤ y ∧ y < g'.next
  full : ∀ z, (z = g.last ∨ g.next ≤ z) → z < g'.next → z ≠ g'.last → Full (g'.blk z)
  phis : ∀ b, g.next ≤ b → b < g'.next → ∀ p ∈ (g'.blk b).phis,
    PhiOk g'.blk (fun z => (z = g.last ∨ g.next ≤ z) ∧ z < g'.next) b p

/-- The last block can be continued. -/
structure Open (g : G) : Prop where
  lt : g.last < g.next
  succs : (g.blk g.last).succs = []

theorem Grow.isOpen {g g' : G} (h : Grow g g') : Open g' := ⟨h.lastlt, h.opened⟩

theorem Grow.trans {g g1 g2 : G} (h : Grow g g1) (h' : Grow g1 g2) : Grow g g2 := by
  have n1 := h.next
  have n2 := h'.next
  have l1 := h.lastlt
  have l2 := h'.lastlt
  refine ⟨h.oldlt, by omega, l2, ?_, h'.opened, ?_, ?_, ?_, ?_, ?_⟩
  · rcases h'.lastnew with e | e
    · rw [e]; exact h.lastnew
    · exact .inr (by omega)
  · intro b hb hl
    rw [h'.keep b (by omega) (by rcases h.lastnew with e | e <;> omega), h.keep b hb hl]
  · by_cases e : g.last = g1.last
    · rw [e, h'.lastPhis, ← e, h.lastPhis]
    · have := h.oldlt
      rw [h'.keep _ (by omega) e, h.lastPhis]
  · intro z hz hz2 y hy
    by_cases e : z = g1.last ∨ g1.next ≤ z
    · have := h'.bound z e hz2 y hy; omega
    · have hzl : z < g1.next := by omega
      rw [h'.keep z hzl (by omega)] at hy
      have := h.bound z hz hzl y hy; omega
  · intro z hz hz2 hzl
    by_cases e : z = g1.last ∨ g1.next ≤ z
    · exact h'.full z e hz2 hzl
    · rw [h'.keep z (by omega) (by omega)]
      exact h.full z hz (by omega) (by omega)
  · intro b hb hb2 p hp
    by_cases hb1 : b < g1.next
    · have hp : p ∈ (g1.blk b).phis := by
        by_cases e : b = g1.last
        · rw [e] at hp ⊢; rwa [h'.lastPhis] at hp
        · rwa [h'.keep b hb1 e] at hp
      obtain ⟨q1, q2, q3⟩ := h.phis b hb hb1 p hp
      refine ⟨q1, fun z hz => ?_, fun z hz => ?_⟩
      · have := q2 z hz; omega
      · by_cases e : z = g1.last ∨ g1.next ≤ z
        · constructor
          · intro hm
            have hz' := q2 z hm
            rcases e with e | e
            · rw [q3 z hz', e, h.opened] at hm; simp at hm
            · omega
          · intro hm
            have := h'.bound z e hz.2 b hm; omega
        · rw [h'.keep z (by omega) (by omega)]
          exact q3 z ⟨hz.1, by omega⟩
    · obtain ⟨q1, q2, q3⟩ := h'.phis b (by omega) hb2 p hp
      refine ⟨q1, fun z hz => ?_, fun z hz => ?_⟩
      · have := q2 z hz
        rcases h.lastnew with e | e <;> omega
      · by_cases e : z = g1.last ∨ g1.next ≤ z
        · exact q3 z ⟨e, hz.2⟩
        · constructor
          · intro hm
            have := q2 z hm; omega
          · intro hm
            rw [h'.keep z (by omega) (by omega)] at hm
            have := h.bound z hz.1 (by omega) b hm; omega

theorem grow_refl {g : G} (h : Open g) : Grow g g := by
  refine ⟨h.lt, Nat.le_refl _, h.lt, .inl rfl, h.succs, fun _ _ _ => rfl, rfl, ?_, ?_, ?_⟩
  · intro z hz hz2 y hy
    rcases hz with rfl | hz
    · rw [h.succs] at hy; simp at hy
    · omega
  · intro z hz hz2 hzl; omega
  · intro b hb hb2; omega

theorem grow_append {g : G} (h : Open g) (t : Tac) : Grow g (g.append g.last t) := by
  have hs : ∀ z, ((g.append g.last t).blk z).succs = (g.blk z).succs := fun z => by
    simp only [G.append]; split <;> simp_all
  refine ⟨h.lt, Nat.le_refl _, h.lt, .inl rfl, ?_, ?_, ?_, ?_, ?_, ?_⟩
  · rw [hs]; exact h.succs
  · intro b _ hb; simp [G.append, hb]
  · simp [G.append]
  · intro z hz hz2 y hy
    rw [hs] at hy
    have hz2 : z < g.next := hz2
    rcases hz with rfl | hz
    · rw [h.succs] at hy; simp at hy
    · omega
  · intro z hz hz2 hzl
    have hz2 : z < g.next := hz2
    have hzl : z ≠ g.last := hzl
    omega
  · intro b hb hb2
    have hb2 : b < g.next := hb2
    omega

theorem openBlock_new {g : G} (h : Open g) : g.openBlock.blk g.next = ⟨[], [], []⟩ := by
  have := h.lt
  have : g.next ≠ g.last := by omega
  simp [G.openBlock, G.setLast, G.edge, G.new, this]

theorem openBlock_last {g : G} (h : Open g) :
    g.openBlock.blk g.last = { g.blk g.last with succs := [g.next] } := by
  have := h.lt
  have : g.last ≠ g.next := by omega
  simp [G.openBlock, G.setLast, G.edge, G.new, this, h.succs]

theorem openBlock_keep {g : G} {b : Nat} (hb : b ≠ g.next) (hl : b ≠ g.last) : g.openBlock.blk b = g.blk b := by
  simp [G.openBlock, G.setLast, G.edge, G.new, hb, hl]

theorem grow_open {g : G} (h : Open g) : Grow g g.openBlock := by
  have hl := h.lt
  have e1 := openBlock_new h
  have e2 := openBlock_last h
  have n1 : g.openBlock.next = g.next + 1 := rfl
  have n2 : g.openBlock.last = g.next := rfl
  refine ⟨h.lt, by omega, by omega, .inr (by omega), ?_, ?_, ?_, ?_, ?_, ?_⟩
  · rw [n2, e1]
  · intro b hb hbl
    exact openBlock_keep (by omega) hbl
  · rw [e2]
  · intro z hz hz2 y hy
    rcases hz with rfl | hz
    · rw [e2] at hy; simp at hy; omega
    · have : z = g.next := by omega
      rw [this, e1] at hy; simp at hy
  · intro z hz hz2 hzl
    rcases hz with rfl | hz
    · rw [e2]; exact ⟨by simp, by simp⟩
    · omega
  · intro b hb hb2 p hp
    have : b = g.next := by omega
    rw [this, e1] at hp; simp at hp

/-! ### Changes of the variable map -/

theorem insert_g {S S' : BS} {o : Out} {v : Var} (h : S.insert o v = some S') :
    S'.g = S.g ∧ S.vm o = none ∧ ∀ x, S'.vm x = if x = o then some v else S.vm x := by
  unfold BS.insert at h
  split at h
  · cases h
  · rename_i hs
    injection h with h; subst h
    exact ⟨rfl, by simpa using hs, fun _ => rfl⟩

theorem insertAll_g : ∀ {l : List (Out × Var)} {S S' : BS}, S.insertAll l = some S' → S'.g = S.g
  | [], S, S', h => by simp [BS.insertAll] at h; rw [h]
  | (o, v) :: l, S, S', h => by
    simp only [BS.insertAll, Option.bind_eq_some_iff] at h
    obtain ⟨S1, h1, h2⟩ := h
    rw [insertAll_g h2, (insert_g h1).1]

theorem thetaArgs_g {need : Out → Out → Bool} : ∀ {l : List LoopVar} {S S' : BS}, thetaArgs need l S = some S' →
    S'.g = S.g
  | [], S, S', h => by simp [thetaArgs] at h; rw [h]
  | (i, a, p, o) :: l, S, S', h => by
    simp only [thetaArgs, Option.bind_eq_some_iff] at h
    obtain ⟨v, _, S1, h1, h2⟩ := h
    rw [thetaArgs_g h2, (insert_g h1).1]

/-- Only the phi operations of block `x` change. -/
structure AddPhis (g g' : G) (x : Nat) (ps : List Phi) : Prop where
  next : g'.next = g.next
  last : g'.last = g.last
  keep : ∀ b, b ≠ x → g'.blk b = g.blk b
  at' : g'.blk x = { g.blk x with phis := (g.blk x).phis ++ ps }

theorem AddPhis.refl (g : G) (x : Nat) : AddPhis g g x [] := ⟨rfl, rfl, fun _ _ => rfl, by simp⟩

theorem AddPhis.add (g : G) (x : Nat) (p : Phi) : AddPhis g (g.addPhi x p) x [p] :=
  ⟨rfl, rfl, fun b hb => by simp [G.addPhi, hb], by simp [G.addPhi]⟩

theorem AddPhis.trans {g g1 g2 : G} {x : Nat} {p q : List Phi} (h : AddPhis g g1 x p) (h' : AddPhis g1 g2 x q) :
    AddPhis g g2 x (p ++ q) :=
  ⟨h'.next.trans h.next, h'.last.trans h.last, fun b hb => (h'.keep b hb).trans (h.keep b hb), by
    rw [h'.at', h.at']; simp⟩

theorem getAll_length : ∀ {os : List Out} {S : BS} {vs : List Var}, S.getAll os = some vs → vs.length = os.length
  | [], S, vs, h => by simp [BS.getAll] at h; simp [← h]
  | o :: os, S, vs, h => by
    simp only [BS.getAll, Option.bind_eq_some_iff, Option.map_eq_some_iff] at h
    obtain ⟨v, _, vs', h', rfl⟩ := h
    simp [getAll_length h']

theorem gammaOuts_g {ends : List Nat} {x : Nat} : ∀ {outs : List Out} {rss : List (List Out)} {S S' : BS},
    ends.length = rss.length → gammaOuts ends x outs rss S = some S' →
    ∃ ps, AddPhis S.g S'.g x ps ∧ ∀ p ∈ ps, p.ins.map Prod.fst = ends
  | [], rss, S, S', _, h => by
    simp only [gammaOuts, Option.some.injEq] at h
    exact ⟨[], h ▸ .refl _ _, by simp⟩
  | o :: outs, rss, S, S', hl, h => by
    simp only [gammaOuts, Option.bind_eq_some_iff] at h
    obtain ⟨vs, h1, h⟩ := h
    have hvl := getAll_length h1
    split at h
    · simp only [Option.bind_eq_some_iff] at h
      obtain ⟨S1, h2, h3⟩ := h
      obtain ⟨ps, q1, q2⟩ := gammaOuts_g (by simpa using hl) h3
      exact ⟨ps, by rw [← (insert_g h2).1]; exact q1, q2⟩
    · simp only [Option.bind_eq_some_iff] at h
      obtain ⟨S1, h2, h3⟩ := h
      obtain ⟨ps, q1, q2⟩ := gammaOuts_g (by simpa using hl) h3
      refine ⟨⟨o, ends.zip vs⟩ :: ps, ?_, ?_⟩
      · rw [(insert_g h2).1] at q1
        exact (AddPhis.add S.g x ⟨o, ends.zip vs⟩).trans q1
      · intro p hp
        rcases List.mem_cons.1 hp with rfl | hp
        · simp only
          rw [List.map_fst_zip]
          simp at hvl; omega
        · exact q2 p hp

theorem thetaOuts_g {need : Out → Out → Bool} {pre e l : Nat} : ∀ {lvs : List LoopVar} {S S' : BS},
    thetaOuts need pre e l lvs S = some S' →
    ∃ ps, AddPhis S.g S'.g e ps ∧ ∀ p ∈ ps, p.ins.map Prod.fst = [pre, l]
  | [], S, S', h => by
    simp only [thetaOuts, Option.some.injEq] at h
    exact ⟨[], h ▸ .refl _ _, by simp⟩
  | (i, a, p, o) :: lvs, S, S', h => by
    simp only [thetaOuts, Option.bind_eq_some_iff] at h
    obtain ⟨rv, _, S1, h2, h⟩ := h
    split at h
    · simp only [Option.bind_eq_some_iff] at h
      obtain ⟨ev, _, h3⟩ := h
      obtain ⟨ps, q1, q2⟩ := thetaOuts_g h3
      simp only [(insert_g h2).1] at q1
      refine ⟨⟨a, [(pre, ev), (l, rv)]⟩ :: ps, (AddPhis.add S.g e _).trans q1, ?_⟩
      intro p hp
      rcases List.mem_cons.1 hp with rfl | hp
      · rfl
      · exact q2 p hp
    · obtain ⟨ps, q1, q2⟩ := thetaOuts_g h
      exact ⟨ps, by rw [← (insert_g h2).1]; exact q1, q2⟩

/-! ### Gamma nodes -/

/-- What the conversion of the branches of a gamma node with entry block `e` and exit block `x` adds. -/
structure GrowR (e x : Nat) (g g' : G) (es ends : List Nat) : Prop where
  next : g.next ≤ g'.next
  keep : ∀ b, b < g.next → b ≠ e → g'.blk b = g.blk b
  ent : g'.blk e = { g.blk e with succs := (g.blk e).succs ++ es }
  esNew : ∀ b ∈ es, g.next ≤ b ∧ b < g'.next ∧ (g'.blk b).phis = []
  endsNew : ∀ b ∈ ends, g.next ≤ b ∧ b < g'.next
  endsNodup : ends.Nodup
  exit : ∀ z, g.next ≤ z → z < g'.next → (x ∈ (g'.blk z).succs ↔ z ∈ ends)
  bound : ∀ z, g.next ≤ z → z < g'.next → ∀ y ∈ (g'.blk z).succs, (g.next ≤ y ∧ y < g'.next) ∨ y = x
  full : ∀ z, g.next ≤ z → z < g'.next → Full (g'.blk z)
  phis : ∀ b, g.next ≤ b → b < g'.next → ∀ p ∈ (g'.blk b).phis,
    PhiOk g'.blk (fun z => g.next ≤ z ∧ z < g'.next) b p

theorem growR_nil (e x : Nat) (g : G) : GrowR e x g g [] [] := by
  refine ⟨Nat.le_refl _, fun _ _ _ => rfl, by simp, by simp, by simp, by simp, ?_, ?_, ?_, ?_⟩ <;> intros <;> omega

/-- The block at the beginning of a branch. -/
def G.branchBlock (g : G) (e : Nat) : G := (g.new.edge e g.next).setLast g.next

theorem branchBlock_open {g : G} {e : Nat} (he : e < g.next) : Open (g.branchBlock e) := by
  refine ⟨?_, ?_⟩
  · simp [G.branchBlock, G.setLast, G.edge, G.new]
  · have : g.next ≠ e := by omega
    simp [G.branchBlock, G.setLast, G.edge, G.new, this]

theorem growR_cons {e x : Nat} {g g1 g' : G} {es ends : List Nat} (he : e < g.next) (hx : x < g.next)
    (h1 : Grow (g.branchBlock e) g1) (h2 : GrowR e x (g1.edge g1.last x) g' es ends) (hne : g1.last ≠ g.next) :
    GrowR e x g g' (g.next :: es) (g1.last :: ends) := by
  have n0 : (g.branchBlock e).next = g.next + 1 := rfl
  have l0 : (g.branchBlock e).last = g.next := rfl
  have b0 : ∀ b, b ≠ g.next → b ≠ e → (g.branchBlock e).blk b = g.blk b := fun b h h' => by
    simp [G.branchBlock, G.setLast, G.edge, G.new, h, h']
  have be : (g.branchBlock e).blk e = { g.blk e with succs := (g.blk e).succs ++ [g.next] } := by
    have : e ≠ g.next := by omega
    simp [G.branchBlock, G.setLast, G.edge, G.new, this]
  have bn : (g.branchBlock e).blk g.next = ⟨[], [], []⟩ := by
    have : g.next ≠ e := by omega
    simp [G.branchBlock, G.setLast, G.edge, G.new, this]
  have n1 := h1.next
  have n2 : g1.next ≤ g'.next := h2.next
  have l1 := h1.lastlt
  have ll : g.next < g1.last := by rcases h1.lastnew with h | h <;> omega
  have en : ∀ b, b ≠ g1.last → (g1.edge g1.last x).blk b = g1.blk b := fun b hb => by simp [G.edge, hb]
  have el : (g1.edge g1.last x).blk g1.last = { g1.blk g1.last with succs := [x] } := by
    simp [G.edge, h1.opened]
  have ep : ∀ b, ((g1.edge g1.last x).blk b).phis = (g1.blk b).phis := fun b => by
    by_cases hb : b = g1.last
    · rw [hb, el]
    · rw [en b hb]
  -- blocks of this branch
  have old : ∀ b, g.next ≤ b → b < g1.next → g'.blk b = (g1.edge g1.last x).blk b := fun b hb hb1 =>
    h2.keep b hb1 (by omega)
  have nx : (g1.edge g1.last x).next = g1.next := rfl
  have h2n := h2.esNew
  have h2e := h2.endsNew
  rw [nx] at h2n h2e
  refine ⟨by omega, ?_, ?_, ?_, ?_, ?_, ?_, ?_, ?_, ?_⟩
  · intro b hb hbe
    rw [h2.keep b (by rw [nx]; omega) hbe, en b (by omega), h1.keep b (by omega) (by omega), b0 b (by omega) hbe]
  · rw [h2.ent, en e (by omega), h1.keep e (by omega) (by omega), be]
    simp
  · intro b hb
    rcases List.mem_cons.1 hb with rfl | hb
    · refine ⟨by omega, by omega, ?_⟩
      rw [old _ (by omega) (by omega), ep]
      have := h1.lastPhis
      rw [l0] at this
      rw [this, bn]
    · have := h2n b hb
      exact ⟨by omega, this.2⟩
  · intro b hb
    rcases List.mem_cons.1 hb with rfl | hb
    · exact ⟨by omega, by omega⟩
    · have := h2e b hb
      exact ⟨by omega, this.2⟩
  · rw [List.nodup_cons]
    exact ⟨fun h => by have := h2e _ h; omega, h2.endsNodup⟩
  · intro z hz hz2
    by_cases hz1 : z < g1.next
    · rw [old z hz hz1]
      by_cases hzl : z = g1.last
      · rw [hzl, el]; simp
      · rw [en z hzl]
        constructor
        · intro hm
          have := h1.bound z (by omega) hz1 x hm; omega
        · intro hm
          rcases List.mem_cons.1 hm with h | h
          · exact absurd h hzl
          · have := h2e _ h; omega
    · rw [h2.exit z (by rw [nx]; omega) hz2]
      constructor
      · exact fun h => List.mem_cons_of_mem _ h
      · intro h
        rcases List.mem_cons.1 h with h | h
        · omega
        · exact h
  · intro z hz hz2 y hy
    by_cases hz1 : z < g1.next
    · rw [old z hz hz1] at hy
      by_cases hzl : z = g1.last
      · rw [hzl, el] at hy; simp at hy; exact .inr hy
      · rw [en z hzl] at hy
        have := h1.bound z (by omega) hz1 y hy; omega
    · have := h2.bound z (by rw [nx]; omega) hz2 y hy
      rw [nx] at this; omega
  · intro z hz hz2
    by_cases hz1 : z < g1.next
    · rw [old z hz hz1]
      by_cases hzl : z = g1.last
      · rw [hzl, el]; exact ⟨by simp, by simp⟩
      · rw [en z hzl]
        exact h1.full z (by omega) hz1 hzl
    · exact h2.full z (by rw [nx]; omega) hz2
  · intro b hb hb2 p hp
    by_cases hb1 : b < g1.next
    · rw [old b hb hb1, ep] at hp
      by_cases hbn : b = g.next
      · have := h1.lastPhis
        rw [l0] at this
        rw [hbn, this, bn] at hp; simp at hp
      · obtain ⟨q1, q2, q3⟩ := h1.phis b (by omega) hb1 p hp
        refine ⟨q1, fun z hz => by have := q2 z hz; omega, fun z hz => ?_⟩
        by_cases hz1 : z < g1.next
        · rw [q3 z ⟨by omega, hz1⟩, old z hz.1 hz1]
          by_cases hzl : z = g1.last
          · rw [hzl, el, h1.opened]
            simp only [List.not_mem_nil, List.mem_singleton, false_iff]
            omega
          · rw [en z hzl]
        · constructor
          · intro hm
            have := q2 z hm; omega
          · intro hm
            have := h2.bound z (by rw [nx]; omega) hz.2 b hm
            rw [nx] at this; omega
    · obtain ⟨q1, q2, q3⟩ := h2.phis b (by rw [nx]; omega) hb2 p hp
      refine ⟨q1, fun z hz => by have := q2 z hz; rw [nx] at this; omega, fun z hz => ?_⟩
      by_cases hz1 : z < g1.next
      · constructor
        · intro hm
          have := q2 z hm; rw [nx] at this; omega
        · intro hm
          rw [old z hz.1 hz1] at hm
          by_cases hzl : z = g1.last
          · rw [hzl, el] at hm; simp at hm; omega
          · rw [en z hzl] at hm
            have := h1.bound z (by omega) hz1 b hm; omega
      · exact q3 z ⟨by rw [nx]; omega, hz.2⟩

theorem openGamma_facts {g : G} (h : Open g) (p : Var) :
    (g.openGamma p).next = g.next + 2 ∧
    (g.openGamma p).blk g.next = ⟨[], [.branch p], []⟩ ∧ (g.openGamma p).blk (g.next + 1) = ⟨[], [], []⟩ ∧
    (g.openGamma p).blk g.last = { g.blk g.last with succs := [g.next] } ∧
    ∀ b, b < g.next → b ≠ g.last → (g.openGamma p).blk b = g.blk b := by
  have hl := h.lt
  have n1 : g.last ≠ g.next := by omega
  have n2 : g.last ≠ g.next + 1 := by omega
  refine ⟨rfl, ?_, ?_, ?_, ?_⟩
  · simp [G.openGamma, G.append, G.edge, G.new, n1, n1.symm]
  · simp [G.openGamma, G.append, G.edge, G.new, n1, n2.symm]
  · simp [G.openGamma, G.append, G.edge, G.new, n1, n2, h.succs]
  · intro b hb hbl
    have n1 : b ≠ g.next := by omega
    have n2 : b ≠ g.next + 1 := by omega
    simp [G.openGamma, G.append, G.edge, G.new, n1, n2, hbl]

theorem grow_gamma {g g1 g2 : G} {p : Var} {es ends : List Nat} {ps : List Phi} (h : Open g)
    (h1 : GrowR g.next (g.next + 1) (g.openGamma p) g1 es ends) (hes : es ≠ [])
    (h2 : AddPhis g1 g2 (g.next + 1) ps) (hps : ∀ p ∈ ps, p.ins.map Prod.fst = ends) :
    Grow g (g2.setLast (g.next + 1)) := by
  have hl := h.lt
  obtain ⟨n0, be, bx, bl, bk⟩ := openGamma_facts h p
  have n1 := h1.next
  have h1k := h1.keep
  have h1n := h1.esNew
  have h1e := h1.endsNew
  have h1x := h1.exit
  have h1b := h1.bound
  have h1f := h1.full
  have h1p := h1.phis
  rw [n0] at n1 h1k h1n h1e h1x h1b h1f h1p
  have e1 : g1.blk g.next = ⟨[], [.branch p], es⟩ := by rw [h1.ent, be]; simp
  have x1 : g1.blk (g.next + 1) = ⟨[], [], []⟩ := by rw [h1k _ (by omega) (by omega), bx]
  have l1 : g1.blk g.last = { g.blk g.last with succs := [g.next] } := by rw [h1k _ (by omega) (by omega), bl]
  have e2 : g2.blk g.next = ⟨[], [.branch p], es⟩ := by rw [h2.keep _ (by omega), e1]
  have x2 : g2.blk (g.next + 1) = ⟨ps, [], []⟩ := by rw [h2.at', x1]; simp
  have l2 : g2.blk g.last = { g.blk g.last with succs := [g.next] } := by rw [h2.keep _ (by omega), l1]
  have s2 : ∀ b, (g2.blk b).succs = (g1.blk b).succs := fun b => by
    by_cases hb : b = g.next + 1
    · rw [hb, h2.at']
    · rw [h2.keep b hb]
  have nn : (g2.setLast (g.next + 1)).next = g1.next := h2.next
  have bb : (g2.setLast (g.next + 1)).blk = g2.blk := rfl
  have ll : (g2.setLast (g.next + 1)).last = g.next + 1 := rfl
  refine ⟨h.lt, by omega, by omega, .inr (by omega), ?_, ?_, ?_, ?_, ?_, ?_⟩ <;> rw [bb]
  · rw [ll, x2]
  · intro b hb hbl
    rw [h2.keep b (by omega), h1k b (by omega) (by omega), bk b hb hbl]
  · rw [l2]
  · intro z hz hz2 y hy
    rw [nn] at hz2 ⊢
    rw [s2] at hy
    rcases hz with rfl | hz
    · rw [l1] at hy; simp at hy; omega
    · by_cases e : z = g.next
      · rw [e, e1] at hy
        have := h1n y hy; omega
      · by_cases e' : z = g.next + 1
        · rw [e', x1] at hy; simp at hy
        · have := h1b z (by omega) hz2 y hy; omega
  · intro z hz hz2 hzl
    rw [nn] at hz2
    rw [ll] at hzl
    rcases hz with rfl | hz
    · rw [l2]; exact ⟨by simp, by simp⟩
    · by_cases e : z = g.next
      · rw [e, e2]; exact ⟨hes, fun _ => rfl⟩
      · rw [h2.keep z hzl]
        exact h1f z (by omega) hz2
  · intro b hb hb2 q hq
    rw [nn] at hb2 ⊢
    by_cases e : b = g.next
    · rw [e, e2] at hq; simp at hq
    · by_cases e' : b = g.next + 1
      · subst e'
        rw [x2] at hq
        have hins := hps q hq
        refine ⟨by rw [hins]; exact h1.endsNodup, fun z hz => ?_, fun z hz => ?_⟩
        · rw [hins] at hz
          have := h1e z hz; omega
        · rw [hins, s2]
          rcases hz.1 with e | e
          · subst e
            rw [l1]
            simp only [List.mem_singleton]
            constructor
            · intro hm
              have := h1e _ hm; omega
            · intro; omega
          · by_cases ez : z = g.next
            · rw [ez, e1]
              constructor
              · intro hm
                have := h1e _ hm; omega
              · intro hm
                have := h1n _ hm; omega
            · by_cases ez' : z = g.next + 1
              · rw [ez', x1]
                simp only [List.not_mem_nil, iff_false]
                intro hm
                have := h1e _ hm; omega
              · exact (h1x z (by omega) hz.2).symm
      · rw [h2.keep b e'] at hq
        obtain ⟨q1, q2, q3⟩ := h1p b (by omega) hb2 q hq
        refine ⟨q1, fun z hz => by have := q2 z hz; omega, fun z hz => ?_⟩
        rw [s2]
        by_cases ez : g.next + 2 ≤ z
        · exact q3 z ⟨ez, hz.2⟩
        · constructor
          · intro hm
            have := q2 z hm; omega
          · intro hm
            rcases hz.1 with e'' | e''
            · subst e''
              rw [l1] at hm; simp at hm; exact absurd hm e
            · by_cases e3 : z = g.next
              · rw [e3, e1] at hm
                have := (h1n b hm).2.2
                rw [this] at hq; simp at hq
              · have : z = g.next + 1 := by omega
                rw [this, x1] at hm; simp at hm

/-! ### Theta nodes -/

theorem closeTheta_facts {g : G} (h : Open g) {e : Nat} (he : e < g.next) (p : Var) :
    (g.closeTheta e p).next = g.next + 1 ∧ (g.closeTheta e p).last = g.next ∧
    (g.closeTheta e p).blk g.next = ⟨[], [], []⟩ ∧
    (g.closeTheta e p).blk g.last =
      { g.blk g.last with code := (g.blk g.last).code ++ [.branch p], succs := [g.next, e] } ∧
    ∀ b, b ≠ g.next → b ≠ g.last → (g.closeTheta e p).blk b = g.blk b := by
  have hl := h.lt
  have n1 : g.last ≠ g.next := by omega
  refine ⟨rfl, rfl, ?_, ?_, ?_⟩
  · simp [G.closeTheta, G.setLast, G.append, G.edge, G.new, n1, n1.symm]
  · simp [G.closeTheta, G.setLast, G.append, G.edge, G.new, n1, h.succs]
  · intro b hb hbl
    simp [G.closeTheta, G.setLast, G.append, G.edge, G.new, hb, hbl]

theorem branchVar_last (a : List Tac) (p : Var) : (branchVar (a ++ [.branch p])).isSome := by
  simp [branchVar]

theorem grow_theta {g g1 g2 : G} {p : Var} {ps : List Phi} (h : Open g) (h1 : Grow g.openBlock g1)
    (hne : g1.last ≠ g.next) (h2 : AddPhis g1 g2 g.next ps) (hps : ∀ q ∈ ps, q.ins.map Prod.fst = [g.last, g1.last]) :
    Grow g (g2.closeTheta g.next p) := by
  have hl := h.lt
  have n0 : g.openBlock.next = g.next + 1 := rfl
  have l0 : g.openBlock.last = g.next := rfl
  have n1 := h1.next
  have l1 := h1.lastlt
  have hlast : g.next + 1 ≤ g1.last := by rcases h1.lastnew with h' | h' <;> omega
  have p1 : (g1.blk g.next).phis = [] := by
    have := h1.lastPhis
    rw [l0, openBlock_new h] at this
    exact this
  have ll1 : g1.blk g.last = { g.blk g.last with succs := [g.next] } := by
    rw [h1.keep _ (by omega) (by omega), openBlock_last h]
  have s2 : ∀ b, (g2.blk b).succs = (g1.blk b).succs := fun b => by
    by_cases hb : b = g.next
    · rw [hb, h2.at']
    · rw [h2.keep b hb]
  have c2 : ∀ b, (g2.blk b).code = (g1.blk b).code := fun b => by
    by_cases hb : b = g.next
    · rw [hb, h2.at']
    · rw [h2.keep b hb]
  have nn := h2.next
  have lt := h2.last
  have o2 : Open g2 := ⟨by omega, by rw [s2, lt]; exact h1.opened⟩
  obtain ⟨f1, f2, f3, f4, f5⟩ := closeTheta_facts (e := g.next) o2 (by omega) p
  rw [nn] at f1 f2 f3 f4 f5
  rw [lt] at f4 f5
  refine ⟨h.lt, by omega, by omega, .inr (by omega), ?_, ?_, ?_, ?_, ?_, ?_⟩
  · rw [f2, f3]
  · intro b hb hbl
    rw [f5 b (by omega) (by omega), h2.keep b (by omega), h1.keep b (by omega) (by omega), openBlock_keep (by omega) hbl]
  · rw [f5 _ (by omega) (by omega), h2.keep _ (by omega), ll1]
  · intro z hz hz2 y hy
    rw [f1] at hz2 ⊢
    by_cases e : z = g1.next
    · rw [e, f3] at hy; simp at hy
    · by_cases e' : z = g1.last
      · rw [e', f4] at hy; simp at hy; omega
      · rw [f5 z e e', s2] at hy
        by_cases e3 : z = g.last
        · rw [e3, ll1] at hy; simp at hy; omega
        · have := h1.bound z (by omega) (by omega) y hy; omega
  · intro z hz hz2 hzl
    rw [f1] at hz2
    rw [f2] at hzl
    by_cases e' : z = g1.last
    · rw [e', f4]; exact ⟨by simp, fun _ => branchVar_last _ _⟩
    · rw [f5 z hzl e', Full, s2, c2]
      by_cases e3 : z = g.last
      · rw [e3, ll1]; exact ⟨by simp, by simp⟩
      · exact h1.full z (by omega) (by omega) e'
  · intro b hb hb2 q hq
    rw [f1] at hb2 ⊢
    have succ : ∀ z, z < g1.next + 1 → (b ∈ ((g2.closeTheta g.next p).blk z).succs ↔
        if z = g1.next then False else if z = g1.last then (b = g1.next ∨ b = g.next) else b ∈ (g1.blk z).succs) := by
      intro z hz
      by_cases e : z = g1.next
      · rw [e, f3]; simp
      · by_cases e' : z = g1.last
        · rw [e', f4, if_neg (by omega), if_pos rfl]; simp
        · rw [f5 z e e', s2, if_neg e, if_neg e']
    by_cases e : b = g1.next
    · rw [e, f3] at hq; simp at hq
    · by_cases e2 : b = g.next
      · subst e2
        rw [f5 _ (by omega) (by omega), h2.at', p1] at hq
        simp only [List.nil_append] at hq
        have hins := hps q hq
        refine ⟨by rw [hins]; simp; omega, fun z hz => ?_, fun z hz => ?_⟩
        · rw [hins] at hz
          simp at hz; omega
        · rw [hins, succ z hz.2]
          simp only [List.mem_cons, List.not_mem_nil, or_false]
          by_cases e3 : z = g1.next
          · rw [if_pos e3]; simp only [iff_false]; omega
          · rw [if_neg e3]
            by_cases e4 : z = g1.last
            · rw [if_pos e4]; simp [e4]
            · rw [if_neg e4]
              by_cases e5 : z = g.last
              · rw [e5, ll1]; simp
              · constructor
                · intro; omega
                · intro hm
                  have := h1.bound z (by omega) (by omega) g.next hm; omega
      · have hq : q ∈ (g1.blk b).phis := by
          by_cases e3 : b = g1.last
          · rw [e3, f4, h2.keep _ (by omega)] at hq; rw [e3]; exact hq
          · rw [f5 b e e3, h2.keep b e2] at hq; exact hq
        obtain ⟨q1, q2, q3⟩ := h1.phis b (by omega) (by omega) q hq
        refine ⟨q1, fun z hz => by have := q2 z hz; omega, fun z hz => ?_⟩
        rw [succ z hz.2]
        by_cases e3 : z = g1.next
        · rw [if_pos e3]; simp only [iff_false]
          intro hm
          have := q2 z hm; omega
        · rw [if_neg e3]
          by_cases e4 : z = g1.last
          · rw [if_pos e4]
            constructor
            · intro hm
              rw [q3 z (q2 z hm), e4, h1.opened] at hm; simp at hm
            · intro hm; omega
          · rw [if_neg e4]
            by_cases e5 : z = g.last
            · rw [e5, ll1]
              constructor
              · intro hm
                have := q2 _ hm; omega
              · intro hm; simp at hm; exact absurd hm e2
            · exact q3 z ⟨by omega, by omega⟩

/-! ### The conversion -/

mutual

theorem convNode_grow : ∀ (n : Node) {S S' : BS}, Node.supported n = true → Open S.g → convNode n S = some S' →
    Grow S.g S'.g
  | .simple op ins outs, S, S', hs, ho, h => by
    simp only [convNode, Option.bind_eq_some_iff] at h
    obtain ⟨vs, h1, h2⟩ := h
    rw [insertAll_g h2]
    exact grow_append ho _
  | .gamma pred ins outs subs, S, S', hs, ho, h => by
    simp only [convNode, Option.bind_eq_some_iff, Option.map_eq_some_iff] at h
    obtain ⟨p, _, r, h1, S1, h2, rfl⟩ := h
    simp only [Node.supported, Bool.and_eq_true, decide_eq_true_eq] at hs
    have hl := ho.lt
    obtain ⟨es, q1, q2, q3⟩ := convRegions_grow (e := S.g.next) (x := S.g.next + 1) subs hs.2
      (by show _ < S.g.next + 2; omega) (by show _ < S.g.next + 2; omega) h1
    obtain ⟨ps, q4, q5⟩ := gammaOuts_g (by rw [q3, regions_results_len]) h2
    exact grow_gamma ho q1 (fun e => by simp [e] at q2; omega) q4 q5
  | .theta ins outs args pred posts sub, S, S', hs, ho, h => by
    simp only [convNode, Option.bind_eq_some_iff, Option.map_eq_some_iff] at h
    obtain ⟨S1, h1, S2, h2, S3, h3, p, _, rfl⟩ := h
    simp only [Node.supported] at hs
    have e1 := thetaArgs_g h1
    simp only at e1
    have g0 := grow_open ho
    have g1 := grow_open g0.isOpen
    have g2 : Grow S.g.openBlock.openBlock S2.g := by
      have := convNodes_grow sub hs (by simp only [e1]; exact g1.isOpen) h2
      simpa only [e1] using this
    obtain ⟨ps, q1, q2⟩ := thetaOuts_g h3
    have g3 := grow_open g2.isOpen
    have hn := g2.next
    have : S.g.openBlock.openBlock.next = S.g.next + 2 := rfl
    refine grow_theta ho ((g1.trans g2).trans g3) ?_ q1 ?_
    · show S2.g.next ≠ _
      omega
    · exact q2
  | .lambda .., S, S', hs, ho, h => by simp [convNode] at h
  | .phi .., S, S', hs, ho, h => by simp [convNode] at h
  | .delta .., S, S', hs, ho, h => by simp [convNode] at h

theorem convNodes_grow : ∀ (ns : Nodes) {S S' : BS}, Nodes.supported ns = true → Open S.g → convNodes ns S = some S' →
    Grow S.g S'.g
  | .nil, S, S', hs, ho, h => by
    simp only [convNodes, Option.some.injEq] at h
    subst h; exact grow_refl ho
  | .cons n ns, S, S', hs, ho, h => by
    simp only [convNodes, Option.bind_eq_some_iff] at h
    obtain ⟨S1, h1, h2⟩ := h
    simp only [Nodes.supported, Bool.and_eq_true] at hs
    have q1 := convNode_grow n hs.1 ho h1
    exact q1.trans (convNodes_grow ns hs.2 q1.isOpen h2)

theorem convRegions_grow {e x : Nat} {ins : List Out} : ∀ (subs : Regions) {S : BS} {r : BS × List Nat},
    Regions.supported subs = true → e < S.g.next → x < S.g.next → convRegions e x ins subs S = some r →
    ∃ es, GrowR e x S.g r.1.g es r.2 ∧ es.length = Regions.length subs ∧ r.2.length = Regions.length subs
  | .nil, S, r, hs, he, hx, h => by
    simp only [convRegions, Option.some.injEq] at h
    subst h; exact ⟨[], growR_nil _ _ _, rfl, rfl⟩
  | .cons args results sub rest, S, r, hs, he, hx, h => by
    simp only [convRegions, Option.bind_eq_some_iff, Option.map_eq_some_iff] at h
    obtain ⟨vs, _, S0, h0, S1, h1, r', h2, rfl⟩ := h
    simp only [Regions.supported, Bool.and_eq_true] at hs
    have e0 := insertAll_g h0
    have b0 := branchBlock_open he
    have g0 := grow_open b0
    have g1 : Grow (S.g.branchBlock e).openBlock S1.g := by
      have := convNodes_grow sub hs.1.2 (by simp only [e0]; exact g0.isOpen) h1
      simp only [e0] at this
      exact this
    have g2 := grow_open g1.isOpen
    have gg := (g0.trans g1).trans g2
    have hn : S.g.next + 2 ≤ S1.g.next := g1.next
    obtain ⟨es, q1, q2, q3⟩ := convRegions_grow rest hs.2
      (S := { S1 with g := S1.g.openBlock.edge S1.g.next x })
      (by show e < S1.g.next + 1; omega) (by show x < S1.g.next + 1; omega) h2
    refine ⟨_, growR_cons he hx gg q1 ?_, by simp [Regions.length, q2], by simp [Regions.length, q3]⟩
    show S1.g.next ≠ _
    omega

theorem regions_results_len : ∀ (subs : Regions), (Regions.results subs).length = Regions.length subs
  | .nil => rfl
  | .cons _ _ _ rest => by simp [Regions.results, Regions.length, regions_results_len rest]

end

end Jlm.Back
