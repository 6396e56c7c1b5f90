import Verif.Front.DomInv
import Mathlib.Data.List.Perm.Subperm

set_option linter.unusedSimpArgs false
set_option linter.unusedVariables false

/-! # C51: dominator trees -/

namespace Jlm.Front.Dom

variable {G : Cfg} {doms : Doms}

/-! ## Passes -/

/-- Positions of the immediate dominators: this gets smaller. -/
def rank (G : Cfg) (doms : Doms) (b : Nat) : Nat :=
  match doms b with
  | some d => G.pos d
  | none => G.num

def potential (G : Cfg) (doms : Doms) : Nat := ((List.range G.num).map (rank G doms)).sum

theorem sum_le {f g : Nat → Nat} (l : List Nat) (h : ∀ x ∈ l, f x ≤ g x) : (l.map f).sum ≤ (l.map g).sum := by
  induction l with
  | nil => simp
  | cons x l ih =>
      simp only [List.map_cons, List.sum_cons]
      have := h x (by simp)
      have := ih fun y hy => h y (List.mem_cons_of_mem _ hy)
      omega

theorem sum_lt {f g : Nat → Nat} (l : List Nat) (h : ∀ x ∈ l, f x ≤ g x) {y : Nat} (hy : y ∈ l) (hlt : f y < g y) :
    (l.map f).sum < (l.map g).sum := by
  induction l with
  | nil => simp at hy
  | cons x l ih =>
      simp only [List.map_cons, List.sum_cons]
      have h1 := h x (by simp)
      have h2 := sum_le l fun y hy => h y (List.mem_cons_of_mem _ hy)
      rcases List.mem_cons.1 hy with rfl | hy
      · omega
      · have := ih (fun y hy => h y (List.mem_cons_of_mem _ hy)) hy
        omega

theorem potential_le (hG : Setup G) (hB : Base G doms) : potential G doms ≤ G.num * G.num := by
  have : ∀ (l : List Nat), (∀ x ∈ l, rank G doms x ≤ G.num) → (l.map (rank G doms)).sum ≤ G.num * l.length := by
    intro l
    induction l with
    | nil => simp
    | cons x l ih =>
        intro h
        simp only [List.map_cons, List.sum_cons, List.length_cons, Nat.mul_succ]
        have := h x (by simp)
        have := ih fun y hy => h y (List.mem_cons_of_mem _ hy)
        omega
  have := this (List.range G.num) (by
    intro x hx
    unfold rank
    cases hd : doms x with
    | none => exact Nat.le_refl _
    | some d =>
        simp only
        by_cases hxe : x = G.entry
        · subst hxe
          rw [hB.entry] at hd
          cases hd
          rw [hG.pos_entry]
          exact Nat.zero_le _
        · exact Nat.le_of_lt (hG.pos_lt (hB.up x d hd hxe).2.1))
  simpa [potential] using this

theorem potential_set (hG : Setup G) {k x e : Nat} (hI : Inv G k doms) (hx : x < G.num) (hxe : x ≠ G.entry) (hde : doms e ≠ none)
    (hE : ∀ c, Chain G.entry doms c e ↔ ∀ p ∈ G.preds x, doms p ≠ none → Chain G.entry doms c p) (hne : doms x ≠ some e) :
    potential G (set doms x e) < potential G doms := by
  have hlt : rank G (set doms x e) x < rank G doms x := by
    have : rank G (set doms x e) x = G.pos e := by simp [rank, set]
    rw [this]
    unfold rank
    cases hd : doms x with
    | none => exact hG.pos_lt (hI.base.lt hG hde)
    | some d =>
        simp only
        have := hI.shrink x d e hd hxe fun p hp hdp => (hE e).1 .self p hp hdp
        rcases hI.base.chain this with h | h
        · rw [hd] at hne; exact absurd (by rw [h]) hne
        · exact h.2
  refine sum_lt _ ?_ (List.mem_range.2 hx) hlt
  intro y _
  by_cases hy : y = x
  · rw [hy]; exact Nat.le_of_lt hlt
  · unfold rank
    simp only [set, if_neg hy]
    exact Nat.le_refl _

theorem pass_spec (hG : Setup G) : ∀ (bs : List Nat) (doms : Doms) (changed : Bool) (k : Nat), G.rpo.drop k = bs → Inv G k doms →
    ∃ doms' changed', G.pass bs doms changed = some (doms', changed') ∧ Inv G G.num doms' ∧ potential G doms' ≤ potential G doms ∧
      (changed' = false → changed = false ∧ doms' = doms ∧ ∀ b ∈ bs, b ≠ G.entry → G.newIdom doms b = doms b) ∧
      (changed' = true → changed = true ∨ potential G doms' < potential G doms) := by
  intro bs
  induction bs with
  | nil =>
      intro doms changed k hd hI
      refine ⟨doms, changed, rfl, ?_, Nat.le_refl _, fun h => ⟨h, rfl, by simp⟩, fun h => Or.inl h⟩
      have hk : G.num ≤ k := by
        have := List.drop_eq_nil_iff.1 hd
        rw [hG.length] at this
        exact this
      have h0 := hI.restart hG hk
      refine ⟨hI.base, hI.prefix_, fun b hb _ => hI.first b hb (by have := hG.pos_lt hb; omega), ?_, ?_, hI.shrink, hI.sound⟩
      · intro b d c p hd hb hl hc hp hpl
        exact hI.before b d c p hd hb (by omega) hc hp hpl
      · intro b d c p hd hb hl
        have := hG.pos_lt (hI.base.up b d hd hb).1
        omega
  | cons x bs ih =>
      intro doms changed k hd hI
      have hk : k < G.rpo.length := by
        by_cases h : k < G.rpo.length
        · exact h
        · rw [List.drop_eq_nil_of_le (by omega)] at hd; cases hd
      have hget : G.rpo[k] = x ∧ G.rpo.drop (k + 1) = bs := by
        rw [List.drop_eq_getElem_cons hk] at hd
        exact List.cons.inj hd
      have hx : x < G.num := hG.mem.1 (hget.1 ▸ List.getElem_mem hk)
      have hpos : G.pos x = k := by
        unfold Cfg.pos
        rw [← hget.1]
        exact (C51_rpo G hG.wf).1.idxOf_getElem k hk
      unfold Cfg.pass
      by_cases hxe : x = G.entry
      · rw [if_pos hxe]
        have hI' : Inv G (k + 1) doms := by
          have hk0 : k = 0 := by rw [← hpos, hxe, hG.pos_entry]
          subst hk0
          refine ⟨hI.base, hI.prefix_, ?_, ?_, ?_, hI.shrink, hI.sound⟩
          · intro b hb hl
            have : b = G.entry := hG.pos_inj hb hG.wf.entry (by rw [hG.pos_entry]; omega)
            rw [this, hI.base.entry]; simp
          · intro b d c p hd hb hl
            have : b = G.entry := hG.pos_inj (hI.base.up b d hd hb).1 hG.wf.entry (by rw [hG.pos_entry]; omega)
            exact absurd this hb
          · intro b d c p hd hb hl hc hcl
            exact hI.after b d c p hd hb (by omega) hc (by omega)
        obtain ⟨d', c', h1, h2, h3, h4, h5⟩ := ih doms changed (k + 1) hget.2 hI'
        refine ⟨d', c', h1, h2, h3, fun h => ⟨(h4 h).1, (h4 h).2.1, ?_⟩, h5⟩
        intro b hb hbe
        rcases List.mem_cons.1 hb with rfl | hb
        · exact absurd hxe hbe
        · exact (h4 h).2.2 b hb hbe
      · rw [if_neg hxe]
        obtain ⟨e, e1, e2, e3, e4⟩ := newIdom_spec hG hI.base hx hxe (fun p hp hl => hI.first p hp (by omega))
        have hI' := hI.step hG hx hxe hpos e2 e3 e4
        rw [e1]
        simp only
        by_cases hne : doms x = some e
        · rw [if_pos hne]
          rw [set_eq hne] at hI'
          obtain ⟨d', c', h1, h2, h3, h4, h5⟩ := ih doms changed (k + 1) hget.2 hI'
          refine ⟨d', c', h1, h2, h3, fun h => ⟨(h4 h).1, (h4 h).2.1, ?_⟩, h5⟩
          intro b hb hbe
          rcases List.mem_cons.1 hb with rfl | hb
          · rw [e1, hne]
          · exact (h4 h).2.2 b hb hbe
        · rw [if_neg hne]
          have hlt := potential_set hG hI hx hxe e2 e4 hne
          obtain ⟨d', c', h1, h2, h3, h4, h5⟩ := ih (set doms x e) true (k + 1) hget.2 hI'
          refine ⟨d', c', h1, h2, by omega, fun h => ?_, fun _ => Or.inr (by omega)⟩
          have := (h4 h).1
          cases this

/-- At the end. -/
structure Done (G : Cfg) (doms : Doms) : Prop where
  inv : Inv G G.num doms
  fix : ∀ b < G.num, b ≠ G.entry → G.newIdom doms b = doms b

theorem iterate_spec (hG : Setup G) : ∀ (f : Nat) (doms : Doms), Inv G 0 doms → potential G doms < f →
    ∃ doms', G.iterate f doms = some doms' ∧ Done G doms'
  | 0, doms, hI, hf => absurd hf (Nat.not_lt_zero _)
  | f + 1, doms, hI, hf => by
      obtain ⟨d', c', h1, h2, h3, h4, h5⟩ := pass_spec hG G.rpo doms false 0 rfl hI
      unfold Cfg.iterate
      rw [h1]
      cases c' with
      | true =>
          simp only
          have hlt : potential G d' < potential G doms := by
            rcases h5 rfl with h | h
            · cases h
            · exact h
          exact iterate_spec hG f d' (h2.restart hG (Nat.le_refl _)) (by omega)
      | false =>
          simp only
          obtain ⟨_, rfl, hn⟩ := h4 rfl
          exact ⟨d', rfl, h2, fun b hb hbe => hn b (hG.mem.2 hb) hbe⟩

/-! ## The result -/

theorem Done.all (hG : Setup G) (h : Done G doms) {b : Nat} (hb : b < G.num) : doms b ≠ none := h.inv.first b hb (hG.pos_lt hb)

theorem Done.chain_preds (hG : Setup G) (h : Done G doms) {b d : Nat} (hb : b ≠ G.entry) (hd : doms b = some d) (c : Nat) :
    Chain G.entry doms c d ↔ ∀ p ∈ G.preds b, Chain G.entry doms c p := by
  have hn := (h.inv.base.up b d hd hb).1
  obtain ⟨e, e1, e2, e3, e4⟩ := newIdom_spec hG h.inv.base hn hb (fun p hp _ => h.all hG hp)
  rw [h.fix b hn hb, hd] at e1
  cases e1
  rw [e4]
  constructor
  · intro hc p hp
    exact hc p hp (h.all hG ((hG.wf.preds p b hn).1 hp).1)
  · intro hc p hp _
    exact hc p hp

/-- Chains are the dominators. -/
theorem Done.dominates (hG : Setup G) (h : Done G doms) {b : Nat} (hb : b < G.num) (c : Nat) : Chain G.entry doms c b ↔ Dominates G c b := by
  constructor
  · intro hc l hl
    clear hb
    induction hl with
    | entry => rw [chain_entry.1 hc]; simp
    | @step u v l hu hv ih =>
        by_cases hve : v = G.entry
        · rw [hve] at hc
          rw [chain_entry.1 hc, hve]; simp
        · have hun := walk_lt hG.wf hu
          have hvn := hG.wf.succs u hun v hv
          cases hd : doms v with
          | none => exact absurd hd (h.all hG hvn)
          | some d =>
              rcases (chain_up hve hd).1 hc with rfl | hc
              · simp
              · exact List.mem_cons_of_mem _ (ih ((h.chain_preds hG hve hd c).1 hc u ((hG.wf.preds u v hvn).2 ⟨hun, hv⟩)))
  · exact h.inv.sound b c (h.all hG hb)

theorem Done.idom (hG : Setup G) (h : Done G doms) {b d : Nat} (hb : b ≠ G.entry) (hd : doms b = some d) : IsIdom G d b := by
  have hu := h.inv.base.up b d hd hb
  refine ⟨?_, ?_, ?_⟩
  · rintro rfl
    exact absurd hu.2.2.2 (Nat.lt_irrefl _)
  · rw [← h.dominates hG hu.1]
    exact .up hb hd .self
  · intro c hcb hc
    rw [← h.dominates hG hu.1] at hc
    rw [← h.dominates hG hu.2.1]
    rcases (chain_up hb hd).1 hc with rfl | hc
    · exact absurd rfl hcb
    · exact hc

/-! ## The tree -/

structure TreeOk (G : Cfg) (doms : Doms) (t : Tree) : Prop where
  root : (G.entry, none, 0) ∈ t
  nodup : (t.map (·.1)).Nodup
  node : ∀ b p k, (b, p, k) ∈ t → (b = G.entry ∧ p = none ∧ k = 0) ∨
    (b ≠ G.entry ∧ ∃ d q j, p = some d ∧ doms b = some d ∧ (d, q, j) ∈ t ∧ k = j + 1)

theorem lookup_of_mem {α : Type} {t : List (Nat × α)} {b : Nat} {y : α} (hn : (t.map (·.1)).Nodup) (h : (b, y) ∈ t) : t.lookup b = some y := by
  induction t with
  | nil => simp at h
  | cons q t ih =>
      rw [List.map_cons, List.nodup_cons] at hn
      rw [List.lookup_cons]
      rcases List.mem_cons.1 h with rfl | h
      · simp
      · have : (b == q.1) = false := by
          simp only [beq_eq_false_iff_ne, ne_eq]
          rintro rfl
          exact hn.1 (List.mem_map.2 ⟨_, h, rfl⟩)
        rw [this]
        exact ih hn.2 h

theorem mem_tree {t : Tree} {b : Nat} : (t.any (·.1 == b) = true) ↔ ∃ p k, (b, p, k) ∈ t := by
  simp only [List.any_eq_true, beq_iff_eq]
  constructor
  · rintro ⟨⟨a, p, k⟩, h, rfl⟩; exact ⟨p, k, h⟩
  · rintro ⟨p, k, h⟩; exact ⟨_, h, rfl⟩

theorem build_spec {doms' : Doms} (hB : Base G doms) (hdoms : ∀ b, b ≠ G.entry → doms' b = doms b) : ∀ (f b : Nat) (t : Tree), G.pos b < f →
    doms b ≠ none → TreeOk G doms t → ∃ t', build doms' f b t = some t' ∧ TreeOk G doms t' ∧ (∀ x ∈ t, x ∈ t') ∧ (∃ p k, (b, p, k) ∈ t') ∧
      ∀ c p k, (c, p, k) ∈ t' → (c, p, k) ∈ t ∨ G.pos c ≤ G.pos b
  | 0, b, t, hf, hb, ht => absurd hf (Nat.not_lt_zero _)
  | f + 1, b, t, hf, hb, ht => by
      unfold build
      by_cases hin : ∃ p k, (b, p, k) ∈ t
      · rw [if_pos (mem_tree.2 hin)]
        exact ⟨t, rfl, ht, fun _ h => h, hin, fun _ _ _ h => Or.inl h⟩
      · rw [if_neg (by rw [mem_tree]; exact hin)]
        have hbe : b ≠ G.entry := by
          rintro rfl
          exact hin ⟨_, _, ht.root⟩
        rw [hdoms b hbe]
        cases hd : doms b with
        | none => exact absurd hd hb
        | some d =>
            have hu := hB.up b d hd hbe
            simp only
            obtain ⟨t1, h1, h2, h3, ⟨p, k, h5⟩, h6⟩ := build_spec hB hdoms f d t (by omega) hu.2.2.1 ht
            have h4 : ¬ ∃ p k, (b, p, k) ∈ t1 := by
              rintro ⟨p, k, hb'⟩
              rcases h6 b p k hb' with h | h
              · exact hin ⟨p, k, h⟩
              · omega
            rw [h1]
            simp only
            have hdep : Tree.depth t1 d = some k := by
              unfold Tree.depth
              rw [lookup_of_mem h2.nodup h5]
              rfl
            rw [hdep]
            refine ⟨_, rfl, ⟨List.mem_append_left _ h2.root, ?_, ?_⟩, fun x hx => List.mem_append_left _ (h3 x hx), ⟨some d, k + 1, by simp⟩, ?_⟩
            · rw [List.map_append, List.nodup_append]
              refine ⟨h2.nodup, by simp, ?_⟩
              rintro x hx y hy rfl
              simp at hy
              subst hy
              obtain ⟨⟨a, q, j⟩, hq, rfl⟩ := List.mem_map.1 hx
              exact h4 ⟨q, j, hq⟩
            · intro c q j hc
              rcases List.mem_append.1 hc with hc | hc
              · rcases h2.node c q j hc with h | ⟨hce, d', q', j', a1, a2, a3, a4⟩
                · exact Or.inl h
                · exact Or.inr ⟨hce, d', q', j', a1, a2, List.mem_append_left _ a3, a4⟩
              · simp at hc
                obtain ⟨rfl, rfl, rfl⟩ := hc
                exact Or.inr ⟨hbe, d, p, k, rfl, hd, List.mem_append_left _ h5, rfl⟩
            · intro c q j hc
              rcases List.mem_append.1 hc with hc | hc
              · rcases h6 c q j hc with h | h
                · exact Or.inl h
                · exact Or.inr (by omega)
              · simp at hc
                rw [hc.1]
                exact Or.inr (Nat.le_refl _)

theorem buildAll_spec {doms' : Doms} (hG : Setup G) (hB : Base G doms) (hdoms : ∀ b, b ≠ G.entry → doms' b = doms b) : ∀ (bs : List Nat) (t : Tree),
    (∀ b ∈ bs, doms b ≠ none) → TreeOk G doms t →
    ∃ t', buildAll doms' (G.num + 1) bs t = some t' ∧ TreeOk G doms t' ∧ (∀ x ∈ t, x ∈ t') ∧ ∀ b ∈ bs, ∃ p k, (b, p, k) ∈ t'
  | [], t, _, ht => ⟨t, rfl, ht, fun _ h => h, by simp⟩
  | b :: bs, t, hbs, ht => by
      have hb := hbs b (by simp)
      have := hG.pos_lt (hB.lt hG hb)
      obtain ⟨t1, h1, h2, h3, ⟨p, k, h4⟩, _⟩ := build_spec hB hdoms (G.num + 1) b t (by omega) hb ht
      obtain ⟨t2, k1, k2, k3, k4⟩ := buildAll_spec hG hB hdoms bs t1 (fun x hx => hbs x (List.mem_cons_of_mem _ hx)) h2
      unfold buildAll
      rw [h1]
      refine ⟨t2, k1, k2, fun x hx => k3 x (h3 x hx), ?_⟩
      intro x hx
      rcases List.mem_cons.1 hx with rfl | hx
      · exact ⟨p, k, k3 _ h4⟩
      · exact k4 x hx

theorem domtree_form (hG : Setup G) (shuffle : List Nat → List Nat) (hs : ∀ l x, x ∈ shuffle l ↔ x ∈ l) :
    ∃ doms t, G.domtree shuffle = some t ∧ Done G doms ∧ TreeOk G doms t ∧ ∀ b < G.num, ∃ p k, (b, p, k) ∈ t := by
  have hI := Inv.init hG
  obtain ⟨doms, h1, hD⟩ := iterate_spec hG (G.num * G.num + 1) _ hI (Nat.lt_succ_of_le (potential_le hG hI.base))
  have hB := hD.inv.base
  let doms' : Doms := fun b => if b = G.entry then none else doms b
  have hdoms : ∀ b, b ≠ G.entry → doms' b = doms b := fun b hb => by simp [doms', hb]
  have h0 : TreeOk G doms [(G.entry, none, 0)] := by
    refine ⟨by simp, by simp, ?_⟩
    intro b p k h
    simp at h
    exact Or.inl h
  obtain ⟨t, k1, k2, k3, k4⟩ := buildAll_spec hG hB hdoms (shuffle (G.leaves doms')) [(G.entry, none, 0)] (by
    intro b hb
    rw [hs] at hb
    have := (List.mem_filter.1 hb).1
    exact hD.all hG (List.mem_range.1 this)) h0
  refine ⟨doms, t, ?_, hD, k2, ?_⟩
  · unfold Cfg.domtree
    rw [if_pos hG.length, h1]
    exact k1
  · -- nodes that are no leaves have a node below them
    have all : ∀ (m b : Nat), b < G.num → G.num - G.pos b < m → ∃ p k, (b, p, k) ∈ t := by
      intro m
      induction m with
      | zero => intro b _ h; exact absurd h (Nat.not_lt_zero _)
      | succ m ih =>
          intro b hb hm
          by_cases hl : b ∈ G.leaves doms'
          · exact k4 b ((hs _ _).2 hl)
          · unfold Cfg.leaves at hl
            rw [List.mem_filter] at hl
            simp only [List.mem_range, hb, true_and, Bool.not_eq_true', Bool.not_eq_false, List.any_eq_true, Bool.and_eq_true, bne_iff_ne,
              beq_iff_eq] at hl
            obtain ⟨x, hx, ⟨hxe, _⟩, hxd⟩ := hl
            rw [hdoms x hxe] at hxd
            have hu := hB.up x b hxd hxe
            have := hG.pos_lt hu.1
            obtain ⟨p, k, hin⟩ := ih x hu.1 (by omega)
            rcases k2.node x p k hin with h | ⟨_, d, q, j, _, a2, a3, _⟩
            · exact absurd h.1 hxe
            · rw [hxd] at a2
              cases a2
              exact ⟨q, j, a3⟩
    intro b hb
    exact all _ b hb (Nat.lt_succ_self _)

theorem above_chain {t : Tree} (ht : TreeOk G doms t) {c b : Nat} (hb : ∃ p k, (b, p, k) ∈ t) : Above t c b ↔ Chain G.entry doms c b := by
  constructor
  · intro h
    clear hb
    induction h with
    | self _ => exact .self
    | @up b d k hin _ ih =>
        rcases ht.node b (some d) k hin with h | ⟨hbe, d', q, j, a1, a2, a3, _⟩
        · cases h.2.1
        · cases a1
          exact .up hbe a2 ih
  · intro h
    induction h with
    | self => obtain ⟨p, k, h⟩ := hb; exact .self h
    | @up b d hbe hd _ ih =>
        obtain ⟨p, k, hin⟩ := hb
        rcases ht.node b p k hin with h | ⟨_, d', q, j, a1, a2, a3, _⟩
        · exact absurd h.1 hbe
        · rw [hd] at a2
          cases a2
          subst a1
          exact .up hin (ih ⟨q, j, a3⟩)

theorem depth_chain {t : Tree} (hB : Base G doms) (ht : TreeOk G doms t) : ∀ (k b : Nat) (p : Option Nat), (b, p, k) ∈ t →
    ∃ ds : List Nat, ds.Nodup ∧ ds.length = k ∧ ∀ c, c ∈ ds ↔ c ≠ b ∧ Chain G.entry doms c b
  | 0, b, p, h => by
      rcases ht.node b p 0 h with h | ⟨_, _, _, j, _, _, _, h⟩
      · refine ⟨[], List.nodup_nil, rfl, fun c => ?_⟩
        rw [h.1, chain_entry]
        simp
      · omega
  | k + 1, b, p, h => by
      rcases ht.node b p (k + 1) h with h | ⟨hbe, d, q, j, a1, a2, a3, a4⟩
      · omega
      · have : j = k := by omega
        subst this
        obtain ⟨ds, h1, h2, h3⟩ := depth_chain hB ht j d q a3
        refine ⟨d :: ds, ?_, by simp [h2], fun c => ?_⟩
        · rw [List.nodup_cons]
          exact ⟨fun h => ((h3 d).1 h).1 rfl, h1⟩
        · have hu := hB.up b d a2 hbe
          rw [List.mem_cons, h3, chain_up hbe a2]
          constructor
          · rintro (rfl | ⟨hne, hc⟩)
            · exact ⟨by rintro rfl; omega, Or.inr .self⟩
            · refine ⟨?_, Or.inr hc⟩
              rintro rfl
              have := hB.le hc
              omega
          · rintro ⟨hne, h | h⟩
            · exact absurd h hne
            · by_cases hcd : c = d
              · exact Or.inl hcd
              · exact Or.inr ⟨hcd, h⟩

/-- **C51** If all nodes of the control flow graph can be reached, `domtree` ends and gives a tree with each node exactly once: the entry is the
root, and the parent of each other node is its immediate dominator. -/
theorem C51_domtree_partial (G : Cfg) (hG : G.WF) (hr : ∀ b < G.num, Reachable G b) (shuffle : List Nat → List Nat)
    (hs : ∀ l x, x ∈ shuffle l ↔ x ∈ l) :
    ∃ t, G.domtree shuffle = some t ∧ (t.map (·.1)).Nodup ∧ (∀ b, (∃ p k, (b, p, k) ∈ t) ↔ b < G.num) ∧
      ∀ b p k, (b, p, k) ∈ t → if b = G.entry then p = none else ∃ d, p = some d ∧ IsIdom G d b := by
  have hS : Setup G := ⟨hG, hr⟩
  obtain ⟨doms, t, h1, h2, h3, h4⟩ := domtree_form hS shuffle hs
  refine ⟨t, h1, h3.nodup, fun b => ⟨?_, h4 b⟩, ?_⟩
  · rintro ⟨p, k, hb⟩
    rcases h3.node b p k hb with h | ⟨hbe, d, q, j, a1, a2, a3, a4⟩
    · rw [h.1]; exact hG.entry
    · exact (h2.inv.base.up b d a2 hbe).1
  · intro b p k hb
    rcases h3.node b p k hb with h | ⟨hbe, d, q, j, a1, a2, a3, a4⟩
    · rw [if_pos h.1]; exact h.2.1
    · rw [if_neg hbe]
      exact ⟨d, a1, h2.idom hS hbe a2⟩

/-- **C51** A node dominates another one if and only if it is the same node or above it in the tree, and the depth of a node is the number of its
other dominators. -/
theorem C51_dominators_partial (G : Cfg) (hG : G.WF) (hr : ∀ b < G.num, Reachable G b) (shuffle : List Nat → List Nat)
    (hs : ∀ l x, x ∈ shuffle l ↔ x ∈ l) (t : Tree) (ht : G.domtree shuffle = some t) :
    (∀ b < G.num, ∀ c, Above t c b ↔ Dominates G c b) ∧
    ∀ b p k, (b, p, k) ∈ t → ∃ ds : List Nat, ds.Nodup ∧ ds.length = k ∧ ∀ c, c ∈ ds ↔ c ≠ b ∧ Dominates G c b := by
  have hS : Setup G := ⟨hG, hr⟩
  obtain ⟨doms, t', h1, h2, h3, h4⟩ := domtree_form hS shuffle hs
  rw [ht] at h1
  cases h1
  refine ⟨fun b hb c => (above_chain h3 (h4 b hb)).trans (h2.dominates hS hb c), ?_⟩
  intro b p k hb
  have hbn : b < G.num := by
    rcases h3.node b p k hb with h | ⟨hbe, d, q, j, a1, a2, a3, a4⟩
    · rw [h.1]; exact hG.entry
    · exact (h2.inv.base.up b d a2 hbe).1
  obtain ⟨ds, d1, d2, d3⟩ := depth_chain h2.inv.base h3 k b p hb
  refine ⟨ds, d1, d2, fun c => ?_⟩
  rw [d3, h2.dominates hS hbn]

/-- **C51** Otherwise, an assertion fails: the graph is not taken although `is_closed` holds. -/
theorem C51_unreachable (G : Cfg) (hG : G.WF) {b : Nat} (hb : b < G.num) (hr : ¬ Reachable G b) (shuffle : List Nat → List Nat) :
    G.domtree shuffle = none := by
  unfold Cfg.domtree
  rw [if_neg]
  intro hlen
  have ho := C51_rpo G hG
  have hsub : ∀ x ∈ G.rpo, x ∈ (List.range G.num).erase b := by
    intro x hx
    have hxr := (ho.2 x).1 hx
    obtain ⟨l, hl⟩ := hxr
    rw [List.mem_erase_of_ne (by rintro rfl; exact hr ⟨l, hl⟩)]
    exact List.mem_range.2 (walk_lt hG hl)
  have hle := (List.subperm_of_subset ho.1 hsub).length_le
  rw [List.length_erase_of_mem (List.mem_range.2 hb), List.length_range] at hle
  omega

end Jlm.Front.Dom
