import Verif.Front.SsaModel
import Verif.Front.CfgProps

/-!
# `destruct_ssa` preserves executions: proofs
-/

set_option linter.unusedSimpArgs false
set_option linter.unusedVariables false

namespace Jlm.Front

open Jlm.Opt

variable {V : Type} {sem : Sem V} {truth : V → Bool}

theorem AgreeBelow.refl (v : Nat) (s : St V) : AgreeBelow v s s := ⟨fun _ _ => rfl, rfl⟩

theorem AgreeBelow.trans {v : Nat} {s t u : St V} (h : AgreeBelow v s t) (h' : AgreeBelow v t u) : AgreeBelow v s u :=
  ⟨fun w hw => (h.1 w hw).trans (h'.1 w hw), h.2.trans h'.2⟩

theorem AgreeBelow.symm {v : Nat} {s t : St V} (h : AgreeBelow v s t) : AgreeBelow v t s := ⟨fun w hw => (h.1 w hw).symm, h.2.symm⟩

theorem AgreeBelow.mono {v w : Nat} {s t : St V} (h : AgreeBelow w s t) (hle : v ≤ w) : AgreeBelow v s t :=
  ⟨fun u hu => h.1 u (Nat.lt_of_lt_of_le hu hle), h.2⟩

theorem set_congr {P : Var → Prop} {e f : Var → W V} {x : Var} {w : W V} (h : ∀ u, P u → e u = f u) :
    ∀ u, P u → set e x w u = set f x w u := fun u hu => by
  unfold set; split
  · rfl
  · exact h u hu

theorem setAll_congr {P : Var → Prop} : ∀ {xs : List Var} {ws : List (W V)} {e f : Var → W V}, (∀ u, P u → e u = f u) →
    ∀ u, P u → setAll e xs ws u = setAll f xs ws u
  | [], _, _, _, h => h
  | x :: xs, ws, e, f, h => by
      rw [setAll, setAll]
      exact setAll_congr (set_congr h)

theorem step_agree {v : Nat} {t : Tac} {a b : St V} (ht : ∀ u : Nat, u ∈ t.reads → u < v) (h : AgreeBelow v a b) :
    AgreeBelow v (step sem truth t a) (step sem truth t b) := by
  obtain ⟨h1, h2⟩ := h
  cases t with
  | op o ins outs =>
    have : ins.map a.env = ins.map b.env := List.map_congr_left fun u hu => h1 u (ht u hu)
    refine ⟨fun u hu => ?_, h2⟩
    simp only [step, this]
    exact setAll_congr (P := fun u => u < v) h1 u hu
  | assign l r =>
    refine ⟨fun u hu => ?_, h2⟩
    simp only [step, h1 r (ht r (by simp [Tac.reads]))]
    exact set_congr (P := fun u => u < v) h1 u hu
  | select c x y res =>
    refine ⟨fun u hu => ?_, h2⟩
    simp only [step, h1 c (ht c (by simp [Tac.reads])), h1 x (ht x (by simp [Tac.reads])),
      h1 y (ht y (by simp [Tac.reads]))]
    exact set_congr (P := fun u => u < v) h1 u hu
  | branch x => exact ⟨h1, by simp only [step, h1 x (ht x (by simp [Tac.reads]))]⟩

theorem steps_agree {sem : Sem V} {truth : V → Bool} {v : Nat} : ∀ {ts : List Tac} {a b : St V}, (∀ t ∈ ts, t.below v) → AgreeBelow v a b →
    AgreeBelow v (steps sem truth ts a) (steps sem truth ts b)
  | [], _, _, _, h => h
  | t :: ts, a, b, ht, h => by
      have := @steps_agree sem truth v ts _ _ (fun t' h' => ht t' (List.mem_cons_of_mem _ h'))
        (step_agree (sem := sem) (truth := truth) (ht t (by simp)).1 h)
      simpa [steps] using this

def phiVal (p : Phi) (z : Nat) (s : St V) : W V := match p.ins.lookup z with | some v => s.env v | none => none

theorem enter_eq (ps : List Phi) (z : Nat) (s : St V) :
    enter ps z s = ⟨setAll s.env (ps.map Phi.res) (ps.map fun p => phiVal p z s), s.ctl⟩ := rfl

theorem phiVal_agree {v z : Nat} {p : Phi} {s t : St V} (hp : p.below v) (h : AgreeBelow v s t) : phiVal p z s = phiVal p z t := by
  unfold phiVal
  cases e : p.ins.lookup z with
  | none => rfl
  | some u =>
    have : (z, u) ∈ p.ins := by
      have := List.lookup_eq_some_iff.1 e
      obtain ⟨a, b, h, _⟩ := this
      rw [h]; simp
    exact h.1 u (hp.2 _ this)

theorem enter_agree {v z : Nat} {ps : List Phi} {s t : St V} (hp : ∀ p ∈ ps, p.below v) (h : AgreeBelow v s t) :
    AgreeBelow v (enter ps z s) (enter ps z t) := by
  rw [enter_eq, enter_eq]
  have : (ps.map fun p => phiVal p z s) = ps.map fun p => phiVal p z t :=
    List.map_congr_left fun p h' => phiVal_agree (hp p h') h
  rw [this]
  exact ⟨fun u hu => setAll_congr (P := fun u => u < v) h.1 u hu, h.2⟩

/-- The one operand that comes from `z`. -/
theorem filter_lookup {z : Nat} : ∀ {ins : List (Nat × Nat)}, (ins.map Prod.fst).Nodup → z ∈ ins.map Prod.fst →
    ∃ u, ins.lookup z = some u ∧ (ins.filter fun i => i.1 = z) = [(z, u)]
  | [], _, h => by cases h
  | (a, u) :: ins, hn, h => by
      rw [List.map_cons, List.nodup_cons] at hn
      by_cases e : a = z
      · subst e
        refine ⟨u, by simp [List.lookup_cons], ?_⟩
        have : (ins.filter fun i => i.1 = a) = [] := by
          rw [List.filter_eq_nil_iff]
          intro i hi hia
          simp only [decide_eq_true_eq] at hia
          exact hn.1 (List.mem_map.2 ⟨i, hi, hia⟩)
        simp [this]
      · obtain ⟨w, h1, h2⟩ := filter_lookup (z := z) hn.2 (by
          rcases List.mem_cons.1 h with h | h
          · exact absurd h.symm e
          · exact h)
        refine ⟨w, ?_, ?_⟩
        · have : (z == a) = false := by simpa using Ne.symm e
          simp [List.lookup_cons, this, h1]
        · simp [e, h2]

/-- After the assignments of an intermediate block: the new variables have the values of the operands. -/
theorem phiStores_spec {z : Nat} (t : St V) (v0 : Nat) : ∀ (ps : List Phi) (v : Nat) (t1 : St V), v0 ≤ v →
    (∀ p ∈ ps, p.below v0 ∧ (p.ins.map Prod.fst).Nodup ∧ z ∈ p.ins.map Prod.fst) →
    (∀ u : Nat, u < v0 → t1.env u = t.env u) →
    (∀ u : Nat, u < v → (steps sem truth (phiStores v z ps) t1).env u = t1.env u) ∧
    (steps sem truth (phiStores v z ps) t1).ctl = t1.ctl ∧
    (∀ (k : Nat) (p : Phi), ps[k]? = some p → (steps sem truth (phiStores v z ps) t1).env (v + k : Nat) = phiVal p z t)
  | [], v, t1, _, _, _ => ⟨fun _ _ => rfl, rfl, by simp⟩
  | p :: ps, v, t1, hle, hp, ht => by
      obtain ⟨b, n1, n2⟩ := hp p (by simp)
      obtain ⟨u, h1, h2⟩ := filter_lookup n1 n2
      have hmem : (z, u) ∈ p.ins := by
        have : (z, u) ∈ p.ins.filter fun i => i.1 = z := by rw [h2]; simp
        exact (List.mem_filter.1 this).1
      have hu : u < v0 := b.2 _ hmem
      have e : phiStores v z (p :: ps) = .assign v u :: phiStores (v + 1) z ps := by
        simp [phiStores, h2]
      have hs : steps sem truth (phiStores v z (p :: ps)) t1 =
          steps sem truth (phiStores (v + 1) z ps) ⟨set t1.env v (t1.env u), t1.ctl⟩ := by
        rw [e]; rfl
      obtain ⟨a1, a2, a3⟩ := phiStores_spec t v0 ps (v + 1) ⟨set t1.env v (t1.env u), t1.ctl⟩ (by omega)
        (fun q hq => hp q (by simp [hq])) (fun w hw => by
          have : w ≠ v := by omega
          simp [set, this, ht w hw])
      rw [hs]
      refine ⟨fun w hw => ?_, a2, fun k q hk => ?_⟩
      · rw [a1 w (by omega)]
        have : w ≠ v := by omega
        simp [set, this]
      · cases k with
        | zero =>
          have : p = q := by simpa using hk
          subst this
          have := a1 v (by omega)
          rw [show v + 0 = v from rfl, this]
          simp [set, phiVal, h1, ht u hu]
        | succ k =>
          have := a3 k q (by simpa using hk)
          rw [show v + (k + 1) = v + 1 + k by omega, this]

/-- After the assignments of `ass_block`. -/
theorem phiLoads_spec (v0 : Nat) : ∀ (ps : List Phi) (v : Nat) (t : St V) (ws : List (W V)), v0 ≤ v →
    (∀ p ∈ ps, p.res < v0) → ws.length = ps.length →
    (∀ (k : Nat) (w : W V), ws[k]? = some w → t.env (v + k : Nat) = w) →
    steps sem truth (phiLoads v ps) t = ⟨setAll t.env (ps.map Phi.res) ws, t.ctl⟩
  | [], v, t, ws, _, _, _, _ => rfl
  | p :: ps, v, t, [], _, _, hl, _ => by simp at hl
  | p :: ps, v, t, w :: ws, hle, hp, hl, hw => by
      have h0 : t.env v = w := by simpa using hw 0 w rfl
      have hs : steps sem truth (phiLoads v (p :: ps)) t =
          steps sem truth (phiLoads (v + 1) ps) ⟨set t.env p.res (t.env v), t.ctl⟩ := rfl
      rw [hs, phiLoads_spec v0 ps (v + 1) _ ws (by omega) (fun q hq => hp q (by simp [hq])) (by simpa using hl)
        (fun k x hx => by
          have := hw (k + 1) x (by simpa using hx)
          have h2 : v + 1 + k ≠ p.res := by have := hp p (by simp); omega
          simp only [set, if_neg h2]
          rw [← this, show v + 1 + k = v + (k + 1) from by omega])]
      simp only [List.map_cons, setAll, h0, List.headD_cons, List.tail_cons]

/-- The two new blocks do what the phi operations do. -/
theorem phis_split {v z : Nat} {ps : List Phi} {s t : St V}
    (hp : ∀ p ∈ ps, p.below v ∧ (p.ins.map Prod.fst).Nodup ∧ z ∈ p.ins.map Prod.fst) (h : AgreeBelow v s t) :
    AgreeBelow v (enter ps z s) (steps sem truth (phiLoads v ps) (steps sem truth (phiStores v z ps) t)) := by
  obtain ⟨a1, a2, a3⟩ := phiStores_spec (sem := sem) (truth := truth) t v ps v t (Nat.le_refl _) hp fun _ _ => rfl
  rw [phiLoads_spec v ps v _ (ps.map fun p => phiVal p z t) (Nat.le_refl _) (fun p hp' => (hp p hp').1.1) (by simp)
    (fun k w hw => by
      rw [List.getElem?_map, Option.map_eq_some_iff] at hw
      obtain ⟨p, e1, e2⟩ := hw
      rw [a3 k p e1, e2])]
  refine (enter_agree (fun p hp' => (hp p hp').1) h).trans ?_
  rw [enter_eq]
  exact ⟨fun u hu => setAll_congr (P := fun u => u < v) (fun u hu => (a1 u hu).symm) u hu, a2.symm⟩

/-! ### One block -/

theorem mem_sources {C : PCfg} {b z : Nat} : z ∈ C.sources b ↔ z ∈ C.nodes ∧ b ∈ C.succs z := by
  simp [PCfg.sources]

theorem goes_divert {x y w : Nat} {l : List Nat} {k : Option Nat} (h : goes l k = some w) :
    goes (divert x y l) k = some (ren x y w) := by
  rw [divert, goes_map, h]; rfl

theorem goes_divert_some {x y w : Nat} {l : List Nat} {k : Option Nat} (h : goes (divert x y l) k = some w) :
    ∃ w', goes l k = some w' ∧ w = ren x y w' := by
  rw [divert, goes_map, Option.map_eq_some_iff] at h
  obtain ⟨a, b, c⟩ := h
  exact ⟨a, b, c.symm⟩

variable {C : PCfg} {n v b : Nat}

theorem split_code_old {x : Nat} (h : x < n) : (C.splitPhis n v b).code x = C.code x := by simp [PCfg.splitPhis, h]

theorem split_succs_old {x : Nat} (h : x < n) :
    (C.splitPhis n v b).succs x = divert b (n + 1 + (C.sources b).idxOf x) (C.succs x) := by simp [PCfg.splitPhis, h]

theorem split_inter {z : Nat} (hz : z ∈ C.sources b) :
    (C.splitPhis n v b).code (n + 1 + (C.sources b).idxOf z) = phiStores v z (C.phis b) ∧
    (C.splitPhis n v b).succs (n + 1 + (C.sources b).idxOf z) = [n] := by
  have h1 : ¬ n + 1 + (C.sources b).idxOf z < n := by omega
  have h2 : ¬ n + 1 + (C.sources b).idxOf z = n := by omega
  have hl := List.idxOf_lt_length_iff.2 hz
  simp only [PCfg.splitPhis, if_neg h1, if_neg h2, Nat.add_sub_cancel_left]
  rw [List.getElem?_eq_getElem hl, List.getElem_idxOf]
  exact ⟨rfl, trivial⟩

theorem split_ass : (C.splitPhis n v b).code n = phiLoads v (C.phis b) ∧ (C.splitPhis n v b).succs n = [b] := by
  simp [PCfg.splitPhis]

theorem split_phis_new {x : Nat} (h : n ≤ x) : (C.splitPhis n v b).phis x = [] := by
  have : ¬ x < n := by omega
  simp [PCfg.splitPhis, this]

theorem split_phis_old {x : Nat} (h : x < n) (hb : x ≠ b) : (C.splitPhis n v b).phis x = C.phis x := by
  simp [PCfg.splitPhis, h, hb]

theorem split_phis_b : (C.splitPhis n v b).phis b = [] := by simp [PCfg.splitPhis]

theorem split_forward (hv : C.Valid) (hs : C.Small n v) (hb : b ∈ C.blocks) {z : Nat} {s s' : St V}
    (he : C.Exec sem truth z s s') (hz : z ∈ C.nodes) :
    ∀ t, AgreeBelow v s t → ∃ t', (C.splitPhis n v b).Exec sem truth z t t' ∧ AgreeBelow v s' t' := by
  obtain ⟨b1, b2, b3⟩ := mem_blocks.1 hb
  induction he with
  | stop =>
    intro t ht
    exact ⟨_, .stop' rfl rfl, by
      rw [split_code_old (hs.nodes _ hz)]
      exact steps_agree (hs.code _ hz) ht⟩
  | @step z w s s' hze hg _ ih =>
    intro t ht
    have zn := hs.nodes z hz
    have hw := hv.closed z hz w (goes_mem hg)
    have h1 := steps_agree (sem := sem) (truth := truth) (hs.code z hz) ht
    have hg' := goes_divert (x := b) (y := n + 1 + (C.sources b).idxOf z) (hg)
    rw [h1.2] at hg'
    by_cases e : w = b
    · subst e
      have hsrc : z ∈ C.sources w := mem_sources.2 ⟨hz, goes_mem hg⟩
      obtain ⟨c1, c2⟩ := split_inter (n := n) (v := v) hsrc
      have h2 := phis_split (sem := sem) (truth := truth) (z := z) (ps := C.phis w) (fun p hp =>
        ⟨hs.phis w hw p hp, (hv.phis w hw p hp).1, ((hv.phis w hw p hp).2 z).2 ⟨hz, goes_mem hg⟩⟩) h1
      obtain ⟨t', e1, e2⟩ := ih hw _ h2
      refine ⟨t', ?_, e2⟩
      refine .step (y := n + 1 + (C.sources w).idxOf z) hze ?_ ?_
      · rw [split_succs_old zn, split_code_old zn, hg', ren, if_pos rfl]
      · rw [split_code_old zn, split_phis_new (by omega), enter_nil]
        refine .step (y := n) ?_ ?_ ?_
        · have := hs.nodes _ hv.exit
          show _ ≠ C.exit
          omega
        · rw [c2]; rfl
        · rw [c1, split_phis_new (Nat.le_refl n), enter_nil]
          refine .step (y := w) ?_ ?_ ?_
          · have := hs.nodes _ hv.exit
            show _ ≠ C.exit
            omega
          · rw [split_ass.2]; rfl
          · rw [split_ass.1, split_phis_b, enter_nil]
            exact e1
    · obtain ⟨t', e1, e2⟩ := ih hw _ (enter_agree (z := z) (hs.phis w hw) h1)
      refine ⟨t', .step (y := w) hze ?_ ?_, e2⟩
      · rw [split_succs_old zn, split_code_old zn, hg', ren, if_neg e]
      · rw [split_phis_old (hs.nodes w hw) e, split_code_old zn]
        exact e1

theorem split_backward (hv : C.Valid) (hs : C.Small n v) (hb : b ∈ C.blocks) {z : Nat} {t t' : St V}
    (he : (C.splitPhis n v b).Exec sem truth z t t') :
    (z ∈ C.nodes → ∀ s, AgreeBelow v s t → ∃ s', C.Exec sem truth z s s' ∧ AgreeBelow v s' t') ∧
    (∀ p ∈ C.sources b, z = n + 1 + (C.sources b).idxOf p → ∀ s, AgreeBelow v s t →
      ∃ s', C.Exec sem truth b (enter (C.phis b) p s) s' ∧ AgreeBelow v s' t') ∧
    (z = n → ∀ s, AgreeBelow v s (steps sem truth (phiLoads v (C.phis b)) t) → ∃ s', C.Exec sem truth b s s' ∧ AgreeBelow v s' t') := by
  obtain ⟨b1, b2, b3⟩ := mem_blocks.1 hb
  have xn := hs.nodes _ hv.exit
  induction he with
  | @stop t =>
    have e0 : (C.splitPhis n v b).exit = C.exit := rfl
    refine ⟨fun hz s h => ?_, fun p hp e => ?_, fun e => ?_⟩
    · refine ⟨_, .stop' e0 rfl, ?_⟩
      rw [e0, split_code_old xn]
      exact steps_agree (hs.code _ hv.exit) h
    · rw [e0] at e; omega
    · rw [e0] at e; omega
  | @step z w t t' hze hg hr ih =>
    refine ⟨fun hz s h => ?_, fun p hp e s h => ?_, fun e s h => ?_⟩
    · have zn := hs.nodes z hz
      rw [split_succs_old zn, split_code_old zn] at hg
      rw [split_code_old zn] at ih
      have h1 := steps_agree (sem := sem) (truth := truth) (hs.code z hz) h
      obtain ⟨w', g1, rfl⟩ := goes_divert_some hg
      have hw := hv.closed z hz w' (goes_mem g1)
      rw [← h1.2] at g1
      by_cases e : w' = b
      · subst e
        rw [ren, if_pos rfl, split_phis_new (by omega), enter_nil] at ih
        obtain ⟨s', e1, e2⟩ := ih.2.1 z (mem_sources.2 ⟨hz, goes_mem g1⟩) rfl _ h1
        exact ⟨s', .step hze g1 e1, e2⟩
      · rw [ren, if_neg e, split_phis_old (hs.nodes w' hw) e] at ih
        obtain ⟨s', e1, e2⟩ := ih.1 hw _ (enter_agree (z := z) (hs.phis w' hw) h1)
        exact ⟨s', .step hze g1 e1, e2⟩
    · subst e
      obtain ⟨c1, c2⟩ := split_inter (n := n) (v := v) hp
      rw [c2] at hg
      have hw : w = n := by simpa [goes] using hg.symm
      subst hw
      rw [c1, split_phis_new (Nat.le_refl _), enter_nil] at ih
      obtain ⟨p1, p2⟩ := mem_sources.1 hp
      exact ih.2.2 rfl _ (phis_split (fun q hq => ⟨hs.phis b b1 q hq, (hv.phis b b1 q hq).1,
        ((hv.phis b b1 q hq).2 p).2 ⟨p1, p2⟩⟩) h)
    · subst e
      rw [split_ass.2] at hg
      have hw : w = b := by simpa [goes] using hg.symm
      subst hw
      rw [split_ass.1, split_phis_b, enter_nil] at ih
      exact ih.1 b1 s h

theorem mem_split {x : Nat} : x ∈ (C.splitPhis n v b).nodes ↔ x ∈ C.nodes ∨ (n ≤ x ∧ x < n + (1 + (C.sources b).length)) := by
  simp [PCfg.splitPhis, List.mem_range'_1]

theorem split_succs_new {x : Nat} (h : n ≤ x) : (C.splitPhis n v b).succs x = if x = n then [b] else [n] := by
  have : ¬ x < n := by omega
  simp [PCfg.splitPhis, this]

theorem split_valid (hv : C.Valid) (hs : C.Small n v) (hb : b ∈ C.blocks) : (C.splitPhis n v b).Valid := by
  obtain ⟨b1, b2, b3⟩ := mem_blocks.1 hb
  have old : ∀ x, x ∈ C.nodes → x < n := hs.nodes
  refine ⟨⟨?_, ?_, ?_, ?_, ?_⟩, ?_, hv.differ, ?_, ?_, ?_, ?_, ?_⟩
  · exact mem_split.2 (.inl hv.entry)
  · exact mem_split.2 (.inl hv.exit)
  · intro x hx y hy
    rcases mem_split.1 hx with h | h
    · rw [split_succs_old (old x h)] at hy
      rcases mem_divert.1 hy with ⟨e, _⟩ | ⟨e, f⟩
      · exact mem_split.2 (.inl (hv.closed x h y e))
      · have := List.idxOf_lt_length_iff.2 (mem_sources.2 ⟨h, f⟩)
        exact mem_split.2 (.inr (by omega))
    · rw [split_succs_new h.1] at hy
      split at hy
      · simp at hy; subst hy; exact mem_split.2 (.inl b1)
      · simp at hy; subst hy; exact mem_split.2 (.inr (by omega))
  · show (C.splitPhis n v b).succs C.exit = []
    rw [split_succs_old (old _ hv.exit), hv.last]; rfl
  · intro x hx hl
    rcases mem_split.1 hx with h | h
    · rw [split_succs_old (old x h), divert_length] at hl
      rw [split_code_old (old x h)]
      exact hv.branch x h hl
    · rw [split_succs_new h.1] at hl
      split at hl <;> simp at hl
  · show (C.nodes ++ List.range' n (1 + (C.sources b).length)).Nodup
    rw [List.nodup_append]
    refine ⟨hv.nodup, List.nodup_range', ?_⟩
    rintro x hx y hy rfl
    have := old x hx
    rw [List.mem_range'_1] at hy
    omega
  · intro x hx hy
    have e0 : (C.splitPhis n v b).entry = C.entry := rfl
    rw [e0] at hy
    have := old _ hv.entry
    rcases mem_split.1 hx with h | h
    · rw [split_succs_old (old x h)] at hy
      rcases mem_divert.1 hy with ⟨e, _⟩ | ⟨e, f⟩
      · exact hv.noPred x h e
      · omega
    · rw [split_succs_new h.1] at hy
      split at hy
      · simp at hy; exact b2 hy.symm
      · simp at hy; omega
  · show ((C.splitPhis n v b).succs C.entry).length = 1
    rw [split_succs_old (old _ hv.entry), divert_length]; exact hv.first
  · intro x hx he hn
    rcases mem_split.1 hx with h | h
    · rw [split_succs_old (old x h)] at hn
      exact hv.succ x h he (by simpa [divert] using hn)
    · rw [split_succs_new h.1] at hn
      split at hn <;> simp at hn
  · show (C.splitPhis n v b).phis C.entry = [] ∧ (C.splitPhis n v b).phis C.exit = []
    rw [split_phis_old (old _ hv.entry) (Ne.symm b2), split_phis_old (old _ hv.exit) (Ne.symm b3)]
    exact hv.noPhi
  · intro x hx p hp
    by_cases e : x = b
    · subst e; rw [split_phis_b] at hp; cases hp
    rcases mem_split.1 hx with h | h
    · rw [split_phis_old (old x h) e] at hp
      obtain ⟨a1, a2⟩ := hv.phis x h p hp
      refine ⟨a1, fun z => (a2 z).trans ?_⟩
      have xn := old x h
      rw [mem_split]
      constructor
      · rintro ⟨c, d⟩
        refine ⟨.inl c, ?_⟩
        rw [split_succs_old (old z c)]
        exact mem_divert.2 (.inl ⟨d, e⟩)
      · rintro ⟨c | c, d⟩
        · rw [split_succs_old (old z c)] at d
          rcases mem_divert.1 d with f | f
          · exact ⟨c, f.1⟩
          · omega
        · rw [split_succs_new c.1] at d
          split at d
          · simp at d; exact absurd d e
          · simp at d; omega
    · rw [split_phis_new h.1] at hp; cases hp

theorem phiLoads_below : ∀ {ps : List Phi} {v m : Nat}, (∀ p ∈ ps, p.res < m) → v + ps.length ≤ m →
    ∀ t ∈ phiLoads v ps, t.below m
  | [], _, _, _, _, t, h => by cases h
  | p :: ps, v, m, hp, hl, t, h => by
      simp only [List.length_cons] at hl
      rcases List.mem_cons.1 h with e | e
      · subst e
        have := hp p (by simp)
        constructor
        · intro u hu; simp [Tac.reads] at hu; omega
        · intro u hu; simp [Tac.writes] at hu; omega
      · exact phiLoads_below (v := v + 1) (fun q hq => hp q (by simp [hq])) (by omega) t e

theorem phiStores_below {z : Nat} : ∀ {ps : List Phi} {v m : Nat}, (∀ p ∈ ps, ∀ i ∈ p.ins, i.2 < m) → v + ps.length ≤ m →
    ∀ t ∈ phiStores v z ps, t.below m
  | [], _, _, _, _, t, h => by cases h
  | p :: ps, v, m, hp, hl, t, h => by
      simp only [List.length_cons] at hl
      rw [phiStores, List.mem_append] at h
      rcases h with e | e
      · obtain ⟨i, hi, rfl⟩ := List.mem_map.1 e
        have := hp p (by simp) i (List.mem_filter.1 hi).1
        constructor
        · intro u hu; simp [Tac.reads] at hu; omega
        · intro u hu; simp [Tac.writes] at hu; omega
      · exact phiStores_below (v := v + 1) (fun q hq => hp q (by simp [hq])) (by omega) t e

theorem Tac.below.mono {v w : Nat} {t : Tac} (h : t.below v) (hle : v ≤ w) : t.below w :=
  ⟨fun u hu => Nat.lt_of_lt_of_le (h.1 u hu) hle, fun u hu => Nat.lt_of_lt_of_le (h.2 u hu) hle⟩

theorem Phi.below.mono {v w : Nat} {p : Phi} (h : p.below v) (hle : v ≤ w) : p.below w :=
  ⟨Nat.lt_of_lt_of_le h.1 hle, fun i hi => Nat.lt_of_lt_of_le (h.2 i hi) hle⟩

theorem split_small (hv : C.Valid) (hs : C.Small n v) (hb : b ∈ C.blocks) :
    (C.splitPhis n v b).Small (n + 1 + (C.sources b).length) (v + (C.phis b).length) := by
  obtain ⟨b1, b2, b3⟩ := mem_blocks.1 hb
  refine ⟨fun x hx => ?_, fun x hx t ht => ?_, fun x hx p hp => ?_⟩
  · rcases mem_split.1 hx with h | h
    · have := hs.nodes x h; omega
    · omega
  · rcases mem_split.1 hx with h | h
    · rw [split_code_old (hs.nodes x h)] at ht
      exact (hs.code x h t ht).mono (by omega)
    · have h1 : ¬ x < n := by omega
      simp only [PCfg.splitPhis, if_neg h1] at ht
      split at ht
      · exact phiLoads_below (fun p hp => Nat.lt_of_lt_of_le (hs.phis b b1 p hp).1 (by omega)) (Nat.le_refl _) t ht
      · split at ht
        · exact phiStores_below (fun p hp i hi => Nat.lt_of_lt_of_le ((hs.phis b b1 p hp).2 i hi) (by omega))
            (Nat.le_refl _) t ht
        · cases ht
  · rcases mem_split.1 hx with h | h
    · by_cases e : x = b
      · subst e; rw [split_phis_b] at hp; cases hp
      · rw [split_phis_old (hs.nodes x h) e] at hp
        exact (hs.phis x h p hp).mono (by omega)
    · rw [split_phis_new h.1] at hp; cases hp

/-! ### All blocks -/

/-- Executions from the entry correspond, up to the variables from `v` on. -/
def SameRuns (sem : Sem V) (truth : V → Bool) (v : Nat) (C D : PCfg) : Prop :=
  (∀ s t s', AgreeBelow v s t → C.Exec sem truth C.entry s s' → ∃ t', D.Exec sem truth D.entry t t' ∧ AgreeBelow v s' t') ∧
  ∀ s t t', AgreeBelow v s t → D.Exec sem truth D.entry t t' → ∃ s', C.Exec sem truth C.entry s s' ∧ AgreeBelow v s' t'

theorem splitAll_exec {sem : Sem V} {truth : V → Bool} : ∀ {bs : List Nat} {C : PCfg} {n v : Nat}, C.Valid → C.Small n v → (∀ b ∈ bs, b ∈ C.blocks) →
    (∀ x ∈ C.nodes, C.phis x ≠ [] → x ∈ bs) →
    (splitAll C n v bs).Valid ∧ (∀ x ∈ (splitAll C n v bs).nodes, (splitAll C n v bs).phis x = []) ∧
    (splitAll C n v bs).entry = C.entry ∧ (splitAll C n v bs).exit = C.exit ∧
    (∀ x ∈ C.nodes, x ∈ (splitAll C n v bs).nodes ∧ (splitAll C n v bs).code x = C.code x) ∧
    SameRuns sem truth v C (splitAll C n v bs)
  | [], C, n, v, hv, hs, hb, hp => by
      refine ⟨hv, fun x hx => ?_, rfl, rfl, fun x hx => ⟨hx, rfl⟩, ?_, ?_⟩
      · by_cases e : C.phis x = []
        · exact e
        · exact absurd (hp x hx e) (by simp)
      · intro s t s' h he
        have : ∀ {z : Nat} {s s' : St V}, C.Exec sem truth z s s' → z ∈ C.nodes → ∀ t, AgreeBelow v s t →
            ∃ t', C.Exec sem truth z t t' ∧ AgreeBelow v s' t' := by
          intro z s s' he
          induction he with
          | stop => exact fun hz t h => ⟨_, .stop, steps_agree (hs.code _ hz) h⟩
          | @step z w s s' hze hg _ ih =>
            intro hz t h
            have h1 := steps_agree (sem := sem) (truth := truth) (hs.code z hz) h
            have hw := hv.closed z hz w (goes_mem hg)
            obtain ⟨t', a, b⟩ := ih hw _ (enter_agree (z := z) (hs.phis w hw) h1)
            exact ⟨t', .step hze (h1.2 ▸ hg) a, b⟩
        exact this he hv.entry t h
      · intro s t t' h he
        have : ∀ {z : Nat} {t t' : St V}, C.Exec sem truth z t t' → z ∈ C.nodes → ∀ s, AgreeBelow v s t →
            ∃ s', C.Exec sem truth z s s' ∧ AgreeBelow v s' t' := by
          intro z t t' he
          induction he with
          | stop => exact fun hz s h => ⟨_, .stop, steps_agree (hs.code _ hz) h⟩
          | @step z w t t' hze hg _ ih =>
            intro hz s h
            have h1 := steps_agree (sem := sem) (truth := truth) (hs.code z hz) h
            have hw := hv.closed z hz w (goes_mem hg)
            obtain ⟨s', a, b⟩ := ih hw _ (enter_agree (z := z) (hs.phis w hw) h1)
            exact ⟨s', .step hze (h1.2 ▸ hg) a, b⟩
        exact this he hv.entry s h
  | b :: bs, C, n, v, hv, hs, hb, hp => by
      have hb0 := hb b (by simp)
      obtain ⟨r1, r2, r3, r4, r6, r5⟩ := splitAll_exec (bs := bs) (split_valid hv hs hb0)
        (split_small hv hs hb0)
        (fun x hx => by
          obtain ⟨a, b, c⟩ := mem_blocks.1 (hb x (by simp [hx]))
          exact mem_blocks.2 ⟨mem_split.2 (.inl a), b, c⟩)
        (fun x hx hne => by
          by_cases e : x = b
          · subst e; exact absurd split_phis_b hne
          rcases mem_split.1 hx with h | h
          · rw [split_phis_old (hs.nodes x h) e] at hne
            have := hp x h hne
            simp only [List.mem_cons, e, false_or] at this
            exact this
          · exact absurd (split_phis_new h.1) hne)
      rw [splitAll]
      refine ⟨r1, r2, r3, r4, fun x hx => ?_, fun s t s' h he => ?_, fun s t t' h he => ?_⟩
      · have := r6 x (mem_split.2 (.inl hx))
        exact ⟨this.1, this.2.trans (split_code_old (hs.nodes x hx))⟩
      · obtain ⟨t1, e1, e2⟩ := split_forward hv hs hb0 he hv.entry t h
        obtain ⟨t2, f1, f2⟩ := r5.1 t t t1 (AgreeBelow.refl _ _) e1
        exact ⟨t2, f1, e2.trans (f2.mono (by omega))⟩
      · obtain ⟨t1, e1, e2⟩ := r5.2 t t t' (AgreeBelow.refl _ _) he
        obtain ⟨t2, f1, f2⟩ := (split_backward hv hs hb0 e1).1 hv.entry s h
        exact ⟨t2, f1, f2.trans (e2.mono (by omega))⟩

/-! ### The undef operations -/

theorem steps_undefs : ∀ (vs : List Var) (s : St V),
    steps sem truth (vs.map fun v => .op undefOp [] [v]) s = undefs sem vs s
  | [], s => by simp [steps, undefs]
  | w :: vs, s => by
      have : steps sem truth ((w :: vs).map fun v => .op undefOp [] [v]) s =
          steps sem truth (vs.map fun v => .op undefOp [] [v]) ⟨set s.env w (undefVal sem), s.ctl⟩ := rfl
      rw [this, steps_undefs vs]
      simp only [undefs, set, St.mk.injEq, and_true]
      funext u
      by_cases e1 : u ∈ vs <;> by_cases e2 : u = w <;> simp [e1, e2]

theorem PCfg.Exec.inv {C : PCfg} {z : Nat} {s s' : St V} (h : C.Exec sem truth z s s') (hz : z ≠ C.exit) :
    ∃ w, goes (C.succs z) (steps sem truth (C.code z) s).ctl = some w ∧
      C.Exec sem truth w (enter (C.phis w) z (steps sem truth (C.code z) s)) s' := by
  cases h with
  | stop => exact absurd rfl hz
  | step _ hg hr => exact ⟨_, hg, hr⟩

theorem undefs_exec (hv : C.Valid) {f : Nat} {vs : List Var} (hf : C.succs C.entry = [f])
    (hp : ∀ z ∈ C.nodes, f ∈ C.succs z → z = C.entry) (hx : f ≠ C.exit) (hph : C.phis f = []) (hc : C.code C.entry = [])
    {s s' : St V} : (C.withUndefs f vs).Exec sem truth C.entry s s' ↔ C.Exec sem truth C.entry (undefs sem vs s) s' := by
  have hfe : f ≠ C.entry := fun e => hv.noPred _ hv.entry (by rw [hf, e]; simp)
  have hcode : ∀ z, z ≠ f → (C.withUndefs f vs).code z = C.code z := fun z hz => by simp [PCfg.withUndefs, hz]
  have hcf : (C.withUndefs f vs).code f = (vs.map fun v => .op undefOp [] [v]) ++ C.code f := by simp [PCfg.withUndefs]
  have other : ∀ {z : Nat} {s s' : St V}, z ∈ C.nodes → z ≠ C.entry → z ≠ f →
      ((C.withUndefs f vs).Exec sem truth z s s' ↔ C.Exec sem truth z s s') := by
    intro z s s' hz hze hzf
    constructor
    · intro h
      induction h with
      | stop => exact .stop' rfl (by rw [hcode _ hzf])
      | @step z w s s' hzx hg _ ih =>
        rw [hcode z hzf] at hg ih
        have hm : w ∈ C.succs z := goes_mem hg
        have hw := hv.closed z hz w hm
        refine .step hzx hg (ih hw (fun e => ?_) fun e => ?_)
        · exact hv.noPred z hz (e ▸ hm)
        · exact hze (hp z hz (e ▸ hm))
    · intro h
      induction h with
      | stop => exact .stop' rfl (by rw [hcode _ hzf])
      | @step z w s s' hzx hg _ ih =>
        have hm : w ∈ C.succs z := goes_mem hg
        have hw := hv.closed z hz w hm
        refine .step (y := w) hzx ?_ ?_
        · rw [hcode z hzf]; exact hg
        · rw [hcode z hzf]
          exact ih hw (fun e => hv.noPred z hz (e ▸ hm)) (fun e => hze (hp z hz (e ▸ hm)))
  have hfn : f ∈ C.nodes := hv.closed _ hv.entry f (by simp [hf])
  have first : ∀ {s s' : St V}, ((C.withUndefs f vs).Exec sem truth f s s' ↔ C.Exec sem truth f (undefs sem vs s) s') := by
    intro s s'
    constructor
    · intro h
      obtain ⟨w, hg, hr⟩ := h.inv hx
      · have hzx := hx
        rw [hcf, steps_append, steps_undefs] at hg hr
        have hm : w ∈ C.succs f := goes_mem hg
        have hw := hv.closed f hfn w hm
        exact .step hzx hg ((other hw (fun e => hv.noPred f hfn (e ▸ hm)) (fun e => hfe (hp f hfn (e ▸ hm)))).1 hr)
    · intro h
      obtain ⟨w, hg, hr⟩ := h.inv hx
      · have hzx := hx
        have hm : w ∈ C.succs f := goes_mem hg
        have hw := hv.closed f hfn w hm
        refine .step (y := w) hzx ?_ ?_
        · rw [hcf, steps_append, steps_undefs]; exact hg
        · rw [hcf, steps_append, steps_undefs]
          exact (other hw (fun e => hv.noPred f hfn (e ▸ hm)) (fun e => hfe (hp f hfn (e ▸ hm)))).2 hr
  have hce : (C.withUndefs f vs).code C.entry = [] := by rw [hcode _ (Ne.symm hfe)]; exact hc
  constructor
  · intro h
    obtain ⟨w, hg, hr⟩ := h.inv hv.differ
    · have hzx := hv.differ
      have hw : w = f := by
        have : goes [f] _ = some w := hf ▸ hg
        simpa [goes] using this.symm
      subst hw
      rw [hce] at hr
      have hr : (C.withUndefs w vs).Exec sem truth w (enter (C.phis w) C.entry s) s' := hr
      rw [hph, enter_nil] at hr
      refine .step hzx (by rw [hf]; rfl) ?_
      rw [hph, enter_nil, hc]
      exact first.1 hr
  · intro h
    obtain ⟨w, hg, hr⟩ := h.inv hv.differ
    · have hzx := hv.differ
      have hw : w = f := by
        have : goes [f] _ = some w := hf ▸ hg
        simpa [goes] using this.symm
      subst hw
      rw [hph, enter_nil, hc] at hr
      refine .step (y := w) hzx (by show goes (C.succs C.entry) _ = _; rw [hf]; rfl) ?_
      show (C.withUndefs w vs).Exec sem truth w (enter (C.phis w) C.entry _) s'
      rw [hph, enter_nil, hce]
      exact first.2 hr

theorem undefs_valid (hv : C.Valid) {f : Nat} {vs : List Var} : (C.withUndefs f vs).Valid := by
  refine ⟨⟨hv.entry, hv.exit, hv.closed, hv.last, fun x hx hl => ?_⟩, hv.nodup, hv.differ, hv.noPred, hv.first, hv.succ,
    hv.noPhi, hv.phis⟩
  have := hv.branch x hx hl
  simp only [PCfg.withUndefs]
  split
  · exact branchVar_append this
  · exact this

theorem undefs_small (hs : C.Small n v) {f : Nat} {vs : List Var} (h : ∀ u : Nat, u ∈ vs → u < v) :
    (C.withUndefs f vs).Small n v := by
  refine ⟨hs.nodes, fun x hx t ht => ?_, hs.phis⟩
  simp only [PCfg.withUndefs] at ht
  split at ht
  · rcases List.mem_append.1 ht with e | e
    · obtain ⟨u, hu, rfl⟩ := List.mem_map.1 e
      refine ⟨by simp [Tac.reads], fun w hw => ?_⟩
      simp [Tac.writes] at hw
      subst hw
      exact h w hu
    · exact hs.code x hx t e
  · exact hs.code x hx t ht

end Jlm.Front
