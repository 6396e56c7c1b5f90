import Verif.Front.CfgSpec
import Verif.Front.AggProps
import Mathlib.Data.List.Perm.Subperm

/-!
# `straighten`, `purge` and `prune` preserve executions: proofs
-/

set_option linter.unusedSimpArgs false
set_option linter.unusedVariables false

namespace Jlm.Front

open Jlm.Opt

variable {V : Type} {sem : Sem V} {truth : V → Bool}

theorem enter_nil (p : Nat) (s : St V) : enter [] p s = s := by cases s; rfl

theorem steps_append (a b : List Tac) (s : St V) :
    steps sem truth (a ++ b) s = steps sem truth b (steps sem truth a s) := by simp [steps]

theorem PCfg.Exec.stop' {C : PCfg} {x : Nat} {s s' : St V} (h : x = C.exit) (e : s' = steps sem truth (C.code x) s) :
    C.Exec sem truth x s s' := by subst h; subst e; exact .stop

theorem sum_zero {f : Nat → Nat} : ∀ {l : List Nat}, (∀ x ∈ l, f x = 0) → (l.map f).sum = 0
  | [], _ => rfl
  | a :: l, h => by simp [h a (by simp), sum_zero fun x hx => h x (List.mem_cons_of_mem _ hx)]

/-- A node with one in-edge has one predecessor. -/
theorem Cfg.indeg_one {C : Cfg} {u v y : Nat} (h : C.indeg y = 1) (hu : u ∈ C.nodes) (hv : v ∈ C.nodes)
    (yu : y ∈ C.succs u) (yv : y ∈ C.succs v) : u = v := by
  by_cases e : u = v
  · exact e
  · have := sum_ge2 (f := fun x => (C.succs x).count y) hu hv e
    have c1 := List.count_pos_iff.2 yu
    have c2 := List.count_pos_iff.2 yv
    unfold Cfg.indeg at h
    omega

theorem merges_some {C : PCfg} {x y : Nat} (h : C.merges x = some y) :
    C.succs x = [y] ∧ C.indeg y = 1 ∧ y ≠ C.entry ∧ y ≠ C.exit ∧ C.phis y = [] := by
  unfold PCfg.merges at h
  split at h
  · split at h
    · rename_i h1 h2; injection h with h; subst h; exact ⟨h1, h2⟩
    · cases h
  · cases h

theorem mem_blocks {C : Cfg} {x : Nat} : x ∈ C.blocks ↔ x ∈ C.nodes ∧ x ≠ C.entry ∧ x ≠ C.exit := by
  simp [Cfg.blocks]

/-! ### straighten -/

theorem merge_forward {C : PCfg} (hv : C.Valid) {x y : Nat} (hx : x ∈ C.blocks) (h : C.merges x = some y)
    (hne : x ≠ y) {z : Nat} {s s' : St V} (he : C.Exec sem truth z s s') (hz : z ∈ C.nodes) :
    if z = y then ∀ s0, steps sem truth (C.code x) s0 = s → (C.merge x y).Exec sem truth y s0 s'
    else (C.merge x y).Exec sem truth (ren x y z) s s' := by
  obtain ⟨h1, h2, h3, h4, h5⟩ := merges_some h
  obtain ⟨x1, x2, x3⟩ := mem_blocks.1 hx
  have hp : ∀ z ∈ C.nodes, y ∈ C.succs z → z = x := fun z hz hy => Cfg.indeg_one h2 hz x1 hy (by simp [h1])
  have hph : ∀ w, w ≠ y → (C.merge x y).phis (ren x y w) = C.phis w := fun w hw => by
    by_cases e : w = x
    · simp [PCfg.merge, ren, e]
    · simp [PCfg.merge, ren, e, hw]
  induction he with
  | stop =>
    rw [if_neg (fun e => h4 e.symm), ren, if_neg (Ne.symm x3)]
    exact .stop' rfl (by simp [PCfg.merge, Ne.symm h4])
  | @step z w s s' hze hg _ ih =>
    have hw := hv.closed z hz w (goes_mem hg)
    have ih := ih hw
    by_cases e : z = y
    · subst e
      rw [if_pos rfl]
      rintro s0 rfl
      have hwy : w ≠ z := fun e => hne (hp z hz (by have := goes_mem hg; rwa [e] at this)).symm
      rw [if_neg hwy] at ih
      refine .step (y := ren x z w) h4 ?_ ?_
      · simp only [PCfg.merge, if_pos, steps_append, divert, goes_map, hg]; rfl
      · rw [hph w hwy]
        simpa only [PCfg.merge, if_pos, steps_append] using ih
    · rw [if_neg e]
      by_cases e2 : z = x
      · subst e2
        rw [ren, if_pos rfl]
        rw [h1] at hg
        have : w = y := by simpa [goes] using hg.symm
        subst this
        rw [if_pos rfl, h5, enter_nil] at ih
        exact ih s rfl
      · have hwy : w ≠ y := fun e => e2 (hp z hz (by have := goes_mem hg; rwa [e] at this))
        rw [if_neg hwy] at ih
        rw [ren, if_neg e2]
        refine .step (y := ren x y w) hze ?_ ?_
        · simp only [PCfg.merge, if_neg e, divert, goes_map, hg]; rfl
        · rw [hph w hwy]
          simpa only [PCfg.merge, if_neg e] using ih

theorem merge_goes {C : PCfg} (hv : C.Valid) {x y : Nat} (hx : x ∈ C.blocks) (h : C.merges x = some y)
    (hne : x ≠ y) {z w : Nat} {st s' : St V} {k : Option Nat} (hz : z ∈ C.nodes) (hzx : z ≠ x)
    (hg : goes (divert x y (C.succs z)) k = some w)
    (ih : w ∈ C.nodes → w ≠ x →
      C.Exec sem truth (if w = y then x else w) (enter ((C.merge x y).phis w) z st) s') :
    ∃ w', goes (C.succs z) k = some w' ∧ C.Exec sem truth w' (enter (C.phis w') z st) s' := by
  obtain ⟨h1, h2, h3, h4, h5⟩ := merges_some h
  obtain ⟨x1, x2, x3⟩ := mem_blocks.1 hx
  have hp : ∀ z ∈ C.nodes, y ∈ C.succs z → z = x := fun z hz hy => Cfg.indeg_one h2 hz x1 hy (by simp [h1])
  rw [divert, goes_map, Option.map_eq_some_iff] at hg
  obtain ⟨w', hw', rfl⟩ := hg
  have hwn := hv.closed z hz w' (goes_mem hw')
  have hwy : w' ≠ y := fun e => hzx (hp z hz (by have := goes_mem hw'; rwa [e] at this))
  have yn := hv.closed x x1 y (by simp [h1])
  refine ⟨w', hw', ?_⟩
  by_cases e : w' = x
  · subst e
    have := ih (by simpa using yn) (by simpa using Ne.symm hne)
    simpa [PCfg.merge] using this
  · have := ih (by simpa [e] using hwn) (by simpa [e] using e)
    simpa [PCfg.merge, e, hwy] using this

theorem merge_backward {C : PCfg} (hv : C.Valid) {x y : Nat} (hx : x ∈ C.blocks) (h : C.merges x = some y)
    (hne : x ≠ y) {z : Nat} {s s' : St V} (he : (C.merge x y).Exec sem truth z s s') (hz : z ∈ C.nodes) (hzx : z ≠ x) :
    C.Exec sem truth (if z = y then x else z) s s' := by
  obtain ⟨h1, h2, h3, h4, h5⟩ := merges_some h
  obtain ⟨x1, x2, x3⟩ := mem_blocks.1 hx
  induction he with
  | stop =>
    have : C.exit ≠ y := Ne.symm h4
    have e0 : (C.merge x y).exit = C.exit := rfl
    rw [e0, if_neg this]
    exact .stop' rfl (by simp [PCfg.merge, this])
  | @step z w s s' hze hg hr ih =>
    have hd : (C.merge x y).succs z = divert x y (C.succs z) := rfl
    rw [hd] at hg
    obtain ⟨w', g1, g2⟩ := merge_goes hv hx h hne hz hzx hg ih
    by_cases e : z = y
    · have hc : (C.merge x y).code z = C.code x ++ C.code y := by simp [PCfg.merge, e]
      rw [hc, steps_append] at g1 g2
      subst e
      rw [if_pos rfl]
      refine .step (y := z) x3 (by rw [h1]; rfl) ?_
      rw [h5, enter_nil]
      exact .step h4 g1 g2
    · have hc : (C.merge x y).code z = C.code z := by simp [PCfg.merge, e]
      rw [hc] at g1 g2
      rw [if_neg e]
      exact .step hze g1 g2

/-- A block that is its own only successor and predecessor is not reached. -/
theorem merge_self {C : PCfg} (hv : C.Valid) {x : Nat} (hx : x ∈ C.blocks) (h : C.merges x = some x)
    {z : Nat} (hz : z ∈ C.nodes) (hzx : z ≠ x) : x ∉ C.succs z := fun hm =>
  hzx (Cfg.indeg_one (merges_some h).2.1 hz (mem_blocks.1 hx).1 hm (by simp [(merges_some h).1]))

theorem divert_self (x : Nat) (l : List Nat) : divert x x l = l := by
  simp only [divert]
  conv => rhs; rw [← List.map_id l]
  exact List.map_congr_left fun y _ => by by_cases e : y = x <;> simp [e]

theorem merge_self_iff {C : PCfg} (hv : C.Valid) {x : Nat} (hx : x ∈ C.blocks) (h : C.merges x = some x)
    {z : Nat} {s s' : St V} (hz : z ∈ C.nodes) (hzx : z ≠ x) :
    (C.merge x x).Exec sem truth z s s' ↔ C.Exec sem truth z s s' := by
  obtain ⟨x1, x2, x3⟩ := mem_blocks.1 hx
  have hs : ∀ z, (C.merge x x).succs z = C.succs z := fun z => divert_self x _
  have hc : ∀ z, z ≠ x → (C.merge x x).code z = C.code z := fun z hz => by simp [PCfg.merge, hz]
  have hp : ∀ z, (C.merge x x).phis z = C.phis z := fun z => by by_cases e : z = x <;> simp [PCfg.merge, e]
  constructor
  · intro he
    induction he with
    | stop => exact .stop' rfl (by rw [hc _ hzx])
    | @step z w s s' hze hg hr ih =>
      rw [hs, hc _ hzx] at hg
      rw [hc _ hzx, hp] at ih
      exact .step hze hg (ih (hv.closed z hz w (goes_mem hg))
        fun e => merge_self hv hx h hz hzx (by have := goes_mem hg; rwa [e] at this))
  · intro he
    induction he with
    | stop => exact .stop' rfl (by rw [hc _ hzx])
    | @step z w s s' hze hg hr ih =>
      have ih := ih (hv.closed z hz w (goes_mem hg))
        fun e => merge_self hv hx h hz hzx (by have := goes_mem hg; rwa [e] at this)
      exact .step hze (by rw [hs, hc _ hzx]; exact hg) (by rw [hc _ hzx, hp]; exact ih)

/-- Merging a block does not change what the graph computes. -/
theorem merge_exec {C : PCfg} (hv : C.Valid) {x y : Nat} (hx : x ∈ C.blocks) (h : C.merges x = some y)
    {s s' : St V} : (C.merge x y).Exec sem truth C.entry s s' ↔ C.Exec sem truth C.entry s s' := by
  obtain ⟨h1, h2, h3, h4, h5⟩ := merges_some h
  obtain ⟨x1, x2, x3⟩ := mem_blocks.1 hx
  by_cases hne : x = y
  · subst hne; exact merge_self_iff hv hx h hv.entry (Ne.symm x2)
  · constructor
    · intro he
      have := merge_backward hv hx h hne he hv.entry (Ne.symm x2)
      rwa [if_neg (Ne.symm h3)] at this
    · intro he
      have := merge_forward hv hx h hne he hv.entry
      rwa [if_neg (Ne.symm h3), ren, if_neg (Ne.symm x2)] at this

theorem branchVar_append {a b : List Tac} (h : (branchVar b).isSome) : (branchVar (a ++ b)).isSome := by
  cases b with
  | nil => simp [branchVar] at h
  | cons t b =>
    have : (a ++ t :: b).getLast? = (t :: b).getLast? := by
      rw [List.getLast?_append]; simp [List.getLast?_cons]
    rw [branchVar, this]; exact h

theorem mem_divert {x y w : Nat} {l : List Nat} : w ∈ divert x y l ↔ (w ∈ l ∧ w ≠ x) ∨ (w = y ∧ x ∈ l) := by
  simp only [divert, List.mem_map]
  constructor
  · rintro ⟨a, ha, rfl⟩
    by_cases e : a = x
    · subst e; simp [ha]
    · simp [e, ha]
  · rintro (⟨h1, h2⟩ | ⟨rfl, h2⟩)
    · exact ⟨w, h1, by simp [h2]⟩
    · exact ⟨x, h2, by simp⟩

theorem merge_valid {C : PCfg} (hv : C.Valid) {x y : Nat} (hx : x ∈ C.blocks) (h : C.merges x = some y) :
    (C.merge x y).Valid := by
  obtain ⟨h1, h2, h3, h4, h5⟩ := merges_some h
  obtain ⟨x1, x2, x3⟩ := mem_blocks.1 hx
  have hp : ∀ z ∈ C.nodes, y ∈ C.succs z → z = x := fun z hz hy => Cfg.indeg_one h2 hz x1 hy (by simp [h1])
  have yn := hv.closed x x1 y (by simp [h1])
  have hm : ∀ z, z ∈ (C.merge x y).nodes ↔ z ∈ C.nodes ∧ z ≠ x := fun z => by simp [PCfg.merge]
  have hs : ∀ z w, w ∈ (C.merge x y).succs z ↔ (w ∈ C.succs z ∧ w ≠ x) ∨ (w = y ∧ x ∈ C.succs z) :=
    fun z w => mem_divert
  refine ⟨⟨?_, ?_, ?_, ?_, ?_⟩, ?_, hv.differ, ?_, ?_, ?_, ?_, ?_⟩
  · exact (hm _).2 ⟨hv.entry, Ne.symm x2⟩
  · exact (hm _).2 ⟨hv.exit, Ne.symm x3⟩
  · intro z hz w hw
    rw [hm] at hz ⊢
    rcases (hs z w).1 hw with ⟨a, b⟩ | ⟨a, b⟩
    · exact ⟨hv.closed z hz.1 w a, b⟩
    · subst a
      refine ⟨yn, fun e => ?_⟩
      subst e
      exact hz.2 (hp z hz.1 b)
  · show divert x y (C.succs C.exit) = []
    rw [hv.last]; rfl
  · intro z hz hl
    have hl : 2 ≤ (divert x y (C.succs z)).length := hl
    rw [divert_length] at hl
    have := hv.branch z ((hm z).1 hz).1 hl
    by_cases e : z = y
    · subst e
      simpa [PCfg.merge] using branchVar_append this
    · simpa [PCfg.merge, e] using this
  · exact hv.nodup.filter _
  · intro z hz hw
    rcases (hs z _).1 hw with ⟨a, b⟩ | ⟨a, b⟩
    · exact hv.noPred z ((hm z).1 hz).1 a
    · exact h3 a.symm
  · show (divert x y (C.succs C.entry)).length = 1
    rw [divert_length]; exact hv.first
  · intro z hz he hn
    have hn : divert x y (C.succs z) = [] := hn
    exact hv.succ z ((hm z).1 hz).1 he (by simpa [divert] using hn)
  · simp [PCfg.merge, Ne.symm h3, Ne.symm h4, hv.noPhi]
  · intro z hz p hp'
    obtain ⟨z1, z2⟩ := (hm z).1 hz
    by_cases e : z = y
    · subst e
      have hp' : p ∈ C.phis x := by simpa [PCfg.merge] using hp'
      obtain ⟨a, b⟩ := hv.phis x x1 p hp'
      refine ⟨a, fun w => (b w).trans ?_⟩
      rw [hm, hs]
      constructor
      · rintro ⟨c, d⟩
        refine ⟨⟨c, fun ew => ?_⟩, .inr ⟨rfl, d⟩⟩
        subst ew
        rw [h1] at d
        exact z2 (List.mem_singleton.1 d).symm
      · rintro ⟨⟨c, d⟩, ⟨e1, e2⟩ | ⟨_, e2⟩⟩
        · exact absurd (hp w c e1) d
        · exact ⟨c, e2⟩
    · have hp' : p ∈ C.phis z := by simpa [PCfg.merge, e] using hp'
      obtain ⟨a, b⟩ := hv.phis z z1 p hp'
      refine ⟨a, fun w => (b w).trans ?_⟩
      rw [hm, hs]
      constructor
      · rintro ⟨c, d⟩
        refine ⟨⟨c, fun ew => ?_⟩, .inl ⟨d, z2⟩⟩
        subst ew
        rw [h1] at d
        exact e (List.mem_singleton.1 d)
      · rintro ⟨⟨c, d⟩, ⟨e1, e2⟩ | ⟨e1, _⟩⟩
        · exact ⟨c, e1⟩
        · exact absurd e1 e

theorem straightenOver_exec : ∀ {xs : List Nat} {C : PCfg}, C.Valid → xs.Nodup → (∀ x ∈ xs, x ∈ C.blocks) →
    (straightenOver C xs).Valid ∧ (straightenOver C xs).entry = C.entry ∧ (straightenOver C xs).exit = C.exit ∧
    (∀ z, z ∈ (straightenOver C xs).nodes → z ∈ C.nodes) ∧
    ∀ s s' : St V, (straightenOver C xs).Exec sem truth C.entry s s' ↔ C.Exec sem truth C.entry s s'
  | [], C, hv, _, _ => ⟨hv, rfl, rfl, fun _ h => h, fun _ _ => Iff.rfl⟩
  | x :: xs, C, hv, hn, hb => by
      rw [List.nodup_cons] at hn
      rw [straightenOver]
      split
      · rename_i y h
        have hx := hb x (by simp)
        have hb' : ∀ z ∈ xs, z ∈ (C.merge x y).blocks := fun z hz => by
          have := mem_blocks.1 (hb z (by simp [hz]))
          rw [mem_blocks]
          refine ⟨?_, this.2⟩
          have : z ≠ x := fun e => hn.1 (e ▸ hz)
          simp [PCfg.merge, *]
        obtain ⟨a, b, c, d, e⟩ := straightenOver_exec (merge_valid hv hx h) hn.2 hb'
        exact ⟨a, b, c, fun z hz => (List.mem_filter.1 (d z hz)).1, fun s s' => (e s s').trans (merge_exec hv hx h)⟩
      · exact straightenOver_exec hv hn.2 fun z hz => hb z (by simp [hz])

theorem count_divert {x y w : Nat} : ∀ {l : List Nat}, y ∉ l → w ≠ y → (divert x y l).count (ren x y w) = l.count w
  | [], _, _ => by simp [divert]
  | a :: l, h, hw => by
      simp only [List.mem_cons, not_or] at h
      have ih := count_divert (x := x) (w := w) h.2 hw
      have e : divert x y (a :: l) = ren x y a :: divert x y l := rfl
      rw [e, List.count_cons, List.count_cons, ih]
      congr 1
      by_cases e1 : a = w
      · simp [e1]
      · have : ren x y a ≠ ren x y w := by
          unfold ren
          by_cases e2 : a = x <;> by_cases e3 : w = x
          · exact absurd (e2.trans e3.symm) e1
          · rw [if_pos e2, if_neg e3]; exact fun e => hw e.symm
          · rw [if_neg e2, if_pos e3]; exact fun e => h.1 e.symm
          · rw [if_neg e2, if_neg e3]; exact e1
        simp [e1, this]

theorem sum_filter {f g : Nat → Nat} {x : Nat} : ∀ {l : List Nat}, f x = 0 → (∀ z ∈ l, z ≠ x → g z = f z) →
    ((l.filter fun z => z ≠ x).map g).sum = (l.map f).sum
  | [], _, _ => rfl
  | a :: l, h, hg => by
      have ih := sum_filter (l := l) h fun z hz => hg z (List.mem_cons_of_mem _ hz)
      by_cases e : a = x
      · subst e; simpa [h] using ih
      · have := hg a (by simp) e
        simp only [ne_eq, e, not_false_eq_true, decide_true, List.filter_cons_of_pos, List.map_cons, List.sum_cons]
        rw [this]
        congr 1

theorem merge_indeg {C : PCfg} (hv : C.Valid) {x y w : Nat} (hx : x ∈ C.blocks) (h : C.merges x = some y)
    (hw : w ≠ y) : (C.merge x y).indeg (ren x y w) = C.indeg w := by
  obtain ⟨h1, h2, h3, h4, h5⟩ := merges_some h
  obtain ⟨x1, x2, x3⟩ := mem_blocks.1 hx
  have hp : ∀ z ∈ C.nodes, y ∈ C.succs z → z = x := fun z hz hy => Cfg.indeg_one h2 hz x1 hy (by simp [h1])
  refine sum_filter (f := fun z => (C.succs z).count w) ?_ fun z hz hzx => ?_
  · simp [h1, hw, Ne.symm hw]
  · exact count_divert (fun hy => hzx (hp z hz hy)) hw

theorem merges_none {C : PCfg} {z : Nat} : C.merges z = none ↔ ∀ w, C.succs z = [w] → w ≠ C.entry → w ≠ C.exit →
    C.phis w = [] → C.indeg w ≠ 1 := by
  unfold PCfg.merges
  split
  · rename_i y hy
    rw [hy]
    constructor
    · intro h w hw
      injection hw with hw _
      subst hw
      split at h
      · cases h
      · rename_i hn
        intro a b c d
        exact hn ⟨d, a, b, c⟩
    · intro h
      split
      · rename_i hc
        exact absurd hc.1 (h y rfl hc.2.1 hc.2.2.1 hc.2.2.2)
      · rfl
  · rename_i hn
    exact ⟨fun _ w hw => absurd hw (hn w), fun _ => rfl⟩

theorem merge_stable {C : PCfg} (hv : C.Valid) {x y z : Nat} (hx : x ∈ C.blocks) (h : C.merges x = some y)
    (hz : z ∈ C.nodes) (hzx : z ≠ x) (hn : C.merges z = none) : (C.merge x y).merges z = none := by
  obtain ⟨h1, h2, h3, h4, h5⟩ := merges_some h
  obtain ⟨x1, x2, x3⟩ := mem_blocks.1 hx
  rw [merges_none] at hn ⊢
  intro w' hw' a b c
  have hd : divert x y (C.succs z) = [w'] := hw'
  obtain ⟨w, hw⟩ : ∃ w, C.succs z = [w] := by
    have := congrArg List.length hd
    rw [divert_length] at this
    exact List.length_eq_one_iff.1 this
  have e : ren x y w = w' := by
    rw [hw] at hd; simpa [divert, ren] using hd
  have hwy : w ≠ y := fun e' => hzx (Cfg.indeg_one h2 hz x1 (by simp [hw, e']) (by simp [h1]))
  subst e
  rw [merge_indeg hv hx h hwy]
  have hph : (C.merge x y).phis (ren x y w) = C.phis w := by
    by_cases e : w = x
    · simp [PCfg.merge, ren, e]
    · simp [PCfg.merge, ren, e, hwy]
  rw [hph] at c
  by_cases e : w = x
  · subst e; exact hn w hw x2 x3 c
  · rw [ren, if_neg e] at a b
    exact hn w hw a b c

theorem straightenOver_straight : ∀ {xs : List Nat} {C : PCfg}, C.Valid → xs.Nodup → (∀ x ∈ xs, x ∈ C.blocks) →
    (∀ z ∈ C.blocks, z ∉ xs → C.merges z = none) →
    ∀ z ∈ (straightenOver C xs).blocks, (straightenOver C xs).merges z = none
  | [], C, hv, _, _, hd, z, hz => hd z hz (by simp)
  | x :: xs, C, hv, hn, hb, hd, z, hz => by
      rw [List.nodup_cons] at hn
      have hx := hb x (by simp)
      rw [straightenOver] at hz ⊢
      cases h : C.merges x with
      | some y =>
        simp only [h] at hz ⊢
        have hb' : ∀ z ∈ xs, z ∈ (C.merge x y).blocks := fun z hz => by
          have := mem_blocks.1 (hb z (by simp [hz]))
          rw [mem_blocks]
          refine ⟨?_, this.2⟩
          have : z ≠ x := fun e => hn.1 (e ▸ hz)
          simp [PCfg.merge, *]
        refine straightenOver_straight (merge_valid hv hx h) hn.2 hb' (fun z hz hzx => ?_) z hz
        obtain ⟨a, b, c⟩ := mem_blocks.1 hz
        obtain ⟨a1, a2⟩ := List.mem_filter.1 a
        have a2 : z ≠ x := by simpa using a2
        exact merge_stable hv hx h a1 a2 (hd z (mem_blocks.2 ⟨a1, b, c⟩) (by simp [a2, hzx]))
      | none =>
        simp only [h] at hz ⊢
        refine straightenOver_straight hv hn.2 (fun z hz => hb z (by simp [hz])) (fun z hz hzx => ?_) z hz
        by_cases e : z = x
        · subst e; exact h
        · exact hd z hz (by simp [e, hzx])

theorem blocks_nodup {C : PCfg} (hv : C.Valid) : C.blocks.Nodup := hv.nodup.filter _

/-! ### purge -/

theorem skip_forward {C : PCfg} (hv : C.Valid) (hn : ∀ z ∈ C.nodes, C.phis z = []) {x y : Nat} (hx : x ∈ C.blocks)
    (hc : C.code x = []) (hs : C.succs x = [y]) (hne : y ≠ x) {z : Nat} {s s' : St V}
    (he : C.Exec sem truth z s s') (hz : z ∈ C.nodes) : (C.skip x y).Exec sem truth (ren x y z) s s' := by
  obtain ⟨x1, x2, x3⟩ := mem_blocks.1 hx
  induction he with
  | stop => exact .stop' (by rw [ren, if_neg (Ne.symm x3)]; rfl) (by rw [ren, if_neg (Ne.symm x3)]; rfl)
  | @step z w s s' hze hg _ ih =>
    have hw := hv.closed z hz w (goes_mem hg)
    have ih := ih hw
    rw [hn w hw, enter_nil] at ih
    by_cases e : z = x
    · subst e
      rw [hs] at hg
      have : w = y := by simpa [goes] using hg.symm
      subst this
      rw [hc] at ih
      rw [ren, if_neg hne] at ih
      rw [ren, if_pos rfl]
      exact ih
    · rw [ren, if_neg e]
      refine .step (y := ren x y w) hze ?_ ?_
      · simp only [PCfg.skip, divert, goes_map, hg]; rfl
      · have : C.phis (ren x y w) = [] := by
          unfold ren
          split
          · exact hn y (hv.closed x x1 y (by simp [hs]))
          · exact hn w hw
        show (C.skip x y).Exec sem truth _ (enter (C.phis (ren x y w)) z _) s'
        rw [this, enter_nil]
        exact ih

theorem skip_backward {C : PCfg} (hv : C.Valid) (hn : ∀ z ∈ C.nodes, C.phis z = []) {x y : Nat} (hx : x ∈ C.blocks)
    (hc : C.code x = []) (hs : C.succs x = [y]) {z : Nat} {s s' : St V}
    (he : (C.skip x y).Exec sem truth z s s') (hz : z ∈ C.nodes) : C.Exec sem truth z s s' := by
  obtain ⟨x1, x2, x3⟩ := mem_blocks.1 hx
  have hy := hv.closed x x1 y (by simp [hs])
  induction he with
  | stop => exact .stop' rfl rfl
  | @step z w s s' hze hg _ ih =>
    have hd : goes (divert x y (C.succs z)) (steps sem truth (C.code z) s).ctl = some w := hg
    rw [divert, goes_map, Option.map_eq_some_iff] at hd
    obtain ⟨w', g, rfl⟩ := hd
    have hw := hv.closed z hz w' (goes_mem g)
    have ph : ∀ u ∈ C.nodes, (C.skip x y).phis u = [] := hn
    refine .step hze g ?_
    rw [hn w' hw, enter_nil]
    by_cases e : w' = x
    · subst e
      simp only [if_pos] at ih
      have ih := ih hy
      rw [ph y hy, enter_nil] at ih
      refine .step x3 (by rw [hs]; rfl) ?_
      rw [hn y hy, enter_nil, hc]
      exact ih
    · simp only [if_neg e] at ih
      have ih := ih hw
      rw [ph w' hw, enter_nil] at ih
      exact ih

theorem skip_valid {C : PCfg} (hv : C.Valid) (hn : ∀ z ∈ C.nodes, C.phis z = []) {x y : Nat} (hx : x ∈ C.blocks)
    (hs : C.succs x = [y]) (hne : y ≠ x) : (C.skip x y).Valid := by
  obtain ⟨x1, x2, x3⟩ := mem_blocks.1 hx
  have yn := hv.closed x x1 y (by simp [hs])
  have hm : ∀ z, z ∈ (C.skip x y).nodes ↔ z ∈ C.nodes ∧ z ≠ x := fun z => by simp [PCfg.skip]
  have hs' : ∀ z w, w ∈ (C.skip x y).succs z ↔ (w ∈ C.succs z ∧ w ≠ x) ∨ (w = y ∧ x ∈ C.succs z) :=
    fun z w => mem_divert
  refine ⟨⟨?_, ?_, ?_, ?_, ?_⟩, ?_, hv.differ, ?_, ?_, ?_, ?_, ?_⟩
  · exact (hm _).2 ⟨hv.entry, Ne.symm x2⟩
  · exact (hm _).2 ⟨hv.exit, Ne.symm x3⟩
  · intro z hz w hw
    rw [hm] at hz ⊢
    rcases (hs' z w).1 hw with ⟨a, b⟩ | ⟨a, b⟩
    · exact ⟨hv.closed z hz.1 w a, b⟩
    · subst a; exact ⟨yn, hne⟩
  · show divert x y (C.succs C.exit) = []
    rw [hv.last]; rfl
  · intro z hz hl
    have hl : 2 ≤ (divert x y (C.succs z)).length := hl
    rw [divert_length] at hl
    exact hv.branch z ((hm z).1 hz).1 hl
  · exact hv.nodup.filter _
  · intro z hz hw
    rcases (hs' z _).1 hw with ⟨a, b⟩ | ⟨a, b⟩
    · exact hv.noPred z ((hm z).1 hz).1 a
    · exact hv.noPred x x1 (by rw [hs]; exact List.mem_singleton.2 a)
  · show (divert x y (C.succs C.entry)).length = 1
    rw [divert_length]; exact hv.first
  · intro z hz he hn
    have hn : divert x y (C.succs z) = [] := hn
    exact hv.succ z ((hm z).1 hz).1 he (by simpa [divert] using hn)
  · exact hv.noPhi
  · intro z hz p hp'
    have : p ∈ C.phis z := hp'
    rw [hn z ((hm z).1 hz).1] at this
    cases this

theorem purgeOver_exec : ∀ {xs : List Nat} {C : PCfg}, C.Valid → (∀ z ∈ C.nodes, C.phis z = []) → xs.Nodup →
    (∀ x ∈ xs, x ∈ C.blocks) → (∀ z ∈ C.blocks, z ∉ xs → C.code z ≠ [] ∨ C.succs z = [z]) →
    ∃ D, purgeOver C xs = some D ∧ D.Valid ∧ (∀ z ∈ D.nodes, D.phis z = []) ∧ D.entry = C.entry ∧ D.exit = C.exit ∧
    (∀ z ∈ D.nodes, z ∈ C.nodes) ∧ (∀ z ∈ D.blocks, D.code z ≠ [] ∨ D.succs z = [z]) ∧
    ∀ s s' : St V, D.Exec sem truth C.entry s s' ↔ C.Exec sem truth C.entry s s'
  | [], C, hv, hn, _, _, hd => ⟨C, rfl, hv, hn, rfl, rfl, fun _ h => h, fun z hz => hd z hz (by simp), fun _ _ => Iff.rfl⟩
  | x :: xs, C, hv, hn, hnd, hb, hd => by
      rw [List.nodup_cons] at hnd
      have hx := hb x (by simp)
      obtain ⟨x1, x2, x3⟩ := mem_blocks.1 hx
      have hb2 : ∀ z ∈ xs, z ∈ C.blocks := fun z hz => hb z (by simp [hz])
      rw [purgeOver]
      split
      · rename_i hc
        split
        · rename_i y hy
          split
          · rename_i e
            subst e
            exact purgeOver_exec hv hn hnd.2 hb2 fun z hz hzx => by
              by_cases e : z = y
              · subst e; exact .inr hy
              · exact hd z hz (by simp [e, hzx])
          · rename_i e
            have hb' : ∀ z ∈ xs, z ∈ (C.skip x y).blocks := fun z hz => by
              have := mem_blocks.1 (hb2 z hz)
              rw [mem_blocks]
              refine ⟨?_, this.2⟩
              have : z ≠ x := fun e => hnd.1 (e ▸ hz)
              simp [PCfg.skip, *]
            obtain ⟨D, d1, d2, d3, d4, d5, d6, d7, d8⟩ := purgeOver_exec (skip_valid hv hn hx hy e)
              (fun z hz => hn z (List.mem_filter.1 hz).1) hnd.2 hb' fun z hz hzx => by
                obtain ⟨a, b, c⟩ := mem_blocks.1 hz
                obtain ⟨a1, a2⟩ := List.mem_filter.1 a
                have a2 : z ≠ x := by simpa using a2
                rcases hd z (mem_blocks.2 ⟨a1, b, c⟩) (by simp [a2, hzx]) with h | h
                · exact .inl h
                · right
                  show divert x y (C.succs z) = [z]
                  rw [h]; simp [divert, a2]
            refine ⟨D, d1, d2, d3, d4, d5, fun z hz => (List.mem_filter.1 (d6 z hz)).1, d7, fun s s' => (d8 s s').trans ?_⟩
            show (C.skip x y).Exec sem truth C.entry s s' ↔ _
            constructor
            · exact fun h => skip_backward hv hn hx hc.1 hy h hv.entry
            · intro h
              have := skip_forward hv hn hx hc.1 hy e h hv.entry
              rwa [ren, if_neg (Ne.symm x2)] at this
        · rename_i hns
          exfalso
          have h1 := hv.succ x x1 x3
          have h2 := hv.branch x x1
          rw [hc.1] at h2
          match hl : C.succs x with
          | [] => exact h1 hl
          | [y] => exact hns y hl
          | _ :: _ :: _ => rw [hl] at h2; simp [branchVar] at h2
      · rename_i hc
        exact purgeOver_exec hv hn hnd.2 hb2 fun z hz hzx => by
          by_cases e : z = x
          · subst e
            left
            intro h
            exact hc ⟨h, hn z (mem_blocks.1 hz).1⟩
          · exact hd z hz (by simp [e, hzx])

/-! ### prune -/

theorem foldl_todo (visited ys : List Nat) : ∀ todo : List Nat, todo.Nodup → (∀ y ∈ todo, y ∉ visited) →
    let r := ys.foldl (fun todo y => if y ∈ visited ∨ y ∈ todo then todo else todo ++ [y]) todo
    r.Nodup ∧ (∀ y ∈ r, y ∉ visited) ∧ (∀ y ∈ todo, y ∈ r) ∧ (∀ y ∈ r, y ∈ todo ∨ y ∈ ys) ∧
      ∀ y ∈ ys, y ∈ visited ∨ y ∈ r := by
  induction ys with
  | nil => intro todo h1 h2; exact ⟨h1, h2, fun _ h => h, fun _ h => .inl h, by simp⟩
  | cons a ys ih =>
    intro todo h1 h2
    simp only [List.foldl_cons]
    by_cases c : a ∈ visited ∨ a ∈ todo
    · rw [if_pos c]
      obtain ⟨r1, r2, r3, r4, r5⟩ := ih todo h1 h2
      refine ⟨r1, r2, r3, fun y hy => (r4 y hy).imp id (List.mem_cons_of_mem _), fun y hy => ?_⟩
      rcases List.mem_cons.1 hy with e | e
      · subst e
        exact c.imp id (r3 y)
      · exact r5 y e
    · rw [if_neg c]
      rw [not_or] at c
      obtain ⟨r1, r2, r3, r4, r5⟩ := ih (todo ++ [a]) (by
        rw [List.nodup_append]
        exact ⟨h1, by simp, by rintro x hx y hy rfl; exact c.2 (by simp at hy; exact hy ▸ hx)⟩)
        (fun y hy => by
          rcases List.mem_append.1 hy with e | e
          · exact h2 y e
          · simp at e; exact e ▸ c.1)
      refine ⟨r1, r2, fun y hy => r3 y (by simp [hy]), fun y hy => ?_, fun y hy => ?_⟩
      · rcases r4 y hy with e | e
        · rcases List.mem_append.1 e with e | e
          · exact .inl e
          · simp at e; exact .inr (by simp [e])
        · exact .inr (by simp [e])
      · rcases List.mem_cons.1 hy with e | e
        · subst e; exact .inr (r3 y (by simp))
        · exact r5 y e

theorem liveLoop_spec {C : Cfg} (hw : C.Wf) : ∀ (fuel : Nat) (visited todo : List Nat), visited.Nodup → todo.Nodup →
    (∀ y ∈ todo, y ∉ visited) → (∀ y ∈ visited, y ∈ C.nodes ∧ C.Reach y) → (∀ y ∈ todo, y ∈ C.nodes ∧ C.Reach y) →
    (∀ x ∈ visited, ∀ y ∈ C.succs x, y ∈ visited ∨ y ∈ todo) → C.nodes.length < fuel + visited.length →
    let r := liveLoop C fuel visited todo
    (∀ y ∈ r, C.Reach y) ∧ (∀ y ∈ visited, y ∈ r) ∧ (∀ y ∈ todo, y ∈ r) ∧ ∀ x ∈ r, ∀ y ∈ C.succs x, y ∈ r
  | 0, visited, todo, h1, h2, h3, h4, h5, h6, h7 => by
      exfalso
      have := h1.length_le_of_subset (l₂ := C.nodes) fun y hy => (h4 y hy).1
      omega
  | fuel + 1, visited, [], h1, h2, h3, h4, h5, h6, h7 => by
      simp only [liveLoop]
      exact ⟨fun y hy => (h4 y hy).2, fun _ h => h, by simp, fun x hx y hy => (h6 x hx y hy).resolve_right (by simp)⟩
  | fuel + 1, visited, x :: rest, h1, h2, h3, h4, h5, h6, h7 => by
      rw [List.nodup_cons] at h2
      obtain ⟨xn, xr⟩ := h5 x (by simp)
      have hxv := h3 x (by simp)
      obtain ⟨r1, r2, r3, r4, r5⟩ := foldl_todo (x :: visited) (C.succs x) rest h2.2 (fun y hy => by
        simp only [List.mem_cons, not_or]
        exact ⟨fun e => h2.1 (e ▸ hy), h3 y (by simp [hy])⟩)
      simp only [liveLoop]
      generalize (C.succs x).foldl (fun todo y => if y ∈ x :: visited ∨ y ∈ todo then todo else todo ++ [y]) rest = t
        at r1 r2 r3 r4 r5
      obtain ⟨a, b, c, d⟩ := liveLoop_spec hw fuel (x :: visited) t (by simp [hxv, h1]) r1 r2
        (fun y hy => by
          rcases List.mem_cons.1 hy with e | e
          · subst e; exact ⟨xn, xr⟩
          · exact h4 y e)
        (fun y hy => by
          rcases r4 y hy with e | e
          · exact h5 y (by simp [e])
          · exact ⟨hw.closed x xn y e, .step xr e⟩)
        (fun z hz y hy => by
          rcases List.mem_cons.1 hz with e | e
          · subst e; exact r5 y hy
          · rcases h6 z e y hy with f | f
            · exact .inl (by simp [f])
            · rcases List.mem_cons.1 f with f | f
              · exact .inl (by simp [f])
              · exact .inr (r3 y f))
        (by simp; omega)
      refine ⟨a, fun y hy => b y (by simp [hy]), fun y hy => ?_, d⟩
      rcases List.mem_cons.1 hy with e | e
      · exact b y (by simp [e])
      · exact c y (r3 y e)

theorem mem_live {C : Cfg} (hw : C.Wf) (x : Nat) : x ∈ C.live ↔ C.Reach x := by
  obtain ⟨a, _, c, d⟩ := liveLoop_spec hw (C.nodes.length + 1) [] [C.entry] (by simp) (by simp) (by simp) (by simp)
    (by simp [hw.entry]; exact .entry) (by simp) (by simp)
  constructor
  · exact a x
  · intro h
    induction h with
    | entry => exact c _ (by simp)
    | step _ hy ih => exact d _ ih _ hy

theorem mem_dead {C : Cfg} (hw : C.Wf) (x : Nat) : x ∈ C.dead ↔ x ∈ C.blocks ∧ ¬ C.Reach x := by
  simp [Cfg.dead, mem_live hw]

theorem lookup_filter {p : Nat → Prop} [DecidablePred p] {k : Nat} (h : p k) : ∀ l : List (Nat × Var),
    (l.filter fun i => p i.1).lookup k = l.lookup k
  | [] => rfl
  | (a, b) :: l => by
      have ih := lookup_filter h l
      by_cases c : p a
      · simp only [c, decide_true, List.filter_cons_of_pos, List.lookup_cons, ih]
      · have : (k == a) = false := by
          simp only [beq_eq_false_iff_ne, ne_eq]; rintro rfl; exact c h
        simp [c, List.filter_cons, List.lookup_cons, ih, this]

theorem prune_enter {C : PCfg} {x p : Nat} (hp : p ∉ C.dead) (s : St V) :
    enter ((prune C).phis x) p s = enter (C.phis x) p s := by
  simp only [prune]
  split
  · simp only [enter, List.map_map]
    congr 2
    refine List.map_congr_left fun q _ => ?_
    simp only [Function.comp_apply]
    rw [lookup_filter (p := fun i => i ∉ C.dead) hp]
  · rfl

theorem prune_exec {C : PCfg} (hv : C.Valid) {z : Nat} {s s' : St V} (hz : C.Reach z) :
    (prune C).Exec sem truth z s s' ↔ C.Exec sem truth z s s' := by
  have hd : ∀ z, C.Reach z → z ∉ C.dead := fun z hz h => ((mem_dead hv.toWf z).1 h).2 hz
  constructor
  · intro h
    induction h with
    | stop => exact .stop' rfl rfl
    | @step z w s s' hze hg _ ih =>
      have hg' : goes (C.succs z) (steps sem truth (C.code z) s).ctl = some w := hg
      refine .step hze hg ?_
      have := ih (.step hz (goes_mem hg'))
      rwa [prune_enter (hd z hz)] at this
  · intro h
    induction h with
    | stop => exact .stop' rfl rfl
    | @step z w s s' hze hg _ ih =>
      refine .step (C := prune C) hze hg ?_
      rw [prune_enter (hd z hz)]
      exact ih (.step hz (goes_mem hg))

theorem prune_valid {C : PCfg} (hv : C.Valid) : (prune C).Valid := by
  have hd := mem_dead hv.toWf
  have hm : ∀ z, z ∈ (prune C).nodes ↔ z ∈ C.nodes ∧ z ∉ C.dead := fun z => by simp [prune]
  have hl : ∀ z ∈ C.nodes, z ∉ C.dead → z = C.exit ∨ C.Reach z := fun z hz h => by
    by_cases e : z = C.exit
    · exact .inl e
    · right
      by_cases e2 : z = C.entry
      · rw [e2]; exact .entry
      · by_cases r : C.Reach z
        · exact r
        · exact absurd ((hd z).2 ⟨mem_blocks.2 ⟨hz, e2, e⟩, r⟩) h
  refine ⟨⟨?_, ?_, ?_, hv.last, ?_⟩, hv.nodup.filter _, hv.differ, ?_, hv.first, ?_, ?_, ?_⟩
  · exact (hm _).2 ⟨hv.entry, fun h => (mem_blocks.1 ((hd _).1 h).1).2.1 rfl⟩
  · exact (hm _).2 ⟨hv.exit, fun h => (mem_blocks.1 ((hd _).1 h).1).2.2 rfl⟩
  · intro z hz w hw
    obtain ⟨z1, z2⟩ := (hm z).1 hz
    have hw : w ∈ C.succs z := hw
    refine (hm w).2 ⟨hv.closed z z1 w hw, fun h => ((hd w).1 h).2 ?_⟩
    rcases hl z z1 z2 with e | e
    · rw [e, hv.last] at hw; cases hw
    · exact .step e hw
  · exact fun z hz => hv.branch z ((hm z).1 hz).1
  · exact fun z hz => hv.noPred z ((hm z).1 hz).1
  · exact fun z hz => hv.succ z ((hm z).1 hz).1
  · have := hv.noPhi
    simp [prune, this]
  · intro z hz p hp
    obtain ⟨z1, z2⟩ := (hm z).1 hz
    by_cases ex : z = C.exit
    · have : (prune C).phis z = [] := by simp [prune, ex, hv.noPhi]
      rw [this] at hp; cases hp
    by_cases c : C.dead.any (fun d => z ∈ C.succs d)
    · have hp' : p ∈ (C.phis z).map fun p => { p with ins := p.ins.filter fun i => i.1 ∉ C.dead } := by
        simp only [prune] at hp; rwa [if_pos ⟨c, z2, ex⟩] at hp
      obtain ⟨q, hq, rfl⟩ := List.mem_map.1 hp'
      obtain ⟨a, b⟩ := hv.phis z z1 q hq
      have ef : (q.ins.filter fun i => i.1 ∉ C.dead).map Prod.fst = (q.ins.map Prod.fst).filter fun i => i ∉ C.dead := by
        rw [List.filter_map]; rfl
      dsimp only
      rw [ef]
      refine ⟨a.filter _, fun w => ?_⟩
      rw [List.mem_filter, b w, hm]
      simp only [decide_eq_true_eq]
      exact ⟨fun h => ⟨⟨h.1.1, h.2⟩, h.1.2⟩, fun h => ⟨⟨h.1.1, h.2⟩, h.1.2⟩⟩
    · have hp' : p ∈ C.phis z := by
        simp only [prune] at hp; rwa [if_neg (fun h => c h.1)] at hp
      obtain ⟨a, b⟩ := hv.phis z z1 p hp'
      refine ⟨a, fun w => (b w).trans ?_⟩
      rw [hm]
      refine ⟨fun h => ⟨⟨h.1, fun hw => c ?_⟩, h.2⟩, fun h => ⟨h.1.1, h.2⟩⟩
      rw [List.any_eq_true]
      exact ⟨w, hw, by simpa using h.2⟩

theorem prune_reach {C : PCfg} {x : Nat} : (prune C).toCfg.Reach x ↔ C.Reach x := by
  constructor
  · intro h
    induction h with
    | entry => exact .entry
    | step _ hy ih => exact .step ih hy
  · intro h
    induction h with
    | entry => exact Cfg.Reach.entry (C := (prune C).toCfg)
    | step _ hy ih => exact Cfg.Reach.step (C := (prune C).toCfg) ih hy

theorem prune_live {C : PCfg} (hv : C.Valid) {x : Nat} (hx : x ∈ (prune C).blocks) : C.Reach x := by
  obtain ⟨a, b, c⟩ := mem_blocks.1 hx
  have a' : x ∈ C.nodes ∧ x ∉ C.dead := by simpa [prune] using a
  by_cases r : C.Reach x
  · exact r
  · exact absurd ((mem_dead hv.toWf x).2 ⟨mem_blocks.2 ⟨a'.1, b, c⟩, r⟩) a'.2

/-! ### Graphs without phi operations -/

theorem noPhi_exec {C : PCfg} (hw : C.toCfg.Wf) (hn : ∀ z ∈ C.nodes, C.phis z = []) {z : Nat} {s s' : St V}
    (hz : z ∈ C.nodes) : C.Exec sem truth z s s' ↔ C.toCfg.Exec sem truth z s s' := by
  constructor
  · intro h
    induction h with
    | stop => exact .stop
    | @step z w s s' hze hg _ ih =>
      have h' := hw.closed z hz w (goes_mem hg)
      have ih := ih h'
      rw [hn w h', enter_nil] at ih
      exact .step hze hg ih
  · intro h
    induction h with
    | stop => exact .stop
    | @step z w s s' hze hg _ ih =>
      have h' := hw.closed z hz w (goes_mem hg)
      refine .step hze hg ?_
      rw [hn w h', enter_nil]
      exact ih h'

end Jlm.Front
