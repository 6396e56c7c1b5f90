import Verif.Front.RestructBranches

/-!
# Control flow restructuring: taking loops out and putting them back
-/

set_option linter.unusedSimpArgs false
set_option linter.unusedVariables false

namespace Jlm.Front

open Jlm.Opt

variable {V : Type} {sem : Sem V} {truth : V → Bool} {K : Nat → Prop} {fix : Bool} {v0 : Nat} {st0 st : RSt}

theorem OptRel.self {R : Nat → Nat → Prop} (h : ∀ y, R y y) (g : Option Nat) : OptRel R g g := by
  cases g with
  | none => exact .none
  | some y => exact .some (h y)

/-! ### The repetition edge -/

theorem setAll_skip : ∀ {xs : List Var} {ws : List (W V)} {e : Var → W V} {u : Var}, u ∉ xs → setAll e xs ws u = e u
  | [], _, _, _, _ => rfl
  | x :: xs, ws, e, u, h => by
      rw [List.mem_cons, not_or] at h
      rw [setAll, setAll_skip h.2]
      exact if_neg h.1

theorem steps_skip {sem : Sem V} {truth : V → Bool} {u : Var} : ∀ {ts : List Tac} {s : St V}, (∀ t ∈ ts, u ∉ t.writes) →
    (steps sem truth ts s).env u = s.env u
  | [], _, _ => rfl
  | t :: ts, s, h => by
      show (steps sem truth ts (step sem truth t s)).env u = _
      rw [steps_skip fun t' h' => h t' (List.mem_cons_of_mem _ h')]
      have := h t (by simp)
      cases t with
      | op o ins outs => exact setAll_skip this
      | assign l r => exact if_neg (by simpa [Tac.writes] using this)
      | select c a b r => exact if_neg (by simpa [Tac.writes] using this)
      | branch v => rfl

theorem invertIn_spec {u : Nat} : ∀ {ts ts' : List Tac}, invertIn fix u ts = some ts' → ∃ pre m d c w post m' d',
    ts = pre ++ .op ⟨.matchOp m d, c⟩ [w] [u] :: post ∧ (∀ t ∈ post, u ∉ t.writes) ∧
      invertMatch fix m d = some (m', d') ∧ ts' = pre ++ .op ⟨.matchOp m' d', c⟩ [w] [u] :: post
  | [], _, h => by cases h
  | t :: ts, ts', h => by
      have rest : ∀ {ts'}, (invertIn fix u ts).map (t :: ·) = some ts' → ∃ pre m d c w post m' d',
          t :: ts = pre ++ .op ⟨.matchOp m d, c⟩ [w] [u] :: post ∧ (∀ t ∈ post, u ∉ t.writes) ∧
            invertMatch fix m d = some (m', d') ∧ ts' = pre ++ .op ⟨.matchOp m' d', c⟩ [w] [u] :: post := fun h => by
        rw [Option.map_eq_some_iff] at h
        obtain ⟨ts1, h1, rfl⟩ := h
        obtain ⟨pre, m, d, c, w, post, m', d', a1, a2, a3, a4⟩ := invertIn_spec h1
        exact ⟨t :: pre, m, d, c, w, post, m', d', by rw [a1]; rfl, a2, a3, by rw [a4]; rfl⟩
      unfold invertIn at h
      split at h
      · rename_i m d c w u'
        split at h
        · rename_i e
          split at h
          · rename_i hp
            rw [Option.map_eq_some_iff] at h
            obtain ⟨⟨m', d'⟩, h1, rfl⟩ := h
            exact ⟨[], m, d, c, w, ts, m', d', by rw [e]; rfl, hp, h1, rfl⟩
          · cases h
        · exact rest h
      · exact rest h

theorem lookup_flip (k : Nat) : ∀ m : List (Nat × Nat),
    (m.map fun p => (p.1, 1 - p.2)).lookup k = (m.lookup k).map fun a => 1 - a
  | [] => rfl
  | (a, b) :: m => by
      simp only [List.map_cons, List.lookup_cons]
      rw [lookup_flip k m]
      split <;> rfl

theorem lookup_mem {k a : Nat} : ∀ {m : List (Nat × Nat)}, m.lookup k = some a → (k, a) ∈ m
  | [], h => by cases h
  | (b, c) :: m, h => by
      rw [List.lookup_cons] at h
      split at h
      · rename_i e
        cases h
        rw [show k = b by simpa using e]; simp
      · exact List.mem_cons_of_mem _ (lookup_mem h)

theorem twoWay_le {m : List (Nat × Nat)} {d : Nat} (h : TwoWay fix m d) (k : Nat) : (m.lookup k).getD d ≤ 1 := by
  rcases e : m.lookup k with _ | a
  · exact h.1
  · exact h.2.1 (k, a) (lookup_mem e)

theorem invertMatch_spec {m m' : List (Nat × Nat)} {d d' : Nat} (h : TwoWay fix m d)
    (he : invertMatch fix m d = some (m', d')) :
    TwoWay fix m' d' ∧ ∀ k, (m'.lookup k).getD d' = 1 - (m.lookup k).getD d := by
  unfold invertMatch at he
  obtain ⟨h1, h2, h3⟩ := h
  split at he
  · rename_i hf
    cases he
    refine ⟨⟨by omega, fun p hp => ?_, fun h => by rw [hf] at h; cases h⟩, fun k => ?_⟩
    · obtain ⟨q, _, rfl⟩ := List.mem_map.1 hp
      show 1 - q.2 ≤ 1
      omega
    · rw [lookup_flip]
      cases m.lookup k <;> rfl
  · rename_i hf
    obtain ⟨val, a, rfl, hne⟩ := h3 (by simpa using hf)
    have ha : a ≤ 1 := h2 (val, a) (by simp)
    cases he
    refine ⟨⟨ha, fun p hp => ?_, fun _ => ⟨val, d, rfl, hne.symm⟩⟩, fun k => ?_⟩
    · rw [List.mem_singleton.1 hp]; exact h1
    · simp only [List.lookup_cons, List.lookup_nil]
      split <;> simp <;> omega

theorem alternative_match (hc : CtlSem sem) (m : List (Nat × Nat)) (d c : Nat) (w : W V) :
    alternative sem ((opVals sem ⟨.matchOp m d, c⟩ [w]).headD none) = w.map fun y => (m.lookup (sem.ctl y.1)).getD d := by
  have h := hc.matchOp m d c w
  have e : opVals sem ⟨.matchOp m d, c⟩ [w] = lift (sem.apply ⟨.matchOp m d, c⟩ [w]) := by simp [opVals]
  rw [e, lift_headD, alternative, ← h]
  generalize (sem.apply ⟨.matchOp m d, c⟩ [w]).headD none = o
  cases o <;> rfl

theorem goes_swap {y0 y1 : Nat} {k k' : Option Nat} (h : (k = none ∧ k' = none) ∨ ∃ a, a ≤ 1 ∧ k = some a ∧ k' = some (1 - a)) :
    goes [y1, y0] k' = goes [y0, y1] k := by
  rcases h with ⟨rfl, rfl⟩ | ⟨a, ha, rfl, rfl⟩
  · rfl
  · match a, ha with
    | 0, _ => rfl
    | 1, _ => rfl

/-- `adjustLoopRepetitionEdge`: nothing but the value of the predicate changes. -/
theorem adjust_good (hc : CtlSem sem) (h : Inv K fix v0 st) {t i : Nat} {st' : RSt} (ht : t ∈ st.C.nodes)
    (he : st.adjust fix t i = some st') : Keeps sem truth K fix v0 st st' := by
  unfold RSt.adjust at he
  split at he
  · cases he; exact .refl h
  · split at he
    · rename_i y0 y1 u hy hu
      split at he
      · rw [Option.map_eq_some_iff] at he
        obtain ⟨code, h1, rfl⟩ := he
        obtain ⟨pre, m, d, c, w, post, m', d', a1, a2, a3, a4⟩ := invertIn_spec h1
        have hmem : Tac.op ⟨.matchOp m d, c⟩ [w] [u] ∈ st.C.code t := by rw [a1]; simp
        obtain ⟨hK, h2w⟩ := h.kmatch t u m d ⟨ht, hu, by rw [hy]; rfl, c, w, hmem⟩
        obtain ⟨h2w', hflip⟩ := invertMatch_spec h2w a3
        obtain ⟨hm, hread⟩ := h.kread u hK
        obtain ⟨pre', hpre'⟩ := branchVar_some hu
        have htm : t = hm := (hread t ht (.branch u) (by rw [hpre']; simp) (by simp [Tac.reads])).1
        have hnoread : ∀ x ∈ st.C.nodes, x ≠ t → ∀ tac ∈ st.C.code x, ∀ u' ∈ tac.reads, ¬ u' = u := fun x hx hxt tac htac u' hu' e => by
          rw [e] at hu'
          exact hxt ((hread x hx tac htac hu').1.trans htm.symm)
        have hbr : ∀ tac ∈ st.C.code t, ∀ u' ∈ tac.reads, u' = u → tac = .branch u' := fun tac htac u' hu' e => by
          rw [e] at hu' ⊢
          exact (hread t ht tac htac hu').2
        have hwu : w ≠ u := fun e => by
          have := hbr _ hmem w (by simp [Tac.reads]) e
          cases this
        -- the branch is after the match
        have hpost : ∃ post', post = post' ++ [.branch u] := by
          rcases List.eq_nil_or_concat post with e | ⟨p, b, e⟩
          · rw [e] at a1
            rw [hpre'] at a1
            have := congrArg List.getLast? a1
            simp at this
          · rw [List.concat_eq_append] at e
            rw [e, hpre', ← List.cons_append, ← List.append_assoc] at a1
            have := List.append_inj' a1 rfl
            simp only [List.cons.injEq, and_true] at this
            exact ⟨p, by rw [e, ← this.2]⟩
        obtain ⟨post', hpost⟩ := hpost
        have hcode : branchVar code = some u := by
          rw [a4, hpost, ← List.cons_append, ← List.append_assoc]; exact branchVar_concat
        have hgood : ∀ x, x ≠ t → st.C.code x = (if x = t then code else st.C.code x) := fun x hx => (if_neg hx).symm
        have hsteps : ∀ s r : St V, AgreeOff (fun u' => u' = u) s r →
            AgreeOff (fun u' => u' = u) (steps sem truth (st.C.code t) s) (steps sem truth code r) ∧
            (((steps sem truth (st.C.code t) s).ctl = none ∧ (steps sem truth code r).ctl = none) ∨
              ∃ a, a ≤ 1 ∧ (steps sem truth (st.C.code t) s).ctl = some a ∧ (steps sem truth code r).ctl = some (1 - a)) := by
          intro s r hsr
          have p1 : AgreeOff (fun u' => u' = u) (steps sem truth pre s) (steps sem truth pre r) :=
            steps_agreeOff (fun tac htac => hbr tac (by rw [a1]; simp [htac])) hsr
          generalize hs1 : steps sem truth pre s = s1 at p1
          have q1 : s1.env w = (steps sem truth pre r).env w := p1 w hwu
          have key : ∀ (mm : List (Nat × Nat)) (dd : Nat) (r1 : St V),
              (steps sem truth (.op ⟨.matchOp mm dd, c⟩ [w] [u] :: post) r1).ctl =
                (r1.env w).map fun y => (mm.lookup (sem.ctl y.1)).getD dd := fun mm dd r1 => by
            show (steps sem truth post _).ctl = _
            rw [hpost, steps_append]
            show alternative sem ((steps sem truth post' _).env u) = _
            rw [steps_skip fun tac htac => a2 tac (by rw [hpost]; simp [htac])]
            show alternative sem (setAll r1.env [u] (opVals sem ⟨.matchOp mm dd, c⟩ [r1.env w]) u) = _
            rw [setAll, setAll]
            simp only [set, if_true]
            exact alternative_match hc mm dd c (r1.env w)
          have e1 : steps sem truth (st.C.code t) s = steps sem truth (.op ⟨.matchOp m d, c⟩ [w] [u] :: post) s1 := by
            rw [a1, steps_append, hs1]
          have e2 : steps sem truth code r = steps sem truth (.op ⟨.matchOp m' d', c⟩ [w] [u] :: post) (steps sem truth pre r) := by
            rw [a4, steps_append]
          rw [e1, e2]
          constructor
          · show AgreeOff _ (steps sem truth post _) (steps sem truth post _)
            refine steps_agreeOff (fun tac htac => hbr tac (by rw [a1]; simp [htac])) (fun u' hu' => ?_)
            show setAll s1.env [u] _ u' = setAll (steps sem truth pre r).env [u] _ u'
            rw [setAll_skip (by simpa using hu'), setAll_skip (by simpa using hu')]
            exact p1 u' hu'
          · rw [key, key, ← q1]
            rcases s1.env w with _ | y
            · exact .inl ⟨rfl, rfl⟩
            · exact .inr ⟨_, twoWay_le h2w (sem.ctl y.1), rfl, by rw [← hflip]; rfl⟩
        have htst : t ∉ stubs st.loops := h.not_stub (by rw [hy]; simp)
        have hrep : ∀ l ∈ st.loops, l.replacement ≠ t := fun l hl e => htst (mem_stubs.2 ⟨l, hl, .inr e.symm⟩)
        have hins : ∀ l ∈ st.loops, l.insert ≠ t := fun l hl e => htst (mem_stubs.2 ⟨l, hl, .inl e.symm⟩)
        have htx : t ≠ st.C.exit := fun e => by have := h.last; rw [← e, hy] at this; cases this
        have hte : t ≠ st.C.entry := fun e => by have := h.first; rw [← e, hy] at this; simp at this
        refine ⟨?_, rfl, rfl, fun u' => u' = u, fun u' e => .inl (e ▸ hK), Detour.same (P := fun _ => False) ?_⟩
        · refine ⟨h.entry, h.exit, fun x hx y hxy => ?_, ?_, fun x hx h2 => ?_, h.nodup, h.differ, fun x hx hxy => ?_, ?_,
            fun x hx x1 x2 => ?_, h.small, fun x hx tac htac => ?_, h.old, h.klt, fun u' hu' => ?_, fun x u' mm dd hd => ?_,
            h.loopNodup, fun l hl => ?_⟩
          · simp only at hxy
            split at hxy
            · rename_i e
              exact h.closed t ht y (by rw [hy]; simp at hxy ⊢; tauto)
            · exact h.closed x hx y hxy
          · show (if st.C.exit = t then [y1, y0] else st.C.succs st.C.exit) = []
            rw [if_neg (Ne.symm htx)]; exact h.last
          · simp only at h2 ⊢
            split
            · rw [hcode]; rfl
            · rename_i e
              rw [if_neg e] at h2
              exact h.branch x hx h2
          · simp only at hxy
            split at hxy
            · exact h.noPred t ht (by rw [hy]; simp at hxy ⊢; tauto)
            · exact h.noPred x hx hxy
          · show (if st.C.entry = t then [y1, y0] else st.C.succs st.C.entry).length = 1
            rw [if_neg (Ne.symm hte)]; exact h.first
          · simp only
            split
            · simp
            · exact h.succ x hx x1 x2
          · simp only at htac
            split at htac
            · rename_i e
              rw [a4] at htac
              rcases List.mem_append.1 htac with q | q
              · exact h.below t ht tac (by rw [a1]; simp [q])
              · rcases List.mem_cons.1 q with q | q
                · have := h.below t ht _ hmem
                  rw [q]; exact this
                · exact h.below t ht tac (by rw [a1]; simp [q])
            · exact h.below x hx tac htac
          · obtain ⟨hh, hh'⟩ := h.kread u' hu'
            refine ⟨hh, fun x hx tac htac hr => ?_⟩
            simp only at htac
            split at htac
            · rename_i e
              rw [a4] at htac
              rw [e]
              rcases List.mem_append.1 htac with q | q
              · exact hh' t ht tac (by rw [a1]; simp [q]) hr
              · rcases List.mem_cons.1 q with q | q
                · have := hh' t ht _ hmem (by rw [q] at hr; exact hr)
                  cases this.2
                · exact hh' t ht tac (by rw [a1]; simp [q]) hr
            · exact hh' x hx tac htac hr
          · obtain ⟨d1, d2, d3, c', w', d4⟩ := hd
            simp only at d2 d3 d4
            by_cases e : x = t
            · rw [if_pos e] at d2 d4
              rw [hcode] at d2
              cases d2
              rw [a4] at d4
              rcases List.mem_append.1 d4 with q | q
              · exact h.kmatch t u mm dd ⟨ht, hu, by rw [hy]; rfl, c', w', by rw [a1]; simp [q]⟩
              · rcases List.mem_cons.1 q with q | q
                · cases q; exact ⟨hK, h2w'⟩
                · exact h.kmatch t u mm dd ⟨ht, hu, by rw [hy]; rfl, c', w', by rw [a1]; simp [q]⟩
            · rw [if_neg e] at d2 d3 d4
              exact h.kmatch x u' mm dd ⟨d1, d2, d3, c', w', d4⟩
          · obtain ⟨q1, q2, q3, q4, q5, q6, q7, q8⟩ := h.loop l hl
            exact ⟨q1, q2, q3, (if_neg (hins l hl)).trans q4, (if_neg (hrep l hl)).trans q5, (if_neg (hins l hl)).trans q6,
              by simp only; rw [if_neg (hrep l hl)]; exact q7, q8⟩
        · refine ⟨rfl, rfl, h.entry, (Stage.refl (sem := sem) (truth := truth) h).detour h |>.closed, fun x hx hne s r hsr => ?_,
            fun s r hsr => ?_⟩
          · show AgreeOff _ (steps sem truth (st.C.code x) s) (steps sem truth (if x = t then code else st.C.code x) r) ∧
              OptRel _ (goes (gs st.loops st.C.succs x) _)
                (goes (gs st.loops (fun x => if x = t then [y1, y0] else st.C.succs x) x)
                  (steps sem truth (if x = t then code else st.C.code x) r).ctl)
            by_cases e : x = t
            · rw [if_pos e, e, gs_other htst, gs_other htst, if_pos rfl, hy]
              obtain ⟨p1, p2⟩ := hsteps s r hsr
              refine ⟨p1, ?_⟩
              rw [goes_swap p2]
              refine OptRel.self ?_ _
              intro y
              exact Arr.refl y
            · rw [if_neg e]
              obtain ⟨p1, p2⟩ := codeSim_refl (sem := sem) (truth := truth) (F := fun u' => u' = u) (hnoread x hx e) s r hsr
              refine ⟨p1, ?_⟩
              by_cases es : x ∈ stubs st.loops
              · obtain ⟨l, hl, e1 | e1⟩ := mem_stubs.1 es
                · rw [e1, gs_insert h.loopNodup hl, gs_insert h.loopNodup hl, if_neg (hrep l hl)]
                  refine goes_rel rfl (fun i y a i1 i2 => ?_) fun h2 => ?_
                  · rw [i1] at i2; cases i2; exact .refl _
                  · have := (h.loop l hl).2.2.2.2.2.2.1
                    omega
                · rw [e1, gs_replacement h.loopNodup hl, gs_replacement h.loopNodup hl]
                  exact .some (.refl _)
              · rw [gs_other es, gs_other es, if_neg e]
                refine goes_rel rfl (fun i y a i1 i2 => ?_) fun h2 => p2 (h.branch x hx h2)
                rw [i1] at i2; cases i2; exact .refl _
          · show AgreeOff _ (steps sem truth (st.C.code st.C.exit) s) (steps sem truth (if st.C.exit = t then code else st.C.code st.C.exit) r)
            rw [if_neg (Ne.symm htx)]
            exact (codeSim_refl (sem := sem) (truth := truth) (F := fun u' => u' = u) (hnoread _ h.exit (Ne.symm htx)) s r hsr).1
      · cases he
    · cases he

/-! ### `ExtractLoop` -/

theorem stubs_append (a b : List TcLoop) : stubs (a ++ b) = stubs a ++ stubs b := by simp [stubs]

theorem divert_get {a b i y z : Nat} {l : List Nat} (h1 : l[i]? = some y) (h2 : (divert a b l)[i]? = some z) :
    z = if y = a then b else y := by
  unfold divert at h2
  rw [List.getElem?_map, h1] at h2
  simpa using h2.symm

theorem step_empty {D : Cfg} {P : Nat → Prop} {F : Nat → Prop} {a y : Nat} (hp : P a) (hx : a ≠ D.exit) (hc : D.code a = [])
    (hs : D.succs a = [y]) : Arr sem truth F D P a y := fun t =>
  ⟨t, .step (b := y) hp hx (by rw [hs]; rfl) (by rw [hc]; exact .refl), .refl _⟩

/-- `ExtractLoop`: the loop is still there. -/
theorem extract_good (h : Inv K fix v0 st) {hd t : Nat} {st' : RSt} (he : st.extract hd t = some st') :
    Keeps sem truth K fix v0 st st' := by
  unfold RSt.extract at he
  split at he
  · rename_i hin
    obtain ⟨hhd, ht⟩ := hin
    split at he
    · rename_i y0 y1 hy
      simp only at he
      split at he
      · rename_i hcond
        obtain ⟨hc1, hc2⟩ := hcond
        generalize hex : otherOf hd y0 y1 = ex at he hc2
        rw [otherOf] at hex
        have hexm : ex ∈ st.C.succs t := by rw [hy, ← hex]; split <;> simp
        have hhdm : hd ∈ st.C.succs t := by
          rw [hy]
          rcases hc1 with e | e <;> simp [e]
        simp only [Option.some.injEq] at he
        have hn : ∀ x ∈ st.C.nodes, x ≠ st.n ∧ x ≠ st.n + 1 := fun x hx => by
          have := h.small x hx
          omega
        have htst : t ∉ stubs st.loops := h.not_stub (by rw [hy]; simp)
        have htx : t ≠ st.C.exit := fun e => by have := h.last; rw [← e, hy] at this; cases this
        have hte : t ≠ st.C.entry := fun e => by have := h.first; rw [← e, hy] at this; simp at this
        have sN : st'.C.succs st.n = [] := by rw [← he]; simp
        have sN1 : st'.C.succs (st.n + 1) = [ex] := by rw [← he]; simp
        have sT : st'.C.succs t = if y0 = hd then [hd, st.n] else [st.n, hd] := by
          rw [← he]; simp [(hn t ht).1, (hn t ht).2]
        have sO : ∀ x ∈ st.C.nodes, x ≠ t → st'.C.succs x = divert hd (st.n + 1) (st.C.succs x) := fun x hx hxt => by
          rw [← he]; simp [(hn x hx).1, (hn x hx).2, hxt]
        have cN : st'.C.code st.n = [] := by rw [← he]; simp
        have cN1 : st'.C.code (st.n + 1) = [] := by rw [← he]; simp
        have cO : ∀ x ∈ st.C.nodes, st'.C.code x = st.C.code x := fun x hx => by
          rw [← he]; simp [(hn x hx).1, (hn x hx).2]
        have hN : ∀ x, x ∈ st'.C.nodes ↔ x ∈ st.C.nodes ∨ x = st.n ∨ x = st.n + 1 := fun x => by
          rw [← he]; simp
        have hL : st'.loops = st.loops ++ [⟨hd, st.n, st.n + 1⟩] := by rw [← he]
        have hE : st'.C.entry = st.C.entry := by rw [← he]
        have hX : st'.C.exit = st.C.exit := by rw [← he]
        have hst : stubs st'.loops = stubs st.loops ++ [st.n, st.n + 1] := by rw [hL, stubs_append]; rfl
        have hnd : (stubs st'.loops).Nodup := by
          rw [hst, List.nodup_append]
          refine ⟨h.loopNodup, by simp, fun a ha b hb e => ?_⟩
          have := hn a (h.stub_small ha)
          simp at hb
          omega
        have hrep : ∀ l ∈ st.loops, l.replacement ≠ t := fun l hl e => htst (mem_stubs.2 ⟨l, hl, .inr e.symm⟩)
        have hins : ∀ l ∈ st.loops, l.insert ≠ t := fun l hl e => htst (mem_stubs.2 ⟨l, hl, .inl e.symm⟩)
        have hlen : ∀ x ∈ st.C.nodes, (st'.C.succs x).length = (st.C.succs x).length := fun x hx => by
          by_cases e : x = t
          · rw [e, sT, hy]; split <;> rfl
          · rw [sO x hx e, divert, List.length_map]
        have hmem : ∀ x ∈ st'.C.nodes, ∀ y ∈ st'.C.succs x, y = st.n ∨ y = st.n + 1 ∨ ∃ z ∈ st.C.nodes, y ∈ st.C.succs z := by
          intro x hx y hxy
          rcases (hN x).1 hx with e | e | e
          · by_cases e' : x = t
            · rw [e', sT] at hxy
              have : y = hd ∨ y = st.n := by
                split at hxy <;> simp at hxy <;> tauto
              rcases this with e | e
              · exact .inr (.inr ⟨t, ht, e ▸ hhdm⟩)
              · exact .inl e
            · rw [sO x e e'] at hxy
              rcases mem_divert.1 hxy with ⟨a, _⟩ | ⟨a, _⟩
              · exact .inr (.inr ⟨x, e, a⟩)
              · exact .inr (.inl a)
          · rw [e, sN] at hxy; cases hxy
          · rw [e, sN1] at hxy
            exact .inr (.inr ⟨t, ht, by rw [List.mem_singleton.1 hxy]; exact hexm⟩)
        have hxn := hn _ h.exit
        have hen := hn _ h.entry
        refine ⟨?_, hE, hX, fun _ => False, fun _ => False.elim, Detour.same (P := fun x => x = st.n ∨ x = st.n + 1) ?_⟩
        · refine ⟨?_, ?_, fun x hx y hxy => ?_, ?_, fun x hx h2 => ?_, ?_, ?_, fun x hx hxy => ?_, ?_, fun x hx x1 x2 => ?_,
            fun x hx => ?_, fun x hx tac htac => ?_, ?_, h.klt, fun u hu => ?_, fun x u m d hd => ?_, hnd, fun l hl => ?_⟩
          · rw [hE, hN]; exact .inl h.entry
          · rw [hX, hN]; exact .inl h.exit
          · rw [hN]
            rcases hmem x hx y hxy with e | e | ⟨z, z1, z2⟩
            · exact .inr (.inl e)
            · exact .inr (.inr e)
            · exact .inl (h.closed z z1 y z2)
          · rw [hX, sO _ h.exit (Ne.symm htx), h.last]; rfl
          · rcases (hN x).1 hx with e | e | e
            · rw [hlen x e] at h2; rw [cO x e]; exact h.branch x e h2
            · rw [e, sN] at h2; simp at h2
            · rw [e, sN1] at h2; simp at h2
          · rw [← he]
            show (st.C.nodes ++ [st.n, st.n + 1]).Nodup
            rw [List.nodup_append]
            refine ⟨h.nodup, by simp, fun a ha b hb e => ?_⟩
            have := hn a ha
            simp at hb
            omega
          · rw [hE, hX]; exact h.differ
          · rw [hE] at hxy
            rcases hmem x hx _ hxy with e | e | ⟨z, z1, z2⟩
            · exact hen.1 e
            · exact hen.2 e
            · exact h.noPred z z1 z2
          · rw [hE, hlen _ h.entry]; exact h.first
          · rcases (hN x).1 hx with e | e | e
            · have := h.succ x e (by rw [← hX]; exact x1) (fun l hl => x2 l (by rw [hL]; simp [hl]))
              intro e'
              have h3 := hlen x e
              rw [e'] at h3
              exact this (List.length_eq_zero_iff.1 h3.symm)
            · exact absurd e (x2 ⟨hd, st.n, st.n + 1⟩ (by rw [hL]; simp))
            · rw [e, sN1]; simp
          · have : st'.n = st.n + 2 := by rw [← he]
            rw [this]
            rcases (hN x).1 hx with e | e | e
            · have := h.small x e; omega
            · omega
            · omega
          · have hv : st'.v = st.v := by rw [← he]
            rw [hv]
            rcases (hN x).1 hx with e | e | e
            · rw [cO x e] at htac; exact h.below x e tac htac
            · rw [e, cN] at htac; cases htac
            · rw [e, cN1] at htac; cases htac
          · have hv : st'.v = st.v := by rw [← he]
            rw [hv]; exact h.old
          · obtain ⟨b, hb⟩ := h.kread u hu
            refine ⟨b, fun x hx tac htac hr => ?_⟩
            rcases (hN x).1 hx with e | e | e
            · rw [cO x e] at htac; exact hb x e tac htac hr
            · rw [e, cN] at htac; cases htac
            · rw [e, cN1] at htac; cases htac
          · obtain ⟨d1, d2, d3, c, w, d4⟩ := hd
            rcases (hN x).1 d1 with e | e | e
            · rw [cO x e] at d2 d4; rw [hlen x e] at d3
              exact h.kmatch x u m d ⟨e, d2, d3, c, w, d4⟩
            · rw [e, cN] at d4; cases d4
            · rw [e, cN1] at d4; cases d4
          · rw [hL] at hl
            rw [hE, hX]
            rcases List.mem_append.1 hl with hl | hl
            · obtain ⟨q1, q2, q3, q4, q5, q6, q7, q8⟩ := h.loop l hl
              refine ⟨(hN _).2 (.inl q1), (hN _).2 (.inl q2), (hN _).2 (.inl q3), ?_, ?_, ?_, ?_, q8⟩
              · rw [cO _ q1]; exact q4
              · rw [cO _ q2]; exact q5
              · have := hlen _ q1
                rw [q6] at this
                exact List.length_eq_zero_iff.1 this
              · rw [hlen _ q2]; exact q7
            · rw [List.mem_singleton.1 hl]
              exact ⟨(hN _).2 (.inr (.inl rfl)), (hN _).2 (.inr (.inr rfl)), (hN _).2 (.inl hhd), cN, cN1, sN, by rw [sN1]; rfl,
                Ne.symm hen.1, Ne.symm hxn.1, Ne.symm hen.2, Ne.symm hxn.2, fun e => h.noPred t ht (e ▸ hhdm)⟩
        · have hl0 : (⟨hd, st.n, st.n + 1⟩ : TcLoop) ∈ st'.loops := by rw [hL]; simp
          have gN : st'.ghost.succs st.n = [ex] := by
            show gs st'.loops st'.C.succs st.n = _
            rw [gs_insert (l := ⟨hd, st.n, st.n + 1⟩) hnd hl0, sN1]
          have gN1 : st'.ghost.succs (st.n + 1) = [hd] := gs_replacement (l := ⟨hd, st.n, st.n + 1⟩) hnd hl0
          have a1 : Arr sem truth (fun _ => False) st'.ghost (fun x => x = st.n ∨ x = st.n + 1) st.n ex :=
            step_empty (.inl rfl) (fun e => hxn.1 (by rw [← hX]; exact e.symm)) cN gN
          have a2 : Arr sem truth (fun _ => False) st'.ghost (fun x => x = st.n ∨ x = st.n + 1) (st.n + 1) hd :=
            step_empty (.inr rfl) (fun e => hxn.2 (by rw [← hX]; exact e.symm)) cN1 gN1
          have adiv : ∀ (i y z : Nat) (l : List Nat), l[i]? = some y → (divert hd (st.n + 1) l)[i]? = some z →
              Arr sem truth (fun _ => False) st'.ghost (fun x => x = st.n ∨ x = st.n + 1) z y := fun i y z l i1 i2 => by
            rw [divert_get i1 i2]
            split
            · rename_i e; rw [e]; exact a2
            · exact .refl _
          have hsim : ∀ x ∈ st.C.nodes, CodeSim sem truth (fun _ => False) (st.C.code x) (st'.C.code x) := fun x hx => by
            rw [cO x hx]; exact codeSim_refl fun _ _ _ _ => id
          refine ⟨hE, hX, h.entry, (Stage.refl (sem := sem) (truth := truth) h).detour h |>.closed, fun x hx hne s r hsr => ?_,
            fun s r hsr => (hsim _ h.exit s r hsr).1⟩
          obtain ⟨p1, p2⟩ := hsim x hx s r hsr
          refine ⟨p1, ?_⟩
          show OptRel _ (goes (gs st.loops st.C.succs x) _) (goes (gs st'.loops st'.C.succs x) _)
          have hx' : x ≠ st.n ∧ x ≠ st.n + 1 := hn x hx
          by_cases es : x ∈ stubs st.loops
          · obtain ⟨l, hl, e1 | e1⟩ := mem_stubs.1 es
            · have hl' : l ∈ st'.loops := by rw [hL]; simp [hl]
              obtain ⟨q1, q2, q3, q4, q5, q6, q7, q8⟩ := h.loop l hl
              rw [e1, gs_insert h.loopNodup hl, gs_insert hnd hl', sO _ q2 (hrep l hl)]
              refine goes_rel (by simp [divert]) (fun i y a i1 i2 => adiv i y a _ i1 i2) fun h2 => ?_
              omega
            · have hl' : l ∈ st'.loops := by rw [hL]; simp [hl]
              rw [e1, gs_replacement h.loopNodup hl, gs_replacement hnd hl']
              exact .some (.refl _)
          · have es' : x ∉ stubs st'.loops := by
              rw [hst, List.mem_append, not_or]
              exact ⟨es, by simp [hx'.1, hx'.2]⟩
            rw [gs_other es, gs_other es']
            refine goes_rel (hlen x hx) (fun i y a i1 i2 => ?_) fun h2 => p2 (h.branch x hx h2)
            by_cases e : x = t
            · rw [e, hy] at i1
              rw [e, sT] at i2
              split at i2
              · rename_i e0
                rw [if_pos e0] at hex
                match i, i1, i2 with
                | 0, i1, i2 => cases i1; cases i2; rw [e0]; exact .refl _
                | 1, i1, i2 => cases i1; cases i2; rw [hex]; exact a1
              · rename_i e0
                rw [if_neg e0] at hex
                match i, i1, i2 with
                | 0, i1, i2 => cases i1; cases i2; rw [hex]; exact a1
                | 1, i1, i2 => cases i1; cases i2; rw [hc1.resolve_left e0]; exact .refl _
            · rw [sO x hx e] at i2
              exact adiv i y a _ i1 i2
      · cases he
    · cases he
  · cases he

/-! ### `ReinsertLoop` -/

theorem reinsert_good (h : Inv K fix v0 st) {l : TcLoop} {rest : List TcLoop} (hl : st.loops = l :: rest) {st' : RSt}
    (he : st.reinsert l rest = some st') : Keeps sem truth K fix v0 st st' ∧ st'.loops = rest := by
  unfold RSt.reinsert at he
  split at he
  · rename_i r0 hr0
    simp only at he
    split at he
    · rename_i hcond
      obtain ⟨_, hc2, hc3, hc4, hc5⟩ := hcond
      generalize hr : l.after r0 = r at he hc2
      simp only [Option.some.injEq] at he
      obtain ⟨q1, q2, q3, q4, q5, q6, q7, q8, q9, q10, q11, q12⟩ := h.loop l (by rw [hl]; simp)
      have hnd := h.loopNodup
      have hnd' : (stubs rest).Nodup := by
        rw [hl] at hnd
        exact (List.nodup_append.1 (show ([l.insert, l.replacement] ++ stubs rest).Nodup from hnd)).2.1
      have hirest : l.insert ∉ stubs rest ∧ l.replacement ∉ stubs rest := by
        rw [hl] at hnd
        have := (List.nodup_append.1 (show ([l.insert, l.replacement] ++ stubs rest).Nodup from hnd)).2.2
        exact ⟨fun e => this _ (by simp) _ e rfl, fun e => this _ (by simp) _ e rfl⟩
      have hir : l.insert ≠ l.replacement := by
        rw [hl] at hnd
        have := (List.nodup_append.1 (show ([l.insert, l.replacement] ++ stubs rest).Nodup from hnd)).1
        simpa using this
      have hL : st'.loops = rest := by rw [← he]
      have hE : st'.C.entry = st.C.entry := by rw [← he]
      have hX : st'.C.exit = st.C.exit := by rw [← he]
      have hC : st'.C.code = st.C.code := by rw [← he]
      have hN : ∀ x, x ∈ st'.C.nodes ↔ x ∈ st.C.nodes ∧ x ≠ l.insert ∧ x ≠ l.replacement := fun x => by
        rw [← he]; simp
      have hS : ∀ x, st'.C.succs x = divert l.insert r (divert l.replacement l.ne (st.C.succs x)) := fun x => by rw [← he]
      have hlen : ∀ x, (st'.C.succs x).length = (st.C.succs x).length := fun x => by rw [hS]; simp [divert]
      have hnil : ∀ x, st'.C.succs x = [] ↔ st.C.succs x = [] := fun x => by
        rw [← List.length_eq_zero_iff, hlen, List.length_eq_zero_iff]
      have hr0m : r0 ∈ st.C.nodes := h.closed _ q2 r0 (by rw [hr0]; simp)
      have hrm : r ∈ st.C.nodes ∧ r ≠ st.C.entry ∧ r ≠ l.replacement := by
        rw [← hr, TcLoop.after]
        split
        · exact ⟨q3, q12, hc4⟩
        · exact ⟨hr0m, fun e => h.noPred _ q2 (by rw [hr0, e]; simp), by assumption⟩
      have hmem : ∀ x, ∀ y ∈ st'.C.succs x, y = r ∨ y = l.ne ∨ (y ∈ st.C.succs x ∧ y ≠ l.insert ∧ y ≠ l.replacement) := by
        intro x y hxy
        rw [hS] at hxy
        rcases mem_divert.1 hxy with ⟨a, b⟩ | ⟨a, _⟩
        · rcases mem_divert.1 a with ⟨c, d⟩ | ⟨c, _⟩
          · exact .inr (.inr ⟨c, b, d⟩)
          · exact .inr (.inl c)
        · exact .inl a
      have hsub : ∀ l' ∈ rest, l' ∈ st.loops := fun l' h' => by rw [hl]; simp [h']
      have hinv : Inv K fix v0 st' := by
        refine ⟨?_, ?_, fun x hx y hxy => ?_, ?_, fun x hx h2 => ?_, ?_, ?_, fun x hx hxy => ?_, ?_, fun x hx x1 x2 => ?_,
          fun x hx => ?_, fun x hx tac htac => ?_, ?_, h.klt, fun u hu => ?_, fun x u m d hd => ?_, ?_, fun l' hl' => ?_⟩
        · rw [hE, hN]; exact ⟨h.entry, Ne.symm q8, Ne.symm q10⟩
        · rw [hX, hN]; exact ⟨h.exit, Ne.symm q9, Ne.symm q11⟩
        · rw [hN]
          rcases hmem x y hxy with e | e | ⟨a, b, c⟩
          · rw [e]; exact ⟨hrm.1, hc2, hrm.2.2⟩
          · rw [e]; exact ⟨q3, hc3, hc4⟩
          · exact ⟨h.closed x ((hN x).1 hx).1 y a, b, c⟩
        · rw [hX, hnil]; exact h.last
        · rw [hlen] at h2; rw [hC]; exact h.branch x ((hN x).1 hx).1 h2
        · rw [← he]; exact h.nodup.filter _
        · rw [hE, hX]; exact h.differ
        · rw [hE] at hxy
          rcases hmem x _ hxy with e | e | ⟨a, _, _⟩
          · exact hrm.2.1 e.symm
          · exact q12 e.symm
          · exact h.noPred x ((hN x).1 hx).1 a
        · rw [hE, hlen]; exact h.first
        · rw [Ne, hnil]
          refine h.succ x ((hN x).1 hx).1 (by rw [← hX]; exact x1) fun l' hl' => ?_
          rw [hl] at hl'
          rcases List.mem_cons.1 hl' with e | e
          · rw [e]; exact ((hN x).1 hx).2.1
          · exact x2 l' (by rw [hL]; exact e)
        · have : st'.n = st.n := by rw [← he]
          rw [this]; exact h.small x ((hN x).1 hx).1
        · have : st'.v = st.v := by rw [← he]
          rw [this]; rw [hC] at htac; exact h.below x ((hN x).1 hx).1 tac htac
        · have : st'.v = st.v := by rw [← he]
          rw [this]; exact h.old
        · obtain ⟨b, hb⟩ := h.kread u hu
          exact ⟨b, fun x hx tac htac hr => hb x ((hN x).1 hx).1 tac (by rw [← hC]; exact htac) hr⟩
        · obtain ⟨d1, d2, d3, c, w, d4⟩ := hd
          rw [hC] at d2 d4; rw [hlen] at d3
          exact h.kmatch x u m d ⟨((hN x).1 d1).1, d2, d3, c, w, d4⟩
        · rw [hL]; exact hnd'
        · rw [hL] at hl'
          obtain ⟨p1, p2, p3, p4, p5, p6, p7, p8⟩ := h.loop l' (hsub l' hl')
          have ne1 : ∀ z ∈ stubs rest, z ≠ l.insert ∧ z ≠ l.replacement := fun z hz =>
            ⟨fun e => hirest.1 (e ▸ hz), fun e => hirest.2 (e ▸ hz)⟩
          rw [hE, hX, hC, hlen, hnil, hN, hN, hN]
          exact ⟨⟨p1, ne1 _ (mem_stubs.2 ⟨l', hl', .inl rfl⟩)⟩, ⟨p2, ne1 _ (mem_stubs.2 ⟨l', hl', .inr rfl⟩)⟩,
            ⟨p3, hc5 l' hl'⟩, p4, p5, p6, p7, p8⟩
      refine ⟨⟨hinv, hE, hX, fun _ => False, fun _ => False.elim,
        (Detour.same (P := fun x => x = l.insert ∨ x = l.replacement) ?_).symm⟩, hL⟩
      have hl0 : l ∈ st.loops := by rw [hl]; simp
      have a2 : Arr sem truth (fun _ => False) st.ghost (fun x => x = l.insert ∨ x = l.replacement) l.replacement l.ne :=
        step_empty (.inr rfl) q11 q5 (gs_replacement hnd hl0)
      have a1 : Arr sem truth (fun _ => False) st.ghost (fun x => x = l.insert ∨ x = l.replacement) l.insert r := by
        refine Arr.trans (b := r0) (step_empty (.inl rfl) q9 q4 ?_) ?_
        · show gs st.loops st.C.succs l.insert = _
          rw [gs_insert hnd hl0, hr0]
        · rw [← hr, TcLoop.after]
          split
          · rename_i e; rw [e]; exact a2
          · exact .refl _
      have adiv : ∀ (i y z : Nat) (k : List Nat), (divert l.insert r (divert l.replacement l.ne k))[i]? = some y → k[i]? = some z →
          Arr sem truth (fun _ => False) st.ghost (fun x => x = l.insert ∨ x = l.replacement) z y := fun i y z k i1 i2 => by
        rcases h2 : (divert l.replacement l.ne k)[i]? with _ | y'
        · rw [divert, List.getElem?_map, h2] at i1; cases i1
        · have e1 := divert_get i2 h2
          have e2 := divert_get h2 i1
          rw [e2]
          by_cases c1 : z = l.replacement
          · rw [if_pos c1] at e1
            rw [e1, if_neg hc3, c1]; exact a2
          · rw [if_neg c1] at e1
            rw [e1]
            split
            · rename_i e; rw [e]; exact a1
            · exact .refl _
      have hsim : ∀ x, CodeSim sem truth (fun _ => False) (st'.C.code x) (st.C.code x) := fun x => by
        rw [hC]; exact codeSim_refl fun _ _ _ _ => id
      refine ⟨hE.symm, hX.symm, hinv.entry, (Stage.refl (sem := sem) (truth := truth) hinv).detour hinv |>.closed,
        fun x hx hne s r' hsr => ?_, fun s r' hsr => (hsim _ s r' hsr).1⟩
      obtain ⟨p1, p2⟩ := hsim x s r' hsr
      refine ⟨p1, ?_⟩
      show OptRel _ (goes (gs st'.loops st'.C.succs x) _) (goes (gs st.loops st.C.succs x) _)
      obtain ⟨x1, x2, x3⟩ := (hN x).1 hx
      rw [hL]
      by_cases es : x ∈ stubs rest
      · obtain ⟨l', hl', e1 | e1⟩ := mem_stubs.1 es
        · rw [e1, gs_insert hnd' hl', gs_insert hnd (hsub l' hl'), hS]
          refine goes_rel (by simp [divert]) (fun i y a i1 i2 => adiv i y a _ i1 i2) fun h2 => ?_
          have := (h.loop l' (hsub l' hl')).2.2.2.2.2.2.1
          simp [divert] at h2
          omega
        · rw [e1, gs_replacement hnd' hl', gs_replacement hnd (hsub l' hl')]
          exact .some (.refl _)
      · have es' : x ∉ stubs st.loops := by
          rw [hl]
          show x ∉ [l.insert, l.replacement] ++ stubs rest
          rw [List.mem_append, not_or]
          exact ⟨by simp [x2, x3], es⟩
        rw [gs_other es, gs_other es', hS]
        exact goes_rel (by simp [divert]) (fun i y a i1 i2 => adiv i y a _ i1 i2) fun h2 =>
          p2 (hinv.branch x hx (by rw [hS]; exact h2))
    · cases he
  · cases he

end Jlm.Front
