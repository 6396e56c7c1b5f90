import Verif.Opt.DneSweep
import Mathlib.Tactic.Tauto

/-! # The sweep phase preserves the values of everything that is alive -/

set_option linter.unusedSimpArgs false
set_option linter.unusedVariables false

namespace Jlm.Opt.Dne

variable {V : Type}

theorem agree_empty (P : Out → Prop) : AgreeOn P (emptyEnv : Env V) emptyEnv := fun _ _ => rfl

theorem map_mask_congr {P : Out → Prop} {f g : Out → W V} (bs : List Bool) (xs : List Out)
    (h : ∀ p ∈ xs.zip bs, p.2 = true → f p.1 = g p.1) :
    (mask bs xs).map f = mask bs (xs.map g) := by
  rw [mask_map]
  exact List.map_congr_left fun x hx => h _ (mem_mask_zip _ _ _ hx) rfl

/-! ## loops -/

theorem mask_true_tail {α : Type} (bs : List Bool) (l : List α) :
    (mask (true :: bs) l).tail = mask bs l.tail := by
  cases l with
  | nil => simp [mask_nil]
  | cons x xs => simp [mask]

theorem mask_true_head {α : Type} (bs : List Bool) (l : List α) (d : α) :
    (mask (true :: bs) l).headD d = l.headD d := by
  cases l with
  | nil => simp [mask_nil]
  | cons x xs => simp [mask]

theorem loopState_mask {f1 f2 : List (W V) → List (W V)} {keep : List Bool}
    (hf : ∀ ws, f1 (mask keep ws) = mask (true :: keep) (f2 ws)) (init : List (W V)) :
    ∀ m, loopState f1 (mask keep init) m = mask keep (loopState f2 init m)
  | 0 => rfl
  | m + 1 => by
      simp only [loopState, loopState_mask hf init m, hf, mask_true_tail]

/-- A loop is left at most once. -/
theorem loopExits_unique {sem : Sem V} {f : List (W V) → List (W V)} {init : List (W V)} {n m : Nat}
    (hn : loopExits sem f init n) (hm : loopExits sem f init m) : n = m := by
  rcases Nat.lt_trichotomy n m with h | h | h
  · obtain ⟨c, hc⟩ := hm.2 n h
    rw [hn.1] at hc
    simp at hc
  · exact h
  · obtain ⟨c, hc⟩ := hn.2 m h
    rw [hm.1] at hc
    simp at hc

theorem loopVals_exit {sem : Sem V} {f : List (W V) → List (W V)} {init : List (W V)} {n : Nat}
    (hn : loopExits sem f init n) : loopVals sem f init = loopState f init (n + 1) := by
  have h : ∃ n, loopExits sem f init n := ⟨n, hn⟩
  rw [loopVals, dif_pos h, loopExits_unique h.choose_spec hn]

theorem loopVals_none {sem : Sem V} {f : List (W V) → List (W V)} {init : List (W V)}
    (h : ¬ ∃ n, loopExits sem f init n) : loopVals sem f init = [] := by
  rw [loopVals, dif_neg h]

theorem loopVals_mask (sem : Sem V) {f1 f2 : List (W V) → List (W V)} {keep : List Bool}
    (hf : ∀ ws, f1 (mask keep ws) = mask (true :: keep) (f2 ws)) (init : List (W V)) :
    loopVals sem f1 (mask keep init) = mask keep (loopVals sem f2 init) := by
  have hp : ∀ m, loopPred sem f1 (mask keep init) m = loopPred sem f2 init m := by
    intro m
    simp only [loopPred, loopState_mask hf init m, hf, mask_true_head]
  have he : loopExits sem f1 (mask keep init) = loopExits sem f2 init := by
    funext n
    simp only [loopExits, hp]
  by_cases h : ∃ n, loopExits sem f2 init n
  · obtain ⟨n, hn⟩ := h
    rw [loopVals_exit hn, loopVals_exit (by rw [he]; exact hn), loopState_mask hf init]
  · rw [loopVals_none h, loopVals_none (by rw [he]; exact h), mask_nil]

/-! ## pruning by use -/

theorem phiVals_mask (sem : Sem V) (keep : List Bool) (outs : List Out)
    (f1 f2 : List (W V) → List (W V)) (hf : ∀ ws, f1 (mask keep ws) = mask keep (f2 ws)) :
    ∀ d, phiVals sem (mask keep outs) f1 d = mask keep (phiVals sem outs f2 d)
  | 0 => by simp only [phiVals]; rw [mask_map]
  | d + 1 => by
      simp only [phiVals]
      rw [phiVals_mask sem keep outs f1 f2 hf d, hf, mask_zip, mask_map]

theorem prune_eval (sem : Sem V) : ∀ (ns : Nodes) (rs : List Out) (e1 e2 : Env V),
    AgreeOn (fun x => used (prune ns rs) rs x = true) e1 e2 →
    ∀ r ∈ rs, evalNodes sem (prune ns rs) e1 r = evalNodes sem ns e2 r
  | .nil, rs, e1, e2, h, r, hr => by
      simp only [prune, evalNodes]
      exact h r (by simp [used, hr])
  | .cons n ns, rs, e1, e2, h, r, hr => by
      simp only [prune] at h ⊢
      by_cases hu : n.outs.any (used (prune ns rs) rs) = true
      · rw [if_pos hu] at h ⊢
        simp only [evalNodes]
        rw [nodeVals_congr sem n e1 e2 (fun i hi => h i (by simp [used, Nodes.ins, hi]))]
        refine prune_eval sem ns rs _ _ (agree_upd (fun x hx => h x ?_) _ _) r hr
        simp only [used, Nodes.ins, List.contains_eq_mem, decide_eq_true_eq, List.mem_append] at hx ⊢
        rcases hx with hx | hx <;> simp [hx]
      · rw [if_neg hu] at h ⊢
        simp only [evalNodes]
        refine prune_eval sem ns rs _ _ (fun x hx => ?_) r hr
        rw [upd_notin]
        · exact h x hx
        · intro hc
          exact hu (List.any_eq_true.2 ⟨x, hc, hx⟩)

/-! ## facts about alive gamma and theta nodes -/

/-- Names of arguments that are alive are covered by the argument mask. -/
theorem argMask_cover {S : Marks} {P : Out → Prop} (n : Nat) (nr : Nat) :
    ∀ (subs : Regions) (ins : List Out), ins.length = n → wfRegions n nr subs = true →
      (∀ p ∈ defsRegions ins subs, Coh S P p) → (argMask S n subs).length = n
  | .nil, ins, _, _, _ => by simp [argMask]
  | .cons args results sub rest, ins, hl, hwf, hc => by
      simp only [wfRegions, Bool.and_eq_true, beq_iff_eq] at hwf
      have ih := argMask_cover (S := S) (P := P) n nr rest ins hl hwf.2
        (fun p hp => hc p (by simp [defsRegions, hp]))
      simp [argMask, hwf.1.1.1.1, ih]

/-- `Q args results` for all branches. -/
def AllRegions (Q : List Out → List Out → Prop) : Regions → Prop
  | .nil => True
  | .cons args results _ rest => Q args results ∧ AllRegions Q rest

theorem AllRegions.mono {Q Q' : List Out → List Out → Prop} (h : ∀ a r, Q a r → Q' a r) :
    ∀ subs, AllRegions Q subs → AllRegions Q' subs
  | .nil, _ => trivial
  | .cons _ _ _ rest, h' => ⟨h _ _ h'.1, AllRegions.mono h rest h'.2⟩

/-- Alive arguments are kept, in every branch. -/
theorem args_cover {S : Marks} {P : Out → Prop} {n nr : Nat} (ins : List Out)
    (hl : ins.length = n) : ∀ (subs : Regions), wfRegions n nr subs = true →
      (∀ p ∈ defsRegions ins subs, Coh S P p) →
      AllRegions (fun args _ => args.length = n ∧
        ∀ k (hk : k < args.length) (hm : k < (argMask S n subs).length),
          P args[k] → (argMask S n subs)[k] = true) subs
  | .nil, _, _ => trivial
  | .cons args results sub rest, hwf, hc => by
      have hwf0 := hwf
      simp only [wfRegions, Bool.and_eq_true, beq_iff_eq] at hwf
      obtain ⟨⟨⟨⟨ha, _⟩, _⟩, _⟩, hrest⟩ := hwf
      have hcr : ∀ p ∈ defsRegions ins rest, Coh S P p :=
        fun p hp => hc p (by simp [defsRegions, hp])
      have ih := args_cover ins hl rest hrest hcr
      have hlen := argMask_cover (S := S) (P := P) n nr rest ins hl hrest hcr
      refine ⟨⟨ha, ?_⟩, ?_⟩
      · intro k hk hm hP
        have hd := hc (args[k], .other [ins[k]'(by omega)]) (by
          simp only [defsRegions, List.mem_append, List.mem_map]
          refine .inl (.inl ⟨(args[k], ins[k]'(by omega)), ?_, rfl⟩)
          exact List.mem_iff_getElem.2 ⟨k, by simp; omega, by simp⟩)
        have := hd.1.1 hP
        simp [argMask, List.getElem_zipWith, (S.alive_iff _).2 this]
      · refine AllRegions.mono ?_ rest ih
        rintro a r ⟨h1, h2⟩
        refine ⟨h1, fun k hk hm hP => ?_⟩
        have := h2 k hk (by omega) hP
        simp [argMask, List.getElem_zipWith, this]

theorem cover_of_getElem {P : Out → Prop} (os : List Out) (bs : List Bool)
    (hl : os.length = bs.length)
    (h : ∀ k (hk : k < os.length) (hm : k < bs.length), P os[k] → bs[k] = true) : Cover P os bs := by
  rw [cover_iff os bs hl]
  intro p hp
  obtain ⟨k, hk, rfl⟩ := List.getElem_of_mem hp
  simp only [List.length_zip] at hk
  simp only [List.getElem_zip]
  exact h k (by omega) (by omega)

/-- Results of alive exit variables are alive, in every branch. -/
theorem results_alive {P : Out → Prop} : ∀ (subs : Regions) (k : Nat),
    (∀ d ∈ Regions.resultsAt k subs, P d) →
    AllRegions (fun _ results => ∀ h : k < results.length, P results[k]) subs
  | .nil, _, _ => trivial
  | .cons args results sub rest, k, h => by
      refine ⟨fun hk => h _ ?_, results_alive rest k (fun d hd => h d ?_)⟩
      · simp [Regions.resultsAt, hk]
      · simp [Regions.resultsAt, hd]

theorem allRegions_forall {ι : Type} {Q : ι → List Out → List Out → Prop} : ∀ (subs : Regions),
    (∀ i, AllRegions (Q i) subs) → AllRegions (fun a r => ∀ i, Q i a r) subs
  | .nil, _ => trivial
  | .cons _ _ _ rest, h => ⟨fun i => (h i).1, allRegions_forall rest (fun i => (h i).2)⟩

theorem gamma_results {S : Marks} {P : Out → Prop} {pred : Out} {ins outs : List Out}
    {subs : Regions} (hc : ∀ p ∈ defsNode (.gamma pred ins outs subs), Coh S P p) :
    AllRegions (fun _ results => ∀ p ∈ results.zip (outs.map S.alive), p.2 = true → P p.1) subs := by
  have h1 : ∀ k : {k // k < outs.length ∧ ∀ h : k < outs.length, S.alive outs[k] = true},
      AllRegions (fun _ results => ∀ h : k.1 < results.length, P results[k.1]) subs := by
    rintro ⟨k, hk, hal⟩
    refine results_alive subs k ?_
    have hd : (outs[k], Def.other (pred :: Regions.resultsAt k subs)) ∈
        defsNode (.gamma pred ins outs subs) := by
      simp only [defsNode, List.mem_append, List.mem_map]
      refine .inl ⟨(outs[k], k), ?_, rfl⟩
      simp [List.mem_zipIdx_iff_getElem?, hk]
    have := hc _ hd
    exact fun d hd' => this.2 (this.1.2 ((S.alive_iff _).1 (hal hk))) d (by simp [hd'])
  refine AllRegions.mono ?_ subs (allRegions_forall subs h1)
  intro a r h p hp ht
  obtain ⟨k, hk, rfl⟩ := List.getElem_of_mem hp
  simp only [List.length_zip, List.length_map] at hk
  simp only [List.getElem_zip, List.getElem_map] at ht ⊢
  exact h ⟨k, by omega, fun _ => ht⟩ (show k < r.length by omega)

/-- What is updated does not depend on what was there before. -/
theorem agree_kept {P : Out → Prop} {e1 e2 : Env V} (h : AgreeOn P e1 e2) (os : List Out)
    (ws : List (W V)) : AgreeOn (fun x => P x ∨ x ∈ os) (upd e1 os ws) (upd e2 os ws) := by
  intro x hx
  rcases hx with hx | hx
  · exact agree_upd h os ws x hx
  · exact upd_congr os ws x (fun hn => absurd hx hn)

theorem cover_nil_false {P : Out → Prop} : ∀ (os : List Out), (∀ x, ¬ P x) → Cover P os []
  | [], _ => trivial
  | o :: os, h => ⟨h o, cover_nil_false os h⟩

theorem cover_weaken {P Q : Out → Prop} : ∀ (os : List Out) (bs : List Bool), Cover P os bs →
    (∀ x ∈ os, Q x → P x) → Cover Q os bs
  | [], _, _, _ => trivial
  | o :: os, [], h, hq =>
      ⟨fun hQ => h.1 (hq o (by simp) hQ), cover_weaken os [] h.2 fun x hx => hq x (by simp [hx])⟩
  | o :: os, b :: bs, h, hq =>
      ⟨fun hQ => h.1 (hq o (by simp) hQ), cover_weaken os bs h.2 fun x hx => hq x (by simp [hx])⟩

theorem nodup_prefix {os l : List Out} (h : l.Nodup) (hp : os <+: l) : os.Nodup :=
  hp.sublist.nodup h

theorem cover_kept : ∀ (os : List Out) (bs : List Bool), os.Nodup →
    Cover (fun x => x ∈ mask bs os) os bs
  | [], _, _ => trivial
  | o :: os, [], h => by
      exact cover_nil_false (o :: os) fun x hx => by simp [mask] at hx
  | o :: os, true :: bs, h => by
      have h' := List.nodup_cons.1 h
      refine ⟨fun _ => rfl, cover_weaken os bs (cover_kept os bs h'.2) fun x hx hm => ?_⟩
      simp only [mask, List.mem_cons] at hm
      rcases hm with rfl | hm
      · exact absurd hx h'.1
      · exact hm
  | o :: os, false :: bs, h => by
      have h' := List.nodup_cons.1 h
      refine ⟨fun hm => ?_, cover_weaken os bs (cover_kept os bs h'.2) fun x hx hm => ?_⟩
      · simp only [mask] at hm
        exact absurd (mem_mask hm) h'.1
      · exact hm

theorem agree_kept_mask {P : Out → Prop} {e1 e2 : Env V} (h : AgreeOn P e1 e2) (os : List Out)
    (bs : List Bool) (ws : List (W V)) (hc : Cover P os bs) (hn : os.Nodup) :
    AgreeOn (fun x => P x ∨ x ∈ mask bs os) (upd e1 (mask bs os) (mask bs ws)) (upd e2 os ws) := by
  intro x hx
  rcases hx with hx | hx
  · exact agree_upd_mask h os bs ws hc x hx
  · rw [upd_congr (mask bs os) (mask bs ws) x (fun hn' => absurd hx hn') (e2 := e2)]
    exact agree_upd_mask (P := fun x => x ∈ mask bs os) (fun _ _ => rfl) os bs ws
      (cover_kept os bs hn) x hx

mutual

/-- A swept node computes the same values for all alive outputs, and for all outputs it has. -/
theorem sweepNode_eval (sem : Sem V) {S : Marks} {P : Out → Prop} : ∀ (n : Node)
    (avail : List Out), wfNode avail n = true → (namesNode n).Nodup →
    (∀ p ∈ defsNode n, Coh S P p) → S.aliveNode n = true → ∀ e1 e2 : Env V, AgreeOn P e1 e2 →
    AgreeOn (fun x => P x ∨ x ∈ (sweepNode S n).outs)
      (upd e1 (sweepNode S n).outs (nodeVals sem (sweepNode S n) e1))
      (upd e2 n.outs (nodeVals sem n e2))
  | .simple op ins outs, avail, hwf, hn, hc, ha, e1, e2, he => by
      have hu := sweepNode_uses (.simple op ins outs) avail hwf hn hc ha
      simp only [sweepNode] at hu ⊢
      rw [nodeVals_congr sem _ e1 e2 (fun i hi => he i (hu i hi))]
      exact agree_kept he _ _
  | .gamma pred ins outs subs, avail, hwf, hn, hc, ha, e1, e2, he => by
      have hu := sweepNode_uses (.gamma pred ins outs subs) avail hwf hn hc ha
      simp only [wfNode, Bool.and_eq_true] at hwf
      simp only [namesNode] at hn
      have hcr : ∀ p ∈ defsRegions (pred :: ins) subs, Coh S P p :=
        fun p hp => hc p (by simp [defsNode, hp])
      have hlen := argMask_cover (S := S) (P := P) (ins.length + 1) outs.length subs (pred :: ins)
        (by simp) hwf.2 hcr
      have hcov := args_cover (S := S) (P := P) (pred :: ins) (by simp) subs hwf.2 hcr
      have hres := gamma_results hc
      have hpred : e1 pred = e2 pred := he _ (hu pred (by simp [sweepNode, Node.ins]))
      have hvals : nodeVals sem (sweepNode S (.gamma pred ins outs subs)) e1 =
          mask (outs.map S.alive) (nodeVals sem (.gamma pred ins outs subs) e2) := by
        simp only [sweepNode, nodeVals]
        rw [hpred]
        cases e2 pred with
        | none => simp [mask_nil]
        | some p =>
          have hins : (mask (argMask S (ins.length + 1) subs).tail ins).map e1 =
              mask (argMask S (ins.length + 1) subs).tail (ins.map e2) := by
            rw [mask_map]
            exact List.map_congr_left fun i hi => he i (hu i (by simp [sweepNode, Node.ins, hi]))
          have := sweepRegions_eval sem (S := S) (P := P) subs (ins.length + 1) outs.length
            (pred :: ins) (outs.map S.alive) (true :: (argMask S (ins.length + 1) subs).tail)
            hwf.2 (List.nodup_append.1 hn).2.1 hcr
            (by
              refine AllRegions.mono ?_ subs hcov
              rintro a r ⟨h1, h2⟩
              refine cover_of_getElem _ _ (by simp [hlen, h1]) ?_
              intro k hk hm hP
              cases k with
              | zero => rfl
              | succ k =>
                simp only [List.getElem_cons_succ, List.getElem_tail]
                exact h2 (k + 1) hk (by omega) hP)
            hres (sem.ctl p.1) (some (sem.content p.1, none) :: ins.map e2)
          simp only [mask] at this
          rw [← this, hins]
      rw [hvals]
      simp only [sweepNode, Node.outs]
      refine agree_kept_mask he outs _ _ ?_ (nodup_prefix hn (by simp [List.append_assoc]))
      exact (cover_map outs fun o ho hP => by
        obtain ⟨deps, hd⟩ := outs_def (n := .gamma pred ins outs subs) (avail := avail)
          (by simp only [wfNode, Bool.and_eq_true]; exact hwf) (by simp) o ho
        exact (S.alive_iff o).2 ((hc _ hd).1.1 hP))
  | .theta ins outs args pred posts sub, avail, hwf, hn, hc, ha, e1, e2, he => by
      have hu := sweepNode_uses (.theta ins outs args pred posts sub) avail hwf hn hc ha
      simp only [wfNode, Bool.and_eq_true, beq_iff_eq] at hwf
      obtain ⟨⟨⟨⟨⟨_, h1⟩, h2⟩, h3⟩, h4⟩, _⟩ := hwf
      simp only [namesNode] at hn
      have hns := List.nodup_append.1 hn
      have hco : ∀ k (hk : k < outs.length), Coh S P (outs[k], .other [pred, posts[k], ins[k]]) :=
        fun k hk => hc _ (by
          simp only [defsNode, List.mem_append, List.mem_map]
          refine .inl (.inl ⟨(outs[k], posts[k], ins[k]), ?_, rfl⟩)
          exact List.mem_iff_getElem.2 ⟨k, by simp; omega, by simp⟩)
      have hca : ∀ k (hk : k < outs.length), Coh S P (args[k], .other [outs[k], ins[k]]) :=
        fun k hk => hc _ (by
          simp only [defsNode, List.mem_append, List.mem_map]
          refine .inl (.inr ⟨(args[k], outs[k], ins[k]), ?_, rfl⟩)
          exact List.mem_iff_getElem.2 ⟨k, by simp; omega, by simp⟩)
      -- kept loop variables have an alive output
      have hkept : ∀ k (hk : k < outs.length), (S.alive args[k] || S.alive outs[k]) = true →
          P outs[k] := by
        intro k hk h
        simp only [Bool.or_eq_true, Marks.alive_iff] at h
        rcases h with h | h
        · exact (hca k hk).2 ((hca k hk).1.2 h) _ (by simp)
        · exact (hco k hk).1.2 h
      have hPpred : P pred := by
        simp only [Marks.aliveNode, List.any_eq_true, Node.outs] at ha
        obtain ⟨o, ho, ha⟩ := ha
        obtain ⟨k, hk, rfl⟩ := List.getElem_of_mem ho
        exact (hco k hk).2 ((hco k hk).1.2 ((S.alive_iff _).1 ha)) _ (by simp)
      have hPpost : ∀ p ∈ posts.zip (List.zipWith (fun a o => S.alive a || S.alive o) args outs),
          p.2 = true → P p.1 := by
        intro p hp ht
        obtain ⟨k, hk, rfl⟩ := List.getElem_of_mem hp
        simp only [List.length_zip, List.length_zipWith] at hk
        simp only [List.getElem_zip, List.getElem_zipWith] at ht ⊢
        exact (hco k (by omega)).2 (hkept k (by omega) ht) _ (by simp)
      have hcovA : Cover P args (List.zipWith (fun a o => S.alive a || S.alive o) args outs) := by
        refine cover_of_getElem _ _ (by simp [h2]) ?_
        intro k hk hm hP
        simp only [List.getElem_zipWith, Bool.or_eq_true, Marks.alive_iff]
        exact .inl ((hca k (by omega)).1.1 hP)
      have hcovO : Cover P outs (List.zipWith (fun a o => S.alive a || S.alive o) args outs) := by
        refine cover_of_getElem _ _ (by simp [h2]) ?_
        intro k hk hm hP
        simp only [List.getElem_zipWith, Bool.or_eq_true, Marks.alive_iff]
        exact .inr ((hco k (by omega)).1.1 hP)
      have hvals : nodeVals sem (sweepNode S (.theta ins outs args pred posts sub)) e1 =
          mask (List.zipWith (fun a o => S.alive a || S.alive o) args outs)
            (nodeVals sem (.theta ins outs args pred posts sub) e2) := by
        simp only [sweepNode, nodeVals]
        have hins : (mask (List.zipWith (fun a o => S.alive a || S.alive o) args outs) ins).map e1 =
            mask (List.zipWith (fun a o => S.alive a || S.alive o) args outs) (ins.map e2) := by
          rw [mask_map]
          exact List.map_congr_left fun i hi => he i (hu i (by simp [sweepNode, Node.ins, hi]))
        rw [hins]
        refine loopVals_mask sem ?_ _
        intro ws
        have ih := sweepNodes_eval sem (S := S) (P := P) sub args h4 hns.2.1
          (fun x hx hc' => hns.2.2 x (by simp [hx]) x hc' rfl)
          (fun p hp => hc p (by simp [defsNode, hp])) _ _
          (agree_upd_mask (agree_empty (V := V) P) args _ ws hcovA)
        simp only [List.map_cons, mask]
        rw [ih pred hPpred]
        congr 1
        rw [mask_map, mask_divertMasked _ _ _ (by omega), List.map_map, mask_map]
        exact List.map_congr_left fun r hr => ih r (hPpost _ (mem_mask_zip _ _ _ hr) rfl)
      rw [hvals]
      simp only [sweepNode, Node.outs]
      exact agree_kept_mask he outs _ _ hcovO (nodup_prefix hn (by simp [List.append_assoc]))
  | .lambda ins args params results out sub, avail, hwf, hn, hc, ha, e1, e2, he => by
      have hu := sweepNode_uses (.lambda ins args params results out sub) avail hwf hn hc ha
      simp only [wfNode, Bool.and_eq_true, beq_iff_eq] at hwf
      obtain ⟨⟨⟨_, h1⟩, h2⟩, _⟩ := hwf
      simp only [namesNode] at hn
      have hns := List.nodup_append.1 hn
      have hcs : ∀ p ∈ defsNodes sub, Coh S P p := fun p hp => hc p (by simp [defsNode, hp])
      simp only [Marks.aliveNode, Node.outs, List.any_cons, List.any_nil, Bool.or_false,
        Marks.alive_iff] at ha
      have ho := hc (out, .other results) (by simp [defsNode])
      have hPr : ∀ r ∈ results, P r := fun r hr => ho.2 (ho.1.2 ha) r hr
      have hvals : nodeVals sem (sweepNode S (.lambda ins args params results out sub)) e1 =
          nodeVals sem (.lambda ins args params results out sub) e2 := by
        simp only [sweepNode, nodeVals]
        congr 4
        congr 1
        funext ps
        congr 1
        rw [List.map_map]
        refine List.map_congr_left fun r hr => ?_
        simp only [Function.comp]
        have step1 := evalNodes_agree sem
          (fun x => used (sweepNodes S sub).1 (results.map (sweepNodes S sub).2) x = true)
          (sweepNodes S sub).1 _ _ (fun i hi => by simp [used, hi])
          (agree_upd (agree_upd_mask (agree_empty (V := V) _) args
            (args.map (used (sweepNodes S sub).1 (results.map (sweepNodes S sub).2)))
            (ins.map e1) (cover_map args fun o _ h => h)) params (lift ps))
          ((sweepNodes S sub).2 r) ((used_iff _ _ _).2 (.inr (List.mem_map_of_mem hr)))
        rw [mask_map] at step1
        rw [step1]
        refine sweepNodes_eval sem (S := S) (P := P) sub (params ++ args) h2 hns.2.1
          (fun x hx hc' => hns.2.2 x (by simp only [List.mem_append] at hx ⊢; simp; tauto) x hc' rfl)
          hcs _ _ (agree_upd (agree_upd_map (agree_empty P) args ins ?_) params (lift ps)) r (hPr r hr)
        intro p hp hP
        have := hc (p.1, .other [p.2]) (by
          simp only [defsNode, List.mem_append, List.mem_map, List.mem_cons]
          exact .inl (.inr ⟨p, hp, rfl⟩))
        exact he _ (this.2 hP _ (by simp))
      rw [hvals]
      exact agree_kept he _ _
  | .phi ins args recs results outs sub, avail, hwf, hn, hc, ha, e1, e2, he => by
      simp only [wfNode, Bool.and_eq_true, beq_iff_eq] at hwf
      obtain ⟨⟨⟨⟨⟨_, h1⟩, h2⟩, h3⟩, h4⟩, _⟩ := hwf
      simp only [namesNode] at hn
      have hns := List.nodup_append.1 hn
      have hcs : ∀ p ∈ defsNodes sub, Coh S P p := fun p hp => hc p (by simp [defsNode, hp])
      have hfa := fix_alive hc h2 h3
      generalize hkf : List.zipWith (fun o r => S.alive o || S.alive r) outs recs = keepFix at hfa
      have hkl : keepFix.length = outs.length := by rw [← hkf]; simp [h2]
      have hcovO : Cover P outs keepFix := by
        refine cover_of_getElem _ _ hkl.symm ?_
        intro k hk hm hP
        obtain ⟨y, hy⟩ := zip_fst_mem (xs := outs) (ys := results) (by omega) outs[k] (by simp)
        have := hc (outs[k], .other [y]) (by
          simp only [defsNode, List.mem_append, List.mem_map]
          exact .inl (.inl (.inl ⟨_, hy, rfl⟩)))
        subst hkf
        simp only [List.getElem_zipWith, Bool.or_eq_true, Marks.alive_iff]
        exact .inl (this.1.1 hP)
      have hcovR : Cover P recs keepFix := by
        refine cover_of_getElem _ _ (by omega) ?_
        intro k hk hm hP
        obtain ⟨y, hy⟩ := zip_fst_mem (xs := recs) (ys := results) (by omega) recs[k] (by simp)
        have := hc (recs[k], .other [y]) (by
          simp only [defsNode, List.mem_append, List.mem_map]
          exact .inl (.inl (.inr ⟨_, hy, rfl⟩)))
        subst hkf
        simp only [List.getElem_zipWith, Bool.or_eq_true, Marks.alive_iff]
        exact .inr (this.1.1 hP)
      have hvals : nodeVals sem (sweepNode S (.phi ins args recs results outs sub)) e1 =
          mask keepFix (nodeVals sem (.phi ins args recs results outs sub) e2) := by
        simp only [sweepNode, nodeVals, hkf]
        refine phiVals_mask sem keepFix outs _ _ (fun ws => ?_) _
        rw [mask_map _ keepFix (divertMasked keepFix results recs), mask_map _ keepFix results,
          mask_divertMasked keepFix results recs (by omega)]
        rw [List.map_map]
        refine List.map_congr_left fun r hr => ?_
        simp only [Function.comp]
        have hPr := hfa _ (mem_mask_zip _ _ _ hr) rfl
        have hrd : r ∈ divertMasked keepFix results recs := by
          rw [← mask_divertMasked keepFix results recs (by omega)] at hr
          exact mem_mask hr
        have step1 := evalNodes_agree sem
          (fun x => used (sweepNodes S sub).1
            ((divertMasked keepFix results recs).map (sweepNodes S sub).2) x = true)
          (sweepNodes S sub).1 _ _ (fun i hi => by simp [used, hi])
          (agree_upd (agree_upd_mask (agree_empty (V := V) _) args
            (args.map (used (sweepNodes S sub).1
              ((divertMasked keepFix results recs).map (sweepNodes S sub).2)))
            (ins.map e1) (cover_map args fun o _ h => h)) (mask keepFix recs) (mask keepFix ws))
          ((sweepNodes S sub).2 r) ((used_iff _ _ _).2 (.inr (List.mem_map_of_mem hrd)))
        rw [mask_map] at step1
        rw [step1]
        refine sweepNodes_eval sem (S := S) (P := P) sub (recs ++ args) h4 hns.2.1
          (fun x hx hc' => hns.2.2 x (by simp only [List.mem_append] at hx ⊢; tauto) x hc' rfl)
          hcs _ _ (agree_upd_mask (agree_upd_map (agree_empty P) args ins ?_) recs keepFix _ hcovR)
          r hPr
        intro p hp hP
        have := hc (p.1, .other [p.2]) (by
          simp only [defsNode, List.mem_append, List.mem_map, List.mem_cons]
          exact .inl (.inr ⟨p, hp, rfl⟩))
        exact he _ (this.2 hP _ (by simp))
      rw [hvals]
      simp only [sweepNode, Node.outs, hkf]
      exact agree_kept_mask he outs _ _ hcovO (nodup_prefix hn (by simp [List.append_assoc]))
  | .delta ins args result out sub, avail, hwf, hn, hc, ha, e1, e2, he => by
      have hu := sweepNode_uses (.delta ins args result out sub) avail hwf hn hc ha
      have hvals : nodeVals sem (sweepNode S (.delta ins args result out sub)) e1 =
          nodeVals sem (.delta ins args result out sub) e2 := by
        simp only [sweepNode, nodeVals]
        congr 4
        congr 2
        refine prune_eval sem sub [result] _ _ ?_ result (by simp)
        have hins : (mask (args.map (used (prune sub [result]) [result])) ins).map e1 =
            mask (args.map (used (prune sub [result]) [result])) (ins.map e2) := by
          rw [mask_map]
          exact List.map_congr_left fun i hi => he i (hu i (by simp [sweepNode, Node.ins, hi]))
        rw [hins]
        exact agree_upd_mask (agree_empty _) args _ _ (cover_map args fun o _ h => h)
      rw [hvals]
      exact agree_kept he _ _

/-- The swept nodes of a region compute the same values for everything that is alive. -/
theorem sweepNodes_eval (sem : Sem V) {S : Marks} {P : Out → Prop} : ∀ (ns : Nodes)
    (avail : List Out), wfNodes avail ns = true → (namesNodes ns).Nodup →
    (∀ x ∈ avail, x ∉ namesNodes ns) →
    (∀ p ∈ defsNodes ns, Coh S P p) → ∀ e1 e2 : Env V, AgreeOn P e1 e2 →
    ∀ r, P r → evalNodes sem (sweepNodes S ns).1 e1 ((sweepNodes S ns).2 r) = evalNodes sem ns e2 r
  | .nil, avail, hwf, hn, hd, hc, e1, e2, he, r, hr => by
      simp only [sweepNodes, evalNodes, id]
      exact he r hr
  | .cons n ns, avail, hwf, hn, hd, hc, e1, e2, he, r, hr => by
      simp only [wfNodes, Bool.and_eq_true] at hwf
      simp only [namesNodes] at hn hd
      have hn' := List.nodup_append.1 hn
      have hcn : ∀ p ∈ defsNode n, Coh S P p := fun p hp => hc p (by simp [defsNodes, hp])
      have hcs : ∀ p ∈ defsNodes ns, Coh S P p := fun p hp => hc p (by simp [defsNodes, hp])
      have hd' : ∀ x ∈ n.outs ++ avail, x ∉ namesNodes ns := by
        intro x hx hc'
        rcases List.mem_append.1 hx with h | h
        · exact hn'.2.2 x (outs_subset_names n x h) x hc' rfl
        · exact hd x h (by simp [hc'])
      have ih := sweepNodes_eval sem (S := S) (P := P) ns _ hwf.2 hn'.2.1 hd' hcs
      simp only [sweepNodes]
      by_cases ha : S.aliveNode n = true
      · rw [if_pos ha]
        simp only [evalNodes]
        exact ih _ _ (fun x hx => sweepNode_eval sem n avail hwf.1 hn'.1 hcn ha e1 e2 he x (.inl hx)) r hr
      · rw [if_neg ha]
        simp only [Bool.not_eq_true] at ha
        simp only [evalNodes]
        by_cases hl : isLoadNode n = true
        · cases n with
          | simple op ins outs =>
            simp only [isLoadNode, decide_eq_true_eq] at hl
            obtain ⟨i, is, o, os, rfl, rfl, hlen, hav⟩ := load_shape hl hwf.1
            obtain ⟨hPo, hst⟩ := dead_load hl hcn ha
            obtain ⟨hu1, hu2⟩ := sweepNodes_uses (S := S) (P := P) ns _ hwf.2 hn'.2.1 hcs
            simp only [removeNode, hl, if_true, Node.outs]
            have hin : ∀ x, x ∈ o :: os → x ∉ (sweepNodes S ns).1.outs := fun x hx hc' =>
              hd' x (by simp only [Node.outs, List.mem_append]; exact .inl hx)
                (Nodes_outs_subset_names ns x (sweepNodes_outs S ns x hc'))
            have hout : ∀ x, x ∈ i :: is → x ∉ (sweepNodes S ns).1.outs := fun x hx hc' =>
              hd' x (by simp only [List.mem_append]; exact .inr (hav x hx))
                (Nodes_outs_subset_names ns x (sweepNodes_outs S ns x hc'))
            rw [evalNodes_divert sem (loadDivert (i :: is) (o :: os)) P (sweepNodes S ns).1 e1
              (upd e1 (o :: os) (nodeVals sem (.simple op (i :: is) (o :: os)) e1)) hu1]
            · refine ih _ _ ?_ r hr
              intro x hx
              have hxo : x ≠ o := fun h => hPo (h ▸ hx)
              simp only [nodeVals, hl, if_true, upd, if_neg hxo, List.tail_cons, List.map_cons]
              exact agree_upd_map he os is (fun p hp hP => he _ (hst p hp hP)) x hx
            · intro x hx
              rcases loadDivert_cases i is o os x with ⟨h, _⟩ | ⟨j, hj, _⟩
              · exact h
              · exact absurd hx (hin x (by simp [(List.of_mem_zip hj).1]))
            · intro x hx hxn
              rcases loadDivert_cases i is o os x with ⟨h, _⟩ | ⟨j, hj, h⟩
              · rw [h]; exact hxn
              · rw [h]; exact hout j (by simp [(List.of_mem_zip hj).2])
            · intro x hx
              have hxo : x ≠ o := fun h => hPo (h ▸ hx)
              simp only [nodeVals, hl, if_true, upd, if_neg hxo, List.tail_cons, List.map_cons]
              rw [upd_lookup e1 e1 (fun _ => rfl) os is x hlen]
              rfl
            · exact hu2 r hr
          | _ => simp [isLoadNode] at hl
        · simp only [Bool.not_eq_true] at hl
          rw [removeNode_other n hl]
          refine ih _ _ ?_ r hr
          intro x hx
          rw [upd_notin]
          · exact he x hx
          · exact fun hc' => dead_outs hwf.1 hcn hl ha x hc' hx

/-- The swept branches of a gamma node. -/
theorem sweepRegions_eval (sem : Sem V) {S : Marks} {P : Out → Prop} : ∀ (subs : Regions)
    (n nr : Nat) (ins : List Out) (keepOut bs : List Bool), wfRegions n nr subs = true →
    (namesRegions subs).Nodup → (∀ p ∈ defsRegions ins subs, Coh S P p) →
    AllRegions (fun args _ => Cover P args bs) subs →
    AllRegions (fun _ results => ∀ p ∈ results.zip keepOut, p.2 = true → P p.1) subs →
    ∀ (k : Nat) (ws : List (W V)),
    regionVals sem (maskArgs bs (sweepRegions S keepOut subs)) k (mask bs ws) =
      mask keepOut (regionVals sem subs k ws)
  | .nil, n, nr, ins, keepOut, bs, hwf, hn, hc, ha, hr, k, ws => by
      simp only [sweepRegions, maskArgs, regionVals, mask_nil]
  | .cons args results sub rest, n, nr, ins, keepOut, bs, hwf, hn, hc, ha, hr, 0, ws => by
      simp only [wfRegions, Bool.and_eq_true, beq_iff_eq] at hwf
      obtain ⟨⟨⟨⟨_, _⟩, h3⟩, _⟩, _⟩ := hwf
      simp only [namesRegions] at hn
      have hn1 := List.nodup_append.1 (List.nodup_append.1 hn).1
      simp only [sweepRegions, maskArgs, regionVals]
      rw [mask_map, List.map_map]
      refine List.map_congr_left fun r hr' => ?_
      exact sweepNodes_eval sem (S := S) (P := P) sub args h3 hn1.2.1
        (fun x hx hc' => hn1.2.2 x hx x hc' rfl)
        (fun p hp => hc p (by simp [defsRegions, hp])) _ _
        (agree_upd_mask (agree_empty P) args bs ws ha.1) r (hr.1 _ (mem_mask_zip _ _ _ hr') rfl)
  | .cons args results sub rest, n, nr, ins, keepOut, bs, hwf, hn, hc, ha, hr, k + 1, ws => by
      simp only [wfRegions, Bool.and_eq_true, beq_iff_eq] at hwf
      simp only [namesRegions] at hn
      simp only [sweepRegions, maskArgs, regionVals]
      exact sweepRegions_eval sem rest n nr ins keepOut bs hwf.2 (List.nodup_append.1 hn).2.1
        (fun p hp => hc p (by simp [defsRegions, hp])) ha.2 hr.2 k ws

end

/-- Every output the swept region still has keeps its value. -/
theorem sweepNodes_kept (sem : Sem V) {S : Marks} {P : Out → Prop} : ∀ (ns : Nodes)
    (avail : List Out), wfNodes avail ns = true → (namesNodes ns).Nodup →
    (∀ x ∈ avail, x ∉ namesNodes ns) →
    (∀ p ∈ defsNodes ns, Coh S P p) → ∀ e1 e2 : Env V, AgreeOn P e1 e2 →
    ∀ o ∈ (sweepNodes S ns).1.outs, evalNodes sem (sweepNodes S ns).1 e1 o = evalNodes sem ns e2 o
  | .nil, avail, hwf, hn, hd, hc, e1, e2, he, o, ho => by simp [sweepNodes, Nodes.outs] at ho
  | .cons n ns, avail, hwf, hn, hd, hc, e1, e2, he, o, ho => by
      simp only [wfNodes, Bool.and_eq_true] at hwf
      simp only [namesNodes] at hn hd
      have hn' := List.nodup_append.1 hn
      have hcn : ∀ p ∈ defsNode n, Coh S P p := fun p hp => hc p (by simp [defsNodes, hp])
      have hcs : ∀ p ∈ defsNodes ns, Coh S P p := fun p hp => hc p (by simp [defsNodes, hp])
      have hd' : ∀ x ∈ n.outs ++ avail, x ∉ namesNodes ns := by
        intro x hx hc'
        rcases List.mem_append.1 hx with h | h
        · exact hn'.2.2 x (outs_subset_names n x h) x hc' rfl
        · exact hd x h (by simp [hc'])
      have ih := sweepNodes_kept sem (S := S) (P := P) ns _ hwf.2 hn'.2.1 hd' hcs
      simp only [sweepNodes] at ho ⊢
      by_cases ha : S.aliveNode n = true
      · rw [if_pos ha] at ho ⊢
        have hev := sweepNode_eval sem n avail hwf.1 hn'.1 hcn ha e1 e2 he
        simp only [evalNodes, Nodes.outs, List.mem_append] at ho ⊢
        by_cases hr : o ∈ (sweepNodes S ns).1.outs
        · exact ih _ _ (fun x hx => hev x (.inl hx)) o hr
        · have ho' := ho.resolve_right hr
          have hon : o ∉ ns.outs := fun h =>
            hd' o (List.mem_append_left _ (sweepNode_outs S n o ho')) (Nodes_outs_subset_names ns o h)
          rw [evalNodes_notin sem _ _ o hr, evalNodes_notin sem _ _ o hon]
          exact hev o (.inr ho')
      · rw [if_neg ha] at ho ⊢
        simp only [Bool.not_eq_true] at ha
        simp only [evalNodes]
        by_cases hl : isLoadNode n = true
        · cases n with
          | simple op ins outs =>
            simp only [isLoadNode, decide_eq_true_eq] at hl
            obtain ⟨i, is, o', os, rfl, rfl, hlen, hav⟩ := load_shape hl hwf.1
            obtain ⟨hPo, hst⟩ := dead_load hl hcn ha
            obtain ⟨hu1, hu2⟩ := sweepNodes_uses (S := S) (P := P) ns _ hwf.2 hn'.2.1 hcs
            simp only [removeNode, hl, if_true, Node.outs, Nodes.divert_outs] at ho ⊢
            have hin : ∀ x, x ∈ o' :: os → x ∉ (sweepNodes S ns).1.outs := fun x hx hc' =>
              hd' x (by simp only [Node.outs, List.mem_append]; exact .inl hx)
                (Nodes_outs_subset_names ns x (sweepNodes_outs S ns x hc'))
            have hout : ∀ x, x ∈ i :: is → x ∉ (sweepNodes S ns).1.outs := fun x hx hc' =>
              hd' x (by simp only [List.mem_append]; exact .inr (hav x hx))
                (Nodes_outs_subset_names ns x (sweepNodes_outs S ns x hc'))
            have hfix : ∀ x ∈ (sweepNodes S ns).1.outs, loadDivert (i :: is) (o' :: os) x = x := by
              intro x hx
              rcases loadDivert_cases i is o' os x with ⟨h, _⟩ | ⟨j, hj, _⟩
              · exact h
              · exact absurd hx (hin x (by simp [(List.of_mem_zip hj).1]))
            have key := evalNodes_divert sem (loadDivert (i :: is) (o' :: os))
              (fun x => P x ∨ x ∈ (sweepNodes S ns).1.outs) (sweepNodes S ns).1 e1
              (upd e1 (o' :: os)
                (nodeVals sem (.simple op (i :: is) (o' :: os)) e1)) (fun x hx => .inl (hu1 x hx))
              hfix
              (by
                intro x hx hxn
                rcases loadDivert_cases i is o' os x with ⟨h, _⟩ | ⟨j, hj, h⟩
                · rw [h]; exact hxn
                · rw [h]; exact hout j (by simp [(List.of_mem_zip hj).2]))
              (by
                intro x hx
                have hxo : x ≠ o' := by
                  rintro rfl
                  rcases hx with hx | hx
                  · exact hPo hx
                  · exact hin x (by simp) hx
                simp only [nodeVals, hl, if_true, upd, if_neg hxo, List.tail_cons, List.map_cons]
                rw [upd_lookup e1 e1 (fun _ => rfl) os is x hlen]
                rfl)
              o (.inr ho)
            rw [hfix o ho] at key
            rw [key]
            refine ih _ _ ?_ o ho
            intro x hx
            have hxo : x ≠ o' := fun h => hPo (h ▸ hx)
            simp only [nodeVals, hl, if_true, upd, if_neg hxo, List.tail_cons, List.map_cons]
            exact agree_upd_map he os is (fun p hp hP => he _ (hst p hp hP)) x hx
          | _ => simp [isLoadNode] at hl
        · simp only [Bool.not_eq_true] at hl
          rw [removeNode_other n hl] at ho ⊢
          refine ih _ _ ?_ o ho
          intro x hx
          rw [upd_notin]
          · exact he x hx
          · exact fun hc' => dead_outs hwf.1 hcn hl ha x hc' hx

end Jlm.Opt.Dne
