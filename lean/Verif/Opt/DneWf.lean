import Verif.Opt.DneMark

/-! # Dead node elimination keeps the graph well-formed -/

set_option linter.unusedSimpArgs false
set_option linter.unusedVariables false

namespace Jlm.Opt.Dne

theorem wfNode_divert {τ : Out → Out} {A B : List Out} {n : Node}
    (hin : ∀ x ∈ n.ins, x ∈ A → τ x ∈ B) (h : wfNode A n = true) : wfNode B (n.divert τ) = true := by
  have hs : ∀ l : List Out, (∀ x ∈ l, x ∈ n.ins) → subset l A = true →
      subset (l.map τ) B = true := by
    intro l hl hA
    rw [subset_iff] at hA ⊢
    simp only [List.mem_map]
    rintro x ⟨y, hy, rfl⟩
    exact hin y (hl y hy) (hA y hy)
  cases n with
  | simple op ins outs =>
    simp only [wfNode, Node.divert, Bool.and_eq_true, List.length_map] at h ⊢
    exact ⟨hs ins (by simp [Node.ins]) h.1, h.2⟩
  | gamma pred ins outs subs =>
    simp only [wfNode, Node.divert, Bool.and_eq_true, List.length_map] at h ⊢
    exact ⟨hs (pred :: ins) (by simp [Node.ins]) h.1, h.2⟩
  | theta ins outs args pred posts sub =>
    simp only [wfNode, Node.divert, Bool.and_eq_true, List.length_map] at h ⊢
    exact ⟨⟨⟨⟨⟨hs ins (by simp [Node.ins]) h.1.1.1.1.1, h.1.1.1.1.2⟩, h.1.1.1.2⟩, h.1.1.2⟩, h.1.2⟩,
      h.2⟩
  | lambda ins args params results out sub =>
    simp only [wfNode, Node.divert, Bool.and_eq_true, List.length_map] at h ⊢
    exact ⟨⟨⟨hs ins (by simp [Node.ins]) h.1.1.1, h.1.1.2⟩, h.1.2⟩, h.2⟩
  | phi ins args recs results outs sub =>
    simp only [wfNode, Node.divert, Bool.and_eq_true, List.length_map] at h ⊢
    exact ⟨⟨⟨⟨⟨hs ins (by simp [Node.ins]) h.1.1.1.1.1, h.1.1.1.1.2⟩, h.1.1.1.2⟩, h.1.1.2⟩, h.1.2⟩,
      h.2⟩
  | delta ins args result out sub =>
    simp only [wfNode, Node.divert, Bool.and_eq_true, List.length_map] at h ⊢
    exact ⟨⟨⟨⟨hs ins (by simp [Node.ins]) h.1.1.1.1, h.1.1.1.2⟩, h.1.1.2⟩, h.1.2⟩, h.2⟩

theorem wfNodes_divert {τ : Out → Out} : ∀ (ns : Nodes) (A B : List Out),
    (∀ x ∈ ns.ins, x ∈ A → τ x ∈ B) → (∀ o ∈ ns.outs, τ o = o) → wfNodes A ns = true →
    wfNodes B (ns.divert τ) = true
  | .nil, _, _, _, _, _ => by simp [Nodes.divert, wfNodes]
  | .cons n ns, A, B, hin, hfix, h => by
      simp only [wfNodes, Bool.and_eq_true] at h
      simp only [Nodes.divert, wfNodes, Bool.and_eq_true, Node.divert_outs]
      refine ⟨wfNode_divert (fun x hx hA => hin x (by simp [Nodes.ins, hx]) hA) h.1,
        wfNodes_divert ns _ _ ?_ (fun o ho => hfix o (by simp [Nodes.outs, ho])) h.2⟩
      intro x hx hA
      rcases List.mem_append.1 hA with h' | h'
      · rw [hfix x (by simp [Nodes.outs, h'])]
        simp [h']
      · exact List.mem_append_right _ (hin x (by simp [Nodes.ins, hx]) h')

theorem Node.divert_id (n : Node) : n.divert id = n := by
  cases n <;> simp [Node.divert]

theorem Nodes.divert_id : ∀ ns : Nodes, ns.divert id = ns
  | .nil => rfl
  | .cons n ns => by simp [Nodes.divert, Node.divert_id, Nodes.divert_id ns]

/-- What is not used need not be available. -/
theorem wfNodes_mono (ns : Nodes) (A B : List Out) (hin : ∀ x ∈ ns.ins, x ∈ A → x ∈ B)
    (h : wfNodes A ns = true) : wfNodes B ns = true := by
  have := wfNodes_divert (τ := id) ns A B (fun x hx hA => hin x hx hA) (fun _ _ => rfl) h
  rwa [Nodes.divert_id] at this

theorem mem_mask_of_cover {P : Out → Prop} {x : Out} (hx : P x) : ∀ (os : List Out)
    (bs : List Bool), Cover P os bs → x ∈ os → x ∈ mask bs os
  | [], _, _, h => by simp at h
  | o :: os, [], hc, h => by
      exfalso
      rcases List.mem_cons.1 h with rfl | h
      · exact hc.1 hx
      · have := mem_mask_of_cover hx os [] hc.2 h
        simp [mask] at this
  | o :: os, true :: bs, hc, h => by
      rcases List.mem_cons.1 h with rfl | h
      · simp [mask]
      · simp [mask, mem_mask_of_cover hx os bs hc.2 h]
  | o :: os, false :: bs, hc, h => by
      rcases List.mem_cons.1 h with rfl | h
      · simpa using hc.1 hx
      · simp [mask, mem_mask_of_cover hx os bs hc.2 h]

/-! ## pruning -/

theorem prune_wf : ∀ (ns : Nodes) (A rs : List Out), wfNodes A ns = true →
    wfNodes A (prune ns rs) = true ∧ (ns.allPlain = true → (prune ns rs).allPlain = true) ∧
      ∀ r ∈ rs, r ∈ A ++ ns.outs → r ∈ A ++ (prune ns rs).outs
  | .nil, A, rs, h => by simp [prune, wfNodes, Nodes.allPlain]
  | .cons n ns, A, rs, h => by
      simp only [wfNodes, Bool.and_eq_true] at h
      obtain ⟨h1, h2, h3⟩ := prune_wf ns _ rs h.2
      simp only [prune]
      by_cases hu : n.outs.any (used (prune ns rs) rs) = true
      · rw [if_pos hu]
        refine ⟨by simp [wfNodes, h.1, h1], ?_, ?_⟩
        · cases n <;> simp_all [Nodes.allPlain]
        · intro r hr hm
          have := h3 r hr (by
            simp only [Nodes.outs, List.mem_append] at hm ⊢
            tauto)
          simp only [Nodes.outs, List.mem_append] at this ⊢
          tauto
      · rw [if_neg hu]
        have hno : ∀ x, used (prune ns rs) rs x = true → x ∉ n.outs := fun x hx hc =>
          hu (List.any_eq_true.2 ⟨x, hc, hx⟩)
        refine ⟨wfNodes_mono _ _ _ ?_ h1, ?_, ?_⟩
        · intro x hx hm
          have := hno x ((used_iff _ _ _).2 (.inl hx))
          simp only [List.mem_append] at hm
          tauto
        · cases n <;> simp_all [Nodes.allPlain]
        · intro r hr hm
          have hr' := hno r ((used_iff _ _ _).2 (.inr hr))
          have := h3 r hr (by
            simp only [Nodes.outs, List.mem_append] at hm ⊢
            tauto)
          simp only [Nodes.outs, List.mem_append] at this ⊢
          tauto

/-! ## the alive outputs of an alive node are kept -/

theorem alive_out_kept {S : Marks} {P : Out → Prop} {n : Node} {avail : List Out}
    (hwf : wfNode avail n = true) (hc : ∀ p ∈ defsNode n, Coh S P p) :
    ∀ o ∈ n.outs, P o → o ∈ (sweepNode S n).outs := by
  intro o ho hP
  cases n with
  | simple op ins outs => exact ho
  | lambda ins args params results out sub => exact ho
  | delta ins args result out sub => exact ho
  | gamma pred ins outs subs =>
    obtain ⟨deps, hd⟩ := outs_def hwf (by simp) o ho
    have hal : ∀ o ∈ outs, P o → S.alive o = true := fun o ho hP => by
      obtain ⟨deps, hd⟩ := outs_def hwf (by simp) o ho
      exact (S.alive_iff o).2 ((hc _ hd).1.1 hP)
    simp only [sweepNode, Node.outs]
    exact mem_mask_of_cover hP outs _ (cover_map outs hal) ho
  | theta ins outs args pred posts sub =>
    have hal : ∀ o ∈ outs, P o → S.alive o = true := fun o ho hP => by
      obtain ⟨deps, hd⟩ := outs_def hwf (by simp) o ho
      exact (S.alive_iff o).2 ((hc _ hd).1.1 hP)
    simp only [wfNode, Bool.and_eq_true, beq_iff_eq] at hwf
    simp only [sweepNode, Node.outs]
    refine mem_mask_of_cover hP outs _ (cover_of_getElem _ _ (by simp [hwf.1.1.1.2]) ?_) ho
    intro k hk hm hP'
    simp [List.getElem_zipWith, hal _ (List.getElem_mem hk) hP']
  | phi ins args recs results outs sub =>
    have hal : ∀ o ∈ outs, P o → S.alive o = true := fun o ho hP => by
      obtain ⟨deps, hd⟩ := outs_def hwf (by simp) o ho
      exact (S.alive_iff o).2 ((hc _ hd).1.1 hP)
    simp only [wfNode, Bool.and_eq_true, beq_iff_eq] at hwf
    simp only [sweepNode, Node.outs]
    refine mem_mask_of_cover hP outs _ (cover_of_getElem _ _ (by simp [hwf.1.1.1.2]) ?_) ho
    intro k hk hm hP'
    simp [List.getElem_zipWith, hal _ (List.getElem_mem hk) hP']

theorem theta_keep {S : Marks} {P : Out → Prop} {ins outs args posts : List Out} {pred : Out}
    {sub : Nodes} (hc : ∀ p ∈ defsNode (.theta ins outs args pred posts sub), Coh S P p)
    (h1 : ins.length = outs.length) (h2 : args.length = outs.length)
    (h3 : posts.length = outs.length) :
    Cover P args (List.zipWith (fun a o => S.alive a || S.alive o) args outs) ∧
    ∀ p ∈ posts.zip (List.zipWith (fun a o => S.alive a || S.alive o) args outs),
          p.2 = true → P p.1 := by
  have hco : ∀ k (hk : k < outs.length), Coh S P (outs[k], .other [pred, posts[k], ins[k]]) :=
    fun k hk => hc _ (by
      simp only [defsNode, List.mem_append, List.mem_map]
      refine .inl (.inl ⟨(outs[k], posts[k], ins[k]), ?_, rfl⟩)
      exact List.mem_iff_getElem.2 ⟨k, by simp; omega, by simp⟩)
  have hca : ∀ k (hk : k < outs.length), Coh S P (args[k], .other [outs[k], ins[k]]) :=
    fun k hk => hc _ (by
      simp only [defsNode, List.mem_append, List.mem_map]
      refine .inl (.inr ⟨(args[k], outs[k], ins[k]), ?_, rfl⟩)
      exact List.mem_iff_getElem.2 ⟨k, by simp; omega, by simp⟩)
  constructor
  · refine cover_of_getElem _ _ (by simp [h2]) ?_
    intro k hk hm hP
    simp only [List.getElem_zipWith, Bool.or_eq_true, Marks.alive_iff]
    exact .inl ((hca k (by omega)).1.1 hP)
  · intro p hp ht
    obtain ⟨k, hk, rfl⟩ := List.getElem_of_mem hp
    simp only [List.length_zip, List.length_zipWith] at hk
    simp only [List.getElem_zip, List.getElem_zipWith, Bool.or_eq_true, Marks.alive_iff] at ht ⊢
    refine (hco k (by omega)).2 ?_ _ (by simp)
    rcases ht with h | h
    · exact (hca k (by omega)).2 ((hca k (by omega)).1.2 h) _ (by simp)
    · exact (hco k (by omega)).1.2 h

mutual

theorem sweepNode_wf {S : Marks} {P : Out → Prop} : ∀ (n : Node) (avail : List Out),
    wfNode avail n = true → (namesNode n).Nodup → (∀ p ∈ defsNode n, Coh S P p) →
    S.aliveNode n = true → wfNode avail (sweepNode S n) = true
  | .simple op ins outs, avail, hwf, hn, hc, ha => by simpa [sweepNode] using hwf
  | .gamma pred ins outs subs, avail, hwf, hn, hc, ha => by
      simp only [wfNode, Bool.and_eq_true, subset_iff] at hwf
      simp only [namesNode] at hn
      have hcr : ∀ p ∈ defsRegions (pred :: ins) subs, Coh S P p :=
        fun p hp => hc p (by simp [defsNode, hp])
      have hlen := argMask_cover (S := S) (P := P) (ins.length + 1) outs.length subs (pred :: ins)
        (by simp) hwf.2 hcr
      have hcov := args_cover (S := S) (P := P) (pred :: ins) (by simp) subs hwf.2 hcr
      have hres := gamma_results hc
      simp only [sweepNode, wfNode, Bool.and_eq_true, subset_iff]
      refine ⟨?_, ?_⟩
      · intro x hx
        refine hwf.1 x ?_
        rcases List.mem_cons.1 hx with rfl | hx
        · simp
        · simp [mem_mask hx]
      · refine sweepRegions_wf (S := S) (P := P) subs ins outs (pred :: ins) _ _ hwf.2
          (List.nodup_append.1 hn).2.1 hcr ?_ hres
        refine AllRegions.mono ?_ subs hcov
        rintro a r ⟨h1, h2⟩
        refine cover_of_getElem _ _ (by simp [hlen, h1]) ?_
        intro k hk hm hP
        cases k with
        | zero => rfl
        | succ k =>
          simp only [List.getElem_cons_succ, List.getElem_tail]
          exact h2 (k + 1) hk (by omega) hP
  | .theta ins outs args pred posts sub, avail, hwf, hn, hc, ha => by
      simp only [wfNode, Bool.and_eq_true, beq_iff_eq, subset_iff] at hwf
      obtain ⟨⟨⟨⟨⟨h0, h1⟩, h2⟩, h3⟩, h4⟩, h5⟩ := hwf
      simp only [namesNode] at hn
      have hns := List.nodup_append.1 hn
      have hcs : ∀ p ∈ defsNodes sub, Coh S P p := fun p hp => hc p (by simp [defsNode, hp])
      obtain ⟨hcov, hpost⟩ := theta_keep hc h1 h2 h3
      obtain ⟨ih1, ih2⟩ := sweepNodes_wf (S := S) (P := P) sub args h4 hns.2.1
        (fun x hx hc' => hns.2.2 x (by simp [hx]) x hc' rfl) hcs
      obtain ⟨hu1, hu2⟩ := sweepNodes_uses (S := S) (P := P) sub args h4 hns.2.1 hcs
      have hPpred : P pred := by
        simp only [Marks.aliveNode, List.any_eq_true, Node.outs] at ha
        obtain ⟨o, ho, ha⟩ := ha
        obtain ⟨k, hk, rfl⟩ := List.getElem_of_mem ho
        have := hc (outs[k], .other [pred, posts[k], ins[k]]) (by
          simp only [defsNode, List.mem_append, List.mem_map]
          refine .inl (.inl ⟨(outs[k], posts[k], ins[k]), ?_, rfl⟩)
          exact List.mem_iff_getElem.2 ⟨k, by simp; omega, by simp⟩)
        exact this.2 (this.1.2 ((S.alive_iff _).1 ha)) _ (by simp)
      generalize hkd : List.zipWith (fun a o => S.alive a || S.alive o) args outs = keep at hcov hpost
      have hnarrow : ∀ r, P r → r ∈ args ++ sub.outs → (sweepNodes S sub).2 r ∈
          mask keep args ++ (sweepNodes S sub).1.outs := by
        intro r hr hm
        rcases List.mem_append.1 (ih2 r hr hm) with h | h
        · exact List.mem_append_left _ (mem_mask_of_cover (hu2 r hr) args keep hcov h)
        · exact List.mem_append_right _ h
      simp only [sweepNode, wfNode, hkd, Bool.and_eq_true, beq_iff_eq, subset_iff]
      refine ⟨⟨⟨⟨⟨fun x hx => h0 x (mem_mask hx), mask_length _ _ _ h1⟩, mask_length _ _ _ h2⟩, ?_⟩,
        ?_⟩, ?_⟩
      · rw [mask_map, mask_divertMasked _ _ _ (by omega), List.length_map]
        exact mask_length _ _ _ h3
      · refine wfNodes_mono _ args _ ?_ ih1
        intro x hx hA
        exact mem_mask_of_cover (hu1 x hx) args keep hcov hA
      · intro x hx
        rcases List.mem_cons.1 hx with rfl | hx
        · exact hnarrow pred hPpred (h5 pred (by simp))
        · rw [mask_map, mask_divertMasked _ _ _ (by omega)] at hx
          obtain ⟨r, hr, rfl⟩ := List.mem_map.1 hx
          exact hnarrow r (hpost _ (mem_mask_zip _ _ _ hr) rfl) (h5 r (by simp [mem_mask hr]))
  | .lambda ins args params results out sub, avail, hwf, hn, hc, ha => by
      simp only [wfNode, Bool.and_eq_true, beq_iff_eq, subset_iff] at hwf
      obtain ⟨⟨⟨h0, h1⟩, h2⟩, h5⟩ := hwf
      simp only [namesNode] at hn
      have hns := List.nodup_append.1 hn
      have hcs : ∀ p ∈ defsNodes sub, Coh S P p := fun p hp => hc p (by simp [defsNode, hp])
      obtain ⟨ih1, ih2⟩ := sweepNodes_wf (S := S) (P := P) sub (params ++ args) h2 hns.2.1
        (fun x hx hc' => hns.2.2 x (by simp only [List.mem_append] at hx ⊢; simp; tauto) x hc' rfl) hcs
      simp only [Marks.aliveNode, Node.outs, List.any_cons, List.any_nil, Bool.or_false,
        Marks.alive_iff] at ha
      have ho := hc (out, .other results) (by simp [defsNode])
      have hPr : ∀ r ∈ results, P r := fun r hr => ho.2 (ho.1.2 ha) r hr
      simp only [sweepNode, wfNode, Bool.and_eq_true, beq_iff_eq, subset_iff]
      have hk : ∀ x, used (sweepNodes S sub).1 (results.map (sweepNodes S sub).2) x = true →
          x ∈ params ++ args → x ∈ params ++ mask (args.map
            (used (sweepNodes S sub).1 (results.map (sweepNodes S sub).2))) args := by
        intro x hx hm
        rcases List.mem_append.1 hm with h | h
        · exact List.mem_append_left _ h
        · exact List.mem_append_right _ (mem_mask_of_cover (P := fun x => used (sweepNodes S sub).1
            (results.map (sweepNodes S sub).2) x = true) hx args _ (cover_map args fun _ _ h => h) h)
      refine ⟨⟨⟨fun x hx => h0 x (mem_mask hx), mask_length _ _ _ h1⟩, ?_⟩, ?_⟩
      · refine wfNodes_mono _ _ _ ?_ ih1
        intro x hx hA
        exact hk x ((used_iff _ _ _).2 (.inl hx)) hA
      · intro x hx
        have hu := (used_iff (sweepNodes S sub).1 _ x).2 (.inr hx)
        obtain ⟨r, hr, rfl⟩ := List.mem_map.1 hx
        rcases List.mem_append.1 (ih2 r (hPr r hr) (h5 r hr)) with h | h
        · exact List.mem_append_left _ (hk _ hu h)
        · exact List.mem_append_right _ h
  | .phi ins args recs results outs sub, avail, hwf, hn, hc, ha => by
      simp only [wfNode, Bool.and_eq_true, beq_iff_eq, subset_iff] at hwf
      obtain ⟨⟨⟨⟨⟨h0, h1⟩, h2⟩, h3⟩, h4⟩, h5⟩ := hwf
      simp only [namesNode] at hn
      have hns := List.nodup_append.1 hn
      have hcs : ∀ p ∈ defsNodes sub, Coh S P p := fun p hp => hc p (by simp [defsNode, hp])
      have hfa := fix_alive hc h2 h3
      generalize hkf : List.zipWith (fun o r => S.alive o || S.alive r) outs recs = keepFix at hfa
      have hkl : keepFix.length = outs.length := by rw [← hkf]; simp [h2]
      have hcovR : Cover P recs keepFix := by
        refine cover_of_getElem _ _ (by omega) ?_
        intro k hk hm hP
        obtain ⟨y, hy⟩ := zip_fst_mem (xs := recs) (ys := results) (by omega) recs[k] (by simp)
        have := hc (recs[k], .other [y]) (by
          simp only [defsNode, List.mem_append, List.mem_map]
          exact .inl (.inl (.inr ⟨_, hy, rfl⟩)))
        subst hkf
        simp only [List.getElem_zipWith, Bool.or_eq_true, Marks.alive_iff]
        exact .inr (this.1.1 hP)
      obtain ⟨ih1, ih2⟩ := sweepNodes_wf (S := S) (P := P) sub (recs ++ args) h4 hns.2.1
        (fun x hx hc' => hns.2.2 x (by simp only [List.mem_append] at hx ⊢; tauto) x hc' rfl) hcs
      obtain ⟨hu1, hu2⟩ := sweepNodes_uses (S := S) (P := P) sub (recs ++ args) h4 hns.2.1 hcs
      simp only [sweepNode, hkf, wfNode, Bool.and_eq_true, beq_iff_eq, subset_iff]
      have hk : ∀ x, P x → used (sweepNodes S sub).1
          ((divertMasked keepFix results recs).map (sweepNodes S sub).2) x = true →
          x ∈ recs ++ args → x ∈ mask keepFix recs ++ mask (args.map (used (sweepNodes S sub).1
            ((divertMasked keepFix results recs).map (sweepNodes S sub).2))) args := by
        intro x hP hx hm
        rcases List.mem_append.1 hm with h | h
        · exact List.mem_append_left _ (mem_mask_of_cover hP recs keepFix hcovR h)
        · exact List.mem_append_right _ (mem_mask_of_cover (P := fun x => used (sweepNodes S sub).1
            ((divertMasked keepFix results recs).map (sweepNodes S sub).2) x = true) hx args _
            (cover_map args fun _ _ h => h) h)
      refine ⟨⟨⟨⟨⟨fun x hx => h0 x (mem_mask hx), mask_length _ _ _ h1⟩, mask_length _ _ _ h2⟩, ?_⟩,
        ?_⟩, ?_⟩
      · rw [mask_map, mask_divertMasked _ _ _ (by omega), List.length_map]
        exact mask_length _ _ _ h3
      · refine wfNodes_mono _ _ _ ?_ ih1
        intro x hx hA
        exact hk x (hu1 x hx) ((used_iff _ _ _).2 (.inl hx)) hA
      · intro x hx
        have hx' := mem_mask hx
        have hu := (used_iff (sweepNodes S sub).1 _ x).2 (.inr hx')
        rw [mask_map, mask_divertMasked _ _ _ (by omega)] at hx
        obtain ⟨r, hr, rfl⟩ := List.mem_map.1 hx
        have hPr := hfa _ (mem_mask_zip _ _ _ hr) rfl
        rcases List.mem_append.1 (ih2 r hPr (h5 r (mem_mask hr))) with h | h
        · exact List.mem_append_left _ (hk _ (hu2 r hPr) hu h)
        · exact List.mem_append_right _ h
  | .delta ins args result out sub, avail, hwf, hn, hc, ha => by
      simp only [wfNode, Bool.and_eq_true, beq_iff_eq, subset_iff] at hwf
      obtain ⟨⟨⟨⟨h0, h1⟩, h2⟩, h5⟩, h6⟩ := hwf
      obtain ⟨p1, p2, p3⟩ := prune_wf sub args [result] h2
      have hk : ∀ x, used (prune sub [result]) [result] x = true → x ∈ args →
          x ∈ mask (args.map (used (prune sub [result]) [result])) args := fun x hx hm =>
        mem_mask_of_cover (P := fun x => used (prune sub [result]) [result] x = true) hx args _
          (cover_map args fun _ _ h => h) hm
      simp only [sweepNode, wfNode, Bool.and_eq_true, beq_iff_eq, subset_iff]
      refine ⟨⟨⟨⟨fun x hx => h0 x (mem_mask hx), mask_length _ _ _ h1⟩, ?_⟩, ?_⟩, p2 h6⟩
      · refine wfNodes_mono _ _ _ ?_ p1
        intro x hx hA
        exact hk x ((used_iff _ _ _).2 (.inl hx)) hA
      · intro x hx
        rcases List.mem_append.1 (p3 x hx (h5 x hx)) with h | h
        · exact List.mem_append_left _ (hk x ((used_iff _ _ _).2 (.inr hx)) h)
        · exact List.mem_append_right _ h

theorem sweepNodes_wf {S : Marks} {P : Out → Prop} : ∀ (ns : Nodes) (avail : List Out),
    wfNodes avail ns = true → (namesNodes ns).Nodup → (∀ x ∈ avail, x ∉ namesNodes ns) →
    (∀ p ∈ defsNodes ns, Coh S P p) →
    wfNodes avail (sweepNodes S ns).1 = true ∧
      ∀ r, P r → r ∈ avail ++ ns.outs → (sweepNodes S ns).2 r ∈ avail ++ (sweepNodes S ns).1.outs
  | .nil, avail, hwf, hn, hd, hc => by simp [sweepNodes, wfNodes, Nodes.outs]
  | .cons n ns, avail, hwf, hn, hd, hc => by
      simp only [wfNodes, Bool.and_eq_true] at hwf
      simp only [namesNodes] at hn hd
      have hn' := List.nodup_append.1 hn
      have hcn : ∀ p ∈ defsNode n, Coh S P p := fun p hp => hc p (by simp [defsNodes, hp])
      have hcs : ∀ p ∈ defsNodes ns, Coh S P p := fun p hp => hc p (by simp [defsNodes, hp])
      have hd' : ∀ x ∈ n.outs ++ avail, x ∉ namesNodes ns := by
        intro x hx hc'
        rcases List.mem_append.1 hx with h | h
        · exact hn'.2.2 x (outs_subset_names n x h) x hc' rfl
        · exact hd x h (by simp [hc'])
      obtain ⟨ih1, ih2⟩ := sweepNodes_wf (S := S) (P := P) ns _ hwf.2 hn'.2.1 hd' hcs
      obtain ⟨hu1, hu2⟩ := sweepNodes_uses (S := S) (P := P) ns _ hwf.2 hn'.2.1 hcs
      have hre : ∀ r, r ∈ avail ++ (Nodes.cons n ns).outs → r ∈ (n.outs ++ avail) ++ ns.outs := by
        intro r hr
        simp only [Nodes.outs, List.mem_append] at hr ⊢
        tauto
      simp only [sweepNodes]
      by_cases ha : S.aliveNode n = true
      · rw [if_pos ha]
        refine ⟨?_, ?_⟩
        · simp only [wfNodes, Bool.and_eq_true]
          refine ⟨sweepNode_wf n avail hwf.1 hn'.1 hcn ha, wfNodes_mono _ _ _ ?_ ih1⟩
          intro x hx hA
          rcases List.mem_append.1 hA with h | h
          · exact List.mem_append_left _ (alive_out_kept hwf.1 hcn x h (hu1 x hx))
          · exact List.mem_append_right _ h
        · intro r hP hr
          have := ih2 r hP (hre r hr)
          simp only [Nodes.outs, List.mem_append] at this ⊢
          rcases this with (h | h) | h
          · exact .inr (.inl (alive_out_kept hwf.1 hcn _ h (hu2 r hP)))
          · exact .inl h
          · exact .inr (.inr h)
      · rw [if_neg ha]
        simp only [Bool.not_eq_true] at ha
        by_cases hl : isLoadNode n = true
        · cases n with
          | simple op ins outs =>
            simp only [isLoadNode, decide_eq_true_eq] at hl
            obtain ⟨i, is, o, os, rfl, rfl, hlen, hav⟩ := load_shape hl hwf.1
            obtain ⟨hPo, hst⟩ := dead_load hl hcn ha
            have hin : ∀ x, x ∈ o :: os → x ∉ (sweepNodes S ns).1.outs := fun x hx hc' =>
              hd' x (by simp only [Node.outs, List.mem_append]; exact .inl hx)
                (Nodes_outs_subset_names ns x (sweepNodes_outs S ns x hc'))
            have hτ : ∀ x, P x → x ∈ (o :: os) ++ avail →
                loadDivert (i :: is) (o :: os) x ∈ avail := by
              intro x hP hx
              rcases loadDivert_cases i is o os x with ⟨h, hno⟩ | ⟨j, hj, h⟩
              · rw [h]
                rcases List.mem_append.1 hx with hx | hx
                · rcases List.mem_cons.1 hx with rfl | hx
                  · exact absurd hP hPo
                  · obtain ⟨y, hy⟩ := zip_fst_mem (ys := is) (by omega) x hx
                    exfalso
                    have : x ∈ (os.zip is).map (·.1) :=
                      List.mem_map_of_mem (f := Prod.fst) hy
                    obtain ⟨d, hd⟩ : ∃ d, (os.zip is).lookup x = some d := by
                      clear hno
                      generalize os.zip is = l at this
                      induction l with
                      | nil => simp at this
                      | cons q l ih =>
                        obtain ⟨c, e⟩ := q
                        rw [List.lookup_cons]
                        by_cases hcx : (x == c) = true
                        · simp [hcx]
                        · simp only [Bool.not_eq_true] at hcx
                          rw [hcx]
                          have hne : x ≠ c := by simpa using hcx
                          simp only [List.map_cons, List.mem_cons] at this
                          exact ih (this.resolve_left hne)
                    rw [hd] at hno
                    simp at hno
                · exact hx
              · rw [h]
                exact hav j (by simp [(List.of_mem_zip hj).2])
            simp only [removeNode, hl, if_true]
            refine ⟨wfNodes_divert _ _ _ (fun x hx hA => hτ x (hu1 x hx) hA) ?_ ih1, ?_⟩
            · intro x hx
              rcases loadDivert_cases i is o os x with ⟨h, _⟩ | ⟨j, hj, _⟩
              · exact h
              · exact absurd hx (hin x (by simp [(List.of_mem_zip hj).1]))
            · intro r hP hr
              rw [Nodes.divert_outs]
              rcases List.mem_append.1 (ih2 r hP (hre r hr)) with h | h
              · exact List.mem_append_left _ (hτ _ (hu2 r hP) h)
              · rcases loadDivert_cases i is o os ((sweepNodes S ns).2 r) with ⟨h', _⟩ | ⟨j, hj, _⟩
                · rw [h']
                  exact List.mem_append_right _ h
                · exact absurd h (hin _ (by simp [(List.of_mem_zip hj).1]))
          | _ => simp [isLoadNode] at hl
        · simp only [Bool.not_eq_true] at hl
          have hdo := dead_outs hwf.1 hcn hl ha
          rw [removeNode_other n hl]
          refine ⟨wfNodes_mono _ _ _ ?_ ih1, ?_⟩
          · intro x hx hA
            rcases List.mem_append.1 hA with h | h
            · exact absurd (hu1 x hx) (hdo x h)
            · exact h
          · intro r hP hr
            have := ih2 r hP (hre r hr)
            simp only [List.mem_append] at this ⊢
            rcases this with (h | h) | h
            · exact absurd (hu2 r hP) (hdo _ h)
            · exact .inl h
            · exact .inr h

theorem sweepRegions_wf {S : Marks} {P : Out → Prop} : ∀ (subs : Regions) (ins outs : List Out)
    (ins' : List Out) (keepOut keepIn : List Bool),
    wfRegions (ins.length + 1) outs.length subs = true →
    (namesRegions subs).Nodup → (∀ p ∈ defsRegions ins' subs, Coh S P p) →
    AllRegions (fun args _ => Cover P args (true :: keepIn)) subs →
    AllRegions (fun _ results => ∀ p ∈ results.zip keepOut, p.2 = true → P p.1) subs →
    wfRegions ((mask keepIn ins).length + 1) (mask keepOut outs).length
      (maskArgs (true :: keepIn) (sweepRegions S keepOut subs)) = true
  | .nil, ins, outs, ins', keepOut, keepIn, hwf, hn, hc, ha, hr => by
      simp [sweepRegions, maskArgs, wfRegions]
  | .cons args results sub rest, ins, outs, ins', keepOut, keepIn, hwf, hn, hc, ha, hr => by
      simp only [wfRegions, Bool.and_eq_true, beq_iff_eq, subset_iff] at hwf
      obtain ⟨⟨⟨⟨h1, h2⟩, h3⟩, h4⟩, h5⟩ := hwf
      simp only [namesRegions] at hn
      have hn1 := List.nodup_append.1 (List.nodup_append.1 hn).1
      have hcs : ∀ p ∈ defsNodes sub, Coh S P p := fun p hp => hc p (by simp [defsRegions, hp])
      obtain ⟨ih1, ih2⟩ := sweepNodes_wf (S := S) (P := P) sub args h3 hn1.2.1
        (fun x hx hc' => hn1.2.2 x hx x hc' rfl) hcs
      obtain ⟨hu1, hu2⟩ := sweepNodes_uses (S := S) (P := P) sub args h3 hn1.2.1 hcs
      simp only [sweepRegions, maskArgs, wfRegions, Bool.and_eq_true, beq_iff_eq, subset_iff]
      refine ⟨⟨⟨⟨?_, ?_⟩, ?_⟩, ?_⟩, ?_⟩
      · cases args with
        | nil => simp at h1
        | cons a as =>
          simp only [mask, List.length_cons]
          rw [mask_length keepIn as ins (by simpa using h1)]
      · rw [List.length_map]
        exact mask_length _ _ _ h2
      · refine wfNodes_mono _ _ _ ?_ ih1
        intro x hx hA
        exact mem_mask_of_cover (hu1 x hx) args _ ha.1 hA
      · intro x hx
        obtain ⟨r, hr', rfl⟩ := List.mem_map.1 hx
        have hP := hr.1 _ (mem_mask_zip _ _ _ hr') rfl
        rcases List.mem_append.1 (ih2 r hP (h4 r (mem_mask hr'))) with h | h
        · exact List.mem_append_left _ (mem_mask_of_cover (hu2 r hP) args _ ha.1 h)
        · exact List.mem_append_right _ h
      · exact sweepRegions_wf rest ins outs ins' keepOut keepIn h5 (List.nodup_append.1 hn).2.1
          (fun p hp => hc p (by simp [defsRegions, hp])) ha.2 hr.2

end

/-! ## names only disappear -/

theorem Node.divert_names (τ : Out → Out) (n : Node) : namesNode (n.divert τ) = namesNode n := by
  cases n <;> simp [Node.divert, namesNode]

theorem Nodes.divert_names (τ : Out → Out) : ∀ ns : Nodes, namesNodes (ns.divert τ) = namesNodes ns
  | .nil => rfl
  | .cons n ns => by
      simp [Nodes.divert, namesNodes, Node.divert_names, Nodes.divert_names τ ns]

theorem prune_names (rs : List Out) : ∀ ns : Nodes,
    (namesNodes (prune ns rs)).Sublist (namesNodes ns)
  | .nil => by simp [prune]
  | .cons n ns => by
      have ih := prune_names rs ns
      simp only [prune]
      split
      · simp only [namesNodes]
        exact List.Sublist.append (List.Sublist.refl _) ih
      · simp only [namesNodes]
        exact ih.trans (List.sublist_append_right _ _)

theorem maskArgs_names (bs : List Bool) : ∀ rs : Regions,
    (namesRegions (maskArgs bs rs)).Sublist (namesRegions rs)
  | .nil => by simp [maskArgs]
  | .cons args results sub rest => by
      simp only [maskArgs, namesRegions]
      exact ((mask_sublist bs args).append (List.Sublist.refl _)).append (maskArgs_names bs rest)

mutual

theorem sweepNode_names (S : Marks) : ∀ n : Node,
    (namesNode (sweepNode S n)).Sublist (namesNode n)
  | .simple op ins outs => by simp [sweepNode]
  | .gamma pred ins outs subs => by
      simp only [sweepNode, namesNode]
      exact (mask_sublist _ _).append ((maskArgs_names _ _).trans (sweepRegions_names S _ subs))
  | .theta ins outs args pred posts sub => by
      simp only [sweepNode, namesNode]
      exact ((mask_sublist _ _).append (mask_sublist _ _)).append (sweepNodes_names S sub)
  | .lambda ins args params results out sub => by
      simp only [sweepNode, namesNode]
      exact ((List.Sublist.refl _).append (mask_sublist _ _)).append (sweepNodes_names S sub)
  | .phi ins args recs results outs sub => by
      simp only [sweepNode, namesNode]
      exact (((mask_sublist _ _).append (mask_sublist _ _)).append (mask_sublist _ _)).append
        (sweepNodes_names S sub)
  | .delta ins args result out sub => by
      simp only [sweepNode, namesNode]
      exact ((mask_sublist _ _).cons_cons _).append (prune_names _ sub)

theorem sweepNodes_names (S : Marks) : ∀ ns : Nodes,
    (namesNodes (sweepNodes S ns).1).Sublist (namesNodes ns)
  | .nil => by simp [sweepNodes]
  | .cons n ns => by
      have ih := sweepNodes_names S ns
      simp only [sweepNodes]
      split
      · simp only [namesNodes]
        exact (sweepNode_names S n).append ih
      · have : (namesNodes (removeNode n (sweepNodes S ns)).1) = namesNodes (sweepNodes S ns).1 := by
          cases n with
          | simple op ins outs =>
            simp only [removeNode]
            split
            · exact Nodes.divert_names _ _
            · rfl
          | _ => rfl
        rw [this]
        simp only [namesNodes]
        exact ih.trans (List.sublist_append_right _ _)

theorem sweepRegions_names (S : Marks) (ko : List Bool) : ∀ rs : Regions,
    (namesRegions (sweepRegions S ko rs)).Sublist (namesRegions rs)
  | .nil => by simp [sweepRegions]
  | .cons args results sub rest => by
      simp only [sweepRegions, namesRegions]
      exact ((List.Sublist.refl _).append (sweepNodes_names S sub)).append
        (sweepRegions_names S ko rest)

end

end Jlm.Opt.Dne
