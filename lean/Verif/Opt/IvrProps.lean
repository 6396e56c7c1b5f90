import Verif.Opt.IvrCorr
import Verif.Opt.DneEval

/-!
# C29: invariant value redirection

`C29_ivr_refines` and `C29_ivr_wf` are about the whole pass, `C29_gamma_origin` and
`C29_theta_origin` about a single gamma exit variable or theta loop variable.
-/

set_option linter.unusedSimpArgs false
set_option linter.unusedVariables false

namespace Jlm.Opt

variable {V : Type}

namespace Ivr

open Dne (wfNodes_divert prune_names prune_wf)

/-- A well-formed region with arguments `A`, nodes `ns` and results `rs`. -/
structure RegionOk (A : List Out) (ns : Nodes) (rs : List Out) : Prop where
  wf : wfNodes A ns = true
  nodup : (namesNodes ns).Nodup
  disj : ∀ x ∈ A, x ∉ namesNodes ns
  res : ∀ r ∈ rs, r ∈ A ++ ns.outs

/-- The hypotheses under which the pass is right. -/
def Good (sem : Sem V) (cfg : Config) : Prop :=
  sem.Mono ∧ sem.Control ∧ (cfg.thetaGamma = true → cfg.strict = true)

/-- Refinement of a region by another one with the same number of results, under these
hypotheses. -/
def GSubLe (sem : Sem V) (cfg : Config) (ns : Nodes) (rs : List Out) (ns' : Nodes) (rs' : List Out) :
    Prop :=
  rs.length = rs'.length ∧ (Good sem cfg → SubLe sem ns rs ns' rs')

theorem GSubLe.refl (sem : Sem V) (cfg : Config) (ns : Nodes) (rs : List Out) :
    GSubLe sem cfg ns rs ns rs := ⟨rfl, fun h => SubLe.refl h.1 _ _⟩

theorem GSubLe.trans {sem : Sem V} {cfg : Config} {n1 n2 n3 : Nodes} {r1 r2 r3 : List Out}
    (h1 : GSubLe sem cfg n1 r1 n2 r2) (h2 : GSubLe sem cfg n2 r2 n3 r3) :
    GSubLe sem cfg n1 r1 n3 r3 := ⟨h1.1.trans h2.1, fun h => (h1.2 h).trans (h2.2 h)⟩

theorem tau_cases (rs : List (Out × Out)) (x : Out) : tau rs x = x ∨ (x, tau rs x) ∈ rs := by
  simp only [tau]
  cases h : rs.lookup x with
  | none => exact .inl rfl
  | some y => exact .inr (Dne.lookup_mem h)

theorem redirectAt_sound (sem : Sem V) (cfg : Config) : ∀ (i : Nat) (ns : Nodes) (A rs : List Out),
    RegionOk A ns rs →
    RegionOk A (redirectAt cfg i (ns, rs)).1 (redirectAt cfg i (ns, rs)).2 ∧
      namesNodes (redirectAt cfg i (ns, rs)).1 = namesNodes ns ∧
      (redirectAt cfg i (ns, rs)).1.outs = ns.outs ∧
      GSubLe sem cfg ns rs (redirectAt cfg i (ns, rs)).1 (redirectAt cfg i (ns, rs)).2
  | i, .nil, A, rs, h => by
      have : redirectAt cfg i (.nil, rs) = (.nil, rs) := by cases i <;> simp [redirectAt]
      rw [this]
      exact ⟨h, rfl, rfl, GSubLe.refl sem cfg _ _⟩
  | 0, .cons n ns, A, rs, h => by
      simp only [redirectAt]
      have hwf := h.wf
      have hnd := h.nodup
      have hdj := h.disj
      simp only [wfNodes, Bool.and_eq_true] at hwf
      simp only [namesNodes] at hnd hdj
      have hn' := List.nodup_append.1 hnd
      let alive := Dne.used ns rs
      obtain ⟨fi, fo, fn⟩ := correlate_frame (cfg := cfg) (alive := alive) n
      let n' := correlate cfg alive n
      have hwf' : wfNode A n' = true := correlate_wf hwf.1 hn'.1
      have hnn : (namesNode n').Nodup := by rw [fn]; exact hn'.1
      let τ := tau (redirects cfg alive n')
      have hτ : ∀ x, τ x = x ∨ (x ∈ n.outs ∧ τ x ∈ n.ins ∧ ∀ e : Env V, (∀ i, LeW (e i) (e i)) →
          LeW ((nodeVals sem n' e).getD (n.outs.idxOf x) none) (e (τ x))) := by
        intro x
        rcases tau_cases (redirects cfg alive n') x with h | h
        · exact .inl h
        · obtain ⟨h1, h2, h3⟩ := redirects_sound (sem := sem) hwf' hnn h
          rw [fo] at h1 h3
          rw [fi] at h2
          exact .inr ⟨h1, h2, h3⟩
      have hA : ∀ x ∈ n.ins, x ∈ A := fun x hx => wfNode_ins hwf.1 x hx
      have hAn : ∀ x ∈ A, x ∉ n.outs ∧ x ∉ ns.outs := fun x hx => by
        have := hdj x hx
        simp only [List.mem_append, not_or] at this
        exact ⟨fun hc => this.1 (Dne.outs_subset_names n x hc),
          fun hc => this.2 (Dne.Nodes_outs_subset_names ns x hc)⟩
      have hno : ∀ x ∈ n.outs, x ∉ ns.outs := fun x hx hx' =>
        hn'.2.2 x (Dne.outs_subset_names n x hx) x (Dne.Nodes_outs_subset_names ns x hx') rfl
      have hfix : ∀ o ∈ ns.outs, τ o = o := fun o ho => by
        rcases hτ o with h | h
        · exact h
        · exact absurd ho (hno o h.1)
      have hnames : namesNodes (.cons n' (ns.divert τ)) = namesNodes (.cons n ns) := by
        simp only [namesNodes, Dne.Nodes.divert_names, n', fn]
      have houts : (Nodes.cons n' (ns.divert τ)).outs = (Nodes.cons n ns).outs := by
        simp only [Nodes.outs, Nodes.divert_outs, n', fo]
      refine ⟨⟨?_, ?_, ?_, ?_⟩, hnames, houts, by simp, fun hG => ⟨by simp, ?_⟩⟩
      · show (wfNode A n' && wfNodes (n'.outs ++ A) (ns.divert τ)) = true
        rw [Bool.and_eq_true]
        refine ⟨hwf', wfNodes_divert ns _ _ (fun x hx hxA => ?_) hfix hwf.2⟩
        rw [show n'.outs = n.outs from fo]
        rcases hτ x with h | h
        · rw [h]; exact hxA
        · exact List.mem_append_right _ (hA _ h.2.1)
      · exact hnames ▸ h.nodup
      · intro x hx
        exact hnames ▸ h.disj x hx
      · intro r hr
        obtain ⟨x, hx, rfl⟩ := List.mem_map.1 hr
        have hxr := h.res x hx
        rw [show (Nodes.cons n' (ns.divert τ)).outs = (Nodes.cons n ns).outs from houts]
        change τ x ∈ _
        rcases hτ x with h | h
        · rw [h]; exact hxr
        · exact List.mem_append_left _ (hA _ h.2.1)
      · intro e e' he
        rw [List.map_map]
        have hcorr := correlate_sound hG.1 hG.2.1 hG.2.2 (alive := alive) hwf.1 hn'.1 e e' (fun i _ => he i)
        have hidx : ∀ x ∈ n.outs, n.outs[n.outs.idxOf x]? = some x := fun x hx => by
          rw [List.getElem?_eq_some_iff]
          exact ⟨List.idxOf_lt_length_iff.2 hx, List.getElem_idxOf _⟩
        have hval : ∀ x, alive x = true → LeW (upd e n.outs (nodeVals sem n e) x)
            (upd e' n'.outs (nodeVals sem n' e') (τ x)) := by
          intro x hx
          rw [show n'.outs = n.outs from fo]
          by_cases hxn : x ∈ n.outs
          · have h1 := hcorr _ x (hidx x hxn) hx
            rw [upd_getD _ _ _ hxn]
            rcases hτ x with h | h
            · rw [h, upd_getD _ _ _ hxn]
              exact h1
            · rw [upd_notin _ _ _ _ (hAn _ (hA _ h.2.1)).1]
              exact h1.trans (h.2.2 e' fun i => (he i).right)
          · rcases hτ x with h | h
            · rw [h, upd_notin _ _ _ _ hxn, upd_notin _ _ _ _ hxn]
              exact he x
            · exact absurd h.1 hxn
        refine LeLW.map (e := evalNodes sem (.cons n ns) e)
          (e' := evalNodes sem (.cons n' (ns.divert τ)) e' ∘ τ) rs fun x hx => ?_
        simp only [evalNodes, Function.comp]
        refine evalNodes_divert_le hG.1 τ (fun y => alive y = true) ns _ _
          (fun i hi => (Dne.used_iff ns rs i).2 (.inl hi)) hfix (fun y _ hy => ?_) hval x
          ((Dne.used_iff ns rs x).2 (.inr hx))
        rcases hτ y with h | h
        · rw [h]; exact hy
        · exact (hAn _ (hA _ h.2.1)).2
  | i + 1, .cons n ns, A, rs, h => by
      simp only [redirectAt]
      have hwf := h.wf
      have hnd := h.nodup
      have hdj := h.disj
      simp only [wfNodes, Bool.and_eq_true] at hwf
      simp only [namesNodes] at hnd hdj
      have hn' := List.nodup_append.1 hnd
      have hok : RegionOk (n.outs ++ A) ns rs := by
        refine ⟨hwf.2, hn'.2.1, fun x hx => ?_, fun r hr => ?_⟩
        · rcases List.mem_append.1 hx with hx | hx
          · exact fun hc => hn'.2.2 x (Dne.outs_subset_names n x hx) x hc rfl
          · have := hdj x hx
            simp only [List.mem_append, not_or] at this
            exact this.2
        · have := h.res r hr
          simp only [Nodes.outs, List.mem_append] at this ⊢
          tauto
      obtain ⟨h1, h2, h3, h4⟩ := redirectAt_sound sem cfg i ns (n.outs ++ A) rs hok
      refine ⟨⟨?_, ?_, ?_, ?_⟩, ?_, ?_, h4.1, fun hG => ⟨h4.1, fun e e' he => ?_⟩⟩
      · simp only [wfNodes, Bool.and_eq_true]
        exact ⟨hwf.1, h1.wf⟩
      · simp only [namesNodes, h2]; exact hnd
      · simp only [namesNodes, h2]; exact hdj
      · intro r hr
        have := h1.res r hr
        simp only [Nodes.outs, List.mem_append] at this ⊢
        tauto
      · simp only [namesNodes, h2]
      · simp only [Nodes.outs, h3]
      · have hee := evalNodes_le_cons (Q := fun _ => True) (nodeVals_mono hG.1 n) rfl (fun _ _ => trivial)
          (fun x _ => he x)
        exact (h4.2 hG).2 _ _ fun x => hee x trivial

theorem fold_sound (sem : Sem V) (cfg : Config) {A : List Out} : ∀ (is : List Nat) (ns : Nodes)
    (rs : List Out), RegionOk A ns rs →
    RegionOk A (is.foldl (fun s i => redirectAt cfg i s) (ns, rs)).1
      (is.foldl (fun s i => redirectAt cfg i s) (ns, rs)).2 ∧
    namesNodes (is.foldl (fun s i => redirectAt cfg i s) (ns, rs)).1 = namesNodes ns ∧
    GSubLe sem cfg ns rs (is.foldl (fun s i => redirectAt cfg i s) (ns, rs)).1
      (is.foldl (fun s i => redirectAt cfg i s) (ns, rs)).2
  | [], ns, rs, h => ⟨h, rfl, GSubLe.refl sem cfg _ _⟩
  | i :: is, ns, rs, h => by
      obtain ⟨h1, h2, _, h3⟩ := redirectAt_sound sem cfg i ns A rs h
      obtain ⟨h4, h5, h6⟩ := fold_sound sem cfg is _ _ h1
      simp only [List.foldl_cons]
      exact ⟨h4, h5.trans h2, h3.trans h6⟩

/-- A region after the pass. -/
theorem redirectNodesOf_sound (sem : Sem V) (cfg : Config) {A : List Out} {ns : Nodes} {rs : List Out}
    (h : RegionOk A ns rs) :
    RegionOk A (redirectNodesOf cfg ns rs).1 (redirectNodesOf cfg ns rs).2 ∧
      (namesNodes (redirectNodesOf cfg ns rs).1).Sublist (namesNodes ns) ∧
      GSubLe sem cfg ns rs (redirectNodesOf cfg ns rs).1 (redirectNodesOf cfg ns rs).2 := by
  obtain ⟨h1, h2, h3⟩ := fold_sound sem cfg (cfg.order ns) ns rs h
  simp only [redirectNodesOf]
  generalize (cfg.order ns).foldl (fun s i => redirectAt cfg i s) (ns, rs) = s at *
  have hsub := prune_names s.2 s.1
  obtain ⟨p1, _, p3⟩ := prune_wf s.1 A s.2 h1.wf
  refine ⟨⟨p1, hsub.nodup h1.nodup, fun x hx hc => h1.disj x hx (hsub.subset hc),
    fun r hr => p3 r hr (h1.res r hr)⟩, h2 ▸ hsub, h3.trans ?_⟩
  exact ⟨rfl, fun hG => subLe_agree hG.1 fun e r hr => Dne.prune_eval sem s.1 s.2 e e (fun _ _ => rfl) r hr⟩

mutual

theorem subsNode_sound (sem : Sem V) (cfg : Config) : ∀ (n : Node) (A : List Out),
    wfNode A n = true → (namesNode n).Nodup →
    wfNode A (subsNode cfg n) = true ∧ (subsNode cfg n).ins = n.ins ∧ (subsNode cfg n).outs = n.outs ∧
      (namesNode (subsNode cfg n)).Sublist (namesNode n) ∧ (Good sem cfg → NodeLe sem n (subsNode cfg n))
  | .simple op ins outs, A, hwf, hn => by
      simp only [subsNode]
      exact ⟨hwf, trivial, trivial, List.Sublist.refl _, fun hG => nodeVals_mono hG.1 _⟩
  | .lambda ins args params results out sub, A, hwf, hn => by
      simp only [subsNode]
      exact ⟨hwf, trivial, trivial, List.Sublist.refl _, fun hG => nodeVals_mono hG.1 _⟩
  | .phi ins args recs results outs sub, A, hwf, hn => by
      simp only [subsNode]
      exact ⟨hwf, trivial, trivial, List.Sublist.refl _, fun hG => nodeVals_mono hG.1 _⟩
  | .delta ins args result out sub, A, hwf, hn => by
      simp only [subsNode]
      exact ⟨hwf, trivial, trivial, List.Sublist.refl _, fun hG => nodeVals_mono hG.1 _⟩
  | .gamma pred ins outs subs, A, hwf, hn => by
      simp only [subsNode]
      simp only [wfNode, Bool.and_eq_true] at hwf ⊢
      simp only [namesNode] at hn ⊢
      have hn1 := List.nodup_append.1 hn
      obtain ⟨h1, h2, h3⟩ := subsRegions_sound sem cfg subs _ _ hwf.2 hn1.2.1
      refine ⟨⟨hwf.1, h1⟩, ?_, ?_, (List.Sublist.refl _).append h2,
        fun hG => gamma_le (h3 hG) (regionVals_mono hG.1 _)⟩ <;> rfl
  | .theta ins outs args pred posts sub, A, hwf, hn => by
      simp only [wfNode, Bool.and_eq_true, beq_iff_eq, Dne.subset_iff] at hwf
      obtain ⟨⟨⟨⟨⟨w1, w2⟩, w3⟩, w4⟩, w5⟩, w6⟩ := hwf
      simp only [namesNode] at hn
      have hn1 := List.nodup_append.1 hn
      have hok : RegionOk args sub (pred :: posts) :=
        ⟨w5, hn1.2.1, fun x hx hx' => hn1.2.2 x (by simp [hx]) x hx' rfl, w6⟩
      obtain ⟨h1, h2, h3, h4⟩ := subsNodes_sound sem cfg sub args (pred :: posts) hok
      obtain ⟨h5, h6, h7⟩ := redirectNodesOf_sound sem cfg h1
      have hle := h4.trans h7
      simp only [subsNode]
      generalize redirectNodesOf cfg (subsNodes cfg sub) (pred :: posts) = s at *
      obtain ⟨ns', rs'⟩ := s
      cases rs' with
      | nil => simp at hle; exact absurd hle.1 (by simp)
      | cons pred' posts' =>
        simp only [List.headD_cons, List.tail_cons] at *
        have hl : posts'.length = posts.length := by simpa using hle.1.symm
        refine ⟨?_, rfl, rfl, ?_, fun hG => theta_le (hle.2 hG) (SubLe.refl hG.1 _ _)⟩
        · simp only [wfNode, Bool.and_eq_true, beq_iff_eq, Dne.subset_iff]
          exact ⟨⟨⟨⟨⟨w1, w2⟩, w3⟩, hl.trans w4⟩, h5.wf⟩, h5.res⟩
        · simp only [namesNode]
          exact (List.Sublist.refl _).append (h6.trans h2)

theorem subsNodes_sound (sem : Sem V) (cfg : Config) : ∀ (ns : Nodes) (A rs : List Out),
    RegionOk A ns rs → RegionOk A (subsNodes cfg ns) rs ∧
      (namesNodes (subsNodes cfg ns)).Sublist (namesNodes ns) ∧
      (subsNodes cfg ns).outs = ns.outs ∧ GSubLe sem cfg ns rs (subsNodes cfg ns) rs
  | .nil, A, rs, h => by
      simp only [subsNodes]
      exact ⟨h, List.Sublist.refl _, trivial, GSubLe.refl sem cfg _ _⟩
  | .cons n ns, A, rs, h => by
      have hwf := h.wf
      have hnd := h.nodup
      have hdj := h.disj
      simp only [wfNodes, Bool.and_eq_true] at hwf
      simp only [namesNodes] at hnd hdj
      have hn' := List.nodup_append.1 hnd
      have hok : RegionOk (n.outs ++ A) ns rs := by
        refine ⟨hwf.2, hn'.2.1, fun x hx => ?_, fun r hr => ?_⟩
        · rcases List.mem_append.1 hx with hx | hx
          · exact fun hc => hn'.2.2 x (Dne.outs_subset_names n x hx) x hc rfl
          · have := hdj x hx
            simp only [List.mem_append, not_or] at this
            exact this.2
        · have := h.res r hr
          simp only [Nodes.outs, List.mem_append] at this ⊢
          tauto
      obtain ⟨a1, a2, a3, a4, a5⟩ := subsNode_sound sem cfg n A hwf.1 hn'.1
      obtain ⟨b1, b2, b3, b4⟩ := subsNodes_sound sem cfg ns (n.outs ++ A) rs hok
      simp only [subsNodes]
      have hsub : (namesNodes (.cons (subsNode cfg n) (subsNodes cfg ns))).Sublist
          (namesNodes (.cons n ns)) := by
        simp only [namesNodes]
        exact a4.append b2
      refine ⟨⟨?_, hsub.nodup h.nodup, fun x hx hc => h.disj x hx (hsub.subset hc), ?_⟩, hsub, ?_, rfl,
        fun hG => ⟨rfl, fun e e' he => ?_⟩⟩
      · simp only [wfNodes, Bool.and_eq_true, a3]
        exact ⟨a1, b1.wf⟩
      · intro r hr
        have := h.res r hr
        simp only [Nodes.outs, List.mem_append, a3, b3] at this ⊢
        exact this
      · simp only [Nodes.outs, a3, b3]
      · have hee := evalNodes_le_cons (Q := fun _ => True) (a5 hG) a3.symm (fun _ _ => trivial)
          (fun x _ => he x)
        exact (b4.2 hG).2 _ _ fun x => hee x trivial

theorem subsRegions_sound (sem : Sem V) (cfg : Config) : ∀ (subs : Regions) (na nr : Nat),
    wfRegions na nr subs = true → (namesRegions subs).Nodup →
    wfRegions na nr (subsRegions cfg subs) = true ∧
      (namesRegions (subsRegions cfg subs)).Sublist (namesRegions subs) ∧
      (Good sem cfg → RegsLe sem subs (subsRegions cfg subs))
  | .nil, na, nr, _, _ => by
      simp only [subsRegions]
      exact ⟨rfl, List.Sublist.refl _, fun _ => regsLe_nil⟩
  | .cons args results sub rest, na, nr, hwf, hn => by
      simp only [wfRegions, Bool.and_eq_true, beq_iff_eq, Dne.subset_iff] at hwf
      obtain ⟨⟨⟨⟨w1, w2⟩, w3⟩, w4⟩, w5⟩ := hwf
      simp only [namesRegions] at hn
      have hn1 := List.nodup_append.1 hn
      have hn2 := List.nodup_append.1 hn1.1
      have hok : RegionOk args sub results :=
        ⟨w3, hn2.2.1, fun x hx hx' => hn2.2.2 x hx x hx' rfl, w4⟩
      obtain ⟨h1, h2, h3, h4⟩ := subsNodes_sound sem cfg sub args results hok
      obtain ⟨h5, h6, h7⟩ := redirectNodesOf_sound sem cfg h1
      obtain ⟨r1, r2, r3⟩ := subsRegions_sound sem cfg rest na nr w5 hn1.2.1
      simp only [subsRegions]
      have hle := h4.trans h7
      refine ⟨?_, ?_, fun hG => regsLe_cons (hle.2 hG) (r3 hG)⟩
      · simp only [wfRegions, Bool.and_eq_true, beq_iff_eq, Dne.subset_iff]
        exact ⟨⟨⟨⟨w1, hle.1.symm.trans w2⟩, h5.wf⟩, h5.res⟩, r1⟩
      · simp only [namesRegions]
        exact ((List.Sublist.refl _).append (h6.trans h2)).append r2

end

mutual

theorem rootNode_sound (sem : Sem V) (cfg : Config) : ∀ (n : Node) (A : List Out),
    wfNode A n = true → (namesNode n).Nodup →
    wfNode A (rootNode cfg n) = true ∧ (rootNode cfg n).ins = n.ins ∧ (rootNode cfg n).outs = n.outs ∧
      (namesNode (rootNode cfg n)).Sublist (namesNode n) ∧ (Good sem cfg → NodeLe sem n (rootNode cfg n))
  | .simple op ins outs, A, hwf, hn => by
      simp only [rootNode]
      exact ⟨hwf, trivial, trivial, List.Sublist.refl _, fun hG => nodeVals_mono hG.1 _⟩
  | .gamma pred ins outs subs, A, hwf, hn => by
      simp only [rootNode]
      exact ⟨hwf, trivial, trivial, List.Sublist.refl _, fun hG => nodeVals_mono hG.1 _⟩
  | .theta ins outs args pred posts sub, A, hwf, hn => by
      simp only [rootNode]
      exact ⟨hwf, trivial, trivial, List.Sublist.refl _, fun hG => nodeVals_mono hG.1 _⟩
  | .delta ins args result out sub, A, hwf, hn => by
      simp only [rootNode]
      exact ⟨hwf, trivial, trivial, List.Sublist.refl _, fun hG => nodeVals_mono hG.1 _⟩
  | .lambda ins args params results out sub, A, hwf, hn => by
      simp only [wfNode, Bool.and_eq_true, beq_iff_eq, Dne.subset_iff] at hwf
      obtain ⟨⟨⟨w1, w2⟩, w3⟩, w4⟩ := hwf
      simp only [namesNode, List.cons_append] at hn
      have hn0 := (List.nodup_cons.1 hn).2
      have hn1 := List.nodup_append.1 hn0
      have hok : RegionOk (params ++ args) sub results :=
        ⟨w3, hn1.2.1, fun x hx hx' => hn1.2.2 x hx x hx' rfl, w4⟩
      obtain ⟨h1, h2, h3, h4⟩ := subsNodes_sound sem cfg sub _ results hok
      obtain ⟨h5, h6, h7⟩ := redirectNodesOf_sound sem cfg h1
      have hle := h4.trans h7
      simp only [rootNode]
      refine ⟨?_, rfl, rfl, ?_, fun hG => lambda_le (hle.2 hG) (SubLe.refl hG.1 _ _) (SubLe.refl hG.1 _ _)⟩
      · simp only [wfNode, Bool.and_eq_true, beq_iff_eq, Dne.subset_iff]
        exact ⟨⟨⟨w1, w2⟩, h5.wf⟩, h5.res⟩
      · simp only [namesNode]
        exact (List.Sublist.refl _).append (h6.trans h2)
  | .phi ins args recs results outs sub, A, hwf, hn => by
      simp only [wfNode, Bool.and_eq_true, beq_iff_eq, Dne.subset_iff] at hwf
      obtain ⟨⟨⟨⟨⟨w1, w2⟩, w3⟩, w4⟩, w5⟩, w6⟩ := hwf
      simp only [namesNode] at hn
      have hn1 := List.nodup_append.1 hn
      have hok : RegionOk (recs ++ args) sub results :=
        ⟨w5, hn1.2.1, fun x hx hx' => hn1.2.2 x (by
          simp only [List.mem_append] at hx ⊢; tauto) x hx' rfl, w6⟩
      obtain ⟨h1, h2, h3, h4⟩ := rootNodes_sound sem cfg sub _ results hok
      simp only [rootNode]
      refine ⟨?_, rfl, rfl, ?_, fun hG => phi_le (h4.2 hG)⟩
      · simp only [wfNode, Bool.and_eq_true, beq_iff_eq, Dne.subset_iff]
        exact ⟨⟨⟨⟨⟨w1, w2⟩, w3⟩, w4⟩, h1.wf⟩, h1.res⟩
      · simp only [namesNode]
        exact (List.Sublist.refl _).append h2

theorem rootNodes_sound (sem : Sem V) (cfg : Config) : ∀ (ns : Nodes) (A rs : List Out),
    RegionOk A ns rs → RegionOk A (rootNodes cfg ns) rs ∧
      (namesNodes (rootNodes cfg ns)).Sublist (namesNodes ns) ∧
      (rootNodes cfg ns).outs = ns.outs ∧ GSubLe sem cfg ns rs (rootNodes cfg ns) rs
  | .nil, A, rs, h => by
      simp only [rootNodes]
      exact ⟨h, List.Sublist.refl _, trivial, GSubLe.refl sem cfg _ _⟩
  | .cons n ns, A, rs, h => by
      have hwf := h.wf
      have hnd := h.nodup
      have hdj := h.disj
      simp only [wfNodes, Bool.and_eq_true] at hwf
      simp only [namesNodes] at hnd hdj
      have hn' := List.nodup_append.1 hnd
      have hok : RegionOk (n.outs ++ A) ns rs := by
        refine ⟨hwf.2, hn'.2.1, fun x hx => ?_, fun r hr => ?_⟩
        · rcases List.mem_append.1 hx with hx | hx
          · exact fun hc => hn'.2.2 x (Dne.outs_subset_names n x hx) x hc rfl
          · have := hdj x hx
            simp only [List.mem_append, not_or] at this
            exact this.2
        · have := h.res r hr
          simp only [Nodes.outs, List.mem_append] at this ⊢
          tauto
      obtain ⟨a1, a2, a3, a4, a5⟩ := rootNode_sound sem cfg n A hwf.1 hn'.1
      obtain ⟨b1, b2, b3, b4⟩ := rootNodes_sound sem cfg ns (n.outs ++ A) rs hok
      simp only [rootNodes]
      have hsub : (namesNodes (.cons (rootNode cfg n) (rootNodes cfg ns))).Sublist
          (namesNodes (.cons n ns)) := by
        simp only [namesNodes]
        exact a4.append b2
      refine ⟨⟨?_, hsub.nodup h.nodup, fun x hx hc => h.disj x hx (hsub.subset hc), ?_⟩, hsub, ?_, rfl,
        fun hG => ⟨rfl, fun e e' he => ?_⟩⟩
      · simp only [wfNodes, Bool.and_eq_true, a3]
        exact ⟨a1, b1.wf⟩
      · intro r hr
        have := h.res r hr
        simp only [Nodes.outs, List.mem_append, a3, b3] at this ⊢
        exact this
      · simp only [Nodes.outs, a3, b3]
      · have hee := evalNodes_le_cons (Q := fun _ => True) (a5 hG) a3.symm (fun _ _ => trivial)
          (fun x _ => he x)
        exact (b4.2 hG).2 _ _ fun x => hee x trivial

end

theorem graph_ok {g : Graph} (h : g.wf = true) : RegionOk g.imports g.body g.exports := by
  simp only [Graph.wf, Bool.and_eq_true, decide_eq_true_eq, Dne.subset_iff] at h
  have hn := List.nodup_append.1 (show (g.imports ++ namesNodes g.body).Nodup from h.1.1)
  exact ⟨h.1.2, hn.2.1, fun x hx hx' => hn.2.2 x hx x hx' rfl, h.2⟩

end Ivr

open Ivr

/-- **C29.** Invariant value redirection leaves the meaning of every export of a module unchanged:
whenever the original produces a value, so does the transformed module, and it is the same value;
every function gives the same results whenever the original function gives any. This holds for any
order in which the nodes of regions and the users of outputs are enumerated, and for any of the
configuration options; the theta-gamma correlation has to be either off or repaired
(`C29_roles_unsound` is about the unrepaired one). -/
theorem C29_ivr_refines {V : Type} (sem : Sem V) (hs : sem.Mono) (hc : sem.Control) (cfg : Ivr.Config)
    (hstrict : cfg.thetaGamma = true → cfg.strict = true) (g : Graph) (h : g.wf = true) :
    Refines (g.meaning sem) ((Ivr.run cfg g).meaning sem) := by
  obtain ⟨_, _, _, hle⟩ := rootNodes_sound sem cfg g.body g.imports g.exports (graph_ok h)
  have himp : LeLW (g.imports.map fun i => (some (sem.sym i, none) : W V))
      (g.imports.map fun i => some (sem.sym i, none)) :=
    LeLW.map (e := fun i => some (sem.sym i, none)) (e' := fun i => some (sem.sym i, none)) _
      fun x _ => ⟨rfl, trivial⟩
  exact ⟨by simp [Graph.meaning, Ivr.run], (hle.2 ⟨hs, hc, hstrict⟩).2 _ _ (upd_le' emptyEnv_le _ himp)⟩

/-- **C29.** The transformed module is well-formed, and has no outputs the original does not have. -/
theorem C29_ivr_wf (cfg : Ivr.Config) (g : Graph) (h : g.wf = true) :
    (Ivr.run cfg g).wf = true ∧ (Ivr.run cfg g).imports = g.imports ∧
      (Ivr.run cfg g).exports = g.exports ∧ (Ivr.run cfg g).body.outs = g.body.outs ∧
      (Ivr.run cfg g).names.Sublist g.names := by
  let sem : Sem Unit := ⟨fun _ _ => [], fun _ => 0, fun _ => (), fun _ => (), 0⟩
  obtain ⟨h1, h2, h3, _⟩ := rootNodes_sound sem cfg g.body g.imports g.exports (graph_ok h)
  have hsub : (Ivr.run cfg g).names.Sublist g.names := (List.Sublist.refl _).append h2
  refine ⟨?_, rfl, rfl, h3, hsub⟩
  simp only [Graph.wf, Bool.and_eq_true, decide_eq_true_eq, Dne.subset_iff] at h ⊢
  exact ⟨⟨hsub.nodup h.1.1, h1.wf⟩, h1.res⟩

/-- **C29.** Gamma exit variables: if all branches pass an entry variable with origin `o` on to exit
variable `k`, then whenever the exit variable has a value, it is the value of `o`. -/
theorem C29_gamma_origin {V : Type} (sem : Sem V) (pred : Out) (ins outs : List Out) (subs : Regions)
    (A : List Out) (hwf : wfNode A (.gamma pred ins outs subs) = true)
    (hn : (namesNode (.gamma pred ins outs subs)).Nodup) (k : Nat) (o : Out)
    (h : gammaInvariantOrigin ins k subs = some o) (e : Env V) (v : Val V)
    (hv : (nodeVals sem (.gamma pred ins outs subs) e).getD k none = some v) : e o = some v := by
  rcases gamma_invariant_val (sem := sem) hwf hn h e with h' | h'
  · rw [h'] at hv; simp at hv
  · rw [← h']; exact hv

/-- **C29.** Theta loop variables: if the post value of loop variable `k` is its pre value, then
whenever the loop is left, after any number of iterations, the loop variable has its initial value. -/
theorem C29_theta_origin {V : Type} (sem : Sem V) (ins outs args posts : List Out) (pred : Out)
    (sub : Nodes) (hn : (namesNode (.theta ins outs args pred posts sub)).Nodup) (k : Nat) (a i : Out)
    (ha : args[k]? = some a) (hp : posts[k]? = some a) (hi : ins[k]? = some i) (e : Env V) (v : Val V)
    (hv : (nodeVals sem (.theta ins outs args pred posts sub) e).getD k none = some v) : e i = some v := by
  rcases theta_invariant_val (sem := sem) (outs := outs) hn ha hp hi e with h' | h'
  · rw [h'] at hv; simp at hv
  · rw [← h']; exact hv

end Jlm.Opt
