import Verif.Opt.PullStep

/-! # C41: node sinking preserves the meaning of a module -/

set_option linter.unusedSimpArgs false
set_option linter.unusedVariables false

namespace Jlm.Opt.Pull

open Jlm.Opt.Copy Jlm.Opt.Lst

variable {V : Type}

/-- The nodes of a well-formed region: `A` is available, `R` are the results, the names from `n` on are free. -/
structure Pre (A R : List Out) (n : Nat) (l : List Node) : Prop where
  wf : wfNodes A (nodesOf l) = true
  nodup : (namesNodes (nodesOf l)).Nodup
  sep : ∀ o ∈ A, o ∉ namesNodes (nodesOf l)
  ltA : ∀ z : Nat, z ∈ A → z < n
  lt : ∀ z : Nat, z ∈ namesNodes (nodesOf l) → z < n
  res : ∀ r ∈ R, r ∈ A ++ (nodesOf l).outs

/-- The nodes `l'` may replace `l`. -/
structure Same (A R : List Out) (n : Nat) (l : List Node) (n' : Nat) (l' : List Node) : Prop where
  le : n ≤ n'
  wf : wfNodes A (nodesOf l') = true
  nodup : (namesNodes (nodesOf l')).Nodup
  names : ∀ z : Nat, z ∈ namesNodes (nodesOf l') → z ∈ namesNodes (nodesOf l) ∨ n ≤ z ∧ z < n'
  res : ∀ r ∈ R, r ∈ A ++ (nodesOf l').outs
  eval : ∀ {V : Type} (sem : Sem V) (E : Env V), ∀ r ∈ R, evalNodes sem (nodesOf l') E r = evalNodes sem (nodesOf l) E r

theorem Same.pre {A R : List Out} {n n' : Nat} {l l' : List Node} (h : Same A R n l n' l') (hp : Pre A R n l) :
    Pre A R n' l' := by
  have hle := h.le
  refine ⟨h.wf, h.nodup, fun o ho h' => ?_, fun z hz => Nat.lt_of_lt_of_le (hp.ltA z hz) hle, fun z hz => ?_, h.res⟩
  · rcases h.names o h' with h1 | h1
    · exact hp.sep o ho h1
    · exact absurd (Nat.lt_of_lt_of_le (hp.ltA o ho) h1.1) (Nat.lt_irrefl _)
  · rcases h.names z hz with h1 | h1
    · have := hp.lt z h1; omega
    · exact h1.2

theorem Same.refl {A R : List Out} {n : Nat} {l : List Node} (hp : Pre A R n l) : Same A R n l n l :=
  ⟨Nat.le_refl _, hp.wf, hp.nodup, fun _ h => .inl h, hp.res, fun _ _ _ _ => rfl⟩

theorem Same.trans {A R : List Out} {n1 n2 n3 : Nat} {l1 l2 l3 : List Node} (h : Same A R n1 l1 n2 l2)
    (h' : Same A R n2 l2 n3 l3) : Same A R n1 l1 n3 l3 := by
  have h1 := h.le
  have h2 := h'.le
  refine ⟨by omega, h'.wf, h'.nodup, fun z hz => ?_, h'.res, fun sem E r hr => ?_⟩
  · rcases h'.names z hz with h3 | h3
    · rcases h.names z h3 with h4 | h4
      · exact .inl h4
      · exact .inr ⟨h4.1, by omega⟩
    · exact .inr ⟨by omega, h3.2⟩
  · rw [h'.eval sem E r hr, h.eval sem E r hr]

/-! ## Replacing a node -/

theorem replace {A R : List Out} {n n' : Nat} {p s : List Node} {y y' : Node} (hp : Pre A R n (p ++ y :: s))
    (hle : n ≤ n') (houts : y'.outs = y.outs) (hwf : ∀ B, (∀ o ∈ B, o ∈ A ++ (nodesOf p).outs) → wfNode B y = true → wfNode B y' = true)
    (hnd : (namesNode y').Nodup) (hnames : ∀ z : Nat, z ∈ namesNode y' → z ∈ namesNode y ∨ n ≤ z ∧ z < n')
    (hv : ∀ {V : Type} (sem : Sem V) (E : Env V), nodeVals sem y' E = nodeVals sem y E) :
    Same A R n (p ++ y :: s) n' (p ++ y' :: s) := by
  have hw := hp.wf
  have hn := hp.nodup
  have hl := hp.lt
  rw [wf_append] at hw
  simp only [nodesOf, wfNodes, Bool.and_eq_true] at hw
  rw [names_append, List.nodup_append] at hn
  simp only [nodesOf, namesNodes] at hn
  simp only [names_append, nodesOf, namesNodes, List.mem_append] at hl
  obtain ⟨hn1, hn2, hn3⟩ := hn
  rw [List.nodup_append] at hn2
  obtain ⟨hn2, hn4, hn5⟩ := hn2
  refine ⟨hle, ?_, ?_, ?_, ?_, ?_⟩
  · rw [wf_append]
    simp only [nodesOf, wfNodes, Bool.and_eq_true, houts]
    exact ⟨hw.1, hwf _ (fun o ho => by simp only [List.mem_append] at ho ⊢; tauto) hw.2.1, hw.2.2⟩
  · rw [names_append, List.nodup_append]
    simp only [nodesOf, namesNodes]
    refine ⟨hn1, ?_, ?_⟩
    · rw [List.nodup_append]
      refine ⟨hnd, hn4, fun a ha b hb e => ?_⟩
      rcases hnames a ha with h | h
      · exact hn5 a h b hb e
      · have := hl b (.inr (.inr hb))
        subst e; omega
    · intro a ha b hb e
      rcases List.mem_append.1 hb with hb | hb
      · rcases hnames b hb with h | h
        · exact hn3 a ha b (by simp [h]) e
        · have := hl a (.inl ha)
          subst e; omega
      · exact hn3 a ha b (by simp [hb]) e
  · intro z hz
    simp only [names_append, nodesOf, namesNodes, List.mem_append] at hz ⊢
    rcases hz with hz | hz | hz
    · exact .inl (.inl hz)
    · rcases hnames z hz with h | h
      · exact .inl (.inr (.inl h))
      · exact .inr h
    · exact .inl (.inr (.inr hz))
  · intro r hr
    have := hp.res r hr
    simpa only [outs_append, nodesOf, Nodes.outs, houts] using this
  · intro V sem E r hr
    simp only [eval_append, nodesOf, evalNodes, hv, houts]

/-! ## Moving a node -/

/-- An environment after nodes that do not define what a node needs. -/
theorem evalNodes_keep (sem : Sem V) (l : List Node) (E : Env V) (os : List Out) (h : ∀ o ∈ os, o ∉ (nodesOf l).outs) :
    os.map (evalNodes sem (nodesOf l) E) = os.map E :=
  List.map_congr_left fun o ho => evalNodes_notin sem _ E o (h o ho)

theorem move {A R : List Out} {n n' : Nat} {a b after : List Node} {x : Node} {pred : Out} {ins outs : List Out}
    {subs subs' : Regions} (hp : Pre A R n (a ++ x :: b ++ .gamma pred ins outs subs :: after))
    (hpred : pred ∉ x.outs) (hb : ∀ o ∈ x.outs, o ∉ (nodesOf b).ins) (ha : ∀ o ∈ x.outs, o ∉ (nodesOf after).ins)
    (hR : ∀ o ∈ x.outs, o ∉ R) (h : pullRegions x ins subs n = some (subs', n')) :
    Same A R n (a ++ x :: b ++ .gamma pred ins outs subs :: after) n'
      (a ++ b ++ .gamma pred (pullIns x ins) outs subs' :: after) := by
  have hw := hp.wf
  have hn := hp.nodup
  have hl := hp.lt
  have hsep := hp.sep
  have hres := hp.res
  simp only [List.append_assoc, List.cons_append] at hw hn hl hsep hres
  rw [wf_append] at hw
  simp only [nodesOf, wfNodes, Bool.and_eq_true] at hw
  rw [wf_append] at hw
  simp only [nodesOf, wfNodes, Bool.and_eq_true] at hw
  obtain ⟨hwa, hwx, hwb, hwg, hwl⟩ := hw
  simp only [names_append, nodesOf, namesNodes, List.mem_append, not_or] at hn hl hsep
  simp only [outs_append, nodesOf, Nodes.outs, List.mem_append] at hres
  have hout : ∀ l : List Node, ∀ o ∈ (nodesOf l).outs, o ∈ namesNodes (nodesOf l) := fun l => outs_namesNodes _
  have hwg' := hwg
  simp only [wfNode, Bool.and_eq_true, mem_subset] at hwg
  have hnx : (namesNode x).Nodup :=
    hn.sublist ((List.sublist_append_left _ _).trans (List.sublist_append_right _ _))
  have hng : (namesRegions subs).Nodup := by
    have h1 : (namesNode (.gamma pred ins outs subs)).Nodup :=
      hn.sublist ((List.sublist_append_left _ _).trans ((List.sublist_append_right _ _).trans
        ((List.sublist_append_right _ _).trans (List.sublist_append_right _ _))))
    rw [namesNode, List.nodup_append] at h1
    exact h1.2.1
  simp only [List.nodup_append, List.mem_append] at hn
  obtain ⟨hna, ⟨_, ⟨hnb, ⟨hng', hnl, hdgl⟩, hdb⟩, hdx⟩, hda⟩ := hn
  have hxA : ∀ o ∈ (nodesOf a).outs ++ A, o ∉ namesNode x := by
    intro o ho h'
    rcases List.mem_append.1 ho with ho | ho
    · exact hda o (hout a o ho) o (.inl h') rfl
    · exact (hsep o ho).2.1 h'
  have hs := pullRegions_spec (A := (nodesOf a).outs ++ A) (ins := ins) (nr := outs.length) hwx hnx hxA subs hwg.2 hng
    (fun z hz => hl z (.inr (.inr (.inr (.inl (by simp [namesNode, hz])))))) h
  simp only at hs
  have hle := hs.le
  have hxb : ∀ o ∈ x.outs, o ∉ (nodesOf b).outs := fun o ho h' =>
    hdx o (outs_names x o ho) o (.inl (hout b o h')) rfl
  have hxi : ∀ o ∈ x.ins, o ∉ (nodesOf b).outs := by
    intro o ho h'
    rcases List.mem_append.1 (wfNode_ins hwx o ho) with h1 | h1
    · exact hda o (hout a o h1) o (.inr (.inl (hout b o h'))) rfl
    · exact (hsep o h1).2.2.1 (hout b o h')
  -- the new names of the gamma node
  have hgn : ∀ z : Nat, z ∈ outs ++ namesRegions subs' → z ∈ outs ++ namesRegions subs ∨ n ≤ z ∧ z < n' := by
    intro z hz
    simp only [List.mem_append] at hz ⊢
    rcases hz with hz | hz
    · exact .inl (.inl hz)
    · rcases hs.names z hz with h1 | h1
      · exact .inl (.inr h1)
      · exact .inr h1
  have hwb' : wfNodes ((nodesOf a).outs ++ A) (nodesOf b) = true := by
    refine Dne.wfNodes_mono _ _ _ (fun o ho h1 => ?_) hwb
    rcases List.mem_append.1 h1 with h1 | h1
    · exact absurd ho (hb o h1)
    · exact h1
  refine ⟨hle, ?_, ?_, ?_, ?_, ?_⟩
  · rw [List.append_assoc, wf_append, wf_append]
    simp only [nodesOf, wfNodes, Bool.and_eq_true]
    refine ⟨hwa, hwb', ?_, ?_⟩
    · simp only [wfNode, Bool.and_eq_true, mem_subset]
      refine ⟨fun o ho => ?_, hs.wf⟩
      rcases List.mem_cons.1 ho with rfl | ho
      · have := hwg.1 o (by simp)
        simp only [List.mem_append] at this ⊢
        rcases this with h1 | h1 | h1
        · exact .inl h1
        · exact absurd h1 hpred
        · exact .inr h1
      · rw [pullIns, List.mem_append] at ho
        rcases ho with ho | ho
        · have h2 := hwg.1 o (List.mem_cons_of_mem _ ((mask_sublist _ _).subset ho))
          simp only [List.mem_append] at h2 ⊢
          rcases h2 with h1 | h1 | h1
          · exact .inl h1
          · exfalso
            have := mem_mask_zip _ _ _ ho
            have h3 : ∀ (l : List Out), (o, true) ∈ l.zip (l.map fun o => !x.outs.contains o) → o ∉ x.outs := by
              intro l hl
              induction l with
              | nil => simp at hl
              | cons c l ih =>
                simp only [List.map_cons, List.zip_cons_cons, List.mem_cons, Prod.mk.injEq] at hl
                rcases hl with ⟨rfl, h4⟩ | hl
                · simpa using h4
                · exact ih hl
            exact h3 _ this h1
          · exact .inr h1
        · have := wfNode_ins hwx o ho
          simp only [List.mem_append] at this ⊢
          exact .inr this
    · refine Dne.wfNodes_mono _ _ _ (fun o ho h1 => ?_) hwl
      simp only [Node.outs, List.mem_append] at h1 ⊢
      rcases h1 with h1 | h1 | h1 | h1
      · exact .inl h1
      · exact .inr (.inl h1)
      · exact absurd ho (ha o h1)
      · exact .inr (.inr h1)
  · rw [List.append_assoc, names_append, names_append]
    simp only [nodesOf, namesNodes, namesNode, List.nodup_append, List.mem_append]
    have hgo : ∀ z ∈ outs, z ∉ namesRegions subs := by
      intro z hz h'
      rw [namesNode, List.nodup_append] at hng'
      exact hng'.2.2 z hz z h' rfl
    have hno : outs.Nodup := by
      rw [namesNode, List.nodup_append] at hng'
      exact hng'.1
    have old : ∀ z : Nat, z ∈ namesRegions subs' → z < n → z ∈ namesRegions subs := by
      intro z hz h1
      rcases hs.names z hz with h2 | h2
      · exact h2
      · omega
    have glt : ∀ z : Nat, z ∈ outs → z < n := fun z hz => hl z (.inr (.inr (.inr (.inl (by simp [namesNode, hz])))))
    refine ⟨hna, ⟨hnb, ⟨⟨hno, hs.nodup, fun u hu v hv e => ?_⟩, hnl, fun u hu v hv e => ?_⟩, fun u hu v hv e => ?_⟩,
      fun u hu v hv e => ?_⟩ <;> subst e
    · exact hgo u hu (old u hv (glt u hu))
    · have h1 := hl u (.inr (.inr (.inr (.inr hv))))
      rcases hu with hu | hu
      · exact hdgl u (by simp [namesNode, hu]) u hv rfl
      · exact hdgl u (by simp [namesNode, old u hu h1]) u hv rfl
    · have h1 := hl u (.inr (.inr (.inl hu)))
      rcases hv with (hv | hv) | hv
      · exact hdb u hu u (.inl (by simp [namesNode, hv])) rfl
      · exact hdb u hu u (.inl (by simp [namesNode, old u hv h1])) rfl
      · exact hdb u hu u (.inr hv) rfl
    · have h1 := hl u (.inl hu)
      rcases hv with hv | (hv | hv) | hv
      · exact hda u hu u (.inr (.inl hv)) rfl
      · exact hda u hu u (.inr (.inr (.inl (by simp [namesNode, hv])))) rfl
      · exact hda u hu u (.inr (.inr (.inl (by simp [namesNode, old u hv h1])))) rfl
      · exact hda u hu u (.inr (.inr (.inr hv))) rfl
  · intro z hz
    simp only [List.append_assoc, List.cons_append, nodesOf, namesNodes, namesNode, names_append, List.mem_append] at hz ⊢
    rcases hz with hz | hz | hz | hz | hz
    · exact .inl (.inl hz)
    · exact .inl (.inr (.inr (.inl hz)))
    · exact .inl (.inr (.inr (.inr (.inl hz))))
    · rcases hs.names z hz with h1 | h1
      · exact .inl (.inr (.inr (.inr (.inr (.inl h1)))))
      · exact .inr h1
    · exact .inl (.inr (.inr (.inr (.inr (.inr hz)))))
  · intro r hr
    have := hres r hr
    simp only [List.append_assoc, outs_append, nodesOf, Nodes.outs, List.mem_append, Node.outs] at this ⊢
    have := hR
    have h2 : r ∉ x.outs := fun h' => hR r h' hr
    simp only [Node.outs] at h2
    tauto
  · intro V sem E r hr
    simp only [List.append_assoc, List.cons_append, eval_append, nodesOf, evalNodes]
    have hrx : r ∉ x.outs := fun h' => hR r h' hr
    have q0 : AgreeOn (fun o => o ∉ x.outs) (evalNodes sem (nodesOf a) E)
        (upd (evalNodes sem (nodesOf a) E) x.outs (nodeVals sem x (evalNodes sem (nodesOf a) E))) :=
      fun o ho => (upd_notin _ _ _ _ ho).symm
    have q1 := evalNodes_agree sem _ (nodesOf b) _ _ (fun i hi h' => hb i h' hi) q0
    have hval : nodeVals sem (.gamma pred (pullIns x ins) outs subs') (evalNodes sem (nodesOf b) (evalNodes sem (nodesOf a) E)) =
        nodeVals sem (.gamma pred ins outs subs) (evalNodes sem (nodesOf b)
          (upd (evalNodes sem (nodesOf a) E) x.outs (nodeVals sem x (evalNodes sem (nodesOf a) E)))) := by
      simp only [nodeVals]
      rw [q1 pred hpred]
      cases evalNodes sem (nodesOf b) (upd (evalNodes sem (nodesOf a) E) x.outs
        (nodeVals sem x (evalNodes sem (nodesOf a) E))) pred with
      | none => rfl
      | some p =>
        simp only
        rw [hs.eval]
        congr 2
        refine List.map_congr_left fun i _ => ?_
        have hx1 : nodeVals sem x (evalNodes sem (nodesOf b) (evalNodes sem (nodesOf a) E)) =
            nodeVals sem x (evalNodes sem (nodesOf a) E) :=
          nodeVals_congr sem x _ _ fun o ho => evalNodes_notin sem _ _ o (hxi o ho)
        rw [hx1]
        by_cases hi : i ∈ x.outs
        · rw [evalNodes_notin sem _ _ i (hxb i hi)]
          exact upd_congr _ _ _ fun h' => absurd hi h'
        · rw [upd_notin _ _ _ _ hi]
          exact q1 i hi
    rw [hval]
    exact evalNodes_agree sem _ (nodesOf after) _ _ (fun i hi h' => ha i h' hi) (agree_upd q1 _ _) r hrx

/-! ## The loop -/

theorem split_eq {o : Out} : ∀ {l : List Node} {a b : List Node} {x : Node}, split o l = some (a, x, b) →
    l = a ++ x :: b ∧ o ∈ x.outs
  | [], a, b, x, h => by simp [split] at h
  | y :: l, a, b, x, h => by
    simp only [split] at h
    split at h
    · rename_i hc
      simp only [Option.some.injEq, Prod.mk.injEq] at h
      obtain ⟨rfl, rfl, rfl⟩ := h
      exact ⟨rfl, by simpa using hc⟩
    · simp only [Option.map_eq_some_iff, Prod.mk.injEq] at h
      obtain ⟨⟨a', x', b'⟩, h1, rfl, rfl, rfl⟩ := h
      obtain ⟨h2, h3⟩ := split_eq h1
      exact ⟨by simp [h2], h3⟩

theorem candidate_some {all : Bool} {before : List Node} {users : List Out} {pred : Out} {ins : List Out} {subs : Regions} :
    ∀ {os : List Out} {a b : List Node} {x : Node}, candidate all before users pred ins subs os = some (a, x, b) →
      before = a ++ x :: b ∧ pred ∉ x.outs ∧ single before users x = true ∧
        (all = true ∨ usedCount x ins subs = 1) ∧ ∃ o ∈ os, o ∈ x.outs
  | [], a, b, x, h => by simp [candidate] at h
  | o :: os, a, b, x, h => by
    simp only [candidate] at h
    split at h
    · rename_i a' x' b' hs
      split at h
      · rename_i hc
        simp only [Option.some.injEq, Prod.mk.injEq] at h
        obtain ⟨rfl, rfl, rfl⟩ := h
        simp only [Bool.and_eq_true, Bool.not_eq_true', List.contains_eq_mem, decide_eq_false_iff_not, Bool.or_eq_true,
          beq_iff_eq] at hc
        exact ⟨(split_eq hs).1, hc.1.1, hc.1.2, hc.2, o, by simp, (split_eq hs).2⟩
      · obtain ⟨h1, h2, h3, h4, o', h5, h6⟩ := candidate_some h
        exact ⟨h1, h2, h3, h4, o', by simp [h5], h6⟩
    · obtain ⟨h1, h2, h3, h4, o', h5, h6⟩ := candidate_some h
      exact ⟨h1, h2, h3, h4, o', by simp [h5], h6⟩

theorem pullLoop_spec {all : Bool} {A R outs : List Out} {pred : Out} {after : List Node} : ∀ (f : Nat) {w w' : Work},
    Pre A R w.n (w.before ++ .gamma pred w.ins outs w.subs :: after) →
    pullLoop all (after.flatMap Node.ins ++ R) pred f w = some w' →
    Same A R w.n (w.before ++ .gamma pred w.ins outs w.subs :: after) w'.n
      (w'.before ++ .gamma pred w'.ins outs w'.subs :: after)
  | 0, w, w', hp, h => by
    simp only [pullLoop, Option.some.injEq] at h
    subst h
    exact .refl hp
  | f + 1, w, w', hp, h => by
    rw [pullLoop] at h
    cases hc : candidate all w.before (after.flatMap Node.ins ++ R) pred w.ins w.subs w.ins with
    | none =>
      simp only [hc, Option.some.injEq] at h
      subst h
      exact .refl hp
    | some p =>
      obtain ⟨a, x, b⟩ := p
      simp only [hc, Option.bind_eq_some_iff] at h
      obtain ⟨q, hq, h⟩ := h
      obtain ⟨h1, h2, h3, _⟩ := candidate_some hc
      simp only [single, List.all_eq_true, Bool.not_eq_true', List.contains_eq_mem, decide_eq_false_iff_not,
        List.mem_append, not_or, ← ins_flatMap] at h3
      rw [h1] at hp h3 ⊢
      simp only [ins_append, nodesOf, Nodes.ins, List.mem_append, not_or] at h3
      have hs := move hp h2 (fun o ho => (h3 o ho).1.2.2) (fun o ho => (h3 o ho).2.1) (fun o ho => (h3 o ho).2.2)
        (subs' := q.1) (n' := q.2) hq
      exact hs.trans (pullLoop_spec f (w := ⟨a ++ b, pullIns x w.ins, q.1, q.2⟩) (hs.pre hp) h)

theorem pullGamma_spec {A R outs : List Out} {pred : Out} {after : List Node} {w w' : Work}
    (hp : Pre A R w.n (w.before ++ .gamma pred w.ins outs w.subs :: after))
    (h : pullGamma (after.flatMap Node.ins ++ R) pred w = some w') :
    Same A R w.n (w.before ++ .gamma pred w.ins outs w.subs :: after) w'.n
      (w'.before ++ .gamma pred w'.ins outs w'.subs :: after) := by
  rw [pullGamma] at h
  split at h
  · simp only [Option.some.injEq] at h
    subst h
    exact .refl hp
  · exact pullLoop_spec _ hp h

/-! ## Regions -/

/-- `pull` does to regions what it should. -/
def Good (pull : Nodes → List Out → Nat → Option (Nodes × Nat)) : Prop :=
  ∀ (ns ns' : Nodes) (R : List Out) (n n' : Nat), pull ns R n = some (ns', n') → ∀ A : List Out, Pre A R n ns.list →
    Same A R n ns.list n' ns'.list

/-- A subregion with arguments `args`. -/
theorem sub_pre {args R : List Out} {n : Nat} {sub : Nodes} (hw : wfNodes args sub = true)
    (hn : (args ++ namesNodes sub).Nodup) (hl : ∀ z : Nat, z ∈ args ++ namesNodes sub → z < n)
    (hr : ∀ r ∈ R, r ∈ args ++ sub.outs) : Pre args R n sub.list := by
  rw [List.nodup_append] at hn
  refine ⟨by rwa [nodesOf_list], by rw [nodesOf_list]; exact hn.2.1, fun o ho h' => ?_, fun z hz => hl z (by simp [hz]),
    fun z hz => hl z ?_, by rwa [nodesOf_list]⟩
  · rw [nodesOf_list] at h'
    exact hn.2.2 o ho o h' rfl
  · rw [nodesOf_list] at hz; simp [hz]

/-- What is needed of a subregion after it has been transformed. -/
theorem sub_post {pull : Nodes → List Out → Nat → Option (Nodes × Nat)} (hg : Good pull) {args R : List Out} {n n' : Nat}
    {sub sub' : Nodes} (h : pull sub R n = some (sub', n')) (hw : wfNodes args sub = true)
    (hn : (args ++ namesNodes sub).Nodup) (hl : ∀ z : Nat, z ∈ args ++ namesNodes sub → z < n)
    (hr : ∀ r ∈ R, r ∈ args ++ sub.outs) :
    n ≤ n' ∧ wfNodes args sub' = true ∧ (args ++ namesNodes sub').Nodup ∧
      (∀ z : Nat, z ∈ namesNodes sub' → z ∈ namesNodes sub ∨ n ≤ z ∧ z < n') ∧ (∀ r ∈ R, r ∈ args ++ sub'.outs) ∧
      ∀ {V : Type} (sem : Sem V) (E : Env V), R.map (evalNodes sem sub' E) = R.map (evalNodes sem sub E) := by
  have hp := sub_pre hw hn hl hr
  have hs := hg _ _ _ _ _ h _ hp
  have hp' := hs.pre hp
  have e1 : nodesOf sub.list = sub := nodesOf_list sub
  have e2 : nodesOf sub'.list = sub' := nodesOf_list sub'
  refine ⟨hs.le, by rw [← e2]; exact hs.wf, ?_, fun z hz => ?_, fun r hr => by rw [← e2]; exact hs.res r hr,
    fun sem E => List.map_congr_left fun r hr => ?_⟩
  · rw [List.nodup_append] at hn ⊢
    refine ⟨hn.1, by rw [← e2]; exact hs.nodup, fun a ha b hb e => ?_⟩
    subst e
    exact hp'.sep a ha (by rw [e2]; exact hb)
  · have := hs.names z (by rw [e2]; exact hz)
    rwa [e1] at this
  · have := hs.eval sem E r hr
    rwa [e1, e2] at this

theorem pullSubs_spec {pull : Nodes → List Out → Nat → Option (Nodes × Nat)} (hg : Good pull) {na nr : Nat} :
    ∀ (subs : Regions) {n : Nat} {r : Regions × Nat}, wfRegions na nr subs = true → (namesRegions subs).Nodup →
    (∀ z : Nat, z ∈ namesRegions subs → z < n) → pullSubs pull subs n = some r →
    n ≤ r.2 ∧ wfRegions na nr r.1 = true ∧ (namesRegions r.1).Nodup ∧
      (∀ z : Nat, z ∈ namesRegions r.1 → z ∈ namesRegions subs ∨ n ≤ z ∧ z < r.2) ∧
      ∀ {V : Type} (sem : Sem V) (k : Nat) (ws : List (W V)), regionVals sem r.1 k ws = regionVals sem subs k ws
  | .nil, n, r, hw, hn, hl, h => by
    simp only [pullSubs, Option.some.injEq] at h
    subst h
    exact ⟨Nat.le_refl _, hw, hn, fun _ h => .inl h, fun _ _ _ => rfl⟩
  | .cons args results sub rest, n, r, hw, hn, hl, h => by
    simp only [pullSubs, Option.bind_eq_some_iff, Option.map_eq_some_iff] at h
    obtain ⟨⟨sub', n1⟩, h1, q, hq, rfl⟩ := h
    simp only [wfRegions, Bool.and_eq_true, mem_subset, beq_iff_eq] at hw
    obtain ⟨⟨⟨⟨hl1, hl2⟩, hwf⟩, hsub⟩, hrest⟩ := hw
    rw [namesRegions, List.nodup_append] at hn
    simp only [namesRegions] at hl
    obtain ⟨hn1, hn2, hn3⟩ := hn
    obtain ⟨p1, p2, p3, p4, p5, p6⟩ := sub_post hg h1 hwf hn1 (fun z hz => hl z (by
      rw [List.mem_append]; exact .inl hz)) hsub
    obtain ⟨q1, q2, q3, q4, q5⟩ := pullSubs_spec hg rest hrest hn2 (n := n1) (fun z hz => by
      have := hl z (by rw [List.mem_append]; exact .inr hz)
      omega) hq
    simp only at q1 ⊢
    refine ⟨by omega, ?_, ?_, fun z hz => ?_, fun sem k ws => ?_⟩
    · simp only [wfRegions, Bool.and_eq_true, mem_subset, beq_iff_eq]
      exact ⟨⟨⟨⟨hl1, hl2⟩, p2⟩, p5⟩, q2⟩
    · rw [namesRegions, List.nodup_append]
      refine ⟨p3, q3, fun a ha b hb e => ?_⟩
      subst e
      have hcl : ∀ a : Nat, a ∈ args ++ namesNodes sub' → a ∈ args ++ namesNodes sub ∨ n ≤ a ∧ a < n1 := by
        intro a ha
        rcases List.mem_append.1 ha with ha | ha
        · exact .inl (by simp [ha])
        · rcases p4 a ha with h | h
          · exact .inl (by simp [h])
          · exact .inr h
      rcases hcl a ha with h2 | h2 <;> rcases q4 a hb with h3 | h3
      · exact hn3 a h2 a h3 rfl
      · have := hl a (by rw [List.mem_append]; exact .inl h2)
        omega
      · have := hl a (by rw [List.mem_append]; exact .inr h3)
        omega
      · omega
    · simp only [namesRegions, List.mem_append] at hz ⊢
      rcases hz with (hz | hz) | hz
      · exact .inl (.inl (.inl hz))
      · rcases p4 z hz with h | h
        · exact .inl (.inl (.inr h))
        · exact .inr ⟨h.1, by omega⟩
      · rcases q4 z hz with h | h
        · exact .inl (.inr h)
        · exact .inr ⟨by omega, h.2⟩
    · cases k with
      | zero => simp only [regionVals]; exact p6 sem _
      | succ k => simp only [regionVals]; exact q5 sem k ws

theorem pullNodes_spec {pull : Nodes → List Out → Nat → Option (Nodes × Nat)} (hg : Good pull) {A R : List Out} :
    ∀ (after before : List Node) {n n' : Nat} {l : List Node}, pullNodes pull R before after n = some (l, n') →
    Pre A R n (before ++ after) → Same A R n (before ++ after) n' l
  | [], before, n, n', l, h, hp => by
    simp only [pullNodes, Option.some.injEq, Prod.mk.injEq] at h
    obtain ⟨rfl, rfl⟩ := h
    rw [List.append_nil] at hp ⊢
    exact .refl hp
  | .simple op ins outs :: after, before, n, n', l, h, hp => by
    simp only [pullNodes] at h
    rw [List.append_cons] at hp ⊢
    exact pullNodes_spec hg after _ h hp
  | .delta ins args result out sub :: after, before, n, n', l, h, hp => by
    simp only [pullNodes] at h
    rw [List.append_cons] at hp ⊢
    exact pullNodes_spec hg after _ h hp
  | .gamma pred ins outs subs :: after, before, n, n', l, h, hp => by
    simp only [pullNodes, Option.bind_eq_some_iff] at h
    obtain ⟨w, h1, q, h2, h⟩ := h
    have s1 := pullGamma_spec (w := ⟨before, ins, subs, n⟩) hp h1
    simp only at s1
    have p1 := s1.pre hp
    have hw := p1.wf
    rw [wf_append] at hw
    simp only [nodesOf, wfNodes, Bool.and_eq_true, wfNode, mem_subset] at hw
    have hl := p1.lt
    have hn := p1.nodup
    simp only [names_append, nodesOf, namesNodes, namesNode, List.mem_append] at hl hn
    have hn' : (outs ++ namesRegions w.subs).Nodup :=
      hn.sublist ((List.sublist_append_left _ _).trans (List.sublist_append_right _ _))
    rw [List.nodup_append] at hn'
    obtain ⟨q1, q2, q3, q4, q5⟩ := pullSubs_spec hg w.subs hw.2.1.2 hn'.2.1 (fun z hz => hl z (by tauto)) h2
    have s2 : Same A R w.n (w.before ++ .gamma pred w.ins outs w.subs :: after) q.2
        (w.before ++ .gamma pred w.ins outs q.1 :: after) := by
      refine replace p1 q1 rfl (fun B _ hB => ?_) ?_ (fun z hz => ?_) (fun sem E => ?_)
      · simp only [wfNode, Bool.and_eq_true] at hB ⊢
        exact ⟨hB.1, q2⟩
      · rw [namesNode, List.nodup_append]
        refine ⟨hn'.1, q3, fun a ha b hb e => ?_⟩
        subst e
        rcases q4 a hb with h4 | h4
        · exact hn'.2.2 a ha a h4 rfl
        · have := hl a (by tauto)
          omega
      · simp only [namesNode, List.mem_append] at hz ⊢
        rcases hz with hz | hz
        · exact .inl (.inl hz)
        · rcases q4 z hz with h4 | h4
          · exact .inl (.inr h4)
          · exact .inr h4
      · simp only [nodeVals, q5]
    have p2 := s2.pre p1
    rw [List.append_cons] at p2
    have s3 := pullNodes_spec hg after _ h p2
    rw [← List.append_cons] at s3
    exact s1.trans (s2.trans s3)
  | .theta ins outs args pred posts sub :: after, before, n, n', l, h, hp => by
    simp only [pullNodes, Option.bind_eq_some_iff] at h
    obtain ⟨⟨sub', n1⟩, h1, h⟩ := h
    have hw := hp.wf
    rw [wf_append] at hw
    simp only [nodesOf, wfNodes, Bool.and_eq_true, wfNode, mem_subset] at hw
    have hl := hp.lt
    have hn := hp.nodup
    simp only [names_append, nodesOf, namesNodes, namesNode, List.mem_append] at hl hn
    have hn' : (outs ++ args ++ namesNodes sub).Nodup :=
      hn.sublist ((List.sublist_append_left _ _).trans (List.sublist_append_right _ _))
    rw [List.append_assoc, List.nodup_append] at hn'
    obtain ⟨q1, q2, q3, q4, q5, q6⟩ := sub_post hg h1 hw.2.1.1.2 hn'.2.1 (fun z hz => hl z (by
      rw [List.mem_append] at hz; tauto)) hw.2.1.2
    have s2 : Same A R n (before ++ .theta ins outs args pred posts sub :: after) n1
        (before ++ .theta ins outs args pred posts sub' :: after) := by
      refine replace hp q1 rfl (fun B _ hB => ?_) ?_ (fun z hz => ?_) (fun sem E => ?_)
      · simp only [wfNode, Bool.and_eq_true, mem_subset] at hB ⊢
        exact ⟨⟨hB.1.1, q2⟩, q5⟩
      · rw [namesNode, List.append_assoc, List.nodup_append]
        refine ⟨hn'.1, q3, fun a ha b hb e => ?_⟩
        subst e
        rcases List.mem_append.1 hb with hb | hb
        · exact hn'.2.2 a ha a (by simp [hb]) rfl
        · rcases q4 a hb with h4 | h4
          · exact hn'.2.2 a ha a (by simp [h4]) rfl
          · have := hl a (by tauto)
            omega
      · simp only [namesNode, List.mem_append] at hz ⊢
        rcases hz with hz | hz
        · exact .inl (.inl hz)
        · rcases q4 z hz with h4 | h4
          · exact .inl (.inr h4)
          · exact .inr h4
      · simp only [nodeVals, q6]
    have p2 := s2.pre hp
    rw [List.append_cons] at p2
    have s3 := pullNodes_spec hg after _ h p2
    rw [← List.append_cons] at s3
    exact s2.trans s3
  | .lambda ins args params rs out sub :: after, before, n, n', l, h, hp => by
    simp only [pullNodes, Option.bind_eq_some_iff] at h
    obtain ⟨⟨sub', n1⟩, h1, h⟩ := h
    have hw := hp.wf
    rw [wf_append] at hw
    simp only [nodesOf, wfNodes, Bool.and_eq_true, wfNode, mem_subset] at hw
    have hl := hp.lt
    have hn := hp.nodup
    simp only [names_append, nodesOf, namesNodes, namesNode, List.mem_append, List.mem_cons] at hl hn
    have hn' : (out :: params ++ args ++ namesNodes sub).Nodup :=
      hn.sublist ((List.sublist_append_left _ _).trans (List.sublist_append_right _ _))
    simp only [List.cons_append] at hn'
    rw [List.nodup_cons] at hn'
    obtain ⟨q1, q2, q3, q4, q5, q6⟩ := sub_post hg h1 hw.2.1.1.2 hn'.2 (fun z hz => hl z (by
      simp only [List.mem_append] at hz; tauto)) hw.2.1.2
    have s2 : Same A R n (before ++ .lambda ins args params rs out sub :: after) n1
        (before ++ .lambda ins args params rs out sub' :: after) := by
      refine replace hp q1 rfl (fun B _ hB => ?_) ?_ (fun z hz => ?_) (fun sem E => ?_)
      · simp only [wfNode, Bool.and_eq_true, mem_subset] at hB ⊢
        exact ⟨⟨hB.1.1, q2⟩, q5⟩
      · rw [namesNode]
        simp only [List.cons_append]
        rw [List.nodup_cons]
        refine ⟨fun hb => ?_, q3⟩
        rcases List.mem_append.1 hb with hb | hb
        · exact hn'.1 (List.mem_append_left _ hb)
        · rcases q4 out hb with h4 | h4
          · exact hn'.1 (List.mem_append_right _ h4)
          · have := hl out (by simp)
            omega
      · simp only [namesNode, List.mem_append] at hz ⊢
        rcases hz with hz | hz
        · exact .inl (.inl hz)
        · rcases q4 z hz with h4 | h4
          · exact .inl (.inr h4)
          · exact .inr h4
      · simp only [nodeVals, q6]
    have p2 := s2.pre hp
    rw [List.append_cons] at p2
    have s3 := pullNodes_spec hg after _ h p2
    rw [← List.append_cons] at s3
    exact s2.trans s3
  | .phi ins args recs rs outs sub :: after, before, n, n', l, h, hp => by
    simp only [pullNodes, Option.bind_eq_some_iff] at h
    obtain ⟨⟨sub', n1⟩, h1, h⟩ := h
    have hw := hp.wf
    rw [wf_append] at hw
    simp only [nodesOf, wfNodes, Bool.and_eq_true, wfNode, mem_subset] at hw
    have hl := hp.lt
    have hn := hp.nodup
    simp only [names_append, nodesOf, namesNodes, namesNode, List.mem_append] at hl hn
    have hn' : (outs ++ recs ++ args ++ namesNodes sub).Nodup :=
      hn.sublist ((List.sublist_append_left _ _).trans (List.sublist_append_right _ _))
    rw [List.append_assoc, List.append_assoc, List.nodup_append, ← List.append_assoc] at hn'
    obtain ⟨q1, q2, q3, q4, q5, q6⟩ := sub_post hg h1 hw.2.1.1.2 hn'.2.1 (fun z hz => hl z (by
      simp only [List.mem_append] at hz; tauto)) hw.2.1.2
    have s2 : Same A R n (before ++ .phi ins args recs rs outs sub :: after) n1
        (before ++ .phi ins args recs rs outs sub' :: after) := by
      refine replace hp q1 rfl (fun B _ hB => ?_) ?_ (fun z hz => ?_) (fun sem E => ?_)
      · simp only [wfNode, Bool.and_eq_true, mem_subset] at hB ⊢
        exact ⟨⟨hB.1.1, q2⟩, q5⟩
      · rw [namesNode, List.append_assoc, List.append_assoc, List.nodup_append, ← List.append_assoc]
        refine ⟨hn'.1, q3, fun a ha b hb e => ?_⟩
        subst e
        rcases List.mem_append.1 hb with hb | hb
        · exact hn'.2.2 a ha a (List.mem_append_left _ hb) rfl
        · rcases q4 a hb with h4 | h4
          · exact hn'.2.2 a ha a (List.mem_append_right _ h4) rfl
          · have := hl a (by tauto)
            omega
      · simp only [namesNode, List.mem_append] at hz ⊢
        rcases hz with hz | hz
        · exact .inl (.inl hz)
        · rcases q4 z hz with h4 | h4
          · exact .inl (.inr h4)
          · exact .inr h4
      · simp only [nodeVals, q6]
    have p2 := s2.pre hp
    rw [List.append_cons] at p2
    have s3 := pullNodes_spec hg after _ h p2
    rw [← List.append_cons] at s3
    exact s2.trans s3

theorem pullRegion_good : ∀ f : Nat, Good (pullRegion f)
  | 0 => by
    intro ns ns' R n n' h A hp
    simp only [pullRegion, Option.some.injEq, Prod.mk.injEq] at h
    obtain ⟨rfl, rfl⟩ := h
    exact .refl hp
  | f + 1 => by
    intro ns ns' R n n' h A hp
    simp only [pullRegion, Option.map_eq_some_iff, Prod.mk.injEq] at h
    obtain ⟨⟨l, k⟩, h, rfl, rfl⟩ := h
    simp only [list_nodesOf]
    exact pullNodes_spec (pullRegion_good f) ns.list [] h hp

theorem lt_freshName : ∀ {l : List Out} {z : Nat}, z ∈ l → z < freshName l
  | a :: l, z, h => by
    simp only [freshName, List.foldr_cons]
    rcases List.mem_cons.1 h with rfl | h
    · exact Nat.lt_of_lt_of_le (Nat.lt_succ_self _) (Nat.le_max_left _ _)
    · exact Nat.lt_of_lt_of_le (lt_freshName h) (Nat.le_max_right _ _)

/-- **C41, node sinking preserves the meaning of a module.** Whatever the operations mean, every export of the
resulting module has exactly the value it had (functions are compared with all arguments); the module stays
well-formed. -/
theorem C41_sinking {g g' : Graph} (hw : g.wf = true) (h : run g = some g') :
    g'.wf = true ∧ g'.imports = g.imports ∧ g'.exports = g.exports ∧
      ∀ {V : Type} (sem : Sem V), g'.meaning sem = g.meaning sem := by
  simp only [run, Option.map_eq_some_iff] at h
  obtain ⟨⟨body, n'⟩, h, rfl⟩ := h
  simp only [Graph.wf, Graph.names, Bool.and_eq_true, mem_subset] at hw ⊢
  obtain ⟨⟨h1, h2⟩, h3⟩ := hw
  have h1 := of_decide_eq_true h1
  obtain ⟨q1, q2, q3, q4, q5, q6⟩ := sub_post (pullRegion_good _) h h2 h1 (fun z hz => lt_freshName hz) h3
  exact ⟨⟨⟨decide_eq_true q3, q2⟩, q5⟩, trivial, trivial, fun sem => q6 sem _⟩

end Jlm.Opt.Pull
