import Verif.Opt.UnswitchStages

/-! # C42: the loop variables are routed through the gamma node, and nodes are moved into it -/

set_option linter.unusedSimpArgs false
set_option linter.unusedVariables false

namespace Jlm.Opt.Unswitch

open Jlm.Opt.Copy Jlm.Opt.Lst Jlm.Opt.Pull Jlm.Opt.Swap

variable {V : Type}

theorem branches_route (k : Nat) : ∀ (subs : Regions) (n : Nat), branches (routeSubs k subs n) = branches subs
  | .nil, _ => rfl
  | .cons _ _ _ rest, n => by simp [routeSubs, branches, branches_route k rest]

/-- The branches with additional entry and exit variables. -/
structure SubsRoute (na nr k : Nat) (subs : Regions) (n : Nat) : Prop where
  nodup : (namesRegions (routeSubs k subs n)).Nodup
  names : ∀ z : Nat, z ∈ namesRegions (routeSubs k subs n) → z ∈ namesRegions subs ∨ n ≤ z ∧ z < n + branches subs * k
  wf : wfRegions (na + k) (nr + k) (routeSubs k subs n) = true
  eval : ∀ {V : Type} (sem : Sem V) (c : Nat) (ws vs : List (W V)), ws.length = na → vs.length = k → c < branches subs →
    regionVals sem (routeSubs k subs n) c (ws ++ vs) = regionVals sem subs c ws ++ vs

theorem routeSubs_spec {na nr k : Nat} : ∀ (subs : Regions) {n : Nat}, wfRegions na nr subs = true →
    (namesRegions subs).Nodup → (∀ z : Nat, z ∈ namesRegions subs → z < n) → SubsRoute na nr k subs n
  | .nil, n, hw, hn, hl => by
    refine ⟨by simp [routeSubs, namesRegions], by simp [routeSubs, namesRegions], by simp [routeSubs, wfRegions], ?_⟩
    intro V sem c ws vs _ _ hc
    simp [branches] at hc
  | .cons args results sub rest, n, hw, hn, hl => by
    simp only [wfRegions, Bool.and_eq_true, mem_subset, beq_iff_eq] at hw
    obtain ⟨⟨⟨⟨hl1, hl2⟩, hwf⟩, hsub⟩, hrest⟩ := hw
    rw [namesRegions, List.nodup_append] at hn
    simp only [namesRegions, List.mem_append] at hl
    obtain ⟨hn1, hn2, hn3⟩ := hn
    rw [List.nodup_append] at hn1
    obtain ⟨hna, hns, hnas⟩ := hn1
    have hr := routeSubs_spec (k := k) rest (n := n + k) hrest hn2 (fun z hz => by
      have := hl z (.inr hz)
      omega)
    have hrn := hr.names
    have hmul : (branches rest + 1) * k = branches rest * k + k := Nat.succ_mul _ _
    have hout : ∀ o ∈ sub.outs, o ∈ namesNodes sub := outs_namesNodes _
    refine ⟨?_, fun z hz => ?_, ?_, fun sem c ws vs hws hvs hc => ?_⟩
    · simp only [routeSubs, namesRegions]
      rw [List.nodup_append, List.nodup_append, List.nodup_append]
      refine ⟨⟨⟨hna, List.nodup_range', fun a ha b hb e => ?_⟩, hns, fun a ha b hb e => ?_⟩, hr.nodup, fun a ha b hb e => ?_⟩ <;>
        subst e
      · have := hl a (.inl (.inl ha))
        rw [mem_range'] at hb
        omega
      · rcases List.mem_append.1 ha with ha | ha
        · exact hnas a ha a hb rfl
        · have := hl a (.inl (.inr hb))
          rw [mem_range'] at ha
          omega
      · simp only [List.mem_append, mem_range'] at ha
        rcases hrn a hb with h | h
        · rcases ha with (ha | ha) | ha
          · exact hn3 a (by simp [ha]) a h rfl
          · have := hl a (.inr h)
            omega
          · exact hn3 a (by simp [ha]) a h rfl
        · rcases ha with (ha | ha) | ha
          · have := hl a (.inl (.inl ha)); omega
          · omega
          · have := hl a (.inl (.inr ha)); omega
    · simp only [routeSubs, namesRegions, branches, List.mem_append, mem_range'] at hz ⊢
      rw [hmul]
      rcases hz with ((hz | hz) | hz) | hz
      · exact .inl (.inl (.inl hz))
      · exact .inr (by omega)
      · exact .inl (.inl (.inr hz))
      · rcases hrn z hz with h | h
        · exact .inl (.inr h)
        · exact .inr (by omega)
    · simp only [routeSubs, wfRegions, Bool.and_eq_true, mem_subset, beq_iff_eq, List.length_append, List.length_range']
      refine ⟨⟨⟨⟨by omega, by omega⟩, wf_mono (fun o ho => by simp [ho]) hwf⟩, fun o ho => ?_⟩, hr.wf⟩
      rcases List.mem_append.1 ho with ho | ho
      · have := hsub o ho
        simp only [List.mem_append] at this ⊢
        tauto
      · simp [ho]
    · cases c with
      | succ c =>
        simp only [routeSubs, regionVals]
        exact hr.eval sem c ws vs hws hvs (by simpa [branches] using hc)
      | zero =>
        simp only [routeSubs, regionVals, List.map_append]
        have hfresh : ∀ z : Nat, z ∈ args ++ sub.outs → z ∉ List.range' n k := by
          intro z hz h'
          rw [mem_range'] at h'
          rcases List.mem_append.1 hz with hz | hz
          · have := hl z (.inl (.inl hz)); omega
          · have := hl z (.inl (.inr (hout z hz))); omega
        have hu : ∀ z, upd emptyEnv (args ++ List.range' n k) (ws ++ vs) z = upd (upd emptyEnv (List.range' n k) vs) args ws z :=
          fun z => upd_append (by omega)
        congr 1
        · refine List.map_congr_left fun o ho => ?_
          refine evalNodes_agree sem (fun z => z ∉ List.range' n k) sub _ _ (fun i hi => hfresh i (wf_ins sub hwf i hi))
            (fun z hz => ?_) o (hfresh o (hsub o ho))
          rw [hu]
          by_cases hza : z ∈ args
          · exact upd_congr _ _ _ fun h' => absurd hza h'
          · rw [upd_notin _ _ _ _ hza, upd_notin _ _ _ _ hza, upd_notin _ _ _ _ hz]
        · have e : (List.range' n k).map (evalNodes sem sub (upd emptyEnv (args ++ List.range' n k) (ws ++ vs))) =
              (List.range' n k).map (upd emptyEnv (List.range' n k) vs) := by
            refine List.map_congr_left fun o ho => ?_
            rw [evalNodes_notin sem _ _ o (fun h' => hfresh o (by simp [h']) ho), hu,
              upd_notin _ _ _ _ (fun h' => hfresh o (by simp [h']) ho)]
          rw [e]
          exact map_upd_self List.nodup_range' (by simp [hvs])

/-! ## Loops whose bodies agree as long as the loop goes on -/

theorem loopVals_congr_pred {sem : Sem V} {f f' : List (W V) → List (W V)} {init : List (W V)}
    (h0 : ∀ ws, (f ws).headD none = none → (f' ws).headD none = none)
    (h1 : ∀ ws, (f ws).headD none ≠ none → f' ws = f ws) : loopVals sem f' init = loopVals sem f init := by
  have hh : ∀ ws, (f' ws).headD none = (f ws).headD none := by
    intro ws
    by_cases h : (f ws).headD none = none
    · rw [h, h0 ws h]
    · rw [h1 ws h]
  -- the states agree as long as the predicates are produced
  have hst : ∀ m, (∀ i, i < m → (f (loopState f init i)).headD none ≠ none) → loopState f' init m = loopState f init m := by
    intro m
    induction m with
    | zero => intro _; rfl
    | succ m ih =>
      intro h
      rw [loopState, loopState, ih fun i hi => h i (by omega), h1 _ (h m (by omega))]
  have hst' : ∀ m, (∀ i, i < m → (f' (loopState f' init i)).headD none ≠ none) → loopState f' init m = loopState f init m := by
    intro m
    induction m with
    | zero => intro _; rfl
    | succ m ih =>
      intro h
      have hm := h m (by omega)
      rw [hh, ih fun i hi => h i (by omega)] at hm
      rw [loopState, loopState, ih fun i hi => h i (by omega), h1 _ hm]
  have some_ne : ∀ {x : W V} {c : Nat}, (x.map fun v => sem.ctl v.1) = some c → x ≠ none := by
    intro x c h e; rw [e] at h; simp at h
  rcases loopVals_exit' (sem := sem) (f := f) (init := init) with ⟨j, hj, hv⟩ | ⟨hj, hv⟩
  · have hne : ∀ i, i < j + 1 → (f (loopState f init i)).headD none ≠ none := by
      intro i hi
      rcases Nat.lt_succ_iff_lt_or_eq.1 hi with hi | rfl
      · obtain ⟨c, hc⟩ := hj.2 i hi
        exact some_ne hc
      · exact some_ne hj.1
    have hp : ∀ i, i ≤ j → loopPred sem f' init i = loopPred sem f init i := by
      intro i hi
      simp only [loopPred, hst i (fun i' hi' => hne i' (by omega)), hh]
    have hex : loopExits sem f' init j := ⟨by rw [hp j (Nat.le_refl _)]; exact hj.1, fun m hm => by
      rw [hp m (by omega)]; exact hj.2 m hm⟩
    rw [loopVals_at hex, hv, hst _ hne]
  · rw [hv, Dne.loopVals_none]
    rintro ⟨j, hj'⟩
    have hne : ∀ i, i < j + 1 → (f' (loopState f' init i)).headD none ≠ none := by
      intro i hi
      rcases Nat.lt_succ_iff_lt_or_eq.1 hi with hi | rfl
      · obtain ⟨c, hc⟩ := hj'.2 i hi
        exact some_ne hc
      · exact some_ne hj'.1
    have hp : ∀ i, i ≤ j → loopPred sem f init i = loopPred sem f' init i := by
      intro i hi
      simp only [loopPred, hst' i (fun i' hi' => hne i' (by omega)), hh]
    exact hj j ⟨by rw [hp j (Nat.le_refl _)]; exact hj'.1, fun m hm => by rw [hp m (by omega)]; exact hj'.2 m hm⟩

/-! ## Routing -/

theorem routePosts_map {α : Type} {gouts : List Out} {X Y : Out → α} (hg : ∀ o ∈ gouts, X o = Y o) :
    ∀ (posts news : List Out), news.length = (posts.filter fun o => !gouts.contains o).length →
      news.map X = (posts.filter fun o => !gouts.contains o).map Y → (routePosts gouts posts news).map X = posts.map Y
  | [], news, _, _ => by simp [routePosts]
  | o :: posts, news, hl, h => by
    simp only [routePosts]
    by_cases ho : o ∈ gouts
    · have hc : gouts.contains o = true := by simpa using ho
      simp only [hc, if_true, List.map_cons, hg o ho]
      simp only [List.filter_cons, hc, Bool.not_true, Bool.false_eq_true, if_false] at hl h
      rw [routePosts_map hg posts news hl h]
    · have hc : gouts.contains o = false := by simpa using ho
      simp only [List.filter_cons, hc, Bool.not_false, if_true, List.length_cons, List.map_cons] at hl h
      cases news with
      | nil => simp at hl
      | cons z news =>
        simp only [List.map_cons, List.cons.injEq, List.length_cons, Nat.add_right_cancel_iff] at hl h
        simp only [hc, Bool.false_eq_true, if_false, List.headD_cons, List.tail_cons, List.map_cons, h.1,
          routePosts_map hg posts news hl h.2]

theorem routePosts_mem {gouts : List Out} : ∀ (posts news : List Out),
    news.length = (posts.filter fun o => !gouts.contains o).length → ∀ o ∈ routePosts gouts posts news, o ∈ gouts ++ news
  | [], news, _ => by simp [routePosts]
  | o :: posts, news, hl => by
    simp only [routePosts]
    by_cases ho : o ∈ gouts
    · have hc : gouts.contains o = true := by simpa using ho
      simp only [hc, if_true, List.mem_cons]
      simp only [List.filter_cons, hc, Bool.not_true, Bool.false_eq_true, if_false] at hl
      rintro x (rfl | hx)
      · simp [ho]
      · exact routePosts_mem posts news hl x hx
    · have hc : gouts.contains o = false := by simpa using ho
      simp only [List.filter_cons, hc, Bool.not_false, if_true, List.length_cons] at hl
      cases news with
      | nil => simp at hl
      | cons z news =>
        simp only [List.length_cons, Nat.add_right_cancel_iff] at hl
        simp only [hc, Bool.false_eq_true, if_false, List.headD_cons, List.tail_cons, List.mem_cons]
        rintro x (rfl | hx)
        · simp
        · have := routePosts_mem posts news hl x hx
          simp only [List.mem_append, List.mem_cons] at this ⊢
          tauto

theorem routePosts_length {gouts : List Out} : ∀ (posts news : List Out), (routePosts gouts posts news).length = posts.length
  | [], news => rfl
  | o :: posts, news => by
    simp only [routePosts]
    split <;> simp [routePosts_length posts]

theorem regionVals_len (sem : Sem V) {na nr : Nat} : ∀ (subs : Regions) (c : Nat) (ws : List (W V)),
    wfRegions na nr subs = true → c < branches subs → (regionVals sem subs c ws).length = nr
  | .nil, c, ws, _, hc => by simp [branches] at hc
  | .cons args results sub rest, 0, ws, h, _ => by
    simp only [wfRegions, Bool.and_eq_true, beq_iff_eq] at h
    simp [regionVals, h.1.1.1.2]
  | .cons args results sub rest, c + 1, ws, h, hc => by
    simp only [wfRegions, Bool.and_eq_true] at h
    simp only [regionVals]
    exact regionVals_len sem rest c ws h.2 (by simpa [branches] using hc)

/-- The loop `L'` may replace the loop `L`. -/
structure Sunk (A : List Out) (L : Loop) (n : Nat) (L' : Loop) (n' : Nat) : Prop where
  le : n ≤ n'
  wf : ∀ B, (∀ o ∈ L.ins, o ∈ B) → wfNode B L'.node = true
  nodup : (namesNode L'.node).Nodup
  names : ∀ z : Nat, z ∈ namesNode L'.node → z ∈ namesNode L.node ∨ n ≤ z ∧ z < n'
  ins : L'.ins = L.ins
  outs : L'.outs = L.outs
  pred : L'.gpred = L'.pred
  posts : ∀ o ∈ L'.posts, o ∈ L'.gouts
  ctl : ∀ {V : Type} (sem : Sem V), (∀ ws p, (L.step sem ws).headD none = some p → sem.ctl p.1 < 2) →
    ∀ ws p, (L'.step sem ws).headD none = some p → sem.ctl p.1 < 2
  eval : ∀ {V : Type} (sem : Sem V), (∀ ws p, (L.step sem ws).headD none = some p → sem.ctl p.1 < 2) →
    ∀ F : Env V, nodeVals sem L'.node F = nodeVals sem L.node F

theorem route_spec {A : List Out} {L L' : Loop} {n n' : Nat} (hw : wfNode A L.node = true) (hn : (namesNode L.node).Nodup)
    (hlt : ∀ z : Nat, z ∈ namesNode L.node → z < n) (hposts : ∀ o ∈ L.posts, o ∈ L.args ∨ o ∈ L.gouts)
    (hb : branches L.subs = 2) (hpred : L.gpred = L.pred) (h : route L n = (L', n')) : Sunk A L n L' n' := by
  obtain ⟨ins, outs, args, pred, posts, before, gpred, gins, gouts, subs, after⟩ := L
  simp only at hposts hpred hb
  subst hpred
  simp only [route, Prod.mk.injEq] at h
  obtain ⟨rfl, rfl⟩ := h
  simp only [Loop.node, Loop.body, Loop.gamma, wfNode, Bool.and_eq_true, beq_iff_eq, mem_subset] at hw
  simp only [Loop.node, Loop.body, Loop.gamma] at hn hlt
  obtain ⟨⟨⟨⟨⟨hwi, hli⟩, hla⟩, hlp⟩, hwb⟩, hwr⟩ := hw
  rw [wf_append] at hwb
  simp only [nodesOf, wfNodes, wfNode, Bool.and_eq_true, mem_subset, Node.outs] at hwb
  obtain ⟨hwbef, ⟨hwg, hwsub⟩, hwaft⟩ := hwb
  simp only [namesNode, names_append, nodesOf, namesNodes] at hn hlt
  have hnd := hn
  simp only [List.nodup_append, List.mem_append] at hnd hlt
  obtain ⟨⟨hno, hna, hoa⟩, ⟨hnb, ⟨⟨hngo, hnsub, hdgs⟩, hnaf, hdga⟩, hdb⟩, hdar⟩ := hnd
  have hout : ∀ l : List Node, ∀ o ∈ (nodesOf l).outs, o ∈ namesNodes (nodesOf l) := fun l => outs_namesNodes _
  simp only [Loop.around, hb]
  set k := (posts.filter fun o => !gouts.contains o).length with hk
  set as := posts.filter fun o => !gouts.contains o with has
  have hasA : ∀ o ∈ as, o ∈ args ∧ o ∉ gouts := by
    intro o ho
    rw [has, List.mem_filter] at ho
    have h2 : o ∉ gouts := by simpa using ho.2
    exact ⟨(hposts o ho.1).resolve_right h2, h2⟩
  have hrs := routeSubs_spec (k := k) subs (n := n) hwsub hnsub (fun z hz => hlt z (by tauto))
  have hrn := hrs.names
  rw [hb] at hrn
  have hnl : (List.range' (n + 2 * k) k).length = as.length := by simp [hk]
  -- fresh names
  have hfr : ∀ z : Nat, z < n → z ∉ List.range' (n + 2 * k) k := fun z hz h' => by rw [mem_range'] at h'; omega
  refine ⟨show n ≤ n + 2 * k + k by omega, fun B hB => ?_, ?_, fun z hz => ?_, rfl, rfl, rfl,
    routePosts_mem posts _ hnl, ?_, ?_⟩
  · simp only [Loop.node, Loop.body, Loop.gamma, wfNode, Bool.and_eq_true, beq_iff_eq, mem_subset]
    refine ⟨⟨⟨⟨⟨hB, hli⟩, hla⟩, by rw [routePosts_length]; exact hlp⟩, ?_⟩, fun o ho => ?_⟩
    · rw [wf_append]
      simp only [nodesOf, wfNodes, wfNode, Bool.and_eq_true, mem_subset, Node.outs]
      refine ⟨hwbef, ⟨fun o ho => ?_, ?_⟩, wf_mono (fun o ho => ?_) hwaft⟩
      · rcases List.mem_cons.1 ho with rfl | ho
        · exact hwg _ (by simp)
        · rcases List.mem_append.1 ho with ho | ho
          · exact hwg _ (by simp [ho])
          · exact List.mem_append_right _ (hasA o ho).1
      · have := hrs.wf
        simp only [List.length_append, hnl]
        rw [show gins.length + as.length + 1 = gins.length + 1 + k by omega]
        exact this
      · simp only [List.mem_append] at ho ⊢
        tauto
    · simp only [outs_append, nodesOf, Nodes.outs, Node.outs, List.mem_append]
      rcases List.mem_cons.1 ho with rfl | ho
      · have := hwg o (by simp)
        simp only [List.mem_append] at this
        tauto
      · have := routePosts_mem posts _ hnl o ho
        simp only [List.mem_append] at this
        tauto
  · simp only [Loop.node, Loop.body, Loop.gamma, namesNode, names_append, nodesOf, namesNodes, List.nodup_append,
      List.mem_append]
    have hs2 : ∀ z : Nat, z ∈ namesRegions (routeSubs k subs n) → z < n → z ∈ namesRegions subs := by
      intro z hz h'
      rcases hrn z hz with h | h
      · exact h
      · omega
    have hr : ∀ z : Nat, z ∈ List.range' (n + 2 * k) k → n + 2 * k ≤ z := fun z hz => (mem_range'.1 hz).1
    refine ⟨⟨hno, hna, hoa⟩, ⟨hnb, ⟨⟨⟨hngo, List.nodup_range', fun a ha b hb e => ?_⟩, hrs.nodup, fun a ha b hb e => ?_⟩,
      hnaf, fun a ha b hb e => ?_⟩, fun a ha b hb e => ?_⟩, fun a ha b hb e => ?_⟩ <;> subst e
    · exact hfr a (hlt a (by tauto)) hb
    · rcases ha with ha | ha
      · exact hdgs a ha a (hs2 a hb (hlt a (by tauto))) rfl
      · have := hr a ha
        rcases hrn a hb with h | h
        · have := hlt a (by tauto); omega
        · omega
    · have := hlt a (by tauto)
      rcases ha with (ha | ha) | ha
      · exact hdga a (.inl ha) a hb rfl
      · exact hfr a this ha
      · exact hdga a (.inr (hs2 a ha this)) a hb rfl
    · have := hlt a (by tauto)
      rcases hb with ((hb | hb) | hb) | hb
      · exact hdb a ha a (.inl (.inl hb)) rfl
      · exact hfr a this hb
      · exact hdb a ha a (.inl (.inr (hs2 a hb this))) rfl
      · exact hdb a ha a (.inr hb) rfl
    · have := hlt a (by tauto)
      rcases hb with hb | ((hb | hb) | hb) | hb
      · exact hdar a ha a (.inl hb) rfl
      · exact hdar a ha a (.inr (.inl (.inl hb))) rfl
      · exact hfr a this hb
      · exact hdar a ha a (.inr (.inl (.inr (hs2 a hb this)))) rfl
      · exact hdar a ha a (.inr (.inr hb)) rfl
  · simp only [Loop.node, Loop.body, Loop.gamma, namesNode, names_append, nodesOf, namesNodes, List.mem_append, mem_range'] at hz ⊢
    rcases hz with (hz | hz) | hz | ((hz | hz) | hz) | hz
    · tauto
    · tauto
    · tauto
    · tauto
    · exact .inr (by omega)
    · rcases hrn z hz with h | h
      · tauto
      · exact .inr (by omega)
    · tauto
  all_goals
    intro V sem hctl
    -- the values of the results
    have hpa := hwg gpred (by simp)
    simp only [List.mem_append] at hpa
    have hpg : gpred ∉ gouts := fun h' => by
      rcases hpa with h1 | h1
      · exact hdb _ (hout before _ h1) _ (.inl (.inl h')) rfl
      · exact hdar _ (.inr h1) _ (.inr (.inl (.inl h'))) rfl
    have hpaf : gpred ∉ (nodesOf after).outs := fun h' => by
      rcases hpa with h1 | h1
      · exact hdb _ (hout before _ h1) _ (.inr (hout after _ h')) rfl
      · exact hdar _ (.inr h1) _ (.inr (.inr (hout after _ h'))) rfl
    have hpn : gpred ∉ List.range' (n + 2 * k) k := hfr _ (by
      rcases hpa with h1 | h1
      · exact hlt _ (.inr (.inl (hout before _ h1)))
      · exact hlt _ (.inl (.inr h1)))
    have e1 : ∀ ws : List (W V), (gpred :: posts).map (evalNodes sem (nodesOf (before ++ .gamma gpred gins gouts subs :: after))
        (upd emptyEnv args ws)) =
        evalNodes sem (nodesOf before) (upd emptyEnv args ws) gpred ::
          posts.map (upd (evalNodes sem (nodesOf before) (upd emptyEnv args ws)) gouts
            (nodeVals sem (.gamma gpred gins gouts subs) (evalNodes sem (nodesOf before) (upd emptyEnv args ws)))) := by
      intro ws
      simp only [eval_append, nodesOf, evalNodes, List.map_cons, Node.outs]
      congr 1
      · rw [evalNodes_notin sem _ _ gpred hpaf, upd_notin _ _ _ _ hpg]
      · refine List.map_congr_left fun o ho => evalNodes_notin sem _ _ o fun h' => ?_
        rcases hposts o ho with h1 | h1
        · exact hdar _ (.inr h1) _ (.inr (.inr (hout after _ h'))) rfl
        · exact hdga o (.inl h1) o (hout after o h') rfl
    have e2 : ∀ ws : List (W V), (gpred :: routePosts gouts posts (List.range' (n + 2 * k) k)).map (evalNodes sem
        (nodesOf (before ++ .gamma gpred (gins ++ as) (gouts ++ List.range' (n + 2 * k) k) (routeSubs k subs n) :: after))
        (upd emptyEnv args ws)) =
        evalNodes sem (nodesOf before) (upd emptyEnv args ws) gpred ::
          (routePosts gouts posts (List.range' (n + 2 * k) k)).map (upd (evalNodes sem (nodesOf before) (upd emptyEnv args ws))
            (gouts ++ List.range' (n + 2 * k) k)
            (nodeVals sem (.gamma gpred (gins ++ as) (gouts ++ List.range' (n + 2 * k) k) (routeSubs k subs n))
              (evalNodes sem (nodesOf before) (upd emptyEnv args ws)))) := by
      intro ws
      simp only [eval_append, nodesOf, evalNodes, List.map_cons, Node.outs]
      congr 1
      · rw [evalNodes_notin sem _ _ gpred hpaf, upd_notin _ _ _ _ (by simp only [List.mem_append, not_or]; exact ⟨hpg, hpn⟩)]
      · refine List.map_congr_left fun o ho => evalNodes_notin sem _ _ o fun h' => ?_
        rcases List.mem_append.1 (routePosts_mem posts _ hnl o ho) with h1 | h1
        · exact hdga o (.inl h1) o (hout after o h') rfl
        · exact hfr o (hlt o (by have := hout after o h'; tauto)) h1
  · intro ws p hp
    refine hctl ws p ?_
    simp only [Loop.step, Loop.body, Loop.gamma] at hp ⊢
    rw [e2, List.headD_cons] at hp
    rw [e1, List.headD_cons]
    exact hp
  · intro F
    simp only [Loop.node, nodeVals]
    refine loopVals_congr_pred (fun ws h => ?_) (fun ws h => ?_)
    · simp only [Loop.body, Loop.gamma] at h ⊢
      rw [e1, List.headD_cons] at h
      rw [e2, List.headD_cons]
      exact h
    · simp only [Loop.body, Loop.gamma] at h ⊢
      rw [e1, List.headD_cons] at h
      rw [e1, e2]
      congr 1
      cases hp : evalNodes sem (nodesOf before) (upd emptyEnv args ws) gpred with
      | none => exact absurd hp h
      | some p =>
        have hc : sem.ctl p.1 < 2 := hctl ws p (by
          simp only [Loop.step, Loop.body, Loop.gamma]
          rw [e1, List.headD_cons]; exact hp)
        simp only [nodeVals, hp]
        rw [List.map_append, ← List.cons_append, hrs.eval sem _ _ _ (by simp) (by simp [hk]) (by rw [hb]; exact hc)]
        set E := evalNodes sem (nodesOf before) (upd emptyEnv args ws) with hE
        set gv := regionVals sem subs (sem.ctl p.1) (some (sem.content p.1, none) :: gins.map E) with hgv
        have hlg : gouts.length = gv.length := (regionVals_len sem subs _ _ hwsub (by rw [hb]; exact hc)).symm
        have hu : ∀ z, upd E (gouts ++ List.range' (n + 2 * k) k) (gv ++ as.map E) z =
            upd (upd E (List.range' (n + 2 * k) k) (as.map E)) gouts gv z := fun z => upd_append hlg
        refine routePosts_map (fun o ho => ?_) posts _ hnl ?_
        · rw [hu]
          exact upd_congr _ _ _ fun h' => absurd ho h'
        · have e3 : (List.range' (n + 2 * k) k).map (upd E (gouts ++ List.range' (n + 2 * k) k) (gv ++ as.map E)) =
              (List.range' (n + 2 * k) k).map (upd E (List.range' (n + 2 * k) k) (as.map E)) := by
            refine List.map_congr_left fun o ho => ?_
            rw [hu, upd_notin]
            exact fun h' => hfr o (hlt o (by tauto)) ho
          rw [e3, map_upd_self List.nodup_range' (by simp [hk])]
          refine List.map_congr_left fun o ho => ?_
          rw [upd_notin _ _ _ _ (hasA o ho).2]

theorem sinkNodes_spec {A : List Out} {L L' : Loop} {n n' : Nat} (hw : wfNode A L.node = true) (hn : (namesNode L.node).Nodup)
    (hlt : ∀ z : Nat, z ∈ namesNode L.node → z < n) (hposts : ∀ o ∈ L.posts, o ∈ L.args ∨ o ∈ L.gouts)
    (hb : branches L.subs = 2) (hpred : L.gpred = L.pred) (h : sinkNodes L n = some (L', n')) : Sunk A L n L' n' := by
  simp only [sinkNodes, Option.map_eq_some_iff, Prod.mk.injEq] at h
  obtain ⟨w, h, rfl, rfl⟩ := h
  have h1 := route_spec hw hn hlt hposts hb hpred (L' := (route L n).1) (n' := (route L n).2) rfl
  set M := (route L n).1 with hM
  have hwM := h1.wf L.ins fun o ho => ho
  have hnM := h1.nodup
  have hltM : ∀ z : Nat, z ∈ namesNode M.node → z < (route L n).2 := by
    intro z hz
    have := h1.le
    rcases h1.names z hz with h' | h'
    · have := hlt z h'; omega
    · exact h'.2
  simp only [Loop.node, wfNode, Bool.and_eq_true, beq_iff_eq, mem_subset] at hwM
  simp only [Loop.node, namesNode] at hnM hltM
  rw [List.append_assoc, List.nodup_append] at hnM
  have hp : Pre M.args (M.pred :: M.posts) (route L n).2 M.body := by
    have := Pull.sub_pre (n := (route L n).2) (R := M.pred :: M.posts) hwM.1.2 hnM.2.1 (fun z hz => hltM z (by
      rw [List.append_assoc, List.mem_append]; exact .inr hz)) hwM.2
    rwa [list_nodesOf] at this
  have hs : Same M.args (M.pred :: M.posts) (route L n).2 M.body w.n
      (w.before ++ .gamma M.gpred w.ins M.gouts w.subs :: M.after) :=
    pullLoop_spec (w := ⟨M.before, M.gins, M.subs, (route L n).2⟩) _ hp h
  have hp' := hs.pre hp
  have hle := hs.le
  have hle1 := h1.le
  have hstep : ∀ {V : Type} (sem : Sem V) (ws : List (W V)),
      Loop.step { M with before := w.before, gins := w.ins, subs := w.subs } sem ws = M.step sem ws := by
    intro V sem ws
    simp only [Loop.step]
    exact List.map_congr_left fun o ho => hs.eval sem _ o ho
  refine ⟨by omega, fun B hB => ?_, ?_, fun z hz => ?_, h1.ins, h1.outs, h1.pred, h1.posts, fun sem hc ws p hp => ?_,
    fun sem hc F => ?_⟩
  · have := h1.wf B hB
    simp only [Loop.node, wfNode, Bool.and_eq_true, beq_iff_eq, mem_subset] at this ⊢
    exact ⟨⟨this.1.1, hs.wf⟩, hs.res⟩
  · simp only [Loop.node, namesNode]
    rw [List.append_assoc, List.nodup_append]
    refine ⟨hnM.1, ?_, fun a ha b hb e => ?_⟩
    · rw [List.nodup_append]
      rw [List.nodup_append] at hnM
      refine ⟨hnM.2.1.1, hs.nodup, fun a ha b hb e => ?_⟩
      subst e
      exact hp'.sep a ha hb
    · subst e
      rcases List.mem_append.1 hb with hb | hb
      · exact hnM.2.2 a ha a (by simp [hb]) rfl
      · rcases hs.names a hb with h4 | h4
        · exact hnM.2.2 a ha a (by simp [h4]) rfl
        · have := hltM a (by simp [ha])
          omega
  · have hz' : z ∈ namesNode M.node ∨ (route L n).2 ≤ z ∧ z < w.n := by
      simp only [Loop.node, namesNode, List.mem_append] at hz ⊢
      rcases hz with (hz | hz) | hz
      · tauto
      · tauto
      · rcases hs.names z hz with h4 | h4
        · tauto
        · exact .inr h4
    rcases hz' with h4 | h4
    · rcases h1.names z h4 with h5 | h5
      · exact .inl h5
      · exact .inr (by omega)
    · exact .inr (by omega)
  · rw [hstep] at hp
    exact h1.ctl sem hc ws p hp
  · rw [← h1.eval sem hc F]
    simp only [Loop.node, nodeVals]
    congr 1
    funext ws
    exact hstep sem ws

end Jlm.Opt.Unswitch
