import Verif.Opt.PullProps
import Verif.Opt.RefineLemmas
import Verif.Opt.IvrCorr
import Verif.Opt.DneEval

/-!
# Replacing nodes of a region by nodes that produce at least the same values

Proof infrastructure for optimisations that replace a node of a region, and possibly divert the users of its outputs.
-/

set_option linter.unusedSimpArgs false
set_option linter.unusedVariables false

namespace Jlm.Opt.Swap

open Jlm.Opt.Copy Jlm.Opt.Lst Jlm.Opt.Pull

variable {V : Type} {Q : ∀ V : Type, Sem V → Prop}

/-- The nodes `l'` with results `R'` may replace the nodes `l` with results `R`, for all meanings of operations that
satisfy `Q`. -/
structure Better (Q : ∀ V : Type, Sem V → Prop) (A R : List Out) (n : Nat) (l : List Node) (R' : List Out) (n' : Nat) (l' : List Node) : Prop where
  le : n ≤ n'
  wf : wfNodes A (nodesOf l') = true
  nodup : (namesNodes (nodesOf l')).Nodup
  names : ∀ z : Nat, z ∈ namesNodes (nodesOf l') → z ∈ namesNodes (nodesOf l) ∨ n ≤ z ∧ z < n'
  res : ∀ r ∈ R', r ∈ A ++ (nodesOf l').outs
  len : R.length = R'.length
  eval : ∀ {V : Type} (sem : Sem V), sem.Mono → Q V sem → SubLe sem (nodesOf l) R (nodesOf l') R'

theorem Better.pre {A R R' : List Out} {n n' : Nat} {l l' : List Node} (h : Better Q A R n l R' n' l') (hp : Pre A R n l) :
    Pre A R' n' l' := by
  have hle := h.le
  refine ⟨h.wf, h.nodup, fun o ho h' => ?_, fun z hz => Nat.lt_of_lt_of_le (hp.ltA z hz) hle, fun z hz => ?_, h.res⟩
  · rcases h.names o h' with h1 | h1
    · exact hp.sep o ho h1
    · exact absurd (Nat.lt_of_lt_of_le (hp.ltA o ho) h1.1) (Nat.lt_irrefl _)
  · rcases h.names z hz with h1 | h1
    · have := hp.lt z h1; omega
    · exact h1.2

theorem Better.refl {A R : List Out} {n : Nat} {l : List Node} (hp : Pre A R n l) : Better Q A R n l R n l :=
  ⟨Nat.le_refl _, hp.wf, hp.nodup, fun _ h => .inl h, hp.res, rfl, fun _ hm _ => SubLe.refl hm _ _⟩

theorem Better.trans {A R1 R2 R3 : List Out} {n1 n2 n3 : Nat} {l1 l2 l3 : List Node} (h : Better Q A R1 n1 l1 R2 n2 l2)
    (h' : Better Q A R2 n2 l2 R3 n3 l3) : Better Q A R1 n1 l1 R3 n3 l3 := by
  have h1 := h.le
  have h2 := h'.le
  refine ⟨by omega, h'.wf, h'.nodup, fun z hz => ?_, h'.res, h.len.trans h'.len, fun sem hm hc => (h.eval sem hm hc).trans (h'.eval sem hm hc)⟩
  rcases h'.names z hz with h3 | h3
  · rcases h.names z h3 with h4 | h4
    · exact .inl h4
    · exact .inr ⟨h4.1, by omega⟩
  · exact .inr ⟨by omega, h3.2⟩

theorem Better.prune {A R : List Out} {n : Nat} {l : List Node} (hp : Pre A R n l) :
    Better Q A R n l R n (Dne.prune (nodesOf l) R).list := by
  have h1 := Dne.prune_wf (nodesOf l) A R hp.wf
  refine ⟨Nat.le_refl _, ?_, ?_, fun z hz => ?_, fun r hr => ?_, rfl, fun sem hm hc => ?_⟩
  · rw [nodesOf_list]; exact h1.1
  · rw [nodesOf_list]; exact hp.nodup.sublist (Dne.prune_names R _)
  · rw [nodesOf_list] at hz
    exact .inl ((Dne.prune_names R _).subset hz)
  · rw [nodesOf_list]; exact h1.2.2 r hr (hp.res r hr)
  · rw [nodesOf_list]
    exact subLe_agree hm fun e r hr => Dne.prune_eval sem _ R e e (fun _ _ => rfl) r hr

theorem divert_list (τ : Out → Out) : ∀ l : List Node, nodesOf (l.map (Node.divert τ)) = (nodesOf l).divert τ
  | [] => rfl
  | x :: l => by simp [nodesOf, Nodes.divert, divert_list τ l]

theorem outs_divert (τ : Out → Out) : ∀ ns : Nodes, (ns.divert τ).outs = ns.outs
  | .nil => rfl
  | .cons x ns => by simp [Nodes.divert, Nodes.outs, Node.divert_outs, outs_divert τ ns]

/-- The nodes `l'` with results `R'` may replace the nodes `l` with results `R` in environments that satisfy `K`. Results that are
arguments of the region are not changed. -/
structure BetterK (K : ∀ V : Type, Sem V → Env V → Prop) (Q : ∀ V : Type, Sem V → Prop) (A R : List Out) (n : Nat) (l : List Node)
    (R' : List Out) (n' : Nat) (l' : List Node) : Prop where
  le : n ≤ n'
  wf : wfNodes A (nodesOf l') = true
  nodup : (namesNodes (nodesOf l')).Nodup
  names : ∀ z : Nat, z ∈ namesNodes (nodesOf l') → z ∈ namesNodes (nodesOf l) ∨ n ≤ z ∧ z < n'
  res : ∀ r ∈ R', r ∈ A ++ (nodesOf l').outs
  len : R.length = R'.length
  keep : ∀ (k : Nat) (o : Out), o ∈ A → R[k]? = some o → R'[k]? = some o
  eval : ∀ {V : Type} (sem : Sem V), sem.Mono → Q V sem → ∀ e e' : Env V, (∀ x, LeW (e x) (e' x)) → K V sem e' →
    LeLW (R.map (evalNodes sem (nodesOf l) e)) (R'.map (evalNodes sem (nodesOf l') e'))

theorem BetterK.better {K : ∀ V : Type, Sem V → Env V → Prop} {A R R' : List Out} {n n' : Nat} {l l' : List Node}
    (h : BetterK K Q A R n l R' n' l') (hK : ∀ (V : Type) (sem : Sem V) (e : Env V), K V sem e) : Better Q A R n l R' n' l' :=
  ⟨h.le, h.wf, h.nodup, h.names, h.res, h.len, fun sem hm hc => ⟨h.len, fun e e' he => h.eval sem hm hc e e' he (hK _ sem e')⟩⟩

theorem BetterK.pre {K : ∀ V : Type, Sem V → Env V → Prop} {A R R' : List Out} {n n' : Nat} {l l' : List Node}
    (h : BetterK K Q A R n l R' n' l') (hp : Pre A R n l) : Pre A R' n' l' := by
  have hle := h.le
  refine ⟨h.wf, h.nodup, fun o ho h' => ?_, fun z hz => Nat.lt_of_lt_of_le (hp.ltA z hz) hle, fun z hz => ?_, h.res⟩
  · rcases h.names o h' with h1 | h1
    · exact hp.sep o ho h1
    · exact absurd (Nat.lt_of_lt_of_le (hp.ltA o ho) h1.1) (Nat.lt_irrefl _)
  · rcases h.names z hz with h1 | h1
    · have := hp.lt z h1; omega
    · exact h1.2

theorem swapK {K : ∀ V : Type, Sem V → Env V → Prop} {A R : List Out} {n n' : Nat} {p s mid : List Node} {y : Node} {τ : Out → Out}
    (hp : Pre A R n (p ++ y :: s)) (hle : n ≤ n')
    (hwf : wfNodes ((nodesOf p).outs ++ A) (nodesOf mid) = true) (hnd : (namesNodes (nodesOf mid)).Nodup)
    (hnames : ∀ z : Nat, z ∈ namesNodes (nodesOf mid) → z ∈ namesNode y ∨ n ≤ z ∧ z < n')
    (hτ : ∀ o, o ∉ y.outs → τ o = o)
    (hos : ∀ o ∈ y.outs, τ o ∈ A ++ (nodesOf p).outs ++ (nodesOf mid).outs)
    (hK : ∀ {V : Type} (sem : Sem V) (e : Env V), K V sem e → K V sem (evalNodes sem (nodesOf p) e))
    (hv : ∀ {V : Type} (sem : Sem V), sem.Mono → Q V sem → ∀ F : Env V, (∀ x, LeW (F x) (F x)) → K V sem F →
      ∀ (k : Nat) (o : Out), y.outs[k]? = some o →
        LeW ((nodeVals sem y F).getD k none) (evalNodes sem (nodesOf mid) F (τ o))) :
    BetterK K Q A R n (p ++ y :: s) (R.map τ) n' (p ++ mid ++ s.map (Node.divert τ)) := by
  have hw := hp.wf
  have hn := hp.nodup
  have hl := hp.lt
  have hltA := hp.ltA
  have hsep := hp.sep
  have hres := hp.res
  rw [wf_append] at hw
  simp only [nodesOf, wfNodes, Bool.and_eq_true] at hw
  obtain ⟨hwp, hwy, hws⟩ := hw
  simp only [names_append, nodesOf, namesNodes, List.mem_append, not_or] at hn hl hsep
  simp only [outs_append, nodesOf, Nodes.outs, List.mem_append] at hres
  simp only [List.nodup_append, List.mem_append] at hn
  obtain ⟨hn1, ⟨hn2, hn3, hdy⟩, hdp⟩ := hn
  have hout : ∀ l : List Node, ∀ o ∈ (nodesOf l).outs, o ∈ namesNodes (nodesOf l) := fun l => outs_namesNodes _
  -- names of the new nodes are not used elsewhere
  have hmid : ∀ z : Nat, z ∈ namesNodes (nodesOf mid) → z ∉ A ∧ z ∉ namesNodes (nodesOf p) ∧ z ∉ namesNodes (nodesOf s) := by
    intro z hz
    rcases hnames z hz with h | h
    · exact ⟨fun h' => (hsep z h').2.1 h, fun h' => hdp z h' z (.inl h) rfl, fun h' => hdy z h z h' rfl⟩
    · refine ⟨fun h' => ?_, fun h' => ?_, fun h' => ?_⟩
      · have := hltA z h'; omega
      · have := hl z (.inl h'); omega
      · have := hl z (.inr (.inr h')); omega
  have hys : ∀ o ∈ y.outs, o ∉ (nodesOf s).outs := fun o ho h' => hdy o (outs_names y o ho) o (hout s o h') rfl
  have hτs : ∀ o ∈ (nodesOf s).outs, τ o = o := fun o ho => hτ o fun h' => hys o h' ho
  have hosS : ∀ o ∈ y.outs, τ o ∉ (nodesOf s).outs := by
    intro o ho h'
    have h1 := hos o ho
    simp only [List.mem_append] at h1
    rcases h1 with (h1 | h1) | h1
    · exact (hsep _ h1).2.2 (hout s _ h')
    · exact hdp _ (hout p _ h1) _ (.inr (hout s _ h')) rfl
    · exact (hmid _ (hout mid _ h1)).2.2 (hout s _ h')
  have hsi : ∀ o ∈ (nodesOf s).ins, o ∈ A ∨ o ∈ (nodesOf p).outs ∨ o ∈ y.outs ∨ o ∈ (nodesOf s).outs := by
    intro o ho
    have := wf_ins _ hws o ho
    simp only [List.mem_append] at this
    tauto
  refine ⟨hle, ?_, ?_, ?_, ?_, by simp, ?_, ?_⟩
  · rw [List.append_assoc, wf_append, wf_append, divert_list]
    refine ⟨hwp, hwf, Dne.wfNodes_divert (nodesOf s) _ _ (fun o ho h1 => ?_) hτs hws⟩
    simp only [List.mem_append] at h1 ⊢
    by_cases hy : o ∈ y.outs
    · have h2 := hos o hy
      simp only [List.mem_append] at h2
      tauto
    · rw [hτ o hy]
      tauto
  · rw [List.append_assoc, names_append, names_append, divert_list, Dne.Nodes.divert_names]
    simp only [List.nodup_append, List.mem_append]
    refine ⟨hn1, ⟨hnd, hn3, fun a ha b hb e => ?_⟩, fun a ha b hb e => ?_⟩ <;> subst e
    · exact (hmid a ha).2.2 hb
    · rcases hb with hb | hb
      · exact (hmid a hb).2.1 ha
      · exact hdp a ha a (.inr hb) rfl
  · intro z hz
    simp only [List.append_assoc, names_append, divert_list, Dne.Nodes.divert_names, nodesOf, namesNodes,
      List.mem_append] at hz ⊢
    rcases hz with hz | hz | hz
    · exact .inl (.inl hz)
    · rcases hnames z hz with h | h
      · exact .inl (.inr (.inl h))
      · exact .inr h
    · exact .inl (.inr (.inr hz))
  · intro r hr
    obtain ⟨r, hr1, rfl⟩ := List.mem_map.1 hr
    have h1 := hres r hr1
    simp only [List.append_assoc, outs_append, divert_list, outs_divert, List.mem_append]
    by_cases hy : r ∈ y.outs
    · have h2 := hos r hy
      simp only [List.mem_append] at h2
      tauto
    · rw [hτ r hy]
      tauto
  · intro k o ho hk
    rw [List.getElem?_map, hk, Option.map_some, hτ o fun h' => (hsep o ho).2.1 (outs_names y o h')]
  · intro V sem hm hc e e' he hke
    have hF := evalNodes_mono' hm (nodesOf p) he
    set E := evalNodes sem (nodesOf p) e with hE
    set F := evalNodes sem (nodesOf p) e' with hF'
    have hFF : ∀ x, LeW (F x) (F x) := fun x => (hF x).right
    have hyv : LeLW (nodeVals sem y E) (nodeVals sem y F) := nodeVals_mono hm y E F fun i _ => hF i
    have key : ∀ x, (x ∉ (nodesOf mid).outs ∨ x ∈ y.outs) →
        LeW (upd E y.outs (nodeVals sem y E) x) (evalNodes sem (nodesOf mid) F (τ x)) := by
      intro x hx
      by_cases hy : x ∈ y.outs
      · obtain ⟨k, hk⟩ := List.getElem?_of_mem hy
        rw [Cne.upd_get (nodup_outs hn2) hk]
        exact (hyv k).trans (hv sem hm hc F hFF (hK sem e' hke) k x hk)
      · rw [upd_notin _ _ _ _ hy, hτ x hy, evalNodes_notin sem _ F x (hx.resolve_right hy)]
        exact hF x
    have hQ : ∀ x, (x ∈ A ∨ x ∈ (nodesOf p).outs ∨ x ∈ y.outs ∨ x ∈ (nodesOf s).outs) →
        (x ∉ (nodesOf mid).outs ∨ x ∈ y.outs) := by
      intro x hx
      by_cases hy : x ∈ y.outs
      · exact .inr hy
      · refine .inl fun h' => ?_
        have h2 := hmid x (hout mid x h')
        rcases hx with hx | hx | hx | hx
        · exact h2.1 hx
        · exact h2.2.1 (hout p x hx)
        · exact hy hx
        · exact h2.2.2 (hout s x hx)
    have := evalNodes_divert_le hm τ (fun x => x ∉ (nodesOf mid).outs ∨ x ∈ y.outs) (nodesOf s)
      (evalNodes sem (nodesOf mid) F) (upd E y.outs (nodeVals sem y E)) (fun i hi => hQ i (hsi i hi)) hτs
      (fun x hx hx' => by
        by_cases hy : x ∈ y.outs
        · exact hosS x hy
        · rw [hτ x hy]; exact hx') key
    simp only [List.append_assoc, eval_append, divert_list, nodesOf, evalNodes, List.map_map]
    have h3 : ∀ r ∈ R, LeW (evalNodes sem (nodesOf s) (upd E y.outs (nodeVals sem y E)) r)
        ((evalNodes sem ((nodesOf s).divert τ) (evalNodes sem (nodesOf mid) F) ∘ τ) r) := by
      intro r hr
      have h1 := hres r hr
      exact this r (hQ r (by tauto))
    exact LeLW.map R h3

theorem swap {A R : List Out} {n n' : Nat} {p s mid : List Node} {y : Node} {τ : Out → Out}
    (hp : Pre A R n (p ++ y :: s)) (hle : n ≤ n')
    (hwf : wfNodes ((nodesOf p).outs ++ A) (nodesOf mid) = true) (hnd : (namesNodes (nodesOf mid)).Nodup)
    (hnames : ∀ z : Nat, z ∈ namesNodes (nodesOf mid) → z ∈ namesNode y ∨ n ≤ z ∧ z < n')
    (hτ : ∀ o, o ∉ y.outs → τ o = o)
    (hos : ∀ o ∈ y.outs, τ o ∈ A ++ (nodesOf p).outs ++ (nodesOf mid).outs)
    (hv : ∀ {V : Type} (sem : Sem V), sem.Mono → Q V sem → ∀ F : Env V, (∀ x, LeW (F x) (F x)) →
      ∀ (k : Nat) (o : Out), y.outs[k]? = some o →
        LeW ((nodeVals sem y F).getD k none) (evalNodes sem (nodesOf mid) F (τ o))) :
    Better Q A R n (p ++ y :: s) (R.map τ) n' (p ++ mid ++ s.map (Node.divert τ)) :=
  (swapK (K := fun _ _ _ => True) hp hle hwf hnd hnames hτ hos (fun _ _ h => h) (fun sem hm hc F hF _ => hv sem hm hc F hF)).better
    fun _ _ _ => trivial

/-- A node that takes the place of a node with the same outputs. -/
theorem swap_node {A R : List Out} {n n' : Nat} {p s : List Node} {y y' : Node} (hp : Pre A R n (p ++ y :: s))
    (hle : n ≤ n') (houts : y'.outs = y.outs)
    (hwf : ∀ B, wfNode B y = true → wfNode B y' = true) (hnd : (namesNode y').Nodup)
    (hnames : ∀ z : Nat, z ∈ namesNode y' → z ∈ namesNode y ∨ n ≤ z ∧ z < n')
    (hv : ∀ {V : Type} (sem : Sem V), sem.Mono → Q V sem → NodeLe sem y y') :
    Better Q A R n (p ++ y :: s) R n' (p ++ y' :: s) := by
  have hw := hp.wf
  rw [wf_append] at hw
  simp only [nodesOf, wfNodes, Bool.and_eq_true] at hw
  have h := swap (mid := [y']) (τ := id) hp hle (by simp only [nodesOf, wfNodes, Bool.and_true]; exact hwf _ hw.2.1)
    (by simpa [nodesOf, namesNodes] using hnd) (by simpa [nodesOf, namesNodes] using hnames) (fun _ _ => rfl)
    (fun o ho => by simp [nodesOf, Nodes.outs, houts, ho]) (fun sem hm hc F hF k o ho => by
      have := hv sem hm hc F F (fun i _ => hF i) k
      simp only [nodesOf, evalNodes, id]
      rw [Cne.upd_get (nodup_outs hnd) (by rw [houts]; exact ho)]
      exact this)
  have e : s.map (Node.divert id) = s := by
    rw [List.map_congr_left (g := id) (fun x _ => Dne.Node.divert_id x), List.map_id]
  simpa [e] using h

/-! ## Nested regions -/

/-- What is needed of a subregion after it has been transformed. -/
theorem sub_post {args R R' : List Out} {n n' : Nat} {sub : Nodes} {l : List Node}
    (hg : Pre args R n sub.list → Better Q args R n sub.list R' n' l) (hw : wfNodes args sub = true)
    (hn : (args ++ namesNodes sub).Nodup) (hl : ∀ z : Nat, z ∈ args ++ namesNodes sub → z < n)
    (hr : ∀ r ∈ R, r ∈ args ++ sub.outs) :
    n ≤ n' ∧ wfNodes args (nodesOf l) = true ∧ (args ++ namesNodes (nodesOf l)).Nodup ∧
      (∀ z : Nat, z ∈ namesNodes (nodesOf l) → z ∈ namesNodes sub ∨ n ≤ z ∧ z < n') ∧
      (∀ r ∈ R', r ∈ args ++ (nodesOf l).outs) ∧
      ∀ {V : Type} (sem : Sem V), sem.Mono → Q V sem → SubLe sem sub R (nodesOf l) R' := by
  have hp := Pull.sub_pre hw hn hl hr
  have hs := hg hp
  have hp' := hs.pre hp
  have e1 : nodesOf sub.list = sub := nodesOf_list sub
  refine ⟨hs.le, hs.wf, ?_, fun z hz => ?_, hs.res, fun sem hm hc => ?_⟩
  · rw [List.nodup_append] at hn ⊢
    refine ⟨hn.1, hs.nodup, fun a ha b hb e => ?_⟩
    subst e
    exact hp'.sep a ha hb
  · have := hs.names z hz
    rwa [e1] at this
  · have := hs.eval sem hm hc
    rwa [e1] at this

theorem swap_theta {A R : List Out} {n n' : Nat} {p s l : List Node} {ins outs args posts posts' : List Out}
    {pred pred' : Out} {sub : Nodes} (hp : Pre A R n (p ++ .theta ins outs args pred posts sub :: s))
    (h : Pre args (pred :: posts) n sub.list → Better Q args (pred :: posts) n sub.list (pred' :: posts') n' l) :
    Better Q A R n (p ++ .theta ins outs args pred posts sub :: s) R n'
      (p ++ .theta ins outs args pred' posts' (nodesOf l) :: s) := by
  have hw := hp.wf
  rw [wf_append] at hw
  simp only [nodesOf, wfNodes, Bool.and_eq_true, wfNode, mem_subset] at hw
  have hl := hp.lt
  have hn := hp.nodup
  simp only [names_append, nodesOf, namesNodes, namesNode, List.mem_append] at hl hn
  have hn' : (outs ++ args ++ namesNodes sub).Nodup :=
    hn.sublist ((List.sublist_append_left _ _).trans (List.sublist_append_right _ _))
  rw [List.append_assoc, List.nodup_append] at hn'
  obtain ⟨q1, q2, q3, q4, q5, q6⟩ := sub_post h hw.2.1.1.2 hn'.2.1 (fun z hz => hl z (by
    rw [List.mem_append] at hz; tauto)) hw.2.1.2
  have hlen : posts.length = posts'.length := by
    have hps := Pull.sub_pre (n := n) (R := pred :: posts) hw.2.1.1.2 hn'.2.1 (fun z hz => hl z (by
      rw [List.mem_append] at hz; tauto)) hw.2.1.2
    have hb := h hps
    have := hb.len
    simpa using this
  refine swap_node hp q1 rfl (fun B hB => ?_) ?_ (fun z hz => ?_) (fun sem hm hc => ?_)
  · simp only [wfNode, Bool.and_eq_true, mem_subset, beq_iff_eq] at hB ⊢
    exact ⟨⟨⟨⟨hB.1.1.1.1, hB.1.1.1.2⟩, by rw [← hlen]; exact hB.1.1.2⟩, q2⟩, q5⟩
  · rw [namesNode, List.append_assoc, List.nodup_append]
    refine ⟨hn'.1, q3, fun a ha b hb e => ?_⟩
    subst e
    rcases List.mem_append.1 hb with hb | hb
    · exact hn'.2.2 a ha a (by simp [hb]) rfl
    · rcases q4 a hb with h4 | h4
      · exact hn'.2.2 a ha a (by simp [h4]) rfl
      · have := hl a (by tauto)
        omega
  · simp only [namesNode, List.mem_append] at hz ⊢
    rcases hz with hz | hz
    · exact .inl (.inl hz)
    · rcases q4 z hz with h4 | h4
      · exact .inl (.inr h4)
      · exact .inr h4
  · exact theta_le (q6 sem hm hc) (SubLe.refl hm _ _)

theorem swap_lambda {A R : List Out} {n n' : Nat} {p s l : List Node} {ins args params rs rs' : List Out}
    {out : Out} {sub : Nodes} (hp : Pre A R n (p ++ .lambda ins args params rs out sub :: s))
    (h : Pre (params ++ args) rs n sub.list → Better Q (params ++ args) rs n sub.list rs' n' l) :
    Better Q A R n (p ++ .lambda ins args params rs out sub :: s) R n'
      (p ++ .lambda ins args params rs' out (nodesOf l) :: s) := by
  have hw := hp.wf
  rw [wf_append] at hw
  simp only [nodesOf, wfNodes, Bool.and_eq_true, wfNode, mem_subset] at hw
  have hl := hp.lt
  have hn := hp.nodup
  simp only [names_append, nodesOf, namesNodes, namesNode, List.mem_append, List.mem_cons] at hl hn
  have hn' : (out :: params ++ args ++ namesNodes sub).Nodup :=
    hn.sublist ((List.sublist_append_left _ _).trans (List.sublist_append_right _ _))
  simp only [List.cons_append] at hn'
  rw [List.nodup_cons] at hn'
  obtain ⟨q1, q2, q3, q4, q5, q6⟩ := sub_post h hw.2.1.1.2 hn'.2 (fun z hz => hl z (by
    simp only [List.mem_append] at hz; tauto)) hw.2.1.2
  refine swap_node hp q1 rfl (fun B hB => ?_) ?_ (fun z hz => ?_) (fun sem hm hc => ?_)
  · simp only [wfNode, Bool.and_eq_true, mem_subset] at hB ⊢
    exact ⟨⟨hB.1.1, q2⟩, q5⟩
  · rw [namesNode]
    simp only [List.cons_append]
    rw [List.nodup_cons]
    refine ⟨fun hb => ?_, q3⟩
    rcases List.mem_append.1 hb with hb | hb
    · exact hn'.1 (List.mem_append_left _ hb)
    · rcases q4 out hb with h4 | h4
      · exact hn'.1 (List.mem_append_right _ h4)
      · have := hl out (by simp)
        omega
  · simp only [namesNode, List.mem_append] at hz ⊢
    rcases hz with hz | hz
    · exact .inl (.inl hz)
    · rcases q4 z hz with h4 | h4
      · exact .inl (.inr h4)
      · exact .inr h4
  · exact lambda_le (q6 sem hm hc) (SubLe.refl hm _ _) (SubLe.refl hm _ _)

theorem swap_phi {A R : List Out} {n n' : Nat} {p s l : List Node} {ins args recs rs rs' outs : List Out}
    {sub : Nodes} (hp : Pre A R n (p ++ .phi ins args recs rs outs sub :: s))
    (h : Pre (recs ++ args) rs n sub.list → Better Q (recs ++ args) rs n sub.list rs' n' l) :
    Better Q A R n (p ++ .phi ins args recs rs outs sub :: s) R n'
      (p ++ .phi ins args recs rs' outs (nodesOf l) :: s) := by
  have hw := hp.wf
  rw [wf_append] at hw
  simp only [nodesOf, wfNodes, Bool.and_eq_true, wfNode, mem_subset] at hw
  have hl := hp.lt
  have hn := hp.nodup
  simp only [names_append, nodesOf, namesNodes, namesNode, List.mem_append] at hl hn
  have hn' : (outs ++ recs ++ args ++ namesNodes sub).Nodup :=
    hn.sublist ((List.sublist_append_left _ _).trans (List.sublist_append_right _ _))
  rw [List.append_assoc, List.append_assoc, List.nodup_append, ← List.append_assoc] at hn'
  obtain ⟨q1, q2, q3, q4, q5, q6⟩ := sub_post h hw.2.1.1.2 hn'.2.1 (fun z hz => hl z (by
    simp only [List.mem_append] at hz; tauto)) hw.2.1.2
  have hlen : rs.length = rs'.length := by
    have hps := Pull.sub_pre (n := n) (R := rs) hw.2.1.1.2 hn'.2.1 (fun z hz => hl z (by
      simp only [List.mem_append] at hz; tauto)) hw.2.1.2
    have hb := h hps
    exact hb.len
  refine swap_node hp q1 rfl (fun B hB => ?_) ?_ (fun z hz => ?_) (fun sem hm hc => ?_)
  · simp only [wfNode, Bool.and_eq_true, mem_subset, beq_iff_eq] at hB ⊢
    exact ⟨⟨⟨hB.1.1.1, by rw [← hlen]; exact hB.1.1.2⟩, q2⟩, q5⟩
  · rw [namesNode, List.append_assoc, List.append_assoc, List.nodup_append, ← List.append_assoc]
    refine ⟨hn'.1, q3, fun a ha b hb e => ?_⟩
    subst e
    rcases List.mem_append.1 hb with hb | hb
    · exact hn'.2.2 a ha a (List.mem_append_left _ hb) rfl
    · rcases q4 a hb with h4 | h4
      · exact hn'.2.2 a ha a (List.mem_append_right _ h4) rfl
      · have := hl a (by tauto)
        omega
  · simp only [namesNode, List.mem_append] at hz ⊢
    rcases hz with hz | hz
    · exact .inl (.inl hz)
    · rcases q4 z hz with h4 | h4
      · exact .inl (.inr h4)
      · exact .inr h4
  · exact phi_le (q6 sem hm hc)

/-- What is needed of the branches of a gamma node after they have been transformed. -/
structure SubsBetter (Q : ∀ V : Type, Sem V → Prop) (na nr n : Nat) (subs : Regions) (n' : Nat) (subs' : Regions) : Prop where
  le : n ≤ n'
  wf : wfRegions na nr subs' = true
  nodup : (namesRegions subs').Nodup
  names : ∀ z : Nat, z ∈ namesRegions subs' → z ∈ namesRegions subs ∨ n ≤ z ∧ z < n'
  eval : ∀ {V : Type} (sem : Sem V), sem.Mono → Q V sem → RegsLe sem subs subs'

theorem subs_nil {na nr n : Nat} : SubsBetter Q na nr n .nil n .nil :=
  ⟨Nat.le_refl _, by simp [wfRegions], by simp [namesRegions], by simp [namesRegions], fun _ _ _ => regsLe_nil⟩

theorem subs_cons {na nr n n1 n2 : Nat} {args results results' : List Out} {sub : Nodes} {l : List Node}
    {rest rest' : Regions} (hw : wfRegions na nr (.cons args results sub rest) = true)
    (hn : (namesRegions (.cons args results sub rest)).Nodup)
    (hl : ∀ z : Nat, z ∈ namesRegions (.cons args results sub rest) → z < n)
    (h : Pre args results n sub.list → Better Q args results n sub.list results' n1 l)
    (hr : wfRegions na nr rest = true → (namesRegions rest).Nodup → (∀ z : Nat, z ∈ namesRegions rest → z < n1) →
      SubsBetter Q na nr n1 rest n2 rest') :
    SubsBetter Q na nr n (.cons args results sub rest) n2 (.cons args results' (nodesOf l) rest') := by
  simp only [wfRegions, Bool.and_eq_true, mem_subset, beq_iff_eq] at hw
  obtain ⟨⟨⟨⟨hl1, hl2⟩, hwf⟩, hsub⟩, hrest⟩ := hw
  rw [namesRegions, List.nodup_append] at hn
  simp only [namesRegions] at hl
  obtain ⟨hn1, hn2, hn3⟩ := hn
  have hlz : ∀ z : Nat, z ∈ args ++ namesNodes sub → z < n := fun z hz => hl z (by rw [List.mem_append]; exact .inl hz)
  obtain ⟨p1, p2, p3, p4, p5, p6⟩ := sub_post h hwf hn1 hlz hsub
  have hlen : results.length = results'.length := by
    have hb := h (Pull.sub_pre hwf hn1 hlz hsub)
    exact hb.len
  obtain ⟨q1, q2, q3, q4, q5⟩ := hr hrest hn2 (fun z hz => by
    have := hl z (by rw [List.mem_append]; exact .inr hz)
    omega)
  refine ⟨by omega, ?_, ?_, fun z hz => ?_, fun sem hm hc => regsLe_cons (p6 sem hm hc) (q5 sem hm hc)⟩
  · simp only [wfRegions, Bool.and_eq_true, mem_subset, beq_iff_eq]
    exact ⟨⟨⟨⟨hl1, by rw [← hlen]; exact hl2⟩, p2⟩, p5⟩, q2⟩
  · rw [namesRegions, List.nodup_append]
    refine ⟨p3, q3, fun a ha b hb e => ?_⟩
    subst e
    have hcl : ∀ a : Nat, a ∈ args ++ namesNodes (nodesOf l) → a ∈ args ++ namesNodes sub ∨ n ≤ a ∧ a < n1 := by
      intro a ha
      rcases List.mem_append.1 ha with ha | ha
      · exact .inl (by simp [ha])
      · rcases p4 a ha with h | h
        · exact .inl (by simp [h])
        · exact .inr h
    rcases hcl a ha with h2 | h2 <;> rcases q4 a hb with h3 | h3
    · exact hn3 a h2 a h3 rfl
    · have := hl a (by rw [List.mem_append]; exact .inl h2)
      omega
    · have := hl a (by rw [List.mem_append]; exact .inr h3)
      omega
    · omega
  · simp only [namesRegions, List.mem_append] at hz ⊢
    rcases hz with (hz | hz) | hz
    · exact .inl (.inl (.inl hz))
    · rcases p4 z hz with h | h
      · exact .inl (.inl (.inr h))
      · exact .inr ⟨h.1, by omega⟩
    · rcases q4 z hz with h | h
      · exact .inl (.inr h)
      · exact .inr ⟨by omega, h.2⟩

theorem swap_gamma {A R : List Out} {n n' : Nat} {p s : List Node} {ins outs : List Out} {pred : Out}
    {subs subs' : Regions} (hp : Pre A R n (p ++ .gamma pred ins outs subs :: s))
    (h : wfRegions (ins.length + 1) outs.length subs = true → (namesRegions subs).Nodup →
      (∀ z : Nat, z ∈ namesRegions subs → z < n) → SubsBetter Q (ins.length + 1) outs.length n subs n' subs') :
    Better Q A R n (p ++ .gamma pred ins outs subs :: s) R n' (p ++ .gamma pred ins outs subs' :: s) := by
  have hw := hp.wf
  rw [wf_append] at hw
  simp only [nodesOf, wfNodes, Bool.and_eq_true, wfNode, mem_subset] at hw
  have hl := hp.lt
  have hn := hp.nodup
  simp only [names_append, nodesOf, namesNodes, namesNode, List.mem_append] at hl hn
  have hn' : (outs ++ namesRegions subs).Nodup :=
    hn.sublist ((List.sublist_append_left _ _).trans (List.sublist_append_right _ _))
  rw [List.nodup_append] at hn'
  obtain ⟨q1, q2, q3, q4, q5⟩ := h hw.2.1.2 hn'.2.1 (fun z hz => hl z (by tauto))
  refine swap_node hp q1 rfl (fun B hB => ?_) ?_ (fun z hz => ?_) (fun sem hm hc => ?_)
  · simp only [wfNode, Bool.and_eq_true] at hB ⊢
    exact ⟨hB.1, q2⟩
  · rw [namesNode, List.nodup_append]
    refine ⟨hn'.1, q3, fun a ha b hb e => ?_⟩
    subst e
    rcases q4 a hb with h4 | h4
    · exact hn'.2.2 a ha a h4 rfl
    · have := hl a (by tauto)
      omega
  · simp only [namesNode, List.mem_append] at hz ⊢
    rcases hz with hz | hz
    · exact .inl (.inl hz)
    · rcases q4 z hz with h4 | h4
      · exact .inl (.inr h4)
      · exact .inr h4
  · exact gamma_le (q5 sem hm hc) (regionVals_mono hm _)

/-! ## Graphs -/

theorem graph {g g' : Graph} {n' : Nat} (hw : g.wf = true) (hi : g'.imports = g.imports)
    (h : Pre g.imports g.exports (freshName g.names) g.body.list →
      Better Q g.imports g.exports (freshName g.names) g.body.list g'.exports n' g'.body.list) :
    g'.wf = true ∧ ∀ {V : Type} (sem : Sem V), sem.Mono → Q V sem → Refines (g.meaning sem) (g'.meaning sem) := by
  simp only [Graph.wf, Graph.names, Bool.and_eq_true, mem_subset] at hw ⊢
  obtain ⟨⟨h1, h2⟩, h3⟩ := hw
  have h1 := of_decide_eq_true h1
  obtain ⟨q1, q2, q3, q4, q5, q6⟩ := sub_post h h2 h1 (fun z hz => lt_freshName hz) h3
  rw [nodesOf_list] at q2 q3 q4 q5 q6
  rw [← hi] at q2 q3 q5
  refine ⟨⟨⟨decide_eq_true q3, q2⟩, q5⟩, fun sem hm hc => ?_⟩
  obtain ⟨hlen, he⟩ := q6 sem hm hc
  refine ⟨by simpa [Graph.meaning] using hlen, ?_⟩
  simp only [Graph.meaning, Graph.valueOf, hi]
  refine he _ _ fun x => ?_
  rw [hi]
  refine upd_le' emptyEnv_le _ (LeLW.map _ fun i _ => ?_) x
  simp [LeW, LeOF]

end Jlm.Opt.Swap
