import Verif.Opt.UnswitchSink
import Verif.Opt.UnswitchStages
import Verif.Opt.Swap
import Verif.Opt.IvrCorr

/-! # Loop unswitching: the result refines the module (C42) -/

set_option linter.unusedSimpArgs false
set_option linter.unusedVariables false

namespace Jlm.Opt.Unswitch

open Jlm.Opt.Copy Jlm.Opt.Lst Jlm.Opt.Pull Jlm.Opt.Swap

variable {V : Type}

theorem user_eq {o : Out} : ∀ {l : List Node} {a b : List Node} {x : Node}, user o l = some (a, x, b) →
    l = a ++ x :: b ∧ o ∈ x.ins
  | [], a, b, x, h => by simp [user] at h
  | y :: l, a, b, x, h => by
    simp only [user] at h
    split at h
    · rename_i hc
      simp only [Option.some.injEq, Prod.mk.injEq] at h
      obtain ⟨rfl, rfl, rfl⟩ := h
      exact ⟨rfl, by simpa using hc⟩
    · simp only [Option.map_eq_some_iff, Prod.mk.injEq] at h
      obtain ⟨⟨a', x', b'⟩, h1, rfl, rfl, rfl⟩ := h
      obtain ⟨h2, h3⟩ := user_eq h1
      exact ⟨by simp [h2], h3⟩

theorem split_owner {o : Out} : ∀ {l : List Node} {a b : List Node} {x : Node}, split o l = some (a, x, b) →
    (nodesOf l).owner o = some x
  | [], a, b, x, h => by simp [split] at h
  | y :: l, a, b, x, h => by
    simp only [split] at h
    split at h
    · rename_i hc
      simp only [Option.some.injEq, Prod.mk.injEq] at h
      obtain ⟨rfl, rfl, rfl⟩ := h
      simp only [nodesOf, Nodes.owner]
      rw [if_pos (by simpa using hc)]
    · rename_i hc
      simp only [Option.map_eq_some_iff, Prod.mk.injEq] at h
      obtain ⟨⟨a', x', b'⟩, h1, rfl, rfl, rfl⟩ := h
      simp only [nodesOf, Nodes.owner]
      rw [if_neg (by simpa using hc)]
      exact split_owner h1

/-- The alternatives of a match node that `isMatch` accepts are 0 and 1. -/
theorem isMatch_ctl {sem : Sem V} (hc : sem.Control) {l : List Node} {A : List Out} {e : Env V} {o : Out}
    (hwf : wfNodes A (nodesOf l) = true) (hn : (namesNodes (nodesOf l)).Nodup)
    (hd : ∀ x ∈ A, x ∉ namesNodes (nodesOf l)) (h : isMatch o l = true) {v : Val V}
    (hv : evalNodes sem (nodesOf l) e o = some v) : sem.ctl v.1 < 2 := by
  simp only [isMatch] at h
  split at h
  rotate_left
  · simp at h
  rename_i a m d code i w b hs
  have ho := split_owner hs
  simp only [Bool.and_eq_true, decide_eq_true_eq, List.all_eq_true] at h
  rw [evalNodes_owner sem _ A e o _ hwf hn hd ho] at hv
  simp only [nodeVals, reduceCtorEq, if_false, List.getD_eq_getElem?_getD, lift, List.getElem?_map, List.map_cons,
    List.map_nil] at hv
  generalize (Node.simple _ [i] [w]).outs.idxOf o = k at hv
  generalize hap : sem.apply ⟨OpKind.matchOp m d, code⟩ [evalNodes sem (nodesOf l) e i] = vs at hv
  cases hvi : vs[k]? with
  | none => rw [hvi] at hv; simp at hv
  | some w =>
    rw [hvi] at hv
    cases w with
    | none => simp at hv
    | some u =>
      simp only [Option.map_some, Option.getD_some, Option.some.injEq] at hv
      subst hv
      obtain ⟨x, _, hx⟩ := hc.matchOp ⟨OpKind.matchOp m d, code⟩ m d _ u rfl (hap ▸ List.mem_of_getElem? hvi)
      rw [hx]
      cases hm : m.lookup (sem.ctl x.1) with
      | none => exact h.1
      | some c =>
        have : (sem.ctl x.1, c) ∈ m := by
          clear h hap hx hvi hs ho
          induction m with
          | nil => simp at hm
          | cons q m ih =>
            obtain ⟨q1, q2⟩ := q
            simp only [List.lookup_cons] at hm
            split at hm
            · rename_i he
              simp only [Option.some.injEq] at hm
              simp_all
            · exact List.mem_cons_of_mem _ (ih hm)
        exact h.2 _ this

structure Unswitchable (y : Node) (L : Loop) : Prop where
  node : y = L.node
  pred : L.gpred = L.pred
  branches : branches L.subs = 2
  posts : ∀ o ∈ L.posts, o ∈ L.args ∨ o ∈ L.gouts
  isMatch : isMatch L.pred L.body = true

theorem isUnswitchable_spec {y : Node} {L : Loop} (h : isUnswitchable true y = some L) : Unswitchable y L := by
  cases y with
  | theta ins outs args pred posts sub =>
    simp only [isUnswitchable] at h
    split at h
    rotate_left
    · simp at h
    rename_i h1
    split at h
    rotate_left
    · simp at h
    rename_i before gpred gins gouts subs after hu
    split at h
    rotate_left
    · simp at h
    rename_i h2
    simp only [Option.some.injEq] at h
    subst h
    simp only [Bool.and_eq_true, beq_iff_eq, List.all_eq_true, Bool.or_eq_true, List.contains_iff_mem] at h1 h2
    obtain ⟨hl, _⟩ := user_eq hu
    refine ⟨?_, by simpa using h2.2, h2.1.1, h2.1.2, ?_⟩
    · simp only [Loop.node, Loop.body, Loop.gamma]
      rw [← hl, nodesOf_list]
    · simp only [Loop.body, Loop.gamma]
      rw [← hl]; exact h1.1
  | _ => simp [isUnswitchable] at h

theorem divertTo_notin {outs os : List Out} {o : Out} (h : o ∉ outs) : divertTo outs os o = o := by
  rw [divertTo, Pull.lookup_zip_none h]; rfl

theorem divertTo_get {outs os : List Out} {o x : Out} {k : Nat} (hn : outs.Nodup) (h : outs[k]? = some o)
    (hx : os[k]? = some x) : divertTo outs os o = x := by
  rw [divertTo, Pull.lookup_zip hn h hx]; rfl

theorem unswitch_better {A R : List Out} {n n' : Nat} {p s mid : List Node} {y : Node} {L : Loop} {os : List Out}
    (hp : Pre A R n (p ++ y :: s)) (hu : isUnswitchable true y = some L) (h : unswitchLoop L n = some (mid, os, n')) :
    Better (fun _ s => s.Control) A R n (p ++ y :: s) (R.map (divertTo y.outs os)) n'
      (p ++ mid ++ s.map (Node.divert (divertTo y.outs os))) := by
  obtain ⟨rfl, hpred, hb, hposts, hmatch⟩ := isUnswitchable_spec hu
  have hw := hp.wf
  have hn := hp.nodup
  have hl := hp.lt
  have hltA := hp.ltA
  have hsep := hp.sep
  rw [wf_append] at hw
  simp only [nodesOf, wfNodes, Bool.and_eq_true] at hw
  obtain ⟨hwp, hwy, hws⟩ := hw
  simp only [names_append, nodesOf, namesNodes, List.mem_append, not_or] at hn hl hsep
  simp only [List.nodup_append, List.mem_append] at hn
  obtain ⟨hn1, ⟨hn2, hn3, hdy⟩, hdp⟩ := hn
  have hyA : ∀ o ∈ (nodesOf p).outs ++ A, o ∉ namesNode L.node := by
    intro o ho h'
    rcases List.mem_append.1 ho with ho | ho
    · exact hdp o (outs_namesNodes _ _ ho) o (.inl h') rfl
    · exact (hsep o ho).2.1 h'
  have hltA' : ∀ z : Nat, z ∈ (nodesOf p).outs ++ A → z < n := by
    intro z hz
    rcases List.mem_append.1 hz with hz | hz
    · exact hl z (.inl (outs_namesNodes _ _ hz))
    · exact hltA z hz
  have houts : L.node.outs = L.outs := rfl
  have hno : L.outs.Nodup := houts ▸ nodup_outs hn2
  -- the predicate is 0 or 1
  have hctl : ∀ {V : Type} (sem : Sem V), sem.Control → ∀ ws p, (L.step sem ws).headD none = some p →
      sem.ctl p.1 < 2 := by
    intro V sem hc ws p hp
    have hw' := hwy
    have hn' := hn2
    simp only [Loop.node, wfNode, Bool.and_eq_true] at hw'
    simp only [Loop.node, namesNode] at hn'
    simp only [Loop.step, List.map_cons, List.headD_cons] at hp
    refine isMatch_ctl hc (A := L.args) hw'.1.2 (List.nodup_append.1 hn').2.1 ?_ hmatch hp
    intro x hx h'
    exact (List.nodup_append.1 hn').2.2 x (List.mem_append_right _ hx) x h' rfl
  simp only [unswitchLoop, Option.bind_eq_some_iff] at h
  obtain ⟨⟨L', n1⟩, hs, h⟩ := h
  have hS : Sunk ((nodesOf p).outs ++ A) L n L' n1 :=
    sinkNodes_spec hwy hn2 (fun z hz => hl z (.inr (.inl hz))) hposts hb hpred hs
  have hSle := hS.le
  have hwfy : ∀ o ∈ L.ins, o ∈ (nodesOf p).outs ++ A := by
    intro o ho
    exact wfNode_ins hwy o ho
  have houts' : L'.node.outs = L.outs := hS.outs
  simp only at h
  split at h
  · -- the loop is unswitched
    simp only [Option.map_eq_some_iff, Prod.mk.injEq] at h
    obtain ⟨⟨new, q⟩, hst, rfl, hq⟩ := h
    simp only at hq
    subst hq
    have hT : Staged ((nodesOf p).outs ++ A) L' n1 new os n' := by
      refine stages_spec (hS.wf _ hwfy) hS.nodup ?_ ?_ ?_ hS.posts hS.pred hst
      · intro o ho h'
        rcases hS.names o h' with h1 | h1
        · exact hyA o ho h1
        · have := hltA' o ho
          exact absurd (Nat.lt_of_lt_of_le this h1.1) (Nat.lt_irrefl _)
      · intro z hz
        have := hltA' z hz
        omega
      · intro z hz
        rcases hS.names z hz with h1 | h1
        · have := hl z (.inr (.inl h1)); omega
        · exact h1.2
    have hTle := hT.le
    have hlen : os.length = L.outs.length := by rw [hT.len, hS.outs]
    have hget : ∀ (k : Nat) (o : Out), L.outs[k]? = some o → ∃ x, os[k]? = some x ∧ divertTo L.node.outs os o = x := by
      intro k o ho
      have hk : k < os.length := by rw [hlen]; exact (List.getElem?_eq_some_iff.1 ho).1
      exact ⟨os[k], List.getElem?_eq_getElem hk, divertTo_get hno ho (List.getElem?_eq_getElem hk)⟩
    refine swap hp (by omega) ?_ ?_ ?_ (fun o ho => divertTo_notin ho) ?_ ?_
    · rw [wf_append]
      refine ⟨hT.wf, ?_⟩
      simp only [nodesOf, wfNodes, Bool.and_true]
      exact hS.wf _ fun o ho => List.mem_append_right _ (hwfy o ho)
    · simp only [names_append, nodesOf, namesNodes, List.append_nil, List.nodup_append]
      refine ⟨hT.nodup, hS.nodup, fun a ha b hb e => ?_⟩
      subst e
      have h1 := hT.names a ha
      rcases hS.names a hb with h2 | h2
      · have h3 : (a : Nat) < n := hl a (.inr (.inl h2))
        exact absurd (Nat.lt_of_lt_of_le (Nat.lt_of_lt_of_le h3 hSle) h1.1) (Nat.lt_irrefl _)
      · exact absurd (Nat.lt_of_lt_of_le h2.2 h1.1) (Nat.lt_irrefl _)
    · intro z hz
      simp only [names_append, nodesOf, namesNodes, List.append_nil, List.mem_append] at hz
      rcases hz with hz | hz
      · have := hT.names z hz
        exact .inr ⟨by omega, this.2⟩
      · rcases hS.names z hz with h1 | h1
        · exact .inl h1
        · exact .inr ⟨h1.1, by omega⟩
    · intro o ho
      obtain ⟨k, hk⟩ := List.mem_iff_getElem?.1 ho
      obtain ⟨x, hx, hx'⟩ := hget k o hk
      rw [hx']
      have := hT.avail x (List.mem_of_getElem? hx)
      simp only [outs_append, List.mem_append] at this ⊢
      tauto
    · intro V sem hm hc F hF k o hk
      obtain ⟨x, hx, hx'⟩ := hget k o hk
      rw [hx', ← hS.eval sem (hctl sem hc) F, eval_append]
      have h1 := hT.eval sem hm (hS.ctl sem (hctl sem hc)) F hF k
      have h2 : evalNodes sem (nodesOf [L'.node]) (evalNodes sem (nodesOf new) F) x = evalNodes sem (nodesOf new) F x := by
        simp only [nodesOf, evalNodes]
        refine upd_notin _ _ _ _ ?_
        rw [houts']
        intro hxo
        have := hT.avail x (List.mem_of_getElem? hx)
        have hxn : x ∈ namesNode L.node := outs_names L.node x hxo
        simp only [List.mem_append] at this
        rcases this with h3 | h3
        · exact hyA x (List.mem_append.2 h3) hxn
        · have h4 := (hT.names x (outs_namesNodes _ _ h3)).1
          have h5 : (x : Nat) < n := hl x (.inr (.inl hxn))
          exact absurd (Nat.lt_of_lt_of_le (Nat.lt_of_lt_of_le h5 hSle) h4) (Nat.lt_irrefl _)
      rw [h2]
      simpa [List.getD_eq_getElem?_getD, hx] using h1
  · -- the nodes remain in the gamma node
    simp only [Option.some.injEq, Prod.mk.injEq] at h
    obtain ⟨rfl, rfl, rfl⟩ := h
    have hid : ∀ o, divertTo L.node.outs L'.outs o = o := by
      intro o
      by_cases ho : o ∈ L.node.outs
      · obtain ⟨k, hk⟩ := List.mem_iff_getElem?.1 ho
        exact divertTo_get hno hk (by rw [hS.outs]; exact hk)
      · exact divertTo_notin ho
    refine swap hp hSle ?_ ?_ ?_ (fun o ho => divertTo_notin ho) ?_ ?_
    · simp only [nodesOf, wfNodes, Bool.and_true]
      exact hS.wf _ hwfy
    · simpa [nodesOf, namesNodes] using hS.nodup
    · intro z hz
      simp only [nodesOf, namesNodes, List.append_nil] at hz
      exact hS.names z hz
    · intro o ho
      rw [hid]
      simp only [nodesOf, Nodes.outs, List.append_nil, List.mem_append]
      right
      rw [houts']; exact ho
    · intro V sem hm hc F hF k o hk
      rw [hid, ← hS.eval sem (hctl sem hc) F]
      simp only [nodesOf, evalNodes]
      rw [Cne.upd_get (by rw [houts']; exact hno : L'.node.outs.Nodup) (k := k) (by rw [houts']; exact hk)]
      exact nodeVals_mono hm _ _ _ (fun i _ => hF i) k

theorem handle_better {n n' : Nat} {l l' : List Node} {R R' : List Out} (h : Handle true n l R n' l' R') :
    ∀ {A : List Out}, Pre A R n l → Better (fun _ s => s.Control) A R n l R' n' l' := by
  refine Handle.rec
    (motive_1 := fun n l R n' l' R' _ => ∀ {A : List Out}, Pre A R n l → Better (fun _ s => s.Control) A R n l R' n' l')
    (motive_2 := fun n subs n' subs' _ => ∀ {na nr : Nat}, wfRegions na nr subs = true → (namesRegions subs).Nodup →
      (∀ z : Nat, z ∈ namesRegions subs → z < n) → SubsBetter (fun _ s => s.Control) na nr n subs n' subs')
    ?_ ?_ ?_ ?_ ?_ ?_ ?_ ?_ ?_ ?_ h
  · intro n l R A hp
    exact .refl hp
  · intro n n' n'' l l' l'' R R' R'' _ _ h1 h2 A hp
    exact (h1 hp).trans (h2 ((h1 hp).pre hp))
  · intro n n' p s y R L mid os h1 h2 A hp
    exact unswitch_better hp h1 h2
  · intro n l R A hp
    exact .prune hp
  · intro n n' p s R ins outs args posts posts' pred pred' sub l _ h1 A hp
    exact swap_theta hp fun hp' => h1 hp'
  · intro n n' p s R ins outs pred subs subs' _ h1 A hp
    exact swap_gamma hp fun hw hn hl => h1 hw hn hl
  · intro n n' p s R ins args params rs rs' out sub l _ h1 A hp
    exact swap_lambda hp fun hp' => h1 hp'
  · intro n n' p s R ins args recs rs rs' outs sub l _ h1 A hp
    exact swap_phi hp fun hp' => h1 hp'
  · intro n na nr hw hn hl
    exact subs_nil
  · intro n n' n'' args results results' sub l rest rest' _ _ h1 h2 na nr hw hn hl
    exact subs_cons hw hn hl (fun hp => h1 hp) fun hw' hn' hl' => h2 hw' hn' hl'

/-- **C42, loop unswitching.** Provided that every gamma node that is turned inside out is controlled by the match
node (`strict = true`; the code does not check it), the module that results is well-formed, has the same imports, and
every export of it behaves at least as before: wherever the value of an export (a function: with whatever
arguments) was defined, it is defined and the same. -/
theorem C42_unswitching {g g' : Graph} (hw : g.wf = true) (h : Runs true g g') :
    g'.wf = true ∧ g'.imports = g.imports ∧
      ∀ {V : Type} (sem : Sem V), sem.Mono → sem.Control → Refines (g.meaning sem) (g'.meaning sem) := by
  obtain ⟨hi, n', h⟩ := h
  have := Swap.graph hw hi (handle_better h)
  exact ⟨this.1, hi, this.2⟩

end Jlm.Opt.Unswitch
