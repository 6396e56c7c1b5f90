import Verif.Opt.HoistModel
import Verif.Opt.UnswitchProps
import Mathlib.Tactic.Tauto

/-!
# Hoisting nodes: one region

What happens to the region a node is hoisted out of.
-/

set_option linter.unusedSimpArgs false
set_option linter.unusedVariables false

namespace Jlm.Opt.Hoist

open Jlm.Opt.Copy Jlm.Opt.Lst Jlm.Opt.Pull Jlm.Opt.Unswitch Jlm.Opt.Swap

variable {V : Type}

/-- The values of the outputs of a simple node. -/
def opVals (sem : Sem V) (op : Op) (ws : List (W V)) : List (W V) :=
  if op.kind = .load then (lift (sem.apply op ws)).headD none :: ws.tail else lift (sem.apply op ws)

theorem nodeVals_simple (sem : Sem V) (op : Op) (ins outs : List Out) (e : Env V) :
    nodeVals sem (.simple op ins outs) e = opVals sem op (ins.map e) := by
  simp only [nodeVals, opVals]

theorem opVals_mono {sem : Sem V} (hm : sem.Mono) (op : Op) {ws vs : List (W V)} (hl : ws.length = vs.length)
    (h : LeLW ws vs) : LeLW (opVals sem op ws) (opVals sem op vs) := by
  have ha := lift_le (hm op _ _ hl h)
  simp only [opVals]
  split
  · exact LeLW.cons ha.head h.tail
  · exact ha

/-! ## environments -/

theorem env_le {args na : List Out} {ws us pv : List (W V)} (hl : args.length = us.length) (h : LeLW ws us)
    (hp : LeLW pv pv) (z : Out) : LeW (upd (emptyEnv : Env V) args ws z) (upd emptyEnv (args ++ na) (us ++ pv) z) := by
  rw [upd_append hl]
  refine upd_le' (fun z => ?_) args h z
  exact LeW.none_le (upd_le' emptyEnv_le na hp z)

theorem env_na {args na : List Out} {us pv : List (W V)} (hl : args.length = us.length) (hn : na.Nodup)
    (hd : ∀ z ∈ args, z ∉ na) {k : Nat} {z : Out} (h : na[k]? = some z) :
    upd (emptyEnv : Env V) (args ++ na) (us ++ pv) z = pv.getD k none := by
  rw [upd_append hl, upd_notin _ _ _ _ (fun h' => hd z h' (List.mem_of_getElem? h)), Cne.upd_get hn h]

/-! ## the region -/

structure Dropped (args xo na : List Out) (sub : Nodes) (x : Node) (sub' : Nodes) : Prop where
  wf : wfNodes (args ++ na) sub' = true
  names : (namesNodes sub').Sublist (namesNodes sub)
  outs : ∀ z ∈ sub'.outs, z ∈ sub.outs
  res : ∀ r ∈ args ++ sub.outs, divertTo xo na r ∈ args ++ na ++ sub'.outs
  eval : ∀ {V : Type} (sem : Sem V), sem.Mono → ∀ ws us pv : List (W V), args.length = us.length → LeLW ws us →
    LeLW pv pv → (∀ k : Nat, k < xo.length → LeW ((nodeVals sem x (upd emptyEnv args ws)).getD k none) (pv.getD k none)) →
    ∀ r ∈ args ++ sub.outs,
    LeW (evalNodes sem sub (upd emptyEnv args ws) r)
      (evalNodes sem sub' (upd emptyEnv (args ++ na) (us ++ pv)) (divertTo xo na r))
  fixed : ∀ {V : Type} (sem : Sem V) (e : Env V), ∀ z ∈ args ++ na, evalNodes sem sub' e z = e z
  /-- the values of the node in the region -/
  own : ∀ {V : Type} (sem : Sem V) (e : Env V) (k : Nat) (o : Out), xo[k]? = some o →
    evalNodes sem sub e o = (nodeVals sem x e).getD k none

theorem drop_spec {args na xi xo : List Out} {sub : Nodes} {bp bs : List Node} {op : Op} {n : Nat}
    (hsub : sub.list = bp ++ .simple op xi xo :: bs) (hw : wfNodes args sub = true)
    (hn : (args ++ namesNodes sub).Nodup) (hlt : ∀ z : Nat, z ∈ args ++ namesNodes sub → z < n)
    (hna : ∀ z : Nat, z ∈ na → n ≤ z) (hnn : na.Nodup) (hlen : na.length = xo.length) (hxi : ∀ a ∈ xi, a ∈ args) :
    Dropped args xo na sub (.simple op xi xo) (nodesOf (bp ++ bs.map (Node.divert (divertTo xo na)))) := by
  have hsub' : sub = nodesOf (bp ++ .simple op xi xo :: bs) := by rw [← hsub, nodesOf_list]
  subst hsub'
  rw [wf_append] at hw
  simp only [nodesOf, wfNodes, Bool.and_eq_true] at hw
  obtain ⟨hwp, hwx, hws⟩ := hw
  simp only [Node.outs] at hws
  simp only [names_append, nodesOf, namesNodes, namesNode, List.mem_append] at hlt
  rw [names_append, List.nodup_append] at hn
  simp only [nodesOf, namesNodes, namesNode, List.mem_append] at hn
  obtain ⟨hna1, hn1, hda⟩ := hn
  rw [List.nodup_append] at hn1
  simp only [List.mem_append] at hn1
  obtain ⟨hnp, hn2, hdp⟩ := hn1
  rw [List.nodup_append] at hn2
  obtain ⟨hnx, hns, hdx⟩ := hn2
  have hout : ∀ l : List Node, ∀ o ∈ (nodesOf l).outs, o ∈ namesNodes (nodesOf l) := fun l => outs_namesNodes _
  have fresh : ∀ z : Nat, z ∈ na → z ∉ args ∧ z ∉ namesNodes (nodesOf bp) ∧ z ∉ xo ∧ z ∉ namesNodes (nodesOf bs) := by
    intro z hz
    have h1 := hna z hz
    refine ⟨fun h => ?_, fun h => ?_, fun h => ?_, fun h => ?_⟩
    · have := hlt z (.inl h); omega
    · have := hlt z (.inr (.inl h)); omega
    · have := hlt z (.inr (.inr (.inl h))); omega
    · have := hlt z (.inr (.inr (.inr h))); omega
  have hσ : ∀ z ∈ xo, ∃ (k : Nat) (y : Out), xo[k]? = some z ∧ na[k]? = some y ∧ divertTo xo na z = y := by
    intro z hz
    obtain ⟨k, hk⟩ := List.mem_iff_getElem?.1 hz
    have hk' : k < na.length := by rw [hlen]; exact (List.getElem?_eq_some_iff.1 hk).1
    exact ⟨k, na[k], hk, List.getElem?_eq_getElem hk', divertTo_get hnx hk (List.getElem?_eq_getElem hk')⟩
  have hσn : ∀ z, z ∉ xo → divertTo xo na z = z := fun z hz => divertTo_notin hz
  have hσs : ∀ o ∈ (nodesOf bs).outs, divertTo xo na o = o := fun o ho => hσn o fun h => hdx o h o (hout bs o ho) rfl
  refine ⟨?_, ?_, ?_, ?_, ?_, ?_, ?_⟩
  · rw [wf_append, divert_list]
    refine ⟨wf_mono (fun z hz => List.mem_append_left _ hz) hwp, Dne.wfNodes_divert _ _ _ (fun z _ hz => ?_) hσs hws⟩
    simp only [List.mem_append] at hz ⊢
    by_cases hx : z ∈ xo
    · obtain ⟨k, y, _, hy, e⟩ := hσ z hx
      rw [e]
      have := List.mem_of_getElem? hy
      tauto
    · rw [hσn z hx]
      tauto
  · rw [names_append, names_append, divert_list, Dne.Nodes.divert_names]
    refine List.Sublist.append_left ?_ _
    simp only [nodesOf, namesNodes]
    exact List.sublist_append_right _ _
  · intro z hz
    simp only [outs_append, divert_list, outs_divert, List.mem_append, nodesOf, Nodes.outs] at hz ⊢
    tauto
  · intro r hr
    simp only [outs_append, divert_list, outs_divert, List.mem_append, nodesOf, Nodes.outs, Node.outs] at hr ⊢
    by_cases hx : r ∈ xo
    · obtain ⟨k, y, _, hy, e⟩ := hσ r hx
      rw [e]
      have := List.mem_of_getElem? hy
      tauto
    · rw [hσn r hx]
      tauto
  · intro V sem hm ws us pv hl hle hpv hx r hr
    rw [eval_append, eval_append, divert_list]
    simp only [nodesOf, evalNodes, Node.outs]
    set e1 : Env V := upd emptyEnv args ws with he1
    set e2 : Env V := upd emptyEnv (args ++ na) (us ++ pv) with he2
    have hE := evalNodes_mono' hm (nodesOf bp) (env_le (na := na) hl hle hpv)
    have hxv : nodeVals sem (.simple op xi xo) (evalNodes sem (nodesOf bp) e1) = nodeVals sem (.simple op xi xo) e1 := by
      refine nodeVals_congr sem _ _ _ fun i hi => evalNodes_notin sem _ _ _ fun h => ?_
      exact hda i (hxi i hi) i (.inl (hout bp i h)) rfl
    rw [hxv]
    refine evalNodes_divert_le hm (divertTo xo na) (fun z => z ∉ na) (nodesOf bs) _ _ (fun i hi h => ?_) hσs
      (fun z hz hz' h => ?_) (fun z hz => ?_) r (fun h => ?_)
    · have h1 := wf_ins _ hws i hi
      have h2 := fresh i h
      simp only [List.mem_append] at h1
      rcases h1 with (h1 | h1 | h1) | h1
      · exact h2.2.2.1 h1
      · exact h2.2.1 (hout bp i h1)
      · exact h2.1 h1
      · exact h2.2.2.2 (hout bs i h1)
    · by_cases hx : z ∈ xo
      · obtain ⟨k, y, _, hy, e⟩ := hσ z hx
        rw [e] at h
        exact (fresh y (List.mem_of_getElem? hy)).2.2.2 (hout bs _ h)
      · rw [hσn z hx] at h; exact hz' h
    · by_cases hzx : z ∈ xo
      · obtain ⟨k, y, hk, hy, e⟩ := hσ z hzx
        rw [e, Cne.upd_get hnx hk]
        have h3 : evalNodes sem (nodesOf bp) e2 y = pv.getD k none := by
          rw [evalNodes_notin sem _ _ _ fun h => (fresh y (List.mem_of_getElem? hy)).2.1 (hout bp y h), he2,
            env_na hl hnn (fun z hz h => (fresh z h).1 hz) hy]
        rw [h3]
        exact hx k (List.getElem?_eq_some_iff.1 hk).1
      · rw [hσn z hzx, upd_notin _ _ _ _ hzx]
        exact hE z
    · have h2 := fresh r h
      simp only [outs_append, List.mem_append, nodesOf, Nodes.outs, Node.outs] at hr
      rcases hr with hr | hr | hr | hr
      · exact h2.1 hr
      · exact h2.2.1 (hout bp r hr)
      · exact h2.2.2.1 hr
      · exact h2.2.2.2 (hout bs r hr)
  · intro V sem e z hz
    refine evalNodes_notin sem _ _ _ fun h => ?_
    simp only [outs_append, divert_list, outs_divert, List.mem_append] at h hz
    rcases hz with hz | hz
    · rcases h with h | h
      · exact hda z hz z (.inl (hout bp z h)) rfl
      · exact hda z hz z (.inr (.inr (hout bs z h))) rfl
    · have h2 := fresh z hz
      rcases h with h | h
      · exact h2.2.1 (hout bp z h)
      · exact h2.2.2.2 (hout bs z h)
  · intro V sem e k o ho
    have hox := List.mem_of_getElem? ho
    rw [eval_append]
    simp only [nodesOf, evalNodes, Node.outs]
    rw [evalNodes_notin sem _ _ _ fun h => hdx o hox o (hout bs o h) rfl, Cne.upd_get hnx ho]
    congr 1
    refine nodeVals_congr sem _ _ _ fun i hi => evalNodes_notin sem _ _ _ fun h => ?_
    exact hda i (hxi i hi) i (.inl (hout bp i h)) rfl

/-! ## operands -/

theorem operands_spec {args ins : List Out} : ∀ {xi ops : List Out}, operands args ins xi = some ops →
    ops.length = xi.length ∧ ∀ (k : Nat) (a : Out), xi[k]? = some a →
      ∃ i, ops[k]? = some i ∧ (args.zip ins).lookup a = some i
  | [], ops, h => by
    simp only [operands, Option.some.injEq] at h
    subst h
    exact ⟨rfl, by simp⟩
  | a :: as, ops, h => by
    simp only [operands, Option.bind_eq_some_iff, Option.map_eq_some_iff] at h
    obtain ⟨i, hi, r, hr, rfl⟩ := h
    obtain ⟨h1, h2⟩ := operands_spec hr
    refine ⟨by simp [h1], fun k b hb => ?_⟩
    cases k with
    | zero =>
      simp only [List.getElem?_cons_zero, Option.some.injEq] at hb
      subst hb
      exact ⟨i, by simp, hi⟩
    | succ k => simpa using h2 k b (by simpa using hb)

theorem lookup_index {args ins : List Out} {a i : Out} (h : (args.zip ins).lookup a = some i) :
    ∃ j : Nat, args[j]? = some a ∧ ins[j]? = some i := by
  induction args generalizing ins with
  | nil => simp at h
  | cons b args ih =>
    cases ins with
    | nil => simp at h
    | cons c ins =>
      simp only [List.zip_cons_cons, List.lookup] at h
      split at h
      · rename_i e
        have e : a = b := by simpa using e
        simp only [Option.some.injEq] at h
        exact ⟨0, by simp [e], by simp [h]⟩
      · obtain ⟨j, h1, h2⟩ := ih h
        exact ⟨j + 1, by simpa using h1, by simpa using h2⟩

end Jlm.Opt.Hoist
