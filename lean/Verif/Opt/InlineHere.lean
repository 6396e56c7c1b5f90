import Verif.Opt.InlineStrip
import Verif.Opt.CopyProps
import Verif.Opt.ListNodes
import Verif.Opt.Swap

/-! # The nodes that replace a call -/

set_option linter.unusedSimpArgs false
set_option linter.unusedVariables false

namespace Jlm.Opt.Inline

open Jlm.Opt.Copy Jlm.Opt.Lst

variable {V : Type}

/-- What is known of the operands of the copy of a function. -/
structure Operands (bop : Op) (io : Out) (fty : Out → Bool) (as ds : List Out) (n : Nat) (l : List Node) (os : List Out) (n' : Nat) : Prop where
  le : n ≤ n'
  nodup : (namesNodes (nodesOf l)).Nodup
  names : ∀ z : Nat, z ∈ namesNodes (nodesOf l) → n ≤ z ∧ z < n'
  len : os.length = as.length
  wf : ∀ B : List Out, (∀ d ∈ ds, d ∈ B) → io ∈ B → wfNodes B (nodesOf l) = true ∧ ∀ o ∈ os, o ∈ (nodesOf l).outs ++ B
  eval : ∀ {V : Type} (sem : Sem V), Barrier bop sem → ∀ (F : Env V) (k : Nat) (a d o : Out), as[k]? = some a → ds[k]? = some d →
    os[k]? = some o → (o : Nat) < n' ∧ evalNodes sem (nodesOf l) F o = stripIf (fty a) (F d)

theorem barrier_vals {bop : Op} {sem : Sem V} (h : Barrier bop sem) (x io : Out) (outs : List Out) (F : Env V) :
    nodeVals sem (.simple bop [x, io] outs) F = [strip (F x)] := by
  rw [nodeVals, if_neg (by rw [h.1]; simp)]
  simp only [List.map_cons, List.map_nil, h.2]
  cases F x <;> rfl

theorem ctxOperands_spec {bop : Op} {io : Nat} {fty : Out → Bool} : ∀ (as ds : List Out) (n : Nat), as.length = ds.length →
    (∀ d : Nat, d ∈ ds → d < n) → io < n → bop.kind ≠ .load →
    Operands bop io fty as ds n (ctxOperands bop io fty as ds n).1 (ctxOperands bop io fty as ds n).2.1 (ctxOperands bop io fty as ds n).2.2
  | [], [], n, _, _, _, _ => by
    refine ⟨Nat.le_refl _, ?_, ?_, rfl, fun B _ _ => ⟨?_, ?_⟩, fun sem _ F k a d o h => ?_⟩ <;>
      simp [ctxOperands, nodesOf, namesNodes, wfNodes] at *
  | a :: as, d :: ds, n, hl, hd, hio, hb => by
    simp only [ctxOperands]
    have hdn : (d : Nat) < n := hd d (by simp)
    split
    · rename_i hf
      have ih := ctxOperands_spec (fty := fty) as ds n (by simpa using hl) (fun z hz => hd z (by simp [hz])) hio hb
      refine ⟨ih.le, ih.nodup, ih.names, by simp [ih.len], fun B h1 h2 => ?_, fun sem hB F k a' d' o h1 h2 h3 => ?_⟩
      · obtain ⟨h3, h4⟩ := ih.wf B (fun z hz => h1 z (by simp [hz])) h2
        refine ⟨h3, fun o ho => ?_⟩
        rcases List.mem_cons.1 ho with rfl | ho
        · simp [h1 o]
        · exact h4 o ho
      · cases k with
        | zero =>
          simp only [List.getElem?_cons_zero, Option.some.injEq] at h1 h2 h3
          subst h1 h2 h3
          refine ⟨Nat.lt_of_lt_of_le hdn ih.le, ?_⟩
          rw [hf, evalNodes_notin]
          · rfl
          · intro h
            exact absurd (ih.names d (outs_namesNodes _ _ h)).1 (Nat.not_le_of_lt hdn)
        | succ k =>
          simp only [List.getElem?_cons_succ] at h1 h2 h3
          exact ih.eval sem hB F k a' d' o h1 h2 h3
    · rename_i hf
      have ih := ctxOperands_spec (io := io) (fty := fty) as ds (n + 1) (by simpa using hl) (fun z hz => Nat.lt_succ_of_lt (hd z (by simp [hz]))) (Nat.lt_succ_of_lt hio) hb
      revert ih
      generalize ctxOperands bop io fty as ds (n + 1) = r
      obtain ⟨rl, ro, rn⟩ := r
      intro ih
      dsimp only at ih ⊢
      have hle := ih.le
      have hnn : ∀ z : Nat, z < n + 1 → z ∉ (nodesOf rl).outs := fun z hz h =>
        absurd (ih.names z (outs_namesNodes _ _ h)).1 (by omega)
      refine ⟨by omega, ?_, ?_, by simp [ih.len], fun B h1 h2 => ?_, fun sem hB F k a' d' o h1 h2 h3 => ?_⟩
      · simp only [nodesOf, namesNodes, namesNode, List.singleton_append, List.nodup_cons]
        refine ⟨fun h => ?_, ih.nodup⟩
        have := (ih.names n h).1
        omega
      · intro z hz
        simp only [nodesOf, namesNodes, namesNode, List.singleton_append, List.mem_cons] at hz
        rcases hz with rfl | hz
        · omega
        · have := ih.names z hz; omega
      · obtain ⟨h3, h4⟩ := ih.wf ([n] ++ B) (fun z hz => by simp [h1 z (by simp [hz])]) (by simp [h2])
        refine ⟨?_, fun o ho => ?_⟩
        · simp only [nodesOf, wfNodes, wfNode, Bool.and_eq_true, Node.outs]
          refine ⟨⟨mem_subset.2 ?_, by simp [hb]⟩, h3⟩
          simp [h1 d, h2]
        · simp only [nodesOf, Nodes.outs, Node.outs, List.mem_append, List.mem_cons] at ho ⊢
          rcases ho with rfl | ho
          · simp
          · have := h4 o ho
            simp only [List.mem_append, List.mem_cons] at this
            tauto
      · simp only [nodesOf, evalNodes, Node.outs, barrier_vals hB]
        cases k with
        | zero =>
          simp only [List.getElem?_cons_zero, Option.some.injEq] at h1 h2 h3
          subst h1 h2 h3
          refine ⟨hle, ?_⟩
          rw [evalNodes_notin _ _ _ _ (hnn n (Nat.lt_succ_self n))]
          simp [upd, stripIf, hf]
        | succ k =>
          simp only [List.getElem?_cons_succ] at h1 h2 h3
          have h4 := ih.eval sem hB (upd F [n] [strip (F d)]) k a' d' o h1 h2 h3
          have hdn' : (d' : Nat) < n := hd d' (by simp [List.mem_of_getElem? h2])
          rw [upd_notin F [n] _ d' (by simp only [List.mem_singleton]; intro h; subst h; exact Nat.lt_irrefl _ hdn')] at h4
          exact h4

theorem barriers_eq (bop : Op) (io : Out) : ∀ (xs : List Out) (n : Nat),
    ctxOperands bop io (fun _ => false) xs xs n = (barriers bop io xs n, List.range' n xs.length, n + xs.length)
  | [], n => rfl
  | x :: xs, n => by
    simp only [ctxOperands, barriers_eq bop io xs (n + 1), Bool.false_eq_true, if_false, barriers, List.length_cons, List.range'_succ]
    simp [Nat.add_comm, Nat.add_left_comm]

theorem strip_eq (e : Env V) (l : List Out) : lift (plain (l.map e)) = l.map fun x => strip (e x) := by
  simp only [lift, plain, List.map_map]
  refine List.map_congr_left fun x _ => ?_
  simp only [Function.comp, strip]
  cases e x <;> rfl

/-- A well-formed function. -/
structure Callee.Good (c : Callee) (fty : Out → Bool) : Prop where
  wf : wfNodes (c.params ++ c.args) c.sub = true
  nodup : (c.params ++ c.args ++ namesNodes c.sub).Nodup
  res : ∀ r ∈ c.results, r ∈ c.params ++ c.args ++ c.sub.outs
  typed : c.typed fty = true

/-- What the function computes if its context variables have the values `cs`. -/
noncomputable def Callee.run (c : Callee) (sem : Sem V) (cs : List (W V)) (ps : List (Option V)) : List (Option V) :=
  plain (c.results.map (evalNodes sem c.sub (upd (upd emptyEnv c.args cs) c.params (lift ps))))

/-- What is known of the nodes that replace a call. -/
structure Here (c : Callee) (bop : Op) (deps xs : List Out) (n : Nat) (mid : List Node) (rs : List Out) (n' : Nat) : Prop where
  le : n ≤ n'
  nodup : (namesNodes (nodesOf mid)).Nodup
  names : ∀ z : Nat, z ∈ namesNodes (nodesOf mid) → n ≤ z ∧ z < n'
  len : rs.length = c.results.length
  wf : ∀ B : List Out, (∀ d ∈ deps, d ∈ B) → (∀ x ∈ xs, x ∈ B) → wfNodes B (nodesOf mid) = true ∧ ∀ o ∈ rs, o ∈ (nodesOf mid).outs ++ B
  eval : ∀ {V : Type} (sem : Sem V), Barrier bop sem → NoPeek sem → ∀ (F : Env V) (k : Nat) (o : Out), rs[k]? = some o →
    evalNodes sem (nodesOf mid) F o = (lift (c.run sem (deps.map F) (plain (xs.map F)))).getD k none

theorem lookup_idx {m : SMap} : ∀ {os xs : List Out}, m.lookup os = some xs → ∀ (k : Nat) (x : Out), xs[k]? = some x →
    ∃ o, os[k]? = some o ∧ m o = some x
  | [], xs, h, k, x, hx => by simp [SMap.lookup] at h; subst h; simp at hx
  | o :: os, xs, h, k, x, hx => by
    simp only [SMap.lookup, Option.bind_eq_some_iff, Option.map_eq_some_iff] at h
    obtain ⟨y, h1, ys, h2, rfl⟩ := h
    cases k with
    | zero => simp at hx; subst hx; exact ⟨o, by simp, h1⟩
    | succ k =>
      obtain ⟨o', h3, h4⟩ := lookup_idx h2 k x (by simpa using hx)
      exact ⟨o', by simpa using h3, h4⟩

theorem inlineCall_spec {c : Callee} {bop : Op} {fty : Out → Bool} {deps xs : List Out} {n n' : Nat} {mid : List Node} {rs : List Out}
    (hc : c.Good fty) (hb : bop.kind ≠ .load) (h2 : 2 ≤ xs.length) (hxl : xs.length = c.params.length) (hdl : deps.length = c.args.length)
    (hx : ∀ z : Nat, z ∈ xs → z < n) (hd : ∀ z : Nat, z ∈ deps → z < n)
    (h : inlineCall c bop fty deps xs n = some (mid, rs, n')) : Here c bop deps xs n mid rs n' := by
  simp only [inlineCall, Option.bind_eq_some_iff, Option.map_eq_some_iff, Prod.mk.injEq] at h
  obtain ⟨⟨sub', m', n2⟩, hcopy, rs', hrs, rfl, rfl, rfl⟩ := h
  simp only at hrs ⊢
  have hio' : xs.getD (xs.length - 2) 0 ∈ xs := by
    rw [List.getD_eq_getElem?_getD, List.getElem?_eq_getElem (by omega)]
    simp
  revert hcopy hio'
  generalize xs.getD (xs.length - 2) 0 = io
  intro hcopy hio'
  have hio := hx io hio'
  have hP := ctxOperands_spec (bop := bop) (fty := fun _ => false) xs xs n rfl hx hio hb
  rw [barriers_eq] at hP
  have hC := ctxOperands_spec (bop := bop) (fty := fty) c.args deps (n + xs.length) hdl.symm (fun z hz => by have := hd z hz; omega)
    (Nat.lt_of_lt_of_le hio (Nat.le_add_right _ _)) hb
  revert hcopy hC
  generalize ctxOperands bop io fty c.args deps (n + xs.length) = ctx
  obtain ⟨cn, co, n1⟩ := ctx
  simp only at hP
  intro hcopy hC
  simp only at hcopy hC ⊢
  have hnd := hc.nodup
  rw [List.nodup_append] at hnd
  obtain ⟨hna, hns, hsep⟩ := hnd
  have hna' := List.nodup_append.1 hna
  have hty := hc.typed
  simp only [Callee.typed, Bool.and_eq_true, List.all_eq_true, Bool.not_eq_true'] at hty
  obtain ⟨⟨hty1, hty2⟩, hty3⟩ := hty
  have hsepA : ∀ o ∈ c.params ++ c.args, o ∉ namesNodes c.sub := fun o ho h => hsep o ho o h rfl
  have hK := copyNodes_spec c.sub hc.wf hns hsepA hcopy
  have hle1 := hC.le
  have hle2 := hK.le
  -- the substitution map
  have hmap : ∀ o ∈ c.params ++ c.args, ∀ x : Nat,
      ((SMap.empty.insertAll c.params (List.range' n xs.length)).insertAll c.args co) o = some x →
      (∃ k : Nat, c.args[k]? = some o ∧ co[k]? = some x) ∨
      (o ∉ c.args ∧ ∃ k : Nat, c.params[k]? = some o ∧ (List.range' n xs.length)[k]? = some x) := by
    intro o ho x hm
    rcases insertAll_cases hC.len.symm hm with ⟨_, k, h1, h2⟩ | ⟨h1, hm⟩
    · exact .inl ⟨k, h1, h2⟩
    · rcases insertAll_cases (by simp [hxl]) hm with ⟨_, k, h3, h4⟩ | ⟨_, hm⟩
      · exact .inr ⟨h1, k, h3, h4⟩
      · simp [SMap.empty] at hm
  have hle0 : n ≤ n + xs.length := by omega
  refine ⟨by omega, ?_, ?_, lookup_length hrs, fun B hB1 hB2 => ?_, fun sem hBar hN F k o ho => ?_⟩
  · rw [List.append_assoc, names_append, names_append, nodesOf_list, List.nodup_append, List.nodup_append]
    refine ⟨hP.nodup, ⟨hC.nodup, hK.nodup, fun a ha b hb e => ?_⟩, fun a ha b hb e => ?_⟩ <;> subst e
    · have h3 := hC.names a ha
      have h4 := hK.names a hb
      omega
    · have h3 := hP.names a ha
      rcases List.mem_append.1 hb with hb | hb
      · have h4 := hC.names a hb; omega
      · have h4 := hK.names a hb; omega
  · intro z hz
    rw [List.append_assoc, names_append, names_append, nodesOf_list, List.mem_append, List.mem_append] at hz
    rcases hz with hz | hz | hz
    · have := hP.names z hz; omega
    · have := hC.names z hz; omega
    · have := hK.names z hz; omega
  · obtain ⟨w1, w2⟩ := hP.wf B hB2 (hB2 io hio')
    obtain ⟨w3, w4⟩ := hC.wf ((nodesOf (barriers bop io xs n)).outs ++ B) (fun d hd => by simp [hB1 d hd]) (by simp [hB2 io hio'])
    have hin : ∀ o ∈ c.params ++ c.args, ∀ x, ((SMap.empty.insertAll c.params (List.range' n xs.length)).insertAll c.args co) o = some x →
        x ∈ (nodesOf cn).outs ++ ((nodesOf (barriers bop io xs n)).outs ++ B) := by
      intro o ho x hm
      rcases hmap o ho x hm with ⟨k, _, h4⟩ | ⟨_, k, _, h4⟩
      · exact w4 x (List.mem_of_getElem? h4)
      · have := w2 x (List.mem_of_getElem? h4)
        exact List.mem_append_right _ this
    refine ⟨?_, fun o ho => ?_⟩
    · rw [List.append_assoc, wf_append, wf_append, nodesOf_list]
      refine ⟨w1, w3, hK.wf _ hin⟩
    · obtain ⟨k, hk⟩ := List.mem_iff_getElem?.1 ho
      obtain ⟨r, h3, h4⟩ := lookup_idx hrs k o hk
      have hr := hc.res r (List.mem_of_getElem? h3)
      rw [List.append_assoc, outs_append, outs_append, nodesOf_list]
      by_cases hro : r ∈ c.sub.outs
      · obtain ⟨x, hx1, hx2⟩ := hK.new r hro
        rw [h4] at hx2
        cases hx2
        simp [hx1]
      · have h5 := hK.old r hro
        rw [h4] at h5
        have hr' : r ∈ c.params ++ c.args := (List.mem_append.1 hr).resolve_right hro
        have := hin r hr' o h5.symm
        simp only [List.mem_append] at this ⊢
        tauto
  · obtain ⟨r, h3, h4⟩ := lookup_idx hrs k o ho
    have hrm := List.mem_of_getElem? h3
    rw [List.append_assoc, eval_append, eval_append, nodesOf_list]
    generalize hG1 : evalNodes sem (nodesOf (barriers bop io xs n)) F = G1
    generalize hG2 : evalNodes sem (nodesOf cn) G1 = G2
    have hrel : Rel ((SMap.empty.insertAll c.params (List.range' n xs.length)).insertAll c.args co) (c.params ++ c.args) n1
        (stripE fty (upd (upd emptyEnv c.args (deps.map F)) c.params (lift (plain (xs.map F))))) G2 := by
      intro z hz x hm
      rcases hmap z hz x hm with ⟨j, h5, h6⟩ | ⟨hza, j, h5, h6⟩
      · have hj : j < deps.length := by rw [hdl]; exact (List.getElem?_eq_some_iff.1 h5).1
        have h7 := hC.eval sem hBar G1 j z deps[j] x h5 (List.getElem?_eq_getElem hj) h6
        rw [hG2] at h7
        refine ⟨h7.1, h7.2.trans ?_⟩
        have hzp : z ∉ c.params := fun h' => hna'.2.2 z h' z (List.mem_of_getElem? h5) rfl
        simp only [stripE]
        rw [upd_notin _ _ _ _ hzp, Cne.upd_get hna'.2.1 h5]
        have hdj := hd deps[j] (by simp)
        rw [← hG1, evalNodes_notin]
        · simp [List.getD_eq_getElem?_getD, List.getElem?_eq_getElem hj]
        · intro h'
          have := hP.names _ (outs_namesNodes _ _ h')
          exact absurd this.1 (by omega)
      · have hj : j < xs.length := by rw [hxl]; exact (List.getElem?_eq_some_iff.1 h5).1
        have h7 := hP.eval sem hBar F j xs[j] xs[j] x (List.getElem?_eq_getElem hj) (List.getElem?_eq_getElem hj) h6
        rw [hG1] at h7
        refine ⟨Nat.lt_of_lt_of_le h7.1 hle1, ?_⟩
        rw [← hG2, evalNodes_notin, h7.2]
        · simp only [stripE]
          rw [Cne.upd_get hna'.1 h5, strip_eq, hty2 z (List.mem_of_getElem? h5)]
          simp only [stripIf, Bool.false_eq_true, if_false, List.getD_eq_getElem?_getD, List.getElem?_map, List.getElem?_eq_getElem hj,
            Option.map_some, Option.getD_some]
          cases F xs[j] <;> rfl
        · intro h'
          have := hC.names _ (outs_namesNodes _ _ h')
          exact absurd (Nat.lt_of_lt_of_le h7.1 this.1) (Nat.lt_irrefl _)
    have h5 := (hK.eval sem _ G2 hrel r (hc.res r hrm) o h4).2
    rw [h5, nodes_strip hN c.sub _ hc.wf hty1]
    simp only [stripE, hty3 r hrm, Callee.run, stripIf, Bool.false_eq_true, if_false]
    rw [strip_eq _ c.results]
    simp only [List.getD_eq_getElem?_getD, List.getElem?_map, h3, Option.map_some, Option.getD_some]

end Jlm.Opt.Inline
