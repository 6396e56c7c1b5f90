import Verif.Opt.IvrModel
import Verif.Opt.RefineLemmas
import Verif.Opt.DneWf

/-!
# Redirection at one node: the new origin carries the value of the output
-/

set_option linter.unusedSimpArgs false
set_option linter.unusedVariables false

namespace Jlm.Opt

variable {V : Type}

theorem upd_zip_lookup {env e : Env V} : ∀ (as ins : List Out) (r o : Out),
    (as.zip ins).lookup r = some o → upd env as (ins.map e) r = e o
  | [], _, r, o, h => by simp at h
  | a :: as, [], r, o, h => by simp at h
  | a :: as, i :: ins, r, o, h => by
      simp only [List.zip_cons_cons, List.lookup_cons] at h
      simp only [List.map_cons, upd, List.headD_cons, List.tail_cons]
      by_cases hr : r = a
      · subst hr
        simp at h
        simp [h]
      · have : (r == a) = false := by simpa using hr
        rw [this] at h
        rw [if_neg hr]
        exact upd_zip_lookup as ins r o h

theorem upd_getD {e : Env V} : ∀ (os : List Out) (ws : List (W V)) (o : Out), o ∈ os →
    upd e os ws o = ws.getD (os.idxOf o) none
  | [], _, o, h => by simp at h
  | a :: os, ws, o, h => by
      simp only [upd]
      by_cases ho : o = a
      · subst ho
        rw [if_pos rfl, List.idxOf_cons_self]
        cases ws <;> simp
      · rw [if_neg ho, upd_getD os ws.tail o (by simpa [ho] using h), getD_tail,
          show (a :: os).idxOf o = os.idxOf o + 1 by
            rw [List.idxOf_cons]
            have : (a == o) = false := by simpa using Ne.symm ho
            simp [this]]

theorem lookup_zip_mem {as ins : List Out} {r o : Out} (h : (as.zip ins).lookup r = some o) :
    r ∈ as ∧ o ∈ ins := by
  have := Dne.lookup_mem h
  exact ⟨(List.of_mem_zip this).1, (List.of_mem_zip this).2⟩

theorem wfNode_ins {A : List Out} {n : Node} (h : wfNode A n = true) : ∀ i ∈ n.ins, i ∈ A := by
  cases n <;> simp only [wfNode, Bool.and_eq_true, Dne.subset_iff] at h <;> simp only [Node.ins]
  · exact h.1
  · exact h.1
  · exact h.1.1.1.1.1
  · exact h.1.1.1
  · exact h.1.1.1.1.1
  · exact h.1.1.1.1

theorem owner_mem {o : Out} {n : Node} : ∀ (ns : Nodes), ns.owner o = some n → o ∈ ns.outs
  | .nil, h => by simp [Nodes.owner] at h
  | .cons m ns, h => by
      simp only [Nodes.owner] at h
      by_cases hm : o ∈ m.outs
      · simp [Nodes.outs, hm]
      · rw [if_neg hm] at h
        simp [Nodes.outs, owner_mem ns h]

theorem node_outs_nodup {n : Node} (hn : (namesNode n).Nodup) : n.outs.Nodup := by
  cases n with
  | simple op ins outs => simpa only [namesNode, Node.outs] using hn
  | gamma pred ins outs subs =>
    simp only [namesNode] at hn
    exact (List.nodup_append.1 hn).1
  | theta ins outs args pred posts sub =>
    simp only [namesNode] at hn
    exact (List.nodup_append.1 (List.nodup_append.1 hn).1).1
  | lambda ins args params results out sub => simp [Node.outs]
  | delta ins args result out sub => simp [Node.outs]
  | phi ins args recs results outs sub =>
    simp only [namesNode] at hn
    exact (List.nodup_append.1 (List.nodup_append.1 (List.nodup_append.1 hn).1).1).1

/-- The nodes of a region define their outputs from the final environment. -/
theorem evalNodes_owner (sem : Sem V) : ∀ (ns : Nodes) (A : List Out) (e : Env V) (o : Out) (n : Node),
    wfNodes A ns = true → (namesNodes ns).Nodup → (∀ x ∈ A, x ∉ namesNodes ns) →
    ns.owner o = some n →
    evalNodes sem ns e o = (nodeVals sem n (evalNodes sem ns e)).getD (n.outs.idxOf o) none
  | .nil, A, e, o, n, _, _, _, h => by simp [Nodes.owner] at h
  | .cons m ns, A, e, o, n, hwf, hn, hd, h => by
      simp only [wfNodes, Bool.and_eq_true] at hwf
      simp only [namesNodes] at hn hd
      have hn' := List.nodup_append.1 hn
      simp only [evalNodes]
      simp only [Nodes.owner] at h
      by_cases ho : o ∈ m.outs
      · rw [if_pos ho] at h
        cases h
        have hno : ∀ x ∈ m.outs, x ∉ ns.outs := fun x hx hx' =>
          hn'.2.2 x (Dne.outs_subset_names m x hx) x (Dne.Nodes_outs_subset_names ns x hx') rfl
        rw [evalNodes_notin sem ns _ o (hno o ho), upd_getD _ _ _ ho]
        congr 1
        refine nodeVals_congr sem m _ _ fun i hi => ?_
        have hA : i ∈ A := wfNode_ins hwf.1 i hi
        have hi' := hd i hA
        simp only [List.mem_append, not_or] at hi'
        rw [evalNodes_notin sem ns _ i (fun hc => hi'.2 (Dne.Nodes_outs_subset_names ns i hc)),
          upd_notin _ _ _ _ (fun hc => hi'.1 (Dne.outs_subset_names m i hc))]
      · rw [if_neg ho] at h
        refine evalNodes_owner sem ns _ _ o n hwf.2 hn'.2.1 ?_ h
        intro x hx
        rcases List.mem_append.1 hx with hx | hx
        · exact fun hc => hn'.2.2 x (Dne.outs_subset_names m x hx) x hc rfl
        · have := hd x hx
          simp only [List.mem_append, not_or] at this
          exact this.2

/-- What well-formedness says about the owner of an output. -/
theorem owner_wf : ∀ (ns : Nodes) (A : List Out) (o : Out) (n : Node),
    wfNodes A ns = true → (namesNodes ns).Nodup → (∀ x ∈ A, x ∉ namesNodes ns) →
    ns.owner o = some n →
    o ∈ n.outs ∧ (∀ x ∈ n.outs, x ∈ ns.outs) ∧ (namesNode n).Nodup ∧
      (∀ i ∈ n.ins, i ∈ ns.ins) ∧ (∀ x ∈ n.outs, ns.owner x = some n) ∧
      ∃ B, wfNode B n = true ∧ (∀ x ∈ B, x ∈ A ++ ns.outs) ∧ ∀ x ∈ B, x ∉ namesNode n
  | .nil, A, o, n, _, _, _, h => by simp [Nodes.owner] at h
  | .cons m ns, A, o, n, hwf, hn, hd, h => by
      simp only [wfNodes, Bool.and_eq_true] at hwf
      simp only [namesNodes] at hn hd
      have hn' := List.nodup_append.1 hn
      simp only [Nodes.owner] at h
      by_cases ho : o ∈ m.outs
      · rw [if_pos ho] at h
        cases h
        refine ⟨ho, fun x hx => by simp [Nodes.outs, hx], hn'.1, fun i hi => by simp [Nodes.ins, hi],
          fun x hx => by simp [Nodes.owner, hx], A, hwf.1, fun x hx => by simp [hx], fun x hx => ?_⟩
        have := hd x hx
        simp only [List.mem_append, not_or] at this
        exact this.1
      · rw [if_neg ho] at h
        have hd' : ∀ x ∈ m.outs ++ A, x ∉ namesNodes ns := by
          intro x hx
          rcases List.mem_append.1 hx with hx | hx
          · exact fun hc => hn'.2.2 x (Dne.outs_subset_names m x hx) x hc rfl
          · have := hd x hx
            simp only [List.mem_append, not_or] at this
            exact this.2
        obtain ⟨h1, h2, h3, h4, h5, B, h6, h7, h8⟩ := owner_wf ns _ o n hwf.2 hn'.2.1 hd' h
        refine ⟨h1, fun x hx => by simp [Nodes.outs, h2 x hx], h3,
          fun i hi => by simp [Nodes.ins, h4 i hi], fun x hx => ?_, B, h6, fun x hx => ?_, h8⟩
        · have : x ∉ m.outs := fun hc => hn'.2.2 x (Dne.outs_subset_names m x hc) x
            (Dne.Nodes_outs_subset_names ns x (h2 x hx)) rfl
          simp [Nodes.owner, this, h5 x hx]
        · have := h7 x hx
          simp only [Nodes.outs, List.mem_append] at this ⊢
          tauto

theorem get?_owner : ∀ (ns : Nodes) (i : Nat) (n : Node), (namesNodes ns).Nodup →
    ns.get? i = some n → ∀ o ∈ n.outs, ns.owner o = some n
  | .nil, i, n, _, h, o, ho => by simp [Nodes.get?] at h
  | .cons m ns, 0, n, hn, h, o, ho => by
      simp only [Nodes.get?, Option.some.injEq] at h
      subst h
      simp [Nodes.owner, ho]
  | .cons m ns, i + 1, n, hn, h, o, ho => by
      simp only [Nodes.get?] at h
      simp only [namesNodes] at hn
      have hn' := List.nodup_append.1 hn
      have ih := get?_owner ns i n hn'.2.1 h o ho
      have : o ∉ m.outs := fun hc => hn'.2.2 o (Dne.outs_subset_names m o hc) o
        (Dne.Nodes_outs_subset_names ns o (owner_mem ns ih)) rfl
      simp [Nodes.owner, this, ih]

namespace Ivr

/-! ## gamma -/

/-- A branch result that comes from an entry variable has the value of the entry variable. -/
theorem externalOrigin_val {sem : Sem V} {ins args : List Out} {sub : Nodes} {r o : Out} {w : W V}
    {e : Env V} (hl : args.length = ins.length + 1) (hn : (args ++ namesNodes sub).Nodup)
    (h : externalOrigin ins args r = some o) :
    evalNodes sem sub (upd emptyEnv args (w :: ins.map e)) r = e o ∧ o ∈ ins := by
  have hn' := List.nodup_append.1 hn
  obtain ⟨hr, ho⟩ := lookup_zip_mem h
  cases args with
  | nil => simp at hl
  | cons a as =>
    simp only [List.tail_cons] at hr
    have hra : r ∈ a :: as := by simp [hr]
    rw [evalNodes_notin sem sub _ r
      (fun hc => hn'.2.2 r hra r (Dne.Nodes_outs_subset_names sub r hc) rfl)]
    have hne : r ≠ a := by
      rintro rfl
      exact (List.nodup_cons.1 hn'.1).1 hr
    refine ⟨?_, ho⟩
    simp only [upd, if_neg hne, List.tail_cons]
    exact upd_zip_lookup as ins r o h

/-- Value of result `k` of the branch that is taken, if it comes from an entry variable there. -/
theorem regionVals_origin {sem : Sem V} {e : Env V} {ins : List Out} {w : W V} {k : Nat} {m : Nat} :
    ∀ (subs : Regions) (c : Nat) (args results : List Out) (o : Out),
    wfRegions (ins.length + 1) m subs = true → (namesRegions subs).Nodup →
    subs.branch c = some (args, results) → (results[k]?).bind (externalOrigin ins args) = some o →
    (regionVals sem subs c (w :: ins.map e)).getD k none = e o ∧ o ∈ ins
  | .nil, c, args, results, o, _, _, hb, _ => by simp [Regions.branch] at hb
  | .cons as rs sub rest, 0, args, results, o, hwf, hn, hb, ho => by
      simp only [Regions.branch, Option.some.injEq, Prod.mk.injEq] at hb
      obtain ⟨rfl, rfl⟩ := hb
      simp only [wfRegions, Bool.and_eq_true, beq_iff_eq] at hwf
      simp only [namesRegions] at hn
      have hn' := List.nodup_append.1 hn
      obtain ⟨r, hr, ho⟩ := Option.bind_eq_some_iff.1 ho
      simp only [regionVals, List.getD_eq_getElem?_getD, List.getElem?_map, hr, Option.map_some,
        Option.getD_some]
      exact externalOrigin_val hwf.1.1.1.1 hn'.1 ho
  | .cons as rs sub rest, c + 1, args, results, o, hwf, hn, hb, ho => by
      simp only [wfRegions, Bool.and_eq_true] at hwf
      simp only [namesRegions] at hn
      simp only [regionVals]
      exact regionVals_origin rest c args results o hwf.2 (List.nodup_append.1 hn).2.1
        (by simpa [Regions.branch] using hb) ho

theorem regionVals_none {sem : Sem V} {ws : List (W V)} : ∀ (subs : Regions) (c : Nat),
    subs.branch c = none → regionVals sem subs c ws = []
  | .nil, c, _ => by simp [regionVals]
  | .cons _ _ _ _, 0, h => by simp [Regions.branch] at h
  | .cons _ _ _ rest, c + 1, h => by
      simp only [regionVals]
      exact regionVals_none rest c (by simpa [Regions.branch] using h)

theorem sameOrigin_branch {ins : List Out} {k : Nat} {o : Out} : ∀ (subs : Regions) (c : Nat)
    (args results : List Out), sameOrigin ins k o subs = true → subs.branch c = some (args, results) →
    (results[k]?).bind (externalOrigin ins args) = some o
  | .nil, c, args, results, _, hb => by simp [Regions.branch] at hb
  | .cons as rs sub rest, 0, args, results, h, hb => by
      simp only [Regions.branch, Option.some.injEq, Prod.mk.injEq] at hb
      obtain ⟨rfl, rfl⟩ := hb
      simp only [sameOrigin, Bool.and_eq_true, beq_iff_eq] at h
      exact h.1
  | .cons as rs sub rest, c + 1, args, results, h, hb => by
      simp only [sameOrigin, Bool.and_eq_true] at h
      exact sameOrigin_branch rest c args results h.2 (by simpa [Regions.branch] using hb)

theorem gammaInvariantOrigin_same {ins : List Out} {k : Nat} {o : Out} {subs : Regions}
    (h : gammaInvariantOrigin ins k subs = some o) : sameOrigin ins k o subs = true ∧ o ∈ ins := by
  cases subs with
  | nil => simp [gammaInvariantOrigin] at h
  | cons args results sub rest =>
    simp only [gammaInvariantOrigin] at h
    cases hb : (results[k]?).bind (externalOrigin ins args) with
    | none => rw [hb] at h; simp at h
    | some o' =>
      rw [hb] at h
      simp only at h
      by_cases hs : sameOrigin ins k o' rest = true
      · rw [if_pos hs] at h
        cases h
        refine ⟨by simp [sameOrigin, hb, hs], ?_⟩
        obtain ⟨r, hr, ho⟩ := Option.bind_eq_some_iff.1 hb
        exact (lookup_zip_mem ho).2
      · rw [if_neg hs] at h; simp at h

/-- An invariant exit variable has the value of its origin, if it has a value. -/
theorem gamma_invariant_val {sem : Sem V} {pred : Out} {ins outs : List Out} {subs : Regions}
    {A : List Out} (hwf : wfNode A (.gamma pred ins outs subs) = true)
    (hn : (namesNode (.gamma pred ins outs subs)).Nodup) {k : Nat} {o : Out}
    (h : gammaInvariantOrigin ins k subs = some o) (e : Env V) :
    (nodeVals sem (.gamma pred ins outs subs) e).getD k none = none ∨
      (nodeVals sem (.gamma pred ins outs subs) e).getD k none = e o := by
  obtain ⟨hs, ho⟩ := gammaInvariantOrigin_same h
  simp only [wfNode, Bool.and_eq_true] at hwf
  simp only [namesNode] at hn
  simp only [nodeVals]
  cases hp : e pred with
  | none => exact .inl (by simp)
  | some p =>
    simp only
    cases hb : subs.branch (sem.ctl p.1) with
    | none => rw [regionVals_none subs _ hb]; exact .inl (by simp)
    | some ar =>
      obtain ⟨args, results⟩ := ar
      exact .inr (regionVals_origin subs _ args results o hwf.2 (List.nodup_append.1 hn).2.1 hb
        (sameOrigin_branch subs _ _ _ hs hb)).1

/-! ## theta -/

theorem theta_state_inv {sem : Sem V} {args posts : List Out} {pred : Out} {sub : Nodes} {k : Nat}
    {a : Out} (ha : args[k]? = some a) (hp : posts[k]? = some a) (hn : args.Nodup)
    (hs : a ∉ sub.outs) (init : List (W V)) : ∀ m,
    (loopState (fun ws => (pred :: posts).map (evalNodes sem sub (upd emptyEnv args ws))) init m).getD k
      none = init.getD k none
  | 0 => rfl
  | m + 1 => by
      simp only [loopState, List.map_cons, List.tail_cons]
      rw [List.getD_eq_getElem?_getD, List.getElem?_map, hp]
      simp only [Option.map_some, Option.getD_some]
      have hk : args.idxOf a = k := by
        obtain ⟨hlt, he⟩ := List.getElem?_eq_some_iff.1 ha
        rw [← he]
        exact hn.idxOf_getElem k hlt
      rw [evalNodes_notin sem sub _ a hs, upd_getD _ _ _ (List.mem_of_getElem? ha), hk]
      exact theta_state_inv ha hp hn hs init m

/-- An invariant loop variable has its initial value after the loop, if the loop is left. -/
theorem theta_invariant_val {sem : Sem V} {ins outs args posts : List Out} {pred : Out} {sub : Nodes}
    (hn : (namesNode (.theta ins outs args pred posts sub)).Nodup) {k : Nat} {a i : Out}
    (ha : args[k]? = some a) (hp : posts[k]? = some a) (hi : ins[k]? = some i) (e : Env V) :
    (nodeVals sem (.theta ins outs args pred posts sub) e).getD k none = none ∨
      (nodeVals sem (.theta ins outs args pred posts sub) e).getD k none = e i := by
  simp only [namesNode] at hn
  have hn1 := List.nodup_append.1 hn
  have hn2 := List.nodup_append.1 hn1.1
  have has : a ∉ sub.outs := fun hc => hn1.2.2 a
    (by simp [List.mem_of_getElem? ha]) a (Dne.Nodes_outs_subset_names sub a hc) rfl
  simp only [nodeVals]
  rcases loopVals_exit' (sem := sem)
    (f := fun ws => (pred :: posts).map (evalNodes sem sub (upd emptyEnv args ws)))
    (init := ins.map e) with ⟨n, _, h⟩ | ⟨_, h⟩
  · rw [h, theta_state_inv ha hp hn2.2.1 has]
    right
    simp [List.getD_eq_getElem?_getD, hi]
  · rw [h]; exact .inl (by simp)

theorem thetaRedirects_mem {io : Out → Bool} {x y : Out} : ∀ (ins outs args posts : List Out),
    (x, y) ∈ thetaRedirects io ins outs args posts →
    ∃ (k : Nat) (a : Out), ins[k]? = some y ∧ outs[k]? = some x ∧ args[k]? = some a ∧ posts[k]? = some a ∧
      io x = false
  | [], _, _, _, h => by simp [thetaRedirects] at h
  | _ :: _, [], _, _, h => by simp [thetaRedirects] at h
  | _ :: _, _ :: _, [], _, h => by simp [thetaRedirects] at h
  | _ :: _, _ :: _, _ :: _, [], h => by simp [thetaRedirects] at h
  | i :: ins, o :: outs, a :: args, p :: posts, h => by
      have tail : (x, y) ∈ thetaRedirects io ins outs args posts →
          ∃ (k : Nat) (a' : Out), (i :: ins)[k]? = some y ∧ (o :: outs)[k]? = some x ∧
            (a :: args)[k]? = some a' ∧ (p :: posts)[k]? = some a' ∧ io x = false := fun h' => by
        obtain ⟨k, a', h1, h2, h3, h4, h5⟩ := thetaRedirects_mem ins outs args posts h'
        exact ⟨k + 1, a', by simpa using h1, by simpa using h2, by simpa using h3, by simpa using h4, h5⟩
      simp only [thetaRedirects] at h
      split at h
      · rename_i hc
        simp only [Bool.and_eq_true, Bool.not_eq_true', beq_iff_eq] at hc
        rcases List.mem_cons.1 h with h | h
        · cases h
          exact ⟨0, a, by simp, by simp, by simp, by simp [hc.2], hc.1⟩
        · exact tail h
      · exact tail h

/-! ## all nodes -/

/-- The new origins are inputs of the node and carry at least the value of the output. -/
theorem redirects_sound {sem : Sem V} {cfg : Config} {alive : Out → Bool} {n : Node} {A : List Out}
    (hwf : wfNode A n = true) (hn : (namesNode n).Nodup) {x y : Out}
    (h : (x, y) ∈ redirects cfg alive n) :
    x ∈ n.outs ∧ y ∈ n.ins ∧ ∀ e : Env V, (∀ i, LeW (e i) (e i)) →
      LeW ((nodeVals sem n e).getD (n.outs.idxOf x) none) (e y) := by
  have hout : ∀ {k : Nat}, n.outs[k]? = some x → n.outs.idxOf x = k := by
    intro k hk
    obtain ⟨hlt, he⟩ := List.getElem?_eq_some_iff.1 hk
    have hno := node_outs_nodup hn
    rw [← he]
    exact hno.idxOf_getElem k hlt
  cases n with
  | lambda ins args params results out sub => simp [redirects] at h
  | delta ins args result out sub => simp [redirects] at h
  | phi ins args recs results outs sub => simp [redirects] at h
  | simple op ins outs =>
    simp only [redirects] at h
    split at h
    · rename_i hc
      simp only [Bool.and_eq_true, decide_eq_true_eq] at hc
      obtain ⟨i, is, o, os, rfl, rfl, hl, hA⟩ := Dne.load_shape hc.1 hwf
      simp only [loadRedirects] at h
      split at h
      · simp at h
      · simp only [List.tail_cons] at h
        obtain ⟨k, hk, he⟩ := List.getElem_of_mem h
        simp only [List.length_zip] at hk
        simp only [List.getElem_zip, Prod.mk.injEq] at he
        have hx : (o :: os)[k + 1]? = some x := by
          simp only [List.getElem?_cons_succ]
          exact List.getElem?_eq_some_iff.2 ⟨by omega, he.1⟩
        refine ⟨List.mem_of_getElem? hx, ?_, fun e he' => ?_⟩
        · simp only [Node.ins, List.mem_cons]
          right
          rw [← he.2]; exact List.getElem_mem _
        · rw [hout hx]
          simp only [nodeVals, hc.1, if_true, List.map_cons, List.tail_cons]
          have : is[k]? = some y := List.getElem?_eq_some_iff.2 ⟨by omega, he.2⟩
          simp [List.getD_eq_getElem?_getD, this]
          exact he' y
    · simp at h
  | gamma pred ins outs subs =>
    simp only [redirects] at h
    split at h
    · simp only [gammaRedirects, List.mem_filterMap, Option.map_eq_some_iff] at h
      obtain ⟨p, hp, o, ho, he⟩ := h
      simp only [Prod.mk.injEq] at he
      obtain ⟨rfl, rfl⟩ := he
      have hx : outs[p.2]? = some p.1 := by
        have := List.mem_zipIdx_iff_getElem?.1 (show (p.1, p.2) ∈ outs.zipIdx from hp)
        simpa using this
      refine ⟨List.mem_of_getElem? hx, ?_, fun e he' => ?_⟩
      · simp [Node.ins, (gammaInvariantOrigin_same ho).2]
      · rw [hout hx]
        rcases gamma_invariant_val (sem := sem) hwf hn ho e with h | h
        · rw [h]; exact LeW.none_le (he' _)
        · rw [h]; exact he' _
    · simp at h
  | theta ins outs args pred posts sub =>
    simp only [redirects] at h
    split at h
    · obtain ⟨k, a, h1, h2, h3, h4, h5⟩ := thetaRedirects_mem _ _ _ _ h
      refine ⟨List.mem_of_getElem? h2, by simpa [Node.ins] using List.mem_of_getElem? h1, fun e he' => ?_⟩
      rw [hout h2]
      rcases theta_invariant_val (sem := sem) hn h3 h4 h1 e with h | h
      · rw [h]; exact LeW.none_le (he' _)
      · rw [h]; exact he' _
    · simp at h

end Ivr

end Jlm.Opt
