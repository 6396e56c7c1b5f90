import Verif.Opt.PcModel
import Verif.Opt.IvrCorr
import Verif.Opt.IvrProps
import Verif.Opt.ListNodes

/-! # Predicate correlation: refinement and end (C43) -/

set_option linter.unusedSimpArgs false
set_option linter.unusedVariables false

namespace Jlm.Opt.Pc

open Jlm.Opt.Ivr

variable {V : Type}

/-! ## One redirection -/

/-- Wherever the old predicate is produced, the new one is produced, too, and selects the same alternative. -/
theorem redirect_val {sem : Sem V} (hc : sem.Control) {sub : Nodes} {A : List Out} {e : Env V} {pred p : Out}
    (hwf : wfNodes A sub = true) (hn : (namesNodes sub).Nodup) (hd : ∀ x ∈ A, x ∉ namesNodes sub)
    (h : redirect (correlation pred sub) = some p) {v : Val V} (hv : evalNodes sem sub e pred = some v) :
    ∃ q, evalNodes sem sub e p = some q ∧ sem.ctl q.1 = sem.ctl v.1 := by
  have two : ∀ {a b : Nat} {c d : Nat}, [a, b][c]? = some d → (c = 0 ∧ a = d) ∨ (c = 1 ∧ b = d) := by
    intro a b c d h
    rcases c with _ | _ | c
    · left; simpa using h
    · right; simpa using h
    · simp at h
  simp only [correlation] at h
  cases h1 : controlCorrelation pred sub with
  | some c =>
    rw [h1] at h
    simp only at h
    simp only [controlCorrelation, Option.map_eq_some_iff] at h1
    obtain ⟨⟨g, alts⟩, h1, rfl⟩ := h1
    obtain ⟨ho, pr, ins, outs, subs, q, rfl, hq, ha⟩ := gammaAlternatives_val hc hwf hn hd h1 hv
    simp only [redirect] at h
    split at h <;> simp only [Option.some.injEq, Corr.control.injEq, reduceCtorEq] at *
    rename_i a b hab
    obtain ⟨hg, hab⟩ := hab
    split at h
    · rename_i hz
      subst hg
      simp only [predicateOf, Option.some.injEq] at h
      subst h
      subst hab
      obtain ⟨rfl, rfl⟩ := hz
      rcases two ha with h2 | h2 <;> exact ⟨q, hq, by omega⟩
    · simp at h
  | none =>
    rw [h1] at h
    simp only at h
    cases h2 : matchConstantCorrelation pred sub with
    | none => rw [h2] at h; simp [redirect] at h
    | some c =>
      rw [h2] at h
      simp only [matchConstantCorrelation] at h2
      cases hm : matchOf pred sub with
      | none => rw [hm] at h2; simp at h2
      | some t =>
        obtain ⟨m, d, i⟩ := t
        rw [hm] at h2
        simp only [Option.map_eq_some_iff] at h2
        obtain ⟨⟨g, alts⟩, h2, rfl⟩ := h2
        obtain ⟨x, hx, hvx⟩ := matchOf_val hc hwf hn hd hm hv
        obtain ⟨ho, pr, ins, outs, subs, q, rfl, hq, ha⟩ := gammaAlternatives_val hc hwf hn hd h2 hx
        simp only [redirect] at h
        split at h <;> simp only [Option.some.injEq, Corr.matchConstant.injEq, reduceCtorEq] at *
        rename_i a b hab
        obtain ⟨hg, hm', hd', hab⟩ := hab
        subst hg hm' hd' hab
        split at h
        · rename_i hz
          simp only [predicateOf, Option.some.injEq] at h
          subst h
          rcases two ha with h3 | h3
          · exact ⟨q, hq, by rw [hvx, ← h3.2, hz.1]; exact h3.1⟩
          · exact ⟨q, hq, by rw [hvx, ← h3.2, hz.2]; exact h3.1⟩
        · simp at h

/-- The new predicate is an operand of the node that produces the old one, or of a node that produces an operand of
it. -/
theorem redirect_owner {sub : Nodes} {pred p : Out} (h : redirect (correlation pred sub) = some p) :
    ∃ g, p ∈ g.ins ∧ (sub.owner pred = some g ∨
      ∃ x i, sub.owner pred = some x ∧ i ∈ x.ins ∧ sub.owner i = some g) := by
  have key : ∀ {o : Out} {g : Node} {alts : List Nat}, gammaAlternatives o (sub.owner o) = some (g, alts) →
      sub.owner o = some g := by
    intro o g alts h
    cases ho : sub.owner o with
    | none => rw [ho] at h; simp [gammaAlternatives] at h
    | some n =>
      rw [ho] at h
      cases n with
      | gamma pr ins outs subs =>
        simp only [gammaAlternatives, Option.map_eq_some_iff, Prod.mk.injEq] at h
        obtain ⟨_, _, rfl, _⟩ := h
        rfl
      | _ => simp [gammaAlternatives] at h
  have pin : ∀ {g : Node} {p : Out}, predicateOf g = some p → p ∈ g.ins := by
    intro g p h
    cases g <;> simp_all [predicateOf, Node.ins]
  simp only [correlation] at h
  cases h1 : controlCorrelation pred sub with
  | some c =>
    rw [h1] at h
    simp only [controlCorrelation, Option.map_eq_some_iff] at h1
    obtain ⟨⟨g, alts⟩, h1, rfl⟩ := h1
    refine ⟨g, ?_, .inl (key h1)⟩
    simp only [redirect] at h
    split at h <;> simp only [Option.some.injEq, Corr.control.injEq, reduceCtorEq] at *
    rename_i hab
    split at h
    · rw [hab.1]; exact pin h
    · simp at h
  | none =>
    rw [h1] at h
    simp only at h
    cases h2 : matchConstantCorrelation pred sub with
    | none => rw [h2] at h; simp [redirect] at h
    | some c =>
      rw [h2] at h
      simp only [matchConstantCorrelation] at h2
      cases hm : matchOf pred sub with
      | none => rw [hm] at h2; simp at h2
      | some t =>
        obtain ⟨m, d, i⟩ := t
        rw [hm] at h2
        simp only [Option.map_eq_some_iff] at h2
        obtain ⟨⟨g, alts⟩, h2, rfl⟩ := h2
        refine ⟨g, ?_, .inr ?_⟩
        · simp only [redirect] at h
          split at h <;> simp only [Option.some.injEq, Corr.matchConstant.injEq, reduceCtorEq] at *
          rename_i hab
          split at h
          · rw [hab.1]; exact pin h
          · simp at h
        · simp only [matchOf] at hm
          cases ho : sub.owner pred with
          | none => rw [ho] at hm; simp at hm
          | some x =>
            rw [ho] at hm
            rcases x with ⟨op, ins, outs⟩ | _ | _ | _ | _ | _ <;> try (simp at hm; done)
            rcases ins with _ | ⟨j, _ | ⟨j', ins⟩⟩ <;> try (simp at hm; done)
            simp only at hm
            cases hk : op.kind <;> rw [hk] at hm <;> simp at hm
            exact ⟨_, i, rfl, by simp [Node.ins, hm.2.2], key h2⟩

/-! ## The loop ends -/

/-- Position of the node that produces an output, 0 for arguments of the region. -/
def rank (o : Out) : Nodes → Nat
  | .nil => 0
  | .cons n ns => if o ∈ n.outs then 1 else if o ∈ ns.outs then rank o ns + 1 else 0

theorem rank_le (o : Out) : ∀ ns : Nodes, rank o ns ≤ size ns
  | .nil => by simp [rank]
  | .cons n ns => by
    have := rank_le o ns
    simp only [rank, size]
    split
    · omega
    · split <;> omega

theorem rank_owner {o : Out} : ∀ {ns : Nodes}, rank o ns = 0 → ns.owner o = none
  | .nil, _ => rfl
  | .cons n ns, h => by
    simp only [rank] at h
    split at h
    · simp at h
    · rename_i h1
      split at h
      · omega
      · rename_i h2
        simp only [Nodes.owner, if_neg h1]
        cases ho : ns.owner o with
        | none => rfl
        | some x => exact absurd (owner_mem ns ho) h2

/-- Operands have a smaller position. -/
theorem rank_lt {o i : Out} {n : Node} : ∀ {ns : Nodes} {A : List Out}, wfNodes A ns = true → (namesNodes ns).Nodup →
    (∀ x ∈ A, x ∉ namesNodes ns) → ns.owner o = some n → i ∈ n.ins → rank i ns < rank o ns
  | .nil, A, _, _, _, h, _ => by simp [Nodes.owner] at h
  | .cons m ns, A, hwf, hn, hd, h, hi => by
    simp only [wfNodes, Bool.and_eq_true] at hwf
    simp only [namesNodes, List.mem_append, not_or] at hn hd
    have hn' := List.nodup_append.1 hn
    have outm : ∀ x ∈ ns.outs, x ∈ namesNodes ns := Copy.outs_namesNodes ns
    simp only [Nodes.owner] at h
    split at h
    · rename_i ho
      simp only [Option.some.injEq] at h
      subst h
      have hA := Lst.wfNode_ins hwf.1 i hi
      simp only [rank]
      rw [if_neg (fun h' => (hd i hA).1 (Copy.outs_names m i h')), if_neg (fun h' => (hd i hA).2 (outm i h')), if_pos ho]
      omega
    · rename_i ho
      have hmem := owner_mem ns h
      have ih := rank_lt (i := i) hwf.2 hn'.2.1 (fun x hx h' => by
        rcases List.mem_append.1 hx with hx | hx
        · exact hn'.2.2 x (Copy.outs_names m x hx) x h' rfl
        · exact (hd x hx).2 h') h hi
      simp only [rank]
      rw [if_neg ho, if_pos hmem]
      split
      · have : 0 < rank o ns := by omega
        omega
      · split <;> omega

/-- **C43, the loop ends:** the number of iterations is bounded by the number of nodes of the region; afterwards there
is nothing left to do. -/
theorem C43_fixpoint {sub : Nodes} {A : List Out} (hwf : wfNodes A sub = true) (hn : (namesNodes sub).Nodup)
    (hd : ∀ x ∈ A, x ∉ namesNodes sub) (pred : Out) :
    redirect (correlation (newPredicate sub (size sub) pred) sub) = none := by
  have key : ∀ (f : Nat) (pred : Out), rank pred sub ≤ f → redirect (correlation (newPredicate sub f pred) sub) = none := by
    intro f
    induction f with
    | zero =>
      intro pred h
      simp only [newPredicate]
      cases hr : redirect (correlation pred sub) with
      | none => rfl
      | some p =>
        obtain ⟨g, _, h1 | ⟨x, i, h1, _⟩⟩ := redirect_owner hr <;>
          rw [rank_owner (by omega)] at h1 <;> simp at h1
    | succ f ih =>
      intro pred h
      simp only [newPredicate]
      cases hr : redirect (correlation pred sub) with
      | none => simpa using hr
      | some p =>
        refine ih p ?_
        obtain ⟨g, hp, h1 | ⟨x, i, h1, h2, h3⟩⟩ := redirect_owner hr
        · have := rank_lt hwf hn hd h1 hp
          omega
        · have := rank_lt hwf hn hd h1 h2
          have := rank_lt hwf hn hd h3 hp
          omega
  exact key _ pred (rank_le pred sub)

/-! ## Refinement -/

theorem newPredicate_val {sem : Sem V} (hc : sem.Control) {sub : Nodes} {A : List Out} {e : Env V}
    (hwf : wfNodes A sub = true) (hn : (namesNodes sub).Nodup) (hd : ∀ x ∈ A, x ∉ namesNodes sub) :
    ∀ (f : Nat) (pred : Out) {v : Val V}, evalNodes sem sub e pred = some v →
      ∃ q, evalNodes sem sub e (newPredicate sub f pred) = some q ∧ sem.ctl q.1 = sem.ctl v.1
  | 0, pred, v, hv => ⟨v, hv, rfl⟩
  | f + 1, pred, v, hv => by
    simp only [newPredicate]
    cases hr : redirect (correlation pred sub) with
    | none => exact ⟨v, hv, rfl⟩
    | some p =>
      obtain ⟨q, hq, hqv⟩ := redirect_val hc hwf hn hd hr hv
      obtain ⟨q', hq', hqv'⟩ := newPredicate_val hc hwf hn hd f p hq
      exact ⟨q', hq', hqv'.trans hqv⟩

theorem ino {o : Out} {g : Node} : ∀ {ns : Nodes}, ns.owner o = some g → ∀ i ∈ g.ins, i ∈ ns.ins
  | .nil, h, i, hi => by simp [Nodes.owner] at h
  | .cons m ns, h, i, hi => by
    simp only [Nodes.owner] at h
    simp only [Nodes.ins, List.mem_append]
    split at h
    · simp only [Option.some.injEq] at h
      subst h
      exact .inl hi
    · exact .inr (ino h i hi)

theorem newPredicate_mem {sub : Nodes} {A : List Out} (hwf : wfNodes A sub = true) :
    ∀ (f : Nat) (pred : Out), pred ∈ A ++ sub.outs → newPredicate sub f pred ∈ A ++ sub.outs
  | 0, pred, h => h
  | f + 1, pred, h => by
    simp only [newPredicate]
    cases hr : redirect (correlation pred sub) with
    | none => exact h
    | some p =>
      refine newPredicate_mem hwf f p ?_
      obtain ⟨g, hp, h1 | ⟨x, i, h1, h2, h3⟩⟩ := redirect_owner hr
      · have := Lst.wf_ins _ hwf p (ino h1 p hp)
        simp only [List.mem_append] at this ⊢; exact this
      · have := Lst.wf_ins _ hwf p (ino h3 p hp)
        simp only [List.mem_append] at this ⊢; exact this

/-- Loops that differ in the values of their predicates, but not in the alternatives they select. -/
theorem loopVals_pred {sem : Sem V} {f f' : List (W V) → List (W V)} {init : List (W V)}
    (ht : ∀ ws, (f' ws).tail = (f ws).tail)
    (hh : ∀ ws v, (f ws).headD none = some v → ∃ q, (f' ws).headD none = some q ∧ sem.ctl q.1 = sem.ctl v.1) :
    loopVals sem f init = [] ∨ loopVals sem f' init = loopVals sem f init := by
  have hst : ∀ m, loopState f' init m = loopState f init m := by
    intro m
    induction m with
    | zero => rfl
    | succ m ih => rw [loopState, loopState, ih, ht]
  have hp : ∀ m c, loopPred sem f init m = some c → loopPred sem f' init m = some c := by
    intro m c h
    simp only [loopPred, Option.map_eq_some_iff] at h
    obtain ⟨v, hv, rfl⟩ := h
    obtain ⟨q, hq, hqv⟩ := hh _ v hv
    simp only [loopPred, hst, hq, Option.map_some, hqv]
  rcases loopVals_exit' (sem := sem) (f := f) (init := init) with ⟨j, hj, hv⟩ | ⟨_, hv⟩
  · right
    have hex : loopExits sem f' init j := ⟨hp _ _ hj.1, fun m hm => by
      obtain ⟨c, hc⟩ := hj.2 m hm
      exact ⟨c, hp _ _ hc⟩⟩
    rw [loopVals_at hex, hv, hst]
  · exact .inl hv

theorem predicate_le {sem : Sem V} (hs : sem.Mono) (hc : sem.Control) {ins outs args posts : List Out} {pred : Out}
    {sub : Nodes} (hwf : wfNodes args sub = true) (hn : (namesNodes sub).Nodup) (hd : ∀ x ∈ args, x ∉ namesNodes sub)
    (f : Nat) : NodeLe sem (.theta ins outs args pred posts sub)
      (.theta ins outs args (newPredicate sub f pred) posts sub) := by
  intro e e' he
  have h1 := nodeVals_mono hs (.theta ins outs args pred posts sub) e e' he
  have h2 := nodeVals_mono hs (.theta ins outs args (newPredicate sub f pred) posts sub) e' e'
    (fun i hi => (he i (by simpa [Node.ins] using hi)).right)
  intro k
  have h1 := h1 k
  have h2 := h2 k
  simp only [nodeVals] at h1 h2 ⊢
  rcases loopVals_pred (sem := sem)
      (f := fun ws => (pred :: posts).map (evalNodes sem sub (upd emptyEnv args ws)))
      (f' := fun ws => (newPredicate sub f pred :: posts).map (evalNodes sem sub (upd emptyEnv args ws)))
      (init := ins.map e') (fun ws => rfl) (fun ws v hv => by
        simp only [List.map_cons, List.headD_cons] at hv ⊢
        exact newPredicate_val hc hwf hn hd f pred hv) with h | h
  · rw [h] at h1
    revert h1
    generalize (loopVals sem (fun ws => (pred :: posts).map (evalNodes sem sub (upd emptyEnv args ws))) (ins.map e)).getD k none = a
    intro h1
    cases a with
    | none => exact LeW.none_le h2
    | some a => simp [LeW] at h1
  · rw [h]; exact h1

structure NodeOk (A : List Out) (n n' : Node) : Prop where
  wf : wfNode A n' = true
  ins : n'.ins = n.ins
  outs : n'.outs = n.outs
  names : namesNode n' = namesNode n
  le : ∀ {V : Type} (sem : Sem V), sem.Mono → sem.Control → NodeLe sem n n'

mutual

theorem corrNode_ok : ∀ (n : Node) {A : List Out}, wfNode A n = true → (namesNode n).Nodup → NodeOk A n (corrNode n)
  | .simple op ins outs, A, hw, hn => ⟨hw, rfl, rfl, rfl, fun sem hs hc => nodeVals_mono hs _⟩
  | .delta ins args result out sub, A, hw, hn => ⟨hw, rfl, rfl, rfl, fun sem hs hc => nodeVals_mono hs _⟩
  | .gamma pred ins outs subs, A, hw, hn => by
    simp only [wfNode, Bool.and_eq_true] at hw
    simp only [namesNode] at hn
    obtain ⟨h1, h2, h3⟩ := corrRegions_ok subs hw.2 (List.nodup_append.1 hn).2.1
    refine ⟨?_, rfl, rfl, ?_, fun sem hs hc => ?_⟩
    · simp only [corrNode, wfNode, Bool.and_eq_true]; exact ⟨hw.1, h1⟩
    · simp only [corrNode, namesNode, h2]
    · exact gamma_le (h3 sem hs hc) (regionVals_mono hs _)
  | .theta ins outs args pred posts sub, A, hw, hn => by
    simp only [wfNode, Bool.and_eq_true, beq_iff_eq, Dne.subset_iff] at hw
    obtain ⟨⟨⟨⟨⟨w1, w2⟩, w3⟩, w4⟩, w5⟩, w6⟩ := hw
    simp only [namesNode] at hn
    have hn1 := List.nodup_append.1 hn
    obtain ⟨h1, h2, h3, h4⟩ := corrNodes_ok sub w5 hn1.2.1
    have hd : ∀ x ∈ args, x ∉ namesNodes (corrNodes sub) := by
      intro x hx h'
      rw [h3] at h'
      exact hn1.2.2 x (by simp [hx]) x h' rfl
    refine ⟨?_, rfl, rfl, ?_, fun sem hs hc => ?_⟩
    · simp only [corrNode, wfNode, Bool.and_eq_true, beq_iff_eq, Dne.subset_iff]
      refine ⟨⟨⟨⟨⟨w1, w2⟩, w3⟩, w4⟩, h1⟩, fun r hr => ?_⟩
      rcases List.mem_cons.1 hr with rfl | hr
      · refine newPredicate_mem h1 _ _ ?_
        rw [h2]; exact w6 pred (by simp)
      · rw [h2]; exact w6 r (by simp [hr])
    · simp only [corrNode, namesNode, h3]
    · intro e e' he
      have a1 := theta_le (ins := ins) (outs := outs) (args := args) (h4 sem hs hc (pred :: posts))
        (SubLe.refl hs _ _) e e' he
      have a2 := predicate_le hs hc (ins := ins) (outs := outs) (posts := posts) (pred := pred) h1
        (by rw [h3]; exact hn1.2.1) hd (size (corrNodes sub)) e' e' (fun i hi => (he i (by simpa [Node.ins] using hi)).right)
      exact a1.trans a2
  | .lambda ins args params results out sub, A, hw, hn => by
    simp only [wfNode, Bool.and_eq_true, beq_iff_eq, Dne.subset_iff] at hw
    simp only [namesNode] at hn
    obtain ⟨h1, h2, h3, h4⟩ := corrNodes_ok sub hw.1.2 (List.nodup_append.1 hn).2.1
    refine ⟨?_, rfl, rfl, ?_, fun sem hs hc => ?_⟩
    · simp only [corrNode, wfNode, Bool.and_eq_true, beq_iff_eq, Dne.subset_iff]
      exact ⟨⟨hw.1.1, h1⟩, fun r hr => by rw [h2]; exact hw.2 r hr⟩
    · simp only [corrNode, namesNode, h3]
    · exact lambda_le (h4 sem hs hc _) (SubLe.refl hs _ _) (SubLe.refl hs _ _)
  | .phi ins args recs results outs sub, A, hw, hn => by
    simp only [wfNode, Bool.and_eq_true, beq_iff_eq, Dne.subset_iff] at hw
    simp only [namesNode] at hn
    obtain ⟨h1, h2, h3, h4⟩ := corrNodes_ok sub hw.1.2 (List.nodup_append.1 hn).2.1
    refine ⟨?_, rfl, rfl, ?_, fun sem hs hc => ?_⟩
    · simp only [corrNode, wfNode, Bool.and_eq_true, beq_iff_eq, Dne.subset_iff]
      exact ⟨⟨hw.1.1, h1⟩, fun r hr => by rw [h2]; exact hw.2 r hr⟩
    · simp only [corrNode, namesNode, h3]
    · exact phi_le (h4 sem hs hc _)

theorem corrNodes_ok : ∀ (ns : Nodes) {A : List Out}, wfNodes A ns = true → (namesNodes ns).Nodup →
    wfNodes A (corrNodes ns) = true ∧ (corrNodes ns).outs = ns.outs ∧ namesNodes (corrNodes ns) = namesNodes ns ∧
      ∀ {V : Type} (sem : Sem V), sem.Mono → sem.Control → ∀ rs, SubLe sem ns rs (corrNodes ns) rs
  | .nil, A, hw, hn => ⟨hw, rfl, rfl, fun sem hs hc rs => SubLe.refl hs _ _⟩
  | .cons n ns, A, hw, hn => by
    simp only [wfNodes, Bool.and_eq_true] at hw
    simp only [namesNodes] at hn
    have hn' := List.nodup_append.1 hn
    have a := corrNode_ok n hw.1 hn'.1
    obtain ⟨b1, b2, b3, b4⟩ := corrNodes_ok ns hw.2 hn'.2.1
    refine ⟨?_, ?_, ?_, fun sem hs hc rs => ⟨rfl, fun e e' he => ?_⟩⟩
    · simp only [corrNodes, wfNodes, Bool.and_eq_true, a.outs]; exact ⟨a.wf, b1⟩
    · simp only [corrNodes, Nodes.outs, a.outs, b2]
    · simp only [corrNodes, namesNodes, a.names, b3]
    · have hee := evalNodes_le_cons (Q := fun _ => True) (a.le sem hs hc) a.outs.symm (fun _ _ => trivial) (fun x _ => he x)
      exact (b4 sem hs hc rs).2 _ _ fun x => hee x trivial

theorem corrRegions_ok : ∀ (subs : Regions) {na nr : Nat}, wfRegions na nr subs = true → (namesRegions subs).Nodup →
    wfRegions na nr (corrRegions subs) = true ∧ namesRegions (corrRegions subs) = namesRegions subs ∧
      ∀ {V : Type} (sem : Sem V), sem.Mono → sem.Control → RegsLe sem subs (corrRegions subs)
  | .nil, na, nr, hw, hn => ⟨hw, rfl, fun sem hs hc => regsLe_nil⟩
  | .cons args results sub rest, na, nr, hw, hn => by
    simp only [wfRegions, Bool.and_eq_true, beq_iff_eq, Dne.subset_iff] at hw
    obtain ⟨⟨⟨⟨w1, w2⟩, w3⟩, w4⟩, w5⟩ := hw
    simp only [namesRegions] at hn
    have hn' := List.nodup_append.1 hn
    obtain ⟨b1, b2, b3, b4⟩ := corrNodes_ok sub w3 (List.nodup_append.1 hn'.1).2.1
    obtain ⟨c1, c2, c3⟩ := corrRegions_ok rest w5 hn'.2.1
    refine ⟨?_, ?_, fun sem hs hc => regsLe_cons (b4 sem hs hc _) (c3 sem hs hc)⟩
    · simp only [corrRegions, wfRegions, Bool.and_eq_true, beq_iff_eq, Dne.subset_iff]
      exact ⟨⟨⟨⟨w1, w2⟩, b1⟩, fun r hr => by rw [b2]; exact w4 r hr⟩, c1⟩
    · simp only [corrRegions, namesRegions, b3, c2]

end

/-- **C43, predicate correlation.** The module stays well-formed, its imports, exports and the names of outputs stay
the same, and every export behaves at least as before. -/
theorem C43_correlation {g : Graph} (hw : g.wf = true) :
    (run g).wf = true ∧ (run g).imports = g.imports ∧ (run g).exports = g.exports ∧ (run g).names = g.names ∧
      ∀ {V : Type} (sem : Sem V), sem.Mono → sem.Control → Refines (g.meaning sem) ((run g).meaning sem) := by
  have hok := graph_ok hw
  obtain ⟨h1, h2, h3, h4⟩ := corrNodes_ok g.body hok.wf hok.nodup
  have hnames : (run g).names = g.names := by simp [run, Graph.names, h3]
  refine ⟨?_, rfl, rfl, hnames, fun sem hs hc => ?_⟩
  · simp only [Graph.wf, Bool.and_eq_true, decide_eq_true_eq, Dne.subset_iff] at hw ⊢
    refine ⟨⟨hnames ▸ hw.1.1, h1⟩, fun r hr => ?_⟩
    simp only [run, h2]
    exact hw.2 r hr
  · have himp : LeLW (g.imports.map fun i => (some (sem.sym i, none) : W _))
        (g.imports.map fun i => some (sem.sym i, none)) :=
      LeLW.map (e := fun i => some (sem.sym i, none)) (e' := fun i => some (sem.sym i, none)) _
        fun x _ => ⟨rfl, trivial⟩
    exact ⟨by simp [Graph.meaning, run], (h4 sem hs hc g.exports).2 _ _ (upd_le' emptyEnv_le _ himp)⟩

/-! ## A second run does nothing -/

theorem newPredicate_fix {sub : Nodes} {pred : Out} (h : redirect (correlation pred sub) = none) :
    ∀ f : Nat, newPredicate sub f pred = pred
  | 0 => rfl
  | f + 1 => by simp [newPredicate, h]

mutual

theorem corrNode_idem : ∀ (n : Node) {A : List Out}, wfNode A n = true → (namesNode n).Nodup →
    corrNode (corrNode n) = corrNode n
  | .simple op ins outs, A, hw, hn => rfl
  | .delta ins args result out sub, A, hw, hn => rfl
  | .gamma pred ins outs subs, A, hw, hn => by
    simp only [wfNode, Bool.and_eq_true] at hw
    simp only [namesNode] at hn
    simp only [corrNode, corrRegions_idem subs hw.2 (List.nodup_append.1 hn).2.1]
  | .theta ins outs args pred posts sub, A, hw, hn => by
    simp only [wfNode, Bool.and_eq_true, beq_iff_eq, Dne.subset_iff] at hw
    obtain ⟨⟨⟨⟨⟨w1, w2⟩, w3⟩, w4⟩, w5⟩, w6⟩ := hw
    simp only [namesNode] at hn
    have hn1 := List.nodup_append.1 hn
    obtain ⟨h1, h2, h3, h4⟩ := corrNodes_ok sub w5 hn1.2.1
    have hd : ∀ x ∈ args, x ∉ namesNodes (corrNodes sub) := by
      intro x hx h'
      rw [h3] at h'
      exact hn1.2.2 x (by simp [hx]) x h' rfl
    simp only [corrNode, corrNodes_idem sub w5 hn1.2.1]
    rw [newPredicate_fix (C43_fixpoint h1 (by rw [h3]; exact hn1.2.1) hd pred)]
  | .lambda ins args params results out sub, A, hw, hn => by
    simp only [wfNode, Bool.and_eq_true, beq_iff_eq, Dne.subset_iff] at hw
    simp only [namesNode] at hn
    simp only [corrNode, corrNodes_idem sub hw.1.2 (List.nodup_append.1 hn).2.1]
  | .phi ins args recs results outs sub, A, hw, hn => by
    simp only [wfNode, Bool.and_eq_true, beq_iff_eq, Dne.subset_iff] at hw
    simp only [namesNode] at hn
    simp only [corrNode, corrNodes_idem sub hw.1.2 (List.nodup_append.1 hn).2.1]

theorem corrNodes_idem : ∀ (ns : Nodes) {A : List Out}, wfNodes A ns = true → (namesNodes ns).Nodup →
    corrNodes (corrNodes ns) = corrNodes ns
  | .nil, A, hw, hn => rfl
  | .cons n ns, A, hw, hn => by
    simp only [wfNodes, Bool.and_eq_true] at hw
    simp only [namesNodes] at hn
    have hn' := List.nodup_append.1 hn
    simp only [corrNodes, corrNode_idem n hw.1 hn'.1, corrNodes_idem ns hw.2 hn'.2.1]

theorem corrRegions_idem : ∀ (subs : Regions) {na nr : Nat}, wfRegions na nr subs = true → (namesRegions subs).Nodup →
    corrRegions (corrRegions subs) = corrRegions subs
  | .nil, na, nr, hw, hn => rfl
  | .cons args results sub rest, na, nr, hw, hn => by
    simp only [wfRegions, Bool.and_eq_true, beq_iff_eq, Dne.subset_iff] at hw
    obtain ⟨⟨⟨⟨w1, w2⟩, w3⟩, w4⟩, w5⟩ := hw
    simp only [namesRegions] at hn
    have hn' := List.nodup_append.1 hn
    simp only [corrRegions, corrNodes_idem sub w3 (List.nodup_append.1 hn'.1).2.1, corrRegions_idem rest w5 hn'.2.1]

end

/-- **C43.** A second run of the pass changes nothing. -/
theorem C43_idempotent {g : Graph} (hw : g.wf = true) : run (run g) = run g := by
  have hok := graph_ok hw
  simp only [run, corrNodes_idem g.body hok.wf hok.nodup]

end Jlm.Opt.Pc
