import Verif.Opt.PullProps

/-! # C41: node sinking ends, and what it achieves -/

set_option linter.unusedSimpArgs false
set_option linter.unusedVariables false

namespace Jlm.Opt.Pull

open Jlm.Opt.Copy Jlm.Opt.Lst

/-! ## Weights -/

mutual

theorem copyNode_weight : ∀ (x : Node) {m m' : SMap} {n n' : Nat} {x' : Node}, copyNode x m n = some (x', m', n') →
    weightNode x' = weightNode x
  | .simple op ins outs, m, m', n, n', x', h => by
    simp only [copyNode, Option.map_eq_some_iff, Prod.mk.injEq] at h
    obtain ⟨_, _, rfl, _, _⟩ := h
    rfl
  | .gamma pred ins outs subs, m, m', n, n', x', h => by
    simp only [copyNode, Option.bind_eq_some_iff, Option.map_eq_some_iff, Prod.mk.injEq] at h
    obtain ⟨_, _, ⟨r1, r2⟩, hr, rfl, _, _⟩ := h
    simp only [weightNode, copyRegions_weight subs hr]
  | .theta ins outs args pred posts sub, m, m', n, n', x', h => by
    simp only [copyNode, Option.bind_eq_some_iff, Option.map_eq_some_iff, Prod.mk.injEq] at h
    obtain ⟨_, _, ⟨r1, r2, r3⟩, hr, _, _, rfl, _, _⟩ := h
    simp only [weightNode, copyNodes_weight sub hr]
  | .lambda .., m, m', n, n', x', h => by simp [copyNode] at h
  | .phi .., m, m', n, n', x', h => by simp [copyNode] at h
  | .delta .., m, m', n, n', x', h => by simp [copyNode] at h

theorem copyNodes_weight : ∀ (ns : Nodes) {m m' : SMap} {n n' : Nat} {ns' : Nodes},
    copyNodes ns m n = some (ns', m', n') → weightNodes ns' = weightNodes ns
  | .nil, m, m', n, n', ns', h => by
    simp only [copyNodes, Option.some.injEq, Prod.mk.injEq] at h
    obtain ⟨rfl, _, _⟩ := h
    rfl
  | .cons x ns, m, m', n, n', ns', h => by
    simp only [copyNodes, Option.bind_eq_some_iff, Option.map_eq_some_iff, Prod.mk.injEq] at h
    obtain ⟨⟨r1, r2, r3⟩, hr, ⟨q1, q2, q3⟩, hq, rfl, _, _⟩ := h
    simp only [weightNodes, copyNode_weight x hr, copyNodes_weight ns hq]

theorem copyRegions_weight : ∀ (subs : Regions) {n n' : Nat} {subs' : Regions},
    copyRegions subs n = some (subs', n') → weightRegions subs' = weightRegions subs
  | .nil, n, n', subs', h => by
    simp only [copyRegions, Option.some.injEq, Prod.mk.injEq] at h
    obtain ⟨rfl, _⟩ := h
    rfl
  | .cons args results sub rest, n, n', subs', h => by
    simp only [copyRegions, Option.bind_eq_some_iff, Option.map_eq_some_iff, Prod.mk.injEq] at h
    obtain ⟨⟨r1, r2, r3⟩, hr, _, _, ⟨q1, q2⟩, hq, rfl, _⟩ := h
    simp only [weightRegions, copyNodes_weight sub hr, copyRegions_weight rest hq]

end

theorem copyInto_weight {x x' : Node} {os : List Out} {n n' : Nat} (h : copyInto x os n = some (x', n')) :
    weightNode x' = weightNode x := by
  cases x with
  | simple op ins outs =>
    simp only [copyInto, Option.some.injEq, Prod.mk.injEq] at h
    obtain ⟨rfl, _⟩ := h
    rfl
  | _ =>
    simp only [copyInto, Option.map_eq_some_iff, Prod.mk.injEq] at h
    obtain ⟨⟨r1, r2, r3⟩, hr, rfl, _⟩ := h
    exact copyNode_weight _ hr

theorem divert_weight (τ : Out → Out) : ∀ ns : Nodes, weightNodes (ns.divert τ) = weightNodes ns
  | .nil => rfl
  | .cons x ns => by
    simp only [Nodes.divert, weightNodes, divert_weight τ ns]
    cases x <;> rfl

theorem pullRegions_weight {x : Node} {ins : List Out} : ∀ (subs : Regions) {n n' : Nat} {subs' : Regions},
    pullRegions x ins subs n = some (subs', n') → weightRegions subs' ≤ weightNode x + weightRegions subs
  | .nil, n, n', subs', h => by
    simp only [pullRegions, Option.some.injEq, Prod.mk.injEq] at h
    obtain ⟨rfl, _⟩ := h
    simp [weightRegions]
  | .cons args results sub rest, n, n', subs', h => by
    simp only [pullRegions, Option.bind_eq_some_iff, Option.map_eq_some_iff, Prod.mk.injEq] at h
    obtain ⟨⟨x', n1⟩, hc, ⟨q1, q2⟩, hq, rfl, _⟩ := h
    have h1 := copyInto_weight hc
    have h2 := pullRegions_weight rest hq
    simp only [weightRegions, weightNodes, divert_weight, h1]
    omega

theorem weight_append : ∀ (xs ys : List Node),
    weightNodes (nodesOf (xs ++ ys)) = weightNodes (nodesOf xs) + weightNodes (nodesOf ys)
  | [], ys => by simp [nodesOf, weightNodes]
  | x :: xs, ys => by simp only [List.cons_append, nodesOf, weightNodes, weight_append xs ys]; omega

theorem pullLoop_weight {all : Bool} {users : List Out} {pred : Out} : ∀ (f : Nat) {w w' : Work},
    pullLoop all users pred f w = some w' →
    weightNodes (nodesOf w'.before) + weightRegions w'.subs ≤ weightNodes (nodesOf w.before) + weightRegions w.subs
  | 0, w, w', h => by
    simp only [pullLoop, Option.some.injEq] at h
    subst h; exact Nat.le_refl _
  | f + 1, w, w', h => by
    rw [pullLoop] at h
    cases hc : candidate all w.before users pred w.ins w.subs w.ins with
    | none =>
      simp only [hc, Option.some.injEq] at h
      subst h; exact Nat.le_refl _
    | some p =>
      obtain ⟨a, x, b⟩ := p
      simp only [hc, Option.bind_eq_some_iff] at h
      obtain ⟨q, hq, h⟩ := h
      have h1 := pullLoop_weight f h
      have h2 := pullRegions_weight _ hq
      rw [(candidate_some hc).1]
      simp only [weight_append, nodesOf, weightNodes] at h1 ⊢
      omega

theorem pullGamma_weight {users : List Out} {pred : Out} {w w' : Work} (h : pullGamma users pred w = some w') :
    weightNodes (nodesOf w'.before) + weightRegions w'.subs ≤ weightNodes (nodesOf w.before) + weightRegions w.subs := by
  rw [pullGamma] at h
  split at h
  · simp only [Option.some.injEq] at h
    subst h; exact Nat.le_refl _
  · exact pullLoop_weight _ h

/-- `pull` does not make regions heavier. -/
def Light (pull : Nodes → List Out → Nat → Option (Nodes × Nat)) : Prop :=
  ∀ (ns ns' : Nodes) (R : List Out) (n n' : Nat), pull ns R n = some (ns', n') → weightNodes ns' ≤ weightNodes ns

theorem pullSubs_weight {pull : Nodes → List Out → Nat → Option (Nodes × Nat)} (hp : Light pull) :
    ∀ (subs : Regions) {n n' : Nat} {subs' : Regions}, pullSubs pull subs n = some (subs', n') →
      weightRegions subs' ≤ weightRegions subs
  | .nil, n, n', subs', h => by
    simp only [pullSubs, Option.some.injEq, Prod.mk.injEq] at h
    obtain ⟨rfl, _⟩ := h
    exact Nat.le_refl _
  | .cons args results sub rest, n, n', subs', h => by
    simp only [pullSubs, Option.bind_eq_some_iff, Option.map_eq_some_iff, Prod.mk.injEq] at h
    obtain ⟨⟨r1, r2⟩, hr, ⟨q1, q2⟩, hq, rfl, _⟩ := h
    have h1 := hp _ _ _ _ _ hr
    have h2 := pullSubs_weight hp rest hq
    simp only [weightRegions]
    omega

theorem pullNodes_weight {pull : Nodes → List Out → Nat → Option (Nodes × Nat)} (hp : Light pull) {R : List Out} :
    ∀ (after before : List Node) {n n' : Nat} {l : List Node}, pullNodes pull R before after n = some (l, n') →
      weightNodes (nodesOf l) ≤ weightNodes (nodesOf before) + weightNodes (nodesOf after)
  | [], before, n, n', l, h => by
    simp only [pullNodes, Option.some.injEq, Prod.mk.injEq] at h
    obtain ⟨rfl, _⟩ := h
    exact Nat.le_add_right _ _
  | .simple op ins outs :: after, before, n, n', l, h => by
    simp only [pullNodes] at h
    have := pullNodes_weight hp after _ h
    simp only [weight_append, nodesOf, weightNodes, weightNode] at this ⊢
    omega
  | .delta ins args result out sub :: after, before, n, n', l, h => by
    simp only [pullNodes] at h
    have := pullNodes_weight hp after _ h
    simp only [weight_append, nodesOf, weightNodes, weightNode] at this ⊢
    omega
  | .gamma pred ins outs subs :: after, before, n, n', l, h => by
    simp only [pullNodes, Option.bind_eq_some_iff] at h
    obtain ⟨w, h1, q, h2, h⟩ := h
    have h1 := pullGamma_weight h1
    have h2 := pullSubs_weight hp _ h2
    have := pullNodes_weight hp after _ h
    simp only [weight_append, nodesOf, weightNodes, weightNode] at this h1 ⊢
    omega
  | .theta ins outs args pred posts sub :: after, before, n, n', l, h => by
    simp only [pullNodes, Option.bind_eq_some_iff] at h
    obtain ⟨r, h1, h⟩ := h
    have h1 := hp _ _ _ _ _ h1
    have := pullNodes_weight hp after _ h
    simp only [weight_append, nodesOf, weightNodes, weightNode] at this ⊢
    omega
  | .lambda ins args params rs out sub :: after, before, n, n', l, h => by
    simp only [pullNodes, Option.bind_eq_some_iff] at h
    obtain ⟨r, h1, h⟩ := h
    have h1 := hp _ _ _ _ _ h1
    have := pullNodes_weight hp after _ h
    simp only [weight_append, nodesOf, weightNodes, weightNode] at this ⊢
    omega
  | .phi ins args recs rs outs sub :: after, before, n, n', l, h => by
    simp only [pullNodes, Option.bind_eq_some_iff] at h
    obtain ⟨r, h1, h⟩ := h
    have h1 := hp _ _ _ _ _ h1
    have := pullNodes_weight hp after _ h
    simp only [weight_append, nodesOf, weightNodes, weightNode] at this ⊢
    omega

theorem pullRegion_light : ∀ f : Nat, Light (pullRegion f)
  | 0 => by
    intro ns ns' R n n' h
    simp only [pullRegion, Option.some.injEq, Prod.mk.injEq] at h
    obtain ⟨rfl, _⟩ := h
    exact Nat.le_refl _
  | f + 1 => by
    intro ns ns' R n n' h
    simp only [pullRegion, Option.map_eq_some_iff, Prod.mk.injEq] at h
    obtain ⟨⟨l, k⟩, h, rfl, _⟩ := h
    have := pullNodes_weight (pullRegion_light f) _ _ h
    rw [nodesOf_list] at this
    simpa [nodesOf, weightNodes] using this

/-! ## The depth of the nesting is bounded -/

theorem pullSubs_congr {p p' : Nodes → List Out → Nat → Option (Nodes × Nat)} {b : Nat}
    (hp : ∀ ns R n, weightNodes ns ≤ b → p ns R n = p' ns R n) : ∀ (subs : Regions) (n : Nat), weightRegions subs ≤ b →
    pullSubs p subs n = pullSubs p' subs n
  | .nil, n, _ => rfl
  | .cons args results sub rest, n, h => by
    simp only [weightRegions] at h
    simp only [pullSubs, hp sub results n (by omega)]
    congr 1
    funext r
    rw [pullSubs_congr hp rest r.2 (by omega)]

theorem pullNodes_congr {p p' : Nodes → List Out → Nat → Option (Nodes × Nat)} {b : Nat} (hl : Light p)
    (hp : ∀ ns R n, weightNodes ns ≤ b → p ns R n = p' ns R n) {R : List Out} : ∀ (after before : List Node) (n : Nat),
    weightNodes (nodesOf before) + weightNodes (nodesOf after) ≤ b + 1 →
    pullNodes p R before after n = pullNodes p' R before after n
  | [], before, n, h => rfl
  | .simple op ins outs :: after, before, n, h => by
    simp only [pullNodes]
    refine pullNodes_congr hl hp after _ n ?_
    simp only [weight_append, nodesOf, weightNodes, weightNode] at h ⊢
    omega
  | .delta ins args result out sub :: after, before, n, h => by
    simp only [pullNodes]
    refine pullNodes_congr hl hp after _ n ?_
    simp only [weight_append, nodesOf, weightNodes, weightNode] at h ⊢
    omega
  | .gamma pred ins outs subs :: after, before, n, h => by
    simp only [pullNodes]
    cases hg : pullGamma (after.flatMap Node.ins ++ R) pred ⟨before, ins, subs, n⟩ with
    | none => rfl
    | some w =>
      have h1 := pullGamma_weight hg
      simp only [nodesOf, weightNodes, weightNode] at h h1
      simp only [Option.bind_some]
      rw [pullSubs_congr hp w.subs w.n (by omega)]
      cases hs : pullSubs p' w.subs w.n with
      | none => rfl
      | some q =>
        have h2 : weightRegions q.1 ≤ weightRegions w.subs :=
          pullSubs_weight (pull := p) hl w.subs (by rw [pullSubs_congr hp w.subs w.n (by omega)]; exact hs)
        simp only [Option.bind_some]
        refine pullNodes_congr hl hp after _ _ ?_
        simp only [weight_append, nodesOf, weightNodes, weightNode]
        omega
  | .theta ins outs args pred posts sub :: after, before, n, h => by
    simp only [nodesOf, weightNodes, weightNode] at h
    simp only [pullNodes]
    rw [← hp sub (pred :: posts) n (by omega)]
    cases hs : p sub (pred :: posts) n with
    | none => rfl
    | some q =>
      have h2 := hl _ _ _ _ _ hs
      simp only [Option.bind_some]
      refine pullNodes_congr hl hp after _ _ ?_
      simp only [weight_append, nodesOf, weightNodes, weightNode]
      omega
  | .lambda ins args params rs out sub :: after, before, n, h => by
    simp only [nodesOf, weightNodes, weightNode] at h
    simp only [pullNodes]
    rw [← hp sub rs n (by omega)]
    cases hs : p sub rs n with
    | none => rfl
    | some q =>
      have h2 := hl _ _ _ _ _ hs
      simp only [Option.bind_some]
      refine pullNodes_congr hl hp after _ _ ?_
      simp only [weight_append, nodesOf, weightNodes, weightNode]
      omega
  | .phi ins args recs rs outs sub :: after, before, n, h => by
    simp only [nodesOf, weightNodes, weightNode] at h
    simp only [pullNodes]
    rw [← hp sub rs n (by omega)]
    cases hs : p sub rs n with
    | none => rfl
    | some q =>
      have h2 := hl _ _ _ _ _ hs
      simp only [Option.bind_some]
      refine pullNodes_congr hl hp after _ _ ?_
      simp only [weight_append, nodesOf, weightNodes, weightNode]
      omega

theorem weight_pos : ∀ x : Node, 1 ≤ weightNode x := by
  intro x
  cases x <;> simp [weightNode]

/-- **C41, node sinking ends.** Nodes are moved into nested regions, which are handled again, but the recursion ends:
from the depth `weightNodes ns` on nothing depends on the bound of the recursion. -/
theorem C41_ends : ∀ (f f' : Nat) (ns : Nodes) (R : List Out) (n : Nat), weightNodes ns ≤ f → weightNodes ns ≤ f' →
    pullRegion f ns R n = pullRegion f' ns R n
  | f, 0, .cons x ns, R, n, _, h' => by
    simp only [weightNodes] at h'
    have := weight_pos x
    omega
  | 0, f', .cons x ns, R, n, h, _ => by
    simp only [weightNodes] at h
    have := weight_pos x
    omega
  | f, f', .nil, R, n, _, _ => by
    have : ∀ f, pullRegion f .nil R n = some (.nil, n) := by
      intro f
      cases f <;> simp [pullRegion, Nodes.list, pullNodes, nodesOf]
    rw [this, this]
  | f + 1, f' + 1, .cons x ns, R, n, h, h' => by
    simp only [pullRegion]
    rw [pullNodes_congr (b := min f f') (pullRegion_light f)
      (fun ns R n hb => C41_ends f f' ns R n (by omega) (by omega)) _ _ _ (by
        rw [nodesOf_list]; simp only [nodesOf, weightNodes] at h h' ⊢; omega)]

/-! ## What is achieved -/

theorem pullLoop_done {all : Bool} {users : List Out} {pred : Out} : ∀ (f : Nat) {w w' : Work}, w.before.length ≤ f →
    pullLoop all users pred f w = some w' → candidate all w'.before users pred w'.ins w'.subs w'.ins = none
  | 0, w, w', hf, h => by
    simp only [pullLoop, Option.some.injEq] at h
    subst h
    cases hc : candidate all w.before users pred w.ins w.subs w.ins with
    | none => rfl
    | some p =>
      have := (candidate_some (a := p.1) (x := p.2.1) (b := p.2.2) hc).1
      rw [this] at hf
      simp at hf
  | f + 1, w, w', hf, h => by
    rw [pullLoop] at h
    cases hc : candidate all w.before users pred w.ins w.subs w.ins with
    | none =>
      simp only [hc, Option.some.injEq] at h
      subst h; exact hc
    | some p =>
      obtain ⟨a, x, b⟩ := p
      simp only [hc, Option.bind_eq_some_iff] at h
      obtain ⟨q, hq, h⟩ := h
      refine pullLoop_done f ?_ h
      rw [(candidate_some hc).1] at hf
      simp only [List.length_append, List.length_cons] at hf ⊢
      omega

theorem split_none {o : Out} : ∀ {l : List Node}, split o l = none → ∀ x ∈ l, o ∉ x.outs
  | [], _, x, hx => by simp at hx
  | y :: l, h, x, hx => by
    simp only [split] at h
    split at h
    · simp at h
    · rename_i hc
      simp only [Option.map_eq_none_iff] at h
      rcases List.mem_cons.1 hx with rfl | hx
      · simpa using hc
      · exact split_none h x hx

theorem candidate_none {all : Bool} {before : List Node} {users : List Out} {pred : Out} {ins : List Out} {subs : Regions}
    (hd : ∀ x ∈ before, ∀ y ∈ before, ∀ o ∈ x.outs, o ∈ y.outs → x = y) :
    ∀ {os : List Out}, candidate all before users pred ins subs os = none → ∀ o ∈ os, ∀ x ∈ before, o ∈ x.outs →
      pred ∈ x.outs ∨ (∃ o' ∈ x.outs, o' ∈ before.flatMap Node.ins ++ users) ∨
        (all = false ∧ usedCount x ins subs ≠ 1)
  | [], h, o, ho, _, _, _ => by simp at ho
  | o' :: os, h, o, ho, x, hx, hox => by
    simp only [candidate] at h
    rcases List.mem_cons.1 ho with rfl | ho
    · split at h
      · rename_i a x' b hs
        split at h
        · simp at h
        · rename_i hc
          obtain ⟨h1, h2⟩ := split_eq hs
          have hx' : x' ∈ before := by rw [h1]; simp
          have : x' = x := hd x' hx' x hx o h2 hox
          subst this
          simp only [Bool.and_eq_true, Bool.not_eq_true', List.contains_eq_mem, decide_eq_false_iff_not, Bool.or_eq_true,
            beq_iff_eq, single, List.all_eq_true, not_and_or, not_or, Classical.not_not, Classical.not_forall,
            Bool.not_eq_true] at hc
          rcases hc with (hc | ⟨o2, ho2, hc⟩) | hc
          · exact .inl hc
          · exact .inr (.inl ⟨o2, ho2, hc⟩)
          · exact .inr (.inr hc)
      · rename_i hs
        exact absurd hox (split_none hs x hx)
    · have : candidate all before users pred ins subs os = none := by
        split at h
        · split at h
          · simp at h
          · exact h
        · exact h
      exact candidate_none hd this o ho x hx hox

/-- **C41, `pullin_top` leaves nothing behind.** Afterwards, every node that still feeds an entry variable of the gamma
node also feeds its predicate, another node, or a result of the region. -/
theorem C41_top {users : List Out} {pred : Out} {w w' : Work} (h : pullTop users pred w = some w')
    (hd : ∀ x ∈ w'.before, ∀ y ∈ w'.before, ∀ o ∈ x.outs, o ∈ y.outs → x = y) :
    ∀ o ∈ w'.ins, ∀ x ∈ w'.before, o ∈ x.outs →
      pred ∈ x.outs ∨ ∃ o' ∈ x.outs, o' ∈ w'.before.flatMap Node.ins ++ users := by
  intro o ho x hx hox
  rcases candidate_none hd (pullLoop_done _ (Nat.le_refl _) h) o ho x hx hox with h | h | h
  · exact .inl h
  · exact .inr h
  · simp at h

/-- **C41, what `pull(gamma)` leaves behind.** A node that still feeds an entry variable of the gamma node also feeds its
predicate, another node, a result of the region, or no or several branches, unless the gamma node is translated to
select instructions. -/
theorem C41_pulled {users : List Out} {pred : Out} {w w' : Work} (h : pullGamma users pred w = some w')
    (hs : ¬ (branches w.subs = 2 ∧ emptyGamma w.subs = true))
    (hd : ∀ x ∈ w'.before, ∀ y ∈ w'.before, ∀ o ∈ x.outs, o ∈ y.outs → x = y) :
    ∀ o ∈ w'.ins, ∀ x ∈ w'.before, o ∈ x.outs →
      pred ∈ x.outs ∨ (∃ o' ∈ x.outs, o' ∈ w'.before.flatMap Node.ins ++ users) ∨ usedCount x w'.ins w'.subs ≠ 1 := by
  intro o ho x hx hox
  rw [pullGamma, if_neg (by simpa using hs)] at h
  rcases candidate_none hd (pullLoop_done _ (Nat.le_refl _) h) o ho x hx hox with h | h | h
  · exact .inl h
  · exact .inr (.inl h)
  · exact .inr (.inr h.2)

end Jlm.Opt.Pull
