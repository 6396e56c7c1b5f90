import Verif.Opt.Copy
import Verif.Opt.DneExamples
import Verif.Opt.DneWf

/-!
# C40: what a copy of nodes computes, and when a copy can be made
-/

set_option linter.unusedSimpArgs false
set_option linter.unusedVariables false

namespace Jlm.Opt.Copy

variable {V : Type}

/-! ## Specification -/

mutual

/-- Nodes of function bodies in which no branch of a gamma node uses the match variable (argument 0). -/
def plainNode : Node → Bool
  | .simple .. => true
  | .gamma _ _ _ subs => plainRegions subs
  | .theta _ _ _ _ _ sub => plainNodes sub
  | .lambda .. => false
  | .phi .. => false
  | .delta .. => false

def plainNodes : Nodes → Bool
  | .nil => true
  | .cons x ns => plainNode x && plainNodes ns

/-- The nodes and the results of a branch need only the arguments after the first one. -/
def plainRegions : Regions → Bool
  | .nil => true
  | .cons args results sub rest =>
      wfNodes args.tail sub && subset results (args.tail ++ sub.outs) && plainNodes sub && plainRegions rest

end

/-! ## Theorems -/

/-- **C40, copies compute the same values.** Copy a list of nodes `ns`, which needs the outputs `A`, with the
substitution map `m`; the names from `n` on are free. Then every output `o` of `ns` is mapped to an output of the
copy, and if every substitute in `m` holds the value of the output it replaces, so does every substitute in `m'`.
Nothing that existed before changes its value, nothing else is inserted in the map, the new outputs have names of
their own, and the copy needs only what the map provides. -/
theorem C40_copy {ns ns' : Nodes} {A : List Out} {m m' : SMap} {n n' : Nat} (hw : wfNodes A ns = true)
    (hn : (namesNodes ns).Nodup) (hA : ∀ o ∈ A, o ∉ namesNodes ns) (h : copyNodes ns m n = some (ns', m', n')) :
    (∀ {V : Type} (sem : Sem V) (E F : Env V),
      (∀ o ∈ A, ∀ x : Nat, m o = some x → x < n ∧ F x = E o) →
        (∀ o ∈ ns.outs, ∃ x ∈ ns'.outs, m' o = some x ∧ evalNodes sem ns' F x = evalNodes sem ns E o) ∧
        (∀ o ∈ A, ∀ x : Nat, m' o = some x → evalNodes sem ns' F x = E o) ∧
        (∀ x : Nat, x < n → evalNodes sem ns' F x = F x)) ∧
    (∀ o, o ∉ ns.outs → m' o = m o) ∧
    (namesNodes ns').Nodup ∧ (∀ x : Nat, x ∈ namesNodes ns' → n ≤ x ∧ x < n') ∧
    (∀ B : List Out, (∀ o ∈ A, ∀ x, m o = some x → x ∈ B) → wfNodes B ns' = true) := by
  have hs := copyNodes_spec ns hw hn hA h
  refine ⟨fun sem E F hR => ⟨fun o ho => ?_, fun o ho x hx => ?_, fun x hx => ?_⟩, hs.old, hs.nodup, hs.names, hs.wf⟩
  · obtain ⟨x, hx, e⟩ := hs.new o ho
    exact ⟨x, hx, e, (hs.eval sem E F hR o (by simp [ho]) x e).2⟩
  · rw [(hs.eval sem E F hR o (by simp [ho]) x hx).2]
    exact evalNodes_notin sem ns E o fun h' => hA o ho (outs_namesNodes ns o h')
  · refine evalNodes_notin sem ns' F x fun h' => ?_
    have := (hs.names x (outs_namesNodes ns' x h')).1
    omega

mutual

theorem copyNode_total : ∀ (x : Node) {A : List Out} {m : SMap} {n : Nat}, wfNode A x = true → plainNode x = true →
    (∀ o ∈ A, (m o).isSome) → ∃ r, copyNode x m n = some r
  | .simple op ins outs, A, m, n, hw, hp, hm => by
    simp only [wfNode, Bool.and_eq_true, mem_subset] at hw
    obtain ⟨xs, hx⟩ := lookup_some fun o ho => hm o (hw.1 o ho)
    exact ⟨_, by simp only [copyNode, hx, Option.map_some]; rfl⟩
  | .gamma pred ins outs subs, A, m, n, hw, hp, hm => by
    simp only [wfNode, Bool.and_eq_true, mem_subset] at hw
    obtain ⟨xs, hx⟩ := lookup_some fun o ho => hm o (hw.1 o ho)
    obtain ⟨r, hr⟩ := copyRegions_total subs (n := n) hp
    exact ⟨_, by simp only [copyNode, hx, hr, Option.map_some, Option.bind_some]; rfl⟩
  | .theta ins outs args pred posts sub, A, m, n, hw, hp, hm => by
    simp only [wfNode, Bool.and_eq_true, mem_subset] at hw
    obtain ⟨xs, hx⟩ := lookup_some fun o ho => hm o (hw.1.1.1.1.1 o ho)
    obtain ⟨⟨sub', m', n'⟩, hr, hm'⟩ := copyNodes_total sub (n := n + args.length) hw.1.2 (by simpa [plainNode] using hp)
      (m := SMap.empty.insertAll args (List.range' n args.length)) fun o ho => by
        obtain ⟨x, _, e⟩ := insertAll_mem (m := SMap.empty) (xs := List.range' n args.length) (by simp) ho
        simp [e]
    obtain ⟨rs, hrs⟩ := lookup_some (m := m') fun o ho => hm' o (hw.2 o ho)
    exact ⟨_, by simp only [copyNode, hx, hr, hrs, Option.map_some, Option.bind_some]; rfl⟩
  | .lambda .., A, m, n, hw, hp, hm => by simp [plainNode] at hp
  | .phi .., A, m, n, hw, hp, hm => by simp [plainNode] at hp
  | .delta .., A, m, n, hw, hp, hm => by simp [plainNode] at hp

theorem copyNodes_total : ∀ (ns : Nodes) {A : List Out} {m : SMap} {n : Nat}, wfNodes A ns = true →
    plainNodes ns = true → (∀ o ∈ A, (m o).isSome) →
    ∃ r, copyNodes ns m n = some r ∧ ∀ o ∈ A ++ ns.outs, (r.2.1 o).isSome
  | .nil, A, m, n, hw, hp, hm => ⟨_, rfl, fun o ho => hm o (by simpa [Nodes.outs] using ho)⟩
  | .cons x ns, A, m, n, hw, hp, hm => by
    simp only [wfNodes, Bool.and_eq_true] at hw
    simp only [plainNodes, Bool.and_eq_true] at hp
    obtain ⟨⟨x', m1, n1⟩, hx⟩ := copyNode_total x (n := n) hw.1 hp.1 hm
    have hm1 : ∀ o ∈ x.outs ++ A, (m1 o).isSome := by
      have : ∃ xs : List Out, xs.length = x.outs.length ∧ m1 = m.insertAll x.outs xs := by
        cases x with
        | simple op ins outs =>
          simp only [copyNode, Option.map_eq_some_iff, Prod.mk.injEq] at hx
          obtain ⟨_, _, _, e, _⟩ := hx
          exact ⟨_, by simp [Node.outs], e.symm⟩
        | gamma p ins outs subs =>
          simp only [copyNode, Option.bind_eq_some_iff, Option.map_eq_some_iff, Prod.mk.injEq] at hx
          obtain ⟨_, _, _, _, _, e, _⟩ := hx
          exact ⟨_, by simp [Node.outs], e.symm⟩
        | theta a b c d e f =>
          simp only [copyNode, Option.bind_eq_some_iff, Option.map_eq_some_iff, Prod.mk.injEq] at hx
          obtain ⟨_, _, _, _, _, _, _, e, _⟩ := hx
          exact ⟨_, by simp [Node.outs], e.symm⟩
        | _ => simp [copyNode] at hx
      obtain ⟨xs, hl, rfl⟩ := this
      intro o ho
      by_cases h' : o ∈ x.outs
      · obtain ⟨z, _, e⟩ := insertAll_mem (m := m) hl.symm h'
        simp [e]
      · rw [insertAll_notin h']
        exact hm o ((List.mem_append.1 ho).resolve_left h')
    obtain ⟨r, hr, hm2⟩ := copyNodes_total ns (n := n1) hw.2 hp.2 hm1
    refine ⟨(.cons x' r.1, r.2.1, r.2.2), by simp only [copyNodes, hx, hr, Option.map_some, Option.bind_some],
      fun o ho => hm2 o ?_⟩
    simp only [Nodes.outs, List.mem_append] at ho ⊢
    rcases ho with h | h | h
    · exact .inl (.inr h)
    · exact .inl (.inl h)
    · exact .inr h

theorem copyRegions_total : ∀ (subs : Regions) {n : Nat}, plainRegions subs = true →
    ∃ r, copyRegions subs n = some r
  | .nil, n, hp => ⟨_, rfl⟩
  | .cons args results sub rest, n, hp => by
    simp only [plainRegions, Bool.and_eq_true, mem_subset] at hp
    obtain ⟨⟨sub', m', n'⟩, hr, hm'⟩ := copyNodes_total sub (n := n + args.length) hp.1.1.1 hp.1.2
      (m := SMap.empty.insertAll args.tail (List.range' n args.length).tail) fun o ho => by
        obtain ⟨x, _, e⟩ := insertAll_mem (m := SMap.empty) (xs := (List.range' n args.length).tail) (by simp) ho
        rw [e]; rfl
    obtain ⟨rs, hrs⟩ := lookup_some (m := m') fun o ho => hm' o (hp.1.1.2 o ho)
    obtain ⟨q, hq⟩ := copyRegions_total rest (n := n') hp.2
    exact ⟨_, by simp only [copyRegions, hr, hrs, hq, Option.map_some, Option.bind_some]; rfl⟩

end

/-- **C40, when a copy can be made.** If the map has a substitute for everything the nodes need and no branch uses the
match variable of its gamma node, no exception is thrown. -/
theorem C40_total_partial {ns : Nodes} {A : List Out} {m : SMap} {n : Nat} (hw : wfNodes A ns = true)
    (hp : plainNodes ns = true) (hm : ∀ o ∈ A, (m o).isSome) : (copyNodes ns m n).isSome := by
  obtain ⟨r, h, _⟩ := copyNodes_total ns (n := n) hw hp hm
  simp [h]

/-! ## Examples -/

/-- A gamma node and a loop around it: both branches use entry variables, none uses the match variable. -/
def exBody : Nodes := nodesOf
  [ .simple exAdd [0, 1] [2],
    .theta [2, 1] [3, 4] [10, 11] 13 [12, 11] (nodesOf
      [ .simple exMatch [10] [13],
        .gamma 13 [10, 11] [12] (.cons [20, 21, 22] [21] .nil
          (.cons [23, 24, 25] [26] (nodesOf [.simple exAdd [24, 25] [26]]) .nil)) ]),
    .simple exAdd [3, 2] [5] ]

example : wfNodes [0, 1] exBody = true ∧ plainNodes exBody = true ∧ (namesNodes exBody).Nodup := by decide +kernel

/-- The copy of it with the substitutes 101 and 100 for 0 and 1. -/
example : (copyNodes exBody (SMap.empty.insertAll [0, 1] [101, 100]) 200).map (fun r => (r.1, [2, 3, 4, 5].map r.2.1, r.2.2)) =
    some (nodesOf
      [ .simple exAdd [101, 100] [200],
        .theta [200, 100] [212, 213] [201, 202] 203 [211, 202] (nodesOf
          [ .simple exMatch [201] [203],
            .gamma 203 [201, 202] [211] (.cons [204, 205, 206] [205] .nil
              (.cons [207, 208, 209] [210] (nodesOf [.simple exAdd [208, 209] [210]]) .nil)) ]),
        .simple exAdd [212, 200] [214] ], [some 200, some 212, some 213, some 214], 215) := by rfl

/-- A well-formed gamma node whose second branch returns its match variable. -/
def exMatchUse : Nodes := nodesOf
  [ .simple exMatch [0] [1],
    .gamma 1 [0] [2] (.cons [20, 21] [21] .nil (.cons [22, 23] [22] .nil .nil)) ]

/-- **C40 fails** if a branch uses the match variable (finding 27): `GammaNode::copy` does not insert it in the
substitution map, and the copy throws although the map has a substitute for everything the nodes need. -/
theorem C40_matchVar_fails :
    wfNodes [0] exMatchUse = true ∧ (namesNodes exMatchUse).Nodup ∧
      ∀ (m : SMap) (n : Nat), (m 0).isSome → copyNodes exMatchUse m n = none := by
  refine ⟨by decide +kernel, by decide +kernel, fun m n hm => ?_⟩
  obtain ⟨x, hx⟩ := Option.isSome_iff_exists.1 hm
  simp [exMatchUse, nodesOf, copyNodes, copyNode, copyRegions, SMap.lookup, SMap.insertAll, SMap.insert, hx, SMap.empty,
    List.range'_succ]

end Jlm.Opt.Copy
