import Verif.Opt.CneCert

/-!
# Diverting outputs to the leaders of a congruence keeps a module well-formed
-/

set_option linter.unusedSimpArgs false
set_option linter.unusedVariables false

namespace Jlm.Opt.Cne

variable {V : Type}

mutual

theorem namesNode_divert (τ : Out → Out) : ∀ n : Node, namesNode (divertNode τ n) = namesNode n
  | .simple _ _ _ => rfl
  | .gamma _ _ _ subs => by simp [divertNode, namesNode, namesRegions_divert τ subs]
  | .theta _ _ _ _ _ sub => by simp [divertNode, namesNode, namesNodes_divert τ sub]
  | .lambda _ _ _ _ _ sub => by simp [divertNode, namesNode, namesNodes_divert τ sub]
  | .phi _ _ _ _ _ sub => by simp [divertNode, namesNode, namesNodes_divert τ sub]
  | .delta _ _ _ _ _ => rfl

theorem namesNodes_divert (τ : Out → Out) : ∀ ns : Nodes, namesNodes (divertNodes τ ns) = namesNodes ns
  | .nil => rfl
  | .cons n ns => by simp [divertNodes, namesNodes, namesNode_divert τ n, namesNodes_divert τ ns]

theorem namesRegions_divert (τ : Out → Out) : ∀ rs : Regions, namesRegions (divertRegions τ rs) = namesRegions rs
  | .nil => rfl
  | .cons args results sub rest => by
      simp [divertRegions, namesRegions, namesNodes_divert τ sub, namesRegions_divert τ rest]

end

theorem prev_step {A : List Out} {prev : List SNode} (n : Node) (hp : ∀ m ∈ prev, ∀ o ∈ m.outs, o ∈ A) :
    ∀ m ∈ prev ++ (Nodes.cons n .nil).simples, ∀ o ∈ m.outs, o ∈ n.outs ++ A := by
  intro m hm o ho
  rcases List.mem_append.1 hm with hm | hm
  · simp [hp m hm o ho]
  · cases n with
    | simple op ins outs =>
      simp only [Nodes.simples, List.mem_singleton] at hm
      subst hm
      simp only [Node.outs] at ho ⊢
      simp [ho]
    | _ => simp [Nodes.simples] at hm

theorem step_avail {τ : Out → Out} {A : List Out} {prev : List SNode} {n : Node} (hwf : wfNode A n = true)
    (hc : CertNode τ prev n) (hτ : ∀ a ∈ A, τ a ∈ A) (hp : ∀ m ∈ prev, ∀ o ∈ m.outs, o ∈ A) :
    ∀ a ∈ n.outs ++ A, τ a ∈ n.outs ++ A := by
  intro a ha
  rcases List.mem_append.1 ha with ha | ha
  · have := certNode_outs n hc hwf hτ hp a ha
    simpa using this
  · simp [hτ a ha]

/-- The leader of everything that is available is available. -/
theorem nodes_avail {τ : Out → Out} : ∀ (ns : Nodes) (A : List Out) (prev : List SNode), wfNodes A ns = true →
    CertNodes τ prev ns → (∀ a ∈ A, τ a ∈ A) → (∀ m ∈ prev, ∀ o ∈ m.outs, o ∈ A) →
    ∀ o ∈ A ++ ns.outs, τ o ∈ A ++ ns.outs
  | .nil, A, prev, _, _, hτ, _ => by simpa [Nodes.outs] using hτ
  | .cons n ns, A, prev, hwf, hc, hτ, hp => by
      simp only [wfNodes, Bool.and_eq_true] at hwf
      simp only [CertNodes] at hc
      intro o ho
      have := nodes_avail ns (n.outs ++ A) _ hwf.2 hc.2 (step_avail hwf.1 hc.1 hτ hp) (prev_step n hp) o
        (by simp only [Nodes.outs, List.mem_append] at ho ⊢; tauto)
      simp only [Nodes.outs, List.mem_append] at this ⊢
      tauto

theorem params_avail {τ : Out → Out} {ps args keys : List Out} (hp : ∀ p ∈ ps, τ p = p) (h : ArgsOk τ args keys) :
    ∀ a ∈ ps ++ args, τ a ∈ ps ++ args := by
  intro a ha
  rcases List.mem_append.1 ha with ha | ha
  · rw [hp a ha]; simp [ha]
  · simp [argsOk_mem h a ha]

theorem branch_avail {τ : Out → Out} {args keys : List Out} (hp : ∀ m ∈ args.head?, τ m = m)
    (h : ArgsOk τ args.tail keys) : ∀ a ∈ args, τ a ∈ args := by
  cases args with
  | nil => simp
  | cons b as =>
    have := params_avail (ps := [b]) (by simpa using hp) h
    simpa using this

theorem map_subset {τ : Out → Out} {xs A : List Out} (hτ : ∀ a ∈ A, τ a ∈ A) (h : ∀ x ∈ xs, x ∈ A) :
    ∀ x ∈ xs.map τ, x ∈ A := by
  intro x hx
  obtain ⟨y, hy, rfl⟩ := List.mem_map.1 hx
  exact hτ y (h y hy)

mutual

theorem wfNode_cert {τ : Out → Out} : ∀ (n : Node) (A : List Out) (prev : List SNode), wfNode A n = true →
    CertNode τ prev n → (∀ a ∈ A, τ a ∈ A) → wfNode A (divertNode τ n) = true
  | .simple op ins outs, A, prev, hwf, hc, hτ => by
      simp only [wfNode, divertNode, Bool.and_eq_true, Dne.subset_iff, List.length_map] at hwf ⊢
      exact ⟨map_subset hτ hwf.1, hwf.2⟩
  | .gamma pred ins outs subs, A, prev, hwf, hc, hτ => by
      simp only [wfNode, divertNode, Bool.and_eq_true, Dne.subset_iff, List.length_map] at hwf ⊢
      simp only [CertNode] at hc
      exact ⟨map_subset (xs := pred :: ins) hτ hwf.1, wfRegions_cert subs ins _ _ hwf.2 hc.1⟩
  | .theta ins outs args pred posts sub, A, prev, hwf, hc, hτ => by
      simp only [wfNode, divertNode, Bool.and_eq_true, Dne.subset_iff, List.length_map, beq_iff_eq,
        divertNodes_outs] at hwf ⊢
      simp only [CertNode] at hc
      have ha := argsOk_mem hc.1
      exact ⟨⟨⟨⟨⟨map_subset hτ hwf.1.1.1.1.1, hwf.1.1.1.1.2⟩, hwf.1.1.1.2⟩, hwf.1.1.2⟩,
        wfNodes_cert sub args [] hwf.1.2 hc.2.2.1 ha (by simp)⟩,
        map_subset (xs := pred :: posts) (nodes_avail sub args [] hwf.1.2 hc.2.2.1 ha (by simp)) hwf.2⟩
  | .lambda ins args params results out sub, A, prev, hwf, hc, hτ => by
      simp only [wfNode, divertNode, Bool.and_eq_true, Dne.subset_iff, List.length_map, beq_iff_eq,
        divertNodes_outs] at hwf ⊢
      simp only [CertNode] at hc
      have ha := params_avail hc.1 hc.2.1
      exact ⟨⟨⟨map_subset hτ hwf.1.1.1, hwf.1.1.2⟩, wfNodes_cert sub _ [] hwf.1.2 hc.2.2.1 ha (by simp)⟩,
        map_subset (nodes_avail sub _ [] hwf.1.2 hc.2.2.1 ha (by simp)) hwf.2⟩
  | .phi ins args recs results outs sub, A, prev, hwf, hc, hτ => by
      simp only [wfNode, divertNode, Bool.and_eq_true, Dne.subset_iff, List.length_map, beq_iff_eq,
        divertNodes_outs] at hwf ⊢
      simp only [CertNode] at hc
      have ha := params_avail hc.1 hc.2.1
      exact ⟨⟨⟨⟨⟨map_subset hτ hwf.1.1.1.1.1, hwf.1.1.1.1.2⟩, hwf.1.1.1.2⟩, hwf.1.1.2⟩,
        wfNodes_cert sub _ [] hwf.1.2 hc.2.2.1 ha (by simp)⟩,
        map_subset (nodes_avail sub _ [] hwf.1.2 hc.2.2.1 ha (by simp)) hwf.2⟩
  | .delta ins args result out sub, A, prev, hwf, hc, hτ => by
      simp only [wfNode, divertNode, Bool.and_eq_true, Dne.subset_iff, List.length_map] at hwf ⊢
      exact ⟨⟨⟨⟨map_subset hτ hwf.1.1.1.1, hwf.1.1.1.2⟩, hwf.1.1.2⟩, hwf.1.2⟩, hwf.2⟩

theorem wfNodes_cert {τ : Out → Out} : ∀ (ns : Nodes) (A : List Out) (prev : List SNode), wfNodes A ns = true →
    CertNodes τ prev ns → (∀ a ∈ A, τ a ∈ A) → (∀ m ∈ prev, ∀ o ∈ m.outs, o ∈ A) →
    wfNodes A (divertNodes τ ns) = true
  | .nil, A, prev, _, _, _, _ => rfl
  | .cons n ns, A, prev, hwf, hc, hτ, hp => by
      simp only [wfNodes, divertNodes, Bool.and_eq_true, divertNode_outs] at hwf ⊢
      simp only [CertNodes] at hc
      exact ⟨wfNode_cert n A prev hwf.1 hc.1 hτ,
        wfNodes_cert ns _ _ hwf.2 hc.2 (step_avail hwf.1 hc.1 hτ hp) (prev_step n hp)⟩

theorem wfRegions_cert {τ : Out → Out} : ∀ (rs : Regions) (ins : List Out) (n m : Nat), wfRegions n m rs = true →
    CertRegions τ ins rs → wfRegions n m (divertRegions τ rs) = true
  | .nil, ins, n, m, _, _ => rfl
  | .cons args results sub rest, ins, n, m, hwf, hc => by
      simp only [wfRegions, divertRegions, Bool.and_eq_true, Dne.subset_iff, List.length_map, beq_iff_eq,
        divertNodes_outs] at hwf ⊢
      simp only [CertRegions] at hc
      have ha := branch_avail hc.1 hc.2.1
      exact ⟨⟨⟨hwf.1.1.1, wfNodes_cert sub _ [] hwf.1.1.2 hc.2.2.1 ha (by simp)⟩,
        map_subset (nodes_avail sub _ [] hwf.1.1.2 hc.2.2.1 ha (by simp)) hwf.1.2⟩,
        wfRegions_cert rest ins n m hwf.2 hc.2.2.2⟩

end

theorem imports_avail {τ : Out → Out} {g : Graph} (hc : g.Cert τ) : ∀ a ∈ g.imports, τ a ∈ g.imports := by
  intro a ha
  rw [hc.1 a ha]; exact ha

/-- **C28**: diverting the users of every output to the leader of a congruence keeps a module
well-formed. -/
theorem C28_congruence_wf {τ : Out → Out} {g : Graph} (hwf : g.wf = true) (hc : g.Cert τ) :
    (divertGraph τ g).wf = true := by
  simp only [Graph.wf, Bool.and_eq_true, decide_eq_true_eq, Dne.subset_iff] at hwf ⊢
  have ha := imports_avail hc
  refine ⟨⟨?_, wfNodes_cert g.body _ [] hwf.1.2 hc.2 ha (by simp)⟩, ?_⟩
  · simpa [Graph.names, divertGraph, namesNodes_divert] using hwf.1.1
  · simp only [divertGraph, divertNodes_outs]
    exact map_subset (nodes_avail g.body _ [] hwf.1.2 hc.2 ha (by simp)) hwf.2

/-- **C28**: every output of the root region of a module is refined by its leader in the module in
which the users of every output were diverted to the leader of a congruence. -/
theorem C28_congruence_value {sem : Sem V} (hs : sem.Mono) {τ : Out → Out} {g : Graph} (hwf : g.wf = true)
    (hc : g.Cert τ) : ∀ o ∈ g.imports ++ g.body.outs, LeW (g.valueOf sem o) ((divertGraph τ g).valueOf sem (τ o)) := by
  simp only [Graph.wf, Graph.names, Bool.and_eq_true, Dne.subset_iff] at hwf
  have hn := List.nodup_append.1 (of_decide_eq_true hwf.1.1)
  have hl : LeLW (g.imports.map fun i => (some (sem.sym i, none) : W V)) (g.imports.map fun i => some (sem.sym i, none)) :=
    LeLW.map (e := fun i => some (sem.sym i, none)) (e' := fun i => some (sem.sym i, none)) _
      fun x _ => by simp [LeW, LeOF]
  have he := upd_le' (emptyEnv_le (V := V)) g.imports hl
  intro o ho
  refine nodes_sim hs g.body g.imports [] _ _ hwf.1.2 hn.2.1 (fun x hx hc' => hn.2.2 x hx x hc' rfl) hc.2
    (imports_avail hc) (by simp [PrevOk]) ?_ he o ho
  intro i hi
  rw [hc.1 i hi]
  exact he i

/-- **C28**: diverting the users of every output to the leader of a congruence refines the meaning of a
module. -/
theorem C28_congruence_refines {sem : Sem V} (hs : sem.Mono) {τ : Out → Out} {g : Graph} (hwf : g.wf = true)
    (hc : g.Cert τ) : Refines (g.meaning sem) ((divertGraph τ g).meaning sem) := by
  have hv := C28_congruence_value hs hwf hc
  simp only [Graph.wf, Bool.and_eq_true, Dne.subset_iff] at hwf
  refine ⟨by simp [Graph.meaning, divertGraph], ?_⟩
  simp only [Graph.meaning]
  have : (divertGraph τ g).exports = g.exports.map τ := rfl
  rw [this, List.map_map]
  exact LeLW.map g.exports fun x hx => hv x (hwf.2 x hx)

end Jlm.Opt.Cne
