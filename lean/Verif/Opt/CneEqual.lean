import Verif.Opt.CneLoopFree

/-!
# Congruent outputs have equal values in every execution

`Runs`: the regions that are executed, and the environments they are executed in. Where both of two
congruent outputs are produced in the execution of a region they have the same value.
-/

set_option linter.unusedSimpArgs false
set_option linter.unusedVariables false

namespace Jlm.Opt

variable {V : Type}

/-- The nodes of a region. -/
def Nodes.list : Nodes → List Node
  | .nil => []
  | .cons n ns => n :: ns.list

/-- The arguments and nodes of a subregion. -/
def Regions.sub : Regions → Nat → Option (List Out × Nodes)
  | .nil, _ => none
  | .cons args _ sub _, 0 => some (args, sub)
  | .cons _ _ _ rest, b + 1 => rest.sub b

/-- The body of a loop: from the values of the loop variables to the predicate and the values of the
loop variables in the next iteration. -/
noncomputable def loopBody (sem : Sem V) (args : List Out) (pred : Out) (posts : List Out) (sub : Nodes)
    (ws : List (W V)) : List (W V) :=
  (pred :: posts).map (evalNodes sem sub (upd emptyEnv args ws))

/-- The body of a recursive definition. -/
noncomputable def phiBody (sem : Sem V) (ctx : Env V) (recs results : List Out) (sub : Nodes) (ws : List (W V)) :
    List (W V) :=
  results.map (evalNodes sem sub (upd ctx recs ws))

/-- `g.Runs sem A ns e`: an execution of the module executes the region with arguments `A` and nodes
`ns`, with values `e` of its arguments. The outputs of the region then have the values `evalNodes sem
ns e`. Functions are called with any arguments. (Regions of delta nodes are left out, common node
elimination does not enter them.) -/
inductive Graph.Runs (sem : Sem V) (g : Graph) : List Out → Nodes → Env V → Prop
  | root : g.Runs sem g.imports g.body (upd emptyEnv g.imports (g.imports.map fun i => some (sem.sym i, none)))
  /-- the alternative that the predicate selects -/
  | gamma {A : List Out} {ns : Nodes} {e : Env V} {pred : Out} {ins outs : List Out} {subs : Regions} {p : V × Option (Fun V)}
      {args : List Out} {sub : Nodes} : g.Runs sem A ns e → .gamma pred ins outs subs ∈ ns.list →
      evalNodes sem ns e pred = some p → subs.sub (sem.ctl p.1) = some (args, sub) →
      g.Runs sem args sub
        (upd emptyEnv args (some (sem.content p.1, none) :: ins.map (evalNodes sem ns e)))
  /-- iteration `m`, if the loop was not left earlier -/
  | theta {A : List Out} {ns : Nodes} {e : Env V} {ins outs args : List Out} {pred : Out} {posts : List Out} {sub : Nodes} (m : Nat) :
      g.Runs sem A ns e → .theta ins outs args pred posts sub ∈ ns.list →
      (∀ i, i < m → ∃ c, loopPred sem (loopBody sem args pred posts sub) (ins.map (evalNodes sem ns e)) i = some (c + 1)) →
      g.Runs sem args sub
        (upd emptyEnv args (loopState (loopBody sem args pred posts sub) (ins.map (evalNodes sem ns e)) m))
  /-- a call with arguments `ps` -/
  | lambda {A : List Out} {ns : Nodes} {e : Env V} {ins args params results : List Out} {out : Out} {sub : Nodes} (ps : List (Option V)) :
      g.Runs sem A ns e → .lambda ins args params results out sub ∈ ns.list →
      g.Runs sem (params ++ args) sub
        (upd (upd emptyEnv args (ins.map (evalNodes sem ns e))) params (lift ps))
  /-- the recursive definitions after they have been unfolded `d` times -/
  | phi {A : List Out} {ns : Nodes} {e : Env V} {ins args recs results outs : List Out} {sub : Nodes} (d : Nat) :
      g.Runs sem A ns e → .phi ins args recs results outs sub ∈ ns.list → d ≤ sem.depth →
      g.Runs sem (recs ++ args) sub
        (upd (upd emptyEnv args (ins.map (evalNodes sem ns e))) recs
          (phiVals sem outs (phiBody sem (upd emptyEnv args (ins.map (evalNodes sem ns e))) recs results sub) d))

namespace Cne

/-- A region of a module with a congruence, and an environment in which congruent arguments have a
common refinement. -/
structure Comp (sem : Sem V) (τ : Out → Out) (A : List Out) (ns : Nodes) (e : Env V) : Prop where
  wf : wfNodes A ns = true
  nodup : (namesNodes ns).Nodup
  nodupA : A.Nodup
  disj : ∀ x ∈ A, x ∉ namesNodes ns
  cert : CertNodes τ [] ns
  avail : ∀ a ∈ A, τ a ∈ A
  env : ∃ e' : Env V, (∀ o ∈ A, LeW (e o) (e' (τ o))) ∧ ∀ x, LeW (e' x) (e' x)

theorem Comp.outs {sem : Sem V} (hs : sem.Mono) {τ : Out → Out} {A : List Out} {ns : Nodes} {e : Env V}
    (h : Comp sem τ A ns e) : ∃ E' : Env V, (∀ o ∈ A ++ ns.outs, LeW (evalNodes sem ns e o) (E' (τ o))) ∧
      ∀ x, LeW (E' x) (E' x) := by
  obtain ⟨e', h1, h2⟩ := h.env
  exact ⟨evalNodes sem (divertNodes τ ns) e', nodes_sim hs ns A [] e e' h.wf h.nodup h.disj h.cert h.avail
    (by simp [PrevOk]) h1 h2, evalNodes_mono' hs _ h2⟩

theorem list_node {τ : Out → Out} {n : Node} : ∀ (ns : Nodes) (A : List Out) (prev : List SNode), wfNodes A ns = true →
    (namesNodes ns).Nodup → CertNodes τ prev ns → n ∈ ns.list → ∃ (A' : List Out) (prev' : List SNode),
      (∀ a ∈ A', a ∈ A ++ ns.outs) ∧ wfNode A' n = true ∧ CertNode τ prev' n ∧ (namesNode n).Nodup
  | .nil, A, prev, _, _, _, h => by simp [Nodes.list] at h
  | .cons m ns, A, prev, hwf, hn, hc, h => by
      simp only [wfNodes, Bool.and_eq_true] at hwf
      simp only [namesNodes] at hn
      have hn' := List.nodup_append.1 hn
      simp only [CertNodes] at hc
      simp only [Nodes.list, List.mem_cons] at h
      rcases h with rfl | h
      · exact ⟨A, prev, fun a ha => by simp [ha], hwf.1, hc.1, hn'.1⟩
      · obtain ⟨A', prev', h1, h2⟩ := list_node ns _ _ hwf.2 hn'.2.1 hc.2 h
        refine ⟨A', prev', fun a ha => ?_, h2⟩
        have := h1 a ha
        simp only [Nodes.outs, List.mem_append] at this ⊢
        tauto

theorem sub_spec {τ : Out → Out} {ins : List Out} {n m : Nat} : ∀ (subs : Regions) (b : Nat) (args : List Out) (sub : Nodes),
    wfRegions n m subs = true → (namesRegions subs).Nodup → CertRegions τ ins subs → subs.sub b = some (args, sub) →
    args.length = n ∧ wfNodes args sub = true ∧ (args ++ namesNodes sub).Nodup ∧ (∀ m ∈ args.head?, τ m = m) ∧
      ArgsOk τ args.tail ins ∧ CertNodes τ [] sub
  | .nil, b, args, sub, _, _, _, h => by simp [Regions.sub] at h
  | .cons as rs s rest, 0, args, sub, hwf, hn, hc, h => by
      simp only [Regions.sub, Option.some.injEq, Prod.mk.injEq] at h
      obtain ⟨rfl, rfl⟩ := h
      simp only [wfRegions, Bool.and_eq_true, beq_iff_eq] at hwf
      simp only [namesRegions] at hn
      simp only [CertRegions] at hc
      exact ⟨hwf.1.1.1.1, hwf.1.1.2, (List.nodup_append.1 hn).1, hc.1, hc.2.1, hc.2.2.1⟩
  | .cons as rs s rest, b + 1, args, sub, hwf, hn, hc, h => by
      simp only [wfRegions, Bool.and_eq_true] at hwf
      simp only [namesRegions] at hn
      simp only [CertRegions] at hc
      exact sub_spec rest b args sub hwf.2 (List.nodup_append.1 hn).2.1 hc.2.2.2 (by simpa [Regions.sub] using h)

theorem runs_comp {sem : Sem V} (hs : sem.Mono) {τ : Out → Out} {g : Graph} (hwf : g.wf = true) (hc : g.Cert τ)
    {A : List Out} {ns : Nodes} {e : Env V} (h : g.Runs sem A ns e) : Comp sem τ A ns e := by
  induction h with
  | root =>
    simp only [Graph.wf, Graph.names, Bool.and_eq_true, Dne.subset_iff] at hwf
    have hn := List.nodup_append.1 (of_decide_eq_true hwf.1.1)
    have hl : LeLW (g.imports.map fun i => (some (sem.sym i, none) : W V)) (g.imports.map fun i => some (sem.sym i, none)) :=
      LeLW.map (e := fun i => some (sem.sym i, none)) (e' := fun i => some (sem.sym i, none)) _
        fun x _ => by simp [LeW, LeOF]
    have he := upd_le' (emptyEnv_le (V := V)) g.imports hl
    exact ⟨hwf.1.2, hn.2.1, hn.1, fun x hx hc' => hn.2.2 x hx x hc' rfl, hc.2, imports_avail hc, _,
      fun o ho => by rw [hc.1 o ho]; exact he o, he⟩
  | gamma hr hm hp hb ih =>
    rename_i A ns e pred ins outs subs p args sub
    obtain ⟨E', h1, h2⟩ := ih.outs hs
    obtain ⟨A', prev', g1, g2, g3, g4⟩ := list_node ns A [] ih.wf ih.nodup ih.cert hm
    have hins := wfNode_ins g2
    simp only [wfNode, Bool.and_eq_true] at g2
    simp only [CertNode] at g3
    simp only [namesNode] at g4
    obtain ⟨q1, q2, q3, q4, q5, q6⟩ := sub_spec subs _ args sub g2.2 (List.nodup_append.1 g4).2.1 g3.1 hb
    have hn := List.nodup_append.1 q3
    refine ⟨q2, hn.2.1, hn.1, fun x hx hc' => hn.2.2 x hx x hc' rfl, q6, branch_avail q4 q5, ?_⟩
    cases args with
    | nil => simp at q1
    | cons a as =>
      simp only [List.tail_cons, List.head?_cons, Option.mem_def, Option.some.injEq, forall_eq'] at q5 q4
      simp only [List.length_cons, Nat.add_right_cancel_iff] at q1
      have hw : LeW (some (sem.content p.1, none) : W V) (some (sem.content p.1, none)) := by simp [LeW, LeOF]
      refine ⟨upd emptyEnv (a :: as) (some (sem.content p.1, none) :: (ins.map τ).map E'), ?_,
        upd_le' emptyEnv_le _ (LeLW.cons hw (leLW_map_self h2 _))⟩
      have hal := aligned_env (ε := emptyEnv) (ε' := emptyEnv) (List.nodup_cons.1 hn.1).2
        (aligned_of q5 q1 fun i hi => h1 i (g1 i (hins i (by simp [Node.ins, hi]))))
      have := ctx_env (τ := τ) (ps := [a]) (args := as) (ε := upd emptyEnv as (ins.map (evalNodes sem ns e)))
        (ε' := upd emptyEnv as ((ins.map τ).map E')) (by simpa using hn.1) (by simpa using q4)
        (argsOk_mem q5) hal (LeLW.cons hw LeLW.nil)
      intro o ho
      simpa [upd] using this o (by simpa using ho)
  | theta m hr hm hp ih =>
    rename_i A ns e ins outs args pred posts sub
    obtain ⟨E', h1, h2⟩ := ih.outs hs
    obtain ⟨A', prev', g1, g2, g3, g4⟩ := list_node ns A [] ih.wf ih.nodup ih.cert hm
    have hins := wfNode_ins g2
    simp only [wfNode, Bool.and_eq_true, beq_iff_eq, Dne.subset_iff] at g2
    simp only [CertNode] at g3
    simp only [namesNode] at g4
    have hn1 := List.nodup_append.1 g4
    have hn2 := List.nodup_append.1 hn1.1
    have hd : ∀ x ∈ args, x ∉ namesNodes sub := fun x hx hc' => hn1.2.2 x (by simp [hx]) x hc' rfl
    have hav := argsOk_mem g3.1
    refine ⟨g2.1.2, hn1.2.1, hn2.2.1, hd, g3.2.2.1, hav, ?_⟩
    obtain ⟨f', hf'⟩ : ∃ f' : List (W V) → List (W V), f' = fun ws => (τ pred :: posts.map τ).map
      (evalNodes sem (divertNodes τ sub) (upd emptyEnv args ws)) := ⟨_, rfl⟩
    have hft : ∀ ws, (loopBody sem args pred posts sub ws).tail =
        posts.map (evalNodes sem sub (upd emptyEnv args ws)) := fun ws => rfl
    have hft' : ∀ ws, (f' ws).tail = (posts.map τ).map
        (evalNodes sem (divertNodes τ sub) (upd emptyEnv args ws)) := by
      intro ws; rw [hf']; rfl
    have hmono' : ∀ ws ws', LeLW ws ws' → LeLW (f' ws) (f' ws') := by
      intro ws ws' hw
      rw [hf']
      exact LeLW.map _ fun x _ => evalNodes_mono' hs _ (upd_le' emptyEnv_le _ hw) x
    have hst' : ∀ m, LeLW (loopState f' ((ins.map τ).map E') m) (loopState f' ((ins.map τ).map E') m) :=
      fun m => loopState_le hmono' (leLW_map_self h2 _) m
    have hal : ∀ m, Aligned τ args (loopState (loopBody sem args pred posts sub) (ins.map (evalNodes sem ns e)) m)
        (loopState f' ((ins.map τ).map E') m) := by
      intro m
      induction m with
      | zero => exact aligned_of g3.1 (g2.1.1.1.2.trans g2.1.1.1.1.2.symm) fun i hi => h1 i (g1 i (hins i (by simpa [Node.ins] using hi)))
      | succ m ih' =>
        simp only [loopState]
        rw [hft, hft']
        exact aligned_of g3.2.1 (g2.1.1.1.2.trans g2.1.1.2.symm) fun i hi =>
          nodes_sim hs sub args [] _ _ g2.1.2 hn1.2.1 hd g3.2.2.1 hav (by simp [PrevOk])
            (aligned_env hn2.2.1 ih') (upd_le' emptyEnv_le _ (hst' m)) i (g2.2 i (by simp [hi]))
    exact ⟨_, aligned_env hn2.2.1 (hal m), upd_le' emptyEnv_le _ (hst' m)⟩
  | lambda ps hr hm ih =>
    rename_i A ns e ins args params results out sub
    obtain ⟨E', h1, h2⟩ := ih.outs hs
    obtain ⟨A', prev', g1, g2, g3, g4⟩ := list_node ns A [] ih.wf ih.nodup ih.cert hm
    have hins := wfNode_ins g2
    simp only [wfNode, Bool.and_eq_true, beq_iff_eq, Dne.subset_iff] at g2
    simp only [CertNode] at g3
    simp only [namesNode, List.cons_append] at g4
    have hn1 := List.nodup_append.1 (List.nodup_cons.1 g4).2
    have hn2 := List.nodup_append.1 hn1.1
    exact ⟨g2.1.2, hn1.2.1, hn1.1, fun x hx hc' => hn1.2.2 x hx x hc' rfl, g3.2.2.1, params_avail g3.1 g3.2.1, _,
      ctx_env hn1.1 g3.1 (argsOk_mem g3.2.1) (aligned_env (ε := emptyEnv) (ε' := emptyEnv) hn2.2.1
        (aligned_of g3.2.1 g2.1.1.2.symm fun i hi => h1 i (g1 i (hins i (by simpa [Node.ins] using hi)))))
        (lift_le (LeL.refl ps)),
      upd_le' (upd_le' emptyEnv_le _ (leLW_map_self h2 _)) _ (lift_le (LeL.refl ps))⟩
  | phi d hr hm hd ih =>
    rename_i A ns e ins args recs results outs sub
    obtain ⟨E', h1, h2⟩ := ih.outs hs
    obtain ⟨A', prev', g1, g2, g3, g4⟩ := list_node ns A [] ih.wf ih.nodup ih.cert hm
    have hins := wfNode_ins g2
    simp only [wfNode, Bool.and_eq_true, beq_iff_eq, Dne.subset_iff] at g2
    simp only [CertNode] at g3
    simp only [namesNode, List.append_assoc] at g4
    rw [← List.append_assoc recs] at g4
    have hn1 := List.nodup_append.1 (List.nodup_append.1 g4).2.1
    have hn2 := List.nodup_append.1 hn1.1
    have hal := aligned_env (ε := emptyEnv) (ε' := emptyEnv) hn2.2.1
      (aligned_of g3.2.1 g2.1.1.1.1.2.symm fun i hi => h1 i (g1 i (hins i (by simpa [Node.ins] using hi))))
    have hself : ∀ x ∈ args, LeW (upd emptyEnv args (ins.map (evalNodes sem ns e)) x)
        (upd emptyEnv args (ins.map (evalNodes sem ns e)) x) := fun x hx => (hal x hx).left
    have hall : ∀ x, LeW (upd emptyEnv args (ins.map (evalNodes sem ns e)) x)
        (upd emptyEnv args (ins.map (evalNodes sem ns e)) x) :=
      upd_le' emptyEnv_le _ (LeLW.map _ fun i hi => (h1 i (g1 i (hins i (by simpa [Node.ins] using hi)))).left)
    have hw := phiVals_le (sem := sem) outs
      (f := phiBody sem (upd emptyEnv args (ins.map (evalNodes sem ns e))) recs results sub)
      (f' := phiBody sem (upd emptyEnv args (ins.map (evalNodes sem ns e))) recs results sub)
      (fun _ _ => by simp [phiBody])
      (fun ws ws' hw => LeLW.map _ fun x _ => evalNodes_mono' hs _ (upd_le' hall _ hw) x) d
    exact ⟨g2.1.2, hn1.2.1, hn1.1, fun x hx hc' => hn1.2.2 x hx x hc' rfl, g3.2.2.1, params_avail g3.1 g3.2.1, _,
      ctx_env hn1.1 g3.1 (argsOk_mem g3.2.1) hal hw,
      upd_le' (upd_le' emptyEnv_le _ (leLW_map_self h2 _)) _ hw.right⟩

/-- Two values that are the same if both are produced; functions have a common refinement. -/
def Same (a b : W V) : Prop :=
  (∀ x y, a = some x → b = some y → x.1 = y.1) ∧ ∃ w, LeW a w ∧ LeW b w

theorem same_of {a b w : W V} (h1 : LeW a w) (h2 : LeW b w) : Same a b := by
  refine ⟨?_, w, h1, h2⟩
  rintro x y rfl rfl
  cases w with
  | none => exact h1.elim
  | some z => exact h1.1.trans h2.1.symm

/-- **C28**: outputs with the same leader in a congruence have the same value whenever the region they
belong to is executed. -/
theorem C28_congruence_equal {sem : Sem V} (hs : sem.Mono) {τ : Out → Out} {g : Graph} (hwf : g.wf = true)
    (hc : g.Cert τ) {A : List Out} {ns : Nodes} {e : Env V} (h : g.Runs sem A ns e) {o o' : Out}
    (ho : o ∈ A ++ ns.outs) (ho' : o' ∈ A ++ ns.outs) (heq : τ o = τ o') :
    Same (evalNodes sem ns e o) (evalNodes sem ns e o') := by
  obtain ⟨E', h1, _⟩ := (runs_comp hs hwf hc h).outs hs
  have h2 := h1 o' ho'
  rw [← heq] at h2
  exact same_of (h1 o ho) h2

/-- **C28** (repaired program): two outputs that common node elimination treats as congruent have the
same value whenever the region they belong to is executed. -/
theorem C28_congruent_equal {sem : Sem V} (hs : sem.Mono) {cfg : Config} (hst : cfg.strict = true) {g : Graph}
    (hwf : g.wf = true) {c : Ctx} (hc : markGraph cfg g = some c) {A : List Out} {ns : Nodes} {e : Env V}
    (h : g.Runs sem A ns e) {o o' : Out} (ho : o ∈ A ++ ns.outs) (ho' : o' ∈ A ++ ns.outs) (heq : ld c o = ld c o') :
    Same (evalNodes sem ns e o) (evalNodes sem ns e o') :=
  C28_congruence_equal hs hwf (C28_mark_congruence hst hwf hc) h ho ho' heq

/-- **C28**: the same for /repo and modules without loops. -/
theorem C28_congruent_equal_loopfree {sem : Sem V} (hs : sem.Mono) {cfg : Config} {g : Graph}
    (hwf : g.wf = true) (hl : g.body.loopFree = true) {c : Ctx} (hc : markGraph (cfg.with false) g = some c)
    {A : List Out} {ns : Nodes} {e : Env V}
    (h : g.Runs sem A ns e) {o o' : Out} (ho : o ∈ A ++ ns.outs) (ho' : o' ∈ A ++ ns.outs) (heq : ld c o = ld c o') :
    Same (evalNodes sem ns e o) (evalNodes sem ns e o') := by
  rw [markGraph_loopfree hwf hl] at hc
  exact C28_congruent_equal hs (cfg := cfg.with true) rfl hwf hc h ho ho' heq

end Cne

end Jlm.Opt
