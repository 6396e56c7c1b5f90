import Verif.Opt.CneModel
import Verif.Opt.IvrNode

/-!
# Congruences of the outputs of a module

`Cert τ`: the assignment `τ` of leaders to outputs is a congruence: this is a specification of what
common node elimination may merge, without reference to how the congruence is found. The main
theorem of this file is that moving the users of every output to its leader refines the meaning of a
region.
-/

set_option linter.unusedSimpArgs false
set_option linter.unusedVariables false

namespace Jlm.Opt

variable {V : Type}

/-- The leader of every argument is an argument of the same region, and arguments with the same
leader have congruent `keys` (origins of inputs, or of the post values of loop variables). -/
def ArgsOk (τ : Out → Out) (args keys : List Out) : Prop :=
  ∀ (k : Nat) (a : Out), args[k]? = some a →
    ∃ (j : Nat) (b : Out), args[j]? = some b ∧ τ a = b ∧ (keys[j]?).map τ = (keys[k]?).map τ

/-- Exit variable `k` with output `o`: congruent with exit variable `j` if the results are congruent
in all branches, or with an origin `i` outside if every branch passes something on that is congruent
with it. -/
def ExitOk (τ : Out → Out) (ins outs : List Out) (subs : Regions) (k : Nat) (o : Out) : Prop :=
  (∃ (j : Nat) (o' : Out), outs[j]? = some o' ∧ τ o = o' ∧
    ∀ (b : Nat) (args results : List Out), subs.branch b = some (args, results) →
      (results[j]?).map τ = (results[k]?).map τ) ∨
  (∃ i ∈ ins, τ o = τ i ∧
    ∀ (b : Nat) (args results : List Out), subs.branch b = some (args, results) →
      ∃ (j : Nat) (r i' : Out), results[k]? = some r ∧ args[j + 1]? = some r ∧ ins[j]? = some i' ∧ τ i' = τ i)

/-- Loop variable `k` with output `o`: congruent with loop variable `j` if the post values are
congruent, or with the input `i` of a loop variable `j` that is invariant and that the post value is
congruent with. -/
def LoopOk (τ : Out → Out) (ins outs args posts : List Out) (k : Nat) (o : Out) : Prop :=
  (∃ (j : Nat) (o' : Out), outs[j]? = some o' ∧ τ o = o' ∧ (posts[j]?).map τ = (posts[k]?).map τ) ∨
  (∃ (j : Nat) (a i : Out), args[j]? = some a ∧ ins[j]? = some i ∧ (posts[k]?).map τ = some a ∧
    (posts[j]?).map τ = some a ∧ τ o = τ i)

mutual

/-- `τ` is a congruence at a node; `prev` are the simple nodes of the region that come earlier. -/
def CertNode (τ : Out → Out) (prev : List SNode) : Node → Prop
  | .simple op ins outs =>
      (∀ o ∈ outs, τ o = o) ∨
      ∃ m ∈ prev, m.op = op ∧ m.ins.map τ = ins.map τ ∧ outs.map τ = m.outs ∧ ∀ o ∈ m.outs, τ o = o
  | .gamma _ ins outs subs =>
      CertRegions τ ins subs ∧ ∀ (k : Nat) (o : Out), outs[k]? = some o → ExitOk τ ins outs subs k o
  | .theta ins outs args _ posts sub =>
      ArgsOk τ args ins ∧ ArgsOk τ args posts ∧ CertNodes τ [] sub ∧
        ∀ (k : Nat) (o : Out), outs[k]? = some o → LoopOk τ ins outs args posts k o
  | .lambda ins args params _ out sub =>
      (∀ p ∈ params, τ p = p) ∧ ArgsOk τ args ins ∧ CertNodes τ [] sub ∧ τ out = out
  | .phi ins args recs _ outs sub =>
      (∀ p ∈ recs, τ p = p) ∧ ArgsOk τ args ins ∧ CertNodes τ [] sub ∧ ∀ o ∈ outs, τ o = o
  | .delta _ _ _ out _ => τ out = out

/-- `τ` is a congruence on the nodes of a region. -/
def CertNodes (τ : Out → Out) (prev : List SNode) : Nodes → Prop
  | .nil => True
  | .cons n ns => CertNode τ prev n ∧ CertNodes τ (prev ++ (Nodes.cons n .nil).simples) ns

/-- `τ` is a congruence in the branches of a gamma node. -/
def CertRegions (τ : Out → Out) (ins : List Out) : Regions → Prop
  | .nil => True
  | .cons args _ sub rest =>
      (∀ m ∈ args.head?, τ m = m) ∧ ArgsOk τ args.tail ins ∧ CertNodes τ [] sub ∧ CertRegions τ ins rest

end

/-- `τ` is a congruence on the outputs of a module. -/
def Graph.Cert (τ : Out → Out) (g : Graph) : Prop := (∀ i ∈ g.imports, τ i = i) ∧ CertNodes τ [] g.body

namespace Cne

/-! ## Leaders are available -/

theorem argsOk_mem {τ : Out → Out} {args keys : List Out} (h : ArgsOk τ args keys) : ∀ a ∈ args, τ a ∈ args := by
  intro a ha
  obtain ⟨k, hk⟩ := List.mem_iff_getElem?.1 ha
  obtain ⟨j, b, h1, h2, _⟩ := h k a hk
  rw [h2]
  exact List.mem_of_getElem? h1

theorem certNode_outs {τ : Out → Out} {prev : List SNode} {A : List Out} (n : Node)
    (hc : CertNode τ prev n) (hwf : wfNode A n = true) (hτ : ∀ a ∈ A, τ a ∈ A)
    (hp : ∀ m ∈ prev, ∀ o ∈ m.outs, o ∈ A) : ∀ o ∈ n.outs, τ o ∈ n.outs ∨ τ o ∈ A := by
  intro o ho
  have hins := wfNode_ins hwf
  cases n with
  | simple op ins outs =>
    simp only [CertNode, Node.outs] at *
    rcases hc with h | ⟨m, h1, _, _, h2, _⟩
    · rw [h o ho]; exact .inl ho
    · refine .inr (hp m h1 _ ?_)
      rw [← h2]
      exact List.mem_map_of_mem ho
  | gamma pred ins outs subs =>
    simp only [CertNode, Node.outs] at *
    obtain ⟨k, hk⟩ := List.mem_iff_getElem?.1 ho
    rcases hc.2 k o hk with ⟨j, o', h1, h2, _⟩ | ⟨i, h1, h2, _⟩
    · rw [h2]; exact .inl (List.mem_of_getElem? h1)
    · rw [h2]; exact .inr (hτ i (hins i (by simp [Node.ins, h1])))
  | theta ins outs args pred posts sub =>
    simp only [CertNode, Node.outs] at *
    obtain ⟨k, hk⟩ := List.mem_iff_getElem?.1 ho
    rcases hc.2.2.2 k o hk with ⟨j, o', h1, h2, _⟩ | ⟨j, a, i, _, h1, _, _, h2⟩
    · rw [h2]; exact .inl (List.mem_of_getElem? h1)
    · rw [h2]; exact .inr (hτ i (hins i (List.mem_of_getElem? h1)))
  | lambda ins args params results out sub =>
    simp only [CertNode, Node.outs, List.mem_singleton] at *
    subst ho
    exact .inl hc.2.2.2
  | phi ins args recs results outs sub =>
    simp only [CertNode, Node.outs] at *
    rw [hc.2.2.2 o ho]; exact .inl ho
  | delta ins args result out sub =>
    simp only [CertNode, Node.outs, List.mem_singleton] at *
    subst ho
    exact .inl hc

theorem divertNode_outs (τ : Out → Out) (n : Node) : (divertNode τ n).outs = n.outs := by
  cases n <;> rfl

theorem divertNodes_outs (τ : Out → Out) : ∀ ns : Nodes, (divertNodes τ ns).outs = ns.outs
  | .nil => rfl
  | .cons n ns => by simp [divertNodes, Nodes.outs, divertNode_outs, divertNodes_outs τ ns]

theorem divertNode_ins (τ : Out → Out) (n : Node) : (divertNode τ n).ins = n.ins.map τ := by
  cases n <;> simp [divertNode, Node.ins]

/-! ## Values of arguments -/

theorem upd_get {e : Env V} {os : List Out} {ws : List (W V)} {k : Nat} {o : Out} (hn : os.Nodup)
    (h : os[k]? = some o) : upd e os ws o = ws.getD k none := by
  rw [upd_getD os ws o (List.mem_of_getElem? h)]
  congr 1
  obtain ⟨hk, hk'⟩ := List.getElem?_eq_some_iff.1 h
  rw [← hk', hn.idxOf_getElem]

/-- Values of arguments in the original and in the diverted module. -/
def Aligned (τ : Out → Out) (args : List Out) (ws ws' : List (W V)) : Prop :=
  ∀ (k : Nat) (a : Out), args[k]? = some a → ∃ (j : Nat) (b : Out), args[j]? = some b ∧ τ a = b ∧
    LeW (ws.getD k none) (ws'.getD j none)

theorem map_getD {e : Env V} {l : List Out} {k : Nat} {x : Out} (h : l[k]? = some x) :
    (l.map e).getD k none = e x := by
  simp [List.getD_eq_getElem?_getD, List.getElem?_map, h]

theorem getElem?_of_len {l l' : List Out} (h : l.length = l'.length) {k : Nat} {a : Out} (hk : l[k]? = some a) :
    ∃ b, l'[k]? = some b := by
  obtain ⟨h1, _⟩ := List.getElem?_eq_some_iff.1 hk
  exact ⟨l'[k], List.getElem?_eq_getElem (h ▸ h1)⟩

theorem aligned_of {τ : Out → Out} {args keys : List Out} (h : ArgsOk τ args keys)
    (hl : args.length = keys.length) {e e' : Env V} (he : ∀ i ∈ keys, LeW (e i) (e' (τ i))) :
    Aligned τ args (keys.map e) ((keys.map τ).map e') := by
  intro k a hk
  obtain ⟨j, b, h1, h2, h3⟩ := h k a hk
  obtain ⟨i, hi⟩ := getElem?_of_len hl hk
  obtain ⟨i', hi'⟩ := getElem?_of_len hl h1
  refine ⟨j, b, h1, h2, ?_⟩
  rw [hi, hi', Option.map_some, Option.map_some, Option.some.injEq] at h3
  rw [map_getD hi, map_getD (x := τ i') (by rw [List.getElem?_map, hi']; rfl), h3]
  exact he i (List.mem_of_getElem? hi)

theorem aligned_env {τ : Out → Out} {args : List Out} (hn : args.Nodup) {ws ws' : List (W V)}
    (h : Aligned τ args ws ws') {ε ε' : Env V} : ∀ a ∈ args,
    LeW (upd ε args ws a) (upd ε' args ws' (τ a)) := by
  intro a ha
  obtain ⟨k, hk⟩ := List.mem_iff_getElem?.1 ha
  obtain ⟨j, b, h1, h2, h3⟩ := h k a hk
  rw [h2, upd_get hn hk, upd_get hn h1]
  exact h3

theorem leLW_map_self {e : Env V} (hr : ∀ x, LeW (e x) (e x)) (l : List Out) : LeLW (l.map e) (l.map e) :=
  LeLW.map l fun x _ => hr x

/-! ## Simulation -/

/-- Simple nodes that have been evaluated, and whose outputs are leaders, have produced the values of
their outputs. -/
def PrevOk (sem : Sem V) (τ : Out → Out) (A : List Out) (prev : List SNode) (e' : Env V) : Prop :=
  ∀ m ∈ prev, (∀ i ∈ m.ins, i ∈ A) ∧ (∀ o ∈ m.outs, o ∈ A) ∧
    ∀ (k : Nat) (o : Out), m.outs[k]? = some o → τ o = o →
      e' o = (nodeVals sem (.simple m.op (m.ins.map τ) m.outs) e').getD k none

/-- What has to be shown of the subregion of a node. -/
def SubSim (sem : Sem V) (τ : Out → Out) (A : List Out) (sub : Nodes) : Prop :=
  ∀ e e' : Env V, (∀ o ∈ A, LeW (e o) (e' (τ o))) → (∀ x, LeW (e' x) (e' x)) →
    ∀ o ∈ A ++ sub.outs, LeW (evalNodes sem sub e o) (evalNodes sem (divertNodes τ sub) e' (τ o))

theorem theta_sim {sem : Sem V} (hs : sem.Mono) {τ : Out → Out} {ins outs args posts : List Out} {pred : Out}
    {sub : Nodes} (hsub : SubSim sem τ args sub) (h1 : ins.length = outs.length)
    (h2 : args.length = outs.length) (h3 : posts.length = outs.length) (hn : args.Nodup)
    (hd : ∀ x ∈ args, x ∉ sub.outs) (hres : ∀ r ∈ pred :: posts, r ∈ args ++ sub.outs)
    (hi : ArgsOk τ args ins) (hp : ArgsOk τ args posts) {e e' : Env V}
    (he : ∀ i ∈ ins, LeW (e i) (e' (τ i))) (hr : ∀ x, LeW (e' x) (e' x)) {k : Nat} {o : Out}
    (ho : outs[k]? = some o) (hok : LoopOk τ ins outs args posts k o) :
    (∃ (j : Nat) (o' : Out), outs[j]? = some o' ∧ τ o = o' ∧
      LeW ((nodeVals sem (.theta ins outs args pred posts sub) e).getD k none)
        ((nodeVals sem (divertNode τ (.theta ins outs args pred posts sub)) e').getD j none)) ∨
    (∃ i ∈ ins, τ o = τ i ∧
      LeW ((nodeVals sem (.theta ins outs args pred posts sub) e).getD k none) (e' (τ i))) := by
  simp only [nodeVals, divertNode]
  obtain ⟨f, hf⟩ : ∃ f : List (W V) → List (W V), f = fun ws => (pred :: posts).map
    (evalNodes sem sub (upd emptyEnv args ws)) := ⟨_, rfl⟩
  obtain ⟨f', hf'⟩ : ∃ f' : List (W V) → List (W V), f' = fun ws => (τ pred :: posts.map τ).map
    (evalNodes sem (divertNodes τ sub) (upd emptyEnv args ws)) := ⟨_, rfl⟩
  rw [← hf, ← hf']
  have hft : ∀ ws, (f ws).tail = posts.map (evalNodes sem sub (upd emptyEnv args ws)) := by
    intro ws; rw [hf]; rfl
  have hft' : ∀ ws, (f' ws).tail = (posts.map τ).map
      (evalNodes sem (divertNodes τ sub) (upd emptyEnv args ws)) := by
    intro ws; rw [hf']; rfl
  have hfh : ∀ ws, (f ws).headD none = evalNodes sem sub (upd emptyEnv args ws) pred := by
    intro ws; rw [hf]; rfl
  have hfh' : ∀ ws, (f' ws).headD none =
      evalNodes sem (divertNodes τ sub) (upd emptyEnv args ws) (τ pred) := by
    intro ws; rw [hf']; rfl
  have hmono' : ∀ ws ws', LeLW ws ws' → LeLW (f' ws) (f' ws') := by
    intro ws ws' hw
    rw [hf']
    exact LeLW.map _ fun x _ => evalNodes_mono' hs _ (upd_le' emptyEnv_le _ hw) x
  have hinit' : LeLW ((ins.map τ).map e') ((ins.map τ).map e') := leLW_map_self hr _
  have hst' : ∀ m, LeLW (loopState f' ((ins.map τ).map e') m) (loopState f' ((ins.map τ).map e') m) :=
    fun m => loopState_le hmono' hinit' m
  have hE : ∀ ws ws' : List (W V), Aligned τ args ws ws' → LeLW ws' ws' → ∀ x ∈ args ++ sub.outs,
      LeW (evalNodes sem sub (upd emptyEnv args ws) x)
        (evalNodes sem (divertNodes τ sub) (upd emptyEnv args ws') (τ x)) := fun ws ws' ha hw =>
    hsub _ _ (aligned_env hn ha) (upd_le' emptyEnv_le _ hw)
  have hal : ∀ m, Aligned τ args (loopState f (ins.map e) m) (loopState f' ((ins.map τ).map e') m) := by
    intro m
    induction m with
    | zero => exact aligned_of hi (h2.trans h1.symm) he
    | succ m ih =>
      simp only [loopState]
      rw [hft, hft']
      exact aligned_of hp (h2.trans h3.symm) fun i hi => hE _ _ ih (hst' m) i (hres i (by simp [hi]))
  have hhead : ∀ m, LeW ((f (loopState f (ins.map e) m)).headD none)
      ((f' (loopState f' ((ins.map τ).map e') m)).headD none) := by
    intro m
    have := hE _ _ (hal m) (hst' m) pred (hres pred (by simp))
    rw [hfh, hfh']
    exact this
  obtain ⟨p, hpk⟩ := getElem?_of_len h3.symm ho
  have hpm : p ∈ args ++ sub.outs := hres p (by simp [List.mem_of_getElem? hpk])
  have hinv : ∀ (j : Nat) (a i : Out), args[j]? = some a → ins[j]? = some i → (posts[j]?).map τ = some a →
      ∀ m, (loopState f' ((ins.map τ).map e') m).getD j none = e' (τ i) := by
    intro j a i ha hij hpj m
    induction m with
    | zero =>
      simp only [loopState]
      exact map_getD (by rw [List.getElem?_map, hij]; rfl)
    | succ m ih =>
      simp only [loopState]
      have hpj' : (posts.map τ)[j]? = some a := by rw [List.getElem?_map, hpj]
      rw [hft', map_getD hpj', evalNodes_notin _ _ _ _ (by
        rw [divertNodes_outs]
        exact hd a (List.mem_of_getElem? ha)), upd_get hn ha]
      exact ih
  rcases loopVals_exit' (sem := sem) (f := f) (init := ins.map e) with ⟨n, hn1, hn2⟩ | ⟨_, hn2⟩
  · have hn' : loopExits sem f' ((ins.map τ).map e') n := loopExits_le (fun m _ => hhead m) hn1
    rw [hn2, loopVals_at hn']
    have hval := hE _ _ (hal n) (hst' n) p hpm
    have hval1 : (loopState f (ins.map e) (n + 1)).getD k none =
        evalNodes sem sub (upd emptyEnv args (loopState f (ins.map e) n)) p := by
      simp only [loopState]
      rw [hft, map_getD hpk]
    rw [hval1]
    rcases hok with ⟨j, o', g1, g2, g3⟩ | ⟨j, a, i, g1, g2, g3, g4, g5⟩
    · refine .inl ⟨j, o', g1, g2, ?_⟩
      obtain ⟨q, hq⟩ := getElem?_of_len h3.symm g1
      rw [hq, hpk, Option.map_some, Option.map_some, Option.some.injEq] at g3
      have hval2 : (loopState f' ((ins.map τ).map e') (n + 1)).getD j none =
          evalNodes sem (divertNodes τ sub) (upd emptyEnv args (loopState f' ((ins.map τ).map e') n)) (τ p) := by
        simp only [loopState]
        rw [hft', map_getD (x := τ p) (by rw [List.getElem?_map, hq]; simp [g3])]
      rw [hval2]
      exact hval
    · refine .inr ⟨i, List.mem_of_getElem? g2, g5, ?_⟩
      rw [hpk, Option.map_some, Option.some.injEq] at g3
      rw [g3, evalNodes_notin sem (divertNodes τ sub) _ a (by
        rw [divertNodes_outs]
        exact hd a (List.mem_of_getElem? g1)), upd_get hn g1, hinv j a i g1 g2 g4 n] at hval
      exact hval
  · rw [hn2]
    rcases hok with ⟨j, o', g1, g2, g3⟩ | ⟨j, a, i, g1, g2, g3, g4, g5⟩
    · exact .inl ⟨j, o', g1, g2, by
        simpa using LeW.none_le (loopVals_ok (sem := sem) hmono' hinit' j)⟩
    · exact .inr ⟨i, List.mem_of_getElem? g2, g5, by simpa using LeW.none_le (hr (τ i))⟩


theorem ctx_env {τ : Out → Out} {ps args : List Out} (hn : (ps ++ args).Nodup) (hp : ∀ p ∈ ps, τ p = p)
    (ha : ∀ a ∈ args, τ a ∈ args) {ε ε' : Env V} (h : ∀ a ∈ args, LeW (ε a) (ε' (τ a))) {ws ws' : List (W V)}
    (hw : LeLW ws ws') : ∀ o ∈ ps ++ args, LeW (upd ε ps ws o) (upd ε' ps ws' (τ o)) := by
  have hn' := List.nodup_append.1 hn
  intro o ho
  by_cases hop : o ∈ ps
  · rw [hp o hop, upd_getD _ _ _ hop, upd_getD _ _ _ hop]
    exact hw _
  · have hoa : o ∈ args := by simpa [hop] using ho
    rw [upd_notin _ _ _ _ hop, upd_notin _ _ _ _ (fun hc => hn'.2.2 _ hc _ (ha o hoa) rfl)]
    exact h o hoa

theorem lambda_sim {sem : Sem V} (hs : sem.Mono) {τ : Out → Out} {ins args params results : List Out} {out : Out}
    {sub : Nodes} (hsub : SubSim sem τ (params ++ args) sub) (h1 : ins.length = args.length)
    (hn : (params ++ args).Nodup) (hres : ∀ r ∈ results, r ∈ params ++ args ++ sub.outs)
    (hp : ∀ p ∈ params, τ p = p) (hi : ArgsOk τ args ins) {e e' : Env V}
    (he : ∀ i ∈ ins, LeW (e i) (e' (τ i))) (hr : ∀ x, LeW (e' x) (e' x)) :
    LeLW (nodeVals sem (.lambda ins args params results out sub) e)
      (nodeVals sem (divertNode τ (.lambda ins args params results out sub)) e') := by
  simp only [nodeVals, divertNode]
  have hn' := List.nodup_append.1 hn
  have hm0 : LeLW (ins.map e) (ins.map e) := LeLW.map _ fun x hx => (he x hx).left
  have hm1 : LeLW ((ins.map τ).map e') ((ins.map τ).map e') := leLW_map_self hr _
  refine LeLW.cons ⟨rfl, ?_, ?_, ?_⟩ LeLW.nil
  · intro xs ys hxy
    exact plain_le ((SubLe.refl hs sub results).2 _ _ (upd_le' (upd_le' emptyEnv_le _ hm0) _ (lift_le hxy)))
  · intro xs ys hxy
    exact plain_le ((SubLe.refl hs (divertNodes τ sub) (results.map τ)).2 _ _
      (upd_le' (upd_le' emptyEnv_le _ hm1) _ (lift_le hxy)))
  · intro xs
    refine plain_le ?_
    have hsim := hsub (upd (upd emptyEnv args (ins.map e)) params (lift xs))
      (upd (upd emptyEnv args ((ins.map τ).map e')) params (lift xs))
      (ctx_env hn hp (argsOk_mem hi) (aligned_env hn'.2.1 (aligned_of hi h1.symm he)) (lift_le (LeL.refl xs)))
      (upd_le' (upd_le' emptyEnv_le _ hm1) _ (lift_le (LeL.refl xs)))
    rw [List.map_map]
    exact LeLW.map results fun x hx => hsim x (hres x hx)

theorem phi_sim {sem : Sem V} (hs : sem.Mono) {τ : Out → Out} {ins args recs results outs : List Out}
    {sub : Nodes} (hsub : SubSim sem τ (recs ++ args) sub) (h1 : ins.length = args.length)
    (hn : (recs ++ args).Nodup) (hres : ∀ r ∈ results, r ∈ recs ++ args ++ sub.outs)
    (hp : ∀ p ∈ recs, τ p = p) (hi : ArgsOk τ args ins) {e e' : Env V}
    (he : ∀ i ∈ ins, LeW (e i) (e' (τ i))) (hr : ∀ x, LeW (e' x) (e' x)) :
    LeLW (nodeVals sem (.phi ins args recs results outs sub) e)
      (nodeVals sem (divertNode τ (.phi ins args recs results outs sub)) e') := by
  simp only [nodeVals, divertNode]
  have hn' := List.nodup_append.1 hn
  have hm1 : LeLW ((ins.map τ).map e') ((ins.map τ).map e') := leLW_map_self hr _
  refine phiVals_le outs (fun _ _ => by simp) ?_ _
  intro ws ws' hw
  have hsim := hsub (upd (upd emptyEnv args (ins.map e)) recs ws)
    (upd (upd emptyEnv args ((ins.map τ).map e')) recs ws')
    (ctx_env hn hp (argsOk_mem hi) (aligned_env hn'.2.1 (aligned_of hi h1.symm he)) hw)
    (upd_le' (upd_le' emptyEnv_le _ hm1) _ hw.right)
  rw [List.map_map]
  exact LeLW.map results fun x hx => hsim x (hres x hx)

/-- What has to be shown of the branches of a gamma node. -/
def RegSim (sem : Sem V) (τ : Out → Out) (ins : List Out) (subs : Regions) : Prop :=
  ∀ (c : Nat) (w : W V) (e e' : Env V), (∀ i ∈ ins, LeW (e i) (e' (τ i))) → (∀ x, LeW (e' x) (e' x)) →
    LeW w w → ∀ args results, subs.branch c = some (args, results) →
    ∃ E E' : Env V, regionVals sem subs c (w :: ins.map e) = results.map E ∧
      regionVals sem (divertRegions τ subs) c (w :: (ins.map τ).map e') = (results.map τ).map E' ∧
      (∀ r ∈ results, LeW (E r) (E' (τ r))) ∧
      ∀ (j : Nat) (a i : Out), args[j + 1]? = some a → ins[j]? = some i → E a = e i

theorem regSim_nil {sem : Sem V} {τ : Out → Out} {ins : List Out} : RegSim sem τ ins .nil := by
  intro c w e e' _ _ _ args results hb
  simp [Regions.branch] at hb

theorem regSim_cons {sem : Sem V} {τ : Out → Out} {ins args results : List Out} {sub : Nodes} {rest : Regions}
    (hsub : SubSim sem τ args sub) (hrest : RegSim sem τ ins rest) (h1 : args.length = ins.length + 1)
    (hn : args.Nodup) (hd : ∀ x ∈ args, x ∉ sub.outs) (hres : ∀ r ∈ results, r ∈ args ++ sub.outs)
    (hm : ∀ m ∈ args.head?, τ m = m) (hi : ArgsOk τ args.tail ins) : RegSim sem τ ins (.cons args results sub rest) := by
  intro c w e e' he hr hw as rs hb
  cases c with
  | succ c =>
    obtain ⟨E, E', g1, g2, g3, g4⟩ := hrest c w e e' he hr hw as rs (by simpa [Regions.branch] using hb)
    exact ⟨E, E', by simpa only [regionVals] using g1, by simpa only [divertRegions, regionVals] using g2, g3, g4⟩
  | zero =>
    simp only [Regions.branch, Option.some.injEq, Prod.mk.injEq] at hb
    obtain ⟨rfl, rfl⟩ := hb
    cases args with
    | nil => simp at h1
    | cons a as =>
      simp only [List.tail_cons, List.head?_cons, Option.mem_def, Option.some.injEq, forall_eq'] at hi hm
      simp only [List.length_cons, Nat.add_right_cancel_iff] at h1
      have hn' := List.nodup_cons.1 hn
      refine ⟨evalNodes sem sub (upd emptyEnv (a :: as) (w :: ins.map e)),
        evalNodes sem (divertNodes τ sub) (upd emptyEnv (a :: as) (w :: (ins.map τ).map e')), rfl, rfl, ?_, ?_⟩
      · intro r hr'
        refine hsub _ _ ?_ (upd_le' emptyEnv_le _ (LeLW.cons hw (leLW_map_self hr _))) r (hres r hr')
        have hal := aligned_env (ε := emptyEnv) (ε' := emptyEnv) hn'.2 (aligned_of hi h1 he)
        have := ctx_env (τ := τ) (ps := [a]) (args := as) (ε := upd emptyEnv as (ins.map e))
          (ε' := upd emptyEnv as ((ins.map τ).map e')) (by simpa using hn) (by simpa using hm)
          (argsOk_mem hi) hal (LeLW.cons hw LeLW.nil)
        intro o ho
        simpa [upd] using this o (by simpa using ho)
      · intro j b i hb hij
        rw [evalNodes_notin _ _ _ _ (hd b (List.mem_of_getElem? hb)), upd_get hn hb]
        simp only [List.getD_cons_succ]
        exact map_getD hij

theorem gamma_sim {sem : Sem V} (hs : sem.Mono) {τ : Out → Out} {pred : Out} {ins outs : List Out} {subs : Regions}
    (hsub : RegSim sem τ ins subs) (hlen : ∀ (c : Nat) (args results : List Out),
      subs.branch c = some (args, results) → results.length = outs.length) {e e' : Env V}
    (hp : LeW (e pred) (e' (τ pred))) (he : ∀ i ∈ ins, LeW (e i) (e' (τ i))) (hr : ∀ x, LeW (e' x) (e' x))
    {k : Nat} {o : Out} (ho : outs[k]? = some o) (hok : ExitOk τ ins outs subs k o) :
    (∃ (j : Nat) (o' : Out), outs[j]? = some o' ∧ τ o = o' ∧
      LeW ((nodeVals sem (.gamma pred ins outs subs) e).getD k none)
        ((nodeVals sem (divertNode τ (.gamma pred ins outs subs)) e').getD j none)) ∨
    (∃ i ∈ ins, τ o = τ i ∧
      LeW ((nodeVals sem (.gamma pred ins outs subs) e).getD k none) (e' (τ i))) := by
  have hrefl := nodeVals_mono hs (divertNode τ (.gamma pred ins outs subs)) e' e' fun i _ => hr i
  by_cases hnone : (nodeVals sem (.gamma pred ins outs subs) e).getD k none = none
  · rw [hnone]
    rcases hok with ⟨j, o', g1, g2, g3⟩ | ⟨i, g1, g2, g3⟩
    · exact .inl ⟨j, o', g1, g2, LeW.none_le (hrefl j)⟩
    · exact .inr ⟨i, g1, g2, LeW.none_le (hr _)⟩
  · simp only [nodeVals, divertNode] at hnone ⊢
    cases hpe : e pred with
    | none => rw [hpe] at hnone; simp at hnone
    | some p =>
      obtain ⟨v, f⟩ := p
      rw [hpe] at hnone hp
      simp only at hnone
      cases hpe' : e' (τ pred) with
      | none => rw [hpe'] at hp; exact hp.elim
      | some p' =>
        obtain ⟨v', f'⟩ := p'
        rw [hpe'] at hp
        have hv : v = v' := hp.1
        subst hv
        simp only
        cases hb : subs.branch (sem.ctl v) with
        | none => rw [Ivr.regionVals_none subs _ hb] at hnone; simp at hnone
        | some ar =>
          obtain ⟨args, results⟩ := ar
          obtain ⟨E, E', g1, g2, g3, g4⟩ := hsub (sem.ctl v) (some (sem.content v, none)) e e' he hr
            (by simp [LeW, LeOF]) args results hb
          rw [g1, g2]
          obtain ⟨r, hrk⟩ := getElem?_of_len (hlen _ _ _ hb).symm ho
          rw [map_getD hrk]
          rcases hok with ⟨j, o', q1, q2, q3⟩ | ⟨i, q1, q2, q3⟩
          · refine .inl ⟨j, o', q1, q2, ?_⟩
            obtain ⟨r', hrj⟩ := getElem?_of_len (hlen _ _ _ hb).symm q1
            have := q3 _ _ _ hb
            rw [hrj, hrk, Option.map_some, Option.map_some, Option.some.injEq] at this
            rw [map_getD (x := τ r) (by rw [List.getElem?_map, hrj]; simp [this])]
            exact g3 r (List.mem_of_getElem? hrk)
          · refine .inr ⟨i, q1, q2, ?_⟩
            obtain ⟨j, r', i', s1, s2, s3, s4⟩ := q3 _ _ _ hb
            rw [hrk] at s1
            cases s1
            rw [g4 j r i' s2 s3, ← s4]
            exact he i' (List.mem_of_getElem? s3)

theorem simple_divert (sem : Sem V) (τ : Out → Out) (op : Op) (ins outs : List Out) (e' : Env V) :
    nodeVals sem (.simple op (ins.map τ) outs) e' = nodeVals sem (.simple op ins outs) (fun x => e' (τ x)) := by
  simp only [nodeVals, List.map_map]
  rfl

theorem simple_outs (sem : Sem V) (op : Op) (ins outs outs' : List Out) (e : Env V) :
    nodeVals sem (.simple op ins outs) e = nodeVals sem (.simple op ins outs') e := by
  simp only [nodeVals]

/-- What is shown of a node: a value that refines that of the output is found at the leader. -/
def NodeSim (sem : Sem V) (τ : Out → Out) (A : List Out) (n : Node) (e e' : Env V) : Prop :=
  ∀ (k : Nat) (o : Out), n.outs[k]? = some o →
    (∃ j : Nat, n.outs[j]? = some (τ o) ∧
      LeW ((nodeVals sem n e).getD k none) ((nodeVals sem (divertNode τ n) e').getD j none)) ∨
    (τ o ∈ A ∧ LeW ((nodeVals sem n e).getD k none) (e' (τ o)))

theorem simple_sim {sem : Sem V} (hs : sem.Mono) {τ : Out → Out} {A : List Out} {prev : List SNode} {op : Op}
    {ins outs : List Out} (hc : CertNode τ prev (.simple op ins outs)) {e e' : Env V}
    (he : ∀ i ∈ ins, LeW (e i) (e' (τ i))) (hp : PrevOk sem τ A prev e') :
    NodeSim sem τ A (.simple op ins outs) e e' := by
  have hle : LeLW (nodeVals sem (.simple op ins outs) e) (nodeVals sem (.simple op (ins.map τ) outs) e') := by
    rw [simple_divert]
    exact simple_le hs op ins outs _ _ (by simpa [Node.ins] using he)
  intro k o ho
  simp only [Node.outs] at ho
  rcases hc with h | ⟨m, h1, h2, h3, h4, h5⟩
  · exact .inl ⟨k, by rw [h o (List.mem_of_getElem? ho)]; exact ho, hle k⟩
  · have hmk : m.outs[k]? = some (τ o) := by
      rw [← h4, List.getElem?_map, ho]; rfl
    have hm := hp m h1
    refine .inr ⟨hm.2.1 _ (List.mem_of_getElem? hmk), ?_⟩
    rw [hm.2.2 k _ hmk (h5 _ (List.mem_of_getElem? hmk)), h2, h3, simple_outs sem op _ m.outs outs]
    exact hle k

theorem prevOk_step {sem : Sem V} {τ : Out → Out} {A : List Out} {prev : List SNode} {e' : Env V} {n : Node}
    (hp : PrevOk sem τ A prev e') (hτ : ∀ a ∈ A, τ a ∈ A) (hA : ∀ x ∈ A, x ∉ n.outs) (hn : n.outs.Nodup)
    (hi : ∀ i ∈ n.ins, i ∈ A) : PrevOk sem τ (n.outs ++ A) (prev ++ (Nodes.cons n .nil).simples)
      (upd e' n.outs (nodeVals sem (divertNode τ n) e')) := by
  have key : ∀ (op : Op) (ins outs : List Out), (∀ i ∈ ins, i ∈ A) →
      nodeVals sem (.simple op (ins.map τ) outs) (upd e' n.outs (nodeVals sem (divertNode τ n) e')) =
      nodeVals sem (.simple op (ins.map τ) outs) e' := by
    intro op ins outs h
    refine nodeVals_congr sem _ _ _ ?_
    intro i hi
    simp only [Node.ins, List.mem_map] at hi
    obtain ⟨x, hx, rfl⟩ := hi
    rw [upd_notin _ _ _ _ (hA _ (hτ x (h x hx)))]
  intro m hm
  rcases List.mem_append.1 hm with hm | hm
  · obtain ⟨h1, h2, h3⟩ := hp m hm
    refine ⟨fun i hi => by simp [h1 i hi], fun o ho => by simp [h2 o ho], fun k o ho hτo => ?_⟩
    rw [key _ _ _ h1, upd_notin _ _ _ _ (hA o (h2 o (List.mem_of_getElem? ho)))]
    exact h3 k o ho hτo
  · cases n with
    | simple op ins outs =>
      simp only [Nodes.simples, List.mem_singleton] at hm
      subst hm
      simp only [Node.ins, Node.outs] at hi hA hn key ⊢
      refine ⟨fun i hi' => by simp [hi i hi'], fun o ho => by simp [ho], fun k o ho hτo => ?_⟩
      rw [key _ _ _ hi, upd_get hn ho]
      rfl
    | _ => simp [Nodes.simples] at hm

theorem step_sim {sem : Sem V} (hs : sem.Mono) {τ : Out → Out} {A : List Out} {n : Node} {e e' : Env V}
    (h : NodeSim sem τ A n e e') (hτ : ∀ a ∈ A, τ a ∈ A) (hA : ∀ x ∈ A, x ∉ n.outs) (hn : n.outs.Nodup)
    (he : ∀ o ∈ A, LeW (e o) (e' (τ o))) :
    ∀ o ∈ n.outs ++ A, LeW (upd e n.outs (nodeVals sem n e) o)
      (upd e' n.outs (nodeVals sem (divertNode τ n) e') (τ o)) := by
  intro o ho
  by_cases hon : o ∈ n.outs
  · obtain ⟨k, hk⟩ := List.mem_iff_getElem?.1 hon
    rw [upd_get hn hk]
    rcases h k o hk with ⟨j, h1, h2⟩ | ⟨h1, h2⟩
    · rw [upd_get hn h1]; exact h2
    · rw [upd_notin _ _ _ _ (hA _ h1)]; exact h2
  · have hoA : o ∈ A := by simpa [hon] using ho
    rw [upd_notin _ _ _ _ hon, upd_notin _ _ _ _ (hA _ (hτ o hoA))]
    exact he o hoA

theorem branch_len {n m : Nat} : ∀ (subs : Regions) (c : Nat) (args results : List Out),
    wfRegions n m subs = true → subs.branch c = some (args, results) → results.length = m
  | .nil, c, args, results, _, hb => by simp [Regions.branch] at hb
  | .cons as rs sub rest, 0, args, results, h, hb => by
      simp only [Regions.branch, Option.some.injEq, Prod.mk.injEq] at hb
      obtain ⟨rfl, rfl⟩ := hb
      simp only [wfRegions, Bool.and_eq_true, beq_iff_eq] at h
      exact h.1.1.1.2
  | .cons as rs sub rest, c + 1, args, results, h, hb => by
      simp only [wfRegions, Bool.and_eq_true] at h
      exact branch_len rest c args results h.2 (by simpa [Regions.branch] using hb)

mutual

theorem node_sim {sem : Sem V} (hs : sem.Mono) {τ : Out → Out} : ∀ (n : Node) (A : List Out) (prev : List SNode)
    (e e' : Env V), wfNode A n = true → (namesNode n).Nodup → CertNode τ prev n → (∀ a ∈ A, τ a ∈ A) →
    PrevOk sem τ A prev e' → (∀ o ∈ A, LeW (e o) (e' (τ o))) → (∀ x, LeW (e' x) (e' x)) →
    NodeSim sem τ A n e e'
  | .simple op ins outs, A, prev, e, e', hwf, hn, hc, hτ, hp, he, hr =>
      simple_sim hs hc (fun i hi => he i (wfNode_ins hwf i (by simpa [Node.ins] using hi))) hp
  | .gamma pred ins outs subs, A, prev, e, e', hwf, hn, hc, hτ, hp, he, hr => by
      have hins := wfNode_ins hwf
      simp only [wfNode, Bool.and_eq_true] at hwf
      simp only [namesNode] at hn
      simp only [CertNode] at hc
      intro k o ho
      rcases gamma_sim hs (regions_sim hs subs ins outs.length hwf.2 (List.nodup_append.1 hn).2.1 hc.1)
        (fun c args results => branch_len subs c args results hwf.2) (he pred (hins pred (by simp [Node.ins])))
        (fun i hi => he i (hins i (by simp [Node.ins, hi]))) hr ho (hc.2 k o ho) with
        ⟨j, o', g1, g2, g3⟩ | ⟨i, g1, g2, g3⟩
      · exact .inl ⟨j, by rw [g2]; exact g1, g3⟩
      · exact .inr ⟨by rw [g2]; exact hτ i (hins i (by simp [Node.ins, g1])), by rw [g2]; exact g3⟩
  | .theta ins outs args pred posts sub, A, prev, e, e', hwf, hn, hc, hτ, hp, he, hr => by
      have hins := wfNode_ins hwf
      simp only [wfNode, Bool.and_eq_true, beq_iff_eq, Dne.subset_iff] at hwf
      simp only [namesNode] at hn
      have hn1 := List.nodup_append.1 hn
      have hn2 := List.nodup_append.1 hn1.1
      simp only [CertNode] at hc
      have hd : ∀ x ∈ args, x ∉ namesNodes sub := fun x hx hc' => hn1.2.2 x (by simp [hx]) x hc' rfl
      intro k o ho
      rcases theta_sim hs (fun ε ε' h1 h2 => nodes_sim hs sub args [] ε ε' hwf.1.2 hn1.2.1 hd hc.2.2.1
          (argsOk_mem hc.1) (by simp [PrevOk]) h1 h2)
        hwf.1.1.1.1.2 hwf.1.1.1.2 hwf.1.1.2 hn2.2.1
        (fun x hx hc' => hd x hx (Dne.Nodes_outs_subset_names sub x hc')) hwf.2 hc.1 hc.2.1
        (fun i hi => he i (hins i (by simpa [Node.ins] using hi))) hr ho (hc.2.2.2 k o ho) with
        ⟨j, o', g1, g2, g3⟩ | ⟨i, g1, g2, g3⟩
      · exact .inl ⟨j, by rw [g2]; exact g1, g3⟩
      · exact .inr ⟨by rw [g2]; exact hτ i (hins i (by simpa [Node.ins] using g1)), by rw [g2]; exact g3⟩
  | .lambda ins args params results out sub, A, prev, e, e', hwf, hn, hc, hτ, hp, he, hr => by
      have hins := wfNode_ins hwf
      simp only [wfNode, Bool.and_eq_true, beq_iff_eq, Dne.subset_iff] at hwf
      simp only [namesNode, List.cons_append] at hn
      have hn1 := List.nodup_append.1 (List.nodup_cons.1 hn).2
      simp only [CertNode] at hc
      have hτ' : ∀ a ∈ params ++ args, τ a ∈ params ++ args := by
        intro a ha
        rcases List.mem_append.1 ha with ha | ha
        · rw [hc.1 a ha]; simp [ha]
        · simp [argsOk_mem hc.2.1 a ha]
      have h := lambda_sim (out := out) hs (fun ε ε' h1 h2 => nodes_sim hs sub (params ++ args) [] ε ε' hwf.1.2 hn1.2.1
        (fun x hx hc' => hn1.2.2 x hx x hc' rfl) hc.2.2.1 hτ' (by simp [PrevOk]) h1 h2) hwf.1.1.2 hn1.1 hwf.2 hc.1 hc.2.1
        (fun i hi => he i (hins i (by simpa [Node.ins] using hi))) hr
      intro k o ho
      refine .inl ⟨k, ?_, h k⟩
      have : o = out := by simpa [Node.outs] using List.mem_of_getElem? ho
      subst this
      rw [hc.2.2.2]; exact ho
  | .phi ins args recs results outs sub, A, prev, e, e', hwf, hn, hc, hτ, hp, he, hr => by
      have hins := wfNode_ins hwf
      simp only [wfNode, Bool.and_eq_true, beq_iff_eq, Dne.subset_iff] at hwf
      simp only [namesNode, List.append_assoc] at hn
      rw [← List.append_assoc recs] at hn
      have hn1 := List.nodup_append.1 (List.nodup_append.1 hn).2.1
      simp only [CertNode] at hc
      have hτ' : ∀ a ∈ recs ++ args, τ a ∈ recs ++ args := by
        intro a ha
        rcases List.mem_append.1 ha with ha | ha
        · rw [hc.1 a ha]; simp [ha]
        · simp [argsOk_mem hc.2.1 a ha]
      have h := phi_sim (outs := outs) hs (fun ε ε' h1 h2 => nodes_sim hs sub (recs ++ args) [] ε ε' hwf.1.2 hn1.2.1
        (fun x hx hc' => hn1.2.2 x hx x hc' rfl) hc.2.2.1 hτ' (by simp [PrevOk]) h1 h2) hwf.1.1.1.1.2 hn1.1 hwf.2 hc.1 hc.2.1
        (fun i hi => he i (hins i (by simpa [Node.ins] using hi))) hr
      intro k o ho
      refine .inl ⟨k, ?_, h k⟩
      rw [hc.2.2.2 o (by simpa [Node.outs] using List.mem_of_getElem? ho)]; exact ho
  | .delta ins args result out sub, A, prev, e, e', hwf, hn, hc, hτ, hp, he, hr => by
      have hins := wfNode_ins hwf
      simp only [CertNode] at hc
      have h : LeLW (nodeVals sem (.delta ins args result out sub) e)
          (nodeVals sem (divertNode τ (.delta ins args result out sub)) e') := by
        have : nodeVals sem (divertNode τ (.delta ins args result out sub)) e' =
            nodeVals sem (.delta ins args result out sub) (fun x => e' (τ x)) := by
          simp only [nodeVals, divertNode, List.map_map]
          rfl
        rw [this]
        exact nodeVals_mono hs _ _ _ fun i hi => he i (hins i hi)
      intro k o ho
      refine .inl ⟨k, ?_, h k⟩
      have : o = out := by simpa [Node.outs] using List.mem_of_getElem? ho
      subst this
      rw [hc]; exact ho

theorem nodes_sim {sem : Sem V} (hs : sem.Mono) {τ : Out → Out} : ∀ (ns : Nodes) (A : List Out) (prev : List SNode)
    (e e' : Env V), wfNodes A ns = true → (namesNodes ns).Nodup → (∀ x ∈ A, x ∉ namesNodes ns) →
    CertNodes τ prev ns → (∀ a ∈ A, τ a ∈ A) → PrevOk sem τ A prev e' → (∀ o ∈ A, LeW (e o) (e' (τ o))) →
    (∀ x, LeW (e' x) (e' x)) →
    ∀ o ∈ A ++ ns.outs, LeW (evalNodes sem ns e o) (evalNodes sem (divertNodes τ ns) e' (τ o))
  | .nil, A, prev, e, e', _, _, _, _, _, _, he, _ => by
      simpa [evalNodes, divertNodes, Nodes.outs] using he
  | .cons n ns, A, prev, e, e', hwf, hn, hA, hc, hτ, hp, he, hr => by
      simp only [wfNodes, Bool.and_eq_true] at hwf
      simp only [namesNodes] at hn hA
      have hn' := List.nodup_append.1 hn
      simp only [CertNodes] at hc
      have hAn : ∀ x ∈ A, x ∉ n.outs := fun x hx hx' => hA x hx
        (by simp [Dne.outs_subset_names n x hx'])
      have hno := node_outs_nodup hn'.1
      have hsim := node_sim hs n A prev e e' hwf.1 hn'.1 hc.1 hτ hp he hr
      intro o ho
      simp only [evalNodes, divertNodes, divertNode_outs]
      refine nodes_sim hs ns (n.outs ++ A) _ _ _ hwf.2 hn'.2.1 ?_ hc.2 ?_
        (prevOk_step hp hτ hAn hno (wfNode_ins hwf.1)) (step_sim hs hsim hτ hAn hno he)
        (upd_le' hr _ (nodeVals_mono hs _ _ _ fun i _ => hr i)) o ?_
      · intro x hx hc'
        rcases List.mem_append.1 hx with hx | hx
        · exact hn'.2.2 x (Dne.outs_subset_names n x hx) x hc' rfl
        · exact hA x hx (by simp [hc'])
      · intro a ha
        rcases List.mem_append.1 ha with ha | ha
        · have := certNode_outs n hc.1 hwf.1 hτ (fun m hm => (hp m hm).2.1) a ha
          simpa using this
        · simp [hτ a ha]
      · simp only [Nodes.outs, List.mem_append] at ho ⊢
        tauto

theorem regions_sim {sem : Sem V} (hs : sem.Mono) {τ : Out → Out} : ∀ (subs : Regions) (ins : List Out) (m : Nat),
    wfRegions (ins.length + 1) m subs = true → (namesRegions subs).Nodup → CertRegions τ ins subs →
    RegSim sem τ ins subs
  | .nil, ins, m, _, _, _ => regSim_nil
  | .cons args results sub rest, ins, m, hwf, hn, hc => by
      simp only [wfRegions, Bool.and_eq_true, beq_iff_eq, Dne.subset_iff] at hwf
      simp only [namesRegions] at hn
      have hn1 := List.nodup_append.1 hn
      have hn2 := List.nodup_append.1 hn1.1
      simp only [CertRegions] at hc
      have hd : ∀ x ∈ args, x ∉ namesNodes sub := fun x hx hc' => hn2.2.2 x hx x hc' rfl
      refine regSim_cons (fun ε ε' h1 h2 => nodes_sim hs sub args [] ε ε' hwf.1.1.2 hn2.2.1 hd hc.2.2.1 ?_
          (by simp [PrevOk]) h1 h2)
        (regions_sim hs rest ins m hwf.2 hn1.2.1 hc.2.2.2) hwf.1.1.1.1 hn2.1
        (fun x hx hc' => hd x hx (Dne.Nodes_outs_subset_names sub x hc')) hwf.1.2 hc.1 hc.2.1
      intro a ha
      cases args with
      | nil => simp at ha
      | cons b as =>
        simp only [List.tail_cons, List.head?_cons, Option.mem_def, Option.some.injEq, forall_eq'] at hc
        rcases List.mem_cons.1 ha with ha | ha
        · rw [ha, hc.1]; simp
        · simp [argsOk_mem hc.2.1 a ha]

end

end Cne

end Jlm.Opt
