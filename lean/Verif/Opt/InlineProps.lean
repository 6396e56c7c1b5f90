import Verif.Opt.InlineHere
import Verif.Opt.HoistProps

/-! # Inlining of functions: theorems -/

set_option linter.unusedSimpArgs false
set_option linter.unusedVariables false

namespace Jlm.Opt.Inline

open Jlm.Opt.Copy Jlm.Opt.Lst Jlm.Opt.Pull Jlm.Opt.Swap Jlm.Opt.Unswitch Jlm.Opt.Hoist

variable {V : Type}

/-- `fn` is the function `c`, and `deps` are the values of its context variables. -/
def Knows (c : Callee) (fn : Out) (deps : List Out) (V : Type) (sem : Sem V) (e : Env V) : Prop :=
  ∃ v : V, e fn = some (v, some (.lam (c.run sem (deps.map e))))

def Q (bop : Op) (V : Type) (sem : Sem V) : Prop := Calls sem ∧ NoPeek sem ∧ Barrier bop sem

theorem knows_congr {c : Callee} {fn : Out} {deps : List Out} {sem : Sem V} {e e' : Env V} (h : Knows c fn deps V sem e)
    (h1 : e' fn = e fn) (h2 : ∀ d ∈ deps, e' d = e d) : Knows c fn deps V sem e' := by
  obtain ⟨v, hv⟩ := h
  refine ⟨v, ?_⟩
  rw [h1, hv, List.map_congr_left h2]

/-! ## the call -/

theorem call_better {c : Callee} {bop : Op} {fty : Out → Bool} {A deps xs outs rs R : List Out} {fn : Out} {n n' : Nat} {op : Op}
    {p s mid : List Node} (hc : c.Good fty) (hb : bop.kind ≠ .load) (hk : op.kind = .call) (h2 : 2 ≤ xs.length)
    (hxl : xs.length = c.params.length) (hol : outs.length = c.results.length) (hi : inlineCall c bop fty deps xs n = some (mid, rs, n'))
    (hp : Pre A R n (p ++ .simple op (fn :: xs) outs :: s)) (hfn : fn ∈ A) (hda : ∀ d ∈ deps, d ∈ A)
    (hdl : deps.length = c.args.length) :
    BetterK (Knows c fn deps) (Q bop) A R n (p ++ .simple op (fn :: xs) outs :: s) (R.map (divertTo outs rs)) n'
      (p ++ mid ++ s.map (Node.divert (divertTo outs rs))) := by
  have hw := hp.wf
  have hl := hp.lt
  have hn := hp.nodup
  rw [wf_append] at hw
  simp only [nodesOf, wfNodes, Bool.and_eq_true, wfNode, mem_subset] at hw
  simp only [names_append, nodesOf, namesNodes, namesNode, List.mem_append] at hl hn
  have hno : outs.Nodup := hn.sublist ((List.sublist_append_left _ _).trans (List.sublist_append_right _ _))
  have hxB : ∀ x ∈ xs, x ∈ (nodesOf p).outs ++ A := fun x hx => hw.2.1.1 x (by simp [hx])
  have hB : ∀ o ∈ (nodesOf p).outs ++ A, (o : Nat) < n := by
    intro o ho
    rcases List.mem_append.1 ho with ho | ho
    · exact hl o (.inl (outs_namesNodes _ _ ho))
    · exact hp.ltA o ho
  have hH := inlineCall_spec hc hb h2 hxl hdl (fun z hz => hB z (hxB z hz)) (fun z hz => hp.ltA z (hda z hz)) hi
  have hsepA : ∀ o ∈ A, o ∉ (nodesOf p).outs := fun o ho h => hp.sep o ho (by
    rw [names_append]; exact List.mem_append_left _ (outs_namesNodes _ _ h))
  obtain ⟨hwm, hrm⟩ := hH.wf ((nodesOf p).outs ++ A) (fun d hd => List.mem_append_right _ (hda d hd)) hxB
  have hτ : ∀ (k : Nat) (o : Out), outs[k]? = some o → ∃ r, rs[k]? = some r ∧ divertTo outs rs o = r := by
    intro k o ho
    have hk' : k < rs.length := by rw [hH.len, ← hol]; exact (List.getElem?_eq_some_iff.1 ho).1
    exact ⟨rs[k], List.getElem?_eq_getElem hk', divertTo_get hno ho (List.getElem?_eq_getElem hk')⟩
  refine swapK hp hH.le hwm hH.nodup (fun z hz => .inr (hH.names z hz)) (fun o ho => divertTo_notin ho) (fun o ho => ?_)
    (fun sem e h => knows_congr h (evalNodes_notin _ _ _ _ (hsepA fn hfn)) (fun d hd => evalNodes_notin _ _ _ _ (hsepA d (hda d hd))))
    (fun sem hm hq F hF hK k o ho => ?_)
  · obtain ⟨k, hk'⟩ := List.mem_iff_getElem?.1 ho
    obtain ⟨r, h3, h4⟩ := hτ k o hk'
    rw [h4]
    have := hrm r (List.mem_of_getElem? h3)
    simp only [List.mem_append] at this ⊢
    tauto
  · obtain ⟨r, h3, h4⟩ := hτ k o ho
    obtain ⟨v, hv⟩ := hK
    rw [h4, hH.eval sem hq.2.2 hq.2.1 F k r h3, nodeVals, if_neg (by rw [hk]; simp), List.map_cons, hv, hq.1 op v _ _ hk]
    exact lift_le (LeL.refl _) k

/-! ## Nodes around the call -/

/-- A node with the same outputs and possibly others takes the place of a node. -/
theorem swap_out {K : ∀ V : Type, Sem V → Env V → Prop} {Q : ∀ V : Type, Sem V → Prop} {A R : List Out} {n n' : Nat} {p s : List Node}
    {y y' : Node} (hp : Pre A R n (p ++ y :: s)) (hle : n ≤ n') (hwf : wfNode ((nodesOf p).outs ++ A) y' = true)
    (hnd : (namesNode y').Nodup) (hnames : ∀ z : Nat, z ∈ namesNode y' → z ∈ namesNode y ∨ n ≤ z ∧ z < n')
    (hos : ∀ (k : Nat) (o : Out), y.outs[k]? = some o → y'.outs[k]? = some o)
    (hK : ∀ {V : Type} (sem : Sem V) (e : Env V), K V sem e → K V sem (evalNodes sem (nodesOf p) e))
    (hv : ∀ {V : Type} (sem : Sem V), sem.Mono → Q V sem → ∀ F : Env V, (∀ x, LeW (F x) (F x)) → K V sem F →
      ∀ k : Nat, k < y.outs.length → LeW ((nodeVals sem y F).getD k none) ((nodeVals sem y' F).getD k none)) :
    BetterK K Q A R n (p ++ y :: s) R n' (p ++ y' :: s) := by
  have h := swapK (K := K) (Q := Q) (mid := [y']) (τ := id) hp hle (by simp only [nodesOf, wfNodes, Bool.and_true]; exact hwf)
    (by simpa [nodesOf, namesNodes] using hnd) (by simpa [nodesOf, namesNodes] using hnames) (fun _ _ => rfl)
    (fun o ho => by
      obtain ⟨k, hk⟩ := List.mem_iff_getElem?.1 ho
      simp [nodesOf, Nodes.outs, List.mem_of_getElem? (hos k o hk)]) hK (fun sem hm hc F hF hKF k o ho => by
      simp only [nodesOf, evalNodes, id]
      rw [Cne.upd_get (nodup_outs hnd) (hos k o ho)]
      exact hv sem hm hc F hF hKF k (List.getElem?_eq_some_iff.1 ho).1)
  have e : s.map (Node.divert id) = s := by
    rw [List.map_congr_left (g := id) (fun x _ => Dne.Node.divert_id x), List.map_id]
  simpa [e] using h

/-- What is known of a region with additional arguments `List.range' n d`. -/
structure SubK (c : Callee) (bop : Op) (A : List Out) (fn' : Out) (n d n1 : Nat) (sub : Nodes) (R : List Out) (n' : Nat) (l : List Node)
    (R' : List Out) : Prop where
  le : n1 ≤ n'
  wf : wfNodes (A ++ List.range' n d) (nodesOf l) = true
  nodup : (A ++ List.range' n d ++ namesNodes (nodesOf l)).Nodup
  names : ∀ z : Nat, z ∈ namesNodes (nodesOf l) → z ∈ namesNodes sub ∨ n1 ≤ z ∧ z < n'
  res : ∀ r ∈ R', r ∈ A ++ List.range' n d ++ (nodesOf l).outs
  len : R.length = R'.length
  keep : ∀ (k : Nat) (o : Out), o ∈ A → R[k]? = some o → R'[k]? = some o
  fixed : ∀ {V : Type} (sem : Sem V) (e : Env V) (z : Out), z ∈ A ++ List.range' n d → evalNodes sem (nodesOf l) e z = e z
  eval : ∀ {V : Type} (sem : Sem V), sem.Mono → Q bop V sem → ∀ e e' : Env V, (∀ x, LeW (e x) (e' x)) →
    Knows c fn' (List.range' n d) V sem e' → LeLW (R.map (evalNodes sem sub e)) (R'.map (evalNodes sem (nodesOf l) e'))

theorem subK {c : Callee} {bop : Op} {A : List Out} {fn' : Out} {n d n1 : Nat} {sub : Nodes} {R : List Out} {n' : Nat} {l : List Node}
    {R' : List Out} (hn1 : n + d ≤ n1)
    (h : Pre (A ++ List.range' n d) R n1 sub.list → BetterK (Knows c fn' (List.range' n d)) (Q bop) (A ++ List.range' n d) R n1 sub.list R' n' l)
    (hw : wfNodes A sub = true) (hn : (A ++ namesNodes sub).Nodup) (hl : ∀ z : Nat, z ∈ A ++ namesNodes sub → z < n)
    (hr : ∀ r ∈ R, r ∈ A ++ sub.outs) : SubK c bop A fn' n d n1 sub R n' l R' := by
  have e1 : nodesOf sub.list = sub := nodesOf_list sub
  have hlt : ∀ z : Nat, z ∈ A ++ List.range' n d ++ namesNodes sub → z < n1 := by
    intro z hz
    simp only [List.mem_append, mem_range'] at hz
    rcases hz with (hz | hz) | hz
    · have := hl z (by simp [hz]); omega
    · omega
    · have := hl z (by simp [hz]); omega
  have hnd : (A ++ List.range' n d ++ namesNodes sub).Nodup := by
    rw [List.nodup_append] at hn ⊢
    rw [List.nodup_append]
    refine ⟨⟨hn.1, List.nodup_range', fun a ha b hb e => ?_⟩, hn.2.1, fun a ha b hb e => ?_⟩ <;> subst e
    · exact range'_notin (hl a (by simp [ha])) hb
    · rcases List.mem_append.1 ha with ha | ha
      · exact hn.2.2 a ha a hb rfl
      · exact range'_notin (hl a (by simp [hb])) ha
  have hp := Pull.sub_pre (n := n1) (R := R) (wf_mono (fun z hz => List.mem_append_left _ hz) hw) hnd hlt (fun r hr' => by
    have := hr r hr'
    simp only [List.mem_append] at this ⊢
    tauto)
  have hs := h hp
  have hp' := hs.pre hp
  have hnd' : (A ++ List.range' n d ++ namesNodes (nodesOf l)).Nodup := by
    rw [List.nodup_append] at hnd ⊢
    refine ⟨hnd.1, hs.nodup, fun a ha b hb e => ?_⟩
    subst e
    exact hp'.sep a ha hb
  refine ⟨hs.le, hs.wf, hnd', fun z hz => ?_, hs.res, hs.len, fun k o ho => hs.keep k o (List.mem_append_left _ ho), fun sem e z hz => ?_, fun sem hm hq => ?_⟩
  · have := hs.names z hz
    rwa [e1] at this
  · exact evalNodes_notin _ _ _ _ fun h' => hp'.sep z hz (outs_namesNodes _ _ h')
  · have := hs.eval sem hm hq
    rwa [e1] at this

/-- The environment of a region with additional arguments knows the function. -/
theorem knows_region {c : Callee} {sem : Sem V} {args : List Out} {fn' : Out} {n d k : Nat} {us pv : List (W V)} {v : V}
    (hk : args[k]? = some fn') (hna : args.Nodup) (hlt : ∀ z : Nat, z ∈ args → z < n) (hul : args.length = us.length) (hd : pv.length = d)
    (hv : us.getD k none = some (v, some (.lam (c.run sem pv)))) :
    Knows c fn' (List.range' n d) V sem (upd emptyEnv (args ++ List.range' n d) (us ++ pv)) := by
  refine ⟨v, ?_⟩
  have h1 : (List.range' n d).map (upd (emptyEnv : Env V) (args ++ List.range' n d) (us ++ pv)) = pv := by
    refine List.ext_getElem? fun j => ?_
    rw [List.getElem?_map]
    by_cases hj : j < d
    · have hj' : (List.range' n d)[j]? = some (n + j) := by rw [List.getElem?_range' hj]; simp
      rw [hj', Option.map_some, env_na hul List.nodup_range' (fun z hz => range'_notin (hlt z hz)) hj', List.getD_eq_getElem?_getD,
        List.getElem?_eq_getElem (by omega)]
      rfl
    · rw [List.getElem?_eq_none (by simp; omega), List.getElem?_eq_none (by omega)]
      rfl
  rw [h1, upd_append hul, Cne.upd_get hna hk, hv]

/-! ### theta -/

theorem theta_vals {c : Callee} {bop : Op} {sem : Sem V} (hm : sem.Mono) (hq : Q bop V sem) {ins args deps posts posts' : List Out}
    {pred pred' fn fn' : Out} {n n1 n' k : Nat} {sub : Nodes} {l : List Node} {F : Env V} (hF : ∀ x, LeW (F x) (F x))
    (hil : ins.length = args.length) (hpl : posts.length = args.length) (hlt : ∀ z : Nat, z ∈ args → z < n) (hna : args.Nodup)
    (h1 : ins[k]? = some fn) (h2 : args[k]? = some fn') (h3 : posts[k]? = some fn')
    (hS : SubK c bop args fn' n deps.length n1 sub (pred :: posts) n' l (pred' :: posts'))
    (hK : Knows c fn deps V sem F) :
    LeLW (loopVals sem (fun ws => (pred :: posts).map (evalNodes sem sub (upd emptyEnv args ws))) (ins.map F))
      (loopVals sem (fun ws => (pred' :: (posts' ++ List.range' n deps.length)).map
        (evalNodes sem (nodesOf l) (upd emptyEnv (args ++ List.range' n deps.length) ws))) (ins.map F ++ deps.map F)) := by
  obtain ⟨v, hv⟩ := hK
  set na := List.range' n deps.length with hnaE
  set pv := deps.map F with hpvE
  have hpl' : posts'.length = args.length := by have := hS.len; simp at this; omega
  have hpvself : LeLW pv pv := LeLW.map _ fun x _ => hF x
  have hinit : LeLW (ins.map F) (ins.map F) := LeLW.map _ fun x _ => hF x
  set f := fun ws : List (W V) => (pred :: posts).map (evalNodes sem sub (upd emptyEnv args ws)) with hf
  set f' := fun ws : List (W V) => (pred' :: (posts' ++ na)).map (evalNodes sem (nodesOf l) (upd emptyEnv (args ++ na) ws)) with hf'
  have had : ∀ z ∈ args, z ∉ na := fun z hz => range'_notin (hlt z hz)
  have h3' : posts'[k]? = some fn' := by
    have := hS.keep (k + 1) fn' (List.mem_of_getElem? h2) (by simpa using h3)
    simpa using this
  have hbody : ∀ (ws us : List (W V)), us.length = args.length → LeLW ws us →
      us.getD k none = some (v, some (.lam (c.run sem pv))) →
      LeLW ((pred :: posts).map (evalNodes sem sub (upd emptyEnv args ws)))
        ((pred' :: posts').map (evalNodes sem (nodesOf l) (upd emptyEnv (args ++ na) (us ++ pv)))) :=
    fun ws us hul hle huk => hS.eval sem hm hq _ _ (env_le hul.symm hle hpvself)
      (knows_region h2 hna hlt hul.symm (by simp [hpvE]) huk)
  have hstate : ∀ m : Nat, ∃ us : List (W V), loopState f' (ins.map F ++ pv) m = us ++ pv ∧ us.length = args.length ∧
      LeLW (loopState f (ins.map F) m) us ∧ us.getD k none = some (v, some (.lam (c.run sem pv))) := by
    intro m
    induction m with
    | zero => exact ⟨ins.map F, rfl, by simp [hil], hinit, by simp [List.getD_eq_getElem?_getD, h1, hv]⟩
    | succ m ih =>
      obtain ⟨us, i1, i2, i3, i4⟩ := ih
      refine ⟨posts'.map (evalNodes sem (nodesOf l) (upd emptyEnv (args ++ na) (us ++ pv))), ?_, by simp [hpl'], ?_, ?_⟩
      · simp only [loopState, i1]
        simp only [hf', List.map_cons, List.tail_cons, List.map_append]
        congr 1
        refine List.ext_getElem? fun j => ?_
        rw [List.getElem?_map]
        cases hj : na[j]? with
        | none =>
          rw [List.getElem?_eq_none_iff] at hj
          rw [List.getElem?_eq_none (by simpa [hnaE, hpvE] using hj)]
          rfl
        | some z =>
          have hj' : j < pv.length := by
            have := (List.getElem?_eq_some_iff.1 hj).1
            simpa [hnaE, hpvE] using this
          simp only [Option.map_some]
          rw [hS.fixed sem _ z (List.mem_append_right _ (List.mem_of_getElem? hj)), env_na i2.symm List.nodup_range' had hj]
          simp [List.getD_eq_getElem?_getD, List.getElem?_eq_getElem hj']
      · simp only [loopState, hf, List.map_cons, List.tail_cons]
        exact (hbody _ us i2 i3 i4).tail
      · simp only [List.getD_eq_getElem?_getD, List.getElem?_map, h3', Option.map_some, Option.getD_some]
        rw [hS.fixed sem _ fn' (List.mem_append_left _ (List.mem_of_getElem? h2)), upd_append i2.symm, Cne.upd_get hna h2, i4]
  have hself : ∀ ws ws' : List (W V), LeLW ws ws' → LeLW (f' ws) (f' ws') := fun ws ws' h =>
    LeLW.map _ fun x _ => evalNodes_mono' hm (nodesOf l) (upd_le' emptyEnv_le _ h) x
  rcases loopVals_exit' (sem := sem) (f := f) (init := ins.map F) with ⟨m, hx, h⟩ | ⟨_, h⟩
  · have hx2 : loopExits sem f' (ins.map F ++ pv) m := by
      refine loopExits_le (fun m _ => ?_) hx
      obtain ⟨us, i1, i2, i3, i4⟩ := hstate m
      rw [i1]
      have := (hbody _ us i2 i3 i4).head
      simpa only [hf, hf', List.map_cons, List.headD_cons] using this
    rw [h, loopVals_at hx2]
    obtain ⟨us, i1, i2, i3, i4⟩ := hstate (m + 1)
    have hpp := loopState_le hself (self_append hinit hpvself) (m + 1)
    rw [i1] at hpp ⊢
    intro j
    by_cases hj : j < us.length
    · have : (us ++ pv).getD j none = us.getD j none := by
        simp [List.getD_eq_getElem?_getD, List.getElem?_append_left hj]
      rw [this]; exact i3 j
    · have h4 : (loopState f (ins.map F) (m + 1)).getD j none = none := by
        rw [List.getD_eq_getElem?_getD, List.getElem?_eq_none]
        · rfl
        · simp only [loopState, hf, List.map_cons, List.tail_cons, List.length_map]
          omega
      rw [h4]
      exact LeW.none_le (hpp j)
  · rw [h]
    exact LeLW.nil_le (loopVals_ok hself (self_append hinit hpvself))

theorem theta_better {c : Callee} {bop : Op} {A R ins outs args posts posts' deps : List Out} {pred pred' fn fn' : Out} {n n' k : Nat}
    {sub : Nodes} {p s l : List Node} (h1 : ins[k]? = some fn) (h2 : args[k]? = some fn') (h3 : posts[k]? = some fn')
    (hp : Pre A R n (p ++ .theta ins outs args pred posts sub :: s)) (hfn : fn ∈ A) (hda : ∀ d ∈ deps, d ∈ A)
    (ih : Pre (args ++ List.range' n deps.length) (pred :: posts) (n + deps.length + deps.length) sub.list →
      BetterK (Knows c fn' (List.range' n deps.length)) (Q bop) (args ++ List.range' n deps.length) (pred :: posts)
        (n + deps.length + deps.length) sub.list (pred' :: posts') n' l) :
    BetterK (Knows c fn deps) (Q bop) A R n (p ++ .theta ins outs args pred posts sub :: s) R n'
      (p ++ .theta (ins ++ deps) (outs ++ List.range' (n + deps.length) deps.length) (args ++ List.range' n deps.length) pred'
        (posts' ++ List.range' n deps.length) (nodesOf l) :: s) := by
  have hw := hp.wf
  have hl := hp.lt
  have hn := hp.nodup
  rw [wf_append] at hw
  simp only [nodesOf, wfNodes, Bool.and_eq_true, wfNode, mem_subset, beq_iff_eq] at hw
  obtain ⟨hwp, ⟨⟨⟨⟨⟨hins, hil⟩, hal⟩, hpl⟩, hws⟩, hres⟩, _⟩ := hw
  simp only [names_append, nodesOf, namesNodes, namesNode, List.mem_append] at hl hn
  have hn' : (outs ++ args ++ namesNodes sub).Nodup :=
    hn.sublist ((List.sublist_append_left _ _).trans (List.sublist_append_right _ _))
  rw [List.append_assoc, List.nodup_append] at hn'
  obtain ⟨hno, hnas, hdo⟩ := hn'
  obtain ⟨hna, hnsub, hdas⟩ := List.nodup_append.1 hnas
  have hla : ∀ z : Nat, z ∈ args → z < n := fun z hz => hl z (.inr (.inl (.inl (.inr hz))))
  have hlo : ∀ z : Nat, z ∈ outs → z < n := fun z hz => hl z (.inr (.inl (.inl (.inl hz))))
  have hS := subK (by omega) ih hws hnas (fun z hz => hl z (by rw [List.mem_append] at hz; tauto)) hres
  have hle := hS.le
  have hsepA : ∀ o ∈ A, o ∉ (nodesOf p).outs := fun o ho h => hp.sep o ho (by
    rw [names_append]; exact List.mem_append_left _ (outs_namesNodes _ _ h))
  have hpl' : posts'.length = outs.length := by have := hS.len; simp at this; omega
  have hSn := List.nodup_append.1 hS.nodup
  refine swap_out hp (by omega) ?_ ?_ (fun z hz => ?_) (fun j o ho => ?_)
    (fun sem e h => knows_congr h (evalNodes_notin _ _ _ _ (hsepA fn hfn)) (fun d hd => evalNodes_notin _ _ _ _ (hsepA d (hda d hd))))
    (fun sem hm hq F hF hK j hj => ?_)
  · simp only [wfNode, Bool.and_eq_true, mem_subset, beq_iff_eq, List.length_append, List.length_range']
    refine ⟨⟨⟨⟨⟨fun o ho => ?_, by omega⟩, by omega⟩, by omega⟩, hS.wf⟩, fun r hr => ?_⟩
    · rcases List.mem_append.1 ho with ho | ho
      · exact hins o ho
      · exact List.mem_append_right _ (hda o ho)
    · rcases List.mem_cons.1 hr with rfl | hr
      · exact hS.res _ (by simp)
      · rcases List.mem_append.1 hr with hr | hr
        · exact hS.res r (by simp [hr])
        · simp [hr]
  · simp only [namesNode]
    rw [List.append_assoc, List.nodup_append]
    refine ⟨?_, hS.nodup, fun a ha b hb e => ?_⟩
    · rw [List.nodup_append]
      refine ⟨hno, List.nodup_range', fun a ha b hb e => ?_⟩
      subst e
      exact range'_notin (Nat.lt_of_lt_of_le (hlo a ha) (Nat.le_add_right _ _)) hb
    · subst e
      simp only [List.mem_append, mem_range'] at ha hb
      rcases ha with ha | ha
      · rcases hb with (hb | hb) | hb
        · exact hdo a ha a (by simp [hb]) rfl
        · have := hlo a ha; omega
        · rcases hS.names a hb with h | h
          · exact hdo a ha a (by simp [h]) rfl
          · have := hlo a ha; omega
      · rcases hb with (hb | hb) | hb
        · have := hla a hb; omega
        · omega
        · rcases hS.names a hb with h | h
          · have h' : (a : Nat) < n := hl a (by tauto)
            exact absurd (Nat.lt_of_lt_of_le h' (Nat.le_trans (Nat.le_add_right _ _) ha.1)) (Nat.lt_irrefl _)
          · omega
  · simp only [namesNode, List.mem_append, mem_range'] at hz ⊢
    rcases hz with ((hz | hz) | hz | hz) | hz
    · tauto
    · right; omega
    · tauto
    · right; omega
    · rcases hS.names z hz with h | h
      · tauto
      · right; omega
  · simp only [Node.outs] at ho ⊢
    rw [List.getElem?_append_left (List.getElem?_eq_some_iff.1 ho).1]; exact ho
  · rw [nodeVals, nodeVals, List.map_append]
    exact theta_vals hm hq hF (by omega) (by omega) hla hna h1 h2 h3 hS hK j

/-! ### lambda and phi -/

/-- Additional context variables. -/
theorem ctx_env {A na args ps : List Out} {F : Env V} {ins deps : List Out} (hil : ins.length = args.length) (hF : ∀ x, LeW (F x) (F x))
    {ws us : List (W V)} (h : LeLW ws us) (z : Out) :
    LeW (upd (upd (emptyEnv : Env V) args (ins.map F)) ps ws z) (upd (upd emptyEnv (args ++ na) (ins.map F ++ deps.map F)) ps us z) :=
  upd_le' (fun z => env_le (by simp [hil]) (LeLW.map _ fun x _ => hF x) (LeLW.map _ fun x _ => hF x) z) ps h z

theorem ctx_knows {c : Callee} {sem : Sem V} {args ps ins deps : List Out} {fn fn' : Out} {n k : Nat} {F : Env V} (us : List (W V))
    (h1 : ins[k]? = some fn) (h2 : args[k]? = some fn') (hil : ins.length = args.length) (hna : args.Nodup)
    (hlt : ∀ z : Nat, z ∈ args → z < n) (hps : ∀ z ∈ ps, z ∉ args) (hlp : ∀ z : Nat, z ∈ ps → z < n) (hK : Knows c fn deps V sem F) :
    Knows c fn' (List.range' n deps.length) V sem
      (upd (upd emptyEnv (args ++ List.range' n deps.length) (ins.map F ++ deps.map F)) ps us) := by
  obtain ⟨v, hv⟩ := hK
  have := knows_region (c := c) (sem := sem) (n := n) (d := deps.length) (us := ins.map F) (pv := deps.map F) (v := v) h2 hna hlt
    (by simp [hil]) (by simp) (by simp [List.getD_eq_getElem?_getD, h1, hv])
  refine knows_congr this (upd_notin _ _ _ _ fun h => hps _ h (List.mem_of_getElem? h2)) fun d hd => upd_notin _ _ _ _ fun h => ?_
  exact range'_notin (hlp d h) hd

theorem lambda_better {c : Callee} {bop : Op} {A R ins args params rs rs' deps : List Out} {out fn fn' : Out} {n n' k : Nat}
    {sub : Nodes} {p s l : List Node} (h1 : ins[k]? = some fn) (h2 : args[k]? = some fn')
    (hp : Pre A R n (p ++ .lambda ins args params rs out sub :: s)) (hfn : fn ∈ A) (hda : ∀ d ∈ deps, d ∈ A)
    (ih : Pre (params ++ args ++ List.range' n deps.length) rs (n + deps.length) sub.list →
      BetterK (Knows c fn' (List.range' n deps.length)) (Q bop) (params ++ args ++ List.range' n deps.length) rs
        (n + deps.length) sub.list rs' n' l) :
    BetterK (Knows c fn deps) (Q bop) A R n (p ++ .lambda ins args params rs out sub :: s) R n'
      (p ++ .lambda (ins ++ deps) (args ++ List.range' n deps.length) params rs' out (nodesOf l) :: s) := by
  have hw := hp.wf
  have hl := hp.lt
  have hn := hp.nodup
  rw [wf_append] at hw
  simp only [nodesOf, wfNodes, Bool.and_eq_true, wfNode, mem_subset, beq_iff_eq] at hw
  obtain ⟨hwp, ⟨⟨⟨hins, hil⟩, hws⟩, hres⟩, _⟩ := hw
  simp only [names_append, nodesOf, namesNodes, namesNode, List.mem_append, List.mem_cons] at hl hn
  have hn' : (out :: params ++ args ++ namesNodes sub).Nodup :=
    hn.sublist ((List.sublist_append_left _ _).trans (List.sublist_append_right _ _))
  simp only [List.cons_append] at hn'
  rw [List.nodup_cons] at hn'
  obtain ⟨hno, hnas⟩ := hn'
  have hnas' := List.nodup_append.1 (List.nodup_append.1 hnas).1
  have hla : ∀ z : Nat, z ∈ args → z < n := fun z hz => hl z (by tauto)
  have hlp : ∀ z : Nat, z ∈ params → z < n := fun z hz => hl z (by tauto)
  have hlo : (out : Nat) < n := hl out (by tauto)
  have hS := subK (Nat.le_refl _) ih hws hnas (fun z hz => hl z (by simp only [List.mem_append] at hz; tauto)) hres
  have hle := hS.le
  have hsepA : ∀ o ∈ A, o ∉ (nodesOf p).outs := fun o ho h => hp.sep o ho (by
    rw [names_append]; exact List.mem_append_left _ (outs_namesNodes _ _ h))
  refine swap_out hp (by omega) ?_ ?_ (fun z hz => ?_) (fun j o ho => ho)
    (fun sem e h => knows_congr h (evalNodes_notin _ _ _ _ (hsepA fn hfn)) (fun d hd => evalNodes_notin _ _ _ _ (hsepA d (hda d hd))))
    (fun sem hm hq F hF hK j hj => ?_)
  · simp only [wfNode, Bool.and_eq_true, mem_subset, beq_iff_eq, List.length_append, List.length_range']
    refine ⟨⟨⟨fun o ho => ?_, by omega⟩, by rw [← List.append_assoc]; exact hS.wf⟩, fun r hr => by rw [← List.append_assoc params]; exact hS.res r hr⟩
    rcases List.mem_append.1 ho with ho | ho
    · exact hins o ho
    · exact List.mem_append_right _ (hda o ho)
  · simp only [namesNode]
    simp only [List.cons_append]
    rw [List.nodup_cons, ← List.append_assoc params]
    refine ⟨fun hb => ?_, hS.nodup⟩
    simp only [List.mem_append, mem_range'] at hb hno
    rcases hb with ((hb | hb) | hb) | hb
    · tauto
    · tauto
    · exact absurd (Nat.lt_of_lt_of_le hlo hb.1) (Nat.lt_irrefl _)
    · rcases hS.names out hb with h | h
      · tauto
      · exact absurd (Nat.lt_of_lt_of_le hlo (Nat.le_trans (Nat.le_add_right _ _) h.1)) (Nat.lt_irrefl _)
  · simp only [namesNode, List.mem_append, List.mem_cons, List.cons_append, mem_range'] at hz ⊢
    rcases hz with hz | (hz | hz | hz) | hz
    · tauto
    · tauto
    · tauto
    · right; omega
    · rcases hS.names z hz with h | h
      · tauto
      · right; omega
  · have hm0 : LeLW (ins.map F) (ins.map F) := LeLW.map _ fun x _ => hF x
    have hm1 : LeLW (deps.map F) (deps.map F) := LeLW.map _ fun x _ => hF x
    have key : LeLW (nodeVals sem (.lambda ins args params rs out sub) F)
        (nodeVals sem (.lambda (ins ++ deps) (args ++ List.range' n deps.length) params rs' out (nodesOf l)) F) := by
      rw [nodeVals, nodeVals, List.map_append]
      refine LeLW.cons ⟨rfl, ?_, ?_, ?_⟩ LeLW.nil
      · intro xs ys hxy
        exact plain_le ((SubLe.refl hm sub rs).2 _ _ (upd_le' (upd_le' emptyEnv_le _ hm0) _ (lift_le hxy)))
      · intro xs ys hxy
        exact plain_le ((SubLe.refl hm (nodesOf l) rs').2 _ _ (upd_le' (upd_le' emptyEnv_le _ (self_append hm0 hm1)) _ (lift_le hxy)))
      · intro xs
        exact plain_le (hS.eval sem hm hq _ _ (ctx_env (A := A) hil hF (lift_le (LeL.refl xs)))
          (ctx_knows _ h1 h2 hil hnas'.2.1 hla (fun z hz h => hnas'.2.2 z hz z h rfl) hlp hK))
    exact key j

theorem phi_better {c : Callee} {bop : Op} {A R ins args recs rs rs' outs deps : List Out} {fn fn' : Out} {n n' k : Nat}
    {sub : Nodes} {p s l : List Node} (h1 : ins[k]? = some fn) (h2 : args[k]? = some fn')
    (hp : Pre A R n (p ++ .phi ins args recs rs outs sub :: s)) (hfn : fn ∈ A) (hda : ∀ d ∈ deps, d ∈ A)
    (ih : Pre (recs ++ args ++ List.range' n deps.length) rs (n + deps.length) sub.list →
      BetterK (Knows c fn' (List.range' n deps.length)) (Q bop) (recs ++ args ++ List.range' n deps.length) rs
        (n + deps.length) sub.list rs' n' l) :
    BetterK (Knows c fn deps) (Q bop) A R n (p ++ .phi ins args recs rs outs sub :: s) R n'
      (p ++ .phi (ins ++ deps) (args ++ List.range' n deps.length) recs rs' outs (nodesOf l) :: s) := by
  have hw := hp.wf
  have hl := hp.lt
  have hn := hp.nodup
  rw [wf_append] at hw
  simp only [nodesOf, wfNodes, Bool.and_eq_true, wfNode, mem_subset, beq_iff_eq] at hw
  obtain ⟨hwp, ⟨⟨⟨⟨⟨hins, hil⟩, hrl⟩, hsl⟩, hws⟩, hres⟩, _⟩ := hw
  simp only [names_append, nodesOf, namesNodes, namesNode, List.mem_append] at hl hn
  have hn' : (outs ++ recs ++ args ++ namesNodes sub).Nodup :=
    hn.sublist ((List.sublist_append_left _ _).trans (List.sublist_append_right _ _))
  rw [List.append_assoc, List.append_assoc, List.nodup_append, ← List.append_assoc] at hn'
  obtain ⟨hno, hnas, hdo⟩ := hn'
  have hnas' := List.nodup_append.1 (List.nodup_append.1 hnas).1
  have hla : ∀ z : Nat, z ∈ args → z < n := fun z hz => hl z (by tauto)
  have hlp : ∀ z : Nat, z ∈ recs → z < n := fun z hz => hl z (by tauto)
  have hlo : ∀ z : Nat, z ∈ outs → z < n := fun z hz => hl z (by tauto)
  have hS := subK (Nat.le_refl _) ih hws hnas (fun z hz => hl z (by simp only [List.mem_append] at hz; tauto)) hres
  have hle := hS.le
  have hlen := hS.len
  have hsepA : ∀ o ∈ A, o ∉ (nodesOf p).outs := fun o ho h => hp.sep o ho (by
    rw [names_append]; exact List.mem_append_left _ (outs_namesNodes _ _ h))
  refine swap_out hp (by omega) ?_ ?_ (fun z hz => ?_) (fun j o ho => ho)
    (fun sem e h => knows_congr h (evalNodes_notin _ _ _ _ (hsepA fn hfn)) (fun d hd => evalNodes_notin _ _ _ _ (hsepA d (hda d hd))))
    (fun sem hm hq F hF hK j hj => ?_)
  · simp only [wfNode, Bool.and_eq_true, mem_subset, beq_iff_eq, List.length_append, List.length_range']
    refine ⟨⟨⟨⟨⟨fun o ho => ?_, by omega⟩, hrl⟩, by omega⟩, by rw [← List.append_assoc]; exact hS.wf⟩,
      fun r hr => by rw [← List.append_assoc recs]; exact hS.res r hr⟩
    rcases List.mem_append.1 ho with ho | ho
    · exact hins o ho
    · exact List.mem_append_right _ (hda o ho)
  · simp only [namesNode]
    rw [List.append_assoc, List.append_assoc, List.nodup_append, ← List.append_assoc recs, ← List.append_assoc recs]
    refine ⟨hno, hS.nodup, fun a ha b hb e => ?_⟩
    subst e
    have h4 := hlo a ha
    simp only [List.mem_append, mem_range'] at hb hdo
    rcases hb with ((hb | hb) | hb) | hb
    · exact hdo a ha a (by tauto) rfl
    · exact hdo a ha a (by tauto) rfl
    · have := hb.1; omega
    · rcases hS.names a hb with h | h
      · exact hdo a ha a (by tauto) rfl
      · omega
  · simp only [namesNode, List.mem_append, mem_range'] at hz ⊢
    rcases hz with ((hz | hz) | hz | hz) | hz
    · tauto
    · tauto
    · tauto
    · right; omega
    · rcases hS.names z hz with h | h
      · tauto
      · right; omega
  · rw [nodeVals, nodeVals, List.map_append]
    exact phiVals_le outs (fun _ _ => by simp [hlen]) (fun ws ws' hw => hS.eval sem hm hq _ _ (ctx_env (A := A) hil hF hw)
        (ctx_knows _ h1 h2 hil hnas'.2.1 hla (fun z hz h => hnas'.2.2 z hz z h rfl) hlp hK)) _ j

/-! ### gamma -/

/-- The branches of a gamma node with `d` additional entry variables. -/
structure SubsK (c : Callee) (bop : Op) (k d na nr : Nat) (n : Nat) (subs : Regions) (n' : Nat) (subs' : Regions) : Prop where
  le : n ≤ n'
  nodup : (namesRegions subs').Nodup
  names : ∀ z : Nat, z ∈ namesRegions subs' → z ∈ namesRegions subs ∨ n ≤ z ∧ z < n'
  wf : wfRegions (na + d) nr subs' = true
  eval : ∀ {V : Type} (sem : Sem V), sem.Mono → Q bop V sem → ∀ (b : Nat) (ws pv : List (W V)) (v : V), ws.length = na → pv.length = d →
    LeLW ws ws → LeLW pv pv → ws.getD (k + 1) none = some (v, some (.lam (c.run sem pv))) →
    LeLW (regionVals sem subs b ws) (regionVals sem subs' b (ws ++ pv))

theorem subsK_here {c : Callee} {bop : Op} {k d na nr n n' : Nat} {fn' : Out} {args results results' : List Out} {sub : Nodes} {rest : Regions}
    {l : List Node} (hk : args[k + 1]? = some fn')
    (ih : Pre (args ++ List.range' n d) results (n + d) sub.list →
      BetterK (Knows c fn' (List.range' n d)) (Q bop) (args ++ List.range' n d) results (n + d) sub.list results' n' l)
    (hw : wfRegions na nr (.cons args results sub rest) = true) (hn : (namesRegions (.cons args results sub rest)).Nodup)
    (hl : ∀ z : Nat, z ∈ namesRegions (.cons args results sub rest) → z < n) :
    SubsK c bop k d na nr n (.cons args results sub rest) (n' + branches rest * d)
      (.cons (args ++ List.range' n d) results' (nodesOf l) (addEntryVars d rest n')) := by
  simp only [wfRegions, Bool.and_eq_true, mem_subset, beq_iff_eq] at hw
  obtain ⟨⟨⟨⟨hl1, hl2⟩, hw1⟩, hsub⟩, hrest⟩ := hw
  rw [namesRegions, List.nodup_append] at hn
  simp only [namesRegions, List.mem_append] at hl hn
  obtain ⟨hn1, hn2, hn3⟩ := hn
  have hS := subK (Nat.le_refl _) ih hw1 hn1 (fun z hz => hl z (by rw [List.mem_append] at hz; tauto)) hsub
  have hle := hS.le
  have hR := addEntryVars_spec (k := d) rest (n := n') hrest hn2 (fun z hz => by have := hl z (.inr hz); omega)
  have hna := (List.nodup_append.1 hn1).1
  refine ⟨by omega, ?_, fun z hz => ?_, ?_, fun sem hm hq b ws pv v hws hpv h1 h2 hv => ?_⟩
  · simp only [namesRegions]
    rw [List.nodup_append]
    refine ⟨hS.nodup, hR.nodup, fun (a : Nat) ha b hb e => ?_⟩
    subst e
    simp only [List.mem_append, mem_range'] at ha
    have hcl : (a ∈ args ∨ a ∈ namesNodes sub) ∨ n ≤ a ∧ a < n' := by
      rcases ha with (ha | ha) | ha
      · exact .inl (.inl ha)
      · right; omega
      · rcases hS.names a ha with h | h
        · exact .inl (.inr h)
        · right; omega
    rcases hcl with h | h <;> rcases hR.names a hb with h' | h'
    · exact hn3 a h a h' rfl
    · have := hl a (.inl h); omega
    · have := hl a (.inr h'); omega
    · omega
  · simp only [namesRegions, List.mem_append, mem_range'] at hz ⊢
    rcases hz with ((hz | hz) | hz) | hz
    · exact .inl (.inl (.inl hz))
    · right; omega
    · rcases hS.names z hz with h | h
      · exact .inl (.inl (.inr h))
      · right; omega
    · rcases hR.names z hz with h | h
      · exact .inl (.inr h)
      · right; omega
  · simp only [wfRegions, Bool.and_eq_true, mem_subset, beq_iff_eq]
    exact ⟨⟨⟨⟨by simp [hl1], by rw [← hS.len]; exact hl2⟩, hS.wf⟩, hS.res⟩, hR.wf⟩
  · cases b with
    | zero =>
      simp only [regionVals]
      exact hS.eval sem hm hq _ _ (env_le (by rw [hl1, hws]) h1 h2)
        (knows_region hk hna (fun z hz => hl z (.inl (.inl hz))) (by rw [hl1, hws]) hpv hv)
    | succ b => simpa only [regionVals] using hR.eval sem hm b ws pv hws hpv h1 h2 trivial

theorem subsK_there {c : Callee} {bop : Op} {k d na nr n n' : Nat} {args results : List Out} {sub : Nodes} {rest rest' : Regions}
    (ih : wfRegions na nr rest = true → (namesRegions rest).Nodup → (∀ z : Nat, z ∈ namesRegions rest → z < n + d) →
      SubsK c bop k d na nr (n + d) rest n' rest')
    (hw : wfRegions na nr (.cons args results sub rest) = true) (hn : (namesRegions (.cons args results sub rest)).Nodup)
    (hl : ∀ z : Nat, z ∈ namesRegions (.cons args results sub rest) → z < n) :
    SubsK c bop k d na nr n (.cons args results sub rest) n' (.cons (args ++ List.range' n d) results sub rest') := by
  simp only [wfRegions, Bool.and_eq_true, mem_subset, beq_iff_eq] at hw
  obtain ⟨⟨⟨⟨hl1, hl2⟩, hw1⟩, hsub⟩, hrest⟩ := hw
  rw [namesRegions, List.nodup_append] at hn
  simp only [namesRegions, List.mem_append] at hl hn
  obtain ⟨hn1, hn2, hn3⟩ := hn
  rw [List.nodup_append] at hn1
  obtain ⟨hna, hns, hnas⟩ := hn1
  have hR := ih hrest hn2 (fun z hz => by have := hl z (.inr hz); omega)
  have hle := hR.le
  refine ⟨by omega, ?_, fun z hz => ?_, ?_, fun sem hm hq b ws pv v hws hpv h1 h2 hv => ?_⟩
  · simp only [namesRegions]
    rw [List.nodup_append, List.nodup_append, List.nodup_append]
    refine ⟨⟨⟨hna, List.nodup_range', fun a ha b hb e => ?_⟩, hns, fun a ha b hb e => ?_⟩, hR.nodup,
      fun (a : Nat) ha b hb e => ?_⟩ <;> subst e
    · exact range'_notin (hl a (by tauto)) hb
    · rcases List.mem_append.1 ha with ha | ha
      · exact hnas a ha a hb rfl
      · exact range'_notin (hl a (by tauto)) ha
    · simp only [List.mem_append, mem_range'] at ha
      have hcl : (a ∈ args ∨ a ∈ namesNodes sub) ∨ n ≤ a ∧ a < n + d := by tauto
      rcases hcl with h | h <;> rcases hR.names a hb with h' | h'
      · exact hn3 a h a h' rfl
      · have := hl a (.inl h); omega
      · have := hl a (.inr h'); omega
      · omega
  · simp only [namesRegions, List.mem_append, mem_range'] at hz ⊢
    rcases hz with ((hz | hz) | hz) | hz
    · exact .inl (.inl (.inl hz))
    · right; omega
    · exact .inl (.inl (.inr hz))
    · rcases hR.names z hz with h | h
      · exact .inl (.inr h)
      · right; omega
  · simp only [wfRegions, Bool.and_eq_true, mem_subset, beq_iff_eq]
    refine ⟨⟨⟨⟨by simp [hl1], hl2⟩, wf_mono (fun z hz => List.mem_append_left _ hz) hw1⟩, fun r hr => ?_⟩, hR.wf⟩
    have := hsub r hr
    simp only [List.mem_append] at this ⊢
    tauto
  · cases b with
    | zero =>
      simp only [regionVals]
      exact keep_branch hl1 sem hm ws pv hws h1 h2
    | succ b => simpa only [regionVals] using hR.eval sem hm hq b ws pv v hws hpv h1 h2 hv

theorem gamma_better {c : Callee} {bop : Op} {A R ins outs deps : List Out} {pred fn : Out} {n n' k : Nat}
    {subs subs' : Regions} {p s : List Node} (h1 : ins[k]? = some fn)
    (hp : Pre A R n (p ++ .gamma pred ins outs subs :: s)) (hfn : fn ∈ A) (hda : ∀ d ∈ deps, d ∈ A)
    (ih : wfRegions (ins.length + 1) outs.length subs = true → (namesRegions subs).Nodup → (∀ z : Nat, z ∈ namesRegions subs → z < n) →
      SubsK c bop k deps.length (ins.length + 1) outs.length n subs n' subs') :
    BetterK (Knows c fn deps) (Q bop) A R n (p ++ .gamma pred ins outs subs :: s) R n'
      (p ++ .gamma pred (ins ++ deps) outs subs' :: s) := by
  have hw := hp.wf
  have hl := hp.lt
  have hn := hp.nodup
  rw [wf_append] at hw
  simp only [nodesOf, wfNodes, Bool.and_eq_true, wfNode, mem_subset, beq_iff_eq] at hw
  obtain ⟨hwp, ⟨hins, hws⟩, _⟩ := hw
  simp only [names_append, nodesOf, namesNodes, namesNode, List.mem_append] at hl hn
  have hn' : (outs ++ namesRegions subs).Nodup :=
    hn.sublist ((List.sublist_append_left _ _).trans (List.sublist_append_right _ _))
  rw [List.nodup_append] at hn'
  obtain ⟨hno, hnsub, hdo⟩ := hn'
  have hS := ih hws hnsub (fun z hz => hl z (by tauto))
  have hlo : ∀ z : Nat, z ∈ outs → z < n := fun z hz => hl z (by tauto)
  have hsepA : ∀ o ∈ A, o ∉ (nodesOf p).outs := fun o ho h => hp.sep o ho (by
    rw [names_append]; exact List.mem_append_left _ (outs_namesNodes _ _ h))
  refine swap_out hp hS.le ?_ ?_ (fun z hz => ?_) (fun j o ho => ho)
    (fun sem e h => knows_congr h (evalNodes_notin _ _ _ _ (hsepA fn hfn)) (fun d hd => evalNodes_notin _ _ _ _ (hsepA d (hda d hd))))
    (fun sem hm hq F hF hK j hj => ?_)
  · simp only [wfNode, Bool.and_eq_true, mem_subset]
    refine ⟨fun o ho => ?_, ?_⟩
    · rcases List.mem_cons.1 ho with rfl | ho
      · exact hins _ (by simp)
      · rcases List.mem_append.1 ho with ho | ho
        · exact hins o (List.mem_cons_of_mem _ ho)
        · exact List.mem_append_right _ (hda o ho)
    · have := hS.wf
      rw [List.length_append, Nat.add_right_comm]
      exact this
  · rw [namesNode, List.nodup_append]
    refine ⟨hno, hS.nodup, fun a ha b hb e => ?_⟩
    subst e
    rcases hS.names a hb with h | h
    · exact hdo a ha a h rfl
    · have := hlo a ha; omega
  · simp only [namesNode, List.mem_append] at hz ⊢
    rcases hz with hz | hz
    · tauto
    · rcases hS.names z hz with h | h
      · tauto
      · exact .inr h
  · rw [nodeVals, nodeVals]
    cases hpr : F pred with
    | none => simp only [List.getD_nil]; exact trivial
    | some q =>
      obtain ⟨v, hv⟩ := hK
      simp only
      rw [List.map_append, ← List.cons_append]
      refine hS.eval sem hm hq _ _ _ v (by simp) (by simp) (LeLW.cons (by simp [LeW, LeOF]) (LeLW.map _ fun x _ => hF x))
        (LeLW.map _ fun x _ => hF x) ?_ j
      simp [List.getD_eq_getElem?_getD, h1, hv]

/-! ## the pass -/

theorem into_better {c : Callee} {bop : Op} {fty : Out → Bool} (hc : c.Good fty) (hb : bop.kind ≠ .load) {fn : Out} {deps : List Out}
    {n n' : Nat} {l l' : List Node} {R R' : List Out} (h : Into c bop fty fn deps n l R n' l' R') :
    ∀ {A : List Out}, Pre A R n l → fn ∈ A → (∀ d ∈ deps, d ∈ A) → deps.length = c.args.length →
      BetterK (Knows c fn deps) (Q bop) A R n l R' n' l' := by
  refine Into.rec
    (motive_1 := fun fn deps n l R n' l' R' _ => ∀ {A : List Out}, Pre A R n l → fn ∈ A → (∀ d ∈ deps, d ∈ A) →
      deps.length = c.args.length → BetterK (Knows c fn deps) (Q bop) A R n l R' n' l')
    (motive_2 := fun k d n subs n' subs' _ => ∀ {na nr : Nat}, d = c.args.length → wfRegions na nr subs = true → (namesRegions subs).Nodup →
      (∀ z : Nat, z ∈ namesRegions subs → z < n) → SubsK c bop k d na nr n subs n' subs')
    ?_ ?_ ?_ ?_ ?_ ?_ ?_ h
  · intro fn deps xs outs rs R n n' op p s mid h1 h2 h3 h4 h5 A hp hfn hda hdl
    exact call_better hc hb h1 h2 h3 h4 h5 hp hfn hda hdl
  · intro fn fn' pred pred' deps ins outs args posts posts' R n n' k sub p s l h1 h2 h3 _ ih A hp hfn hda hdl
    exact theta_better h1 h2 h3 hp hfn hda fun hp' => ih hp' (by simp [List.mem_of_getElem? h2]) (by simp +contextual) (by simp [hdl])
  · intro fn pred deps ins outs R n n' k subs subs' p s h1 _ ih A hp hfn hda hdl
    exact gamma_better h1 hp hfn hda fun hw hn hl => ih hdl hw hn hl
  · intro fn fn' out deps ins args params rs rs' R n n' k sub p s l h1 h2 _ ih A hp hfn hda hdl
    exact lambda_better h1 h2 hp hfn hda fun hp' => ih hp' (by simp [List.mem_of_getElem? h2]) (by simp +contextual) (by simp [hdl])
  · intro fn fn' deps ins args recs rs rs' outs R n n' k sub p s l h1 h2 _ ih A hp hfn hda hdl
    exact phi_better h1 h2 hp hfn hda fun hp' => ih hp' (by simp [List.mem_of_getElem? h2]) (by simp +contextual) (by simp [hdl])
  · intro fn' args results results' k d n n' sub rest l h1 _ ih na nr hd hw hn hl
    exact subsK_here h1 (fun hp' => ih hp' (by simp [List.mem_of_getElem? h1]) (by simp +contextual) (by simp [hd])) hw hn hl
  · intro args results k d n n' sub rest rest' _ ih na nr hd hw hn hl
    exact subsK_there (fun hw hn hl => ih hd hw hn hl) hw hn hl

/-- The nodes `q` stay, those after them are replaced. -/
theorem suffix_better {K : ∀ V : Type, Sem V → Env V → Prop} {Q : ∀ V : Type, Sem V → Prop} {A R R' : List Out} {n n' : Nat} {q s s' : List Node}
    (hp : Pre A R n (q ++ s)) (h : Pre ((nodesOf q).outs ++ A) R n s → BetterK K Q ((nodesOf q).outs ++ A) R n s R' n' s')
    (hK : ∀ {V : Type} (sem : Sem V) (e : Env V), K V sem (evalNodes sem (nodesOf q) e)) :
    Better Q A R n (q ++ s) R' n' (q ++ s') := by
  have hw := hp.wf
  have hl := hp.lt
  have hn := hp.nodup
  have hres := hp.res
  have hsep := hp.sep
  rw [wf_append] at hw
  simp only [names_append, List.mem_append, outs_append] at hl hn hres hsep
  rw [List.nodup_append] at hn
  have hp0 : Pre ((nodesOf q).outs ++ A) R n s := by
    refine ⟨hw.2, hn.2.1, fun o ho h' => ?_, fun z hz => ?_, fun z hz => hl z (.inr hz), fun r hr => ?_⟩
    · rcases List.mem_append.1 ho with ho | ho
      · exact hn.2.2 o (outs_namesNodes _ _ ho) o h' rfl
      · exact hsep o ho (.inr h')
    · rcases List.mem_append.1 hz with hz | hz
      · exact hl z (.inl (outs_namesNodes _ _ hz))
      · exact hp.ltA z hz
    · have := hres r hr
      simp only [List.mem_append]
      tauto
  have hb := h hp0
  refine ⟨hb.le, ?_, ?_, fun z hz => ?_, fun r hr => ?_, hb.len, fun sem hm hq => ⟨hb.len, fun e e' he => ?_⟩⟩
  · rw [wf_append]; exact ⟨hw.1, hb.wf⟩
  · rw [names_append, List.nodup_append]
    refine ⟨hn.1, hb.nodup, fun a ha b hb' e => ?_⟩
    subst e
    rcases hb.names a hb' with h1 | h1
    · exact hn.2.2 a ha a h1 rfl
    · have := hl a (.inl ha); omega
  · simp only [names_append, List.mem_append] at hz ⊢
    rcases hz with hz | hz
    · tauto
    · rcases hb.names z hz with h1 | h1
      · tauto
      · exact .inr h1
  · have := hb.res r hr
    simp only [List.mem_append, outs_append] at this ⊢
    tauto
  · rw [eval_append, eval_append]
    exact hb.eval sem hm hq _ _ (evalNodes_mono' hm (nodesOf q) he) (hK sem e')

theorem inlines_better {bop : Op} (hb : bop.kind ≠ .load) {n n' : Nat} {l l' : List Node} {R R' : List Out} (h : Inlines bop n l R n' l' R') :
    ∀ {A : List Out}, Pre A R n l → Better (Q bop) A R n l R' n' l' := by
  induction h with
  | done n l R => intro A hp; exact .refl hp
  | step _ _ h1 h2 => intro A hp; exact (h1 hp).trans (h2 ((h1 hp).pre hp))
  | phi _ ih => intro A hp; exact swap_phi hp fun hp' => ih hp'
  | @inline n n' p s s' ins args params results R R' out sub fty hty h =>
    intro A hp
    have hw := hp.wf
    have hn := hp.nodup
    have hl := hp.lt
    rw [wf_append] at hw
    simp only [nodesOf, wfNodes, Bool.and_eq_true, wfNode, mem_subset, beq_iff_eq] at hw
    obtain ⟨hwp, ⟨⟨⟨hins, hil⟩, hws⟩, hres⟩, _⟩ := hw
    simp only [names_append, nodesOf, namesNodes, namesNode] at hn
    have hn' : (out :: params ++ args ++ namesNodes sub).Nodup :=
      hn.sublist ((List.sublist_append_left _ _).trans (List.sublist_append_right _ _))
    simp only [List.cons_append] at hn'
    rw [List.nodup_cons] at hn'
    have hout : out ∉ ins := by
      intro ho
      rcases List.mem_append.1 (hins out ho) with h1 | h1
      · exact (List.nodup_append.1 hn).2.2 out (outs_namesNodes _ _ h1) out (by simp) rfl
      · exact hp.sep out h1 (by simp [names_append, nodesOf, namesNodes, namesNode])
    have e1 : ∀ t : List Node, p ++ Node.lambda ins args params results out sub :: t = (p ++ [.lambda ins args params results out sub]) ++ t := by
      simp
    rw [e1] at hp
    rw [e1 s, e1 s']
    refine suffix_better (K := Knows ⟨args, params, results, sub⟩ out ins) hp (fun hp0 => ?_) (fun sem e => ?_)
    · refine into_better (c := ⟨args, params, results, sub⟩) ⟨hws, hn'.2, hres, hty⟩ hb h hp0 ?_ (fun d hd => ?_) hil
      · simp [outs_append, nodesOf, Nodes.outs, Node.outs]
      · have := hins d hd
        simp only [List.mem_append, outs_append] at this ⊢
        tauto
    · refine ⟨sem.sym out, ?_⟩
      rw [eval_append]
      simp only [nodesOf, evalNodes, Node.outs]
      rw [Cne.upd_get (k := 0) (by simp) (by simp), nodeVals]
      have : ins.map (upd (evalNodes sem (nodesOf p) e) [out] [some (sem.sym out, some (.lam fun ps =>
          plain (results.map (evalNodes sem sub (upd (upd emptyEnv args (ins.map (evalNodes sem (nodesOf p) e))) params (lift ps))))))]) =
          ins.map (evalNodes sem (nodesOf p) e) :=
        List.map_congr_left fun z hz => upd_notin _ _ _ _ (by simp only [List.mem_singleton]; rintro rfl; exact hout hz)
      rw [this]
      rfl

/-- **C47, function inlining.** Whatever calls of known functions are inlined, in whatever order, the module that results is well-formed, has the
same imports, and every export of it behaves at least as before, provided that calls run the functions they call, that only calls look at functions, and
that I/O barriers hand on their first operand. -/
theorem C47_inlining_partial {bop : Op} {g g' : Graph} (hb : bop.kind = .other) (hw : g.wf = true) (h : Runs bop g g') :
    g'.wf = true ∧ g'.imports = g.imports ∧
      ∀ {V : Type} (sem : Sem V), sem.Mono → Calls sem → NoPeek sem → Barrier bop sem → Refines (g.meaning sem) (g'.meaning sem) := by
  obtain ⟨hi, n', h⟩ := h
  have := Swap.graph hw hi (inlines_better (by rw [hb]; simp) h)
  exact ⟨this.1, hi, fun sem hm h1 h2 h3 => this.2 sem hm ⟨h1, h2, h3⟩⟩

end Jlm.Opt.Inline
