import Verif.Opt.SvfNodes

set_option linter.unusedSimpArgs false
set_option linter.unusedVariables false

/-!
# Store value forwarding: gamma and theta nodes, regions
-/

namespace Jlm.Opt.Svf

variable {S : Sem} {C : Cfg S} {l : Option S.W} {Γ : Scope} {eS eT E : Env S}

theorem Frame.trans {Γ : Scope} {a b c : Env S} (h1 : Frame Γ a b) (h2 : Frame Γ b c) : Frame Γ a c := fun m hm => by rw [h2 m hm, h1 m hm]

theorem Frame.mono {Γ Γ' : Scope} {a b : Env S} (h : Frame Γ' a b) (hs : ∀ m, Γ m → Γ' m) : Frame Γ a b := fun m hm => h m (hs m hm)

theorem J.sc (hJ : C.J l Γ eS eT E) : Sc C.vals C.T Γ := ⟨fun s hs r hr => (hJ.fact s hs r hr).1⟩

/-- Without traced states in scope, the address does not matter. -/
theorem J.other (hJ : C.J l Γ eS eT E) (h : ∀ s, Γ.has s → C.T s = none) (l' : Option S.W) : C.J l' Γ eS eT E where
  le := hJ.le
  same := hJ.same
  made := hJ.made
  word := hJ.word
  vals := hJ.vals
  fact s hs r hr := by rw [h s hs] at hr; simp at hr

theorem J.src (hJ : C.J l Γ eS eT E) {s : Src} (hs : Γ.hasSrc s) : (s.eval eS).le (s.eval E) ∧ s.eval eT = s.eval E := by
  obtain ⟨n, rfl, hn⟩ := hs
  exact ⟨hJ.le n hn, hJ.same n hn⟩

/-- Regions executed with the bound `k`. -/
def Sim (C : Cfg S) (ops : Ops S) (k : Nat) : Prop :=
  ∀ (ns : List Node) (Γ : Scope) (l : Option S.W) (eS eT E e' : Env S), wfL C.vals Γ ns → tokL C.q C.T C.own C.created C.reset Γ ns →
    C.J l Γ eS eT E → run ops k ns eS = some e' → ok ops C.q C.reset k l ns eS →
    C.Res l Γ (after Γ ns) eS eT E e' (run ops k (forwardL C.q.id C.own C.created ns) eT)

/-- The value of a region's origin. -/
theorem srcOf_word {o : Option Origin} (hJ : C.J l Γ eS eT E) (h : ∀ r, o = some r → ∃ n, Γ.has n ∧ C.T n = some r) :
    ∃ x, (srcOf o).eval E = .w x := by
  cases o with
  | none => exact ⟨none, rfl⟩
  | some r =>
    obtain ⟨n, h1, h2⟩ := h r rfl
    exact hJ.word r (hJ.fact n h1 r h2).1

theorem srcOf_target {o : Option Origin} (hJ : C.J l Γ eS eT E) (h : ∀ r, o = some r → ∃ n, Γ.has n ∧ C.T n = some r)
    (hm : ∀ r, o = some r → r.made C.created) : (srcOf o).eval eT = (srcOf o).eval E := by
  cases o with
  | none => rfl
  | some r =>
    obtain ⟨n, h1, h2⟩ := h r rfl
    exact eval_target hJ (hJ.fact n h1 r h2).1 (hm r rfl)

theorem sim_gamma {ops : Ops S} {k : Nat} (hsim : Sim C ops k) {id : Nat} {p : Nm}
    {brs : List (List Node)} {exits : List (Nm × List Src)} {e' : Env S} (hw : (Node.gamma id p brs exits).wf C.vals Γ)
    (ht : (Node.gamma id p brs exits).tok C.q C.T C.own C.created C.reset Γ) (hJ : C.J l Γ eS eT E)
    (hs : step ops (run ops k) k (.gamma id p brs exits) eS = some e')
    (hok : okStep C.q C.reset (ok ops C.q C.reset k) (run ops k) k l (.gamma id p brs exits) eS) :
    C.Res l Γ (Γ.add (Node.gamma id p brs exits).adds) eS eT E e'
      (step ops (run ops k) k ((Node.gamma id p brs exits).forward C.q.id C.own C.created) eT) := by
  have hgs : ∀ {x : Nm × List Src}, x ∈ exits → ∀ {r : Origin}, C.T x.1 = some r → r = .gammaOut id ∨ r.inScope C.vals Γ := by
    intro x hx r hr; exact gamma_scope hw ht (scB brs hJ.sc (by simp only [Node.wf] at hw; exact hw.2.1) (by simp only [Node.tok] at ht; exact ht.1)) hx hr
  simp only [Node.wf, Node.tok, step, okStep] at hw ht hs hok
  obtain ⟨hwp, hwb, hwf, hwx, hwv, hwe, -⟩ := hw
  obtain ⟨htb, hte, hto, htc⟩ := ht
  cases hp : eS p with
  | mem m => rw [hp] at hs; simp at hs
  | w op =>
    cases op with
    | none => rw [hp] at hs; simp at hs
    | some c =>
      cases hb : brs[S.sel c]? with
      | none => rw [hp] at hs; simp [hb] at hs
      | some br =>
        cases hr : run ops k br eS with
        | none => rw [hp] at hs; simp [hb, hr] at hs
        | some e1 =>
          rw [hp] at hs
          simp only [hb, hr, Option.some.injEq] at hs
          subst hs
          have hlt : S.sel c < brs.length := by
            rw [List.getElem?_eq_some_iff] at hb
            exact hb.1
          obtain ⟨eT1, E1, hrT, hJ1, f1, f2, f3⟩ := hsim br Γ l eS eT E e1 (wfB_get hwb hb) (tokB_get htb hb) hJ hr (hok c br hp hb)
          have hTp : eT p = .w (some c) := le_word (by rw [← hp]; exact hJ.leT p hwp)
          have hsrc : ∀ x ∈ exits, ∃ n, (x.2[S.sel c]?) = some (.nm n) ∧ (after Γ br).has n := by
            intro x hx
            obtain ⟨s, h1, n, rfl, h2⟩ := hwe x hx _ _ hb
            exact ⟨n, h1, h2⟩
          have hown : ∀ r, C.own (.rg id (S.sel c)) = some r → ∃ n, (after Γ br).has n ∧ C.T n = some r := by
            intro r h
            obtain ⟨x, hx, n, h1, h2⟩ := hto _ r h
            obtain ⟨n', h3, h4⟩ := hsrc x hx
            rw [h1] at h3
            injection h3 with h3
            injection h3 with h3
            subst h3
            exact ⟨n, h4, h2⟩
          have hbase := hJ.frame f1 f2 f3
          have hmm : ∀ e : Env S, ((exits.map fun x => (x.1, (x.2[S.sel c]?).getD .undef)).map fun p => (p.1, p.2.eval e)) =
              exits.map fun x => (x.1, ((x.2[S.sel c]?).getD .undef).eval e) := fun e => by rw [List.map_map]; rfl
          have key := J.vars hbase (exits.map fun x => (x.1, (x.2[S.sel c]?).getD .undef)) (.x id) (C.own (.rg id (S.sel c))) id
            (exits.map (·.1)) (by rw [List.map_map]; rfl) (Or.inl rfl) hwv hwx hwf ?_ (srcOf_word hJ1 hown)
            (fun hc => srcOf_target hJ1 hown fun r hr => htc hc _ r hlt hr) ?_
          · obtain ⟨E', hJ', g1, g2, g3, -⟩ := key
            rw [hmm, hmm] at *
            refine ⟨_, E', ?_, hJ', f1.trans g1, f2.trans g2, f3.trans g3⟩
            simp only [Node.forward, step, hTp, forwardB_get hb, hrT, Option.some.injEq]
            congr 1
            by_cases hcr : C.created id = true
            · rw [if_pos hcr, if_pos hcr]
              simp [hlt]
            · rw [if_neg hcr, if_neg hcr]
              simp
          · intro p hp'
            obtain ⟨x, hx, rfl⟩ := List.mem_map.mp hp'
            obtain ⟨n, h1, h2⟩ := hsrc x hx
            simp only [h1, Option.getD_some]
            exact J.src hJ1 ⟨n, rfl, h2⟩
          · intro p hp' r hr' E' hfE hmk
            obtain ⟨x, hx, rfl⟩ := List.mem_map.mp hp'
            obtain ⟨n, h1, h2⟩ := hsrc x hx
            obtain ⟨rb, h3, h4, h5⟩ := (hte x hx r hr').1 _ br n hb h1
            obtain ⟨hin, y, hy, hc⟩ := hJ1.fact n h2 rb h4
            simp only [h1, Option.getD_some]
            rcases hgs hx hr' with rfl | hsc
            · refine ⟨⟨hwv, Or.inr (by simp)⟩, y, ?_, hc⟩
              show E' (.x id) = _
              rw [hmk, h3]
              exact hy
            · refine ⟨inScope_mono (fun _ h => Or.inl h) hsc, ?_⟩
              rcases h5 with rfl | rfl | ⟨rfl, -⟩
              · refine ⟨y, ?_, hc⟩
                have : (Origin.gammaOut id).src.eval E' = (srcOf (C.own (.rg id (S.sel c)))).eval E1 := hmk
                rw [this, h3]
                exact hy
              · obtain ⟨z, hz⟩ := hbase.word r hsc
                refine ⟨z, by rw [eval_frame hbase.vals hsc hfE, hz], ?_⟩
                intro l' hl m c0 hm hrd
                have := hc l' hl m c0 hm hrd
                simp only [Origin.src, Src.eval] at hy
                injection hy with hy
                subst hy
                rcases this with h | h
                · exact Or.inl h
                · exact Or.inl h
              · exact ⟨y, by rw [eval_frame hbase.vals hsc hfE, hy], hc⟩

/-- The loop variables after the transformation. -/
def newVars (C : Cfg S) (id : Nat) (vars : List LV) : List LV :=
  if C.created id then vars ++ [⟨srcOf (C.own (.nd id)), .p id, srcOf (C.own (.rg id 0)), .x id⟩] else vars

theorem newVars_map (id : Nat) (vars : List LV) (g : LV → Nm × D S) :
    (newVars C id vars).map g =
      vars.map g ++ if C.created id then [g ⟨srcOf (C.own (.nd id)), .p id, srcOf (C.own (.rg id 0)), .x id⟩] else [] := by
  unfold newVars
  by_cases h : C.created id = true
  · simp [h]
  · simp [h]

theorem sim_iter {ops : Ops S} {k : Nat} (hsim : Sim C ops k) {id : Nat} {p : Nm}
    {vars : List LV} {body : List Node} (hw : (Node.theta id vars body p).wf C.vals Γ)
    (ht : (Node.theta id vars body p).tok C.q C.T C.own C.created C.reset Γ) {e0 eT0 E0 : Env S} (hJ0 : C.J l Γ e0 eT0 E0) :
    ∀ (j : Nat) (eS eT E e' : Env S), C.J l (Γ.add (.p id :: vars.map (·.pre))) eS eT E → Frame Γ e0 eS → Frame Γ eT0 eT → Frame Γ E0 E →
      (C.own (.rg id 0) = some (.thetaPre id) → E (.p id) = (srcOf (C.own (.nd id))).eval E0) →
      iter (thetaBody (run ops k) body p) vars j eS = some e' →
      iterOk (fun e => (C.reset id ∧ ∃ l', ok ops C.q C.reset k l' body e) ∨ ok ops C.q C.reset k l body e)
        (thetaBody (run ops k) body p) vars j eS →
      C.Res l Γ (Γ.add (.x id :: vars.map (·.out))) e0 eT0 E0 e'
        (iter (thetaBody (run ops k) (forwardL C.q.id C.own C.created body) p) (newVars C id vars) j eT)
  | 0, _, _, _, _, _, _, _, _, _, h, _ => by simp [iter] at h
  | j + 1, eS, eT, E, e', hJ, f1, f2, f3, hpre, hi, hiok => by
    have hw0 := hw
    have ht0 := ht
    simp only [Node.wf, Node.tok] at hw ht
    obtain ⟨hwi, hwpre, hwout, hwx, hwp, hwv, hwb, hwpred, hwpost⟩ := hw
    obtain ⟨htb, htpre, htout, htin, htrg, htreset, htc⟩ := ht
    simp only [iter] at hi
    simp only [iterOk] at hiok
    cases hth : thetaBody (run ops k) body p eS with
    | none => rw [hth] at hi; simp at hi
    | some eb =>
      obtain ⟨e1, bb⟩ := eb
      have hth0 := hth
      unfold thetaBody at hth
      cases hr : run ops k body eS with
      | none => rw [hr] at hth; simp at hth
      | some e1' =>
        rw [hr] at hth
        cases hp : e1' p with
        | mem m => simp [hp] at hth
        | w op =>
          cases op with
          | none => simp [hp] at hth
          | some c =>
            simp only [hp, Option.some.injEq, Prod.mk.injEq] at hth
            obtain ⟨rfl, rfl⟩ := hth
            -- the address of this iteration
            have hl1 : ∃ l1, ok ops C.q C.reset k l1 body eS ∧ C.J l1 (Γ.add (.p id :: vars.map (·.pre))) eS eT E ∧
                (l1 = l ∨ (∀ v ∈ vars, C.T v.pre = none) ∧ ∀ v ∈ vars, C.T v.out = none) := by
              rcases hiok.1 with ⟨hre, l', h⟩ | h
              · refine ⟨l', h, hJ.other (htreset hre).1 l', Or.inr ⟨fun v hv => ?_, (htreset hre).2⟩⟩
                have hm : v.pre ∈ vars.map (·.pre) := List.mem_map_of_mem hv
                exact (htreset hre).1 v.pre ⟨Or.inr (List.mem_cons_of_mem _ hm), (hwpre.2 _ hm).2⟩
              · exact ⟨l, h, hJ, Or.inl rfl⟩
            obtain ⟨l1, hok1, hJl, hl⟩ := hl1
            obtain ⟨eT1, E1, hrT, hJ1, g1, g2, g3⟩ := hsim body _ l1 eS eT E e1' hwb htb hJl hr hok1
            have hsub : ∀ m, Γ m → (Γ.add (.p id :: vars.map (·.pre))) m := fun m h => Or.inl h
            have k1 := f1.trans (g1.mono hsub)
            have k2 := f2.trans (g2.mono hsub)
            have k3 := f3.trans (g3.mono hsub)
            have hbase := hJ0.frame k1 k2 k3
            have hTp : eT1 p = .w (some c) := le_word (by rw [← hp]; exact hJ1.leT p hwpred)
            have hthT : thetaBody (run ops k) (forwardL C.q.id C.own C.created body) p eT = some (eT1, S.sel c != 0) := by
              simp [thetaBody, hrT, hTp]
            have hown : ∀ r, C.own (.rg id 0) = some r → ∃ n, (after (Γ.add (.p id :: vars.map (·.pre))) body).has n ∧ C.T n = some r := by
              intro r h
              obtain ⟨v, hv, n, h1, h2⟩ := htrg r h
              obtain ⟨n', h3, h4⟩ := hwpost v hv
              rw [h1] at h3
              injection h3 with h3
              subst h3
              exact ⟨n, h4, h2⟩
            have hword := srcOf_word hJ1 hown
            have htgt := fun hc => srcOf_target hJ1 hown fun r hr => (htc hc).2 r hr
            have hpost : ∀ v ∈ vars, (v.post.eval e1').le (v.post.eval E1) ∧ v.post.eval eT1 = v.post.eval E1 :=
              fun v hv => J.src hJ1 (hwpost v hv)
            have hEp : C.own (.rg id 0) = some (.thetaPre id) → E1 (.p id) = (srcOf (C.own (.nd id))).eval E0 := by
              intro h
              rw [g3 (.p id) (Or.inr (by simp))]
              exact hpre h
            cases hbb : S.sel c != 0 with
            | true =>
              rw [hbb] at hth0 hthT
              rw [hth0] at hi
              simp only at hi
              have hmm : ∀ e : Env S, ((vars.map fun v => (v.pre, v.post)).map fun p => (p.1, p.2.eval e)) =
                  vars.map fun v => (v.pre, v.post.eval e) := fun e => by rw [List.map_map]; rfl
              have key := J.vars hbase (vars.map fun v => (v.pre, v.post)) (.p id) (C.own (.rg id 0)) id (vars.map (·.pre))
                (by rw [List.map_map]; rfl) (Or.inr rfl) hwv hwp hwpre ?_ hword htgt ?_
              · obtain ⟨E', hJ', n1, n2, n3, n4⟩ := key
                rw [hmm] at hJ' n1
                rw [hmm] at hJ' n2
                have := sim_iter hsim hw0 ht0 hJ0 j _ _ E' e' hJ' (k1.trans n1) (k2.trans n2) (k3.trans n3) ?_ hi (hiok.2 e1' hth0)
                · obtain ⟨eT', E'', h1, h2⟩ := this
                  refine ⟨eT', E'', ?_, h2⟩
                  simp only [iter, hthT]
                  rw [newVars_map]
                  exact h1
                · intro h
                  rw [n4, h]
                  exact hEp h
              · intro p hp'
                obtain ⟨v, hv, rfl⟩ := List.mem_map.mp hp'
                exact hpost v hv
              · intro p hp' r hr' E' hfE hmk
                obtain ⟨v, hv, rfl⟩ := List.mem_map.mp hp'
                rcases hl with rfl | ⟨hl, -⟩
                · obtain ⟨rfl, i, n, h1, h2, h3, rk, h4, h5⟩ := htpre v hv r hr'
                  obtain ⟨n', h6, h7⟩ := hwpost v hv
                  rw [h2] at h6
                  injection h6 with h6
                  subst h6
                  obtain ⟨hin, y, hy, hc⟩ := hJ1.fact n h7 rk h4
                  refine ⟨⟨hwv, Or.inr (by simp)⟩, y, ?_, ?_⟩
                  · show E' (.p id) = _
                    rw [hmk, h5]
                    exact hy
                  · intro l' hl m c0 hm hrd
                    simp only [h2] at hm
                    exact hc l' hl m c0 hm hrd
                · have := hl v hv
                  simp only at hr'
                  rw [this] at hr'
                  simp at hr'
            | false =>
              rw [hbb] at hth0 hthT
              rw [hth0] at hi
              simp only [Option.some.injEq] at hi
              subst hi
              have hmm : ∀ e : Env S, ((vars.map fun v => (v.out, v.post)).map fun p => (p.1, p.2.eval e)) =
                  vars.map fun v => (v.out, v.post.eval e) := fun e => by rw [List.map_map]; rfl
              have key := J.vars hbase (vars.map fun v => (v.out, v.post)) (.x id) (C.own (.rg id 0)) id (vars.map (·.out))
                (by rw [List.map_map]; rfl) (Or.inl rfl) hwv hwx hwout ?_ hword htgt ?_
              · obtain ⟨E', hJ', n1, n2, n3, n4⟩ := key
                rw [hmm] at hJ' n1
                rw [hmm] at hJ' n2
                refine ⟨_, E', ?_, hJ', k1.trans n1, k2.trans n2, k3.trans n3⟩
                simp only [iter, hthT]
                rw [newVars_map]
              · intro p hp'
                obtain ⟨v, hv, rfl⟩ := List.mem_map.mp hp'
                exact hpost v hv
              · intro p hp' r hr' E' hfE hmk
                obtain ⟨v, hv, rfl⟩ := List.mem_map.mp hp'
                rcases hl with rfl | ⟨-, hl⟩
                · obtain ⟨i, n, rk, h1, h2, h3, h4, h5⟩ := htout v hv r hr'
                  obtain ⟨n', h6, h7⟩ := hwpost v hv
                  rw [h2] at h6
                  injection h6 with h6
                  subst h6
                  obtain ⟨hin, y, hy, hc⟩ := hJ1.fact n h7 rk h3
                  rcases h5 with rfl | ⟨rfl, hTi, hoi⟩
                  · refine ⟨⟨hwv, Or.inr (by simp)⟩, y, ?_, ?_⟩
                    · show E' (.x id) = _
                      rw [hmk, h4]
                      exact hy
                    · intro l' hl m c0 hm hrd
                      simp only [h2] at hm
                      exact hc l' hl m c0 hm hrd
                  · obtain ⟨i', h8, h9⟩ := hwi v hv
                    rw [h1] at h8
                    injection h8 with h8
                    subst h8
                    have hir := (hJ0.fact i h9 r hTi).1
                    refine ⟨inScope_mono (fun _ h => Or.inl h) hir, y, ?_, ?_⟩
                    · rw [eval_frame hJ0.vals hir (k3.trans hfE)]
                      have : E1 (.p id) = .w y := hy
                      rw [hEp h4, hoi] at this
                      exact this
                    · intro l' hl m c0 hm hrd
                      simp only [h2] at hm
                      exact hc l' hl m c0 hm hrd
                · have := hl v hv
                  simp only at hr'
                  rw [this] at hr'
                  simp at hr'

theorem sim_theta {ops : Ops S} {k : Nat} (hsim : Sim C ops k) {id : Nat} {p : Nm}
    {vars : List LV} {body : List Node} {e' : Env S} (hw : (Node.theta id vars body p).wf C.vals Γ)
    (ht : (Node.theta id vars body p).tok C.q C.T C.own C.created C.reset Γ) (hJ : C.J l Γ eS eT E)
    (hs : step ops (run ops k) k (.theta id vars body p) eS = some e')
    (hok : okStep C.q C.reset (ok ops C.q C.reset k) (run ops k) k l (.theta id vars body p) eS) :
    C.Res l Γ (Γ.add (Node.theta id vars body p).adds) eS eT E e'
      (step ops (run ops k) k ((Node.theta id vars body p).forward C.q.id C.own C.created) eT) := by
  have hw0 := hw
  have ht0 := ht
  simp only [Node.wf, Node.tok, step, okStep] at hw ht hs hok
  obtain ⟨hwi, hwpre, hwout, hwx, hwp, hwv, hwb, hwpred, hwpost⟩ := hw
  obtain ⟨htb, htpre, htout, htin, htrg, htreset, htc⟩ := ht
  have hown : ∀ r, C.own (.nd id) = some r → ∃ n, Γ.has n ∧ C.T n = some r := by
    intro r h
    obtain ⟨v, hv, n, h1, h2⟩ := htin r h
    obtain ⟨n', h3, h4⟩ := hwi v hv
    rw [h1] at h3
    injection h3 with h3
    subst h3
    exact ⟨n, h4, h2⟩
  have hmm : ∀ e : Env S, ((vars.map fun v => (v.pre, v.inp)).map fun p => (p.1, p.2.eval e)) =
      vars.map fun v => (v.pre, v.inp.eval e) := fun e => by rw [List.map_map]; rfl
  have key := J.vars hJ (vars.map fun v => (v.pre, v.inp)) (.p id) (C.own (.nd id)) id (vars.map (·.pre))
    (by rw [List.map_map]; rfl) (Or.inr rfl) hwv hwp hwpre ?_ (srcOf_word hJ hown)
    (fun hc => srcOf_target hJ hown fun r hr => (htc hc).1 r hr) ?_
  · obtain ⟨E', hJ', n1, n2, n3, n4⟩ := key
    rw [hmm] at hJ' n1
    rw [hmm] at hJ' n2
    have := sim_iter hsim hw0 ht0 hJ k _ _ E' e' hJ' n1 n2 n3 (fun _ => n4) hs hok
    obtain ⟨eT', E'', h1, h2⟩ := this
    refine ⟨eT', E'', ?_, h2⟩
    simp only [Node.forward, step]
    rw [← h1]
    have := newVars_map (C := C) id vars (fun v => (v.pre, v.inp.eval eT))
    unfold newVars at this ⊢
    rw [this]
  · intro p hp'
    obtain ⟨v, hv, rfl⟩ := List.mem_map.mp hp'
    exact J.src hJ (hwi v hv)
  · intro p hp' r hr' E' hfE hmk
    obtain ⟨v, hv, rfl⟩ := List.mem_map.mp hp'
    obtain ⟨rfl, i, n, h1, h2, ⟨ri, h3, h4⟩, -⟩ := htpre v hv r hr'
    obtain ⟨i', h6, h7⟩ := hwi v hv
    rw [h1] at h6
    injection h6 with h6
    subst h6
    obtain ⟨hin, y, hy, hc⟩ := hJ.fact i h7 ri h3
    refine ⟨⟨hwv, Or.inr (by simp)⟩, y, ?_, ?_⟩
    · show E' (.p id) = _
      rw [hmk, h4]
      exact hy
    · intro l' hl m c0 hm hrd
      simp only [h1] at hm
      exact hc l' hl m c0 hm hrd

theorem sim {ops : Ops S} (laws : S.Laws ops) : ∀ k, Sim C ops k
  | 0 => by
    intro ns Γ l eS eT E e' _ _ _ h
    simp [run] at h
  | k + 1 => by
    intro ns Γ l eS eT E e' hw ht hJ h hok
    cases ns with
    | nil =>
      simp only [run, Option.some.injEq] at h
      subst h
      exact ⟨eT, E, rfl, hJ, fun _ _ => rfl, fun _ _ => rfl, fun _ _ => rfl⟩
    | cons nd ns =>
      simp only [run] at h
      simp only [ok] at hok
      simp only [wfL, tokL] at hw ht
      cases hs : step ops (run ops k) k nd eS with
      | none => rw [hs] at h; simp at h
      | some e1 =>
        rw [hs] at h
        simp only at h
        have hsim := sim laws k
        have hn : C.Res l Γ (Γ.add nd.adds) eS eT E e1 (step ops (run ops k) k (nd.forward C.q.id C.own C.created) eT) := by
          cases nd with
          | op f args outs => simpa only [Node.forward] using sim_op laws hw.1 ht.1 hJ hs
          | store id a v t sts => simpa only [Node.forward] using sim_store laws hw.1 ht.1 hJ hs hok.1
          | load id a out t sts => exact sim_load laws hw.1 ht.1 hJ hs hok.1
          | join id ins out => simpa only [Node.forward] using sim_join laws hw.1 ht.1 hJ hs
          | alloca f args a st => simpa only [Node.forward] using sim_alloca laws hw.1 ht.1 hJ hs
          | fwd out src sts => simp [Node.wf] at hw
          | gamma id p brs exits => exact sim_gamma hsim hw.1 ht.1 hJ hs hok.1
          | theta id vars body p => exact sim_theta hsim hw.1 ht.1 hJ hs hok.1
        obtain ⟨eT1, E1, h1, hJ1, f1, f2, f3⟩ := hn
        obtain ⟨eT2, E2, h2, hJ2, g1, g2, g3⟩ := hsim ns _ l e1 eT1 E1 e' hw.2 ht.2 hJ1 h (hok.2 e1 hs)
        have hsub : ∀ m, Γ m → (Γ.add nd.adds) m := fun m h => Or.inl h
        exact ⟨eT2, E2, by simp [forwardL, run, h1, h2], hJ2, f1.trans (g1.mono hsub), f2.trans (g2.mono hsub), f3.trans (g3.mono hsub)⟩

end Jlm.Opt.Svf
