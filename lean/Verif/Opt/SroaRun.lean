import Verif.Opt.SroaSim

set_option linter.unusedSimpArgs false
set_option linter.unusedVariables false

/-!
# Aggregate alloca splitting: gamma and theta nodes, regions
-/

namespace Jlm.Opt.Sroa

open Jlm.Llvm.Layout

variable {S : Sem} {C : Cfg S} {ops : Ops S}

theorem usesB_mem : ∀ {brs : List (List Node)} {b : Nat} {br : List Node}, brs[b]? = some br → ∀ u ∈ usesL br, u ∈ usesB brs
  | [], b, br, h, u, hu => by simp at h
  | b0 :: bs, 0, br, h, u, hu => by
    simp only [List.getElem?_cons_zero, Option.some.injEq] at h
    subst h
    simp only [usesB, List.mem_append]
    exact .inl hu
  | b0 :: bs, b + 1, br, h, u, hu => by
    simp only [List.getElem?_cons_succ] at h
    simp only [usesB, List.mem_append]
    exact .inr (usesB_mem h u hu)

theorem wfB_get {pl : List Info} : ∀ {brs : List (List Node)} {b : Nat} {br : List Node}, wfB pl brs → brs[b]? = some br → wfL pl br
  | [], b, br, _, h => by simp at h
  | b0 :: bs, 0, br, hw, h => by
    simp only [List.getElem?_cons_zero, Option.some.injEq] at h
    subst h
    exact hw.1
  | b0 :: bs, b + 1, br, hw, h => by
    simp only [List.getElem?_cons_succ] at h
    exact wfB_get hw.2 h

theorem splitB_get {pl : List Info} {Γ : List Nat} : ∀ {brs brs' : List (List Node)} {b : Nat} {br : List Node},
    splitB pl Γ brs = some brs' → brs[b]? = some br → ∃ br', splitL pl Γ br = some br' ∧ brs'[b]? = some br'
  | [], brs', b, br, _, h => by simp at h
  | b0 :: bs, brs', b, br, hs, h => by
    simp only [splitB] at hs
    cases h1 : splitL pl Γ b0 with
    | none => rw [h1] at hs; simp at hs
    | some b1 =>
      cases h2 : splitB pl Γ bs with
      | none => rw [h1, h2] at hs; simp at hs
      | some bs1 =>
        rw [h1, h2] at hs
        simp only [Option.some.injEq] at hs
        subst hs
        match b, h with
        | 0, h =>
          simp only [List.getElem?_cons_zero, Option.some.injEq] at h
          subst h
          exact ⟨b1, h1, rfl⟩
        | b + 1, h =>
          simp only [List.getElem?_cons_succ] at h ⊢
          exact splitB_get h2 h

/-- Regions executed with the bound `k`. -/
def Sim (C : Cfg S) (ops : Ops S) (k : Nat) : Prop :=
  ∀ (ns ns' : List Node) (Γ : List Nat) (g : Nat → Option Info) (s t s' : St S), wfL C.pl ns → (∀ u ∈ usesL ns, C.Good u.1 u.2) →
    splitL C.pl Γ ns = some ns' → C.J g Γ s t → run ops k ns s = some s' → ok ops C.pl k ns s → C.Res Γ s' (run ops k ns' t)

theorem forall₂_map {α β γ : Type} {R : β → γ → Prop} {f : α → β} {h : α → γ} {l : List α} (hl : ∀ x ∈ l, R (f x) (h x)) :
    List.Forall₂ R (l.map f) (l.map h) := by
  induction l with
  | nil => exact .nil
  | cons x l ih => exact .cons (hl x List.mem_cons_self) (ih fun y hy => hl y (List.mem_cons_of_mem _ hy))

theorem forall₂_filterMap {α β γ δ : Type} {R : β → γ → Prop} {o : α → Option δ} {f : α → δ → β} {h : α → δ → γ} {l : List α}
    (hl : ∀ x ∈ l, ∀ d, o x = some d → R (f x d) (h x d)) :
    List.Forall₂ R (l.filterMap fun x => (o x).map (f x)) (l.filterMap fun x => (o x).map (h x)) := by
  induction l with
  | nil => exact .nil
  | cons x l ih =>
    have ih := ih fun y hy => hl y (List.mem_cons_of_mem _ hy)
    cases ho : o x with
    | none => simpa [List.filterMap_cons, ho] using ih
    | some d =>
      simp only [List.filterMap_cons, ho, Option.map_some]
      exact .cons (hl x List.mem_cons_self d ho) ih

theorem sim_gamma {k : Nat} (hsim : Sim C ops k) {g : Nat → Option Info} {Γ : List Nat} {s t s' : St S} {p : Nat}
    {brs brs' : List (List Node)} {exits : List (Nat × List Nat)} (hJ : C.J g Γ s t) (hw : (Node.gamma p brs exits).wf C.pl)
    (hg : ∀ u ∈ (Node.gamma p brs exits).uses, C.Good u.1 u.2) (hsp : splitB C.pl Γ brs = some brs')
    (hok : ∀ br : List Node, brs[S.sel (s.e p)]? = some br → ok ops C.pl k br s)
    (hs : step ops (run ops k) k (.gamma p brs exits) s = some s') :
    C.Res Γ s' (step ops (run ops k) k (.gamma p brs' exits) t) := by
  simp only [Node.uses, List.mem_cons, List.mem_append, List.mem_flatMap, List.mem_map] at hg
  have hp : C.Good p .other := hg (p, .other) (.inl rfl)
  obtain ⟨hpe, -⟩ := (hJ.env p).untracked hp.1 hp.2
  simp only [step, hpe] at hs ⊢
  cases hb : brs[S.sel (s.e p)]? with
  | none => rw [hb] at hs; simp at hs
  | some br =>
    rw [hb] at hs
    simp only at hs
    obtain ⟨br', h1, h2⟩ := splitB_get hsp hb
    rw [h2]
    simp only
    cases hr : run ops k br s with
    | none => rw [hr] at hs; simp at hs
    | some s1 =>
      rw [hr] at hs
      simp only [Option.some.injEq] at hs
      subst hs
      obtain ⟨t1, g1, h3, h4⟩ := hsim br br' Γ g s t s1 (wfB_get hw.1 hb) (fun u hu => hg u (.inr (.inl (usesB_mem hb u hu)))) h1 hJ hr (hok br hb)
      rw [h3]
      simp only
      refine ⟨_, g1, rfl, h4.set ?_ ?_⟩
      · refine forall₂_filterMap fun x hx d hd => ⟨rfl, ?_⟩
        have hu : C.Good d (.flow [x.1]) := hg (d, .flow [x.1]) (.inr (.inr ⟨x, hx, d, List.mem_of_getElem? hd, rfl⟩))
        exact (h4.env d).flow (hu x.1 (by simp)).1 (hu x.1 (by simp)).2
      · intro i hi q hq
        obtain ⟨x, hx, hxq⟩ := List.mem_filterMap.mp hq
        obtain ⟨d, -, rfl⟩ := Option.map_eq_some_iff.mp hxq
        exact (hw.2 i hi x hx).symm

theorem sim_iter {k : Nat} (hsim : Sim C ops k) {Γ : List Nat} {p : Nat} {vars : List LV} {body body' : List Node}
    (hw : (Node.theta vars body p).wf C.pl) (hg : ∀ u ∈ (Node.theta vars body p).uses, C.Good u.1 u.2) (hsp : splitL C.pl Γ body = some body') :
    ∀ (n : Nat) (g : Nat → Option Info) (s t s' : St S), C.J g Γ s t →
      iter (thetaBody (run ops k) body p) vars n s = some s' → iterOk (ok ops C.pl k body) (thetaBody (run ops k) body p) vars n s →
      C.Res Γ s' (iter (thetaBody (run ops k) body' p) vars n t)
  | 0, g, s, t, s', hJ, hs, hok => by simp [iter] at hs
  | n + 1, g, s, t, s', hJ, hs, hok => by
    have hg' := hg
    simp only [Node.uses, List.mem_cons, List.mem_append, List.mem_flatMap] at hg'
    have hp : C.Good p .other := hg' (p, .other) (.inl rfl)
    obtain ⟨hok1, hok2⟩ := hok
    simp only [iter] at hs ⊢
    cases hr : run ops k body s with
    | none => simp only [thetaBody, hr] at hs; simp at hs
    | some s1 =>
      obtain ⟨t1, g1, h3, h4⟩ := hsim body body' Γ g s t s1 hw.1 (fun u hu => hg' u (.inr (.inl hu))) hsp hJ hr hok1
      obtain ⟨hpe, -⟩ := (h4.env p).untracked hp.1 hp.2
      have hS : thetaBody (run ops k) body p s = some (s1, S.sel (s1.e p) != 0) := by simp only [thetaBody, hr]
      have hT : thetaBody (run ops k) body' p t = some (t1, S.sel (s1.e p) != 0) := by simp only [thetaBody, h3, hpe]
      rw [hS] at hs
      rw [hT]
      have hpost : ∀ v ∈ vars, C.Good v.post (.flow [v.pre, v.out]) := fun v hv => hg' (v.post, _) (.inr (.inr ⟨v, hv, by simp⟩))
      cases hb : (S.sel (s1.e p) != 0) with
      | true =>
        rw [hb] at hs hS
        simp only at hs ⊢
        refine sim_iter hsim hw hg hsp n g1 _ _ s' (h4.set ?_ ?_) hs (hok2 s1 hS)
        · refine forall₂_map fun v hv => ⟨rfl, (h4.env v.post).flow (hpost v hv v.pre (by simp)).1 (hpost v hv v.pre (by simp)).2⟩
        · intro i hi q hq
          obtain ⟨v, hv, rfl⟩ := List.mem_map.mp hq
          exact (hw.2 i hi v hv).1.symm
      | false =>
        rw [hb] at hs
        simp only [Option.some.injEq] at hs ⊢
        subst hs
        refine ⟨_, g1, rfl, h4.set ?_ ?_⟩
        · refine forall₂_map fun v hv => ⟨rfl, (h4.env v.post).flow (hpost v hv v.out (by simp)).1 (hpost v hv v.out (by simp)).2⟩
        · intro i hi q hq
          obtain ⟨v, hv, rfl⟩ := List.mem_map.mp hq
          exact (hw.2 i hi v hv).2.symm

theorem sim_theta {k : Nat} (hsim : Sim C ops k) {g : Nat → Option Info} {Γ : List Nat} {s t s' : St S} {p : Nat} {vars : List LV}
    {body body' : List Node} (hJ : C.J g Γ s t) (hw : (Node.theta vars body p).wf C.pl)
    (hg : ∀ u ∈ (Node.theta vars body p).uses, C.Good u.1 u.2) (hsp : splitL C.pl Γ body = some body')
    (hok : okStep C.pl (ok ops C.pl k) (run ops k) k (.theta vars body p) s)
    (hs : step ops (run ops k) k (.theta vars body p) s = some s') :
    C.Res Γ s' (step ops (run ops k) k (.theta vars body' p) t) := by
  have hg' := hg
  simp only [Node.uses, List.mem_cons, List.mem_append, List.mem_flatMap] at hg'
  have hinp : ∀ v ∈ vars, C.Good v.inp (.flow [v.pre]) := fun v hv => hg' (v.inp, _) (.inr (.inr ⟨v, hv, by simp⟩))
  refine sim_iter hsim hw hg hsp k g _ _ s' (hJ.set ?_ ?_) hs hok
  · refine forall₂_map fun v hv => ⟨rfl, (hJ.env v.inp).flow (hinp v hv v.pre (by simp)).1 (hinp v hv v.pre (by simp)).2⟩
  · intro i hi q hq
    obtain ⟨v, hv, rfl⟩ := List.mem_map.mp hq
    exact (hw.2 i hi v hv).1.symm

theorem sim (laws : C.K.Laws ops) (htr : C.Traced) : ∀ k, Sim C ops k
  | 0 => by
    intro ns ns' Γ g s t s' hw hg hsp hJ hr hok
    simp [run] at hr
  | k + 1 => by
    intro ns ns' Γ g s t s' hw hg hsp hJ hr hok
    cases ns with
    | nil =>
      simp only [splitL, Option.some.injEq] at hsp
      subst hsp
      simp only [run, Option.some.injEq] at hr
      subst hr
      exact ⟨t, g, rfl, hJ⟩
    | cons nd ns =>
      simp only [run] at hr
      cases hst : step ops (run ops k) k nd s with
      | none => rw [hst] at hr; simp at hr
      | some s1 =>
        rw [hst] at hr
        simp only at hr
        obtain ⟨hok1, hok2⟩ := hok
        simp only [splitL] at hsp
        cases h1 : nd.split C.pl Γ with
        | none => rw [h1] at hsp; simp at hsp
        | some nd' =>
          cases h2 : splitL C.pl (nd.vis C.pl ++ Γ) ns with
          | none => rw [h1, h2] at hsp; simp at hsp
          | some ns1 =>
            rw [h1, h2] at hsp
            simp only [Option.some.injEq] at hsp
            subst hsp
            have hg1 : ∀ u ∈ nd.uses, C.Good u.1 u.2 := fun u hu => hg u (by simp [usesL, hu])
            have hg2 : ∀ u ∈ usesL ns, C.Good u.1 u.2 := fun u hu => hg u (by simp [usesL, hu])
            have hres : C.Res (nd.vis C.pl ++ Γ) s1 (step ops (run ops k) k nd' t) := by
              have hwn := hw.1
              cases nd with
              | op f args outs =>
                simp only [Node.split, Option.some.injEq] at h1
                subst h1
                exact sim_op laws hJ (fun a ha => hg1 (a, .other) (by simpa [Node.uses] using ha)) hwn hst
              | alloca n ty cnt els => exact sim_alloca laws htr hJ hwn h1 hst
              | gep base ty idxs out => exact sim_gep laws htr hJ hwn (hg1 (base, .gep out idxs) (by simp [Node.uses])) h1 hok1 hst
              | elem n i out => exact absurd hwn (by simp [Node.wf])
              | load a ty out =>
                simp only [Node.split, Option.some.injEq] at h1
                subst h1
                exact sim_load laws hJ (hg1 (a, .load) (by simp [Node.uses])) hwn hok1 hst
              | store a v ty =>
                simp only [Node.split, Option.some.injEq] at h1
                subst h1
                exact sim_store laws hJ (hg1 (a, .storeAddr) (by simp [Node.uses])) (hg1 (v, .storeVal) (by simp [Node.uses])) hok1 hst
              | barrier i o =>
                simp only [Node.split, Option.some.injEq] at h1
                subst h1
                simp only [step, Option.some.injEq] at hst
                subst hst
                have hb : C.Good i (.barrier o) := hg1 (i, .barrier o) (by simp [Node.uses])
                exact ⟨_, g, rfl, hJ.set1 ((hJ.env i).flow (fun h => absurd h hb.1) hb.2) hwn⟩
              | gamma p brs exits =>
                simp only [Node.split] at h1
                obtain ⟨brs', h3, rfl⟩ := Option.map_eq_some_iff.mp h1
                exact sim_gamma (sim laws htr k) hJ hwn hg1 h3 hok1 hst
              | theta vars body p =>
                simp only [Node.split] at h1
                obtain ⟨body', h3, rfl⟩ := Option.map_eq_some_iff.mp h1
                exact sim_theta (sim laws htr k) hJ hwn hg1 h3 hok1 hst
            obtain ⟨t1, g1, h3, h4⟩ := hres
            obtain ⟨t2, g2, h5, h6⟩ := sim laws htr k ns ns1 _ g1 s1 t1 s' hw.2 hg2 h2 h4 hr (hok2 s1 hst)
            refine ⟨t2, g2, ?_, h6.weaken fun n hn => List.mem_append_right _ hn⟩
            simp only [run, h3]
            exact h5

end Jlm.Opt.Sroa
