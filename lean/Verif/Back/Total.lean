import Verif.Back.Emit

/-!
# The conversion of well-formed function bodies succeeds
-/

set_option linter.unusedSimpArgs false
set_option linter.unusedVariables false

namespace Jlm.Back

open Jlm.Opt Jlm.Front

theorem getAll_some {S : BS} : ∀ {os : List Out}, (∀ o ∈ os, (S.vm o).isSome) → ∃ vs, S.getAll os = some vs
  | [], _ => ⟨[], rfl⟩
  | o :: os, h => by
    obtain ⟨v, hv⟩ := Option.isSome_iff_exists.1 (h o (by simp))
    obtain ⟨vs, hvs⟩ := getAll_some (os := os) fun x hx => h x (by simp [hx])
    exact ⟨v :: vs, by simp [BS.getAll, hv, hvs]⟩

theorem insert_some {S : BS} {o : Out} {v : Var} (h : S.vm o = none) :
    ∃ S', S.insert o v = some S' ∧ S'.vm o = some v ∧ ∀ x, x ≠ o → S'.vm x = S.vm x := by
  refine ⟨_, by rw [BS.insert, h]; rfl, by simp, fun x hx => by simp [hx]⟩

theorem insertAll_some : ∀ {l : List (Out × Var)} {S : BS}, (l.map Prod.fst).Nodup →
    (∀ c ∈ l, S.vm c.1 = none) → ∃ S', S.insertAll l = some S' ∧ (∀ c ∈ l, (S'.vm c.1).isSome) ∧
      ∀ x, x ∉ l.map Prod.fst → S'.vm x = S.vm x
  | [], S, _, _ => ⟨S, rfl, by simp, fun _ _ => rfl⟩
  | (o, v) :: l, S, hn, h => by
    simp only [List.map_cons, List.nodup_cons] at hn
    obtain ⟨S1, h1, h2, h3⟩ := insert_some (v := v) (h (o, v) (by simp))
    obtain ⟨S', q1, q2, q3⟩ := insertAll_some (S := S1) hn.2 (fun c hc => by
      rw [h3 c.1 (fun e => hn.1 (by have e : c.1 = o := e; rw [← e]; exact List.mem_map_of_mem hc))]; exact h c (by simp [hc]))
    refine ⟨S', by simp [BS.insertAll, h1, q1], fun c hc => ?_, fun x hx => ?_⟩
    · rcases List.mem_cons.1 hc with rfl | hc
      · rw [q3 _ hn.1, h2]; rfl
      · exact q2 c hc
    · simp only [List.map_cons, List.mem_cons, not_or] at hx
      rw [q3 x hx.2, h3 x hx.1]

theorem gammaOuts_some {ends : List Nat} {x : Nat} : ∀ {outs : List Out} {rss : List (List Out)} {S : BS},
    outs.Nodup → (∀ o ∈ outs, S.vm o = none) →
    (∀ rs ∈ rss, rs.length = outs.length ∧ ∀ r ∈ rs, (S.vm r).isSome) →
    ∃ S', gammaOuts ends x outs rss S = some S' ∧ (∀ o ∈ outs, (S'.vm o).isSome) ∧
      ∀ z, z ∉ outs → S'.vm z = S.vm z
  | [], rss, S, _, _, _ => ⟨S, rfl, by simp, fun _ _ => rfl⟩
  | o :: outs, rss, S, hn, h, hr => by
    rw [List.nodup_cons] at hn
    obtain ⟨vs, hvs⟩ := getAll_some (S := S) (os := rss.map fun rs => rs.headD 0) (by
      intro r hr'
      obtain ⟨rs, hrs, rfl⟩ := List.mem_map.1 hr'
      have := hr rs hrs
      cases rs with
      | nil => simp at this
      | cons r rs => exact this.2 r (by simp))
    have step : ∀ (S0 : BS) (v : Var), S0.vm = S.vm → ∃ S', (S0.insert o v).bind
        (gammaOuts ends x outs (rss.map List.tail)) = some S' ∧ (∀ o' ∈ o :: outs, (S'.vm o').isSome) ∧
        ∀ z, z ∉ o :: outs → S'.vm z = S.vm z := by
      intro S0 v h0
      obtain ⟨S1, h1, h2, h3⟩ := insert_some (S := S0) (v := v) (by rw [h0]; exact h o (by simp))
      obtain ⟨S', q1, q2, q3⟩ := gammaOuts_some (ends := ends) (x := x) (rss := rss.map List.tail) (S := S1) hn.2
        (fun o' ho' => by rw [h3 o' (fun e => hn.1 (e ▸ ho')), h0]; exact h o' (by simp [ho']))
        (fun rs hrs => by
          obtain ⟨rs', hrs', rfl⟩ := List.mem_map.1 hrs
          have := hr rs' hrs'
          refine ⟨by rw [List.length_tail, this.1]; simp, fun r hr' => ?_⟩
          have hs := this.2 r (List.mem_of_mem_tail hr')
          rw [h3 r (fun e => by rw [e, h o (by simp)] at hs; simp at hs), h0]
          exact hs)
      refine ⟨S', by rw [h1]; exact q1, fun o' ho' => ?_, fun z hz => ?_⟩
      · rcases List.mem_cons.1 ho' with rfl | ho'
        · rw [q3 _ hn.1, h2]; rfl
        · exact q2 o' ho'
      · simp only [List.mem_cons, not_or] at hz
        rw [q3 z hz.2, h3 z hz.1, h0]
    simp only [gammaOuts, hvs, Option.bind_some]
    split
    · exact step S _ rfl
    · exact step _ _ rfl

theorem thetaArgs_some {need : Out → Out → Bool} : ∀ {l : List LoopVar} {S : BS},
    (l.map fun v => v.2.1).Nodup → (∀ v ∈ l, S.vm v.2.1 = none ∧ (S.vm v.1).isSome) →
    ∃ S', thetaArgs need l S = some S' ∧ (∀ v ∈ l, (S'.vm v.2.1).isSome) ∧
      ∀ z, z ∉ (l.map fun v => v.2.1) → S'.vm z = S.vm z
  | [], S, _, _ => ⟨S, rfl, by simp, fun _ _ => rfl⟩
  | (i, a, p, o) :: l, S, hn, h => by
    simp only [List.map_cons, List.nodup_cons] at hn
    obtain ⟨ha, hi⟩ := h (i, a, p, o) (by simp)
    obtain ⟨v, hv⟩ := Option.isSome_iff_exists.1 hi
    obtain ⟨S1, h1, h2, h3⟩ := insert_some (S := S) (v := if need a p then a else v) ha
    obtain ⟨S', q1, q2, q3⟩ := thetaArgs_some (S := S1) hn.2 (fun w hw => by
      have hw' := h w (by simp [hw])
      refine ⟨by rw [h3 _ (fun e => hn.1 (by have e : w.2.1 = a := e; rw [← e]; exact List.mem_map_of_mem (f := fun v : LoopVar => v.2.1) hw))]; exact hw'.1, ?_⟩
      by_cases e : w.1 = a
      · rw [e, h2]; rfl
      · rw [h3 _ e]; exact hw'.2)
    refine ⟨S', by simp only [thetaArgs, hv, Option.bind_some, h1]; exact q1, fun w hw => ?_, fun z hz => ?_⟩
    · rcases List.mem_cons.1 hw with rfl | hw
      · rw [q3 _ hn.1, h2]; rfl
      · exact q2 w hw
    · simp only [List.map_cons, List.mem_cons, not_or] at hz
      rw [q3 z hz.2, h3 z hz.1]

theorem thetaOuts_some {need : Out → Out → Bool} {pre e l : Nat} : ∀ {lvs : List LoopVar} {S : BS},
    (lvs.map fun v => v.2.2.2).Nodup →
    (∀ v ∈ lvs, S.vm v.2.2.2 = none ∧ (S.vm v.1).isSome ∧ (S.vm v.2.2.1).isSome) →
    ∃ S', thetaOuts need pre e l lvs S = some S' ∧ (∀ v ∈ lvs, (S'.vm v.2.2.2).isSome) ∧
      ∀ z, z ∉ (lvs.map fun v => v.2.2.2) → S'.vm z = S.vm z
  | [], S, _, _ => ⟨S, rfl, by simp, fun _ _ => rfl⟩
  | (i, a, p, o) :: lvs, S, hn, h => by
    simp only [List.map_cons, List.nodup_cons] at hn
    obtain ⟨ha, hi, hp⟩ := h (i, a, p, o) (by simp)
    obtain ⟨rv, hrv⟩ := Option.isSome_iff_exists.1 hp
    obtain ⟨S1, h1, h2, h3⟩ := insert_some (S := S) (v := rv) ha
    have mono : ∀ z, (S.vm z).isSome → (S1.vm z).isSome := fun z hz => by
      by_cases e : z = o
      · rw [e, h2]; rfl
      · rw [h3 _ e]; exact hz
    obtain ⟨ev, hev⟩ := Option.isSome_iff_exists.1 (mono i hi)
    have rcs : ∀ (S0 : BS), S0.vm = S1.vm → ∃ S', thetaOuts need pre e l lvs S0 = some S' ∧
        (∀ v ∈ (i, a, p, o) :: lvs, (S'.vm v.2.2.2).isSome) ∧
        ∀ z, z ∉ (((i, a, p, o) :: lvs).map fun v => v.2.2.2) → S'.vm z = S.vm z := by
      intro S0 h0
      obtain ⟨S', q1, q2, q3⟩ := thetaOuts_some (need := need) (pre := pre) (e := e) (l := l) (S := S0) hn.2 (fun w hw => by
        have hw' := h w (by simp [hw])
        rw [h0]
        exact ⟨by rw [h3 _ (fun e => hn.1 (by have e : w.2.2.2 = o := e; rw [← e]; exact List.mem_map_of_mem (f := fun v : LoopVar => v.2.2.2) hw))]; exact hw'.1,
          mono _ hw'.2.1, mono _ hw'.2.2⟩)
      refine ⟨S', q1, fun w hw => ?_, fun z hz => ?_⟩
      · rcases List.mem_cons.1 hw with rfl | hw
        · rw [q3 _ hn.1, h0, h2]; rfl
        · exact q2 w hw
      · simp only [List.map_cons, List.mem_cons, not_or] at hz
        rw [q3 z hz.2, h0, h3 z hz.1]
    simp only [thetaOuts, hrv, Option.bind_some, h1]
    split
    · simp only [hev, Option.bind_some]
      exact rcs _ rfl
    · exact rcs _ rfl

theorem loopVars_outs : ∀ (ins args posts outs : List Out),
    ((loopVars ins args posts outs).map fun v => v.2.2.2).Sublist outs
  | [], _, _, outs => by simp [loopVars]
  | _ :: _, [], _, _ => by simp [loopVars]
  | _ :: _, _ :: _, [], _ => by simp [loopVars]
  | _ :: _, _ :: _, _ :: _, [] => by simp [loopVars]
  | i :: ins, a :: args, p :: posts, o :: outs => by
    simpa [loopVars] using loopVars_outs ins args posts outs

theorem mem_results : ∀ {subs : Regions} {na nr : Nat}, wfRegions na nr subs = true →
    ∀ rs ∈ Regions.results subs, rs.length = nr
  | .nil, na, nr, _, rs, h => by simp [Regions.results] at h
  | .cons args results sub rest, na, nr, hw, rs, h => by
    simp only [wfRegions, Bool.and_eq_true, beq_iff_eq] at hw
    simp only [Regions.results, List.mem_cons] at h
    rcases h with rfl | h
    · exact hw.1.1.1.2
    · exact mem_results hw.2 rs h

mutual

theorem convNode_some : ∀ (n : Node) {A : List Out} {S : BS}, Node.supported n = true → wfNode A n = true →
    (namesNode n).Nodup → (∀ o ∈ A, (S.vm o).isSome) → (∀ o ∈ namesNode n, S.vm o = none) →
    ∃ S', convNode n S = some S' ∧ (∀ o ∈ n.outs, (S'.vm o).isSome) ∧ ∀ o, o ∉ namesNode n → S'.vm o = S.vm o
  | .simple op ins outs, A, S, hs, hw, hn, hA, hN => by
    simp only [wfNode, Bool.and_eq_true, mem_subset] at hw
    obtain ⟨vs, hvs⟩ := getAll_some fun o ho => hA o (hw.1 o ho)
    obtain ⟨S', q1, q2, q3⟩ := insertAll_some (l := outs.map fun o => (o, o))
      (S := { S with g := S.g.append S.g.last (.op op vs outs) })
      (by simpa [Function.comp_def, namesNode] using hn)
      (fun c hc => by
        obtain ⟨o, ho, rfl⟩ := List.mem_map.1 hc
        exact hN o (by simpa [namesNode] using ho))
    refine ⟨S', by simp [convNode, hvs, q1], fun o ho => ?_, fun o ho => ?_⟩
    · exact q2 (o, o) (List.mem_map_of_mem (f := fun o => (o, o)) ho)
    · rw [q3 o (by simpa [Function.comp_def, namesNode] using ho)]
  | .gamma pred ins outs subs, A, S, hs, hw, hn, hA, hN => by
    simp only [wfNode, Bool.and_eq_true, mem_subset] at hw
    simp only [Node.supported, Bool.and_eq_true] at hs
    simp only [namesNode, List.mem_append] at hN
    rw [namesNode, List.nodup_append] at hn
    obtain ⟨hn1, hn2, hn3⟩ := hn
    obtain ⟨p, hp⟩ := Option.isSome_iff_exists.1 (hA pred (hw.1 pred (by simp)))
    obtain ⟨r, q1, q2, q3⟩ := convRegions_some (e := S.g.next) (x := S.g.next + 1) (ins := ins) subs
      (S := { S with g := S.g.openGamma p }) hs.2 hw.2 hn2
      (fun i hi => hA i (hw.1 i (by simp [hi]))) (fun o ho => hN o (.inr ho))
    obtain ⟨S', q4, q5, q6⟩ := gammaOuts_some (ends := r.2) (x := S.g.next + 1) (outs := outs)
      (rss := Regions.results subs) (S := r.1) hn1
      (fun o ho => by rw [q3 o (fun h => hn3 o ho o h rfl)]; exact hN o (.inl ho))
      (fun rs hrs => ⟨mem_results hw.2 rs hrs, q2 rs hrs⟩)
    refine ⟨{ S' with g := S'.g.setLast (S.g.next + 1) }, by simp only [convNode, hp, Option.bind_some, q1, q4]; rfl, fun o ho => q5 o ho, fun o ho => ?_⟩
    simp only [namesNode, List.mem_append, not_or] at ho
    show S'.vm o = S.vm o
    rw [q6 o ho.1, q3 o ho.2]
  | .theta ins outs args pred posts sub, A, S, hs, hw, hn, hA, hN => by
    simp only [wfNode, Bool.and_eq_true, mem_subset, beq_iff_eq] at hw
    obtain ⟨⟨⟨⟨⟨hi, hl1⟩, hl2⟩, hl3⟩, hwf⟩, hsub⟩ := hw
    simp only [Node.supported] at hs
    simp only [namesNode, List.mem_append] at hN
    rw [namesNode, List.nodup_append, List.nodup_append] at hn
    obtain ⟨⟨hno, hna, hoa⟩, hnn, hn3⟩ := hn
    have hv : ∀ v ∈ loopVars ins args posts outs, v.1 ∈ ins ∧ v.2.1 ∈ args ∧ v.2.2.1 ∈ posts ∧ v.2.2.2 ∈ outs := by
      rintro ⟨i, a, p, o⟩ h
      obtain ⟨k, k1, k2, k3, k4⟩ := mem_loopVars.1 h
      exact ⟨List.mem_of_getElem? k1, List.mem_of_getElem? k2, List.mem_of_getElem? k3, List.mem_of_getElem? k4⟩
    obtain ⟨S1, q1, q2, q3⟩ := thetaArgs_some (need := needsPhi sub (pred :: posts)) (S := { S with g := S.g.openBlock })
      ((loopVars_args ins args posts outs).nodup hna)
      (fun v h => ⟨hN _ (.inl (.inr (hv v h).2.1)), hA _ (hi _ (hv v h).1)⟩)
    have q3' : ∀ z, z ∉ args → S1.vm z = S.vm z := fun z hz =>
      q3 z fun h => hz ((loopVars_args ins args posts outs).subset h)
    have q2' : ∀ a ∈ args, (S1.vm a).isSome := by
      intro a ha
      obtain ⟨k, hk⟩ := List.mem_iff_getElem?.1 ha
      have hkl := (List.getElem?_eq_some_iff.1 hk).1
      exact q2 _ (mem_loopVars.2 ⟨k, List.getElem?_eq_getElem (by omega), hk, List.getElem?_eq_getElem (by omega),
        List.getElem?_eq_getElem (by omega)⟩)
    obtain ⟨S2, q4, q5, q6⟩ := convNodes_some sub (S := { S1 with g := S1.g.openBlock }) hs hwf hnn q2' (fun o ho => by
      show S1.vm o = none
      rw [q3' o (fun h => hn3 o (by simp [h]) o ho rfl)]
      exact hN o (.inr ho))
    have q6' : ∀ o, o ∉ namesNodes sub → S2.vm o = S1.vm o := q6
    have hres : ∀ o ∈ pred :: posts, (S2.vm o).isSome := by
      intro o ho
      rcases List.mem_append.1 (hsub o ho) with h | h
      · rw [q6' o (fun h' => hn3 o (by simp [h]) o h' rfl)]; exact q2' o h
      · exact q5 o h
    have hvin : ∀ i ∈ ins, (S2.vm i).isSome := by
      intro i hi'
      have hA' := hA i (hi i hi')
      have hN' : ∀ x, S.vm x = none → i ≠ x := fun x hx e => by rw [← e] at hx; rw [hx] at hA'; simp at hA'
      rw [q6' i (fun h => hN' i (hN i (.inr h)) rfl), q3' i (fun h => hN' i (hN i (.inl (.inr h))) rfl)]
      exact hA'
    obtain ⟨S3, q7, q8, q9⟩ := thetaOuts_some (need := needsPhi sub (pred :: posts)) (pre := S.g.last) (e := S.g.next)
      (l := S2.g.next) (S := { S2 with g := S2.g.openBlock }) ((loopVars_outs ins args posts outs).nodup hno)
      (fun v h => by
        have h' := hv v h
        refine ⟨?_, hvin _ h'.1, hres _ (by simp [h'.2.2.1])⟩
        show S2.vm _ = none
        rw [q6' _ (fun e => hn3 _ (by simp [h'.2.2.2]) _ e rfl), q3' _ (fun e => hoa _ h'.2.2.2 _ e rfl)]
        exact hN _ (.inl (.inl h'.2.2.2)))
    have q9' : ∀ z, z ∉ outs → S3.vm z = S2.vm z := fun z hz =>
      q9 z fun h => hz ((loopVars_outs ins args posts outs).subset h)
    have hpm : pred ∉ outs := by
      intro h
      rcases List.mem_append.1 (hsub pred (by simp)) with h' | h'
      · exact hoa _ h _ h' rfl
      · exact hn3 _ (by simp [h]) _ (outs_namesNodes sub _ h') rfl
    obtain ⟨p, hp⟩ := Option.isSome_iff_exists.1 (hres pred (by simp))
    refine ⟨{ S3 with g := S3.g.closeTheta S.g.next p }, by simp only [convNode, q1, q4, q7, Option.bind_some, q9' _ hpm, hp]; rfl, fun o ho => ?_, fun o ho => ?_⟩
    · obtain ⟨k, hk⟩ := List.mem_iff_getElem?.1 ho
      simp only [Node.outs] at hk
      have hkl := (List.getElem?_eq_some_iff.1 hk).1
      exact q8 _ (mem_loopVars.2 ⟨k, List.getElem?_eq_getElem (by omega), List.getElem?_eq_getElem (by omega),
        List.getElem?_eq_getElem (by omega), hk⟩)
    · simp only [namesNode, List.mem_append, not_or] at ho
      show S3.vm o = S.vm o
      rw [q9' o ho.1.1, q6' o ho.2, q3' o ho.1.2]
  | .lambda .., A, S, hs, hw, hn, hA, hN => by simp [Node.supported] at hs
  | .phi .., A, S, hs, hw, hn, hA, hN => by simp [Node.supported] at hs
  | .delta .., A, S, hs, hw, hn, hA, hN => by simp [Node.supported] at hs

theorem convNodes_some : ∀ (ns : Nodes) {A : List Out} {S : BS}, Nodes.supported ns = true → wfNodes A ns = true →
    (namesNodes ns).Nodup → (∀ o ∈ A, (S.vm o).isSome) → (∀ o ∈ namesNodes ns, S.vm o = none) →
    ∃ S', convNodes ns S = some S' ∧ (∀ o ∈ ns.outs, (S'.vm o).isSome) ∧ ∀ o, o ∉ namesNodes ns → S'.vm o = S.vm o
  | .nil, A, S, hs, hw, hn, hA, hN => ⟨S, rfl, by simp [Nodes.outs], fun _ _ => rfl⟩
  | .cons n ns, A, S, hs, hw, hn, hA, hN => by
    simp only [wfNodes, Bool.and_eq_true] at hw
    simp only [Nodes.supported, Bool.and_eq_true] at hs
    simp only [namesNodes, List.mem_append] at hN
    rw [namesNodes, List.nodup_append] at hn
    obtain ⟨hn1, hn2, hn3⟩ := hn
    obtain ⟨S1, q1, q2, q3⟩ := convNode_some n hs.1 hw.1 hn1 hA (fun o ho => hN o (.inl ho))
    obtain ⟨S', q4, q5, q6⟩ := convNodes_some ns (S := S1) hs.2 hw.2 hn2 (fun o ho => by
        rcases List.mem_append.1 ho with ho | ho
        · exact q2 o ho
        · have := hA o ho
          rw [q3 o (fun h => by rw [hN o (.inl h)] at this; simp at this)]; exact this)
      (fun o ho => by rw [q3 o (fun h => hn3 o h o ho rfl)]; exact hN o (.inr ho))
    refine ⟨S', by simp [convNodes, q1, q4], fun o ho => ?_, fun o ho => ?_⟩
    · simp only [Nodes.outs, List.mem_append] at ho
      rcases ho with ho | ho
      · rw [q6 o (fun h => hn3 o (outs_names n o ho) o h rfl)]; exact q2 o ho
      · exact q5 o ho
    · simp only [namesNodes, List.mem_append, not_or] at ho
      rw [q6 o ho.2, q3 o ho.1]

theorem convRegions_some {e x nr : Nat} {ins : List Out} : ∀ (subs : Regions) {S : BS},
    Regions.supported subs = true → wfRegions (ins.length + 1) nr subs = true → (namesRegions subs).Nodup →
    (∀ i ∈ ins, (S.vm i).isSome) → (∀ o ∈ namesRegions subs, S.vm o = none) →
    ∃ r, convRegions e x ins subs S = some r ∧ (∀ rs ∈ Regions.results subs, ∀ o ∈ rs, (r.1.vm o).isSome) ∧
      ∀ o, o ∉ namesRegions subs → r.1.vm o = S.vm o
  | .nil, S, hs, hw, hn, hA, hN => ⟨_, rfl, by simp [Regions.results], fun _ _ => rfl⟩
  | .cons args results sub rest, S, hs, hw, hn, hA, hN => by
    simp only [wfRegions, Bool.and_eq_true, mem_subset, beq_iff_eq] at hw
    obtain ⟨⟨⟨⟨hl1, hl2⟩, hwf⟩, hsub⟩, hrest⟩ := hw
    simp only [Regions.supported, Bool.and_eq_true, Bool.not_eq_true', List.contains_eq_mem, decide_eq_false_iff_not] at hs
    obtain ⟨⟨⟨hu1, hu2⟩, hs1⟩, hs2⟩ := hs
    simp only [namesRegions, List.mem_append] at hN
    rw [namesRegions, List.nodup_append, List.nodup_append] at hn
    obtain ⟨⟨hna, hnn, hnan⟩, hnr, hn3⟩ := hn
    obtain ⟨vs, hvs⟩ := getAll_some hA
    have hvl := getAll_length hvs
    cases args with
    | nil => simp at hl1
    | cons a0 as =>
      simp only [List.headD_cons, List.tail_cons, List.length_cons] at *
      have hlen : as.length = vs.length := by omega
      have hz : (as.zip vs).map Prod.fst = as := by rw [List.map_fst_zip]; omega
      rw [List.nodup_cons] at hna
      have hNn : ∀ i, (S.vm i).isSome → ¬ (S.vm i = none) := fun i h h' => by rw [h'] at h; simp at h
      obtain ⟨S0, q1, q2, q3⟩ := insertAll_some (l := as.zip vs) (S := S) (by rw [hz]; exact hna.2)
        (fun c hc => hN c.1 (.inl (.inl (by
          have : c.1 ∈ (as.zip vs).map Prod.fst := List.mem_map_of_mem hc
          rw [hz] at this; simp [this]))))
      rw [hz] at q3
      have q2' : ∀ a ∈ as, (S0.vm a).isSome := fun a ha => by
        rw [← hz] at ha
        obtain ⟨c, hc, rfl⟩ := List.mem_map.1 ha
        exact q2 c hc
      obtain ⟨S1, q4, q5, q6⟩ := convNodes_some sub (A := as) (S := { S0 with g := S0.g.openBranch e }) hs1
        (Dne.wfNodes_mono sub _ _ (fun y hy hya => by
          rcases List.mem_cons.1 hya with h | h
          · exact absurd (h ▸ hy) hu1
          · exact h) hwf) hnn q2'
        (fun o ho => by
          show S0.vm o = none
          rw [q3 o (fun h => hnan o (by simp [h]) o ho rfl)]
          exact hN o (.inl (.inr ho)))
      have q6' : ∀ o, o ∉ namesNodes sub → S1.vm o = S0.vm o := q6
      obtain ⟨r, q7, q8, q9⟩ := convRegions_some (e := e) (x := x) rest
        (S := { S1 with g := S1.g.openBlock.edge S1.g.next x }) hs2 hrest hnr
        (fun i hi => by
          show (S1.vm i).isSome
          rw [q6' i (fun h => hNn i (hA i hi) (hN i (.inl (.inr h)))),
            q3 i (fun h => hNn i (hA i hi) (hN i (.inl (.inl (by simp [h])))))]
          exact hA i hi)
        (fun o ho => by
          show S1.vm o = none
          rw [q6' o (fun h => hn3 o (by simp [h]) o ho rfl), q3 o (fun h => hn3 o (by simp [h]) o ho rfl)]
          exact hN o (.inr ho))
      have q9' : ∀ o, o ∉ namesRegions rest → r.1.vm o = S1.vm o := q9
      refine ⟨(r.1, S1.g.next :: r.2), by simp only [convRegions, hvs, Option.bind_some, List.tail_cons, q1, q4, q7]; rfl, fun rs hrs o ho => ?_,
        fun o ho => ?_⟩
      · simp only [Regions.results, List.mem_cons] at hrs
        rcases hrs with rfl | hrs
        · show (r.1.vm o).isSome
          rcases List.mem_append.1 (hsub o ho) with h | h
          · rcases List.mem_cons.1 h with h | h
            · exact absurd (h ▸ ho) hu2
            · rw [q9' o (fun h' => hn3 o (by simp [h]) o h' rfl), q6' o (fun h' => hnan o (by simp [h]) o h' rfl)]
              exact q2' o h
          · rw [q9' o (fun h' => hn3 o (by simp [outs_namesNodes sub o h]) o h' rfl)]
            exact q5 o h
        · exact q8 rs hrs o ho
      · simp only [namesRegions, List.mem_append, not_or, List.mem_cons] at ho
        show r.1.vm o = S.vm o
        rw [q9' o ho.2, q6' o ho.1.2, q3 o ho.1.1.2]

end

end Jlm.Back
