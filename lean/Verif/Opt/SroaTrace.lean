import Verif.Opt.SroaRun

set_option linter.unusedSimpArgs false
set_option linter.unusedVariables false

/-!
# Aggregate alloca splitting: what tracing guarantees
-/

namespace Jlm.Opt.Sroa

open Jlm.Llvm.Layout

theorem push_spec : ∀ (outs q seen : List Nat),
    (∀ x ∈ seen, x ∈ (push q seen outs).2) ∧ (∀ x ∈ outs, x ∈ (push q seen outs).2) ∧ (∀ x ∈ q, x ∈ (push q seen outs).1) ∧
      ∀ x ∈ (push q seen outs).2, x ∈ seen ∨ x ∈ (push q seen outs).1
  | [], q, seen => by
    simp only [push]
    exact ⟨fun x h => h, fun x h => by simp at h, fun x h => h, fun x h => .inl h⟩
  | o :: os, q, seen => by
    simp only [push]
    by_cases h : seen.contains o = true
    · rw [if_pos h]
      obtain ⟨h1, h2, h3, h4⟩ := push_spec os q seen
      refine ⟨h1, fun x hx => ?_, h3, h4⟩
      rcases List.mem_cons.mp hx with rfl | hx
      · exact h1 _ (by simpa using h)
      · exact h2 x hx
    · rw [if_neg h]
      obtain ⟨h1, h2, h3, h4⟩ := push_spec os (q ++ [o]) (seen ++ [o])
      refine ⟨fun x hx => h1 x (by simp [hx]), fun x hx => ?_, fun x hx => h3 x (by simp [hx]), fun x hx => ?_⟩
      · rcases List.mem_cons.mp hx with rfl | hx
        · exact h1 _ (by simp)
        · exact h2 x hx
      · rcases h4 x hx with h | h
        · rcases List.mem_append.mp h with h | h
          · exact .inl h
          · exact .inr (h3 x (by simp at h; simp [h]))
        · exact .inr h

/-- A user has been handled. -/
def DoneU (cls : Use → Option (List Nat × List Gep)) (seen : List Nat) (gs : List Gep) (u : Use) : Prop :=
  ∃ outs g, cls u = some (outs, g) ∧ (∀ o ∈ outs, o ∈ seen) ∧ ∀ x ∈ g, x ∈ gs

theorem DoneU.mono {cls : Use → Option (List Nat × List Gep)} {seen seen' : List Nat} {gs gs' : List Gep} {u : Use}
    (h : DoneU cls seen gs u) (h1 : ∀ x ∈ seen, x ∈ seen') (h2 : ∀ x ∈ gs, x ∈ gs') : DoneU cls seen' gs' u := by
  obtain ⟨outs, g, a, b, c⟩ := h
  exact ⟨outs, g, a, fun o ho => h1 o (b o ho), fun x hx => h2 x (c x hx)⟩

theorem visit_spec {cls : Use → Option (List Nat × List Gep)} : ∀ (us : List Use) (q seen : List Nat) (gs : List Gep) {q' seen' : List Nat}
    {gs' : List Gep}, visit cls us q seen gs = some (q', seen', gs') →
    (∀ x ∈ seen, x ∈ seen') ∧ (∀ x ∈ q, x ∈ q') ∧ (∀ x ∈ gs, x ∈ gs') ∧ (∀ x ∈ seen', x ∈ seen ∨ x ∈ q') ∧ ∀ u ∈ us, DoneU cls seen' gs' u
  | [], q, seen, gs, q', seen', gs', h => by
    simp only [visit, Option.some.injEq, Prod.mk.injEq] at h
    obtain ⟨rfl, rfl, rfl⟩ := h
    exact ⟨fun x h => h, fun x h => h, fun x h => h, fun x h => .inl h, fun u h => by simp at h⟩
  | u :: us, q, seen, gs, q', seen', gs', h => by
    simp only [visit] at h
    cases hc : cls u with
    | none => rw [hc] at h; simp at h
    | some r =>
      obtain ⟨outs, g⟩ := r
      rw [hc] at h
      simp only at h
      obtain ⟨p1, p2, p3, p4⟩ := push_spec outs q seen
      obtain ⟨h1, h2, h3, h4, h5⟩ := visit_spec us _ _ _ h
      refine ⟨fun x hx => h1 x (p1 x hx), fun x hx => h2 x (p3 x hx), fun x hx => h3 x (by simp [hx]), fun x hx => ?_, fun v hv => ?_⟩
      · rcases h4 x hx with h | h
        · rcases p4 x h with h | h
          · exact .inl h
          · exact .inr (h2 x h)
        · exact .inr h
      · rcases List.mem_cons.mp hv with rfl | hv
        · exact ⟨outs, g, hc, fun o ho => h1 o (p2 o ho), fun x hx => h3 x (by simp [hx])⟩
        · exact h5 v hv

theorem trace_spec {us : List (Nat × Use)} {cls : Use → Option (List Nat × List Gep)} {x0 : Nat} :
    ∀ (k : Nat) (q seen : List Nat) (gs : List Gep) {seen' : List Nat} {gs' : List Gep}, trace us cls k q seen gs = some (seen', gs') →
    (∀ x, x = x0 ∨ x ∈ seen → x ∈ q ∨ ∀ u ∈ users us x, DoneU cls seen gs u) →
    ∀ x, x = x0 ∨ x ∈ seen' → ∀ u ∈ users us x, DoneU cls seen' gs' u
  | 0, q, seen, gs, seen', gs', h, hi => by simp [trace] at h
  | k + 1, [], seen, gs, seen', gs', h, hi => by
    simp only [trace, Option.some.injEq, Prod.mk.injEq] at h
    obtain ⟨rfl, rfl⟩ := h
    intro x hx
    rcases hi x hx with h | h
    · simp at h
    · exact h
  | k + 1, y :: q, seen, gs, seen', gs', h, hi => by
    simp only [trace] at h
    cases hv : visit cls (users us y) q seen gs with
    | none => rw [hv] at h; simp at h
    | some r =>
      obtain ⟨q1, seen1, gs1⟩ := r
      rw [hv] at h
      simp only at h
      obtain ⟨h1, h2, h3, h4, h5⟩ := visit_spec _ _ _ _ hv
      refine trace_spec k q1 seen1 gs1 h ?_
      intro x hx
      by_cases hxy : x = y
      · subst hxy
        exact .inr h5
      · have hx' : x = x0 ∨ x ∈ seen ∨ x ∈ q1 := by
          rcases hx with h | h
          · exact .inl h
          · exact .inr (h4 x h)
        rcases hx' with hx' | hx' | hx'
        · rcases hi x (.inl hx') with h | h
          · exact .inl (h2 x (by simpa [hxy] using h))
          · exact .inr fun u hu => (h u hu).mono h1 h3
        · rcases hi x (.inr hx') with h | h
          · exact .inl (h2 x (by simpa [hxy] using h))
          · exact .inr fun u hu => (h u hu).mono h1 h3
        · exact .inl hx'

theorem trace_start {us : List (Nat × Use)} {cls : Use → Option (List Nat × List Gep)} {x0 k : Nat} {seen : List Nat} {gs : List Gep}
    (h : trace us cls k [x0] [] [] = some (seen, gs)) {x : Nat} (hx : x = x0 ∨ x ∈ seen) {u : Use} (hu : (x, u) ∈ us) :
    DoneU cls seen gs u := by
  refine trace_spec k _ _ _ h ?_ x hx u ?_
  · rintro y (rfl | hy)
    · exact .inl (by simp)
    · simp at hy
  · simp only [users, List.mem_filterMap]
    exact ⟨(x, u), hu, by simp⟩

theorem checkAll_spec {us : List (Nat × Use)} {k : Nat} : ∀ {gs : List Gep} {p : List Nat}, checkAll us k gs = some p →
    (∀ g ∈ gs, g.1 ∈ p) ∧ ∀ x ∈ p, ∀ u, (x, u) ∈ us → DoneU clsGep p [] u ∨ ∃ g, DoneU clsGep p g u
  | [], p, h => by
    simp only [checkAll, Option.some.injEq] at h
    subst h
    simp
  | g :: gs, p, h => by
    simp only [checkAll] at h
    cases ht : trace us clsGep k [g.1] [] [] with
    | none => rw [ht] at h; simp at h
    | some r =>
      obtain ⟨seen, gs1⟩ := r
      rw [ht] at h
      simp only at h
      cases hc : checkAll us k gs with
      | none => rw [hc] at h; simp at h
      | some rest =>
        rw [hc] at h
        simp only [Option.some.injEq] at h
        subst h
        obtain ⟨h1, h2⟩ := checkAll_spec hc
        constructor
        · intro g' hg'
          rcases List.mem_cons.mp hg' with rfl | hg'
          · simp
          · simp [h1 g' hg']
        · intro x hx u hu
          simp only [List.cons_append, List.mem_cons, List.mem_append] at hx
          have hx' : (x = g.1 ∨ x ∈ seen) ∨ x ∈ rest := by
            rcases hx with h | h | h
            · exact .inl (.inl h)
            · exact .inl (.inr h)
            · exact .inr h
          rcases hx' with hx' | hx'
          · exact .inr ⟨gs1, (trace_start ht hx' hu).mono (fun y hy => by simp [hy]) fun _ h => h⟩
          · rcases h2 x hx' u hu with h | ⟨g', h⟩
            · exact .inl (h.mono (fun y hy => by simp [hy]) fun _ h => h)
            · exact .inr ⟨g', h.mono (fun y hy => by simp [hy]) fun _ h => h⟩

mutual

theorem Node.find_spec {us : List (Nat × Use)} {k : Nat} : ∀ (nd : Node) {i : Info}, i ∈ nd.find us k → ∃ n ty cnt, isSplitable us k n ty cnt = some i
  | .op _ _ _, i, h => by simp [Node.find] at h
  | .alloca n ty cnt els, i, h => ⟨n, ty, cnt, by simpa [Node.find] using h⟩
  | .gep _ _ _ _, i, h => by simp [Node.find] at h
  | .elem _ _ _, i, h => by simp [Node.find] at h
  | .load _ _ _, i, h => by simp [Node.find] at h
  | .store _ _ _, i, h => by simp [Node.find] at h
  | .barrier _ _, i, h => by simp [Node.find] at h
  | .gamma _ brs _, i, h => findB_spec brs (by simpa only [Node.find] using h)
  | .theta _ body _, i, h => findL_spec body (by simpa only [Node.find] using h)

theorem findL_spec {us : List (Nat × Use)} {k : Nat} : ∀ (ns : List Node) {i : Info}, i ∈ findL us k ns → ∃ n ty cnt, isSplitable us k n ty cnt = some i
  | [], i, h => by simp [findL] at h
  | n :: ns, i, h => by
    simp only [findL, List.mem_append] at h
    rcases h with h | h
    · exact Node.find_spec n h
    · exact findL_spec ns h

theorem findB_spec {us : List (Nat × Use)} {k : Nat} : ∀ (bs : List (List Node)) {i : Info}, i ∈ findB us k bs → ∃ n ty cnt, isSplitable us k n ty cnt = some i
  | [], i, h => by simp [findB] at h
  | b :: bs, i, h => by
    simp only [findB, List.mem_append] at h
    rcases h with h | h
    · exact findL_spec b h
    · exact findB_spec bs h

end

/-- What is known about an alloca that is split. -/
theorem isSplitable_spec {us : List (Nat × Use)} {k n : Nat} {ty : Ty} {cnt : Nat} {i : Info} (h : isSplitable us k n ty cnt = some i) :
    i.n = n ∧ i.ty = ty ∧ cnt = 1 ∧ isSplitableType ty = true ∧ i.n ∈ i.seenA ∧ (∀ g ∈ i.cons, g.1 ∈ i.seenP) ∧
    (∀ x ∈ i.seenA, ∀ u, (x, u) ∈ us → DoneU clsAlloca i.seenA i.cons u) ∧
    ∀ x ∈ i.seenP, ∀ u, (x, u) ∈ us → ∃ g, DoneU clsGep i.seenP g u := by
  unfold isSplitable at h
  by_cases hc : (isSplitableType ty && cnt == 1) = true
  · rw [if_pos hc] at h
    cases ht : trace us clsAlloca k [n] [] [] with
    | none => rw [ht] at h; simp at h
    | some r =>
      obtain ⟨seen, gs⟩ := r
      rw [ht] at h
      simp only at h
      cases hca : checkAll us k gs with
      | none => rw [hca] at h; simp at h
      | some p =>
        rw [hca] at h
        simp only [Option.some.injEq] at h
        subst h
        obtain ⟨h1, h2⟩ := checkAll_spec hca
        simp only [Bool.and_eq_true, beq_iff_eq] at hc
        refine ⟨rfl, rfl, hc.2, hc.1, by simp, h1, fun x hx u hu => ?_, fun x hx u hu => ?_⟩
        · exact (trace_start ht (by simpa using hx) hu).mono (fun y hy => by simp [hy]) fun _ h => h
        · rcases h2 x hx u hu with h | h
          · exact ⟨_, h⟩
          · exact h
  · rw [if_neg hc] at h
    simp at h

variable {S : Sem}

/-- The configuration of a function. -/
def Fun.cfg (f : Fun) (K : Know S) (k c0 : Nat) : Cfg S :=
  ⟨K, f.plan k, fun x => ∃ i ∈ f.plan k, x ∈ i.seenA, fun x => ∃ i ∈ f.plan k, x ∈ i.seenP, c0⟩

theorem cfg_traced (f : Fun) (K : Know S) (k c0 : Nat) : (f.cfg K k c0).Traced where
  allocas i hi := by
    obtain ⟨n, ty, cnt, h⟩ := findL_spec f.body hi
    exact ⟨i, hi, (isSplitable_spec h).2.2.2.2.1⟩
  cons i hi g hg := by
    obtain ⟨n, ty, cnt, h⟩ := findL_spec f.body hi
    exact ⟨i, hi, (isSplitable_spec h).2.2.2.2.2.1 g hg⟩

theorem cfg_good (f : Fun) (K : Know S) (k c0 : Nat) {x : Nat} {u : Use} (hu : (x, u) ∈ f.uses) : (f.cfg K k c0).Good x u := by
  have hA : ∀ {i}, i ∈ f.plan k → x ∈ i.seenA → DoneU clsAlloca i.seenA i.cons u := fun hi hx => by
    obtain ⟨n, ty, cnt, h⟩ := findL_spec f.body hi
    exact (isSplitable_spec h).2.2.2.2.2.2.1 x hx u hu
  have hP : ∀ {i}, i ∈ f.plan k → x ∈ i.seenP → ∃ g, DoneU clsGep i.seenP g u := fun hi hx => by
    obtain ⟨n, ty, cnt, h⟩ := findL_spec f.body hi
    exact (isSplitable_spec h).2.2.2.2.2.2.2 x hx u hu
  have nA : (clsAlloca u = none) → ¬ (f.cfg K k c0).A x := by
    rintro hn ⟨i, hi, hx⟩
    obtain ⟨outs, g, h, -⟩ := hA hi hx
    rw [hn] at h
    simp at h
  have nP : (clsGep u = none) → ¬ (f.cfg K k c0).P x := by
    rintro hn ⟨i, hi, hx⟩
    obtain ⟨_, outs, g, h, -⟩ := hP hi hx
    rw [hn] at h
    simp at h
  cases u with
  | flow outs =>
    intro o ho
    constructor
    · rintro ⟨i, hi, hx⟩
      obtain ⟨outs', g, h, h1, -⟩ := hA hi hx
      simp only [clsAlloca, Option.some.injEq, Prod.mk.injEq] at h
      obtain ⟨rfl, -⟩ := h
      exact ⟨i, hi, h1 o ho⟩
    · rintro ⟨i, hi, hx⟩
      obtain ⟨_, outs', g, h, h1, -⟩ := hP hi hx
      simp only [clsGep, Option.some.injEq, Prod.mk.injEq] at h
      obtain ⟨rfl, -⟩ := h
      exact ⟨i, hi, h1 o ho⟩
  | gep out idxs =>
    refine ⟨nP rfl, ?_⟩
    rintro ⟨i, hi, hx⟩
    obtain ⟨outs', g, h, -, h1⟩ := hA hi hx
    simp only [clsAlloca, Option.some.injEq, Prod.mk.injEq] at h
    obtain ⟨-, rfl⟩ := h
    have hm := h1 (out, idxs) (by simp)
    have : ((f.plan k).find? fun i => i.cons.any (·.1 == out)).isSome := by
      rw [List.find?_isSome]
      exact ⟨i, hi, by simp only [List.any_eq_true]; exact ⟨_, hm, by simp⟩⟩
    exact Option.isSome_iff_exists.mp this
  | load => exact nA rfl
  | storeAddr => exact nA rfl
  | storeVal => exact ⟨nA rfl, nP rfl⟩
  | barrier out =>
    refine ⟨nA rfl, ?_⟩
    rintro ⟨i, hi, hx⟩
    obtain ⟨_, outs', g, h, h1, -⟩ := hP hi hx
    simp only [clsGep, Option.some.injEq, Prod.mk.injEq] at h
    obtain ⟨rfl, -⟩ := h
    exact ⟨i, hi, h1 out (by simp)⟩
  | result => exact ⟨nA rfl, nP rfl⟩
  | other => exact ⟨nA rfl, nP rfl⟩

/-- If a function is split, then every execution of it in which the GetElementPtr operations that are replaced get the address of the alloca,
and no load or store of an element is larger than the element (`ok`), is an execution of the result too: it finishes with the same results,
and the same contents of all objects that existed before, or have not been made by alloca nodes of the function. The function is started
in a state that does not contain addresses of its allocas.

What is missing: the code does not check `ok` (finding 71). -/
theorem C54_split_partial {K : Know S} {ops : Ops S} (laws : K.Laws ops) {f f' : Fun} {n : Nat} (hw : wfL (f.plan n) f.body)
    (hf : f.split n = some f') {k : Nat} {s s' : St S} (he : ∀ x, K.word (fun m => s.c ≤ m) (s.e x)) (hm : K.mem (fun m => s.c ≤ m) s.m)
    (hok : ok ops (f.plan n) k f.body s) (hr : run ops k f.body s = some s') :
    ∃ t', run ops k f'.body s = some t' ∧ (∀ r ∈ f.results, t'.e r = s'.e r) ∧
      ∀ o, Outside (fun m => s.c ≤ m) o → t'.m o = s'.m o := by
  obtain ⟨body, hb, rfl⟩ := Option.map_eq_some_iff.mp hf
  let C := f.cfg K n s.c
  have hX : Hidden (fun _ => none) s.c = fun m => s.c ≤ m := by
    funext m
    apply propext
    simp [Hidden]
  have hJ : C.J (fun _ => none) [] s s := by
    refine ⟨rfl, fun n i h => by simp at h, fun x => Cfg.Rel.same ?_, fun _ _ => rfl, ?_, fun n i h => by simp at h, fun n h => by simp at h,
      Nat.le_refl _, fun n i h => by simp at h⟩
    · rw [hX]; exact he x
    · rw [hX]; exact hm
  obtain ⟨t', g, h1, h2⟩ := sim (C := C) laws (cfg_traced f K n s.c) k f.body body [] _ s s s' hw
    (fun u hu => cfg_good f K n s.c (List.mem_append_left _ hu)) hb hJ hr hok
  refine ⟨t', h1, fun r hr => ?_, fun o ho => ?_⟩
  · have hg : C.Good r .result := cfg_good f K n s.c (List.mem_append_right _ (List.mem_map.mpr ⟨r, hr, rfl⟩))
    exact ((h2.env r).untracked hg.1 hg.2).1
  · refine h2.mem o fun m i hoi => ?_
    have := ho m i hoi
    rintro (h | ⟨i', h⟩)
    · have := h2.lo.1
      exact ho m i hoi (Nat.le_trans this h)
    · exact ho m i hoi (h2.lo.2 m i' h)

end Jlm.Opt.Sroa
