import Verif.Opt.SroaLeaves
import Mathlib.Data.List.Forall2

set_option linter.unusedSimpArgs false
set_option linter.unusedVariables false

/-!
# Aggregate alloca splitting: simulation
-/

namespace Jlm.Opt.Sroa

open Jlm.Llvm.Layout

variable {S : Sem}

/-- The outputs that have been traced: addresses of allocas (`A`) and of elements (`P`). -/
structure Cfg (S : Sem) where
  K : Know S
  pl : List Info
  A : Nat → Prop
  P : Nat → Prop
  /-- the number of the first alloca of the function -/
  c0 : Nat

/-- What tracing has found out about a user. -/
def Cfg.Good (C : Cfg S) (x : Nat) : Use → Prop
  | .flow outs => ∀ o ∈ outs, (C.A x → C.A o) ∧ (C.P x → C.P o)
  | .gep out _ => ¬ C.P x ∧ (C.A x → ∃ i, consumer C.pl out = some i)
  | .load => ¬ C.A x
  | .storeAddr => ¬ C.A x
  | .barrier out => ¬ C.A x ∧ (C.P x → C.P out)
  | .storeVal => ¬ C.A x ∧ ¬ C.P x
  | .result => ¬ C.A x ∧ ¬ C.P x
  | .other => ¬ C.A x ∧ ¬ C.P x

/-- What has been traced. -/
structure Cfg.Traced (C : Cfg S) : Prop where
  allocas : ∀ i ∈ C.pl, C.A i.n
  cons : ∀ i ∈ C.pl, ∀ g ∈ i.cons, C.P g.1

/-- The split allocas that have been executed, and those that have not been executed yet. -/
def Hidden (g : Nat → Option Info) (c : Nat) (n : Nat) : Prop := c ≤ n ∨ ∃ i, g n = some i

/-- The address of an element, and that of its own alloca. -/
def Cfg.Elem (C : Cfg S) (g : Nat → Option Info) (w w' : S.W) : Prop :=
  ∃ (m : Nat) (i i' : Info) (gp : Gep) (j : Nat) (x : List Int × Ty) (off : Nat), g m = some i ∧ i' ∈ C.pl ∧ i'.n = i.n ∧ i'.ty = i.ty ∧
    gp ∈ i'.cons ∧ gp.2 = x.1 ∧ (elements i.ty)[j]? = some x ∧ gepOff i.ty x.1 = some (off : Int) ∧
    w = S.addr (.loc m 0) off ∧ w' = S.addr (.loc m (j + 1)) 0

def Cfg.R (C : Cfg S) (g : Nat → Option Info) (c : Nat) (w w' : S.W) : Prop := (w = w' ∧ C.K.word (Hidden g c) w) ∨ C.Elem g w w'

/-- The values of an output in the original function and in the result. -/
structure Cfg.Rel (C : Cfg S) (g : Nat → Option Info) (c : Nat) (x : Nat) (w w' : S.W) : Prop where
  eq : ¬ C.P x → w = w'
  rel : ¬ C.A x → C.R g c w w'
  clean : ¬ C.A x → ¬ C.P x → C.K.word (Hidden g c) w

/-- The object of a split alloca, and those of its elements. -/
def Cfg.Split (C : Cfg S) (X : Nat → Prop) (s t : Mem S) (n : Nat) (i : Info) : Prop :=
  ∃ ob, s (.loc n 0) = some ob ∧ ob.src = i.n ∧ ∀ j x off, (elements i.ty)[j]? = some x → gepOff i.ty x.1 = some ((off : Nat) : Int) →
    ∃ ob', t (.loc n (j + 1)) = some ob' ∧ ob'.size = allocSize x.2 ∧
      ∀ k, k < allocSize x.2 → ob'.bytes k = ob.bytes (off + k) ∧ C.K.byte X (ob.bytes (off + k))

structure Cfg.J (C : Cfg S) (g : Nat → Option Info) (Γ : List Nat) (s t : St S) : Prop where
  c : t.c = s.c
  old : ∀ n i, g n = some i → n < s.c ∧ i ∈ C.pl
  env : ∀ x, C.Rel g s.c x (s.e x) (t.e x)
  mem : ∀ o, Outside (Hidden g s.c) o → t.m o = s.m o
  clean : C.K.mem (Hidden g s.c) s.m
  split : ∀ n i, g n = some i → C.Split (Hidden g s.c) s.m t.m n i
  vis : ∀ n ∈ Γ, ∃ m i, g m = some i ∧ i.n = n ∧ (∀ i' ∈ C.pl, i'.n = n → i'.ty = i.ty) ∧ s.e n = S.addr (.loc m 0) 0 ∧
    ∀ j, t.el n j = S.addr (.loc m (j + 1)) 0
  lo : C.c0 ≤ s.c ∧ ∀ n i, g n = some i → C.c0 ≤ n

variable {C : Cfg S} {g : Nat → Option Info} {Γ : List Nat} {s t : St S} {ops : Ops S}

theorem Cfg.J.weaken {Γ' : List Nat} (h : C.J g Γ s t) (hs : ∀ n ∈ Γ', n ∈ Γ) : C.J g Γ' s t :=
  ⟨h.c, h.old, h.env, h.mem, h.clean, h.split, fun n hn => h.vis n (hs n hn), h.lo⟩

theorem Cfg.Rel.same {c x : Nat} {w : S.W} (h : C.K.word (Hidden g c) w) : C.Rel g c x w w := ⟨fun _ => rfl, fun _ => .inl ⟨rfl, h⟩, fun _ _ => h⟩

theorem Cfg.Rel.flow {c x y : Nat} {w w' : S.W} (h : C.Rel g c x w w') (hA : C.A x → C.A y) (hP : C.P x → C.P y) : C.Rel g c y w w' :=
  ⟨fun hp => h.eq fun h => hp (hP h), fun ha => h.rel fun h => ha (hA h), fun ha hp => h.clean (fun h => ha (hA h)) fun h => hp (hP h)⟩

theorem Cfg.Rel.untracked {c x : Nat} {w w' : S.W} (h : C.Rel g c x w w') (h1 : ¬ C.A x) (h2 : ¬ C.P x) : w' = w ∧ C.K.word (Hidden g c) w :=
  ⟨(h.eq h2).symm, h.clean h1 h2⟩

theorem setL_rel {c : Nat} {e e' : Nat → S.W} (h : ∀ x, C.Rel g c x (e x) (e' x)) {ps ps' : List (Nat × S.W)}
    (hp : List.Forall₂ (fun a b => a.1 = b.1 ∧ C.Rel g c a.1 a.2 b.2) ps ps') (x : Nat) : C.Rel g c x (setL e ps x) (setL e' ps' x) := by
  induction hp with
  | nil => exact h x
  | @cons a b ps ps' hab _ ih =>
    obtain ⟨n, w⟩ := a
    obtain ⟨n', w'⟩ := b
    obtain ⟨h1, h2⟩ := hab
    simp only at h1 h2
    subst h1
    simp only [setL]
    by_cases hx : x = n
    · subst hx
      rw [if_pos rfl, if_pos rfl]
      exact h2
    · rw [if_neg hx, if_neg hx]
      exact ih

theorem setL_notin {α : Type} {e : Nat → α} {ps : List (Nat × α)} {x : Nat} (h : ∀ p ∈ ps, p.1 ≠ x) : setL e ps x = e x := by
  induction ps with
  | nil => rfl
  | cons p ps ih =>
    obtain ⟨n, w⟩ := p
    simp only [setL]
    rw [if_neg fun hx => h _ List.mem_cons_self hx.symm]
    exact ih fun p hp => h p (List.mem_cons_of_mem _ hp)

/-- Visible allocas are in the list. -/
theorem Cfg.J.planned (h : C.J g Γ s t) {n : Nat} (hn : n ∈ Γ) : ∃ i ∈ C.pl, i.n = n := by
  obtain ⟨m, i, h1, h2, -⟩ := h.vis n hn
  exact ⟨i, (h.old m i h1).2, h2⟩

/-- Outputs get new values. -/
theorem Cfg.J.set (h : C.J g Γ s t) {ps ps' : List (Nat × S.W)}
    (hp : List.Forall₂ (fun a b => a.1 = b.1 ∧ C.Rel g s.c a.1 a.2 b.2) ps ps') (hn : ∀ i ∈ C.pl, ∀ p ∈ ps, p.1 ≠ i.n) :
    C.J g Γ (s.set ps) (t.set ps') where
  c := h.c
  old := h.old
  env := setL_rel h.env hp
  mem := h.mem
  clean := h.clean
  split := h.split
  vis n hΓ := by
    obtain ⟨i, hi, rfl⟩ := h.planned hΓ
    obtain ⟨m, i', h1, h2, h3, h4, h5⟩ := h.vis _ hΓ
    refine ⟨m, i', h1, h2, h3, ?_, h5⟩
    simp only [St.set]
    rw [setL_notin (hn i hi)]
    exact h4
  lo := h.lo

theorem Cfg.J.set1 (h : C.J g Γ s t) {x : Nat} {w w' : S.W} (hr : C.Rel g s.c x w w') (hn : ∀ i ∈ C.pl, i.n ≠ x) :
    C.J g Γ (s.set [(x, w)]) (t.set [(x, w')]) :=
  h.set (.cons ⟨rfl, hr⟩ .nil) fun i hi p hp => by
    simp only [List.mem_singleton] at hp
    subst hp
    exact (hn i hi).symm

/-- The node's effect on both sides. -/
def Cfg.Res (C : Cfg S) (Γ : List Nat) (s' : St S) (r : Option (St S)) : Prop := ∃ t' g', r = some t' ∧ C.J g' Γ s' t'

theorem not_hidden {o : Obj} {n : Nat} {i : Info} {k c : Nat} (h : g n = some i) (ho : o = .loc n k) : ¬ Outside (Hidden g c) o :=
  fun hO => hO n k ho (.inr ⟨i, h⟩)

theorem sim_op {k : Nat} (laws : C.K.Laws ops) {f : Nat} {args outs : List Nat} {s' : St S} (hJ : C.J g Γ s t)
    (hu : ∀ a ∈ args, ¬ C.A a ∧ ¬ C.P a) (hw : ∀ i ∈ C.pl, i.n ∉ outs) (hs : step ops (run ops k) k (.op f args outs) s = some s') :
    C.Res Γ s' (step ops (run ops k) k (.op f args outs) t) := by
  simp only [step] at hs ⊢
  have hargs : args.map t.e = args.map s.e := List.map_congr_left fun a ha => ((hJ.env a).untracked (hu a ha).1 (hu a ha).2).1
  rw [hargs]
  cases ho : ops f (args.map s.e) s.m with
  | none => rw [ho] at hs; simp at hs
  | some r =>
    obtain ⟨rs, m⟩ := r
    rw [ho] at hs
    simp only at hs
    by_cases hl : rs.length = outs.length
    · rw [if_pos hl] at hs
      injection hs with hs
      subst hs
      obtain ⟨h1, h2, h3, h4⟩ := laws.op (Hidden g s.c) f _ _ _ _ (fun a ha => by
        obtain ⟨x, hx, rfl⟩ := List.mem_map.mp ha
        exact (hJ.env x).clean (hu x hx).1 (hu x hx).2) hJ.clean ho
      obtain ⟨m2, h5, h6, h7⟩ := h4 t.m hJ.mem
      rw [h5]
      simp only
      rw [if_pos hl]
      refine ⟨_, g, rfl, ?_⟩
      have hset : C.J g Γ (s.set (outs.zip rs)) (t.set (outs.zip rs)) := by
        refine hJ.set ?_ ?_
        · rw [List.forall₂_same]
          intro p hp
          exact ⟨rfl, Cfg.Rel.same (h1 _ (List.of_mem_zip hp).2)⟩
        · intro i hi p hp heq
          exact hw i hi (heq ▸ (List.of_mem_zip hp).1)
      refine ⟨hset.c, hset.old, hset.env, fun o ho => h6 o ho, h2, fun n i hn => ?_, hset.vis, hset.lo⟩
      obtain ⟨ob, g1, g2, g3⟩ := hJ.split n i hn
      refine ⟨ob, ?_, g2, fun j x off hj ho => ?_⟩
      · show m (.loc n 0) = _
        rw [h3 _ (not_hidden hn rfl)]
        exact g1
      · obtain ⟨ob', g4, g5⟩ := g3 j x off hj ho
        refine ⟨ob', ?_, g5⟩
        show m2 (.loc n (j + 1)) = _
        rw [h7 _ (not_hidden hn rfl)]
        exact g4
    · rw [if_neg hl] at hs
      simp at hs

theorem Cfg.R.mono (laws : C.K.Laws ops) {g' : Nat → Option Info} {c c' : Nat} (hX : ∀ n, Hidden g' c' n → Hidden g c n)
    (hg : ∀ n i, g n = some i → g' n = some i) {w w' : S.W} (h : C.R g c w w') : C.R g' c' w w' := by
  rcases h with ⟨h1, h2⟩ | ⟨m, i, i', gp, j, x, off, h1, h2⟩
  · exact .inl ⟨h1, laws.mono _ _ _ hX h2⟩
  · exact .inr ⟨m, i, i', gp, j, x, off, hg _ _ h1, h2⟩

theorem Cfg.Rel.mono (laws : C.K.Laws ops) {g' : Nat → Option Info} {c c' x : Nat} (hX : ∀ n, Hidden g' c' n → Hidden g c n)
    (hg : ∀ n i, g n = some i → g' n = some i) {w w' : S.W} (h : C.Rel g c x w w') : C.Rel g' c' x w w' :=
  ⟨h.eq, fun ha => Cfg.R.mono laws hX hg (h.rel ha), fun ha hp => laws.mono _ _ _ hX (h.clean ha hp)⟩

theorem allocate_other {m : Mem S} {n src size : Nat} {els : List Ty} {o : Obj} (h : ∀ i, o ≠ .loc n i) :
    m.allocate n src size els o = m o := by
  cases o with
  | ext k => rfl
  | loc n' i =>
    simp only [Mem.allocate]
    rw [if_neg fun hn => h i (by rw [hn])]

theorem sim_alloca {k : Nat} (laws : C.K.Laws ops) (htr : C.Traced) {n cnt : Nat} {ty : Ty} {els : List Ty} {s' : St S} (hJ : C.J g Γ s t)
    (hw : (Node.alloca n ty cnt els).wf C.pl) {nd : Node} (hsp : (Node.alloca n ty cnt els).split C.pl Γ = some nd)
    (hs : step ops (run ops k) k (.alloca n ty cnt els) s = some s') :
    C.Res ((Node.alloca n ty cnt els).vis C.pl ++ Γ) s' (step ops (run ops k) k nd t) := by
  obtain ⟨hels, hw⟩ := hw
  subst hels
  simp only [step, Option.some.injEq] at hs
  subst hs
  simp only [Node.split, Option.some.injEq] at hsp
  have hgc : g s.c = none := by
    cases h : g s.c with
    | none => rfl
    | some i => exact absurd (hJ.old _ _ h).1 (Nat.lt_irrefl _)
  cases hf : C.pl.find? (·.n == n) with
  | none =>
    rw [hf] at hsp
    simp only at hsp
    subst hsp
    have hno : ∀ i ∈ C.pl, i.n ≠ n := fun i hi h => by
      have := List.find?_eq_none.mp hf i hi
      simp [h] at this
    have hv : (Node.alloca n ty cnt []).vis C.pl = [] := by
      simp only [Node.vis]
      rw [if_neg]
      simpa using hno
    rw [hv, List.nil_append]
    refine ⟨_, g, rfl, ?_⟩
    have hX : ∀ m, Hidden g (s.c + 1) m → Hidden g s.c m := by
      rintro m (h | h)
      · exact .inl (by omega)
      · exact .inr h
    have hOut : Outside (Hidden g (s.c + 1)) (.loc s.c 0) := by
      intro m i h
      injection h with h1 h2
      subst h1
      rintro (h | ⟨i, h⟩)
      · omega
      · rw [hgc] at h; simp at h
    refine ⟨by simp only [hJ.c, St.set], fun m i h => ⟨by have := (hJ.old m i h).1; simp only; omega, (hJ.old m i h).2⟩, ?_, ?_, ?_, ?_, ?_, ⟨by have := hJ.lo.1; simp only; omega, hJ.lo.2⟩⟩
    · rw [hJ.c]
      exact setL_rel (fun x => (hJ.env x).mono laws hX fun _ _ h => h) (.cons ⟨rfl, Cfg.Rel.same (laws.addr _ _ _ hOut)⟩ .nil)
    · intro o ho
      simp only [hJ.c]
      cases o with
      | ext m => exact hJ.mem _ (fun m' i h => by simp at h)
      | loc m i =>
        by_cases hm : m = s.c
        · subst hm; simp [Mem.allocate]
        · rw [allocate_other (fun i h => by injection h with h; exact hm h), allocate_other (fun i h => by injection h with h; exact hm h)]
          refine hJ.mem _ fun m' i' h => ?_
          injection h with h1 h2
          subst h1
          rintro (h | h)
          · exact ho _ _ rfl (.inl (by simp only; omega))
          · exact ho _ _ rfl (.inr h)
    · intro o ho ob hob b
      simp only at hob
      cases o with
      | ext m => exact laws.monoB _ _ _ hX (hJ.clean _ (fun m' i h => by simp at h) ob hob b)
      | loc m i =>
        by_cases hm : m = s.c
        · subst hm
          cases i with
          | zero =>
            simp only [Mem.allocate, if_true, Option.some.injEq] at hob
            subst hob
            exact laws.undef _
          | succ i => simp [Mem.allocate] at hob
        · rw [allocate_other (fun i h => by injection h with h; exact hm h)] at hob
          refine laws.monoB _ _ _ hX (hJ.clean (.loc m i) (fun m' i' h => ?_) ob hob b)
          injection h with h1 h2
          subst h1
          rintro (h | h)
          · exact ho _ _ rfl (.inl (by simp only; omega))
          · exact ho _ _ rfl (.inr h)
    · intro m i hm
      have hne : m ≠ s.c := fun h => by rw [h, hgc] at hm; simp at hm
      obtain ⟨ob, g1, g2, g3⟩ := hJ.split m i hm
      refine ⟨ob, ?_, g2, fun j x off hj ho => ?_⟩
      · simp only
        rw [allocate_other (fun i h => by injection h with h; exact hne h)]
        exact g1
      · obtain ⟨ob', g4, g5, g6⟩ := g3 j x off hj ho
        refine ⟨ob', ?_, g5, fun b hb => ⟨(g6 b hb).1, laws.monoB _ _ _ hX (g6 b hb).2⟩⟩
        simp only [hJ.c]
        rw [allocate_other (fun i h => by injection h with h; exact hne h)]
        exact g4
    · intro x hx
      obtain ⟨i, hi, hix⟩ := hJ.planned hx
      have hxn : x ≠ n := fun h => hno i hi (hix.trans h)
      obtain ⟨m, i', h1, h2, h3, h4, h5⟩ := hJ.vis x hx
      refine ⟨m, i', h1, h2, h3, ?_, ?_⟩
      · simp only [St.set, setL]
        rw [if_neg hxn]
        exact h4
      · intro j
        simp only
        rw [if_neg hxn]
        exact h5 j
  | some i =>
    rw [hf] at hsp
    simp only at hsp
    subst hsp
    have hi : i ∈ C.pl := List.mem_of_find?_eq_some hf
    have hin : i.n = n := by simpa using List.find?_some hf
    obtain ⟨hty, hcnt⟩ := hw i hi hin
    have hv : (Node.alloca n ty cnt []).vis C.pl = [n] := by
      simp only [Node.vis]
      rw [if_pos]
      simp only [List.any_eq_true, beq_iff_eq]
      exact ⟨i, hi, hin⟩
    rw [hv]
    let g' : Nat → Option Info := fun m => if m = s.c then some i else g m
    have hg : ∀ m i, g m = some i → g' m = some i := fun m i' h => by
      have : m ≠ s.c := fun hm => by rw [hm, hgc] at h; simp at h
      simp only [g', if_neg this]
      exact h
    have hX : ∀ m, Hidden g' (s.c + 1) m ↔ Hidden g s.c m := by
      intro m
      constructor
      · rintro (h | ⟨i', h⟩)
        · exact .inl (by omega)
        · by_cases hm : m = s.c
          · exact .inl (by omega)
          · simp only [g', if_neg hm] at h
            exact .inr ⟨i', h⟩
      · rintro (h | ⟨i', h⟩)
        · by_cases hm : m = s.c
          · exact .inr ⟨i, by simp [g', hm]⟩
          · exact .inl (by omega)
        · exact .inr ⟨i', hg _ _ h⟩
    have hXe : Hidden g' (s.c + 1) = Hidden g s.c := funext fun m => propext (hX m)
    have hout : ∀ o, Outside (Hidden g s.c) o → ∀ i, o ≠ .loc s.c i := fun o ho i h => ho _ _ h (.inl (Nat.le_refl _))
    refine ⟨_, g', rfl, ?_⟩
    refine ⟨by simp only [hJ.c, St.set], fun m i' h => ?_, ?_, ?_, ?_, ?_, ?_, ⟨by have := hJ.lo.1; simp only; omega, fun m i' h => ?_⟩⟩
    · by_cases hm : m = s.c
      · simp only [g', if_pos hm, Option.some.injEq] at h
        subst h
        exact ⟨by simp only; omega, hi⟩
      · simp only [g', if_neg hm] at h
        exact ⟨by have := (hJ.old m i' h).1; simp only; omega, (hJ.old m i' h).2⟩
    · rw [hJ.c]
      refine setL_rel (fun x => (hJ.env x).mono laws (fun m h => (hX m).mp h) hg) (.cons ⟨rfl, ?_⟩ .nil)
      have hA := htr.allocas i hi
      rw [hin] at hA
      exact ⟨fun _ => rfl, fun h => absurd hA h, fun h => absurd hA h⟩
    · intro o ho
      simp only at ho
      rw [hXe] at ho
      simp only [hJ.c]
      rw [allocate_other (hout o ho), allocate_other (hout o ho)]
      exact hJ.mem o ho
    · simp only
      rw [hXe]
      intro o ho ob hob
      rw [allocate_other (hout o ho)] at hob
      exact hJ.clean o ho ob hob
    · intro m i' hm
      simp only
      rw [hXe]
      by_cases hms : m = s.c
      · subst hms
        simp only [g', if_true, Option.some.injEq] at hm
        subst hm
        refine ⟨_, by simp only [Mem.allocate, if_true]; rfl, hin.symm, fun j x off hj ho => ?_⟩
        refine ⟨⟨allocSize x.2, fun _ => S.undef, n⟩, ?_, rfl, fun k hk => ⟨rfl, laws.undef _⟩⟩
        simp only [hJ.c, Mem.allocate, if_true, List.getElem?_map, hj, Option.map_some]
      · simp only [g', if_neg hms] at hm
        obtain ⟨ob, g1, g2, g3⟩ := hJ.split m i' hm
        refine ⟨ob, ?_, g2, fun j x off hj ho => ?_⟩
        · rw [allocate_other (fun i h => by injection h with h; exact hms h)]
          exact g1
        · obtain ⟨ob', g4, g5⟩ := g3 j x off hj ho
          refine ⟨ob', ?_, g5⟩
          simp only [hJ.c]
          rw [allocate_other (fun i h => by injection h with h; exact hms h)]
          exact g4
    · intro x hx
      by_cases hxn : x = n
      · subst hxn
        refine ⟨s.c, i, by simp [g'], hin, fun i' hi' hn' => ?_, by simp [St.set, setL], fun j => by simp [hJ.c]⟩
        rw [(hw i' hi' hn').1, hty]
      · have hx : x ∈ Γ := by simpa [hxn] using hx
        obtain ⟨m, i', h1, h2, h3, h4, h5⟩ := hJ.vis x hx
        refine ⟨m, i', hg _ _ h1, h2, h3, ?_, ?_⟩
        · simp only [St.set, setL]
          rw [if_neg hxn]
          exact h4
        · intro j
          simp only
          rw [if_neg hxn]
          exact h5 j
    · by_cases hm : m = s.c
      · rw [hm]; exact hJ.lo.1
      · simp only [g', if_neg hm] at h
        exact hJ.lo.2 m i' h

theorem sim_gep {k : Nat} (laws : C.K.Laws ops) (htr : C.Traced) {base out : Nat} {ty : Ty} {idxs : List Int} {s' : St S} (hJ : C.J g Γ s t)
    (hw : (Node.gep base ty idxs out).wf C.pl) (hg : C.Good base (.gep out idxs)) {nd : Node}
    (hsp : (Node.gep base ty idxs out).split C.pl Γ = some nd)
    (hok : ∀ i, consumer C.pl out = some i → s.e base = s.e i.n ∧ gepOff ty idxs = gepOff i.ty idxs)
    (hs : step ops (run ops k) k (.gep base ty idxs out) s = some s') : C.Res Γ s' (step ops (run ops k) k nd t) := by
  obtain ⟨hP, hA⟩ := hg
  simp only [Node.wf] at hw
  simp only [Node.split] at hsp
  cases hc : consumer C.pl out with
  | none =>
    rw [hc] at hsp
    simp only [Option.some.injEq] at hsp
    subst hsp
    have hA' : ¬ C.A base := fun h => by obtain ⟨i, hi⟩ := hA h; rw [hc] at hi; simp at hi
    obtain ⟨h1, h2⟩ := (hJ.env base).untracked hA' hP
    simp only [step, h1] at hs ⊢
    cases hp : S.ptr (s.e base) with
    | none => rw [hp] at hs; simp at hs
    | some r =>
      obtain ⟨o, off⟩ := r
      rw [hp] at hs
      cases hd : gepOff ty idxs with
      | none => rw [hd] at hs; simp at hs
      | some d =>
        rw [hd] at hs
        simp only [Option.some.injEq] at hs ⊢
        subst hs
        exact ⟨_, g, rfl, hJ.set1 (Cfg.Rel.same (laws.addr _ _ _ (laws.ptr _ _ _ _ h2 hp))) fun i hi => (hw i hi).1⟩
  | some i =>
    rw [hc] at hsp
    simp only at hsp
    cases he : elementIdx (elements i.ty) idxs with
    | none => rw [he] at hsp; simp at hsp
    | some j =>
      rw [he] at hsp
      simp only at hsp
      by_cases hv : Γ.contains i.n = true
      · rw [if_pos hv] at hsp
        injection hsp with hsp
        subst hsp
        have hi : i ∈ C.pl := List.mem_of_find?_eq_some hc
        have hcons : ∃ gp ∈ i.cons, gp.1 = out := by
          have := List.find?_some hc
          simpa using this
        obtain ⟨gp, hgp, hgo⟩ := hcons
        obtain ⟨m, i', h1, h2, h3, h4, h5⟩ := hJ.vis i.n (by simpa using hv)
        obtain ⟨h6, h7⟩ := hok i hc
        have hty := h3 i hi rfl
        obtain ⟨hj, hx⟩ := List.findIdx?_eq_some_iff_getElem.mp he
        have hx1 : ((elements i.ty)[j]).1 = idxs := by simpa using hx.1
        have hget : (elements i.ty)[j]? = some (elements i.ty)[j] := List.getElem?_eq_getElem hj
        obtain ⟨off, hoff, -⟩ := element_off hget
        rw [hx1] at hoff
        simp only [step, h6, h4, laws.ptr_addr, h7, hoff, Option.some.injEq] at hs
        subst hs
        refine ⟨_, g, rfl, ?_⟩
        refine hJ.set1 ?_ fun i hi => (hw i hi).1
        have hP' : C.P out := hgo ▸ htr.cons i hi gp hgp
        refine ⟨fun h => absurd hP' h, fun _ => .inr ?_, fun _ h => absurd hP' h⟩
        refine ⟨m, i', i, gp, j, (elements i.ty)[j], off, h1, hi, h2.symm, hty, hgp, ?_, ?_, ?_, ?_, ?_⟩
        · rw [hx1]
          exact (hw i hi).2 gp hgp hgo
        · rw [← hty]
          exact hget
        · rw [hx1, ← hty]
          exact hoff
        · simp
        · exact h5 j
      · rw [if_neg hv] at hsp
        simp at hsp

/-- What a load or store accesses in the result. -/
theorem access_rel (laws : C.K.Laws ops) (hJ : C.J g Γ s t) {a : Nat} {ty : Ty} (hA : ¬ C.A a) (hok : AccessOk C.pl s a ty)
    {o : Obj} {off : Nat} {ob : Ob S} (h : access s.m (s.e a) ty = some (o, off, ob)) :
    (Outside (Hidden g s.c) o ∧ s.m o = some ob ∧ access t.m (t.e a) ty = some (o, off, ob)) ∨
    ∃ m i j x ob', g m = some i ∧ o = .loc m 0 ∧ s.m o = some ob ∧ (elements i.ty)[j]? = some x ∧ gepOff i.ty x.1 = some (off : Int) ∧
      storeSize ty ≤ allocSize x.2 ∧ t.m (.loc m (j + 1)) = some ob' ∧ access t.m (t.e a) ty = some (.loc m (j + 1), 0, ob') ∧
      ob'.size = allocSize x.2 ∧ ∀ k, k < allocSize x.2 → ob'.bytes k = ob.bytes (off + k) ∧ C.K.byte (Hidden g s.c) (ob.bytes (off + k)) := by
  unfold access at h
  cases hp : S.ptr (s.e a) with
  | none => rw [hp] at h; simp at h
  | some r =>
    obtain ⟨o', d⟩ := r
    rw [hp] at h
    simp only at h
    cases hm : s.m o' with
    | none => rw [hm] at h; simp at h
    | some ob0 =>
      rw [hm] at h
      simp only at h
      by_cases hb : 0 ≤ d ∧ d + storeSize ty ≤ ob0.size
      · rw [if_pos hb] at h
        simp only [Option.some.injEq, Prod.mk.injEq] at h
        obtain ⟨rfl, rfl, rfl⟩ := h
        rcases (hJ.env a).rel hA with ⟨h1, h2⟩ | ⟨m, i, i', gp, j, x, off, h1, h2, h3, h4, h5, h6, h7, h8, h9, h10⟩
        · have hO := laws.ptr _ _ _ _ h2 hp
          refine .inl ⟨hO, hm, ?_⟩
          unfold access
          rw [← h1, hp]
          simp only
          rw [hJ.mem _ hO, hm]
          simp only
          rw [if_pos hb]
        · rw [h9, laws.ptr_addr] at hp
          simp only [Option.some.injEq, Prod.mk.injEq] at hp
          obtain ⟨rfl, rfl⟩ := hp
          obtain ⟨ob1, g1, g2, g3⟩ := hJ.split m i h1
          rw [hm] at g1
          injection g1 with g1
          subst g1
          obtain ⟨ob', g4, g5, g6⟩ := g3 j x off h7 h8
          have hsz : storeSize ty ≤ allocSize x.2 := by
            refine hok m off ob0 (by rw [h9, laws.ptr_addr]) hm i' h2 (by rw [g2, h3]) gp h5 x.2 ?_ ?_
            · rw [h4, h6]
              exact List.mem_of_getElem? h7
            · rw [h4, h6]
              exact h8
          refine .inr ⟨m, i, j, x, ob', h1, rfl, hm, h7, by simpa using h8, hsz, g4, ?_, g5, by simpa using g6⟩
          unfold access
          rw [h10, laws.ptr_addr]
          simp only
          rw [g4]
          simp only
          rw [if_pos ⟨by omega, by rw [g5]; omega⟩]
          rfl
      · rw [if_neg hb] at h
        simp at h

theorem sim_load {k : Nat} (laws : C.K.Laws ops) {a out : Nat} {ty : Ty} {s' : St S} (hJ : C.J g Γ s t) (hA : ¬ C.A a)
    (hw : ∀ i ∈ C.pl, i.n ≠ out) (hok : AccessOk C.pl s a ty) (hs : step ops (run ops k) k (.load a ty out) s = some s') :
    C.Res Γ s' (step ops (run ops k) k (.load a ty out) t) := by
  simp only [step] at hs ⊢
  cases ha : access s.m (s.e a) ty with
  | none => rw [ha] at hs; simp at hs
  | some r =>
    obtain ⟨o, off, ob⟩ := r
    rw [ha] at hs
    simp only [Option.some.injEq] at hs
    subst hs
    rcases access_rel laws hJ hA hok ha with ⟨h1, h2, h3⟩ | ⟨m, i, j, x, ob', h1, h2, h3, h4, h5, h6, h7, h8, h9, h10⟩
    · rw [h3]
      exact ⟨_, g, rfl, hJ.set1 (Cfg.Rel.same (laws.dec _ _ _ fun k _ => hJ.clean o h1 ob h2 _)) hw⟩
    · rw [h8]
      refine ⟨_, g, rfl, ?_⟩
      have he : S.dec ty (fun k => ob'.bytes (0 + k)) = S.dec ty fun k => ob.bytes (off + k) :=
        laws.dec_ext _ _ _ fun k hk => by rw [Nat.zero_add]; exact (h10 k (by omega)).1
      rw [he]
      exact hJ.set1 (Cfg.Rel.same (laws.dec _ _ _ fun k hk => (h10 k (by omega)).2)) hw

theorem Mem.set_other {m : Mem S} {o o' : Obj} {ob : Ob S} (h : o' ≠ o) : m.set o ob o' = m o' := by
  simp only [Mem.set]; rw [if_neg h]

theorem Mem.set_same {m : Mem S} {o : Obj} {ob : Ob S} : m.set o ob o = some ob := by
  unfold Mem.set; rw [if_pos rfl]

theorem sim_store {k : Nat} (laws : C.K.Laws ops) {a v : Nat} {ty : Ty} {s' : St S} (hJ : C.J g Γ s t) (hA : ¬ C.A a)
    (hv : ¬ C.A v ∧ ¬ C.P v) (hok : AccessOk C.pl s a ty) (hs : step ops (run ops k) k (.store a v ty) s = some s') :
    C.Res Γ s' (step ops (run ops k) k (.store a v ty) t) := by
  simp only [step] at hs ⊢
  obtain ⟨hve, hvc⟩ := (hJ.env v).untracked hv.1 hv.2
  cases ha : access s.m (s.e a) ty with
  | none => rw [ha] at hs; simp at hs
  | some r =>
    obtain ⟨o, off, ob⟩ := r
    rw [ha] at hs
    simp only [Option.some.injEq] at hs
    subst hs
    rcases access_rel laws hJ hA hok ha with ⟨h1, h2, h3⟩ | ⟨m, i, j, x, ob', h1, h2, h3, h4, h5, h6, h7, h8, h9, h10⟩
    · rw [h3, hve]
      refine ⟨_, g, rfl, hJ.c, hJ.old, hJ.env, ?_, ?_, ?_, hJ.vis, hJ.lo⟩
      · intro o' ho'
        simp only
        by_cases hoo : o' = o
        · subst hoo; rw [Mem.set_same, Mem.set_same]
        · rw [Mem.set_other hoo, Mem.set_other hoo]
          exact hJ.mem o' ho'
      · intro o' ho' ob2 hob2 b
        simp only at hob2
        by_cases hoo : o' = o
        · subst hoo
          rw [Mem.set_same] at hob2
          injection hob2 with hob2
          subst hob2
          simp only [Ob.write]
          split
          · exact laws.enc _ _ _ _ hvc
          · exact hJ.clean _ h1 ob h2 b
        · rw [Mem.set_other hoo] at hob2
          exact hJ.clean o' ho' ob2 hob2 b
      · intro n i hn
        obtain ⟨ob2, g1, g2, g3⟩ := hJ.split n i hn
        have hne : ∀ q, Obj.loc n q ≠ o := fun q h => not_hidden hn h.symm h1
        refine ⟨ob2, ?_, g2, fun j x off hj ho => ?_⟩
        · simp only
          rw [Mem.set_other (hne 0)]
          exact g1
        · obtain ⟨ob', g4, g5⟩ := g3 j x off hj ho
          refine ⟨ob', ?_, g5⟩
          simp only
          rw [Mem.set_other (hne (j + 1))]
          exact g4
    · subst h2
      rw [h8, hve]
      refine ⟨_, g, rfl, hJ.c, hJ.old, hJ.env, ?_, ?_, ?_, hJ.vis, hJ.lo⟩
      · intro o' ho'
        have hne : ∀ q, o' ≠ .loc m q := fun q h => not_hidden h1 h ho'
        simp only
        rw [Mem.set_other (hne _), Mem.set_other (hne _)]
        exact hJ.mem o' ho'
      · intro o' ho' ob2 hob2 b
        have hne : ∀ q, o' ≠ .loc m q := fun q h => not_hidden h1 h ho'
        simp only at hob2
        rw [Mem.set_other (hne _)] at hob2
        exact hJ.clean o' ho' ob2 hob2 b
      · intro n i2 hn
        obtain ⟨ob2, g1, g2, g3⟩ := hJ.split n i2 hn
        by_cases hnm : n = m
        · subst hnm
          rw [h1] at hn
          injection hn with hn
          subst hn
          rw [h3] at g1
          injection g1 with g1
          subst g1
          refine ⟨ob.write ty off (s.e v), by simp only; rw [Mem.set_same], g2, fun j2 x2 off2 hj2 ho2 => ?_⟩
          obtain ⟨ob3, g4, g5, g6⟩ := g3 j2 x2 off2 hj2 ho2
          by_cases hjj : j2 = j
          · subst hjj
            rw [h4] at hj2
            injection hj2 with hj2
            subst hj2
            rw [h5] at ho2
            have ho2 : off = off2 := by simpa using ho2
            subst ho2
            refine ⟨ob'.write ty 0 (s.e v), by simp only; rw [Mem.set_same], h9, fun b hb => ?_⟩
            simp only [Ob.write]
            by_cases hbs : b < storeSize ty
            · rw [if_pos ⟨by omega, by omega⟩, if_pos ⟨by omega, by omega⟩]
              have : off + b - off = b - 0 := by omega
              rw [this]
              exact ⟨rfl, laws.enc _ _ _ _ hvc⟩
            · rw [if_neg (by omega), if_neg (by omega)]
              exact h10 b hb
          · refine ⟨ob3, ?_, g5, fun b hb => ?_⟩
            · simp only
              rw [Mem.set_other (by intro h; injection h with _ h; omega)]
              exact g4
            · have hd := elements_disjoint h4 hj2 (Ne.symm hjj) h5 ho2
              simp only [Ob.write]
              rw [if_neg (by omega)]
              exact g6 b hb
        · refine ⟨ob2, ?_, g2, fun j x off hj ho => ?_⟩
          · simp only
            rw [Mem.set_other (by intro h; injection h with h; exact hnm h)]
            exact g1
          · obtain ⟨ob', g4, g5⟩ := g3 j x off hj ho
            refine ⟨ob', ?_, g5⟩
            simp only
            rw [Mem.set_other (by intro h; injection h with h; exact hnm h)]
            exact g4

end Jlm.Opt.Sroa
