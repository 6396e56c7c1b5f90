import Verif.Front.RestructSpec
import Verif.Front.SsaProps
import Mathlib.Tactic.Tauto

/-!
# Control flow restructuring: detours

A graph in which edges take a detour over additional blocks computes the same.
-/

set_option linter.unusedSimpArgs false
set_option linter.unusedVariables false

namespace Jlm.Front

open Jlm.Opt

variable {V : Type} {sem : Sem V} {truth : V → Bool} {F G : Nat → Prop}

theorem AgreeOff.refl (s : St V) : AgreeOff F s s := fun _ _ => rfl

theorem AgreeOff.symm {s t : St V} (h : AgreeOff F s t) : AgreeOff F t s := fun u hu => (h u hu).symm

theorem AgreeOff.trans {s t r : St V} (h : AgreeOff F s t) (h' : AgreeOff F t r) : AgreeOff F s r :=
  fun u hu => (h u hu).trans (h' u hu)

theorem SameOff.symm {C D : Cfg} (h : SameOff sem truth F C D) : SameOff sem truth F D C := fun s t hst => by
  obtain ⟨h1, h2⟩ := h t s hst.symm
  refine ⟨fun s' e => ?_, fun t' e => ?_⟩
  · obtain ⟨t', a, b⟩ := h2 s' e
    exact ⟨t', a, b.symm⟩
  · obtain ⟨t'', a, b⟩ := h1 t' e
    exact ⟨t'', a, b.symm⟩

theorem SameOff.trans {C D E : Cfg} (h : SameOff sem truth F C D) (h' : SameOff sem truth G D E) :
    SameOff sem truth (fun u => F u ∨ G u) C E := fun s t hst => by
  classical
  let m : St V := ⟨fun u => if F u then t.env u else s.env u, none⟩
  have h1 : AgreeOff F s m := fun u hu => by simp [m, hu]
  have h2 : AgreeOff G m t := fun u hu => by
    by_cases f : F u
    · simp [m, f]
    · simp only [m, if_neg f]; exact hst u (by tauto)
  have out : ∀ {a b c : St V}, AgreeOff F a b → AgreeOff G b c → AgreeOff (fun u => F u ∨ G u) a c :=
    fun x y u hu => (x u (by tauto)).trans (y u (by tauto))
  refine ⟨fun s' e => ?_, fun t' e => ?_⟩
  · obtain ⟨m', a, b⟩ := (h s m h1).1 s' e
    obtain ⟨t', c, d⟩ := (h' m t h2).1 m' a
    exact ⟨t', c, out b d⟩
  · obtain ⟨m', a, b⟩ := (h' m t h2).2 t' e
    obtain ⟨s', c, d⟩ := (h s m h1).2 m' a
    exact ⟨s', c, out d b⟩

/-- `Chain D P a t y t'`: from block `a` in state `t`, execution of `D` gets to block `y` in state `t'`, over blocks
that satisfy `P`. -/
inductive Chain (sem : Sem V) (truth : V → Bool) (D : Cfg) (P : Nat → Prop) : Nat → St V → Nat → St V → Prop
  | refl {a : Nat} {t : St V} : Chain sem truth D P a t a t
  | step {a b y : Nat} {t t' : St V} : P a → a ≠ D.exit →
      goes (D.succs a) (steps sem truth (D.code a) t).ctl = some b →
      Chain sem truth D P b (steps sem truth (D.code a) t) y t' → Chain sem truth D P a t y t'

theorem Chain.trans {D : Cfg} {P : Nat → Prop} {a b c : Nat} {t t' t'' : St V} (h : Chain sem truth D P a t b t')
    (h' : Chain sem truth D P b t' c t'') : Chain sem truth D P a t c t'' := by
  induction h with
  | refl => exact h'
  | step p x g _ ih => exact .step p x g (ih h')

theorem Chain.mono {D D' : Cfg} {P P' : Nat → Prop} {a b : Nat} {t t' : St V} (h : Chain sem truth D P a t b t')
    (he : D'.exit = D.exit) (hp : ∀ x, P x → P' x ∧ D'.code x = D.code x ∧ D'.succs x = D.succs x) :
    Chain sem truth D' P' a t b t' := by
  induction h with
  | refl => exact .refl
  | step p x g _ ih =>
    obtain ⟨q1, q2, q3⟩ := hp _ p
    refine .step q1 (by rw [he]; exact x) (by rw [q2, q3]; exact g) ?_
    rw [q2]; exact ih

/-- From block `a` execution gets to block `y`, and only the variables in `F` are changed. -/
def Arr (sem : Sem V) (truth : V → Bool) (F : Nat → Prop) (D : Cfg) (P : Nat → Prop) (a y : Nat) : Prop :=
  ∀ t, ∃ t', Chain sem truth D P a t y t' ∧ AgreeOff F t t'

theorem Arr.refl {D : Cfg} {P : Nat → Prop} (a : Nat) : Arr sem truth F D P a a := fun t => ⟨t, .refl, .refl _⟩

theorem Arr.trans {D : Cfg} {P : Nat → Prop} {a b c : Nat} (h : Arr sem truth F D P a b) (h' : Arr sem truth F D P b c) :
    Arr sem truth F D P a c := fun t => by
  obtain ⟨t', x, y⟩ := h t
  obtain ⟨t'', z, w⟩ := h' t'
  exact ⟨t'', x.trans z, y.trans w⟩

theorem Arr.mono {D D' : Cfg} {P P' : Nat → Prop} {a b : Nat} (h : Arr sem truth F D P a b)
    (he : D'.exit = D.exit) (hp : ∀ x, P x → P' x ∧ D'.code x = D.code x ∧ D'.succs x = D.succs x) :
    Arr sem truth F D' P' a b := fun t => by
  obtain ⟨t', x, y⟩ := h t
  exact ⟨t', x.mono he hp, y⟩

/-- Both are defined and related, or none is. -/
def OptRel (R : Nat → Nat → Prop) (g g' : Option Nat) : Prop :=
  (∀ y, g = some y → ∃ a, g' = some a ∧ R y a) ∧ (∀ a, g' = some a → ∃ y, g = some y ∧ R y a)

theorem OptRel.some {R : Nat → Nat → Prop} {y a : Nat} (h : R y a) : OptRel R (some y) (some a) :=
  ⟨fun _ e => ⟨a, rfl, by cases e; exact h⟩, fun _ e => ⟨y, rfl, by cases e; exact h⟩⟩

theorem OptRel.none {R : Nat → Nat → Prop} : OptRel R none none := ⟨nofun, nofun⟩

theorem goes_rel {R : Nat → Nat → Prop} {l l' : List Nat} {k k' : Option Nat} (hlen : l'.length = l.length)
    (hR : ∀ (i y a : Nat), l[i]? = some y → l'[i]? = some a → R y a) (hk : 2 ≤ l.length → k = k') :
    OptRel R (goes l k) (goes l' k') := by
  rcases l with _ | ⟨y, _ | ⟨y2, l⟩⟩
  · rw [List.length_eq_zero_iff.1 hlen]
    exact .none
  · rcases l' with _ | ⟨a, _ | ⟨a2, l'⟩⟩
    · simp at hlen
    · exact .some (hR 0 y a rfl rfl)
    · simp at hlen
  · rcases l' with _ | ⟨a, _ | ⟨a2, l'⟩⟩
    · simp at hlen
    · simp at hlen
    · rw [← hk (by simp)]
      rcases k with _ | k
      · exact .none
      · show OptRel R ((y :: y2 :: l)[k]?) ((a :: a2 :: l')[k]?)
        rcases h1 : (y :: y2 :: l)[k]? with _ | z
        · rcases h2 : (a :: a2 :: l')[k]? with _ | b
          · exact .none
          · have := List.getElem?_eq_none_iff.1 h1
            obtain ⟨h, _⟩ := List.getElem?_eq_some_iff.1 h2
            omega
        · rcases h2 : (a :: a2 :: l')[k]? with _ | b
          · have := List.getElem?_eq_none_iff.1 h2
            obtain ⟨h, _⟩ := List.getElem?_eq_some_iff.1 h1
            omega
          · exact .some (hR k z b h1 h2)

/-- `D` is `C` with detours over blocks that satisfy `P`. -/
structure Detour (sem : Sem V) (truth : V → Bool) (F : Nat → Prop) (C D : Cfg) (P : Nat → Prop) : Prop where
  entry : D.entry = C.entry
  exit : D.exit = C.exit
  inside : C.entry ∈ C.nodes
  closed : ∀ x ∈ C.nodes, ∀ y ∈ C.succs x, y ∈ C.nodes
  node : ∀ x ∈ C.nodes, x ≠ C.exit → ∀ s t, AgreeOff F s t →
    AgreeOff F (steps sem truth (C.code x) s) (steps sem truth (D.code x) t) ∧
    OptRel (fun y a => Arr sem truth F D P a y)
      (goes (C.succs x) (steps sem truth (C.code x) s).ctl) (goes (D.succs x) (steps sem truth (D.code x) t).ctl)
  last : ∀ s t, AgreeOff F s t →
    AgreeOff F (steps sem truth (C.code C.exit) s) (steps sem truth (D.code C.exit) t)

theorem goes_in {l : List Nat} {k : Option Nat} {y : Nat} (h : goes l k = some y) : y ∈ l := by
  rcases l with _ | ⟨a, _ | ⟨b, l⟩⟩
  · cases h
  · simp only [goes, Option.some.injEq] at h; simp [h]
  · rcases k with _ | k
    · cases h
    · exact List.mem_of_getElem? h

theorem Chain.exec {D : Cfg} {P : Nat → Prop} {a y : Nat} {t t' r : St V} (h : Chain sem truth D P a t y t')
    (h' : D.Exec sem truth y t' r) : D.Exec sem truth a t r := by
  induction h with
  | refl => exact h'
  | step p x g _ ih => exact .step x g (ih h')

theorem Cfg.Exec.stop' {C : Cfg} {x : Nat} {s s' : St V} (h : x = C.exit) (e : s' = steps sem truth (C.code x) s) :
    C.Exec sem truth x s s' := by subst h; subst e; exact .stop

theorem Detour.forward {C D : Cfg} {P : Nat → Prop} (h : Detour sem truth F C D P) {x : Nat} {s s' : St V}
    (he : C.Exec sem truth x s s') (hx : x ∈ C.nodes) : ∀ t, AgreeOff F s t →
      ∃ t', D.Exec sem truth x t t' ∧ AgreeOff F s' t' := by
  induction he with
  | stop => exact fun t hst => ⟨_, .stop' h.exit.symm rfl, h.last _ _ hst⟩
  | @step x y s s' hne hg _ ih =>
    intro t hst
    obtain ⟨h1, h2, _⟩ := h.node x hx hne s t hst
    obtain ⟨a, h3, h4⟩ := h2 y hg
    obtain ⟨t2, h5, h6⟩ := h4 (steps sem truth (D.code x) t)
    obtain ⟨t', h7, h8⟩ := ih (h.closed x hx y (goes_in hg)) t2 (h1.trans h6)
    exact ⟨t', .step (by rw [h.exit]; exact hne) h3 (h5.exec h7), h8⟩

theorem Detour.backward {C D : Cfg} {P : Nat → Prop} (h : Detour sem truth F C D P) {z : Nat} {t t' : St V}
    (he : D.Exec sem truth z t t') : ∀ y t2, Chain sem truth D P z t y t2 → y ∈ C.nodes → ∀ s, AgreeOff F s t2 →
      ∃ s', C.Exec sem truth y s s' ∧ AgreeOff F s' t' := by
  have key : ∀ y (t2 t' : St V), y ∈ C.nodes → ∀ s, AgreeOff F s t2 →
      (y = D.exit → t' = steps sem truth (D.code y) t2) →
      (y ≠ D.exit → ∃ a, goes (D.succs y) (steps sem truth (D.code y) t2).ctl = some a ∧
        ∀ y' t2', Chain sem truth D P a (steps sem truth (D.code y) t2) y' t2' → y' ∈ C.nodes → ∀ s, AgreeOff F s t2' →
          ∃ s', C.Exec sem truth y' s s' ∧ AgreeOff F s' t') →
      ∃ s', C.Exec sem truth y s s' ∧ AgreeOff F s' t' := by
    intro y t2 t' hy s hs h1 h2
    by_cases e : y = D.exit
    · have e' := e.trans h.exit
      refine ⟨_, .stop' e' rfl, ?_⟩
      rw [h1 e, e']
      exact h.last s t2 hs
    · have e' : y ≠ C.exit := fun x => e (x.trans h.exit.symm)
      obtain ⟨a, ha, ih⟩ := h2 e
      obtain ⟨h3, _, h4⟩ := h.node y hy e' s t2 hs
      obtain ⟨y', h5, h6⟩ := h4 a ha
      obtain ⟨t3, h7, h8⟩ := h6 (steps sem truth (D.code y) t2)
      obtain ⟨s', h9, h10⟩ := ih y' t3 h7 (h.closed y hy y' (goes_in h5)) _ (h3.trans h8)
      exact ⟨s', .step e' h5 h9, h10⟩
  induction he with
  | @stop t =>
    intro y t2 hc hy s hs
    generalize hz : D.exit = z at hc
    cases hc with
    | refl =>
      subst hz
      exact key _ _ _ hy s hs (fun _ => rfl) (fun e => absurd rfl e)
    | step p x g c => exact absurd hz.symm x
  | @step z a t t' hne hg _ ih =>
    intro y t2 hc hy s hs
    cases hc with
    | refl => exact key _ _ _ hy s hs (fun e => absurd e hne) (fun _ => ⟨a, hg, ih⟩)
    | step p x g c =>
      rw [hg] at g
      cases g
      exact ih y t2 c hy s hs

theorem Detour.same {C D : Cfg} {P : Nat → Prop} (h : Detour sem truth F C D P) : SameOff sem truth F C D :=
  fun s t hst => by
    rw [h.entry]
    exact ⟨fun s' e => h.forward e h.inside t hst, fun t' e => h.backward e _ t .refl h.inside s hst⟩

/-! ### Code -/

/-- `c'` does the same as `c` outside `F`, and selects the same alternative. -/
def CodeSim (sem : Sem V) (truth : V → Bool) (F : Nat → Prop) (c c' : List Tac) : Prop :=
  ∀ s t, AgreeOff F s t → AgreeOff F (steps sem truth c s) (steps sem truth c' t) ∧
    ((branchVar c).isSome → (steps sem truth c s).ctl = (steps sem truth c' t).ctl)

theorem branchVar_some {ts : List Tac} {u : Var} (h : branchVar ts = some u) : ∃ pre, ts = pre ++ [.branch u] := by
  unfold branchVar at h
  split at h
  · rename_i v e
    cases h
    exact ⟨ts.dropLast, (List.dropLast_append_getLast? _ e).symm⟩
  · cases h

theorem branchVar_concat {pre : List Tac} {u : Var} : branchVar (pre ++ [.branch u]) = some u := by
  simp [branchVar]

theorem step_agreeOff {t : Tac} {a b : St V} (ht : ∀ u ∈ t.reads, F u → t = .branch u) (h : AgreeOff F a b) :
    AgreeOff F (step sem truth t a) (step sem truth t b) := by
  cases t with
  | op o ins outs =>
    have : ins.map a.env = ins.map b.env := List.map_congr_left fun u hu => h u fun f => by
      cases ht u hu f
    intro u hu
    simp only [step, this]
    exact setAll_congr (P := fun u => ¬ F u) h u hu
  | assign l r =>
    intro u hu
    have : a.env r = b.env r := h r fun f => by cases ht r (by simp [Tac.reads]) f
    simp only [step, this]
    exact set_congr (P := fun u => ¬ F u) h u hu
  | select c x y res =>
    intro u hu
    have e1 : a.env c = b.env c := h c fun f => by cases ht c (by simp [Tac.reads]) f
    have e2 : a.env x = b.env x := h x fun f => by cases ht x (by simp [Tac.reads]) f
    have e3 : a.env y = b.env y := h y fun f => by cases ht y (by simp [Tac.reads]) f
    simp only [step, e1, e2, e3]
    exact set_congr (P := fun u => ¬ F u) h u hu
  | branch x => exact h

theorem steps_agreeOff {sem : Sem V} {truth : V → Bool} : ∀ {ts : List Tac} {a b : St V},
    (∀ t ∈ ts, ∀ u ∈ t.reads, F u → t = .branch u) → AgreeOff F a b →
    AgreeOff F (steps sem truth ts a) (steps sem truth ts b)
  | [], _, _, _, h => h
  | t :: ts, a, b, ht, h => by
      have := @steps_agreeOff sem truth ts _ _ (fun t' h' => ht t' (List.mem_cons_of_mem _ h'))
        (step_agreeOff (sem := sem) (truth := truth) (ht t (by simp)) h)
      simpa [steps] using this

theorem codeSim_refl {ts : List Tac} (ht : ∀ t ∈ ts, ∀ u ∈ t.reads, ¬ F u) : CodeSim sem truth F ts ts := by
  intro s t hst
  refine ⟨steps_agreeOff (fun x hx u hu f => absurd f (ht x hx u hu)) hst, fun hb => ?_⟩
  obtain ⟨u, hu⟩ := Option.isSome_iff_exists.1 hb
  obtain ⟨pre, rfl⟩ := branchVar_some hu
  rw [steps_append, steps_append]
  have : AgreeOff F (steps sem truth pre s) (steps sem truth pre t) :=
    steps_agreeOff (fun x hx u hu f => absurd f (ht x (by simp [hx]) u hu)) hst
  show alternative sem _ = alternative sem _
  rw [this u (ht (.branch u) (by simp) u (by simp [Tac.reads]))]

theorem insertBeforeBranch_some {u : Var} {t : Tac} {ts : List Tac} (h : branchVar ts = some u) :
    ∃ pre, ts = pre ++ [.branch u] ∧ insertBeforeBranch t ts = pre ++ [t, .branch u] := by
  obtain ⟨pre, rfl⟩ := branchVar_some h
  exact ⟨pre, rfl, by simp [insertBeforeBranch]⟩

theorem insertBeforeBranch_none {t : Tac} {ts : List Tac} (h : branchVar ts = none) :
    insertBeforeBranch t ts = ts ++ [t] := by
  unfold insertBeforeBranch
  split
  · rename_i v' e
    simp [branchVar, e] at h
  · rfl

theorem mem_insertBeforeBranch {t x : Tac} {ts : List Tac} : x ∈ insertBeforeBranch t ts ↔ x = t ∨ x ∈ ts := by
  rcases h : branchVar ts with _ | u
  · rw [insertBeforeBranch_none h]; simp; tauto
  · obtain ⟨pre, e1, e2⟩ := insertBeforeBranch_some (t := t) h
    rw [e2, e1]; simp; tauto

theorem branchVar_undefTac {v : Nat} {ts : List Tac} : branchVar (insertBeforeBranch (undefTac v) ts) = branchVar ts := by
  rcases h : branchVar ts with _ | u
  · rw [insertBeforeBranch_none h]; simp [branchVar, undefTac]
  · obtain ⟨pre, e1, e2⟩ := insertBeforeBranch_some (t := undefTac v) h
    rw [e2]; simp [branchVar]

theorem steps_undef {v : Nat} (s : St V) : (steps sem truth [undefTac v] s).ctl = s.ctl ∧
    ∀ u : Nat, u ≠ v → (steps sem truth [undefTac v] s).env u = s.env u := by
  refine ⟨rfl, fun u hu => ?_⟩
  simp [steps, undefTac, step, setAll, set, hu]

/-- A variable in `F` that does not occur is undefined. -/
theorem CodeSim.insertUndef {c c' : List Tac} {v : Nat} (h : CodeSim sem truth F c c') (hv : F v)
    (hb : branchVar c' ≠ some v) (hc : branchVar c' = branchVar c) :
    CodeSim sem truth F c (insertBeforeBranch (undefTac v) c') := by
  intro s t hst
  obtain ⟨h1, h2⟩ := h s t hst
  have off : ∀ r : St V, AgreeOff F r (steps sem truth [undefTac v] r) := fun r u hu =>
    ((steps_undef r).2 u fun e => hu (e ▸ hv)).symm
  rcases e : branchVar c' with _ | u
  · rw [insertBeforeBranch_none e, steps_append]
    refine ⟨h1.trans (off _), fun h => ?_⟩
    rw [← hc, e] at h; cases h
  · obtain ⟨pre, e1, e2⟩ := insertBeforeBranch_some (t := undefTac v) e
    have e3 : pre ++ [undefTac v, Tac.branch u] = pre ++ ([undefTac v] ++ [.branch u]) := rfl
    rw [e2, e3, steps_append, steps_append]
    rw [e1, steps_append] at h1 h2
    refine ⟨h1.trans (off _), fun h => (h2 h).trans ?_⟩
    show alternative sem _ = alternative sem _
    rw [(steps_undef _).2 u fun x => hb (by rw [e, x])]

end Jlm.Front
