import Verif.Opt.SvfSpec

set_option linter.unusedSimpArgs false
set_option linter.unusedVariables false

/-!
# Store value forwarding: a consistent map of origins makes forwarding correct
-/

namespace Jlm.Opt.Svf

variable {S : Sem}

/-! ## Scopes -/

/-- The outputs that can be used at some point, and the nodes that have been executed (as `Nm.x id`). -/
abbrev Scope := Nm → Prop

def Nm.isO : Nm → Prop
  | .o _ => True
  | _ => False

def Scope.add (Γ : Scope) (ns : List Nm) : Scope := fun m => Γ m ∨ m ∈ ns

def Node.adds : Node → List Nm
  | .op _ _ outs => outs
  | .store id _ _ _ sts => .x id :: sts.map (·.2)
  | .load id _ out _ sts => .x id :: out :: sts.map (·.2)
  | .join _ _ out => [out]
  | .alloca _ _ a st => [a, st]
  | .fwd _ _ _ => []
  | .gamma id _ _ exits => .x id :: exits.map (·.1)
  | .theta id vars _ _ => .x id :: vars.map (·.out)

def after (Γ : Scope) : List Node → Scope
  | [] => Γ
  | n :: ns => after (Γ.add n.adds) ns

/-- An output of the original graph that can be used. -/
def Scope.has (Γ : Scope) (n : Nm) : Prop := Γ n ∧ n.isO

/-- New outputs. -/
def Scope.fresh (Γ : Scope) (ns : List Nm) : Prop := ns.Nodup ∧ ∀ n ∈ ns, ¬ Γ n ∧ n.isO

def Scope.hasSrc (Γ : Scope) (s : Src) : Prop := ∃ n, s = .nm n ∧ Γ.has n

mutual

/-- Outputs are defined before they are used, and only once; `vals` are the stored (loaded) values of the stores and loads. -/
def Node.wf (vals : Nat → Option Nm) (Γ : Scope) : Node → Prop
  | .op _ args outs => (∀ a ∈ args, Γ.has a) ∧ Γ.fresh outs
  | .store id a v _ sts =>
    Γ.has a ∧ Γ.has v ∧ (∀ s ∈ sts, Γ.has s.1) ∧ Γ.fresh (sts.map (·.2)) ∧ ¬ Γ (.x id) ∧ vals id = some v
  | .load id a out _ sts =>
    Γ.has a ∧ (∀ s ∈ sts, Γ.has s.1) ∧ Γ.fresh (out :: sts.map (·.2)) ∧ ¬ Γ (.x id) ∧ vals id = some out
  | .join _ ins out => (∀ a ∈ ins, Γ.has a) ∧ Γ.fresh [out]
  | .alloca _ args a st => (∀ a ∈ args, Γ.has a) ∧ Γ.fresh [a, st]
  | .fwd _ _ _ => False
  | .gamma id p brs exits =>
    Γ.has p ∧ wfB vals Γ brs ∧ Γ.fresh (exits.map (·.1)) ∧ ¬ Γ (.x id) ∧ vals id = none ∧
      (∀ x ∈ exits, ∀ (b : Nat) (br : List Node), brs[b]? = some br → ∃ s, x.2[b]? = some s ∧ (after Γ br).hasSrc s) ∧
      ∀ x ∈ exits, x.2.length = brs.length
  | .theta id vars body p =>
    (∀ v ∈ vars, Γ.hasSrc v.inp) ∧ Γ.fresh (vars.map (·.pre)) ∧ Γ.fresh (vars.map (·.out)) ∧ ¬ Γ (.x id) ∧ ¬ Γ (.p id) ∧
      vals id = none ∧ wfL vals (Γ.add (.p id :: vars.map (·.pre))) body ∧
      (after (Γ.add (.p id :: vars.map (·.pre))) body).has p ∧
      ∀ v ∈ vars, (after (Γ.add (.p id :: vars.map (·.pre))) body).hasSrc v.post

def wfL (vals : Nat → Option Nm) (Γ : Scope) : List Node → Prop
  | [] => True
  | n :: ns => n.wf vals Γ ∧ wfL vals (Γ.add n.adds) ns

def wfB (vals : Nat → Option Nm) (Γ : Scope) : List (List Node) → Prop
  | [] => True
  | b :: bs => wfL vals Γ b ∧ wfB vals Γ bs

end

/-- The stores, loads, gamma and theta nodes of a region (not those in its subregions). -/
def Node.id? : Node → Option Nat
  | .store id _ _ _ _ => some id
  | .load id _ _ _ _ => some id
  | .gamma id _ _ _ => some id
  | .theta id _ _ _ => some id
  | _ => none

def ids (ns : List Node) : List Nat := ns.filterMap Node.id?

/-! ## Consistent maps -/

/-- The variables the origin refers to have been created. -/
def Origin.made (created : Nat → Bool) : Origin → Prop
  | .gammaOut id => created id = true
  | .thetaOut id => created id = true
  | .thetaPre id => created id = true
  | _ => True

mutual

/-- `T` are the origins of memory states, `own` those of nodes and regions. Nothing crosses the border of the theta nodes of `reset`.
The variables of the nodes of `created` are created, and so are all the variables they need. -/
def Node.tok (q : Query) (T : Nm → Option Origin) (own : Cons → Option Origin) (created : Nat → Bool) (reset : Nat → Prop) (Γ : Scope) : Node → Prop
  | .op _ _ outs => ∀ o ∈ outs, T o = none
  | .store id _ v t sts => ∀ s ∈ sts, ∀ r, T s.2 = some r →
      (q.alias id = .must ∧ t = q.ty ∧ r = .store id v) ∨ (q.alias id = .no ∧ T s.1 = some r)
  | .load id _ out t sts => T out = none ∧
      (∀ s ∈ sts, ∀ r, T s.2 = some r → (q.alias id = .must ∧ t = q.ty ∧ r = .load id out) ∨ T s.1 = some r) ∧
      (id = q.id → ∃ r, own (.nd id) = some r ∧ r.made created ∧ ∀ s ∈ sts, T s.1 = some r)
  | .join _ ins out => ∀ r, T out = some r → ins ≠ [] ∧ ∀ i ∈ ins, T i = some r
  | .alloca _ _ a st => T a = none ∧ ∀ r, T st = some r → r = .uninit
  | .fwd _ _ _ => False
  | .gamma id _ brs exits =>
    tokB q T own created reset Γ brs ∧
    (∀ x ∈ exits, ∀ r, T x.1 = some r →
      (∀ (b : Nat) (br : List Node) (n : Nm), brs[b]? = some br → x.2[b]? = some (.nm n) →
        ∃ rb, own (.rg id b) = some rb ∧ T n = some rb ∧
          (r = .gammaOut id ∨ rb = .uninit ∨ rb = r ∧ ∀ k, r.node = some k → k ∉ ids br)) ∧
      (r = .gammaOut id ∨ r = .uninit ∨
        ∃ (b : Nat) (br : List Node) (n : Nm), brs[b]? = some br ∧ x.2[b]? = some (.nm n) ∧ T n = some r)) ∧
    (∀ (b : Nat) (rb : Origin), own (.rg id b) = some rb → ∃ x ∈ exits, ∃ n, x.2[b]? = some (.nm n) ∧ T n = some rb) ∧
    (created id = true → ∀ (b : Nat) (r : Origin), b < brs.length → own (.rg id b) = some r → r.made created)
  | .theta id vars body _ =>
    tokL q T own created reset (Γ.add (.p id :: vars.map (·.pre))) body ∧
    (∀ v ∈ vars, ∀ r, T v.pre = some r → r = .thetaPre id ∧
      ∃ i k, v.inp = .nm i ∧ v.post = .nm k ∧ (∃ ri, T i = some ri ∧ own (.nd id) = some ri) ∧
        ∃ rk, T k = some rk ∧ own (.rg id 0) = some rk) ∧
    (∀ v ∈ vars, ∀ r, T v.out = some r → ∃ i k rk, v.inp = .nm i ∧ v.post = .nm k ∧ T k = some rk ∧ own (.rg id 0) = some rk ∧
      (r = .thetaOut id ∨ rk = .thetaPre id ∧ T i = some r ∧ own (.nd id) = some r)) ∧
    (∀ r, own (.nd id) = some r → ∃ v ∈ vars, ∃ i, v.inp = .nm i ∧ T i = some r) ∧
    (∀ r, own (.rg id 0) = some r → ∃ v ∈ vars, ∃ i, v.post = .nm i ∧ T i = some r) ∧
    (reset id → (∀ s, (Γ.add (.p id :: vars.map (·.pre))).has s → T s = none) ∧ ∀ v ∈ vars, T v.out = none) ∧
    (created id = true → (∀ r, own (.nd id) = some r → r.made created) ∧ ∀ r, own (.rg id 0) = some r → r.made created)

def tokL (q : Query) (T : Nm → Option Origin) (own : Cons → Option Origin) (created : Nat → Bool) (reset : Nat → Prop) (Γ : Scope) : List Node → Prop
  | [] => True
  | n :: ns => n.tok q T own created reset Γ ∧ tokL q T own created reset (Γ.add n.adds) ns

def tokB (q : Query) (T : Nm → Option Origin) (own : Cons → Option Origin) (created : Nat → Bool) (reset : Nat → Prop) (Γ : Scope) : List (List Node) → Prop
  | [] => True
  | b :: bs => tokL q T own created reset Γ b ∧ tokB q T own created reset Γ bs

end

/-! ## The invariant -/

def Origin.inScope (vals : Nat → Option Nm) (Γ : Scope) : Origin → Prop
  | .uninit => True
  | .load id out => vals id = some out ∧ Γ (.x id)
  | .store id v => vals id = some v ∧ Γ (.x id)
  | .gammaOut id => vals id = none ∧ Γ (.x id)
  | .thetaOut id => vals id = none ∧ Γ (.x id)
  | .thetaPre id => vals id = none ∧ Γ (.p id)

/-- The origin `r` of the state `s` has the value of the loaded address. -/
def Fact (q : Query) (l : Option S.W) (eS E : Env S) (s : Nm) (r : Origin) : Prop :=
  ∃ x, r.src.eval E = .w x ∧ ∀ l', l = some l' → ∀ m c, eS s = .mem m → S.rd m l' q.ty = some c → leV c x

/-- `eS` is the original execution, `eT` the one with forwarding, and `E` extends it by all the variables that might have been
created. -/
structure J (vals : Nat → Option Nm) (q : Query) (l : Option S.W) (T : Nm → Option Origin) (created : Nat → Bool) (Γ : Scope)
    (eS eT E : Env S) : Prop where
  le : ∀ m, Γ.has m → (eS m).le (E m)
  same : ∀ m, Γ.has m → eT m = E m
  made : ∀ id, vals id = none → created id = true → (Γ (.x id) → eT (.x id) = E (.x id)) ∧ (Γ (.p id) → eT (.p id) = E (.p id))
  fact : ∀ s, Γ.has s → ∀ r, T s = some r → r.inScope vals Γ ∧ Fact q l eS E s r
  word : ∀ r : Origin, r.inScope vals Γ → ∃ x, r.src.eval E = .w x
  vals : ∀ id v, vals id = some v → Γ (.x id) → Γ.has v

/-- Nothing in the scope changes. -/
def Frame (Γ : Scope) (e e' : Env S) : Prop := ∀ m, Γ m → e' m = e m

/-! ## Lemmas -/

theorem leV_refl {α : Type} (x : Option α) : leV x x := Or.inr rfl

theorem setL_not {e : Env S} {ps : List (Nm × D S)} {m : Nm} (h : m ∉ ps.map (·.1)) : setL e ps m = e m := by
  induction ps with
  | nil => rfl
  | cons p ps ih =>
    obtain ⟨n, d⟩ := p
    simp only [List.map_cons, List.mem_cons, not_or] at h
    simp only [setL, if_neg h.1]
    exact ih h.2

theorem setL_mem {e : Env S} {ps : List (Nm × D S)} {m : Nm} {d : D S} (hn : (ps.map (·.1)).Nodup) (h : (m, d) ∈ ps) :
    setL e ps m = d := by
  induction ps with
  | nil => simp at h
  | cons p ps ih =>
    obtain ⟨n, d'⟩ := p
    simp only [List.map_cons, List.nodup_cons] at hn
    rcases List.mem_cons.mp h with h | h'
    · injection h with h1 h2
      subst h1; subst h2
      simp [setL]
    · have : m ≠ n := by
        rintro rfl
        exact hn.1 (List.mem_map.mpr ⟨(m, d), h', rfl⟩)
      simp only [setL, if_neg this]
      exact ih hn.2 h'

theorem setL_append_left {e : Env S} {ps gs : List (Nm × D S)} {m : Nm} (h : m ∈ ps.map (·.1)) :
    setL e (ps ++ gs) m = setL e ps m := by
  induction ps with
  | nil => simp at h
  | cons p ps ih =>
    obtain ⟨n, d⟩ := p
    simp only [List.map_cons, List.mem_cons] at h
    simp only [List.cons_append, setL]
    by_cases hm : m = n
    · simp [hm]
    · simp only [if_neg hm]
      exact ih (h.resolve_left hm)

theorem setL_append_right {e : Env S} {ps gs : List (Nm × D S)} {m : Nm} (h : m ∉ ps.map (·.1)) :
    setL e (ps ++ gs) m = setL e gs m := by
  induction ps with
  | nil => rfl
  | cons p ps ih =>
    obtain ⟨n, d⟩ := p
    simp only [List.map_cons, List.mem_cons, not_or] at h
    simp only [List.cons_append, setL, if_neg h.1]
    exact ih h.2

theorem inScope_mono {vals : Nat → Option Nm} {Γ Γ' : Scope} (h : ∀ m, Γ m → Γ' m) {r : Origin} (hr : r.inScope vals Γ) :
    r.inScope vals Γ' := by
  cases r <;> simp only [Origin.inScope] at hr ⊢ <;> first | trivial | exact ⟨hr.1, h _ hr.2⟩

/-- The name of an origin in scope is in scope. -/
theorem inScope_src {vals : Nat → Option Nm} {Γ : Scope}
    (hv : ∀ id v, vals id = some v → Γ (.x id) → Γ.has v) {r : Origin} (hr : r.inScope vals Γ) {n : Nm} (hn : r.src = .nm n) : Γ n := by
  cases r <;> simp only [Origin.inScope, Origin.src] at hr hn <;> try simp at hn
  all_goals first
    | (subst hn; exact (hv _ _ hr.1 hr.2).1)
    | (subst hn; exact hr.2)

theorem eval_frame {vals : Nat → Option Nm} {Γ : Scope} (hv : ∀ id v, vals id = some v → Γ (.x id) → Γ.has v) {r : Origin}
    (hr : r.inScope vals Γ) {E E' : Env S} (hf : Frame Γ E E') : r.src.eval E' = r.src.eval E := by
  cases h : r.src with
  | undef => rfl
  | nm n => exact hf n (inScope_src hv hr h)

theorem eval_target {vals : Nat → Option Nm} {q : Query} {l : Option S.W} {T : Nm → Option Origin} {created : Nat → Bool} {Γ : Scope}
    {eS eT E : Env S} (hJ : J vals q l T created Γ eS eT E) {r : Origin} (hr : r.inScope vals Γ) (hm : r.made created) :
    r.src.eval eT = r.src.eval E := by
  cases r <;> simp only [Origin.inScope, Origin.made] at hr hm <;> simp only [Origin.src, Src.eval]
  case load => exact hJ.same _ (hJ.vals _ _ hr.1 hr.2)
  case store => exact hJ.same _ (hJ.vals _ _ hr.1 hr.2)
  case gammaOut => exact (hJ.made _ hr.1 hm).1 hr.2
  case thetaOut => exact (hJ.made _ hr.1 hm).1 hr.2
  case thetaPre => exact (hJ.made _ hr.1 hm).2 hr.2

theorem J.frame {vals : Nat → Option Nm} {q : Query} {l : Option S.W} {T : Nm → Option Origin} {created : Nat → Bool} {Γ : Scope}
    {eS eT E eS' eT' E' : Env S} (hJ : J vals q l T created Γ eS eT E) (h1 : Frame Γ eS eS') (h2 : Frame Γ eT eT') (h3 : Frame Γ E E') :
    J vals q l T created Γ eS' eT' E' where
  le m hm := by rw [h1 m hm.1, h3 m hm.1]; exact hJ.le m hm
  same m hm := by rw [h2 m hm.1, h3 m hm.1]; exact hJ.same m hm
  made id hv hc := by
    refine ⟨fun h => ?_, fun h => ?_⟩
    · rw [h2 _ h, h3 _ h]; exact (hJ.made id hv hc).1 h
    · rw [h2 _ h, h3 _ h]; exact (hJ.made id hv hc).2 h
  fact s hs r hr := by
    obtain ⟨hi, x, hx, hc⟩ := hJ.fact s hs r hr
    refine ⟨hi, x, ?_, ?_⟩
    · rw [eval_frame hJ.vals hi h3, hx]
    · intro l' hl m c hm
      rw [h1 s hs.1] at hm
      exact hc l' hl m c hm
  vals := hJ.vals
  word r hr := by rw [eval_frame hJ.vals hr h3]; exact hJ.word r hr

/-- The pairs of values of new outputs. -/
def Upd (us vs : List (Nm × D S)) : Prop := List.Forall₂ (fun u v => v.1 = u.1 ∧ D.le u.2 v.2) us vs

theorem Upd.keys {us vs : List (Nm × D S)} (h : Upd us vs) : vs.map (·.1) = us.map (·.1) := by
  induction h with
  | nil => rfl
  | cons h _ ih => simp [h.1, ih]

theorem Upd.find {us vs : List (Nm × D S)} (h : Upd us vs) {m : Nm} (hm : m ∈ us.map (·.1)) :
    ∃ d d', (m, d) ∈ us ∧ (m, d') ∈ vs ∧ D.le d d' := by
  induction h with
  | nil => simp at hm
  | @cons u v us vs h _ ih =>
    rcases List.mem_cons.mp hm with hm | hm
    · subst hm
      refine ⟨u.2, v.2, List.mem_cons_self .., ?_, h.2⟩
      show (u.1, v.2) ∈ v :: vs
      rw [← h.1]
      exact List.mem_cons_self ..
    · obtain ⟨d, d', h1, h2, h3⟩ := ih hm
      exact ⟨d, d', List.mem_cons_of_mem _ h1, List.mem_cons_of_mem _ h2, h3⟩

theorem Upd.map {α : Type} (xs : List α) (k : α → Nm) (f g : α → D S) (h : ∀ x ∈ xs, D.le (f x) (g x)) :
    Upd (xs.map fun x => (k x, f x)) (xs.map fun x => (k x, g x)) := by
  induction xs with
  | nil => exact .nil
  | cons x xs ih => exact .cons ⟨rfl, h x (List.mem_cons_self ..)⟩ (ih fun y hy => h y (List.mem_cons_of_mem _ hy))

/-- New outputs `us` (in the original execution) and `vs`, new markers `ms`, and new variables `gs`, some of them created. -/
theorem J.ext {vals : Nat → Option Nm} {q : Query} {l : Option S.W} {T : Nm → Option Origin} {created : Nat → Bool} {Γ : Scope}
    {eS eT E : Env S} (hJ : J vals q l T created Γ eS eT E) (us vs gs gt : List (Nm × D S)) (ms : List Nm)
    (hle : Upd us vs) (hfr : Γ.fresh (us.map (·.1)))
    (hms : ∀ m ∈ ms, ¬ Γ m ∧ ¬ m.isO ∧ ∀ id v, m = .x id → vals id = some v →
      (Γ.add (us.map (·.1))).has v ∧ ∃ x, setL E (vs ++ gs) v = .w x)
    (hgw : ∀ m ∈ ms, ∀ id, vals id = none → (m = .x id ∨ m = .p id) → ∃ x, setL E (vs ++ gs) m = .w x)
    (hgs : ∀ m ∈ gs.map (·.1), m ∈ ms) (hgt : ∀ m ∈ gt.map (·.1), m ∈ ms)
    (hgg : ∀ m ∈ ms, ∀ id, vals id = none → created id = true → (m = .x id ∨ m = .p id) → setL eT gt m = setL E gs m)
    (hfact : ∀ s ∈ us.map (·.1), ∀ r, T s = some r → r.inScope vals (Γ.add (ms ++ us.map (·.1))) ∧
      Fact q l (setL eS us) (setL E (vs ++ gs)) s r) :
    J vals q l T created (Γ.add (ms ++ us.map (·.1))) (setL eS us) (setL eT (vs ++ gt)) (setL E (vs ++ gs)) ∧
      Frame Γ eS (setL eS us) ∧ Frame Γ eT (setL eT (vs ++ gt)) ∧ Frame Γ E (setL E (vs ++ gs)) := by
  have hk := hle.keys
  have f1 : Frame Γ eS (setL eS us) := fun m hm => setL_not fun h => (hfr.2 m h).1 hm
  have f2 : ∀ (e : Env S) (g : List (Nm × D S)), (∀ m ∈ g.map (·.1), m ∈ ms) → Frame Γ e (setL e (vs ++ g)) := by
    intro e g hg m hm
    apply setL_not
    rw [List.map_append, List.mem_append, hk]
    rintro (h | h)
    · exact (hfr.2 m h).1 hm
    · exact (hms m (hg m h)).1 hm
  have hb := hJ.frame f1 (f2 eT gt hgt) (f2 E gs hgs)
  have hnv : (vs.map (·.1)).Nodup := by rw [hk]; exact hfr.1
  have hvals : ∀ id v, vals id = some v → (Γ.add (ms ++ us.map (·.1))) (.x id) →
      (Γ.add (ms ++ us.map (·.1))).has v ∧ ∃ x, setL E (vs ++ gs) v = .w x := by
    intro id v hv h
    rcases h with h | h
    · refine ⟨⟨Or.inl (hJ.vals id v hv h).1, (hJ.vals id v hv h).2⟩, ?_⟩
      have := hb.word (.store id v) ⟨hv, h⟩
      exact this
    · rcases List.mem_append.mp h with h | h
      · obtain ⟨⟨h1, h2⟩, h3⟩ := (hms _ h).2.2 id v rfl hv
        refine ⟨⟨?_, h2⟩, h3⟩
        rcases h1 with h1 | h1
        · exact Or.inl h1
        · exact Or.inr (List.mem_append.mpr (Or.inr h1))
      · exact absurd (hfr.2 _ h).2 (by simp [Nm.isO])
  have hghost : ∀ id m, vals id = none → (m = .x id ∨ m = .p id) → (Γ.add (ms ++ us.map (·.1))) m → ∃ x, setL E (vs ++ gs) m = .w x := by
    intro id m hv hmx h
    rcases h with h | h
    · rcases hmx with rfl | rfl
      · exact hb.word (.gammaOut id) ⟨hv, h⟩
      · exact hb.word (.thetaPre id) ⟨hv, h⟩
    · rcases List.mem_append.mp h with h | h
      · exact hgw m h id hv hmx
      · exact absurd (hfr.2 _ h).2 (by rcases hmx with rfl | rfl <;> simp [Nm.isO])
  refine ⟨⟨?_, ?_, ?_, ?_, ?_, ?_⟩, f1, f2 eT gt hgt, f2 E gs hgs⟩
  · rintro m ⟨hm | hm, hO⟩
    · exact hb.le m ⟨hm, hO⟩
    · rcases List.mem_append.mp hm with hm | hm
      · exact absurd hO (hms m hm).2.1
      · obtain ⟨d, d', h1, h2, h3⟩ := hle.find hm
        rw [setL_mem hfr.1 h1, setL_append_left (by rw [hk]; exact hm), setL_mem hnv h2]
        exact h3
  · rintro m ⟨hm | hm, hO⟩
    · exact hb.same m ⟨hm, hO⟩
    · rcases List.mem_append.mp hm with hm | hm
      · exact absurd hO (hms m hm).2.1
      · obtain ⟨d, d', h1, h2, h3⟩ := hle.find hm
        rw [setL_append_left (by rw [hk]; exact hm), setL_append_left (by rw [hk]; exact hm), setL_mem hnv h2, setL_mem hnv h2]
  · intro id hv hc
    have key : ∀ m, (m = .x id ∨ m = .p id) → m ∈ ms ++ us.map (·.1) → setL eT (vs ++ gt) m = setL E (vs ++ gs) m := by
      intro m hmx hm
      have hnO : ¬ m.isO := by rcases hmx with rfl | rfl <;> simp [Nm.isO]
      have hnk : m ∉ vs.map (·.1) := by
        rw [hk]
        intro h
        exact hnO (hfr.2 m h).2
      rcases List.mem_append.mp hm with hm | hm
      · rw [setL_append_right hnk, setL_append_right hnk]
        exact hgg m hm id hv hc hmx
      · exact absurd (hfr.2 m hm).2 hnO
    refine ⟨fun h => ?_, fun h => ?_⟩
    · rcases h with h | h
      · exact (hb.made id hv hc).1 h
      · exact key _ (Or.inl rfl) h
    · rcases h with h | h
      · exact (hb.made id hv hc).2 h
      · exact key _ (Or.inr rfl) h
  · rintro s ⟨hs | hs, hO⟩ r hr
    · obtain ⟨hi, hf⟩ := hb.fact s ⟨hs, hO⟩ r hr
      exact ⟨inScope_mono (fun m h => Or.inl h) hi, hf⟩
    · rcases List.mem_append.mp hs with hs | hs
      · exact absurd hO (hms s hs).2.1
      · exact hfact s hs r hr
  · intro r hr
    cases r <;> simp only [Origin.inScope] at hr <;> simp only [Origin.src, Src.eval]
    · exact ⟨none, rfl⟩
    · exact (hvals _ _ hr.1 hr.2).2
    · exact (hvals _ _ hr.1 hr.2).2
    · exact hghost _ _ hr.1 (Or.inl rfl) hr.2
    · exact hghost _ _ hr.1 (Or.inl rfl) hr.2
    · exact hghost _ _ hr.1 (Or.inr rfl) hr.2
  · exact fun id v hv h => (hvals id v hv h).1

end Jlm.Opt.Svf
