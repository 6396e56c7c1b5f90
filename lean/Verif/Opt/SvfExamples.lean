import Verif.Opt.SvfProps

set_option linter.unusedSimpArgs false
set_option linter.unusedVariables false

/-!
# C53: examples and a counterexample
-/

namespace Jlm.Opt.Svf.Ex

/-- Memories are partial functions; all the values have the same size. -/
def natSem : Sem where
  W := Nat
  M := Nat → Option (Option Nat)
  rd m a _ := m a
  wr m a _ v := fun x => if x = a then (m a).map (fun _ => v) else m x
  jn ms := fun a => ms.findSome? (· a)
  disj a _ b _ := a ≠ b
  sel c := c
  leM m m' := ∀ a, (m a = none → m' a = none) ∧ ∀ c, m a = some c → ∃ c', m' a = some c' ∧ leV c c'

/-- Constants, decrement and increment; an alloca covers 100 to 109. -/
def natOps : Ops natSem where
  fn f as :=
    match f, as with
    | 0, [] => some [.w (some (7 : Nat))]
    | 1, [] => some [.w (some (8 : Nat))]
    | 2, [.w (some n)] => some [.w (some (Nat.sub n 1))]
    | 3, [.w (some n)] => some [.w (some (Nat.succ n))]
    | _, _ => none
  alloc _ _ := some (some (100 : Nat), fun a => if 100 ≤ a ∧ a < 110 then some none else none)

instance : DecidableEq natSem.W := inferInstanceAs (DecidableEq Nat)

theorem natSem_refl (m : natSem.M) : natSem.leM m m := fun _ => ⟨fun h => h, fun c h => ⟨c, h, leV_refl c⟩⟩

theorem findSome_le (a : Nat) {ms ms' : List natSem.M} (h : List.Forall₂ natSem.leM ms ms') :
    (ms.findSome? (· a) = none → ms'.findSome? (· a) = none) ∧
      ∀ c, ms.findSome? (· a) = some c → ∃ c', ms'.findSome? (· a) = some c' ∧ leV c c' := by
  induction h with
  | nil => exact ⟨fun h => h, fun c h => by simp at h⟩
  | @cons m m' ms ms' h _ ih =>
    obtain ⟨h1, h2⟩ := h a
    simp only [List.findSome?_cons]
    cases hm : m a with
    | none =>
      rw [h1 hm]
      exact ih
    | some c =>
      obtain ⟨c', h3, h4⟩ := h2 c hm
      rw [h3]
      exact ⟨fun h => by simp at h, fun c0 h => by injection h with h; subst h; exact ⟨c', rfl, h4⟩⟩

/-- The assumptions hold. -/
theorem natLaws : natSem.Laws natOps where
  rd_wr m a t v c h := by
    have h0 : natSem.rd (natSem.wr m a t v) a t = Option.map (fun _ => v) (natSem.rd m a t) := if_pos rfl
    rw [h0] at h
    obtain ⟨x, -, h⟩ := Option.map_eq_some_iff.mp h
    exact h.symm
  rd_other m a t a' t' v h := by
    exact if_neg h
  rd_jn ms a t c h := by
    obtain ⟨l1, m, l2, h1, h2, -⟩ := List.findSome?_eq_some_iff.mp (show ms.findSome? (fun m : natSem.M => m a) = some c from h)
    exact ⟨m, by rw [h1]; simp, h2⟩
  refl := natSem_refl
  rd_le m m' a t h := h a
  wr_le m m' a t v v' h hv := by
    intro x
    obtain ⟨h1, h2⟩ := h a
    by_cases hx : x = a
    · have h0 : ∀ (m : natSem.M) v, natSem.wr m a t v x = Option.map (fun _ => v) (natSem.rd m a t) := fun m v => if_pos hx
      rw [h0, h0]
      cases hm : natSem.rd m a t with
      | none => rw [show natSem.rd m' a t = none from h1 hm]; simp
      | some c =>
        obtain ⟨c', h3, h4⟩ := h2 c hm
        rw [show natSem.rd m' a t = some c' from h3]
        refine ⟨fun h => by simp at h, fun c h => ?_⟩
        injection h with h
        subst h
        exact ⟨v', rfl, hv⟩
    · have h0 : ∀ (m : natSem.M) v, natSem.wr m a t v x = m x := fun m v => if_neg hx
      rw [h0, h0]
      exact h x
  jn_le ms ms' h := fun a => findSome_le a h
  fn_le f as as' rs h hf := by
    have hrefl : ∀ x : Option Nat, D.le (S := natSem) (.w x) (.w x) := fun x => leV_refl x
    simp only [natOps] at hf ⊢
    split at hf
    · cases h; injection hf with hf; subst hf; exact ⟨_, rfl, .cons (hrefl _) .nil⟩
    · cases h; injection hf with hf; subst hf; exact ⟨_, rfl, .cons (hrefl _) .nil⟩
    · next n =>
      cases h with
      | cons h1 h2 =>
        cases h2
        have := le_word h1
        subst this
        injection hf with hf
        subst hf
        exact ⟨_, rfl, .cons (hrefl _) .nil⟩
    · next n =>
      cases h with
      | cons h1 h2 =>
        cases h2
        have := le_word h1
        subst this
        injection hf with hf
        subst hf
        exact ⟨_, rfl, .cons (hrefl _) .nil⟩
    · simp at hf
  alloc_le f as as' x m h ha := by
    simp only [natOps, Option.some.injEq, Prod.mk.injEq] at ha ⊢
    obtain ⟨rfl, rfl⟩ := ha
    exact ⟨_, _, rfl, leV_refl _, natSem_refl _⟩
  alloc_undef f as x m a t c ha hr := by
    simp only [natOps, Option.some.injEq, Prod.mk.injEq] at ha
    obtain ⟨rfl, rfl⟩ := ha
    simp only [natSem] at hr
    split at hr
    · injection hr with hr; exact hr.symm
    · simp at hr

/-! ## A store in each branch of a gamma node -/

def gam : List Node :=
  [.op 0 [] [.o 1], .op 1 [] [.o 2], .alloca 0 [] (.o 3) (.o 4),
   .gamma 10 (.o 0) [[.store 11 (.o 3) (.o 1) 0 [(.o 4, .o 5)]], [.store 12 (.o 3) (.o 2) 0 [(.o 4, .o 6)]]]
     [(.o 7, [.nm (.o 5), .nm (.o 6)])],
   .load 13 (.o 3) (.o 8) 0 [(.o 7, .o 9)]]

def gamDef : Nm → Def
  | .o 4 => .alloca
  | .o 5 => .store 11 (.o 1) 0 (.o 4)
  | .o 6 => .store 12 (.o 2) 0 (.o 4)
  | .o 7 => .gamma 10 [.nm (.o 5), .nm (.o 6)] [11, 12]
  | .o 9 => .load 13 (.o 8) 0 (.o 7)
  | _ => .other

def gamQ : Query := ⟨13, 0, fun _ => .must⟩

/-- The gamma node gets an exit variable. -/
theorem gam_forward : forwardLoad gamDef gamQ [.o 7] (fun _ => 2) 20 gam = some
  [.op 0 [] [.o 1], .op 1 [] [.o 2], .alloca 0 [] (.o 3) (.o 4),
   .gamma 10 (.o 0) [[.store 11 (.o 3) (.o 1) 0 [(.o 4, .o 5)]], [.store 12 (.o 3) (.o 2) 0 [(.o 4, .o 6)]]]
     [(.o 7, [.nm (.o 5), .nm (.o 6)]), (.x 10, [.nm (.o 1), .nm (.o 2)])],
   .fwd (.o 8) (.nm (.x 10)) [(.o 7, .o 9)]] := by rfl

def gamVals : Nat → Option Nm
  | 11 => some (.o 1)
  | 12 => some (.o 2)
  | 13 => some (.o 8)
  | _ => none

def arg : Scope := fun m => m = .o 0

theorem gam_wf : wfL gamVals arg gam := by
  simp [wfL, wfB, gam, Node.wf, Node.adds, Scope.add, Scope.has, Scope.fresh, Scope.hasSrc, arg, Nm.isO, after, gamVals]
  intro b br h
  match b, h with
  | 0, h => simp at h; subst h; simp [after, Node.adds, Scope.add, arg]
  | 1, h => simp at h; subst h; simp [after, Node.adds, Scope.add, arg]
  | b + 2, h => simp at h

theorem gamDef_id {s : Nm} (h : (gamDef s).id = some 10) : s = .o 7 := by
  unfold gamDef at h
  split at h <;> simp [Def.id] at h
  rfl

theorem gam_defd : defdL gamDef gamQ [.o 7] (fun _ => 2) gam := by
  simp only [defdL, defdB, gam, Node.defd, gamQ]
  refine ⟨by simp [gamDef], by simp [gamDef], by simp [gamDef], ⟨by simp [gamDef], by simp, by simp, [11, 12], ?_, ?_, ?_⟩, by simp [gamDef], trivial⟩
  · simp [ids, Node.id?]
  · simp [gamDef]
  · intro s hs
    exact ⟨_, List.mem_singleton.mpr rfl, by rw [gamDef_id hs]; rfl⟩

def env (c : Nat) : Env natSem := fun _ => .w (some (c : Nat))

/-- One node, whose result is known. -/
theorem ok_cons {S : Sem} {ops : Ops S} {q : Query} {reset : Nat → Prop} {k : Nat} {l : Option S.W} {nd : Node} {ns : List Node} {e : Env S}
    (e1 : Env S) (h : okStep q reset (ok ops q reset k) (run ops k) k l nd e) (hs : step ops (run ops k) k nd e = some e1)
    (ht : ok ops q reset k l ns e1) : ok ops q reset (k + 1) l (nd :: ns) e := by
  refine ⟨h, fun e' he => ?_⟩
  rw [hs] at he
  injection he with he
  exact he ▸ ht

/-- The answers of the alias analysis are right, whichever branch is taken. -/
theorem gam_ok (c : Nat) (hc : c < 2) : ok natOps gamQ (fun _ => False) 20 (some (100 : Nat)) gam (env c) := by
  match c, hc with
  | 0, _ =>
    refine ok_cons _ trivial rfl (ok_cons _ trivial rfl (ok_cons _ trivial rfl (ok_cons _ ?_ rfl (ok_cons _ ?_ rfl trivial))))
    · intro c br hp hb
      cases hp
      cases hb
      refine ok_cons _ ?_ rfl trivial
      intro l' hl b hb
      cases hl
      cases hb
      exact ⟨fun h => by simp [gamQ] at h, fun _ => rfl⟩
    · exact ⟨fun _ => ⟨rfl, _, rfl, rfl⟩, fun _ l' hl b hb => by cases hl; cases hb; rfl⟩
  | 1, _ =>
    refine ok_cons _ trivial rfl (ok_cons _ trivial rfl (ok_cons _ trivial rfl (ok_cons _ ?_ rfl (ok_cons _ ?_ rfl trivial))))
    · intro c br hp hb
      cases hp
      cases hb
      refine ok_cons _ ?_ rfl trivial
      intro l' hl b hb
      cases hl
      cases hb
      exact ⟨fun h => by simp [gamQ] at h, fun _ => rfl⟩
    · exact ⟨fun _ => ⟨rfl, _, rfl, rfl⟩, fun _ l' hl b hb => by cases hl; cases hb; rfl⟩

theorem gam_run : (run natOps 20 gam (env 0)).map (· (.o 8)) = some (.w (some (7 : Nat))) ∧
    (run natOps 20 gam (env 1)).map (· (.o 8)) = some (.w (some (8 : Nat))) := ⟨rfl, rfl⟩

/-- `C53_forward_partial` for this graph: the result of the load is that of the original graph. -/
theorem gam_forwarded (c : Nat) (hc : c < 2) : ∀ ns', forwardLoad gamDef gamQ [.o 7] (fun _ => 2) 20 gam = some ns' →
    ∃ eT, run natOps 20 ns' (env c) = some eT ∧ eT (.o 8) = .w (some (if c = 0 then (7 : Nat) else (8 : Nat))) := by
  intro ns' hf
  have hr : ∃ e', run natOps 20 gam (env c) = some e' ∧ e' (.o 8) = .w (some (if c = 0 then (7 : Nat) else (8 : Nat))) := by
    match c, hc with
    | 0, _ => exact ⟨_, rfl, rfl⟩
    | 1, _ => exact ⟨_, rfl, rfl⟩
  obtain ⟨e', hr, hv⟩ := hr
  obtain ⟨eT, h1, h2⟩ := C53_forward_partial natLaws (Γ := arg) (reset := fun _ => False) (fun m hm => by cases hm; exact ⟨trivial, rfl⟩)
    gam_wf gam_defd (by simp) (by simp [borderL, borderB, gam, Node.border]) hf (gam_ok c hc) hr
  refine ⟨eT, h1, ?_⟩
  have h3 := h2 (.o 8) ⟨by simp [after, gam, Node.adds, Scope.add], trivial⟩
  rw [hv] at h3
  cases h4 : eT (.o 8) with
  | w x =>
    rw [h4] at h3
    rcases h3 with h3 | h3
    · simp at h3
    · rw [h3]
  | mem x => rw [h4] at h3; exact h3.elim

/-! ## A loop -/

/-- `*p = 7; do { x = *p; *p = 8; n = n - 1; } while (n != 0);` -/
def loop : List Node :=
  [.op 0 [] [.o 1], .op 1 [] [.o 2], .alloca 0 [] (.o 3) (.o 4), .store 20 (.o 3) (.o 1) 0 [(.o 4, .o 5)],
   .theta 21 [⟨.nm (.o 0), .o 10, .nm (.o 14), .o 20⟩, ⟨.nm (.o 5), .o 11, .nm (.o 15), .o 21⟩]
     [.load 22 (.o 3) (.o 12) 0 [(.o 11, .o 13)], .store 23 (.o 3) (.o 2) 0 [(.o 13, .o 15)], .op 2 [.o 10] [.o 14]] (.o 14)]

def loopDef : Nm → Def
  | .o 4 => .alloca
  | .o 5 => .store 20 (.o 1) 0 (.o 4)
  | .o 10 => .thetaPre 21 (.nm (.o 0)) (.nm (.o 14))
  | .o 20 => .thetaOut 21 (.nm (.o 0)) (.nm (.o 14))
  | .o 11 => .thetaPre 21 (.nm (.o 5)) (.nm (.o 15))
  | .o 21 => .thetaOut 21 (.nm (.o 5)) (.nm (.o 15))
  | .o 13 => .load 22 (.o 12) 0 (.o 11)
  | .o 15 => .store 23 (.o 2) 0 (.o 13)
  | _ => .other

/-- The loop gets a loop variable, which starts as 7 and is 8 afterwards. -/
theorem loop_forward : forwardLoad loopDef ⟨22, 0, fun _ => .must⟩ [.o 11] (fun _ => 1) 20 loop = some
  [.op 0 [] [.o 1], .op 1 [] [.o 2], .alloca 0 [] (.o 3) (.o 4), .store 20 (.o 3) (.o 1) 0 [(.o 4, .o 5)],
   .theta 21 [⟨.nm (.o 0), .o 10, .nm (.o 14), .o 20⟩, ⟨.nm (.o 5), .o 11, .nm (.o 15), .o 21⟩, ⟨.nm (.o 1), .p 21, .nm (.o 2), .x 21⟩]
     [.fwd (.o 12) (.nm (.p 21)) [(.o 11, .o 13)], .store 23 (.o 3) (.o 2) 0 [(.o 13, .o 15)], .op 2 [.o 10] [.o 14]] (.o 14)] := by rfl

theorem loop_runs : ((run natOps 20 loop (env 3)).map (· (.o 12)) = some (.w (some (8 : Nat)))) ∧
    ((forwardLoad loopDef ⟨22, 0, fun _ => .must⟩ [.o 11] (fun _ => 1) 20 loop).bind fun g =>
      (run natOps 20 g (env 3)).map (· (.o 12))) = some (.w (some (8 : Nat))) := ⟨rfl, rfl⟩

/-! ## Finding 69: the address of the load is another one in every iteration -/

/-- `int a[10]; p = a; do { q = p; p = p + 1; x = *q; *p = 7; n = n - 1; } while (n != 0);` The load reads what the previous iteration has
stored. Here `.o 10` is `n`, `.o 11` is `p`. -/
def vary : List Node :=
  [.op 0 [] [.o 1], .alloca 0 [] (.o 3) (.o 4),
   .theta 21 [⟨.nm (.o 0), .o 10, .nm (.o 14), .o 20⟩, ⟨.nm (.o 3), .o 11, .nm (.o 16), .o 22⟩, ⟨.nm (.o 4), .o 12, .nm (.o 15), .o 21⟩]
     [.op 3 [.o 11] [.o 16], .load 22 (.o 11) (.o 17) 0 [(.o 12, .o 13)], .store 23 (.o 16) (.o 1) 0 [(.o 13, .o 15)],
      .op 2 [.o 10] [.o 14]] (.o 14)]

def varyDef : Nm → Def
  | .o 4 => .alloca
  | .o 10 => .thetaPre 21 (.nm (.o 0)) (.nm (.o 14))
  | .o 20 => .thetaOut 21 (.nm (.o 0)) (.nm (.o 14))
  | .o 11 => .thetaPre 21 (.nm (.o 3)) (.nm (.o 16))
  | .o 22 => .thetaOut 21 (.nm (.o 3)) (.nm (.o 16))
  | .o 12 => .thetaPre 21 (.nm (.o 4)) (.nm (.o 15))
  | .o 21 => .thetaOut 21 (.nm (.o 4)) (.nm (.o 15))
  | .o 13 => .load 22 (.o 17) 0 (.o 12)
  | .o 15 => .store 23 (.o 1) 0 (.o 13)
  | _ => .other

/-- The addresses `p` and `p + 1` are different (`LocalAliasAnalysis`: same base, different constant offsets). -/
def varyQ : Query := ⟨22, 0, fun | 23 => .no | _ => .must⟩

/-- The answers are right whenever the region is executed: the two addresses differ. -/
theorem vary_alias (e e' : Env natSem) (p : Nat) (hp : e (.o 11) = .w (some p))
    (h : step natOps (run natOps 0) 0 (.op 3 [.o 11] [.o 16]) e = some e') :
    e' (.o 11) = .w (some p) ∧ ∃ p', e' (.o 16) = .w (some p') ∧ natSem.disj p 0 p' 0 := by
  simp only [step, List.map, hp] at h
  have h1 : natOps.fn 3 [D.w (some p)] = some [.w (some (Nat.succ p))] := rfl
  rw [h1] at h
  simp only [List.length, if_true, Option.some.injEq] at h
  subst h
  exact ⟨by simp [setL, hp], _, by simp [setL]; rfl, by show p ≠ Nat.succ p; omega⟩

/-- The entries of the maps after tracing: only uninitialised memory, or the load itself. -/
theorem vary_trace : (traceAll varyDef varyQ 20 [.o 12]).map Maps.owner = some
    [(.nd 21, some .uninit), (.nd 22, some (.thetaPre 21)), (.nd 23, some (.load 22 (.o 17))), (.rg 21 0, some (.load 22 (.o 17)))] := by
  decide +kernel

def varyOut : List Node :=
  [.op 0 [] [.o 1], .alloca 0 [] (.o 3) (.o 4),
   .theta 21 [⟨.nm (.o 0), .o 10, .nm (.o 14), .o 20⟩, ⟨.nm (.o 3), .o 11, .nm (.o 16), .o 22⟩, ⟨.nm (.o 4), .o 12, .nm (.o 15), .o 21⟩,
      ⟨.undef, .p 21, .nm (.o 17), .x 21⟩]
     [.op 3 [.o 11] [.o 16], .fwd (.o 17) (.nm (.p 21)) [(.o 12, .o 13)], .store 23 (.o 16) (.o 1) 0 [(.o 13, .o 15)],
      .op 2 [.o 10] [.o 14]] (.o 14)]

/-- The load is forwarded. -/
theorem vary_forward : forwardLoad varyDef varyQ [.o 12] (fun _ => 1) 20 vary = some varyOut := by
  cases hm : traceAll varyDef varyQ 20 [.o 12] with
  | none => have := vary_trace; rw [hm] at this; simp at this
  | some m =>
    have h := vary_trace
    rw [hm] at h
    have h : m.owner = _ := Option.some.inj h
    have ho : ∀ c, m.own c = (Maps.own { owner := m.owner }) c := fun c => rfl
    have ho : m.own = Maps.own { owner := m.owner } := funext ho
    unfold forwardLoad
    rw [hm]
    simp only [ho, h]
    rfl

/-- The original program reads 7 in the second iteration; the result has an undefined value. -/
theorem C53_vary_counterexample :
    ∃ out e e', forwardLoad varyDef varyQ [.o 12] (fun _ => 1) 20 vary = some out ∧
      run natOps 20 vary (env 2) = some e ∧ e (.o 17) = .w (some (7 : Nat)) ∧
      run natOps 20 out (env 2) = some e' ∧ e' (.o 17) = .w none :=
  ⟨varyOut, _, _, vary_forward, rfl, rfl, rfl, rfl⟩

end Jlm.Opt.Svf.Ex
