import Verif.Aa.PointerSetProps
/-
C20 and C24: specification of the pointer object set as a partition of objects into classes.
-/
set_option linter.unusedSimpArgs false
set_option linter.unusedVariables false
namespace Jlm.Llvm.Aa

/-! ## Specification -/

/-- What a client knows about a pointer object set: which objects have been made equal, and for
every object its pointees and flags. -/
structure Abs where
  n : Nat
  kind : Nat → Kind
  /-- the two objects have been unified, directly or through others -/
  conn : Nat → Nat → Prop
  pts : Nat → Nat → Prop
  pe : Nat → Prop
  pte : Nat → Prop
  ss : Nat → Prop
  ls : Nat → Prop
  esc : Nat → Prop

def Abs.empty : Abs :=
  { n := 0, kind := fun _ => .register, conn := fun i j => i = j, pts := fun _ _ => False,
    pe := fun _ => False, pte := fun _ => False, ss := fun _ => False, ls := fun _ => False,
    esc := fun _ => False }

/-- Whatever is said about `a` or `b` holds for both classes after they are unified. -/
def Abs.merge (A : Abs) (a b : Nat) (P : Nat → Prop) : Nat → Prop := fun i =>
  P i ∨ ((A.conn i a ∨ A.conn i b) ∧ (P a ∨ P b))

def Abs.step (A : Abs) : POp → Abs
  | .add k c =>
    { A with n := A.n + 1
             kind := fun i => if i = A.n then k else A.kind i
             pts := fun i x => i ≠ A.n ∧ A.pts i x
             pe := fun i => if i = A.n then c = false else A.pe i
             pte := fun i => if i = A.n then c = false else A.pte i
             ss := fun i => i ≠ A.n ∧ A.ss i
             ls := fun i => i ≠ A.n ∧ A.ls i
             esc := fun i => i ≠ A.n ∧ A.esc i }
  | .lookup _ => A
  | .unify a b =>
    { A with conn := fun i j => A.conn i j ∨ (A.conn i a ∧ A.conn b j) ∨ (A.conn i b ∧ A.conn a j)
             pts := fun i x => A.merge a b (fun k => A.pts k x) i
             pe := A.merge a b A.pe
             pte := A.merge a b A.pte
             ss := A.merge a b A.ss
             ls := A.merge a b A.ls }
  | .addPointee p x => { A with pts := fun i y => A.pts i y ∨ (A.conn i p ∧ y = x) }
  | .makeSuperset a b =>
    { A with pts := fun i y => A.pts i y ∨ (A.conn i a ∧ A.pts b y)
             pte := fun i => A.pte i ∨ (A.conn i a ∧ A.pte b) }
  | .removeAll a => { A with pts := fun i y => A.pts i y ∧ ¬ A.conn i a }
  | .markPE a => { A with pe := fun i => A.pe i ∨ A.conn i a }
  | .markPTE a => { A with pte := fun i => A.pte i ∨ A.conn i a }
  | .markSS a => { A with ss := fun i => A.ss i ∨ A.conn i a }
  | .markLS a => { A with ls := fun i => A.ls i ∨ A.conn i a }
  | .markEscaped a =>
    { A with esc := fun i => A.esc i ∨ i = a
             pe := fun i => A.pe i ∨ (A.conn i a ∧ ¬ A.esc a)
             pte := fun i => A.pte i ∨ (A.conn i a ∧ ¬ A.esc a) }

/-- the preconditions (assertions) of the operations -/
def Abs.Ok (A : Abs) : POp → Prop
  | .add k c => A.n < 2 ^ 32 - 1 ∧ (k = .function → c = false) ∧ (k = .register → c = true)
  | .lookup i | .removeAll i | .markPE i | .markPTE i | .markSS i | .markLS i => i < A.n
  | .unify a b | .makeSuperset a b => a < A.n ∧ b < A.n
  | .addPointee p x => p < A.n ∧ x < A.n ∧ A.kind x ≠ .register
  | .markEscaped i => i < A.n ∧ A.kind i ≠ .register

def Abs.run (A : Abs) : List POp → Abs
  | [] => A
  | op :: ops => (A.step op).run ops

def Abs.OkAll (A : Abs) : List POp → Prop
  | [] => True
  | op :: ops => A.Ok op ∧ (A.step op).OkAll ops

/-! ## The set with root functions meets the specification -/

def RSet.abs (r : RSet) : Abs :=
  { n := r.n, kind := fun i => (r.obj i).kind, conn := fun i j => r.root i = r.root j,
    pts := fun i x => x ∈ r.pointees i, pe := fun i => r.pe i = true, pte := fun i => r.pte i = true,
    ss := fun i => r.ss i = true, ls := fun i => r.ls i = true, esc := fun i => r.escaped i = true }

theorem Abs.ext' {A B : Abs} (h1 : A.n = B.n) (h2 : ∀ i, A.kind i = B.kind i)
    (h3 : ∀ i j, A.conn i j ↔ B.conn i j) (h4 : ∀ i j, A.pts i j ↔ B.pts i j)
    (h5 : ∀ i, A.pe i ↔ B.pe i) (h6 : ∀ i, A.pte i ↔ B.pte i) (h7 : ∀ i, A.ss i ↔ B.ss i)
    (h8 : ∀ i, A.ls i ↔ B.ls i) (h9 : ∀ i, A.esc i ↔ B.esc i) : A = B := by
  cases A; cases B
  simp only [Abs.mk.injEq]
  exact ⟨h1, funext h2, funext fun i => funext fun j => propext (h3 i j),
    funext fun i => funext fun j => propext (h4 i j), funext fun i => propext (h5 i),
    funext fun i => propext (h6 i), funext fun i => propext (h7 i), funext fun i => propext (h8 i),
    funext fun i => propext (h9 i)⟩

theorem newOk_iff {k c} : Obj.newOk k c = true ↔ (k = .function → c = false) ∧ (k = .register → c = true) := by
  cases k <;> cases c <;> simp [Obj.newOk]

theorem abs_unify_pick {r : RSet} (w : r.Wf) {a b new old : Nat} (k : Nat → Nat)
    (hno : (new = r.root a ∧ old = r.root b) ∨ (new = r.root b ∧ old = r.root a))
    (hne : r.root a ≠ r.root b) :
    RSet.abs { n := r.n, obj := upd r.obj new { r.obj new with pte := (r.obj new).pte || (r.obj old).pte, pe := (r.obj new).pe || (r.obj old).pe, ss := (r.obj new).ss || (r.obj old).ss, ls := (r.obj new).ls || (r.obj old).ls }, root := fun i => if r.root i = old then new else r.root i, rank := k, pts := upd (upd r.pts new (uni (r.pts new) (r.pts old))) old [] }
      = r.abs.step (.unify a b) := by
  have hia := w.idem a
  have hib := w.idem b
  have hneq : new ≠ old := by rcases hno with ⟨rfl, rfl⟩ | ⟨rfl, rfl⟩ <;> [exact hne; exact Ne.symm hne]
  have flag : ∀ (P : Nat → Prop) (f : Obj → Bool), (∀ i, P i ↔ f (r.obj (r.root i)) = true) →
      ∀ (o : Obj), f o = (f (r.obj new) || f (r.obj old)) → ∀ i,
      f (upd r.obj new o (if r.root i = old then new else r.root i)) = true ↔ r.abs.merge a b P i := by
    intro P f hP o ho i
    unfold Abs.merge
    show _ ↔ P i ∨ ((r.root i = r.root a ∨ r.root i = r.root b) ∧ (P a ∨ P b))
    rw [hP, hP, hP]
    by_cases h1 : r.root i = old
    · rw [if_pos h1, upd_same, ho, Bool.or_eq_true]
      rcases hno with ⟨rfl, rfl⟩ | ⟨rfl, rfl⟩ <;> rw [h1] <;> tauto
    · rw [if_neg h1]
      by_cases h2 : r.root i = new
      · rw [h2, upd_same, ho, Bool.or_eq_true]
        rcases hno with ⟨rfl, rfl⟩ | ⟨rfl, rfl⟩ <;> tauto
      · rw [upd_ne _ _ h2]
        rcases hno with ⟨rfl, rfl⟩ | ⟨rfl, rfl⟩ <;> tauto
  refine Abs.ext' ?_ ?_ ?_ ?_ ?_ ?_ ?_ ?_ ?_
  · rfl
  · intro i
    show Obj.kind (upd _ _ _ i) = _
    unfold upd; split
    · rename_i h; subst h; rfl
    · rfl
  · intro i j
    show (if r.root i = old then new else r.root i) = (if r.root j = old then new else r.root j) ↔
      (r.root i = r.root j ∨ (r.root i = r.root a ∧ r.root b = r.root j) ∨ (r.root i = r.root b ∧ r.root a = r.root j))
    rcases hno with ⟨rfl, rfl⟩ | ⟨rfl, rfl⟩
    · by_cases h1 : r.root i = r.root b <;> by_cases h2 : r.root j = r.root b <;>
        simp only [h1, h2, if_true, if_false] <;> (try simp only [true_iff, iff_true]) <;> grind
    · by_cases h1 : r.root i = r.root a <;> by_cases h2 : r.root j = r.root a <;>
        simp only [h1, h2, if_true, if_false] <;> grind
  · intro i x
    show x ∈ upd _ _ _ (if r.root i = old then new else r.root i) ↔ (x ∈ r.pts (r.root i) ∨
      ((r.root i = r.root a ∨ r.root i = r.root b) ∧ (x ∈ r.pts (r.root a) ∨ x ∈ r.pts (r.root b))))
    by_cases h1 : r.root i = old
    · rw [if_pos h1, upd_ne _ _ hneq, upd_same, mem_uni]
      rcases hno with ⟨rfl, rfl⟩ | ⟨rfl, rfl⟩ <;> rw [h1] <;> tauto
    · rw [if_neg h1, upd_ne _ _ h1]
      by_cases h2 : r.root i = new
      · rw [h2, upd_same, mem_uni]
        rcases hno with ⟨rfl, rfl⟩ | ⟨rfl, rfl⟩ <;> tauto
      · rw [upd_ne _ _ h2]
        rcases hno with ⟨rfl, rfl⟩ | ⟨rfl, rfl⟩ <;> tauto
  · exact flag _ Obj.pe (fun _ => Iff.rfl) _ rfl
  · exact flag _ Obj.pte (fun _ => Iff.rfl) _ rfl
  · exact flag _ Obj.ss (fun _ => Iff.rfl) _ rfl
  · exact flag _ Obj.ls (fun _ => Iff.rfl) _ rfl
  · intro i
    show Obj.escaped (upd _ _ _ i) = true ↔ (r.obj i).escaped = true
    unfold upd; split
    · rename_i h; subst h; rfl
    · rfl

/-- setting one flag on the root of a class -/
theorem flag_upd (r : RSet) (a : Nat) (f : Obj → Bool) (o : Obj)
    (ho : f o = true) (i : Nat) :
    f (upd r.obj (r.root a) o (r.root i)) = true ↔ f (r.obj (r.root i)) = true ∨ r.root i = r.root a := by
  by_cases h : r.root i = r.root a
  · rw [h, upd_same]; simp [ho]
  · rw [upd_ne _ _ h]; simp [h]

theorem flag_keep {β : Type} (r : RSet) (c : Nat) (f : Obj → β) (o : Obj)
    (ho : f o = f (r.obj c)) (i : Nat) : f (upd r.obj c o i) = f (r.obj i) := by
  by_cases h : i = c
  · rw [h, upd_same, ho]
  · rw [upd_ne _ _ h]

theorem abs_setPE (r : RSet) (a : Nat) : (r.setPE a).abs = r.abs.step (.markPE a) := by
  have k : ∀ {β : Type} (f : Obj → β), f { r.obj (r.root a) with pe := true } = f (r.obj (r.root a)) → ∀ i, f (upd r.obj (r.root a) { r.obj (r.root a) with pe := true } i) = f (r.obj i) := fun f h i => flag_keep r _ f _ h i
  refine Abs.ext' rfl (fun i => k Obj.kind rfl i) (fun _ _ => Iff.rfl) (fun _ _ => Iff.rfl)
    (fun i => flag_upd r a Obj.pe { r.obj (r.root a) with pe := true } rfl i)
    (fun i => Iff.of_eq (congrArg (· = true) (k Obj.pte rfl (r.root i))))
    (fun i => Iff.of_eq (congrArg (· = true) (k Obj.ss rfl (r.root i))))
    (fun i => Iff.of_eq (congrArg (· = true) (k Obj.ls rfl (r.root i))))
    (fun i => Iff.of_eq (congrArg (· = true) (k Obj.escaped rfl i)))

theorem abs_setPTE (r : RSet) (a : Nat) : (r.setPTE a).abs = r.abs.step (.markPTE a) := by
  have k : ∀ {β : Type} (f : Obj → β), f { r.obj (r.root a) with pte := true } = f (r.obj (r.root a)) → ∀ i, f (upd r.obj (r.root a) { r.obj (r.root a) with pte := true } i) = f (r.obj i) := fun f h i => flag_keep r _ f _ h i
  refine Abs.ext' rfl (fun i => k Obj.kind rfl i) (fun _ _ => Iff.rfl) (fun _ _ => Iff.rfl)
    (fun i => Iff.of_eq (congrArg (· = true) (k Obj.pe rfl (r.root i))))
    (fun i => flag_upd r a Obj.pte { r.obj (r.root a) with pte := true } rfl i)
    (fun i => Iff.of_eq (congrArg (· = true) (k Obj.ss rfl (r.root i))))
    (fun i => Iff.of_eq (congrArg (· = true) (k Obj.ls rfl (r.root i))))
    (fun i => Iff.of_eq (congrArg (· = true) (k Obj.escaped rfl i)))

theorem abs_setSS (r : RSet) (a : Nat) : (r.setSS a).abs = r.abs.step (.markSS a) := by
  have k : ∀ {β : Type} (f : Obj → β), f { r.obj (r.root a) with ss := true } = f (r.obj (r.root a)) → ∀ i, f (upd r.obj (r.root a) { r.obj (r.root a) with ss := true } i) = f (r.obj i) := fun f h i => flag_keep r _ f _ h i
  refine Abs.ext' rfl (fun i => k Obj.kind rfl i) (fun _ _ => Iff.rfl) (fun _ _ => Iff.rfl)
    (fun i => Iff.of_eq (congrArg (· = true) (k Obj.pe rfl (r.root i))))
    (fun i => Iff.of_eq (congrArg (· = true) (k Obj.pte rfl (r.root i))))
    (fun i => flag_upd r a Obj.ss { r.obj (r.root a) with ss := true } rfl i)
    (fun i => Iff.of_eq (congrArg (· = true) (k Obj.ls rfl (r.root i))))
    (fun i => Iff.of_eq (congrArg (· = true) (k Obj.escaped rfl i)))

theorem abs_setLS (r : RSet) (a : Nat) : (r.setLS a).abs = r.abs.step (.markLS a) := by
  have k : ∀ {β : Type} (f : Obj → β), f { r.obj (r.root a) with ls := true } = f (r.obj (r.root a)) → ∀ i, f (upd r.obj (r.root a) { r.obj (r.root a) with ls := true } i) = f (r.obj i) := fun f h i => flag_keep r _ f _ h i
  refine Abs.ext' rfl (fun i => k Obj.kind rfl i) (fun _ _ => Iff.rfl) (fun _ _ => Iff.rfl)
    (fun i => Iff.of_eq (congrArg (· = true) (k Obj.pe rfl (r.root i))))
    (fun i => Iff.of_eq (congrArg (· = true) (k Obj.pte rfl (r.root i))))
    (fun i => Iff.of_eq (congrArg (· = true) (k Obj.ss rfl (r.root i))))
    (fun i => flag_upd r a Obj.ls { r.obj (r.root a) with ls := true } rfl i)
    (fun i => Iff.of_eq (congrArg (· = true) (k Obj.escaped rfl i)))

/-- a flag that is already set does not change when it is set again -/
theorem flag_already (r : RSet) (a : Nat) (f : Obj → Bool) (h : f (r.obj (r.root a)) = true) (i : Nat) :
    f (r.obj (r.root i)) = true ↔ f (r.obj (r.root i)) = true ∨ r.root i = r.root a := by
  constructor
  · exact Or.inl
  · rintro (h1 | h1)
    · exact h1
    · rw [h1]; exact h

theorem abs_markPE (r : RSet) (a : Nat) : (r.markPE a).2.abs = r.abs.step (.markPE a) := by
  unfold RSet.markPE
  split
  · rename_i h
    exact Abs.ext' rfl (fun _ => rfl) (fun _ _ => Iff.rfl) (fun _ _ => Iff.rfl)
      (flag_already r a Obj.pe h) (fun _ => Iff.rfl) (fun _ => Iff.rfl) (fun _ => Iff.rfl) (fun _ => Iff.rfl)
  · exact abs_setPE r a
theorem abs_markPTE (r : RSet) (a : Nat) : (r.markPTE a).2.abs = r.abs.step (.markPTE a) := by
  unfold RSet.markPTE
  split
  · rename_i h
    exact Abs.ext' rfl (fun _ => rfl) (fun _ _ => Iff.rfl) (fun _ _ => Iff.rfl) (fun _ => Iff.rfl)
      (flag_already r a Obj.pte h) (fun _ => Iff.rfl) (fun _ => Iff.rfl) (fun _ => Iff.rfl)
  · exact abs_setPTE r a
theorem abs_markSS (r : RSet) (a : Nat) : (r.markSS a).2.abs = r.abs.step (.markSS a) := by
  unfold RSet.markSS
  split
  · rename_i h
    exact Abs.ext' rfl (fun _ => rfl) (fun _ _ => Iff.rfl) (fun _ _ => Iff.rfl) (fun _ => Iff.rfl) (fun _ => Iff.rfl)
      (flag_already r a Obj.ss h) (fun _ => Iff.rfl) (fun _ => Iff.rfl)
  · exact abs_setSS r a
theorem abs_markLS (r : RSet) (a : Nat) : (r.markLS a).2.abs = r.abs.step (.markLS a) := by
  unfold RSet.markLS
  split
  · rename_i h
    exact Abs.ext' rfl (fun _ => rfl) (fun _ _ => Iff.rfl) (fun _ _ => Iff.rfl) (fun _ => Iff.rfl) (fun _ => Iff.rfl)
      (fun _ => Iff.rfl) (flag_already r a Obj.ls h) (fun _ => Iff.rfl)
  · exact abs_setLS r a

theorem abs_makeSuperset {r : RSet} (a b : Nat) :
    (r.makeSuperset a b).2.abs = r.abs.step (.makeSuperset a b) := by
  unfold RSet.makeSuperset
  split
  · rename_i h
    refine Abs.ext' rfl (fun _ => rfl) (fun _ _ => Iff.rfl) ?_ (fun _ => Iff.rfl) ?_ (fun _ => Iff.rfl) (fun _ => Iff.rfl) (fun _ => Iff.rfl)
    · intro i x
      show x ∈ r.pts (r.root i) ↔ x ∈ r.pts (r.root i) ∨ (r.root i = r.root a ∧ x ∈ r.pts (r.root b))
      constructor
      · exact Or.inl
      · rintro (h1 | ⟨h1, h2⟩)
        · exact h1
        · rw [h1, h]; exact h2
    · intro i
      show r.pte i = true ↔ r.pte i = true ∨ (r.root i = r.root a ∧ r.pte b = true)
      constructor
      · exact Or.inl
      · rintro (h1 | ⟨h1, h2⟩)
        · exact h1
        · unfold RSet.pte at h2 ⊢; rw [h1, h]; exact h2
  · rename_i hne
    have hpts : ∀ i x, x ∈ upd r.pts (r.root a) (uni (r.pointees a) (r.pointees b)) (r.root i) ↔
        x ∈ r.pts (r.root i) ∨ (r.root i = r.root a ∧ x ∈ r.pts (r.root b)) := by
      intro i x
      by_cases h : r.root i = r.root a
      · rw [h, upd_same, mem_uni]; simp [RSet.pointees]
      · rw [upd_ne _ _ h]; simp [h]
    simp only []
    split
    · rename_i hp
      have hp : r.pte b = true := hp
      rw [abs_markPTE]
      refine Abs.ext' rfl (fun _ => rfl) (fun _ _ => Iff.rfl) hpts (fun _ => Iff.rfl) ?_ (fun _ => Iff.rfl) (fun _ => Iff.rfl) (fun _ => Iff.rfl)
      intro i
      show r.pte i = true ∨ r.root i = r.root a ↔ r.pte i = true ∨ (r.root i = r.root a ∧ r.pte b = true)
      simp [hp]
    · rename_i hp
      have hp : ¬ r.pte b = true := hp
      refine Abs.ext' rfl (fun _ => rfl) (fun _ _ => Iff.rfl) hpts (fun _ => Iff.rfl) ?_ (fun _ => Iff.rfl) (fun _ => Iff.rfl) (fun _ => Iff.rfl)
      intro i
      show r.pte i = true ↔ r.pte i = true ∨ (r.root i = r.root a ∧ r.pte b = true)
      simp [hp]

theorem abs_step {r : RSet} (w : r.Wf) (op : POp) (hok : r.abs.Ok op) :
    (r.step op).2.abs = r.abs.step op := by
  cases op with
  | add k c =>
    have hout : ∀ i, i ≠ r.n → r.root i ≠ r.n := by
      intro i hi
      by_cases hlt : i < r.n
      · exact (w.lt i hlt).ne
      · rw [w.out i (by omega)]; exact hi
    have hroot : ∀ i, upd r.root r.n r.n i = r.root i := by
      intro i; unfold upd; split
      · rename_i h; rw [h, w.out _ (Nat.le_refl _)]
      · rfl
    have e : (r.step (.add k c)).2 = r.add k c := rfl
    rw [e]
    have er : (r.add k c).root = r.root := funext hroot
    have fl : ∀ (f : Obj → Bool) i, f ((r.add k c).obj ((r.add k c).root i)) = if i = r.n then f (Obj.new k c) else f (r.obj (r.root i)) := by
      intro f i
      rw [er]
      show f (upd _ _ _ _) = _
      split
      · rename_i h; rw [h, w.out _ (Nat.le_refl _), upd_same]
      · rename_i h; rw [upd_ne _ _ (hout i h)]
    refine Abs.ext' rfl ?_ ?_ ?_ ?_ ?_ ?_ ?_ ?_
    · intro i
      show Obj.kind (upd _ _ _ i) = if i = r.n then k else (r.obj i).kind
      unfold upd; split <;> rfl
    · intro i j
      show (r.add k c).root i = (r.add k c).root j ↔ r.root i = r.root j
      rw [er]
    · intro i x
      show x ∈ (r.add k c).pts ((r.add k c).root i) ↔ i ≠ r.n ∧ x ∈ r.pts (r.root i)
      rw [er]
      show x ∈ upd _ _ _ _ ↔ _
      by_cases h : i = r.n
      · rw [h, w.out _ (Nat.le_refl _), upd_same]; simp
      · rw [upd_ne _ _ (hout i h)]; simp [h]
    · intro i
      show (r.add k c).pe i = true ↔ if i = r.n then c = false else r.pe i = true
      rw [show (r.add k c).pe i = _ from fl Obj.pe i]
      split
      · cases c <;> simp [Obj.new]
      · rfl
    · intro i
      show (r.add k c).pte i = true ↔ if i = r.n then c = false else r.pte i = true
      rw [show (r.add k c).pte i = _ from fl Obj.pte i]
      split
      · cases c <;> simp [Obj.new]
      · rfl
    · intro i
      show (r.add k c).ss i = true ↔ i ≠ r.n ∧ r.ss i = true
      rw [show (r.add k c).ss i = _ from fl Obj.ss i]
      split
      · rename_i h; simp [Obj.new, h]
      · rename_i h; simp [h, RSet.ss]
    · intro i
      show (r.add k c).ls i = true ↔ i ≠ r.n ∧ r.ls i = true
      rw [show (r.add k c).ls i = _ from fl Obj.ls i]
      split
      · rename_i h; simp [Obj.new, h]
      · rename_i h; simp [h, RSet.ls]
    · intro i
      show Obj.escaped (upd _ _ _ i) = true ↔ i ≠ r.n ∧ (r.obj i).escaped = true
      unfold upd; split
      · rename_i h; simp [Obj.new, h]
      · rename_i h; simp [h]
  | lookup i => rfl
  | unify a b =>
    show (r.unify a b).2.abs = _
    unfold RSet.unify
    simp only []
    split
    · rename_i h
      have mg : ∀ (P : Nat → Prop), (∀ i j, r.root i = r.root j → (P i ↔ P j)) → ∀ i, P i ↔ r.abs.merge a b P i := by
        intro P hP i
        constructor
        · exact Or.inl
        · rintro (h1 | ⟨h1 | h1, h2 | h2⟩)
          · exact h1
          · exact (hP _ _ h1).2 h2
          · exact (hP _ _ (Eq.trans h1 h)).2 h2
          · exact (hP _ _ (Eq.trans h1 h.symm)).2 h2
          · exact (hP _ _ h1).2 h2
      refine Abs.ext' rfl (fun _ => rfl) ?_ ?_ ?_ ?_ ?_ ?_ ?_
      · intro i j
        show r.root i = r.root j ↔ r.root i = r.root j ∨ (r.root i = r.root a ∧ r.root b = r.root j) ∨ (r.root i = r.root b ∧ r.root a = r.root j)
        rw [h]; constructor
        · exact Or.inl
        · rintro (h1 | ⟨h1, h2⟩ | ⟨h1, h2⟩)
          · exact h1
          · exact h1.trans h2
          · exact h1.trans h2
      · intro i x
        exact mg (fun k => x ∈ r.pts (r.root k)) (fun i j h => by rw [h]) i
      · exact mg (fun k => r.pe k = true) (fun i j h => by unfold RSet.pe; rw [h])
      · exact mg (fun k => r.pte k = true) (fun i j h => by unfold RSet.pte; rw [h])
      · exact mg (fun k => r.ss k = true) (fun i j h => by unfold RSet.ss; rw [h])
      · exact mg (fun k => r.ls k = true) (fun i j h => by unfold RSet.ls; rw [h])
      · exact fun _ => Iff.rfl
    · rename_i h
      by_cases hlt : r.rank (r.root a) < r.rank (r.root b)
      · simp only [if_pos hlt]
        exact abs_unify_pick w _ (.inr ⟨rfl, rfl⟩) h
      · simp only [if_neg hlt]
        exact abs_unify_pick w _ (.inl ⟨rfl, rfl⟩) h
  | addPointee p x =>
    refine Abs.ext' rfl (fun _ => rfl) (fun _ _ => Iff.rfl) ?_ (fun _ => Iff.rfl) (fun _ => Iff.rfl) (fun _ => Iff.rfl) (fun _ => Iff.rfl) (fun _ => Iff.rfl)
    intro i y
    show y ∈ upd r.pts (r.root p) (ins (r.pointees p) x) (r.root i) ↔ y ∈ r.pts (r.root i) ∨ (r.root i = r.root p ∧ y = x)
    by_cases h : r.root i = r.root p
    · rw [h, upd_same, mem_ins]; simp [RSet.pointees]
    · rw [upd_ne _ _ h]; simp [h]
  | makeSuperset a b => exact abs_makeSuperset a b
  | removeAll a =>
    refine Abs.ext' rfl (fun _ => rfl) (fun _ _ => Iff.rfl) ?_ (fun _ => Iff.rfl) (fun _ => Iff.rfl) (fun _ => Iff.rfl) (fun _ => Iff.rfl) (fun _ => Iff.rfl)
    intro i y
    show y ∈ upd r.pts (r.root a) [] (r.root i) ↔ y ∈ r.pts (r.root i) ∧ ¬ (r.root i = r.root a)
    by_cases h : r.root i = r.root a
    · rw [h, upd_same]; simp
    · rw [upd_ne _ _ h]; simp [h]
  | markPE a => exact abs_markPE r a
  | markPTE a => exact abs_markPTE r a
  | markSS a => exact abs_markSS r a
  | markLS a => exact abs_markLS r a
  | markEscaped a =>
    show (r.markEscaped a).2.abs = _
    unfold RSet.markEscaped
    split
    · rename_i h
      refine Abs.ext' rfl (fun _ => rfl) (fun _ _ => Iff.rfl) (fun _ _ => Iff.rfl) ?_ ?_ (fun _ => Iff.rfl) (fun _ => Iff.rfl) ?_
      · intro i
        show r.pe i = true ↔ r.pe i = true ∨ (r.root i = r.root a ∧ ¬ r.escaped a = true)
        simp [h]
      · intro i
        show r.pte i = true ↔ r.pte i = true ∨ (r.root i = r.root a ∧ ¬ r.escaped a = true)
        simp [h]
      · intro i
        show r.escaped i = true ↔ r.escaped i = true ∨ i = a
        constructor
        · exact Or.inl
        · rintro (h1 | rfl) <;> assumption
    · rename_i h
      simp only []
      rw [abs_markPTE, abs_markPE]
      have hk : ∀ (f : Obj → Bool), (∀ o : Obj, f { o with escaped := true } = f o) → ∀ i,
          f (upd r.obj a { r.obj a with escaped := true } i) = f (r.obj i) := by
        intro f hf i; unfold upd; split
        · rename_i h; rw [h]; exact hf _
        · rfl
      refine Abs.ext' rfl ?_ ?_ ?_ ?_ ?_ ?_ ?_ ?_
      · intro i
        show Obj.kind (upd _ _ _ i) = (r.obj i).kind
        unfold upd; split
        · rename_i h; rw [h]
        · rfl
      · exact fun _ _ => Iff.rfl
      · exact fun _ _ => Iff.rfl
      · intro i
        show Obj.pe (upd _ _ _ (r.root i)) = true ∨ r.root i = r.root a ↔ r.pe i = true ∨ (r.root i = r.root a ∧ ¬ r.escaped a = true)
        rw [hk Obj.pe (fun _ => rfl)]
        simp [h, RSet.pe]
      · intro i
        show Obj.pte (upd _ _ _ (r.root i)) = true ∨ r.root i = r.root a ↔ r.pte i = true ∨ (r.root i = r.root a ∧ ¬ r.escaped a = true)
        rw [hk Obj.pte (fun _ => rfl)]
        simp [h, RSet.pte]
      · intro i
        show Obj.ss (upd _ _ _ (r.root i)) = true ↔ r.ss i = true
        rw [hk Obj.ss (fun _ => rfl)]; rfl
      · intro i
        show Obj.ls (upd _ _ _ (r.root i)) = true ↔ r.ls i = true
        rw [hk Obj.ls (fun _ => rfl)]; rfl
      · intro i
        show Obj.escaped (upd _ _ _ i) = true ↔ r.escaped i = true ∨ i = a
        unfold upd; split
        · rename_i h; simp [h]
        · rename_i h; simp [h, RSet.escaped]

theorem step_rel {s : PSet} {r : RSet} (h : Rel s r) (op : POp) (hok : r.abs.Ok op) :
    ∃ s', s.step op = some ((r.step op).1, s') ∧ Rel s' (r.step op).2 := by
  cases op with
  | add k c => exact add_spec h hok.1 (newOk_iff.2 hok.2)
  | lookup i => exact root_spec h hok
  | unify a b => exact unify_spec h hok.1 hok.2
  | addPointee p x =>
    obtain ⟨s', e, h'⟩ := addPointee_spec h hok.1 hok.2.1 hok.2.2
    exact ⟨s', by simp only [PSet.step, RSet.step, e, Option.map_some], h'⟩
  | makeSuperset a b =>
    obtain ⟨s', e, h'⟩ := makeSuperset_spec h hok.1 hok.2
    exact ⟨s', by simp only [PSet.step, RSet.step, e, Option.map_some], h'⟩
  | removeAll a =>
    obtain ⟨s', e, h'⟩ := removeAll_spec h hok
    exact ⟨s', by simp only [PSet.step, RSet.step, e, Option.map_some], h'⟩
  | markPE a =>
    obtain ⟨s', e, h'⟩ := markPE_spec h hok
    exact ⟨s', by simp only [PSet.step, RSet.step, e, Option.map_some], h'⟩
  | markPTE a =>
    obtain ⟨s', e, h'⟩ := markPTE_spec h hok
    exact ⟨s', by simp only [PSet.step, RSet.step, e, Option.map_some], h'⟩
  | markSS a =>
    obtain ⟨s', e, h'⟩ := markSS_spec h hok
    exact ⟨s', by simp only [PSet.step, RSet.step, e, Option.map_some], h'⟩
  | markLS a =>
    obtain ⟨s', e, h'⟩ := markLS_spec h hok
    exact ⟨s', by simp only [PSet.step, RSet.step, e, Option.map_some], h'⟩
  | markEscaped a =>
    obtain ⟨s', e, h'⟩ := markEscaped_spec h hok.1 hok.2
    exact ⟨s', by simp only [PSet.step, RSet.step, e, Option.map_some], h'⟩

theorem rel_empty : Rel PSet.empty RSet.empty := by
  refine ⟨rfl, rfl, rfl, rfl, fun _ => Iff.rfl, fun _ => rfl, fun _ h => h, fun _ h => absurd rfl h,
    ⟨fun _ h => h, fun _ => rfl, fun _ _ => rfl, fun _ h => absurd rfl h, fun _ h => absurd h (Nat.not_lt_zero _), by decide⟩⟩

theorem abs_empty : RSet.empty.abs = Abs.empty := by
  refine Abs.ext' rfl (fun _ => rfl) (fun _ _ => Iff.rfl) ?_ ?_ ?_ ?_ ?_ ?_ <;>
    intros <;> simp [RSet.abs, Abs.empty, RSet.empty, RSet.pointees, RSet.pe, RSet.pte, RSet.ss, RSet.ls, RSet.escaped]

theorem run_rel : ∀ (ops : List POp) {s : PSet} {r : RSet}, Rel s r → r.abs.OkAll ops →
    ∃ s', s.run ops = some s' ∧ Rel s' (r.run ops) ∧ (r.run ops).abs = r.abs.run ops
  | [], s, r, h, _ => ⟨s, rfl, h, rfl⟩
  | op :: ops, s, r, h, hok => by
    obtain ⟨s1, e1, h1⟩ := step_rel h op hok.1
    have ha := abs_step h.wf op hok.1
    obtain ⟨s2, e2, h2, h3⟩ := run_rel ops h1 (by rw [ha]; exact hok.2)
    refine ⟨s2, ?_, h2, ?_⟩
    · simp only [PSet.run, e1, Option.bind_some, e2]
    · rw [Abs.run, ← ha]; exact h3

/-! ## What the queries return -/

/-- `GetUnificationRoot` as a client sees it -/
def PSet.getRoot (s : PSet) (i : Nat) : Option Nat := (s.root i).map (·.1)
/-- `GetPointsToSet(i).Contains(x)` -/
def PSet.getPts (s : PSet) (i x : Nat) : Option Bool := (s.pointees i).map (·.1.contains x)
def PSet.getPE (s : PSet) (i : Nat) : Option Bool := (s.hasPE i).map (·.1)
def PSet.getPTE (s : PSet) (i : Nat) : Option Bool := (s.isPTE i).map (·.1)
def PSet.getSS (s : PSet) (i : Nat) : Option Bool := (s.isSS i).map (·.1)
def PSet.getLS (s : PSet) (i : Nat) : Option Bool := (s.isLS i).map (·.1)
def PSet.getPointingTo (s : PSet) (i x : Nat) : Option Bool := (s.isPointingTo i x).map (·.1)

/-- the query succeeds and answers whether `P` holds -/
def Answers (q : Option Bool) (P : Prop) : Prop := ∃ b, q = some b ∧ (b = true ↔ P)

/-- the pointer object set answers every query as the specification says -/
structure Agrees (s : PSet) (A : Abs) : Prop where
  n : s.n = A.n
  /-- the root is an object of the same class -/
  root : ∀ i < A.n, ∃ r, s.getRoot i = some r ∧ r < A.n ∧ A.conn i r
  /-- two objects have the same root iff they were unified -/
  same : ∀ i < A.n, ∀ j < A.n, s.getRoot i = s.getRoot j ↔ A.conn i j
  pts : ∀ i < A.n, ∀ x, Answers (s.getPts i x) (A.pts i x)
  pe : ∀ i < A.n, Answers (s.getPE i) (A.pe i)
  pte : ∀ i < A.n, Answers (s.getPTE i) (A.pte i)
  ss : ∀ i < A.n, Answers (s.getSS i) (A.ss i)
  ls : ∀ i < A.n, Answers (s.getLS i) (A.ls i)
  esc : ∀ i < A.n, Answers (s.hasEscaped i) (A.esc i)
  pointing : ∀ i < A.n, ∀ x < A.n, Answers (s.getPointingTo i x) (A.pts i x ∨ (A.pte i ∧ A.esc x))

theorem agrees_of_rel {s : PSet} {r : RSet} (h : Rel s r) : Agrees s r.abs := by
  refine ⟨h.n, ?_, ?_, ?_, ?_, ?_, ?_, ?_, ?_, ?_⟩
  · intro i hi
    obtain ⟨s', e, h'⟩ := root_spec h hi
    exact ⟨r.root i, by simp [PSet.getRoot, e], h.wf.lt i hi, (h.wf.idem i).symm⟩
  · intro i hi j hj
    obtain ⟨s1, e1, _⟩ := root_spec h hi
    obtain ⟨s2, e2, _⟩ := root_spec h hj
    simp [PSet.getRoot, e1, e2, RSet.abs]
  · intro i hi x
    obtain ⟨s1, e1, _⟩ := pointees_spec h hi
    exact ⟨(r.pointees i).contains x, by simp [PSet.getPts, e1], by simp [RSet.abs]⟩
  · intro i hi
    obtain ⟨s1, e1, _⟩ := hasPE_spec h hi
    exact ⟨_, by simp only [PSet.getPE, e1, Option.map_some], Iff.rfl⟩
  · intro i hi
    obtain ⟨s1, e1, _⟩ := isPTE_spec h hi
    exact ⟨_, by simp only [PSet.getPTE, e1, Option.map_some], Iff.rfl⟩
  · intro i hi
    obtain ⟨s1, e1, _⟩ := isSS_spec h hi
    exact ⟨_, by simp only [PSet.getSS, e1, Option.map_some], Iff.rfl⟩
  · intro i hi
    obtain ⟨s1, e1, _⟩ := isLS_spec h hi
    exact ⟨_, by simp only [PSet.getLS, e1, Option.map_some], Iff.rfl⟩
  · intro i hi
    exact ⟨(r.obj i).escaped, by rw [PSet.hasEscaped, h.n, h.obj]; exact if_pos hi, Iff.rfl⟩
  · intro i hi x hx
    obtain ⟨s1, e1, _⟩ := isPointingTo_spec h hi hx
    refine ⟨r.isPointingTo i x, by simp [PSet.getPointingTo, e1], ?_⟩
    simp [RSet.isPointingTo, RSet.abs]
    tauto

/-- **C20**: for every history of operations that respect their preconditions, no operation fails
(in particular every root lookup ends), and afterwards every query is answered as the
specification says. -/
theorem C20_history (ops : List POp) (hok : Abs.empty.OkAll ops) :
    ∃ s, PSet.empty.run ops = some s ∧ Agrees s (Abs.empty.run ops) := by
  obtain ⟨s, e, h, ha⟩ := run_rel ops rel_empty (by rw [abs_empty]; exact hok)
  refine ⟨s, e, ?_⟩
  rw [← abs_empty, ← ha]
  exact agrees_of_rel h

/-- after a legal history, one more operation -/
theorem reach_step (ops : List POp) (op : POp) (hok : Abs.empty.OkAll ops)
    (hop : (Abs.empty.run ops).Ok op) :
    ∃ s r, PSet.empty.run ops = some s ∧ Rel s r ∧ r.abs = Abs.empty.run ops ∧
      ∃ s', s.step op = some ((r.step op).1, s') ∧ Rel s' (r.step op).2 ∧
        (r.step op).2.abs = (Abs.empty.run ops).step op := by
  obtain ⟨s, e, h, ha⟩ := run_rel ops rel_empty (by rw [abs_empty]; exact hok)
  rw [abs_empty] at ha
  have hop' : (RSet.empty.run ops).abs.Ok op := by rw [ha]; exact hop
  obtain ⟨s', e', h'⟩ := step_rel h op hop'
  refine ⟨s, _, e, h, ha, s', e', h', ?_⟩
  rw [abs_step h.wf op hop', ha]

theorem makeSuperset_changed (r : RSet) (a b : Nat) : (r.makeSuperset a b).1 = true ↔
    (∃ x, x ∈ r.pointees b ∧ x ∉ r.pointees a) ∨ (r.pte b = true ∧ r.pte a = false) := by
  unfold RSet.makeSuperset
  split
  · rename_i h
    simp [RSet.pointees, RSet.pte, h]
  · simp only []
    have e1 : ∀ p i, RSet.pte { r with pts := p } i = r.pte i := fun _ _ => rfl
    rw [e1]
    split
    · rename_i hp
      simp only [RSet.markPTE, e1]
      split
      · rename_i hq; simp [hq, List.any_eq_true]
      · rename_i hq; simp [hq, hp]
    · rename_i hp; simp [hp, List.any_eq_true]

/-- the result `v` of an operation in a state `A`, where `s'` is the set afterwards -/
def ResultOk (A : Abs) (s' : PSet) (v : Nat) : POp → Prop
  | .add _ _ => v = A.n
  | .lookup i => A.conn i v
  | .unify a b => s'.getRoot a = some v ∧ s'.getRoot b = some v
  | .removeAll _ => True
  | op => (v = 0 ∨ v = 1) ∧ (v = 1 ↔ A.step op ≠ A)

/-- **C20**, return values: after every legal history, the new object gets the next index, a lookup
returns an object of the class, unification returns the common root, and the operations that
report whether they changed anything report exactly that. -/
theorem C20_results (ops : List POp) (op : POp) (hok : Abs.empty.OkAll ops)
    (hop : (Abs.empty.run ops).Ok op) :
    ∃ s v s', PSet.empty.run ops = some s ∧ s.step op = some (v, s') ∧
      Agrees s' ((Abs.empty.run ops).step op) ∧
      ResultOk (Abs.empty.run ops) s' v op := by
  obtain ⟨s, r, e, h, ha, s', e', h', ha'⟩ := reach_step ops op hok hop
  refine ⟨s, _, s', e, e', by rw [← ha']; exact agrees_of_rel h', ?_⟩
  rw [← ha] at ha' hop ⊢
  have bit : ∀ b : Bool, b.toNat = 0 ∨ b.toNat = 1 := by decide
  have bit1 : ∀ b : Bool, b.toNat = 1 ↔ b = true := by decide
  have fl : ∀ (P : Nat → Prop) (Q : Nat → Prop) (a : Nat), Q a → ¬ P a → ¬ (fun i => P i ∨ Q i) = P := by
    intro P Q a hq hp hc
    have := congrFun hc a
    rw [← this] at hp
    exact hp (.inr hq)
  cases op with
  | add k c => rfl
  | lookup i => exact (h.wf.idem i).symm
  | unify a b =>
    have hn : (r.step (.unify a b)).2.n = r.n := congrArg Abs.n ha'
    have hv : ∀ i, r.root i = r.root a ∨ r.root i = r.root b → (r.step (.unify a b)).2.root i = (r.step (.unify a b)).1 := by
      intro i hi
      simp only [RSet.step]
      unfold RSet.unify
      simp only []
      split
      · rename_i he; rw [← he] at hi; rcases hi with hi | hi <;> exact hi
      · rename_i he
        have he' := Ne.symm he
        by_cases hlt : r.rank (r.root a) < r.rank (r.root b)
        · simp only [if_pos hlt]; rcases hi with hi | hi <;> simp [hi, he, he']
        · simp only [if_neg hlt]; rcases hi with hi | hi <;> simp [hi, he, he']
    constructor
    · obtain ⟨_, e2, _⟩ := root_spec h' (i := a) (by rw [hn]; exact hop.1)
      simp [PSet.getRoot, e2, hv a (.inl rfl)]
    · obtain ⟨_, e2, _⟩ := root_spec h' (i := b) (by rw [hn]; exact hop.2)
      simp [PSet.getRoot, e2, hv b (.inr rfl)]
  | removeAll a => trivial
  | addPointee p x =>
    refine ⟨bit _, ?_⟩
    show (r.addPointee p x).1.toNat = 1 ↔ _
    rw [bit1]
    simp only [RSet.addPointee]
    rw [Bool.not_eq_true', ← Bool.not_eq_true]
    constructor
    · intro hx hc
      have := congrFun (congrFun (congrArg Abs.pts hc) p) x
      have : x ∈ r.pts (r.root p) := by
        have h2 : (x ∈ r.pts (r.root p) ∨ (r.root p = r.root p ∧ x = x)) = (x ∈ r.pts (r.root p)) := this
        rw [← h2]; simp
      exact hx (by simpa [RSet.pointees] using this)
    · intro hc hx
      apply hc
      refine Abs.ext' rfl (fun _ => rfl) (fun _ _ => Iff.rfl) ?_ (fun _ => Iff.rfl) (fun _ => Iff.rfl) (fun _ => Iff.rfl) (fun _ => Iff.rfl) (fun _ => Iff.rfl)
      intro i y
      show y ∈ r.pts (r.root i) ∨ (r.root i = r.root p ∧ y = x) ↔ y ∈ r.pts (r.root i)
      constructor
      · rintro (h1 | ⟨h1, rfl⟩)
        · exact h1
        · rw [h1]; simpa [RSet.pointees] using hx
      · exact Or.inl
  | makeSuperset a b =>
    refine ⟨bit _, ?_⟩
    show (r.makeSuperset a b).1.toNat = 1 ↔ _
    rw [bit1, makeSuperset_changed]
    constructor
    · rintro (⟨x, h1, h2⟩ | ⟨h1, h2⟩) hc
      · have := congrFun (congrFun (congrArg Abs.pts hc) a) x
        have h3 : (x ∈ r.pts (r.root a) ∨ (r.root a = r.root a ∧ x ∈ r.pts (r.root b))) = (x ∈ r.pts (r.root a)) := this
        apply h2
        show x ∈ r.pts (r.root a)
        rw [← h3]; exact .inr ⟨rfl, h1⟩
      · have := congrFun (congrArg Abs.pte hc) a
        have h3 : (r.pte a = true ∨ (r.root a = r.root a ∧ r.pte b = true)) = (r.pte a = true) := this
        have h4 : r.pte a = true := by rw [← h3]; exact .inr ⟨rfl, h1⟩
        rw [h4] at h2; cases h2
    · intro hc
      by_contra hn
      apply hc
      rw [not_or] at hn
      refine Abs.ext' rfl (fun _ => rfl) (fun _ _ => Iff.rfl) ?_ (fun _ => Iff.rfl) ?_ (fun _ => Iff.rfl) (fun _ => Iff.rfl) (fun _ => Iff.rfl)
      · intro i x
        show x ∈ r.pts (r.root i) ∨ (r.root i = r.root a ∧ x ∈ r.pts (r.root b)) ↔ x ∈ r.pts (r.root i)
        constructor
        · rintro (h1 | ⟨h1, h2⟩)
          · exact h1
          · rw [h1]; by_contra h3; exact hn.1 ⟨x, h2, h3⟩
        · exact Or.inl
      · intro i
        show r.pte i = true ∨ (r.root i = r.root a ∧ r.pte b = true) ↔ r.pte i = true
        constructor
        · rintro (h1 | ⟨h1, h2⟩)
          · exact h1
          · have : r.pte i = r.pte a := by unfold RSet.pte; rw [h1]
            rw [this]
            by_contra h3
            exact hn.2 ⟨h2, by simpa using h3⟩
        · exact Or.inl
  | markPE a =>
    refine ⟨bit _, ?_⟩
    show (r.markPE a).1.toNat = 1 ↔ _
    rw [bit1]
    unfold RSet.markPE
    split
    · rename_i hp
      simp only [Bool.false_eq_true, false_iff, not_not]
      exact Abs.ext' rfl (fun _ => rfl) (fun _ _ => Iff.rfl) (fun _ _ => Iff.rfl)
        (fun i => (flag_already r a Obj.pe hp i).symm) (fun _ => Iff.rfl) (fun _ => Iff.rfl) (fun _ => Iff.rfl) (fun _ => Iff.rfl)
    · rename_i hp
      simp only [true_iff]
      intro hc
      exact fl _ (fun i => r.root i = r.root a) a rfl hp (congrArg Abs.pe hc)
  | markPTE a =>
    refine ⟨bit _, ?_⟩
    show (r.markPTE a).1.toNat = 1 ↔ _
    rw [bit1]
    unfold RSet.markPTE
    split
    · rename_i hp
      simp only [Bool.false_eq_true, false_iff, not_not]
      exact Abs.ext' rfl (fun _ => rfl) (fun _ _ => Iff.rfl) (fun _ _ => Iff.rfl) (fun _ => Iff.rfl)
        (fun i => (flag_already r a Obj.pte hp i).symm) (fun _ => Iff.rfl) (fun _ => Iff.rfl) (fun _ => Iff.rfl)
    · rename_i hp
      simp only [true_iff]
      intro hc
      exact fl _ (fun i => r.root i = r.root a) a rfl hp (congrArg Abs.pte hc)
  | markSS a =>
    refine ⟨bit _, ?_⟩
    show (r.markSS a).1.toNat = 1 ↔ _
    rw [bit1]
    unfold RSet.markSS
    split
    · rename_i hp
      simp only [Bool.false_eq_true, false_iff, not_not]
      exact Abs.ext' rfl (fun _ => rfl) (fun _ _ => Iff.rfl) (fun _ _ => Iff.rfl) (fun _ => Iff.rfl) (fun _ => Iff.rfl)
        (fun i => (flag_already r a Obj.ss hp i).symm) (fun _ => Iff.rfl) (fun _ => Iff.rfl)
    · rename_i hp
      simp only [true_iff]
      intro hc
      exact fl _ (fun i => r.root i = r.root a) a rfl hp (congrArg Abs.ss hc)
  | markLS a =>
    refine ⟨bit _, ?_⟩
    show (r.markLS a).1.toNat = 1 ↔ _
    rw [bit1]
    unfold RSet.markLS
    split
    · rename_i hp
      simp only [Bool.false_eq_true, false_iff, not_not]
      exact Abs.ext' rfl (fun _ => rfl) (fun _ _ => Iff.rfl) (fun _ _ => Iff.rfl) (fun _ => Iff.rfl) (fun _ => Iff.rfl) (fun _ => Iff.rfl)
        (fun i => (flag_already r a Obj.ls hp i).symm) (fun _ => Iff.rfl)
    · rename_i hp
      simp only [true_iff]
      intro hc
      exact fl _ (fun i => r.root i = r.root a) a rfl hp (congrArg Abs.ls hc)
  | markEscaped a =>
    refine ⟨bit _, ?_⟩
    show (r.markEscaped a).1.toNat = 1 ↔ _
    rw [bit1]
    unfold RSet.markEscaped
    split
    · rename_i hp
      simp only [Bool.false_eq_true, false_iff, not_not]
      refine Abs.ext' rfl (fun _ => rfl) (fun _ _ => Iff.rfl) (fun _ _ => Iff.rfl) ?_ ?_ (fun _ => Iff.rfl) (fun _ => Iff.rfl) ?_
      · intro i
        show r.pe i = true ∨ (r.root i = r.root a ∧ ¬ r.escaped a = true) ↔ r.pe i = true
        simp [hp]
      · intro i
        show r.pte i = true ∨ (r.root i = r.root a ∧ ¬ r.escaped a = true) ↔ r.pte i = true
        simp [hp]
      · intro i
        show r.escaped i = true ∨ i = a ↔ r.escaped i = true
        constructor
        · rintro (h1 | rfl) <;> assumption
        · exact Or.inl
    · rename_i hp
      simp only [true_iff]
      intro hc
      exact fl (fun i => r.escaped i = true) (fun i => i = a) a rfl hp (congrArg Abs.esc hc)

/-! ## Consequences -/

/-- `a` and `b` are unified by one of the operations -/
def Unified (ops : List POp) (a b : Nat) : Prop := POp.unify a b ∈ ops

theorem conn_run (ops : List POp) : ∀ (A : Abs), Equivalence A.conn →
    ∀ i j, (A.run ops).conn i j ↔ Relation.EqvGen (fun a b => A.conn a b ∨ Unified ops a b) i j := by
  induction ops with
  | nil =>
    intro A hA i j
    constructor
    · intro h; exact .rel _ _ (.inl h)
    · intro h
      induction h with
      | rel _ _ h => rcases h with h | h; · exact h
                     · cases h
      | refl => exact hA.refl _
      | symm _ _ _ ih => exact hA.symm ih
      | trans _ _ _ _ _ ih1 ih2 => exact hA.trans ih1 ih2
  | cons op ops ih =>
    intro A hA i j
    have mono : ∀ i j, A.conn i j → (A.step op).conn i j := by
      intro i j h
      cases op <;> first | exact h | exact .inl h
    have hst : Equivalence (A.step op).conn := by
      cases op with
      | unify a b =>
        refine ⟨fun i => .inl (hA.refl i), ?_, ?_⟩
        · rintro i j (h | ⟨h1, h2⟩ | ⟨h1, h2⟩)
          · exact .inl (hA.symm h)
          · exact .inr (.inr ⟨hA.symm h2, hA.symm h1⟩)
          · exact .inr (.inl ⟨hA.symm h2, hA.symm h1⟩)
        · have S := @hA.symm; have T := @hA.trans
          rintro i j k (h | ⟨h1, h2⟩ | ⟨h1, h2⟩) (g | ⟨g1, g2⟩ | ⟨g1, g2⟩)
          · exact .inl (T h g)
          · exact .inr (.inl ⟨T h g1, g2⟩)
          · exact .inr (.inr ⟨T h g1, g2⟩)
          · exact .inr (.inl ⟨h1, T h2 g⟩)
          · exact .inr (.inl ⟨h1, g2⟩)
          · exact .inl (T h1 g2)
          · exact .inr (.inr ⟨h1, T h2 g⟩)
          · exact .inl (T h1 g2)
          · exact .inr (.inr ⟨h1, g2⟩)
      | _ => exact hA
    rw [Abs.run, ih _ hst]
    constructor
    · intro h
      induction h with
      | rel x y h =>
        rcases h with h | h
        · cases op with
          | unify a b =>
            rcases h with h | ⟨h1, h2⟩ | ⟨h1, h2⟩
            · exact .rel _ _ (.inl h)
            · exact .trans _ _ _ (.rel _ _ (.inl h1)) (.trans _ _ _ (.rel _ _ (.inr (List.mem_cons_self ..))) (.rel _ _ (.inl h2)))
            · exact .trans _ _ _ (.rel _ _ (.inl h1)) (.trans _ _ _ (.symm _ _ (.rel _ _ (.inr (List.mem_cons_self ..)))) (.rel _ _ (.inl h2)))
          | _ => exact .rel _ _ (.inl h)
        · exact .rel _ _ (.inr (List.mem_cons_of_mem _ h))
      | refl => exact .refl _
      | symm _ _ _ ih => exact .symm _ _ ih
      | trans _ _ _ _ _ ih1 ih2 => exact .trans _ _ _ ih1 ih2
    · intro h
      induction h with
      | rel x y h =>
        rcases h with h | h
        · exact .rel _ _ (.inl (mono _ _ h))
        · rcases List.mem_cons.1 h with rfl | h
          · exact .rel _ _ (.inl (.inr (.inl ⟨hA.refl _, hA.refl _⟩)))
          · exact .rel _ _ (.inr h)
      | refl => exact .refl _
      | symm _ _ _ ih => exact .symm _ _ ih
      | trans _ _ _ _ _ ih1 ih2 => exact .trans _ _ _ ih1 ih2

/-- **C20**, corollary: `GetUnificationRoot` gives the same index for two objects iff a chain of
calls to `UnifyPointerObjects` connects them, whatever the order of the calls, the ranks, and the
lookups in between. -/
theorem C20_same_root_iff (ops : List POp) (hok : Abs.empty.OkAll ops) :
    ∃ s, PSet.empty.run ops = some s ∧ ∀ i < s.n, ∀ j < s.n,
      (s.getRoot i = s.getRoot j ↔ Relation.EqvGen (Unified ops) i j) := by
  obtain ⟨s, e, h⟩ := C20_history ops hok
  refine ⟨s, e, ?_⟩
  intro i hi j hj
  rw [h.same i (h.n ▸ hi) j (h.n ▸ hj), conn_run ops Abs.empty ⟨fun _ => rfl, Eq.symm, Eq.trans⟩]
  constructor
  · intro h
    clear hi hj
    induction h with
    | rel _ _ h => rcases h with h | h
                   · cases h; exact .refl _
                   · exact .rel _ _ h
    | refl => exact .refl _
    | symm _ _ _ ih => exact .symm _ _ ih
    | trans _ _ _ _ _ ih1 ih2 => exact .trans _ _ _ ih1 ih2
  · intro h
    exact h.mono fun _ _ h => .inr h

/-- the classes of the specification are classes: everything but `escaped` is shared -/
structure Abs.Shared (A : Abs) : Prop where
  equiv : Equivalence A.conn
  pts : ∀ i j, A.conn i j → ∀ x, A.pts i x ↔ A.pts j x
  pe : ∀ i j, A.conn i j → (A.pe i ↔ A.pe j)
  pte : ∀ i j, A.conn i j → (A.pte i ↔ A.pte j)
  ss : ∀ i j, A.conn i j → (A.ss i ↔ A.ss j)
  ls : ∀ i j, A.conn i j → (A.ls i ↔ A.ls j)

theorem RSet.shared (r : RSet) : r.abs.Shared := by
  refine ⟨⟨fun _ => rfl, Eq.symm, Eq.trans⟩, ?_, ?_, ?_, ?_, ?_⟩
  · intro i j h x; show _ ∈ r.pts (r.root i) ↔ _ ∈ r.pts (r.root j); rw [show r.root i = r.root j from h]
  · intro i j h; show (r.obj (r.root i)).pe = true ↔ (r.obj (r.root j)).pe = true; rw [show r.root i = r.root j from h]
  · intro i j h; show (r.obj (r.root i)).pte = true ↔ (r.obj (r.root j)).pte = true; rw [show r.root i = r.root j from h]
  · intro i j h; show (r.obj (r.root i)).ss = true ↔ (r.obj (r.root j)).ss = true; rw [show r.root i = r.root j from h]
  · intro i j h; show (r.obj (r.root i)).ls = true ↔ (r.obj (r.root j)).ls = true; rw [show r.root i = r.root j from h]

/-- **C20**, corollary: members of a class share their points-to set and flags after every legal
history; in particular an escaped object's class points to external and makes its pointees
escape. -/
theorem C20_shared (ops : List POp) (hok : Abs.empty.OkAll ops) :
    (Abs.empty.run ops).Shared := by
  obtain ⟨s, e, h, ha⟩ := run_rel ops rel_empty (by rw [abs_empty]; exact hok)
  rw [abs_empty] at ha
  rw [← ha]
  exact RSet.shared _

/-- pointees are memory objects of the set; escaped objects are memory objects whose class points
to external and makes its pointees escape -/
structure Abs.Wf (A : Abs) : Prop where
  ptsLt : ∀ i x, A.pts i x → x < A.n ∧ A.kind x ≠ .register
  esc : ∀ i, A.esc i → i < A.n ∧ A.kind i ≠ .register ∧ A.pe i ∧ A.pte i

theorem Abs.Wf.step {A : Abs} (w : A.Wf) (hs : A.Shared) (op : POp) (hok : A.Ok op) : (A.step op).Wf := by
  cases op with
  | add k c =>
    refine ⟨?_, ?_⟩
    · rintro i x ⟨hi, h⟩
      have := w.ptsLt i x h
      refine ⟨Nat.lt_succ_of_lt this.1, ?_⟩
      show (if x = A.n then k else A.kind x) ≠ _
      rw [if_neg this.1.ne]; exact this.2
    · rintro i ⟨hi, h⟩
      have := w.esc i h
      refine ⟨Nat.lt_succ_of_lt this.1, ?_, ?_, ?_⟩
      · show (if i = A.n then k else A.kind i) ≠ _
        rw [if_neg hi]; exact this.2.1
      · show (if i = A.n then _ else A.pe i)
        rw [if_neg hi]; exact this.2.2.1
      · show (if i = A.n then _ else A.pte i)
        rw [if_neg hi]; exact this.2.2.2
  | lookup i => exact w
  | unify a b =>
    refine ⟨?_, ?_⟩
    · rintro i x (h | ⟨_, h | h⟩) <;> exact w.ptsLt _ _ h
    · intro i h
      have := w.esc i h
      exact ⟨this.1, this.2.1, .inl this.2.2.1, .inl this.2.2.2⟩
  | addPointee p y =>
    refine ⟨?_, w.esc⟩
    rintro i x (h | ⟨_, rfl⟩)
    · exact w.ptsLt _ _ h
    · exact hok.2
  | makeSuperset a b =>
    refine ⟨?_, ?_⟩
    · rintro i x (h | ⟨_, h⟩) <;> exact w.ptsLt _ _ h
    · intro i h
      have := w.esc i h
      exact ⟨this.1, this.2.1, this.2.2.1, .inl this.2.2.2⟩
  | removeAll a => exact ⟨fun i x h => w.ptsLt i x h.1, w.esc⟩
  | markPE a =>
    exact ⟨w.ptsLt, fun i h => have := w.esc i h; ⟨this.1, this.2.1, .inl this.2.2.1, this.2.2.2⟩⟩
  | markPTE a =>
    exact ⟨w.ptsLt, fun i h => have := w.esc i h; ⟨this.1, this.2.1, this.2.2.1, .inl this.2.2.2⟩⟩
  | markSS a => exact ⟨w.ptsLt, w.esc⟩
  | markLS a => exact ⟨w.ptsLt, w.esc⟩
  | markEscaped a =>
    refine ⟨w.ptsLt, ?_⟩
    rintro i (h | rfl)
    · have := w.esc i h
      exact ⟨this.1, this.2.1, .inl this.2.2.1, .inl this.2.2.2⟩
    · refine ⟨hok.1, hok.2, ?_, ?_⟩
      · by_cases h : A.esc i
        · exact .inl (w.esc i h).2.2.1
        · exact .inr ⟨hs.equiv.refl _, h⟩
      · by_cases h : A.esc i
        · exact .inl (w.esc i h).2.2.2
        · exact .inr ⟨hs.equiv.refl _, h⟩

theorem wf_run : ∀ (ops : List POp) {s : PSet} {r : RSet}, Rel s r → r.abs.Wf → r.abs.OkAll ops →
    (r.abs.run ops).Wf
  | [], s, r, h, w, _ => w
  | op :: ops, s, r, h, w, hok => by
    obtain ⟨s1, e1, h1⟩ := step_rel h op hok.1
    have ha := abs_step h.wf op hok.1
    rw [Abs.run, ← ha]
    exact wf_run ops h1 (by rw [ha]; exact w.step r.shared op hok.1) (by rw [ha]; exact hok.2)

/-- **C20**, corollary: after every legal history, pointees are memory objects, and an escaped
object is a memory object that points to external and whose pointees escape. -/
theorem C20_wf (ops : List POp) (hok : Abs.empty.OkAll ops) : (Abs.empty.run ops).Wf := by
  have := wf_run ops rel_empty (by rw [abs_empty]; exact ⟨fun _ _ h => h.elim, fun _ h => h.elim⟩) (by rw [abs_empty]; exact hok)
  rw [abs_empty] at this
  exact this

/-! ## C24 -/

/-- one comparison of `HasIdenticalSolAs` on the forests, PointerObjectSet.cpp:521-542. The path
compression of one lookup is visible to the next. -/
def PSet.allPointing (t : PSet) (i : Nat) : List Nat → Option (Bool × PSet)
  | [] => some (true, t)
  | x :: l => (t.isPointingTo i x).bind fun (b, t) => if b then t.allPointing i l else some (false, t)

def PSet.sameSolAt (s t : PSet) (i : Nat) : Option (Bool × PSet × PSet) := do
  let e1 ← s.hasEscaped i
  let e2 ← t.hasEscaped i
  if e1 ≠ e2 then return (false, s, t)
  let (p1, s) ← s.isPTE i
  let (p2, t) ← t.isPTE i
  if p1 ≠ p2 then return (false, s, t)
  let (l1, s) ← s.pointees i
  let (b1, t) ← t.allPointing i l1
  if !b1 then return (false, s, t)
  let (l2, t) ← t.pointees i
  let (b2, s) ← s.allPointing i l2
  return (b2, s, t)

def PSet.sameSolFrom (s t : PSet) : List Nat → Option Bool
  | [] => some true
  | i :: l => (s.sameSolAt t i).bind fun (b, s, t) => if b then s.sameSolFrom t l else some false

/-- `HasIdenticalSolAs`, PointerObjectSet.cpp:514-544 -/
def PSet.hasIdenticalSolAs (s t : PSet) : Option Bool :=
  if s.n ≠ t.n then some false else s.sameSolFrom t (List.range s.n)

theorem allPointing_spec {r : RSet} {i : Nat} (hi : i < r.n) : ∀ (l : List Nat) {t : PSet}, Rel t r →
    (∀ x ∈ l, x < r.n) →
    ∃ t', t.allPointing i l = some (l.all (fun x => r.isPointingTo i x), t') ∧ Rel t' r
  | [], t, h, _ => ⟨t, rfl, h⟩
  | x :: l, t, h, hl => by
    obtain ⟨t1, e1, h1⟩ := isPointingTo_spec h hi (hl x (List.mem_cons_self ..))
    simp only [PSet.allPointing, e1, Option.bind_some, List.all_cons]
    cases hb : r.isPointingTo i x with
    | false => exact ⟨t1, rfl, h1⟩
    | true =>
      obtain ⟨t2, e2, h2⟩ := allPointing_spec hi l h1 (fun y hy => hl y (List.mem_cons_of_mem _ hy))
      exact ⟨t2, by simpa using e2, h2⟩

theorem sameSolAt_spec {s t : PSet} {r q : RSet} (h : Rel s r) (g : Rel t q) (hn : r.n = q.n)
    {i : Nat} (hi : i < r.n) (hr : ∀ i x, x ∈ r.pts i → x < r.n) (hq : ∀ i x, x ∈ q.pts i → x < q.n) :
    ∃ s' t', s.sameSolAt t i = some (r.sameSolAt q i, s', t') ∧ Rel s' r ∧ Rel t' q := by
  have hi' : i < q.n := hn ▸ hi
  unfold PSet.sameSolAt RSet.sameSolAt
  have e1 : s.hasEscaped i = some (r.escaped i) := by rw [PSet.hasEscaped, h.n, h.obj, if_pos hi]; rfl
  have e2 : t.hasEscaped i = some (q.escaped i) := by rw [PSet.hasEscaped, g.n, g.obj, if_pos hi']; rfl
  obtain ⟨s1, e3, h1⟩ := isPTE_spec h hi
  obtain ⟨t1, e4, g1⟩ := isPTE_spec g hi'
  obtain ⟨s2, e5, h2⟩ := pointees_spec h1 hi
  obtain ⟨t2, e6, g2⟩ := allPointing_spec hi' (r.pointees i) g1 (fun x hx => hn ▸ hr _ _ hx)
  obtain ⟨t3, e7, g3⟩ := pointees_spec g2 hi'
  obtain ⟨s3, e8, h3⟩ := allPointing_spec hi (q.pointees i) h2 (fun x hx => hn ▸ hq _ _ hx)
  simp only [e1, e2, Option.bind_eq_bind, Option.bind_some, Option.pure_def, e3, e4, e5, e6, e7, e8]
  by_cases a1 : r.escaped i = q.escaped i
  · rw [if_neg (by simp [a1]), a1]
    by_cases a2 : r.pte i = q.pte i
    · rw [if_neg (by simp [a2]), a2]
      cases a3 : (r.pointees i).all (fun x => q.isPointingTo i x) with
      | false => simp; exact ⟨_, _, ⟨rfl, rfl⟩, h2, g2⟩
      | true => simp; exact ⟨_, _, ⟨rfl, rfl⟩, h3, g3⟩
    · rw [if_pos a2]
      refine ⟨s1, t1, ?_, h1, g1⟩
      simp [a2]
  · rw [if_pos a1]
    refine ⟨s, t, ?_, h, g⟩
    simp [a1]

theorem sameSolFrom_spec {r q : RSet} (hn : r.n = q.n) (hr : ∀ i x, x ∈ r.pts i → x < r.n)
    (hq : ∀ i x, x ∈ q.pts i → x < q.n) : ∀ (l : List Nat) {s t : PSet}, Rel s r → Rel t q →
    (∀ i ∈ l, i < r.n) → s.sameSolFrom t l = some (l.all fun i => r.sameSolAt q i)
  | [], s, t, _, _, _ => rfl
  | i :: l, s, t, h, g, hl => by
    obtain ⟨s1, t1, e, h1, g1⟩ := sameSolAt_spec h g hn (hl i (List.mem_cons_self ..)) hr hq
    simp only [PSet.sameSolFrom, e, Option.bind_some, List.all_cons]
    cases r.sameSolAt q i with
    | false => rfl
    | true => simpa using sameSolFrom_spec hn hr hq l h1 g1 (fun j hj => hl j (List.mem_cons_of_mem _ hj))

theorem hasIdentical_spec {s t : PSet} {r q : RSet} (h : Rel s r) (g : Rel t q)
    (hr : ∀ i x, x ∈ r.pts i → x < r.n) (hq : ∀ i x, x ∈ q.pts i → x < q.n) :
    s.hasIdenticalSolAs t = some (r.hasIdenticalSolAs q) := by
  unfold PSet.hasIdenticalSolAs RSet.hasIdenticalSolAs
  rw [h.n, g.n]
  by_cases hn : r.n = q.n
  · rw [if_neg (by simp [hn]), sameSolFrom_spec hn hr hq _ h g (fun i hi => by simpa using hi)]
    simp [hn]
  · rw [if_pos hn]; simp [hn]

/-- the points-to sets that are not of a root are never read; all entries are in range -/
theorem RSet.pts_lt_step {r : RSet} (w : r.Wf) (hp : ∀ i x, x ∈ r.pts i → x < r.n) (op : POp)
    (hok : r.abs.Ok op) : ∀ i x, x ∈ (r.step op).2.pts i → x < (r.step op).2.n := by
  have key : ∀ (p : Nat → List Nat) (a : Nat) (l : List Nat), (∀ i x, x ∈ p i → x < r.n) → (∀ x ∈ l, x < r.n) →
      ∀ i x, x ∈ upd p a l i → x < r.n := by
    intro p a l h1 h2 i x hx
    unfold upd at hx; split at hx
    · exact h2 x hx
    · exact h1 i x hx
  have key2 : ∀ a b x, x ∈ uni (r.pts a) (r.pts b) → x < r.n := by
    intro a b x hx
    rcases mem_uni.1 hx with hx | hx <;> exact hp _ _ hx
  cases op with
  | add k c =>
    intro i x hx
    have : x ∈ upd r.pts r.n [] i := hx
    unfold upd at this; split at this
    · cases this
    · exact Nat.lt_succ_of_lt (hp _ _ this)
  | lookup i => exact hp
  | unify a b =>
    show ∀ i x, x ∈ (r.unify a b).2.pts i → x < (r.unify a b).2.n
    unfold RSet.unify
    simp only []
    split
    · exact hp
    · exact key _ _ _ (key _ _ _ hp (key2 _ _)) (fun x hx => by cases hx)
  | addPointee p y =>
    refine key _ _ _ hp ?_
    intro x hx
    rcases mem_ins.1 hx with hx | rfl
    · exact hp _ _ hx
    · exact hok.2.1
  | makeSuperset a b =>
    show ∀ i x, x ∈ (r.makeSuperset a b).2.pts i → x < (r.makeSuperset a b).2.n
    unfold RSet.makeSuperset
    split
    · exact hp
    · simp only []
      split
      · unfold RSet.markPTE RSet.setPTE
        split <;> exact key _ _ _ hp (key2 _ _)
      · exact key _ _ _ hp (key2 _ _)
  | removeAll a => exact key _ _ _ hp (fun x hx => by cases hx)
  | markPE a => show ∀ i x, x ∈ (r.markPE a).2.pts i → x < (r.markPE a).2.n
                unfold RSet.markPE RSet.setPE; split <;> exact hp
  | markPTE a => show ∀ i x, x ∈ (r.markPTE a).2.pts i → x < (r.markPTE a).2.n
                 unfold RSet.markPTE RSet.setPTE; split <;> exact hp
  | markSS a => show ∀ i x, x ∈ (r.markSS a).2.pts i → x < (r.markSS a).2.n
                unfold RSet.markSS RSet.setSS; split <;> exact hp
  | markLS a => show ∀ i x, x ∈ (r.markLS a).2.pts i → x < (r.markLS a).2.n
                unfold RSet.markLS RSet.setLS; split <;> exact hp
  | markEscaped a =>
    show ∀ i x, x ∈ (r.markEscaped a).2.pts i → x < (r.markEscaped a).2.n
    unfold RSet.markEscaped RSet.markPE RSet.markPTE RSet.setPE RSet.setPTE
    simp only []
    repeat' split
    all_goals exact hp

theorem pts_lt_run : ∀ (ops : List POp) {s : PSet} {r : RSet}, Rel s r → (∀ i x, x ∈ r.pts i → x < r.n) →
    r.abs.OkAll ops → ∀ i x, x ∈ (r.run ops).pts i → x < (r.run ops).n
  | [], s, r, h, w, _ => w
  | op :: ops, s, r, h, w, hok => by
    obtain ⟨s1, e1, h1⟩ := step_rel h op hok.1
    have ha := abs_step h.wf op hok.1
    exact pts_lt_run ops h1 (RSet.pts_lt_step h.wf w op hok.1) (by rw [ha]; exact hok.2)

/-- Everything a client can ask about a solution is the same: what every object may point to
(explicitly, or implicitly through the external node), which objects have escaped and which point
to external. -/
def Abs.SameSolution (A B : Abs) : Prop :=
  A.n = B.n ∧ ∀ i < A.n, (A.esc i ↔ B.esc i) ∧ (A.pte i ↔ B.pte i) ∧
    ∀ x < A.n, ((A.pts i x ∨ (A.pte i ∧ A.esc x)) ↔ (B.pts i x ∨ (B.pte i ∧ B.esc x)))

/-- **C24**: for two pointer object sets built by arbitrary legal histories, `HasIdenticalSolAs`
returns true iff the two sets have the same solution, however the objects are unified and whether
a pointee is represented explicitly or implicitly. -/
theorem C24_hasIdenticalSolAs (ops1 ops2 : List POp) (hok1 : Abs.empty.OkAll ops1)
    (hok2 : Abs.empty.OkAll ops2) :
    ∃ s t, PSet.empty.run ops1 = some s ∧ PSet.empty.run ops2 = some t ∧
      Answers (s.hasIdenticalSolAs t) ((Abs.empty.run ops1).SameSolution (Abs.empty.run ops2)) := by
  obtain ⟨s, e, h, ha⟩ := run_rel ops1 rel_empty (by rw [abs_empty]; exact hok1)
  obtain ⟨t, e', g, ga⟩ := run_rel ops2 rel_empty (by rw [abs_empty]; exact hok2)
  have hr := pts_lt_run ops1 rel_empty (fun _ _ h => by cases h) (by rw [abs_empty]; exact hok1)
  have hq := pts_lt_run ops2 rel_empty (fun _ _ h => by cases h) (by rw [abs_empty]; exact hok2)
  rw [abs_empty] at ha ga
  refine ⟨s, t, e, e', _, hasIdentical_spec h g hr hq, ?_⟩
  rw [← ha, ← ga]
  generalize RSet.empty.run ops1 = r at *
  generalize RSet.empty.run ops2 = q at *
  unfold RSet.hasIdenticalSolAs Abs.SameSolution
  show _ ↔ r.n = q.n ∧ ∀ i < r.n, _
  rw [Bool.and_eq_true, beq_iff_eq, List.all_eq_true]
  apply and_congr_right
  intro hn
  have hpt : ∀ (r : RSet) i x, r.isPointingTo i x = true ↔ (x ∈ r.pointees i ∨ (r.pte i = true ∧ r.escaped x = true)) := by
    intro r i x; simp [RSet.isPointingTo]; tauto
  constructor
  · intro hall i hi
    have := hall i (by simpa using hi)
    simp only [RSet.sameSolAt, Bool.and_eq_true, beq_iff_eq, List.all_eq_true] at this
    obtain ⟨⟨⟨h1, h2⟩, h3⟩, h4⟩ := this
    refine ⟨by simp only [RSet.abs, h1], by simp only [RSet.abs, h2], ?_⟩
    intro x hx
    show (x ∈ r.pointees i ∨ (r.pte i = true ∧ r.escaped x = true)) ↔ (x ∈ q.pointees i ∨ (q.pte i = true ∧ q.escaped x = true))
    have hex : r.escaped x = q.escaped x := by
      have := hall x (List.mem_range.2 hx)
      simp only [RSet.sameSolAt, Bool.and_eq_true, beq_iff_eq, List.all_eq_true] at this
      exact this.1.1.1
    constructor
    · rintro (h5 | ⟨h5, h6⟩)
      · exact (hpt q i x).1 (h3 x h5)
      · exact .inr ⟨h2 ▸ h5, hex ▸ h6⟩
    · rintro (h5 | ⟨h5, h6⟩)
      · exact (hpt r i x).1 (h4 x h5)
      · exact .inr ⟨h2.symm ▸ h5, hex.symm ▸ h6⟩
  · intro hall i hi
    have hi : i < r.n := by simpa using hi
    obtain ⟨h1, h2, h3⟩ := hall i hi
    have h1 : r.escaped i = q.escaped i := Bool.eq_iff_iff.2 h1
    have h2 : r.pte i = q.pte i := Bool.eq_iff_iff.2 h2
    simp only [RSet.sameSolAt, Bool.and_eq_true, beq_iff_eq, List.all_eq_true]
    refine ⟨⟨⟨h1, h2⟩, ?_⟩, ?_⟩
    · intro x hx
      exact (hpt q i x).2 ((h3 x (hr _ _ hx)).1 (.inl hx))
    · intro x hx
      have : x < r.n := hn ▸ hq _ _ hx
      exact (hpt r i x).2 ((h3 x this).2 (.inl hx))

/-! ## Examples -/

/-- a history with three registers and two memory objects: the registers are unified in a chain -/
def exHist : List POp :=
  [.add .register true, .add .register true, .add .register true, .add .alloca true,
   .add .imported true, .markEscaped 4, .addPointee 0 3, .unify 0 1, .unify 2 1, .markPTE 1]

theorem exHist_ok : Abs.empty.OkAll exHist := by
  simp [exHist, Abs.OkAll, Abs.Ok, Abs.step, Abs.empty]

/-- the history meets the hypotheses of `C20_history`; register 2 now points to the alloca and,
through the external node, to the import -/
theorem C20_example : (Abs.empty.run exHist).pts 2 3 ∧ (Abs.empty.run exHist).pte 2 ∧
    (Abs.empty.run exHist).esc 4 ∧ ¬ (Abs.empty.run exHist).conn 0 3 := by
  simp [exHist, Abs.run, Abs.step, Abs.empty, Abs.merge]

/-- the same solution with the escaped import as an explicit pointee -/
theorem C24_example : (Abs.empty.run exHist).SameSolution (Abs.empty.run (exHist ++ [.addPointee 2 4])) := by
  refine ⟨rfl, ?_⟩
  intro i _
  refine ⟨Iff.rfl, Iff.rfl, ?_⟩
  intro x _
  simp only [exHist, Abs.run, Abs.step, Abs.empty, Abs.merge, List.cons_append, List.nil_append]
  grind

end Jlm.Llvm.Aa
