import Verif.Opt.SvfMake

set_option linter.unusedSimpArgs false
set_option linter.unusedVariables false

/-!
# C53: store value forwarding
-/

namespace Jlm.Opt.Svf

variable {S : Sem}

/-- `processLoadWithMemoryStates` (cpp:999-1023) for the load `q.id` with the memory states `qs`: tracing, creation of variables, and forwarding. -/
def forwardLoad (def? : Nm → Def) (q : Query) (qs : List Nm) (regions : Nat → Nat) (n : Nat) (ns : List Node) : Option (List Node) :=
  match traceAll def? q n qs with
  | none => none
  | some m =>
    match createAll regions m.own q.id n with
    | none => none
    | some st => some (forwardL q.id m.own st.created ns)

/-- The states that are traced for the load. -/
def Traced (def? : Nm → Def) (q : Query) (qs : List Nm) (n : Nat) (s : Nm) : Prop := ∃ m, traceAll def? q n qs = some m ∧ m.traced s

/-- If a load is forwarded, then every execution of the graph in which the answers of the alias analysis are right is an execution of the
result too: it finishes, and all its outputs have the same values, except that undefined values may have been replaced.

`Γ` are the outputs the graph may use (the arguments of the function). The address of the load is the same whenever it is executed, except
in different iterations of the loops of `reset`; tracing has not left these loops. What is missing: the latter is not checked (see
finding 69). -/
theorem C53_forward_partial {ops : Ops S} (laws : S.Laws ops) {def? : Nm → Def} {q : Query} {qs : List Nm} {regions : Nat → Nat} {n : Nat}
    {ns ns' : List Node} {vals : Nat → Option Nm} {Γ : Scope} {reset : Nat → Prop}
    (hΓ : ∀ m, Γ m → m.isO ∧ def? m = .other) (hw : wfL vals Γ ns) (hd : defdL def? q qs regions ns) (hqs : qs ≠ [])
    (hb : borderL (Traced def? q qs n) reset Γ ns) (hf : forwardLoad def? q qs regions n ns = some ns')
    {k : Nat} {l : Option S.W} {e e' : Env S} (hok : ok ops q reset k l ns e) (hr : run ops k ns e = some e') :
    ∃ eT, run ops k ns' e = some eT ∧ ∀ m, (after Γ ns).has m → (e' m).le (eT m) := by
  unfold forwardLoad at hf
  cases hm : traceAll def? q n qs with
  | none => rw [hm] at hf; simp at hf
  | some m =>
    rw [hm] at hf
    simp only at hf
    cases hst : createAll regions m.own q.id n with
    | none => rw [hst] at hf; simp at hf
    | some st =>
      rw [hst] at hf
      simp only [Option.some.injEq] at hf
      subst hf
      obtain ⟨hg, hp, hq⟩ := traceAll_good hm
      have htr : Traced def? q qs n = m.traced := by
        funext s
        apply propext
        constructor
        · rintro ⟨m', h1, h2⟩
          rw [hm] at h1
          injection h1 with h1
          subst h1
          exact h2
        · exact fun h => ⟨m, hm, h⟩
      rw [htr] at hb
      have ht := tokL_of (vals := vals) hg hp hqs hq (createAll_closed hst) ns hw hd hb
      let C : Cfg S := ⟨vals, q, m.T, m.own, st.created, reset⟩
      have hnx : ∀ id, ¬ Γ (.x id) := fun id h => (hΓ _ h).1
      have hnp : ∀ id, ¬ Γ (.p id) := fun id h => (hΓ _ h).1
      have hJ : C.J l Γ e e e := by
        refine ⟨fun s hs => ?_, fun _ _ => rfl, fun id _ _ => ⟨fun _ => rfl, fun _ => rfl⟩, fun s hs r hr => ?_, fun r hr => ?_,
          fun id v _ h => absurd h (hnx id)⟩
        · cases hv : e s with
          | w x => exact leV_refl x
          | mem x => exact laws.refl x
        · have := hg.T_other (hΓ s hs.1).2
          have hr : m.T s = some r := hr
          rw [this] at hr
          simp at hr
        · cases r <;> simp only [Origin.inScope] at hr
          case uninit => exact ⟨none, rfl⟩
          case thetaPre => exact absurd hr.2 (hnp _)
          all_goals exact absurd hr.2 (hnx _)
      obtain ⟨eT, E, h1, h2, -⟩ := sim (C := C) laws k ns Γ l e e e e' hw ht hJ hr hok
      exact ⟨eT, h1, fun s hs => J.leT h2 s hs⟩

end Jlm.Opt.Svf
