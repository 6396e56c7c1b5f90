import Verif.Aa.NaiveProps
/-
C21: `PointerObjectConstraintSet::SolveNaively`.
-/
namespace Jlm.Llvm.Aa

/-- **C21**: for every pointer object set built by a legal history, every list of constraints over
its objects, and every order in which the hash sets and the function map enumerate their elements,
`SolveNaively` ends (after at most `n² + 3n + 1` passes, `n` the number of objects), violates no
assertion, and what `IsPointingTo`, `HasEscaped` and `IsPointingToExternal` then answer is the least
assignment that satisfies all constraints. -/
theorem C21_naive (ops : List POp) (hok : Abs.empty.OkAll ops) (cs : List Constraint) (fn : Nat → Fn)
    (hr : (Problem.mk (Abs.empty.run ops) cs fn).InRange)
    (fns : List Nat) (hf : FnsOk ⟨Abs.empty.run ops, cs, fn⟩ fns)
    (ord : Order) (ho : OrderOk ord)
    (fuel : Nat) (hfuel : (Abs.empty.run ops).n * (Abs.empty.run ops).n + 3 * (Abs.empty.run ops).n < fuel) :
    ∃ r, solveNaively ord fn fns cs fuel (RSet.empty.run ops) = some r ∧
      IsLeast ⟨Abs.empty.run ops, cs, fn⟩ r.abs.sol := by
  have g := good_start ops hok cs fn
  obtain ⟨r, e, g', hs⟩ := solveNaively_spec ho hr hf fuel g (by simp only; omega)
  refine ⟨r, e, hs, fun L hL => ?_⟩
  have m := g'.2.models L hL
  refine ⟨?_, m.esc, m.pte⟩
  rintro i x (h | ⟨h1, h2⟩)
  · exact m.pts i x h
  · exact hL.implicit i x (m.pte i h1) (m.esc x h2)

theorem IsLeast.unique {P : Problem} {K L : Sol} (hK : IsLeast P K) (hL : IsLeast P L) :
    (∀ i x, K.pt i x ↔ L.pt i x) ∧ (∀ x, K.esc x ↔ L.esc x) ∧ (∀ i, K.ext i ↔ L.ext i) := by
  have a := hK.2 L hL.1
  have b := hL.2 K hK.1
  exact ⟨fun i x => ⟨a.1 i x, b.1 i x⟩, fun x => ⟨a.2.1 x, b.2.1 x⟩, fun i => ⟨a.2.2 i, b.2.2 i⟩⟩

theorem Sat.congr {A : Abs} {cs cs' : List Constraint} {fn : Nat → Fn} (h : ∀ c, c ∈ cs ↔ c ∈ cs') {L : Sol} :
    Sat ⟨A, cs, fn⟩ L → Sat ⟨A, cs', fn⟩ L := fun s =>
  ⟨s.pts, s.esc, s.ext, s.pe, s.unified, s.implicit, s.escaped, s.ss, s.ls,
   fun c hc => s.cs c ((h c).2 hc), s.fns⟩

/-- **C21**: the result does not depend on the order (or multiplicity) of the constraints, nor on
the order in which hash sets are enumerated: two runs answer every query in the same way. -/
theorem C21_deterministic (ops : List POp) (hok : Abs.empty.OkAll ops) (cs cs' : List Constraint)
    (hcs : ∀ c, c ∈ cs ↔ c ∈ cs') (fn : Nat → Fn)
    (hr : (Problem.mk (Abs.empty.run ops) cs fn).InRange)
    (fns fns' : List Nat) (hf : FnsOk ⟨Abs.empty.run ops, cs, fn⟩ fns) (hf' : FnsOk ⟨Abs.empty.run ops, cs, fn⟩ fns')
    (ord ord' : Order) (ho : OrderOk ord) (ho' : OrderOk ord')
    (fuel fuel' : Nat) (r r' : RSet)
    (e : solveNaively ord fn fns cs fuel (RSet.empty.run ops) = some r)
    (e' : solveNaively ord' fn fns' cs' fuel' (RSet.empty.run ops) = some r') (i x : Nat) :
    r.isPointingTo i x = r'.isPointingTo i x ∧ r.escaped i = r'.escaped i ∧ r.pte i = r'.pte i := by
  have mono : ∀ (ord : Order) (fns cs) (fuel : Nat) (s r : RSet), solveNaively ord fn fns cs fuel s = some r →
      ∀ k, fuel ≤ k → solveNaively ord fn fns cs k s = some r := by
    intro ord fns cs fuel
    induction fuel with
    | zero => intro s r h; cases h
    | succ f ih =>
      intro s r h k hk
      obtain ⟨k, rfl⟩ : ∃ m, k = m + 1 := ⟨k - 1, by omega⟩
      simp only [solveNaively] at h ⊢
      cases hp : naivePass ord fn fns cs s with
      | none => rw [hp] at h; cases h
      | some bs =>
        obtain ⟨b, t⟩ := bs
        rw [hp] at h
        simp only [Option.bind_some] at h ⊢
        cases b with
        | false => exact h
        | true => exact ih t r h k (by omega)
  have hr' : (Problem.mk (Abs.empty.run ops) cs' fn).InRange := ⟨fun c hc => hr.cs c ((hcs c).2 hc), hr.fn⟩
  let N := (Abs.empty.run ops).n * (Abs.empty.run ops).n + 3 * (Abs.empty.run ops).n + 1
  obtain ⟨r1, e1, h1⟩ := C21_naive ops hok cs fn hr fns hf ord ho (max fuel N) (by omega)
  obtain ⟨r2, e2, h2⟩ := C21_naive ops hok cs' fn hr' fns' hf' ord' ho' (max fuel' N) (by omega)
  rw [mono _ _ _ _ _ _ e _ (Nat.le_max_left ..)] at e1
  rw [mono _ _ _ _ _ _ e' _ (Nat.le_max_left ..)] at e2
  cases e1; cases e2
  have h2' : IsLeast ⟨Abs.empty.run ops, cs, fn⟩ r'.abs.sol :=
    ⟨h2.1.congr fun c => (hcs c).symm, fun L hL => h2.2 L (hL.congr hcs)⟩
  have u := h1.unique h2'
  have hq : ∀ (r : RSet), r.isPointingTo i x = true ↔ r.abs.sol.pt i x := by
    intro r; simp [RSet.isPointingTo, Abs.sol, RSet.abs]; exact Or.comm
  exact ⟨Bool.eq_iff_iff.2 (by rw [hq, hq]; exact u.1 i x), Bool.eq_iff_iff.2 (u.2.1 i), Bool.eq_iff_iff.2 (u.2.2 i)⟩

/-! ## An example

`p = alloca a; q = alloca b; *p = q; r = *p; external(p); r(r)` where register 0 = `p`, 1 = `q`,
2 = `r`, 3 = `a`, 4 = `b`, 5 = a function, 6 = its argument, 7 = an imported function, 8 = a
register that points to it. -/

def exOps : List POp :=
  [.add .register true, .add .register true, .add .register true, .add .alloca true, .add .alloca true,
   .add .function false, .add .register true, .add .imported true, .add .register true,
   .addPointee 0 3, .addPointee 1 4, .addPointee 8 7]

def exFn : Nat → Fn := fun f => if f = 5 then ⟨[some 6], [some 6]⟩ else ⟨[], []⟩

def exCs : List Constraint := [.store 0 1, .load 2 0, .call 8 ⟨[some 0, none], []⟩]

def exOrder : Order := fun s i => s.pointees i

theorem exOps_ok : Abs.empty.OkAll exOps := by
  simp [exOps, Abs.OkAll, Abs.Ok, Abs.step, Abs.empty]

theorem exInRange : (Problem.mk (Abs.empty.run exOps) exCs exFn).InRange := by
  constructor
  · intro c hc
    simp [exCs] at hc
    rcases hc with rfl | rfl | rfl <;>
      simp [Constraint.InRange, Call.InRange, exOps, Abs.run, Abs.step, Abs.empty]
  · intro f _ _
    by_cases h : f = 5 <;> simp [exFn, h, Fn.InRange, exOps, Abs.run, Abs.step, Abs.empty]

theorem exFnsOk : FnsOk ⟨Abs.empty.run exOps, exCs, exFn⟩ [5] := by
  intro f
  have : ∀ f, f ∈ [5] ↔ f < 9 ∧ (Abs.empty.run exOps).kind f = .function := by
    intro f
    constructor
    · intro h
      simp at h
      subst h
      simp [exOps, Abs.run, Abs.step, Abs.empty]
    · rintro ⟨h1, h2⟩
      have : f = 0 ∨ f = 1 ∨ f = 2 ∨ f = 3 ∨ f = 4 ∨ f = 5 ∨ f = 6 ∨ f = 7 ∨ f = 8 := by omega
      rcases this with rfl | rfl | rfl | rfl | rfl | rfl | rfl | rfl | rfl <;>
        simp [exOps, Abs.run, Abs.step, Abs.empty] at h2 ⊢
  exact this f

theorem exOrder_ok : OrderOk exOrder := fun _ _ _ => Iff.rfl

/-- the call of the imported function lets both allocas escape (`b` is reachable from `a`), the
loaded value is therefore unknown, and the function that no one can reach stays private -/
theorem C21_example : (solveNaively exOrder exFn [5] exCs 110 (RSet.empty.run exOps)).map (fun r =>
    [r.isPointingTo 2 4, r.escaped 3, r.escaped 4, r.pte 2, r.pte 1, r.escaped 5, r.isPointingTo 6 3]) =
    some [true, true, true, true, false, false, false] := by
  decide +kernel

end Jlm.Llvm.Aa
