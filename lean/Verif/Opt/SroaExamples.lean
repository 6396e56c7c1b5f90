import Verif.Opt.SroaTrace

set_option linter.unusedSimpArgs false
set_option linter.unusedVariables false

/-!
# C54: examples and counterexamples
-/

namespace Jlm.Opt.Sroa.Ex

open Jlm.Llvm.Layout

/-- Numbers and addresses. -/
inductive Wd
  | num (n : Nat)
  | ptr (o : Obj) (d : Int)
  deriving DecidableEq

abbrev Byte := Option (Wd × Nat × Nat)

/-- A value can only be read from all its bytes, in the right order. -/
def decode (size : Nat) (f : Nat → Byte) : Wd :=
  if 0 < size then
    match f 0 with
    | some (w, _, _) => if (List.range size).all fun k => f k == some (w, k, size) then w else .num 999
    | none => .num 999
  else .num 999

/-- Bytes know the value, their position and the number of bytes they belong to; `none` is undefined. -/
def sem : Sem where
  W := Wd
  B := Byte
  addr := .ptr
  ptr
    | .ptr o d => some (o, d)
    | .num _ => none
  enc ty w k := some (w, k, storeSize ty)
  dec ty f := decode (storeSize ty) f
  undef := none
  sel
    | .num n => n
    | .ptr _ _ => 0

instance : DecidableEq sem.W := inferInstanceAs (DecidableEq Wd)
instance : DecidableEq sem.B := inferInstanceAs (DecidableEq Byte)

theorem decode_ptr {size : Nat} {f : Nat → Byte} {o : Obj} {d : Int} (h : decode size f = .ptr o d) : 0 < size ∧ ∃ r, f 0 = some (.ptr o d, r) := by
  simp only [decode] at h
  split at h
  · rename_i hp
    split at h
    · rename_i w r r' hf
      split at h
      · exact ⟨hp, _, h ▸ hf⟩
      · cases h
    · cases h
  · cases h

theorem decode_ext {size : Nat} {f g : Nat → Byte} (h : ∀ k, k < size → f k = g k) : decode size f = decode size g := by
  simp only [decode]
  by_cases hp : 0 < size
  · rw [if_pos hp, if_pos hp, h 0 hp]
    have : ∀ w, ((List.range size).all fun k => f k == some (w, k, size)) = (List.range size).all fun k => g k == some (w, k, size) := by
      intro w
      rw [Bool.eq_iff_iff]
      simp only [List.all_eq_true, List.mem_range]
      exact ⟨fun a k hk => by rw [← h k hk]; exact a k hk, fun a k hk => by rw [h k hk]; exact a k hk⟩
    simp only [this]
  · rw [if_neg hp, if_neg hp]

def numb (n : Nat) : sem.W := Wd.num n

/-- `100 + n` is the constant `n`; 1 subtracts one; 2 is a call of a function that stores its argument in a global variable; everything else
is undefined behaviour. -/
def ops : Ops sem := fun f as m =>
  match f, as with
  | 1, [Wd.num n] => some ([numb (n - 1)], m)
  | 2, [a] => some ([], m.set (.ext 0) ⟨8, fun k => sem.enc .ptr a k, 0⟩)
  | f + 100, [] => some ([numb f], m)
  | _, _ => none

def know : Know sem where
  word X w := ∀ o d, w = Wd.ptr o d → Outside X o
  byte X b := ∀ w r, b = some (w, r) → ∀ o d, w = Wd.ptr o d → Outside X o

theorem pure_op {X : Nat → Prop} {m m' : Mem sem} {rs : List sem.W} {n : Nat} (h : some ([numb n], m) = some (rs, m')) (hm : know.mem X m)
    {f : Mem sem → Option (List sem.W × Mem sem)} (hf : ∀ m, f m = some ([numb n], m)) :
    (∀ r ∈ rs, know.word X r) ∧ know.mem X m' ∧ (∀ o, ¬ Outside X o → m' o = m o) ∧
    ∀ m2, (∀ o, Outside X o → m2 o = m o) → ∃ m2', f m2 = some (rs, m2') ∧
      (∀ o, Outside X o → m2' o = m' o) ∧ ∀ o, ¬ Outside X o → m2' o = m2 o := by
  simp only [Option.some.injEq, Prod.mk.injEq] at h
  obtain ⟨rfl, rfl⟩ := h
  refine ⟨fun r hr o d h => ?_, hm, fun _ _ => rfl, fun m2 h2 => ⟨m2, hf m2, h2, fun _ _ => rfl⟩⟩
  simp only [List.mem_singleton] at hr
  rw [hr] at h
  cases h

theorem outside_ext (X : Nat → Prop) (k : Nat) : Outside X (.ext k) := fun n i h => by cases h

theorem laws : know.Laws ops where
  ptr_addr o d := rfl
  addr X o d h o' d' h' := by cases h'; exact h
  ptr X w o d h h1 := by
    cases w with
    | num n => simp [sem] at h1
    | ptr o' d' => cases h1; exact h o d rfl
  mono X Y w h h1 o d hw n i ho hn := h1 o d hw n i ho (h n hn)
  monoB X Y w h h1 v r hb o d hw n i ho hn := h1 v r hb o d hw n i ho (h n hn)
  undef X w r h := by cases h
  enc X ty w k h v r hb := by
    have hb : (some (w, k, storeSize ty) : Byte) = some (v, r) := hb
    injection hb with hb
    injection hb with hb
    subst hb
    exact h
  dec X ty f h := by
    intro o d hd
    obtain ⟨hp, r, hr⟩ := decode_ptr hd
    exact h 0 hp _ r hr o d rfl
  dec_ext ty f g h := decode_ext h
  op X f as m rs m' ha hm h := by
    simp only [ops] at h ⊢
    split at h
    · exact pure_op h hm fun _ => rfl
    · rename_i a
      simp only [Option.some.injEq, Prod.mk.injEq] at h
      obtain ⟨rfl, rfl⟩ := h
      refine ⟨by simp, ?_, ?_, fun m2 h2 => ⟨_, rfl, ?_, ?_⟩⟩
      · intro o ho ob hob k
        by_cases he : o = .ext 0
        · rw [Mem.set, if_pos he] at hob
          injection hob with hob
          subst hob
          intro v r hb
          have hb : (some (a, k, storeSize .ptr) : Byte) = some (v, r) := hb
          injection hb with hb
          injection hb with hb
          subst hb
          exact ha a (by simp)
        · rw [Mem.set, if_neg he] at hob
          exact hm o ho ob hob k
      · intro o ho
        exact if_neg fun he : o = .ext 0 => ho (he ▸ outside_ext X 0)
      · intro o ho
        simp only [Mem.set]
        split
        · rfl
        · exact h2 o ho
      · intro o ho
        exact if_neg fun he : o = .ext 0 => ho (he ▸ outside_ext X 0)
    · exact pure_op h hm fun _ => rfl
    · cases h

/-! ## A decision procedure for the conditions -/

instance : DecidableEq Gep := inferInstanceAs (DecidableEq (Nat × List Int))

def accessOkB (pl : List Info) (s : St sem) (a : Nat) (ty : Ty) : Bool :=
  match sem.ptr (s.e a) with
  | some (.loc n 0, off) =>
    match s.m (.loc n 0) with
    | some ob => pl.all fun i => i.n != ob.src || i.cons.all fun g => (elements i.ty).all fun p =>
        p.1 != g.2 || gepOff i.ty g.2 != some off || storeSize ty ≤ allocSize p.2
    | none => true
  | _ => true

theorem accessOkB_sound {pl : List Info} {s : St sem} {a : Nat} {ty : Ty} (h : accessOkB pl s a ty = true) : AccessOk pl s a ty := by
  intro n off ob h1 h2 i hi hn g hg t ht ho
  simp only [accessOkB, h1, h2, List.all_eq_true] at h
  have h3 := h i hi
  rw [hn] at h3
  simp only [bne_self_eq_false, Bool.false_or, List.all_eq_true] at h3
  have h4 := h3 g hg (g.2, t) ht
  rw [ho] at h4
  simpa using h4

def iterOkB (P : St sem → Bool) (f : St sem → Option (St sem × Bool)) (vars : List LV) : Nat → St sem → Bool
  | 0, _ => true
  | k + 1, s => P s && match f s with
    | some (s1, true) => iterOkB P f vars k (s1.set (vars.map fun v => (v.pre, s1.e v.post)))
    | _ => true

theorem iterOkB_sound {P : St sem → Bool} {Q : St sem → Prop} {f : St sem → Option (St sem × Bool)} {vars : List LV}
    (hP : ∀ s, P s = true → Q s) : ∀ k s, iterOkB P f vars k s = true → iterOk Q f vars k s
  | 0, _, _ => trivial
  | k + 1, s, h => by
    simp only [iterOkB, Bool.and_eq_true] at h
    refine ⟨hP s h.1, fun s1 h1 => iterOkB_sound hP k _ ?_⟩
    have h2 := h.2
    rw [h1] at h2
    exact h2

def okStepB (pl : List Info) (ok : List Node → St sem → Bool) (run : List Node → St sem → Option (St sem)) (k : Nat) (nd : Node)
    (s : St sem) : Bool :=
  match nd with
  | .gep base ty idxs out =>
    match consumer pl out with
    | some i => s.e base == s.e i.n && gepOff ty idxs == gepOff i.ty idxs
    | none => true
  | .load a ty _ => accessOkB pl s a ty
  | .store a _ ty => accessOkB pl s a ty
  | .gamma p brs _ =>
    match (brs[sem.sel (s.e p)]? : Option (List Node)) with
    | some br => ok br s
    | none => true
  | .theta vars body p => iterOkB (ok body) (thetaBody run body p) vars k (s.set (vars.map fun v => (v.pre, s.e v.inp)))
  | _ => true

def okB (pl : List Info) : Nat → List Node → St sem → Bool
  | 0, _, _ => true
  | _ + 1, [], _ => true
  | k + 1, nd :: ns, s => okStepB pl (okB pl k) (run ops k) k nd s &&
    match step ops (run ops k) k nd s with
    | some s' => okB pl k ns s'
    | none => true

theorem okB_sound {pl : List Info} : ∀ k ns s, okB pl k ns s = true → ok ops pl k ns s
  | 0, _, _, _ => trivial
  | _ + 1, [], _, _ => trivial
  | k + 1, nd :: ns, s, h => by
    simp only [okB, Bool.and_eq_true] at h
    refine ⟨?_, fun s' h' => okB_sound k ns s' ?_⟩
    · have h1 := h.1
      cases nd with
      | gep base ty idxs out =>
        intro i hi
        simp only [okStepB, hi, Bool.and_eq_true, beq_iff_eq] at h1
        exact h1
      | load a ty o => exact accessOkB_sound h1
      | store a v ty => exact accessOkB_sound h1
      | gamma p brs ex =>
        intro br hbr
        simp only [okStepB, hbr] at h1
        exact okB_sound k br s h1
      | theta vars body p => exact iterOkB_sound (fun s => okB_sound k body s) k _ h1
      | _ => trivial
    · have h2 := h.2
      rw [h'] at h2
      exact h2

/-! ## A function -/

abbrev i32 : Ty := .bits 32
abbrev i64 : Ty := .bits 64

/-- `struct { char; struct { int; int }; }`. -/
abbrev nested : Ty := .struct false [.bits 8, .struct false [i32, i32]]

/-- A loop with an alloca; its fields are written, and one of them is read in a gamma node. A call gets the value. -/
def good : Fun where
  body := [
    .op 102 [] [50], .op 105 [] [51], .op 107 [] [52],
    .theta [⟨50, 53, 54, 55⟩, ⟨51, 56, 22, 57⟩] [
      .alloca 0 nested 1 [],
      .gep 0 nested [0, 1, 0] 1,
      .gep 0 nested [0, 1, 1] 2,
      .store 1 56 i32,
      .store 2 52 i32,
      .op 1 [53] [54],
      .gamma 54 [[.load 1 i32 20], [.barrier 2 3, .load 3 i32 21]] [(22, [20, 21])],
      .op 2 [22] []] 54]
  results := [57]

def start : St sem := ⟨fun _ => numb 0, fun _ _ => numb 0, fun o => if o = .ext 0 then some ⟨8, fun _ => none, 0⟩ else none, 3⟩

/-- The alloca is replaced by three. -/
theorem good_plan : (good.plan 40).map (fun i => (i.n, i.cons)) = [(0, [(1, [0, 1, 0]), (2, [0, 1, 1])])] ∧
    (elements nested).map (·.1) = [[0, 0], [0, 1, 0], [0, 1, 1]] := by decide +kernel

theorem good_split : ∃ f', good.split 40 = some f' :=
  Option.isSome_iff_exists.mp (by decide +kernel)

theorem good_run : ∃ s', run ops 40 good.body start = some s' :=
  Option.isSome_iff_exists.mp (by decide +kernel)

theorem good_value : ((run ops 40 good.body start).map fun s => (s.e 57, s.c, (s.m (.ext 0)).map fun ob => decode 8 ob.bytes)) =
    some (numb 7, 5, some (.num 7)) := by decide +kernel

theorem good_ok : ok ops (good.plan 40) 40 good.body start := okB_sound _ _ _ (by decide +kernel)

theorem start_env (x : Nat) : know.word (fun m => start.c ≤ m) (start.e x) := fun o d h => by cases h

theorem start_mem : know.mem (fun m => start.c ≤ m) start.m := by
  intro o _ ob hob k w r hb
  simp only [start] at hob
  split at hob
  · injection hob with hob
    subst hob
    cases hb
  · cases hob

theorem good_wf : wfL (good.plan 40) good.body := by
  have h : ∀ i ∈ good.plan 40, i.n = 0 ∧ i.cons = [(1, [0, 1, 0]), (2, [0, 1, 1])] := by
    have : ∀ i ∈ (good.plan 40).map (fun i => (i.n, i.cons)), i = (0, [(1, [0, 1, 0]), (2, [0, 1, 1])]) := by
      rw [good_plan.1]; simp
    intro i hi
    have := this _ (List.mem_map.mpr ⟨i, hi, rfl⟩)
    simpa using this
  have ht : ∀ i ∈ good.plan 40, i.ty = nested := by
    have : (good.plan 40).map Info.ty = [nested] := by rfl
    intro i hi
    have := this ▸ List.mem_map.mpr ⟨i, hi, rfl⟩
    simpa using this
  simp only [good, wfL, Node.wf, wfB]
  refine ⟨?_, ?_, ?_, ⟨⟨?_, ?_, ?_, trivial, trivial, ?_, ⟨⟨⟨?_, trivial⟩, ⟨?_, ?_, trivial⟩, trivial⟩, ?_⟩, ?_, trivial⟩, ?_⟩, trivial⟩
  · intro i hi; rw [(h i hi).1]; decide
  · intro i hi; rw [(h i hi).1]; decide
  · intro i hi; rw [(h i hi).1]; decide
  · exact ⟨trivial, fun i hi _ => ⟨ht i hi, trivial⟩⟩
  · intro i hi; rw [(h i hi).1, (h i hi).2]; decide
  · intro i hi; rw [(h i hi).1, (h i hi).2]; decide
  · intro i hi; rw [(h i hi).1]; decide
  · intro i hi; rw [(h i hi).1]; decide
  · intro i hi; rw [(h i hi).1]; decide
  · intro i hi; rw [(h i hi).1]; decide
  · intro i hi; rw [(h i hi).1]; simp
  · intro i hi; rw [(h i hi).1]; decide
  · intro i hi; rw [(h i hi).1]; simp

/-- The hypotheses of the theorem are met. -/
theorem good_same : ∃ f' s' t', good.split 40 = some f' ∧ run ops 40 good.body start = some s' ∧ run ops 40 f'.body start = some t' ∧
    t'.e 57 = s'.e 57 ∧ t'.m (.ext 0) = s'.m (.ext 0) := by
  obtain ⟨f', hf⟩ := good_split
  obtain ⟨s', hs⟩ := good_run
  obtain ⟨t', h1, h2, h3⟩ := C54_split_partial laws good_wf hf start_env start_mem good_ok hs
  exact ⟨f', s', t', hf, hs, h1, h2 57 (by simp [good]), h3 _ (outside_ext _ 0)⟩

/-! ## Counterexamples -/

abbrev pair : Ty := .struct false [i32, i32]

/-- The results of a function before and after. -/
def before (f : Fun) : Option (List sem.W) := (run ops 40 f.body start).map fun s => f.results.map s.e
def after (f : Fun) : Option (List sem.W) := (f.split 40).bind fun f' => (run ops 40 f'.body start).map fun s => f.results.map s.e

/-- The address of one of two structs, and then the address of a field: it is always the field of the first struct. -/
def merged : Fun where
  body := [
    .op 101 [] [50], .op 105 [] [51], .op 107 [] [52],
    .alloca 0 pair 1 [], .alloca 1 pair 1 [],
    .gep 0 pair [0, 0] 10, .gep 1 pair [0, 0] 11,
    .store 10 51 i32, .store 11 52 i32,
    .gamma 50 [[], []] [(20, [0, 1])],
    .gep 20 pair [0, 0] 21,
    .load 21 i32 22]
  results := [22]

/-- The function returns 7, but 5 after the transformation. -/
theorem C54_merged : before merged = some [numb 7] ∧ after merged = some [numb 5] := by decide +kernel

/-- Both fields are read by one load. -/
def wide : Fun where
  body := [
    .op 105 [] [51],
    .alloca 0 pair 1 [],
    .gep 0 pair [0, 0] 10,
    .store 10 51 i64,
    .load 10 i64 22]
  results := [22]

/-- The function returns 5, but it accesses memory out of bounds after the transformation. -/
theorem C54_wide : before wide = some [numb 5] ∧ (wide.split 40).isSome = true ∧ after wide = none := by decide +kernel

/-- `gep { i64, i32 }, p, 0, 1` is at the offset 8, in a struct of three 32 bit integers: its third field, not the second one. -/
def otherTy : Fun where
  body := [
    .op 105 [] [51], .op 107 [] [52],
    .alloca 0 (.struct false [i32, i32, i32]) 1 [],
    .gep 0 (.struct false [i32, i32, i32]) [0, 2] 10,
    .store 10 51 i32,
    .gep 0 (.struct false [i32, i32, i32]) [0, 1] 11,
    .store 11 52 i32,
    .gep 0 (.struct false [i64, i32]) [0, 1] 12,
    .load 12 i32 22]
  results := [22]

/-- The function returns 5, but 7 after the transformation. -/
theorem C54_otherTy : before otherTy = some [numb 5] ∧ after otherTy = some [numb 7] := by decide +kernel

/-- An array behind a struct: `isSplitableType` accepts the type, but the array is one element, and there is no alloca for its elements. -/
def arrayBehind : Fun where
  body := [
    .op 105 [] [51],
    .alloca 0 (.struct false [.struct false [i32], .arr 2 i32]) 1 [],
    .gep 0 (.struct false [.struct false [i32], .arr 2 i32]) [0, 1, 0] 10,
    .store 10 51 i32,
    .load 10 i32 22]
  results := [22]

theorem C54_arrayBehind_throws : before arrayBehind = some [numb 5] ∧ (arrayBehind.split 40).isNone = true := by decide +kernel

/-- An array in front is not accepted. -/
theorem C54_array_order : isSplitableType (.struct false [.arr 2 i32, .struct false [i32]]) = false ∧
    isSplitableType (.struct false [.struct false [i32], .arr 2 i32]) = true := by decide +kernel

/-- The address of a struct inside of a struct is used by loads and stores. -/
def subStruct : Fun where
  body := [
    .op 105 [] [51],
    .alloca 0 nested 1 [],
    .gep 0 nested [0, 1] 10,
    .store 10 51 i32,
    .load 10 i32 22]
  results := [22]

theorem C54_subStruct_throws : before subStruct = some [numb 5] ∧ (subStruct.split 40).isNone = true := by decide +kernel

/-- The address of an alloca leaves a loop. -/
def leaves : Fun where
  body := [
    .op 105 [] [51], .op 100 [] [52],
    .theta [⟨51, 53, 0, 55⟩] [.alloca 0 pair 1 []] 52,
    .gep 55 pair [0, 0] 10,
    .store 10 51 i32,
    .load 10 i32 22]
  results := [22]

theorem C54_leaves_throws : before leaves = some [numb 5] ∧ (leaves.split 40).isNone = true := by decide +kernel

end Jlm.Opt.Sroa.Ex
