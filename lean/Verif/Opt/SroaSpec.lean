import Verif.Opt.SroaModel

/-!
# Aggregate alloca splitting: execution of functions

Memory consists of objects, which are sequences of bytes. Every execution of an alloca node gets a new number `n`; the object is `loc n 0`,
and those of the new allocas are `loc n 1`, `loc n 2`, and so on.
-/

namespace Jlm.Opt.Sroa

open Jlm.Llvm.Layout

/-- Objects: those of alloca nodes, and all the others. -/
inductive Obj
  | loc (n i : Nat)
  | ext (k : Nat)
  deriving DecidableEq

/-- The offset of a path of indices into a type. -/
def pathOff : Ty → List Int → Option Int
  | _, [] => some 0
  | .arr _ e, i :: r => (pathOff e r).map (i * allocSize e + ·)
  | .struct p fs, k :: r =>
    match fs[k.toNat]?, getFieldOffset p fs k.toNat with
    | some f, some o => if 0 ≤ k then (pathOff f r).map ((o : Int) + ·) else none
    | _, _ => none
  | _, _ => none

/-- The offset of a GetElementPtr operation. -/
def gepOff (t : Ty) : List Int → Option Int
  | [] => none
  | i :: r => (pathOff t r).map (i * allocSize t + ·)

/-- Words and bytes. -/
structure Sem where
  W : Type
  B : Type
  addr : Obj → Int → W
  ptr : W → Option (Obj × Int)
  /-- the byte at an offset of a stored value -/
  enc : Ty → W → Nat → B
  /-- the value of the bytes from an offset on -/
  dec : Ty → (Nat → B) → W
  undef : B
  sel : W → Nat

variable {S : Sem}

/-- The contents of an object: its size, its bytes, and the output of the alloca node. -/
structure Ob (S : Sem) where
  size : Nat
  bytes : Nat → S.B
  src : Nat

abbrev Mem (S : Sem) := Obj → Option (Ob S)

/-- The operations of the graph: `none` is undefined behaviour, or that the program ends there. -/
abbrev Ops (S : Sem) := Nat → List S.W → Mem S → Option (List S.W × Mem S)

/-- States: values of outputs, the addresses of the new allocas, memory, and the number of the next alloca. -/
structure St (S : Sem) where
  e : Nat → S.W
  el : Nat → Nat → S.W
  m : Mem S
  c : Nat

def setL {α : Type} (e : Nat → α) : List (Nat × α) → Nat → α
  | [] => e
  | (n, d) :: ps => fun x => if x = n then d else setL e ps x

def St.set (s : St S) (ps : List (Nat × S.W)) : St S := { s with e := setL s.e ps }

def Mem.set (m : Mem S) (o : Obj) (ob : Ob S) : Mem S := fun x => if x = o then some ob else m x

/-- The memory after new objects have been allocated: `loc n 0` and those of the new allocas. -/
def Mem.allocate (m : Mem S) (n src size : Nat) (els : List Ty) : Mem S
  | .ext k => m (.ext k)
  | .loc n' i =>
    if n' = n then
      match i with
      | 0 => some ⟨size, fun _ => S.undef, src⟩
      | i + 1 => (els[i]?).map fun t => ⟨allocSize t, fun _ => S.undef, src⟩
    else m (.loc n' i)

/-- The bytes a load or store accesses. -/
def access (m : Mem S) (w : S.W) (ty : Ty) : Option (Obj × Nat × Ob S) :=
  match S.ptr w with
  | none => none
  | some (o, off) =>
    match m o with
    | none => none
    | some ob => if 0 ≤ off ∧ off + storeSize ty ≤ ob.size then some (o, off.toNat, ob) else none

/-- The bytes of an object after a store. -/
def Ob.write (ob : Ob S) (ty : Ty) (off : Nat) (w : S.W) : Ob S :=
  { ob with bytes := fun k => if off ≤ k ∧ k < off + storeSize ty then S.enc ty w (k - off) else ob.bytes k }

def iter (f : St S → Option (St S × Bool)) (vars : List LV) : Nat → St S → Option (St S)
  | 0, _ => none
  | k + 1, s =>
    match f s with
    | none => none
    | some (s1, true) => iter f vars k (s1.set (vars.map fun v => (v.pre, s1.e v.post)))
    | some (s1, false) => some (s1.set (vars.map fun v => (v.out, s1.e v.post)))

def thetaBody (run : List Node → St S → Option (St S)) (body : List Node) (p : Nat) (s : St S) : Option (St S × Bool) :=
  match run body s with
  | none => none
  | some s1 => some (s1, S.sel (s1.e p) != 0)

/-- One node; `run` executes regions, `k` bounds the number of iterations. -/
def step (ops : Ops S) (run : List Node → St S → Option (St S)) (k : Nat) (nd : Node) (s : St S) : Option (St S) :=
  match nd with
  | .op f args outs =>
    match ops f (args.map s.e) s.m with
    | some (rs, m) => if rs.length = outs.length then some { s.set (outs.zip rs) with m := m } else none
    | none => none
  | .alloca n ty cnt els =>
    some { s.set [(n, S.addr (.loc s.c 0) 0)] with
      el := fun n' i => if n' = n then S.addr (.loc s.c (i + 1)) 0 else s.el n' i
      m := s.m.allocate s.c n (cnt * allocSize ty) els
      c := s.c + 1 }
  | .gep base ty idxs out =>
    match S.ptr (s.e base), gepOff ty idxs with
    | some (o, off), some d => some (s.set [(out, S.addr o (off + d))])
    | _, _ => none
  | .elem n i out => some (s.set [(out, s.el n i)])
  | .load a ty out =>
    match access s.m (s.e a) ty with
    | some (_, off, ob) => some (s.set [(out, S.dec ty fun k => ob.bytes (off + k))])
    | none => none
  | .store a v ty =>
    match access s.m (s.e a) ty with
    | some (o, off, ob) => some { s with m := s.m.set o (ob.write ty off (s.e v)) }
    | none => none
  | .barrier i o => some (s.set [(o, s.e i)])
  | .gamma p brs exits =>
    match brs[S.sel (s.e p)]? with
    | some br =>
      match run br s with
      | some s1 => some (s1.set (exits.filterMap fun x => (x.2[S.sel (s.e p)]?).map fun r => (x.1, s1.e r)))
      | none => none
    | none => none
  | .theta vars body p => iter (thetaBody run body p) vars k (s.set (vars.map fun v => (v.pre, s.e v.inp)))

/-- Execution of the nodes of a region. `none`: not finished within the bound, or undefined behaviour. -/
def run (ops : Ops S) : Nat → List Node → St S → Option (St S)
  | 0, _, _ => none
  | _ + 1, [], s => some s
  | k + 1, nd :: ns, s =>
    match step ops (run ops k) k nd s with
    | some s => run ops k ns s
    | none => none

/-! ## Values without the addresses of some objects -/

/-- The object is not one of the alloca executions in `X`. -/
def Outside (X : Nat → Prop) (o : Obj) : Prop := ∀ n i, o = .loc n i → ¬ X n

/-- Which values and bytes do not contain addresses of the objects of `X`. -/
structure Know (S : Sem) where
  word : (Nat → Prop) → S.W → Prop
  byte : (Nat → Prop) → S.B → Prop

def Know.mem (K : Know S) (X : Nat → Prop) (m : Mem S) : Prop := ∀ o, Outside X o → ∀ ob, m o = some ob → ∀ k, K.byte X (ob.bytes k)

/-- What is assumed of values and operations. -/
structure Know.Laws (K : Know S) (ops : Ops S) : Prop where
  ptr_addr : ∀ o d, S.ptr (S.addr o d) = some (o, d)
  /-- the address of an object does not contain other addresses -/
  addr : ∀ X o d, Outside X o → K.word X (S.addr o d)
  ptr : ∀ X w o d, K.word X w → S.ptr w = some (o, d) → Outside X o
  mono : ∀ X Y w, (∀ n, X n → Y n) → K.word Y w → K.word X w
  monoB : ∀ X Y b, (∀ n, X n → Y n) → K.byte Y b → K.byte X b
  undef : ∀ X, K.byte X S.undef
  enc : ∀ X ty w k, K.word X w → K.byte X (S.enc ty w k)
  dec : ∀ X ty (f : Nat → S.B), (∀ k, k < storeSize ty → K.byte X (f k)) → K.word X (S.dec ty f)
  /-- a value is read from its own bytes -/
  dec_ext : ∀ ty (f g : Nat → S.B), (∀ k, k < storeSize ty → f k = g k) → S.dec ty f = S.dec ty g
  /-- operations do not access objects whose addresses they are not given: if neither the operands nor the other objects contain addresses
  of `X`, then neither do the results; the objects of `X` are not changed, and do not matter -/
  op : ∀ X f as m rs m', (∀ a ∈ as, K.word X a) → K.mem X m → ops f as m = some (rs, m') →
    (∀ r ∈ rs, K.word X r) ∧ K.mem X m' ∧ (∀ o, ¬ Outside X o → m' o = m o) ∧
    ∀ m2, (∀ o, Outside X o → m2 o = m o) → ∃ m2', ops f as m2 = some (rs, m2') ∧
      (∀ o, Outside X o → m2' o = m' o) ∧ ∀ o, ¬ Outside X o → m2' o = m2 o

/-! ## Conditions the code does not check -/

/-- A load or store of an element of a split alloca is not larger than the element. -/
def AccessOk (pl : List Info) (s : St S) (a : Nat) (ty : Ty) : Prop :=
  ∀ n off ob, S.ptr (s.e a) = some (.loc n 0, off) → s.m (.loc n 0) = some ob →
    ∀ i ∈ pl, i.n = ob.src → ∀ g ∈ i.cons, ∀ t, (g.2, t) ∈ elements i.ty → gepOff i.ty g.2 = some off → storeSize ty ≤ allocSize t

def iterOk (P : St S → Prop) (f : St S → Option (St S × Bool)) (vars : List LV) : Nat → St S → Prop
  | 0, _ => True
  | k + 1, s => P s ∧ ∀ s1, f s = some (s1, true) → iterOk P f vars k (s1.set (vars.map fun v => (v.pre, s1.e v.post)))

/-- The GetElementPtr operations that are replaced get the address of the alloca (of its last execution), and the offset is the same in
the type of the alloca. -/
def okStep (pl : List Info) (ok : List Node → St S → Prop) (run : List Node → St S → Option (St S)) (k : Nat) (nd : Node) (s : St S) : Prop :=
  match nd with
  | .gep base ty idxs out => ∀ i, consumer pl out = some i → s.e base = s.e i.n ∧ gepOff ty idxs = gepOff i.ty idxs
  | .load a ty _ => AccessOk pl s a ty
  | .store a _ ty => AccessOk pl s a ty
  | .gamma p brs _ => ∀ br : List Node, brs[S.sel (s.e p)]? = some br → ok br s
  | .theta vars body p => iterOk (ok body) (thetaBody run body p) vars k (s.set (vars.map fun v => (v.pre, s.e v.inp)))
  | _ => True

/-- The conditions hold for all the nodes that are executed. -/
def ok (ops : Ops S) (pl : List Info) : Nat → List Node → St S → Prop
  | 0, _, _ => True
  | _ + 1, [], _ => True
  | k + 1, nd :: ns, s =>
    okStep pl (ok ops pl k) (run ops k) k nd s ∧ ∀ s', step ops (run ops k) k nd s = some s' → ok ops pl k ns s'

/-! ## Well-formed functions -/

mutual

/-- The outputs of the split allocas and of their consumers are only defined by them, and nothing has been split before. -/
def Node.wf (pl : List Info) : Node → Prop
  | .op _ _ outs => ∀ i ∈ pl, i.n ∉ outs
  | .alloca n ty cnt els => els = [] ∧ ∀ i ∈ pl, i.n = n → i.ty = ty ∧ cnt = 1
  | .gep _ _ idxs out => ∀ i ∈ pl, i.n ≠ out ∧ ∀ g ∈ i.cons, g.1 = out → g.2 = idxs
  | .elem _ _ _ => False
  | .load _ _ out => ∀ i ∈ pl, i.n ≠ out
  | .store _ _ _ => True
  | .barrier _ o => ∀ i ∈ pl, i.n ≠ o
  | .gamma _ brs exits => wfB pl brs ∧ ∀ i ∈ pl, ∀ x ∈ exits, i.n ≠ x.1
  | .theta vars body _ => wfL pl body ∧ ∀ i ∈ pl, ∀ v ∈ vars, i.n ≠ v.pre ∧ i.n ≠ v.out

def wfL (pl : List Info) : List Node → Prop
  | [] => True
  | n :: ns => n.wf pl ∧ wfL pl ns

def wfB (pl : List Info) : List (List Node) → Prop
  | [] => True
  | b :: bs => wfL pl b ∧ wfB pl bs

end

end Jlm.Opt.Sroa
