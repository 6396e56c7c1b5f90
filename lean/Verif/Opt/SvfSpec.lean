import Verif.Opt.SvfModel
import Mathlib.Data.List.Forall2

/-!
# Store value forwarding: execution of graphs

Memory states carry memories. A memory covers some of the addresses; a load reads the one memory among its states that covers the
address, a store writes to all of them. Values may be undefined (`none`), and an undefined value may be replaced by any other one.
-/

namespace Jlm.Opt.Svf

/-- Words, memories and operations. -/
structure Sem where
  W : Type
  M : Type
  /-- the value at an address, of a type; `none` if the memory does not cover it, `some none` if it is undefined -/
  rd : M → W → Ty → Option (Option W)
  /-- writing -/
  wr : M → W → Ty → Option W → M
  /-- `MemoryStateJoinOperation` -/
  jn : List M → M
  /-- the accesses do not overlap -/
  disj : W → Ty → W → Ty → Prop
  /-- the region a predicate selects; theta nodes are repeated if it is not 0 -/
  sel : W → Nat
  /-- one memory is the other one, with some undefined values replaced -/
  leM : M → M → Prop

/-- The value of an output. -/
inductive D (S : Sem)
  | w (x : Option S.W)
  | mem (m : S.M)

variable {S : Sem}

/-- A possibly undefined value may be replaced by another one. -/
def leV {α : Type} (x y : Option α) : Prop := x = none ∨ x = y

def D.le : D S → D S → Prop
  | .w x, .w y => leV x y
  | .mem m, .mem m' => S.leM m m'
  | _, _ => False

/-- The operations of the graph: `none` is undefined behaviour, or that the program ends there. -/
structure Ops (S : Sem) where
  fn : Nat → List (D S) → Option (List (D S))
  /-- the address and the memory of an alloca -/
  alloc : Nat → List (D S) → Option (Option S.W × S.M)

/-- What is assumed of memories and operations. -/
structure Sem.Laws (S : Sem) (ops : Ops S) : Prop where
  /-- what has been written is read -/
  rd_wr : ∀ (m : S.M) (a : S.W) (t : Ty) (v : Option S.W) (c : Option S.W), S.rd (S.wr m a t v) a t = some c → c = v
  /-- other addresses keep their values -/
  rd_other : ∀ (m : S.M) (a : S.W) (t : Ty) (a' : S.W) (t' : Ty) (v : Option S.W), S.disj a t a' t' →
    S.rd (S.wr m a' t' v) a t = S.rd m a t
  /-- a join reads one of the memories -/
  rd_jn : ∀ (ms : List S.M) (a : S.W) (t : Ty) (c : Option S.W), S.rd (S.jn ms) a t = some c → ∃ m ∈ ms, S.rd m a t = some c
  refl : ∀ m : S.M, S.leM m m
  /-- a replaced memory covers the same addresses, and has the same values where they are defined -/
  rd_le : ∀ (m m' : S.M) (a : S.W) (t : Ty), S.leM m m' →
    (S.rd m a t = none → S.rd m' a t = none) ∧ (∀ c, S.rd m a t = some c → ∃ c', S.rd m' a t = some c' ∧ leV c c')
  wr_le : ∀ (m m' : S.M) (a : S.W) (t : Ty) (v v' : Option S.W), S.leM m m' → leV v v' → S.leM (S.wr m a t v) (S.wr m' a t v')
  jn_le : ∀ ms ms' : List S.M, List.Forall₂ S.leM ms ms' → S.leM (S.jn ms) (S.jn ms')
  /-- operations do not notice that undefined values have been replaced, except by less undefined results -/
  fn_le : ∀ (f : Nat) (as as' rs : List (D S)), List.Forall₂ D.le as as' → ops.fn f as = some rs →
    ∃ rs', ops.fn f as' = some rs' ∧ List.Forall₂ D.le rs rs'
  alloc_le : ∀ (f : Nat) (as as' : List (D S)) (x : Option S.W) (m : S.M), List.Forall₂ D.le as as' → ops.alloc f as = some (x, m) →
    ∃ x' m', ops.alloc f as' = some (x', m') ∧ leV x x' ∧ S.leM m m'
  /-- new memory is undefined -/
  alloc_undef : ∀ (f : Nat) (as : List (D S)) (x : Option S.W) (m : S.M) (a : S.W) (t : Ty) (c : Option S.W),
    ops.alloc f as = some (x, m) → S.rd m a t = some c → c = none

abbrev Env (S : Sem) := Nm → D S

/-- Some outputs get new values. -/
def setL (e : Env S) : List (Nm × D S) → Env S
  | [] => e
  | (n, d) :: ps => fun x => if x = n then d else setL e ps x

def Src.eval (e : Env S) : Src → D S
  | .nm n => e n
  | .undef => .w none

def memsOf (e : Env S) : List Nm → Option (List S.M)
  | [] => some []
  | n :: ns => match e n, memsOf e ns with
    | .mem m, some ms => some (m :: ms)
    | _, _ => none

/-- The value a load reads: exactly one of the memories covers the address. -/
def loadVal (ms : List S.M) (a : S.W) (t : Ty) : Option (Option S.W) :=
  match ms.filterMap (S.rd · a t) with
  | [c] => some c
  | _ => none

/-- A loop: `f` executes the region, and returns whether it is to be repeated. -/
def iter (f : Env S → Option (Env S × Bool)) (vars : List LV) : Nat → Env S → Option (Env S)
  | 0, _ => none
  | k + 1, e =>
    match f e with
    | none => none
    | some (e1, true) => iter f vars k (setL e1 (vars.map fun v => (v.pre, v.post.eval e1)))
    | some (e1, false) => some (setL e1 (vars.map fun v => (v.out, v.post.eval e1)))

/-- The result of the region of a theta node. -/
def thetaBody (run : List Node → Env S → Option (Env S)) (body : List Node) (p : Nm) (e : Env S) : Option (Env S × Bool) :=
  match run body e with
  | none => none
  | some e1 => match e1 p with
    | .w (some c) => some (e1, S.sel c != 0)
    | _ => none

/-- One node; `run` executes regions, `k` bounds the number of iterations. -/
def step (ops : Ops S) (run : List Node → Env S → Option (Env S)) (k : Nat) (nd : Node) (e : Env S) : Option (Env S) :=
  match nd with
  | .op f args outs =>
    match ops.fn f (args.map e) with
    | some rs => if rs.length = outs.length then some (setL e (outs.zip rs)) else none
    | none => none
  | .store _ a v t sts =>
    match e a, e v, memsOf e (sts.map (·.1)) with
    | .w (some l), .w x, some ms => some (setL e ((sts.map (·.2)).zip (ms.map fun m => .mem (S.wr m l t x))))
    | _, _, _ => none
  | .load _ a out t sts =>
    match e a, memsOf e (sts.map (·.1)) with
    | .w (some l), some ms =>
      match loadVal ms l t with
      | some c => some (setL e ((out, .w c) :: (sts.map (·.2)).zip (ms.map .mem)))
      | none => none
    | _, _ => none
  | .join _ ins out =>
    match memsOf e ins with
    | some ms => some (setL e [(out, .mem (S.jn ms))])
    | none => none
  | .alloca f args a st =>
    match ops.alloc f (args.map e) with
    | some (x, m) => some (setL e [(a, .w x), (st, .mem m)])
    | none => none
  | .fwd out src sts => some (setL e ((out, src.eval e) :: sts.map fun s => (s.2, e s.1)))
  | .gamma _ p brs exits =>
    match e p with
    | .w (some c) =>
      match brs[S.sel c]? with
      | some br =>
        match run br e with
        | some e1 => some (setL e1 (exits.map fun x => (x.1, ((x.2[S.sel c]?).getD .undef).eval e1)))
        | none => none
      | none => none
    | _ => none
  | .theta _ vars body p => iter (thetaBody run body p) vars k (setL e (vars.map fun v => (v.pre, v.inp.eval e)))

/-- Execution of the nodes of a region. `none`: not finished within the bound, or undefined behaviour. -/
def run (ops : Ops S) : Nat → List Node → Env S → Option (Env S)
  | 0, _, _ => none
  | _ + 1, [], e => some e
  | k + 1, nd :: ns, e =>
    match step ops (run ops k) k nd e with
    | some e' => run ops k ns e'
    | none => none

/-! ## Right answers of the alias analysis -/

/-- The answers are right for the address `l` the load reads, for one store or load; `none`: the load is not executed. -/
def AliasOk (q : Query) (l : Option S.W) (nd : Node) (e : Env S) : Prop :=
  match nd with
  | .store id a _ t _ => ∀ l', l = some l' → ∀ b, e a = .w (some b) →
      (q.alias id = .no → S.disj l' q.ty b t) ∧ (q.alias id = .must → b = l')
  | .load id a _ t _ =>
      (id = q.id → t = q.ty ∧ ∃ l', l = some l' ∧ e a = .w (some l')) ∧
      (q.alias id = .must → ∀ l', l = some l' → ∀ b, e a = .w (some b) → b = l')
  | _ => True

/-- Every iteration satisfies `P` at its beginning. -/
def iterOk (P : Env S → Prop) (f : Env S → Option (Env S × Bool)) (vars : List LV) : Nat → Env S → Prop
  | 0, _ => True
  | k + 1, e => P e ∧ ∀ e1, f e = some (e1, true) → iterOk P f vars k (setL e1 (vars.map fun v => (v.pre, v.post.eval e1)))

/-- The nodes inside of gamma and theta nodes. In the theta nodes of `reset`, the address may be another one in every iteration. -/
def okStep (q : Query) (reset : Nat → Prop) (ok : Option S.W → List Node → Env S → Prop) (run : List Node → Env S → Option (Env S))
    (k : Nat) (l : Option S.W) (nd : Node) (e : Env S) : Prop :=
  match nd with
  | .gamma _ p brs _ => ∀ c br, e p = .w (some c) → brs[S.sel c]? = some br → ok l br e
  | .theta id vars body p =>
    iterOk (fun e => (reset id ∧ ∃ l', ok l' body e) ∨ ok l body e) (thetaBody run body p) vars k
      (setL e (vars.map fun v => (v.pre, v.inp.eval e)))
  | nd => AliasOk q l nd e

/-- The answers are right for all the stores and loads that are executed. -/
def ok (ops : Ops S) (q : Query) (reset : Nat → Prop) : Nat → Option S.W → List Node → Env S → Prop
  | 0, _, _, _ => True
  | _ + 1, _, [], _ => True
  | k + 1, l, nd :: ns, e =>
    okStep q reset (ok ops q reset k) (run ops k) k l nd e ∧ ∀ e', step ops (run ops k) k nd e = some e' → ok ops q reset k l ns e'

end Jlm.Opt.Svf
