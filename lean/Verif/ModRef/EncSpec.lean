import Verif.ModRef.EncModel

/-!
# What functions do, before and after memory states are encoded

Before encoding, nodes access the memory one after the other. After it, there is no order and no memory: a node sees what its operands
carry, and an execution is any assignment of values to the outputs that fits to all nodes.
-/

namespace Jlm.ModRef.Enc

/-- The contents of the memory nodes. -/
abbrev Memory (D : Type) := Nat → D

/-- Values before, memory before, values after, memory after. -/
abbrev Rel (D : Type) := List D → Memory D → List D → Memory D → Prop

/-- What the operations do. -/
structure Sem (D : Type) where
  op : Nat → Rel D
  /-- alloca and malloc: contents of the new memory -/
  new : Nat → List D → List D → D → Prop
  /-- contents of memory that does not exist -/
  none : D
  /-- new memory together with older memory of the same memory node -/
  join : D → D → D
  /-- which alternative of a gamma node a predicate selects; theta nodes go on unless it is 0 -/
  sel : D → Nat
  /-- the memory nodes that the operation may access -/
  foot : Nat → List Nat

/-- Operations access only their memory nodes and allocate nothing. -/
structure Sem.Local {D : Type} (S : Sem D) : Prop where
  keeps : ∀ o v M v' M', S.op o v M v' M' → ∀ m, m ∉ S.foot o → M' m = M m
  stays : ∀ o v M v' M', S.op o v M v' M' → ∀ m, M m = S.none → M' m = S.none
  depends : ∀ o v M v' M' N, S.op o v M v' M' → (∀ m ∈ S.foot o, N m = M m) →
    S.op o v N v' fun m => if m ∈ S.foot o then M' m else N m
  join_none : ∀ d, S.join d S.none = d

/-- Iterations of a loop. -/
inductive Iter {D : Type} (S : Sem D) (body : Rel D) : List D → Memory D → List D → Memory D → Prop
  | stop {v : List D} {M : Memory D} {p : D} {v' : List D} {M' : Memory D} : body v M (p :: v') M' → S.sel p = 0 → Iter S body v M v' M'
  | again {v : List D} {M : Memory D} {p : D} {v1 : List D} {M1 : Memory D} {v' : List D} {M' : Memory D} :
      body v M (p :: v1) M1 → S.sel p ≠ 0 → Iter S body v1 M1 v' M' → Iter S body v M v' M'

/-- Gamma and theta nodes with regions that do `rs`. -/
def Sem.struct {D : Type} (S : Sem D) (theta : Bool) (rs : List (Rel D)) : Rel D := fun v M v' M' =>
  if theta then ∃ r, rs[0]? = some r ∧ Iter S r v M v' M'
  else ∃ p w r, v = p :: w ∧ rs[S.sel p]? = some r ∧ r w M v' M'

/-! ## Before -/

/-- The part of the memory that can be seen. -/
def mask {D : Type} (S : Sem D) (set : List Nat) (M : Memory D) : Memory D := fun m => if m ∈ set then M m else S.none

mutual
/-- A node with its values given by `env`. A structural node sees the memory in its mod/ref set: other memory in it is local to it. -/
def stepP {D : Type} (S : Sem D) (env : Nat → D) : Node → Memory D → Memory D → Prop
  | .simple n => fun M M' =>
      if n.alloc then ∃ c, S.new n.op (n.ins.map env) (n.outs.map env) c ∧ M' = fun m => if m ∈ n.set then S.join c (M m) else M m
      else S.op n.op (n.ins.map env) M (n.outs.map env) M'
  | .struct h rs => fun M M' =>
      ∃ M1, S.struct h.theta (relsP S h.set rs) (h.ins.map env) (mask S h.set M) (h.outs.map env) M1 ∧
        M' = fun m => if m ∈ h.set then M1 m else M m

/-- The nodes of a region, one after the other. -/
def runP {D : Type} (S : Sem D) (env : Nat → D) : List Node → Memory D → Memory D → Prop
  | [] => fun M M' => M = M'
  | n :: ns => fun M M' => ∃ M1, stepP S env n M M1 ∧ runP S env ns M1 M'

def relP {D : Type} (S : Sem D) (set : List Nat) : Region → Rel D
  | .mk args nodes results => fun v M v' M' =>
      ∃ env M1, args.map env = v ∧ results.map env = v' ∧ runP S env nodes (mask S set M) M1 ∧ M' = mask S set M1

def relsP {D : Type} (S : Sem D) (set : List Nat) : List Region → List (Rel D)
  | [] => []
  | r :: rs => relP S set r :: relsP S set rs
end

/-! ## After -/

/-- What a memory state carries, given the arguments and the outputs of the nodes. -/
def value {D : Type} (α : Memory D) (σ : Nat → Nat → D) : Out → D
  | .arg m => α m
  | .node i m => σ i m

/-- The memory that a node sees: what its operands carry. -/
def view {D : Type} (S : Sem D) (val : Out → D) (states : List (Nat × Out)) : Memory D := fun m =>
  match states.lookup m with
  | some o => val o
  | none => S.none

mutual
/-- Do the values and memory states around a node fit to it? `out`: the memory states it produces. -/
def holds {D : Type} (S : Sem D) (env : Nat → D) (val : Out → D) (out : Memory D) : GNode → Prop
  | .simple n states =>
      if n.alloc then ∃ c, S.new n.op (n.ins.map env) (n.outs.map env) c ∧ ∀ m ∈ n.set, out m = c
      else ∃ M', S.op n.op (n.ins.map env) (view S val states) (n.outs.map env) M' ∧ ∀ p ∈ states, out p.1 = M' p.1
  | .struct h states rs =>
      ∃ M', S.struct h.theta (relsG S rs) (h.ins.map env) (view S val states) (h.outs.map env) M' ∧ ∀ p ∈ states, out p.1 = M' p.1
  | .join m a b => out m = S.join (val a) (val b)

def allHold {D : Type} (S : Sem D) (env : Nat → D) (α : Memory D) (σ : Nat → Nat → D) (i : Nat) : List GNode → Prop
  | [] => True
  | n :: ns => holds S env (value α σ) (σ i) n ∧ allHold S env α σ (i + 1) ns

def relG {D : Type} (S : Sem D) : GRegion → Rel D
  | .mk args nodes results states => fun v α v' β =>
      ∃ env σ, args.map env = v ∧ results.map env = v' ∧ allHold S env α σ 0 nodes ∧
        β = fun m => match states.lookup m with
          | some (some o) => value α σ o
          | _ => S.none

def relsG {D : Type} (S : Sem D) : List GRegion → List (Rel D)
  | [] => []
  | r :: rs => relG S r :: relsG S rs
end

/-! ## Encoded functions -/

/-- The argument for a memory node that enters the region, or the output of an earlier node: `m` is among `entry`, `i < k`. -/
def Out.ok (entry : List Nat) (k : Nat) : Out → Prop
  | .arg m => m ∈ entry
  | .node i _ => i < k

mutual
/-- The operands of each node exist and come from before the node: there are no cycles. -/
def okNode (entry : List Nat) (k : Nat) : GNode → Prop
  | .simple _ states => ∀ p ∈ states, p.2.ok entry k
  | .struct _ states rs => (∀ p ∈ states, p.2.ok entry k) ∧ okRegions (states.map (·.1)) rs
  | .join _ a b => a.ok entry k ∧ b.ok entry k

def okNodes (entry : List Nat) (k : Nat) : List GNode → Prop
  | [] => True
  | n :: ns => okNode entry k n ∧ okNodes entry (k + 1) ns

/-- There is exactly one state for each memory node that entered. -/
def okRegion (entry : List Nat) : GRegion → Prop
  | .mk _ nodes _ states => okNodes entry 0 nodes ∧ states.map (·.1) = entry ∧ ∀ p ∈ states, ∃ o, p.2 = some o ∧ o.ok entry nodes.length

def okRegions (entry : List Nat) : List GRegion → Prop
  | [] => True
  | r :: rs => okRegion entry r ∧ okRegions entry rs
end

/-! ## Mod/ref sets that fit -/

/-- Memory nodes that exist after a node. -/
def availAfter (A : Nat → Prop) : Node → Nat → Prop
  | .simple n => fun m => A m ∨ (n.alloc = true ∧ m ∈ n.set)
  | .struct _ _ => A

mutual
/-- `A`: the memory nodes that exist before the node. The mod/ref sets of simple nodes contain what they may access, an alloca or malloc node
has at most one memory node. -/
def fitsNode (foot : Nat → List Nat) (A : Nat → Prop) : Node → Prop
  | .simple n => if n.alloc then n.set.length ≤ 1 else ∀ m ∈ foot n.op, m ∈ n.set
  | .struct h rs => fitsRegions foot (fun m => m ∈ h.set ∧ A m) h.set rs

def fitsNodes (foot : Nat → List Nat) (A : Nat → Prop) : List Node → Prop
  | [] => True
  | n :: ns => fitsNode foot A n ∧ fitsNodes foot (availAfter A n) ns

/-- Memory that is allocated in the region is either not seen outside of it, or the memory node exists outside already. -/
def fitsRegion (foot : Nat → List Nat) (A : Nat → Prop) (set : List Nat) : Region → Prop
  | .mk _ nodes _ => fitsNodes foot A nodes ∧ ∀ n, Node.simple n ∈ nodes → n.alloc = true → ∀ m ∈ n.set, m ∈ set → A m

def fitsRegions (foot : Nat → List Nat) (A : Nat → Prop) (set : List Nat) : List Region → Prop
  | [] => True
  | r :: rs => fitsRegion foot A set r ∧ fitsRegions foot A set rs
end

end Jlm.ModRef.Enc
