import Verif.Mem.NormModel
/-
What a region with memory operations means. The compiler may emit the nodes of a region in any order
that respects the edges; memory is a single array of bytes. Nothing here mentions the
normalizations.
-/
namespace Jlm.Mem

/-- A memory: the content of every byte. -/
abbrev Memory (B : Type) := Nat → B

/-- The meaning of the operations: values `V`, bytes `B`. -/
structure Sem (V B : Type) where
  /-- the address a pointer value stands for -/
  addr : V → Nat
  /-- the number of bytes of a type, `GetTypeStoreSize` -/
  size : Nat → Nat
  /-- the bytes that represent a value of a type -/
  enc : Nat → V → Nat → B
  /-- the value that bytes represent -/
  dec : Nat → (Nat → B) → V
  dec_local : ∀ t f g, (∀ i, i < size t → f i = g i) → dec t f = dec t g
  /-- the address that an alloca returns -/
  place : Nat → V
  /-- any other operation: a function of its operands and the memory ... -/
  other : Nat → List V → Memory B → List V × Memory B
  /-- ... that looks at the bytes `rd` only -/
  rd : Nat → List V → Nat → Prop
  /-- ... and changes the bytes `wr` only -/
  wr : Nat → List V → Nat → Prop
  frame : ∀ c vs m b, ¬ wr c vs b → (other c vs m).2 b = m b
  local_values : ∀ c vs m m', (∀ b, rd c vs b → m b = m' b) → (other c vs m).1 = (other c vs m').1
  local_memory : ∀ c vs m m', (∀ b, rd c vs b → m b = m' b) → ∀ b, wr c vs b →
    (other c vs m).2 b = (other c vs m').2 b

variable {V B : Type} (sem : Sem V B)

/-- byte `b` belongs to a value of type `t` at address `a` -/
def Sem.within (t : Nat) (a : V) (b : Nat) : Prop := sem.addr a ≤ b ∧ b < sem.addr a + sem.size t

instance (t : Nat) (a : V) (b : Nat) : Decidable (sem.within t a b) := by
  unfold Sem.within; infer_instance

/-- what an operation computes and does to the memory -/
def Sem.apply : Op → List V → Memory B → List V × Memory B
  | .load t, [a], m => ([sem.dec t fun i => m (sem.addr a + i)], m)
  | .store t, [a, v], m =>
    ([], fun b => if sem.within t a b then sem.enc t v (b - sem.addr a) else m b)
  | .alloca a, _, m => ([sem.place a], m)
  | .other c, vs, m => sem.other c vs m
  | _, _, m => ([], m)

/-- the bytes an operation reads -/
def Sem.reads : Op → List V → Nat → Prop
  | .load t, [a], b => sem.within t a b
  | .other c, vs, b => sem.rd c vs b
  | _, _, _ => False

/-- the bytes an operation may write -/
def Sem.writes : Op → List V → Nat → Prop
  | .store t, [a, _], b => sem.within t a b
  | .other c, vs, b => sem.wr c vs b
  | _, _, _ => False

/-- values of the outputs and content of the memory -/
structure State (V B : Type) where
  env : VOut → V
  mem : Memory B

/-- execute one node -/
def step (s : State V B) (x : Node) : State V B where
  env := fun o => match o with
    | .arg i => s.env (.arg i)
    | .res i k =>
      if i = x.id then ((sem.apply x.op (x.vals.map s.env) s.mem).1[k]?).getD (s.env (.res i k))
      else s.env (.res i k)
  mem := (sem.apply x.op (x.vals.map s.env) s.mem).2

/-- execute nodes one after the other -/
def exec (s : State V B) (l : List Node) : State V B := l.foldl (step sem) s

/-! ### Graphs -/

def SOut.owners : SOut → List Nat
  | .arg _ => []
  | .res n _ => [n]

def VOut.owners : VOut → List Nat
  | .arg _ => []
  | .res n _ => [n]

/-- the nodes whose outputs a node uses -/
def Node.needs (x : Node) : List Nat :=
  x.vals.flatMap VOut.owners ++ x.states.flatMap SOut.owners

/-- the nodes whose outputs are results of the region -/
def Graph.needs (G : Graph) : List Nat :=
  G.vres.flatMap VOut.owners ++ G.sres.flatMap SOut.owners

/-- every node comes after the nodes whose outputs it uses -/
def Topo (l : List Node) : Prop :=
  ∀ p x q, l = p ++ x :: q → ∀ i ∈ x.needs, i ∈ p.map Node.id

/-- node `x` has a state output number `k` -/
def Node.hasState (x : Node) (k : Nat) : Prop :=
  match x.op with
  | .load _ => k < x.states.length
  | .store _ => k < x.states.length
  | .split r => k < r
  | .other _ => True
  | _ => k = 0

/-- node `x` has a value output number `k` -/
def Node.hasValue (x : Node) (k : Nat) : Prop :=
  match x.op with
  | .load _ => k = 0
  | .alloca _ => k = 0
  | .other _ => True
  | _ => False

/-- a region: nodes are numbered, in topological order, results exist, and only outputs that nodes
have are used -/
structure Graph.Wf (G : Graph) : Prop where
  nodup : (G.nodes.map Node.id).Nodup
  topo : Topo G.nodes
  results : ∀ i ∈ G.needs, i ∈ G.nodes.map Node.id
  states : ∀ x ∈ G.nodes, ∀ k,
    (SOut.res x.id k ∈ G.sres ∨ ∃ y ∈ G.nodes, SOut.res x.id k ∈ y.states) → x.hasState k
  values : ∀ x ∈ G.nodes, ∀ k,
    (VOut.res x.id k ∈ G.vres ∨ ∃ y ∈ G.nodes, VOut.res x.id k ∈ y.vals) → x.hasValue k

/-- keep a node if something behind it needs it -/
def keep (x : Node) (acc : List Node × List Nat) : List Node × List Nat :=
  if x.id ∈ acc.2 then (x :: acc.1, x.needs ++ acc.2) else acc

/-- the nodes that are not dead: `Region::prune`, which NodeReduction runs after its reductions and
which dead node elimination subsumes. -/
def Graph.live (G : Graph) : List Node := (G.nodes.foldr keep ([], G.needs)).1

/-- An order in which the compiler may emit the nodes of a region. -/
def Schedule (G : Graph) (l : List Node) : Prop := l.Perm G.live ∧ Topo l

/-! ### Races -/

/-- From state operand `k` of node `i` to the state outputs that continue it: the states of loads and
stores correspond to each other, merges collect states, splits distribute them. -/
def passes (op : Op) (i k : Nat) : SOut → Prop
  | .arg _ => False
  | .res j k' => j = i ∧
    match op with
    | .load _ => k' = k
    | .store _ => k' = k
    | .merge => k' = 0
    | .join => k' = 0
    | .exitMerge => k' = 0
    | .split _ => True
    | .other _ => True
    | .alloca _ => False
    | .undef => False

/-- Memory state `o'` continues memory state `o`. -/
inductive Flow (nodes : List Node) : SOut → SOut → Prop
  | refl (o : SOut) : Flow nodes o o
  | step {o o' o'' : SOut} {x : Node} {k : Nat} : x ∈ nodes → x.states[k]? = some o →
      passes x.op x.id k o' → Flow nodes o' o'' → Flow nodes o o''

/-- The memory state edges put `x` before `y`. -/
def Before (nodes : List Node) (x y : Node) : Prop :=
  ∃ k, ∃ o ∈ y.states, Flow nodes (.res x.id k) o

/-- two nodes access the same byte, one of them writes it -/
def Conflict (F : VOut → V) (x y : Node) : Prop :=
  ∃ b, (sem.writes x.op (x.vals.map F) b ∧
      (sem.reads y.op (y.vals.map F) b ∨ sem.writes y.op (y.vals.map F) b)) ∨
    (sem.reads x.op (x.vals.map F) b ∧ sem.writes y.op (y.vals.map F) b)

/-- The values of the outputs in the topological order in which the nodes are listed. -/
def Graph.final (G : Graph) (s : State V B) : State V B := exec sem s G.live

/-- The memory state edges order all accesses to the same memory; what is visible (`vis`) after the
region counts as an access behind all others. -/
structure RaceFree (s : State V B) (vis : Nat → Prop) (G : Graph) : Prop where
  pairs : ∀ p x q y r, G.live = p ++ x :: (q ++ y :: r) →
    Conflict sem (G.final sem s).env x y → Before G.nodes x y
  exit : ∀ x ∈ G.live, ∀ b, vis b → sem.writes x.op (x.vals.map (G.final sem s).env) b →
    ∃ k, ∃ o ∈ G.sres, Flow G.nodes (.res x.id k) o

/-- `G'` computes what `G` computes, in whatever orders they are emitted. -/
def SameResults (s : State V B) (vis : Nat → Prop) (G G' : Graph) : Prop :=
  ∀ l l', Schedule G l → Schedule G' l' →
    G'.vres.map (exec sem s l').env = G.vres.map (exec sem s l).env ∧
    ∀ b, vis b → (exec sem s l').mem b = (exec sem s l).mem b

/-- A rewrite of a region is correct: the new region is one, has no races either, and computes the
same. -/
def Correct (s : State V B) (vis : Nat → Prop) (G G' : Graph) : Prop :=
  G'.Wf ∧ RaceFree sem s vis G' ∧ SameResults sem s vis G G'

end Jlm.Mem
