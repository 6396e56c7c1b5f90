import Verif.Opt.IobeModel
/-
Specification for the elimination of I/O barriers: which loads lose their barrier, and what it means
that a graph does not load from an invalid address.
-/
namespace Jlm.Opt.Iobe
variable (G : Graph)

/-! ## Which loads -/

/-- region `s` is the subregion of a lambda or phi node of region `r` -/
def Sub (r s : Nat) : Prop := ∃ n ∈ G.nodes r, G.op n = .lambda s ∨ G.op n = .phi s

/-- regions that are reached from region `r` through lambda and phi nodes -/
inductive Within (r : Nat) : Nat → Prop where
  | refl : Within r r
  | step {s t : Nat} : Within r s → Sub G s t → Within r t

/-- node `n` is in a region that the pass looks at -/
def Seen (n : Nat) : Prop := ∃ r, Within G 0 r ∧ n ∈ G.nodes r

/-- the nodes and regions form a tree: a node is in one region, once; a region belongs to one node
and is nested deeper -/
structure Tree (rank : Nat → Nat) : Prop where
  nodup : ∀ r, (G.nodes r).Nodup
  home : ∀ r r' n, n ∈ G.nodes r → n ∈ G.nodes r' → r = r'
  owner : ∀ s n m, (G.op n = .lambda s ∨ G.op n = .phi s) → (G.op m = .lambda s ∨ G.op m = .phi s) → n = m
  rank : ∀ r s, Sub G r s → rank s < rank r

/-- operands come from the same region; a load has an address, a barrier a value and an I/O state -/
structure Scoped : Prop where
  out : ∀ r, ∀ n ∈ G.nodes r, ∀ p i, Org.out p i ∈ G.inp n → p ∈ G.nodes r
  arg : ∀ r, ∀ n ∈ G.nodes r, ∀ q i, Org.arg q i ∈ G.inp n → q = r
  load : ∀ r, ∀ n ∈ G.nodes r, ∀ z, G.op n = .load z → ∃ o l, G.inp n = o :: l
  barrier : ∀ r, ∀ n ∈ G.nodes r, G.op n = .barrier → ∃ o io, G.inp n = [o, io]

/-- `b` is the barrier in front of the address of `n` -/
def Barred (n b : Nat) : Prop := ∃ i, G.addr n = .out b i ∧ G.op b = .barrier

/-- load `n` of at least `size` bytes says that `o` can be dereferenced: `n` reads from `o` without
barrier, or through a barrier whose I/O state is the argument of a function -/
def Says (n : Nat) (o : Org) (size : Nat) : Prop :=
  (∃ z, G.op n = .load z ∧ size ≤ z) ∧
    ((G.addr n = o ∧ ∀ b, ¬Barred G n b) ∨ ∃ b, Barred G n b ∧ G.addr b = o ∧ ∃ r i, G.io b = .arg r i ∧ G.lam r = true)

/-- load `n` loses its barrier `b` -/
def Loses (n b : Nat) : Prop :=
  Seen G n ∧ ∃ z, G.op n = .load z ∧ Barred G n b ∧ ∃ m, Seen G m ∧ Says G m (G.addr b) z

/-! ## Executions of the body of a function

A region is executed in any order in which the producers of the operands of a node come first. A node
that stops (a call that exits) never delivers its outputs. -/

/-- all nodes that deliver the operands of `n` are in `l` -/
def Ready (r : Nat) (l : List Nat) (n : Nat) : Prop := n ∈ G.nodes r ∧ ∀ p i, Org.out p i ∈ G.inp n → p ∈ l

/-- `l` are the nodes that have delivered their outputs at some point of an execution -/
inductive Run (r : Nat) (stop : Nat → Prop) : List Nat → Prop where
  | nil : Run r stop []
  | step {l : List Nat} {n : Nat} : Run r stop l → Ready G r l n → n ∉ l → ¬stop n → Run r stop (l ++ [n])

/-- some execution starts node `n` -/
def Starts (r : Nat) (stop : Nat → Prop) (n : Nat) : Prop := ∃ l, Run G r stop l ∧ Ready G r l n

/-- no execution loads from an address that is not valid: `val` are the values of the outputs in this
call, `ok v z` says that `z` bytes at `v` can be read (during the whole call) -/
def Safe (r : Nat) (stop : Nat → Prop) {V : Type} (val : Org → V) (ok : V → Nat → Prop) : Prop :=
  ∀ n z, Starts G r stop n → G.op n = .load z → ok (val (G.addr n)) z

/-- the graph has the shape that the translation of a function gives it: there is an order of the nodes
in which operands come first, the nodes on the I/O chain (among them all nodes that may stop) follow each
other on the chain, and a load whose address is behind a barrier comes after no I/O node later
than the I/O state of the barrier -/
structure ProgramOrder (r : Nat) (pos : Nat → Nat) (isIO : Nat → Prop) (stop : Nat → Prop) : Prop where
  operands : ∀ n ∈ G.nodes r, ∀ p i, Org.out p i ∈ G.inp n → pos p < pos n
  stops : ∀ n ∈ G.nodes r, stop n → isIO n
  kinds : ∀ n, isIO n → (∀ z, G.op n ≠ .load z) ∧ G.op n ≠ .barrier
  chain : ∀ k ∈ G.nodes r, isIO k → ∀ j ∈ G.nodes r, isIO j → pos j < pos k →
    ∃ m i, Org.out m i ∈ G.inp k ∧ isIO m ∧ pos j ≤ pos m
  distinct : ∀ j ∈ G.nodes r, ∀ k ∈ G.nodes r, isIO j → isIO k → pos j = pos k → j = k
  state : ∀ b ∈ G.nodes r, G.op b = .barrier → ∀ k i, G.io b = .out k i → isIO k
  barrier : ∀ n ∈ G.nodes r, (∃ z, G.op n = .load z) → ∀ b, Barred G n b →
    ∀ j ∈ G.nodes r, isIO j → pos j < pos n → ∃ k i, G.io b = .out k i ∧ isIO k ∧ pos j ≤ pos k

end Jlm.Opt.Iobe
