import Verif.Hls.GammaModel
/-
Specification for the conversion of gamma nodes: what a region computes, and what a network of branches and muxes does
with streams of tokens.
-/
namespace Jlm.Hls.Gam

/-- values of operations, and the number of the subregion that a value of a predicate with `k` alternatives selects -/
structure Interp (V : Type) where
  dflt : V
  fn : Nat → List V → V
  ctl : Nat → V → Nat
  ctl_lt : ∀ k v, 0 < k → ctl k v < k

variable {V : Type} (I : Interp V)

/-! ## Regions: only the selected subregion is evaluated -/

mutual
  def Node.eval : Node → List V → List V
    | .op f _ args, env => [I.fn f (args.map fun i => env.getD i I.dflt)]
    | .gamma p es _ _ regs, env =>
      regs.eval (I.ctl regs.length (env.getD p I.dflt)) (es.map fun i => env.getD i I.dflt)
  def Nodes.eval : Nodes → List V → List V
    | .nil rs, env => rs.map fun i => env.getD i I.dflt
    | .cons n ns, env => ns.eval (env ++ n.eval env)
  def Regs.eval : Regs → Nat → List V → List V
    | .nil, _, _ => []
    | .cons r _, 0, xs => r.eval xs
    | .cons _ rs, s + 1, xs => rs.eval s xs
end

mutual
  /-- operands are earlier in the list of `n` positions; the node has `m` outputs -/
  def Node.wf : Node → Nat → Nat → Prop
    | .op _ _ args, n, m => (∀ i ∈ args, i < n) ∧ m = 1
    | .gamma p es _ nout regs, n, m => p < n ∧ (∀ i ∈ es, i < n) ∧ m = nout ∧ 0 < regs.length ∧ regs.wf es.length nout
  def Nodes.wf : Nodes → Nat → Nat → Prop
    | .nil rs, n, m => (∀ i ∈ rs, i < n) ∧ m = rs.length
    | .cons nd ns, n, m => ∃ k, nd.wf n k ∧ ns.wf (n + k) m
  def Regs.wf : Regs → Nat → Nat → Prop
    | .nil, _, _ => True
    | .cons r rs, n, m => r.wf n m ∧ rs.wf n m
end

/-! ## Streams: the tokens of a wire in the order in which they appear -/

abbrev Stream (V : Type) := Nat → Option V

/-- the number of `j < i` with `c j` -/
def count (c : Nat → Bool) : Nat → Nat
  | 0 => 0
  | i + 1 => count c i + if c i then 1 else 0

/-- token `j` of the predicate selects alternative `s` -/
def hits (k s : Nat) (p : Stream V) (j : Nat) : Bool :=
  match p j with
  | some w => I.ctl k w == s
  | none => false

open Classical in
/-- a branch takes a token of the predicate and a token of the value, and gives the latter to the selected output -/
noncomputable def branchStream (k s : Nat) (p x : Stream V) : Stream V := fun j =>
  if h : ∃ i, hits I k s p i = true ∧ count (hits I k s p) i = j then x (choose h) else none

/-- a mux takes a token of the predicate and the next token of the selected alternative; if it discards, it takes a token of each alternative -/
def muxStream (discard : Bool) (p : Stream V) (alts : List (Stream V)) : Stream V := fun j =>
  match p j with
  | none => none
  | some w =>
    let s := I.ctl alts.length w
    if discard then
      if alts.all fun a => (a j).isSome then alts.getD s (fun _ => none) j else none
    else alts.getD s (fun _ => none) (count (hits I alts.length s p) j)

/-- an operation takes a token of each operand -/
def pointwise (f : Nat) (args : List (Stream V)) : Stream V := fun j =>
  if args.all fun a => (a j).isSome then some (I.fn f (args.map fun a => (a j).getD I.dflt)) else none

def wire (ss : List (Stream V)) (i : Nat) : Stream V := ss.getD i fun _ => none

noncomputable def HNode.stream (ss : List (Stream V)) : HNode → Stream V
  | .op f args => pointwise I f (args.map (wire ss))
  | .branch k s p x => branchStream I k s (wire ss p) (wire ss x)
  | .mux d p alts => muxStream I d (wire ss p) (alts.map (wire ss))

/-- the streams of all wires -/
noncomputable def run (l : List HNode) (ss : List (Stream V)) : List (Stream V) := l.foldl (fun ss n => ss ++ [n.stream I ss]) ss

/-- `st` carries, in order, the values `v i` of the instances `i` with `c i` -/
def Rep (c : Nat → Bool) (v : Nat → V) (st : Stream V) : Prop := ∀ i, c i = true → st (count c i) = some (v i)

end Jlm.Hls.Gam
