/-
Model of jlm/hls/backend/rvsdg2rhls/GammaConversion.cpp: gamma nodes become networks of branch and mux nodes.

Simplifications: the nodes of a region are a list in which operands come first; an operand is the position of its origin in the list of
the arguments of the region followed by the outputs of its nodes. A node that is not a gamma is an operation with one output; loops are operations
with a flag. The result is a list of nodes with one output each, added at the end of the region; each output of a branch is one
entry of the list. `substitutionMap` is the list `env` of the positions that stand for the outputs of a region. Only one predicate
type per number of subregions. Structural nodes other than gammas, thetas and loops (an error in the code) do not occur.
-/
namespace Jlm.Hls.Gam

mutual
  inductive Node where
    | op (f : Nat) (isLoop : Bool) (args : List Nat)
    /-- predicate, entry variables, whether some output is a state, number of outputs, subregions -/
    | gamma (pred : Nat) (entries : List Nat) (state : Bool) (nout : Nat) (regs : Regs)
  /-- the nodes of a region, and the origins of its results -/
  inductive Nodes where
    | nil (results : List Nat)
    | cons (n : Node) (ns : Nodes)
  inductive Regs where
    | nil
    | cons (r : Nodes) (rs : Regs)
end

def Regs.length : Regs → Nat
  | .nil => 0
  | .cons _ rs => rs.length + 1

mutual
  /-- `CanGammaNodeBeSpeculative`, cpp:81-117 -/
  def Node.canSpeculate : Node → Bool
    | .op _ isLoop _ => !isLoop
    | .gamma _ _ state _ regs => if state then false else regs.canSpeculate
  def Nodes.canSpeculate : Nodes → Bool
    | .nil _ => true
    | .cons n ns => n.canSpeculate && ns.canSpeculate
  def Regs.canSpeculate : Regs → Bool
    | .nil => true
    | .cons r rs => r.canSpeculate && rs.canSpeculate
end

inductive HNode where
  | op (f : Nat) (args : List Nat)
  /-- output `s` of a branch with `k` alternatives -/
  | branch (k s pred x : Nat)
  | mux (discard : Bool) (pred : Nat) (alts : List Nat)

/-- the position that stands for the output at position `i` -/
def look (env : List Nat) (i : Nat) : Nat := env.getD i 0

mutual
  /-- `ConvertGammaNodeWithoutSpeculation` and `ConvertGammaNodeWithSpeculation`, cpp:16-79, for a gamma with entries `es` (after the
  substitution); the nodes are added from position `base` on -/
  def Node.convert : Node → List Nat → Nat → List HNode × List Nat
    | .op f _ args, env, base => ([.op f (args.map (look env))], [base])
    | .gamma p es state nout regs, env, base =>
      let spec := (Node.gamma p es state nout regs).canSpeculate
      let r := regs.convert spec regs.length 0 (look env p) (es.map (look env)) base
      (r.1 ++ (List.range nout).map fun j => .mux spec (look env p) (r.2.map fun o => look o j),
        (List.range nout).map fun j => base + r.1.length + j)
  def Nodes.convert : Nodes → List Nat → Nat → List HNode × List Nat
    | .nil rs, env, _ => ([], rs.map (look env))
    | .cons n ns, env, base =>
      let r := n.convert env base
      let q := ns.convert (env ++ r.2) (base + r.1.length)
      (r.1 ++ q.1, q.2)
  /-- the subregions from number `s` on, out of `k` -/
  def Regs.convert : Regs → Bool → Nat → Nat → Nat → List Nat → Nat → List HNode × List (List Nat)
    | .nil, _, _, _, _, _, _ => ([], [])
    | .cons r rs, spec, k, s, p, es, base =>
      let bs := if spec then [] else es.map fun e => HNode.branch k s p e
      let env := if spec then es else (List.range es.length).map fun i => base + i
      let q := r.convert env (base + bs.length)
      let t := rs.convert spec k (s + 1) p es (base + bs.length + q.1.length)
      (bs ++ q.1 ++ t.1, q.2 :: t.2)
end

end Jlm.Hls.Gam
