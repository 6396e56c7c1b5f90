import Verif.Opt.IvrModel

/-!
# Model of common node elimination

`jlm/llvm/opt/CommonNodeElimination.cpp` (cpp below). The mark phase assigns outputs to congruence
sets, the divert phase moves the users of every output to the leader of its set.

Simplifications:

* A congruence set is identified with its leader: the leader of a set never changes and a leader
  never leaves its set (cpp:107-109), so sets and leaders correspond one to one.
* `getSetFor` throws if the output has no set (cpp:149-156); here such an output is its own leader
  (`ld`). In the repaired program all outputs that are available to a node have been marked when it
  is visited (`MarkEnv.marked` in CneMark).
* The hash table of gamma exit variables (cpp:762-854) is the list of its entries in the order of
  insertion: exit variables that are congruent have the same hash, and with open addressing the one
  that was inserted first is found first.
* `none` is an exception or a null dereference.
* Operations determine their number of outputs (asserted in cpp:513).

`strict = false` is /repo; `strict = true` is a repaired program: the search for a leader considers
nothing but nodes that have been visited in the current traversal of the region, which is what the
comment in cpp:97-98 promises.
-/

namespace Jlm.Opt

/-- A simple node: `rvsdg::SimpleNode` (jlm/rvsdg/simple-node.hpp:18). -/
structure SNode where
  op : Op
  ins : List Out
  outs : List Out
  deriving DecidableEq

/-- The simple nodes of a region. -/
def Nodes.simples : Nodes → List SNode
  | .nil => []
  | .cons (.simple op ins outs) ns => ⟨op, ins, outs⟩ :: ns.simples
  | .cons _ ns => ns.simples

namespace Cne

/-- What /repo leaves open. -/
structure Config where
  /-- `false`: /repo; `true`: the repaired program -/
  strict : Bool
  /-- types of outputs, compared in `areOutputsCongruent` (cpp:283) -/
  ty : Out → Nat
  /-- enumeration order of the users of the members of a congruence set (cpp:490-532): first outputs
  of the nodes, for the congruence sets at that time and the outputs of the node to be marked -/
  order : (Out → Option Out) → List Out → List Out

/-- `CommonNodeElimination::Context` (cpp:82-266): the leader of the congruence set of an output. -/
abbrev Ctx := Out → Option Out

/-- `getLeader(getSetFor(o))` (cpp:149, cpp:209). -/
def ld (c : Ctx) (o : Out) : Out := (c o).getD o

def Ctx.set (c : Ctx) (o s : Out) : Ctx := fun x => if x = o then some s else c x

/-- `getOrCreateSetForLeader` (cpp:177-201). -/
def lead (c : Ctx) (o : Out) : Ctx := c.set o o

/-- `addFollower` (cpp:224-250); it throws if the follower is a leader. -/
def follow (c : Ctx) (s o : Out) : Option Ctx := if c o = some o then none else some (c.set o s)

/-- `markNodeAsLeader` (cpp:343-350). -/
def leadAll (c : Ctx) (outs : List Out) : Ctx := outs.foldl lead c

/-- `markNodesAsCongruent` (cpp:363-380). -/
def followAll : Ctx → List Out → List Out → Option Ctx
  | c, l :: ls, o :: os => (follow c (ld c l) o).bind fun c' => followAll c' ls os
  | c, _, _ => some c

/-- `checkNodesCongruent` (cpp:303-336) and `areOutputsCongruent` (cpp:277-290). -/
def congruent (cfg : Config) (c : Ctx) (n m : SNode) : Bool :=
  n.op == m.op && n.outs.length == m.outs.length && n.ins.length == m.ins.length &&
    (n.ins.zip m.ins).all fun p => cfg.ty p.1 == cfg.ty p.2 && ld c p.1 == ld c p.2

/-- Is the node its own leader (`tryGetLeaderNode(node) == &node`, cpp:391-409)? -/
def isOwn (c : Ctx) (n : SNode) : Bool :=
  match n.outs with
  | [] => true
  | o :: _ => c o == some o

/-- `tryGetLeaderNode` (cpp:391-409) for a node that is not its own leader: the node with the leader
of the first output among its outputs. -/
def tryLeader (c : Ctx) (scope : List SNode) (n : SNode) : Option SNode :=
  match n.outs with
  | [] => none
  | o :: _ => (c o).bind fun l => scope.find? fun m => m.outs.contains l

/-- Nodes that a node that has to find a leader is compared with: the leaders among the top nodes
(cpp:440-448) or the users of the congruence set of the origin of the first input (cpp:490-532). -/
def candidates (cfg : Config) (c : Ctx) (scope tops : List SNode) (n : SNode) : List SNode :=
  if n.ins.isEmpty then tops
  else (cfg.order c n.outs).filterMap fun o => scope.find? fun m => m.outs.head? == some o

/-- `markSimpleTopNode` (cpp:414-454) and `markSimpleNode` (cpp:465-537). `all`: the simple nodes of
the region, `prev`: those visited before in this traversal, `tops`: the leaders among the top nodes
visited so far. -/
def markSimple (cfg : Config) (all prev tops : List SNode) (n : SNode) (c : Ctx) :
    Option (Ctx × List SNode) :=
  let scope := if cfg.strict then prev else all
  let tops' := if n.ins.isEmpty then tops ++ [n] else tops
  if isOwn c n then some (c, tops')
  else if (tryLeader c scope n).any fun m => congruent cfg c n m then some (c, tops)
  else
    match (candidates cfg c scope tops n).find? fun m =>
      m.outs != n.outs && isOwn c m && congruent cfg c n m with
    | some m => (followAll c m.outs n.outs).map fun c' => (c', tops)
    | none => some (leadAll c n.outs, tops')

/-- Keys of a partition of arguments: the set of an input, or unique (cpp:656-673). -/
inductive Key
  | set (o : Out)
  | unique (k : Nat)
  deriving DecidableEq

/-- `partitionArguments` (cpp:571-617), with `newSets` as a list, and whether congruence sets were
created. -/
def partitionGo : Ctx → List ((Option Out × Key) × Out) → Bool → List (Out × Key) → Option (Ctx × Bool)
  | c, _, ch, [] => some (c, ch)
  | c, news, ch, (a, key) :: rest =>
      match news.find? fun e => e.1 = (c a, key) with
      | some e =>
          if c a = some e.2 then partitionGo c news ch rest
          else (follow c e.2 a).bind fun c' => partitionGo c' news ch rest
      | none => partitionGo (lead c a) (((c a, key), a) :: news) (ch || c a != some a) rest

def partition (c : Ctx) (args : List (Out × Key)) : Option (Ctx × Bool) := partitionGo c [] false args

/-- Keys of arguments that belong to inputs (cpp:660-664). -/
def inputKeys (c : Ctx) (args ins : List Out) : List (Out × Key) :=
  (args.zip ins).map fun p => (p.1, .set (ld c p.2))

/-- Keys of arguments without inputs (cpp:665-671). -/
def uniqueKeys (args : List Out) : List (Out × Key) := args.zipIdx.map fun p => (p.1, .unique p.2)

/-- One iteration of the loop of `markSubregionsFromInputs` (cpp:637-682): marks one subregion with
`mark` if its arguments changed, and says whether they did. -/
def markSub (mark : Ctx → Option Ctx) (args : List (Out × Key)) (c : Ctx) : Option (Ctx × Bool) :=
  if args.isEmpty then (mark c).map fun c' => (c', false)
  else
    (partition c args).bind fun r =>
      if r.2 then (mark r.1).map fun c' => (c', true) else some (r.1, false)

/-- `tryGetGammaExitVarCongruenceSet` (cpp:693-722) for exit variable `k`: an exception (the match
variable has no input), not invariant, or the shared congruence set. -/
def exitOrigin (c : Ctx) (ins : List Out) (k : Nat) : Option Out → Regions → Option (Option Out)
  | sh, .nil => some sh
  | sh, .cons args results _ rest =>
      match results[k]? with
      | none => some none
      | some r =>
          if args.head? = some r then none
          else
            match Ivr.externalOrigin ins args r with
            | none => some none
            | some i =>
                match sh with
                | none => exitOrigin c ins k (some (ld c i)) rest
                | some s => if s = ld c i then exitOrigin c ins k sh rest else some none

/-- `areGammaExitVariablesCongruent` (cpp:761-780). -/
def exitsCongruent (c : Ctx) (k j : Nat) : Regions → Bool
  | .nil => true
  | .cons _ results _ rest =>
      ((results[k]?).map (ld c) == (results[j]?).map (ld c)) && exitsCongruent c k j rest

/-- `lookupOrInsertGammaExitVarInHashmap` (cpp:823-854). -/
def lookupExit (c : Ctx) (subs : Regions) (table : List (Out × Nat)) (o : Out) (k : Nat) :
    Option (Ctx × List (Out × Nat)) :=
  match table.find? fun e => exitsCongruent c k e.2 subs with
  | some e => (follow c e.1 o).map fun c' => (c', table)
  | none => some (lead c o, table ++ [(o, k)])

/-- The body of the loop of `markGamma` (cpp:872-926). -/
def markExit (c : Ctx) (ins outs : List Out) (subs : Regions) (table : List (Out × Nat)) (o : Out)
    (k : Nat) : Option (Ctx × List (Out × Nat)) :=
  if c o = some o then some (c, table ++ [(o, k)])
  else
    match (c o).bind fun l => if l ∈ outs then some (outs.idxOf l) else none with
    | some j => if exitsCongruent c k j subs then some (c, table) else lookupExit c subs table o k
    | none =>
        match exitOrigin c ins k none subs with
        | none => none
        | some (some s) => (follow c s o).map fun c' => (c', table)
        | some none => lookupExit c subs table o k

/-- The loop of `markGamma` (cpp:872-926). -/
def markExits (ins outs : List Out) (subs : Regions) : Ctx → List (Out × Nat) → List (Out × Nat) → Option Ctx
  | c, _, [] => some c
  | c, table, (o, k) :: rest =>
      (markExit c ins outs subs table o k).bind fun r => markExits ins outs subs r.1 r.2 rest

/-- The loop of `markTheta` (cpp:951-966). Every iteration but the last one creates a congruence set
for an argument, so it is run at most as often as there are arguments, plus one. -/
def thetaLoop (mark : Ctx → Option Ctx) (args posts : List Out) : Nat → Ctx → Option Ctx
  | 0, _ => none
  | fuel + 1, c =>
      (partition c (inputKeys c args posts)).bind fun r =>
        if r.2 then (mark r.1).bind fun c' => thetaLoop mark args posts fuel c' else some r.1

/-- `isOutputInvariant` (cpp:971-1009), for loop variable `k`. -/
def thetaInvariant (c : Ctx) (ins args posts : List Out) (k : Nat) : Option Out :=
  match posts[k]? with
  | none => none
  | some p =>
      if args[k]? = some p then ins[k]?
      else if args[k]? = some (ld c p) then ins[k]?
      else if ld c p ∈ args then
        let j := args.idxOf (ld c p)
        match posts[j]? with
        | none => none
        | some q =>
            if q = ld c p then ins[j]?
            else if ld c q = ld c p then ins[j]?
            else none
      else none

/-- The loop over the outputs of the theta node (cpp:1011-1040); `onlyInv` is
`onlyUpdateLoopInvariants`. -/
def markLoopOuts (ins args posts : List Out) (onlyInv : Bool) :
    Ctx → List (Out × Out) → List (Out × Nat) → Option Ctx
  | c, _, [] => some c
  | c, table, (o, k) :: rest =>
      match thetaInvariant c ins args posts k with
      | some i => (follow c (ld c i) o).bind fun c' => markLoopOuts ins args posts onlyInv c' table rest
      | none =>
          if onlyInv then markLoopOuts ins args posts onlyInv c table rest
          else
            match posts[k]? with
            | none => none
            | some p =>
                match table.find? fun e => e.1 = ld c p with
                | some e => (follow c e.2 o).bind fun c' => markLoopOuts ins args posts onlyInv c' table rest
                | none => markLoopOuts ins args posts onlyInv (lead c o) (table ++ [(ld c p, o)]) rest

mutual

/-- One iteration of the loop of `markRegion` (cpp:1096-1115), with `markGamma` (cpp:863-927),
`markTheta` (cpp:939-1041) and `markStructuralNode` (cpp:1043-1081). -/
def markNode (cfg : Config) : Node → List SNode → List SNode → List SNode → Ctx → Option (Ctx × List SNode)
  | .simple op ins outs, all, prev, tops, c => markSimple cfg all prev tops ⟨op, ins, outs⟩ c
  | .gamma _ ins outs subs, _, _, tops, c =>
      (markRegions cfg subs ins c).bind fun c1 =>
        (markExits ins outs subs c1 [] outs.zipIdx).map fun c2 => (c2, tops)
  | .theta ins outs args _ posts sub, _, _, tops, c =>
      (markSub (fun c => markNodes cfg sub sub.simples [] [] c) (inputKeys c args ins) c).bind fun r =>
        (if r.2 then thetaLoop (fun c => markNodes cfg sub sub.simples [] [] c) args posts
            (args.length + 1) r.1
          else some r.1).bind fun c2 =>
            (markLoopOuts ins args posts (!r.2) c2 [] outs.zipIdx).map fun c3 => (c3, tops)
  | .lambda ins args params _ out sub, _, _, tops, c =>
      (markSub (fun c => markNodes cfg sub sub.simples [] [] c)
        (uniqueKeys params ++ inputKeys c args ins) c).map fun r => (leadAll r.1 [out], tops)
  | .phi ins args recs _ outs sub, _, _, tops, c =>
      (markSub (fun c => markNodes cfg sub sub.simples [] [] c)
        (uniqueKeys recs ++ inputKeys c args ins) c).map fun r => (leadAll r.1 outs, tops)
  | .delta _ _ _ out _, _, _, tops, c => some (leadAll c [out], tops)

/-- `markRegion` (cpp:1091-1117). -/
def markNodes (cfg : Config) : Nodes → List SNode → List SNode → List SNode → Ctx → Option Ctx
  | .nil, _, _, _, c => some c
  | .cons n ns, all, prev, tops, c =>
      (markNode cfg n all prev tops c).bind fun r =>
        markNodes cfg ns all (prev ++ (Nodes.cons n .nil).simples) r.2 r.1

/-- `markSubregionsFromInputs` (cpp:637-682) for a gamma node: the match variable of a branch
(argument 0) has no input. -/
def markRegions (cfg : Config) : Regions → List Out → Ctx → Option Ctx
  | .nil, _, c => some c
  | .cons args _ sub rest, ins, c =>
      (markSub (fun c => markNodes cfg sub sub.simples [] [] c)
        (uniqueKeys (args.take 1) ++ inputKeys c args.tail ins) c).bind fun r => markRegions cfg rest ins r.1

end

/-- The mark phase (cpp:1213-1216): all imports are leaders (`markGraphImports`, cpp:547-558). -/
def markGraph (cfg : Config) (g : Graph) : Option Ctx :=
  markNodes cfg g.body g.body.simples [] [] (leadAll (fun _ => none) g.imports)

mutual

/-- The divert phase: `divertInRegion` (cpp:1172-1197), `divertInStructuralNode` (cpp:1136-1170) and
`divertOutput` (cpp:1121-1131): the users of every output are moved to its leader. Nothing happens
inside of delta nodes. -/
def divertNode (τ : Out → Out) : Node → Node
  | .simple op ins outs => .simple op (ins.map τ) outs
  | .gamma pred ins outs subs => .gamma (τ pred) (ins.map τ) outs (divertRegions τ subs)
  | .theta ins outs args pred posts sub =>
      .theta (ins.map τ) outs args (τ pred) (posts.map τ) (divertNodes τ sub)
  | .lambda ins args params results out sub =>
      .lambda (ins.map τ) args params (results.map τ) out (divertNodes τ sub)
  | .phi ins args recs results outs sub =>
      .phi (ins.map τ) args recs (results.map τ) outs (divertNodes τ sub)
  | .delta ins args result out sub => .delta (ins.map τ) args result out sub

def divertNodes (τ : Out → Out) : Nodes → Nodes
  | .nil => .nil
  | .cons n ns => .cons (divertNode τ n) (divertNodes τ ns)

def divertRegions (τ : Out → Out) : Regions → Regions
  | .nil => .nil
  | .cons args results sub rest => .cons args (results.map τ) (divertNodes τ sub) (divertRegions τ rest)

end

/-- The divert phase for a whole module (cpp:1218-1220). -/
def divertGraph (τ : Out → Out) (g : Graph) : Graph :=
  ⟨g.imports, divertNodes τ g.body, g.exports.map τ⟩

/-- `CommonNodeElimination::Run` (cpp:1202-1223). -/
def run (cfg : Config) (g : Graph) : Option Graph :=
  (markGraph cfg g).map fun c => divertGraph (ld c) g

end Cne

end Jlm.Opt
