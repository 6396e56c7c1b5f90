import Verif.Opt.DneModel

/-!
# Model of invariant value redirection (`jlm/llvm/opt/InvariantValueRedirection.cpp`)

`Ivr.run` models `InvariantValueRedirection::Run`: users of gamma exit variables, theta loop
variables and load memory states that are invariant become users of the value itself, and
post values of theta loop variables that go through a gamma correlated with the theta predicate
are routed around the gamma.

Simplifications.
* `redirectCallOutputs` (cpp:281-399) is not modelled: the model is the pass with
  `Configuration::enableCallOutputRedirection == false`
  (jlm/llvm/opt/InvariantValueRedirection.hpp).
* Volatile loads are not redirected (cpp:401-412 handles them like non-volatile loads).
* The subregions of all nodes of a region are handled before the outputs of the first of them are
  redirected; in /repo this is interleaved (cpp:131-171). The subregions of a node do not depend on
  the redirections in the enclosing region.
* The order in which `region.Nodes()` and `Output::Users()` are enumerated is a parameter.
-/

namespace Jlm.Opt

/-- Positions are counted from 0. -/
def Nodes.get? : Nodes → Nat → Option Node
  | .nil, _ => none
  | .cons n _, 0 => some n
  | .cons _ ns, i + 1 => ns.get? i

/-- `rvsdg::TryGetOwnerNode` (jlm/rvsdg/node.hpp:907) for an output of the region. -/
def Nodes.owner (o : Out) : Nodes → Option Node
  | .nil => none
  | .cons n ns => if o ∈ n.outs then some n else ns.owner o

/-- Arguments and results of branch `b`. -/
def Regions.branch : Regions → Nat → Option (List Out × List Out)
  | .nil, _ => none
  | .cons args results _ _, 0 => some (args, results)
  | .cons _ _ _ rest, b + 1 => rest.branch b

/-- `StructuralNode::nsubregions()`. -/
def Regions.length : Regions → Nat
  | .nil => 0
  | .cons _ _ _ rest => rest.length + 1

namespace Ivr

/-- `InvariantValueRedirection::Configuration`
(jlm/llvm/opt/InvariantValueRedirection.hpp:86-93), and the things that are parameters of the
model. -/
structure Config where
  /-- `enableGammaOutputRedirection` -/
  gamma : Bool
  /-- `enableThetaOutputRedirection` -/
  theta : Bool
  /-- `enableThetaGammaCorrelationRedirection` -/
  thetaGamma : Bool
  /-- `enableLoadMemoryStateRedirection` -/
  load : Bool
  /-- `false`: /repo; `true`: the repaired program, which checks that the alternatives of the two
  branches select different roles, and that the correlated gamma is controlled by the predicate of
  the theta -/
  strict : Bool
  /-- is the (input of the) loop variable with this output of type `IOStateType`? (cpp:207) -/
  io : Out → Bool
  /-- enumeration order of the nodes of a region (cpp:131) -/
  order : Nodes → List Nat
  /-- enumeration order of the users of an output of a region, as positions of nodes
  (jlm/llvm/opt/PredicateCorrelation.cpp:140) -/
  users : Nodes → Out → List Nat

/-- `GetExternalOriginOf` (jlm/rvsdg/gamma.cpp:514-532): if the branch result `r` is argument
`k + 1` of the branch, the origin of entry variable `k`. -/
def externalOrigin (ins args : List Out) (r : Out) : Option Out := (args.tail.zip ins).lookup r

/-- The loop of `GetGammaInvariantOrigin` (jlm/rvsdg/gamma.cpp:540-547): do all branches give the
same external origin for result `k`? -/
def sameOrigin (ins : List Out) (k : Nat) (o : Out) : Regions → Bool
  | .nil => true
  | .cons args results _ rest =>
      ((results[k]?).bind (externalOrigin ins args) == some o) && sameOrigin ins k o rest

/-- `GetGammaInvariantOrigin` (jlm/rvsdg/gamma.cpp:508-550) for exit variable `k`. -/
def gammaInvariantOrigin (ins : List Out) (k : Nat) : Regions → Option Out
  | .nil => none
  | .cons args results _ rest =>
      match (results[k]?).bind (externalOrigin ins args) with
      | none => none
      | some o => if sameOrigin ins k o rest then some o else none

/-- `redirectGammaOutputs` (cpp:189-199): pairs of an output and its new origin. -/
def gammaRedirects (ins outs : List Out) (subs : Regions) : List (Out × Out) :=
  outs.zipIdx.filterMap fun p => (gammaInvariantOrigin ins p.2 subs).map fun o => (p.1, o)

/-- `redirectThetaOutputs` (cpp:201-214). -/
def thetaRedirects (io : Out → Bool) : List Out → List Out → List Out → List Out → List (Out × Out)
  | i :: ins, o :: outs, a :: args, p :: posts =>
      if !io o && p == a then (o, i) :: thetaRedirects io ins outs args posts
      else thetaRedirects io ins outs args posts
  | _, _, _, _ => []

/-- `redirectLoadMemoryStates` (cpp:401-412). -/
def loadRedirects (alive : Out → Bool) (ins outs : List Out) : List (Out × Out) :=
  if (outs.head?).any alive then [] else outs.tail.zip ins.tail

/-- The redirections of the outputs of a node (cpp:131-171); `alive` is `!IsDead()`. -/
def redirects (cfg : Config) (alive : Out → Bool) : Node → List (Out × Out)
  | .simple op ins outs =>
      if op.kind = .load && cfg.load then loadRedirects alive ins outs else []
  | .gamma _ ins outs subs => if cfg.gamma then gammaRedirects ins outs subs else []
  | .theta ins outs args _ posts _ => if cfg.theta then thetaRedirects cfg.io ins outs args posts else []
  | _ => []

/-- `Output::divert_users` for each of a list of outputs with new origins. -/
def tau (rs : List (Out × Out)) (x : Out) : Out := (rs.lookup x).getD x

/-! ### theta-gamma predicate correlation (jlm/llvm/opt/PredicateCorrelation.cpp) -/

/-- Value of the constant that produces an output (PredicateCorrelation.cpp:38-68). -/
def constOf (ns : Nodes) (o : Out) : Option Nat :=
  match ns.owner o with
  | some (.simple op _ _) =>
      match op.kind with
      | .const c => some c
      | _ => none
  | _ => none

/-- `extractConstantAlternatives` (PredicateCorrelation.cpp:30-75) for exit variable `k`. -/
def alternatives (k : Nat) : Regions → Option (List Nat)
  | .nil => some []
  | .cons _ results sub rest =>
      match (results[k]?).bind (constOf sub) with
      | none => none
      | some c => (alternatives k rest).map (c :: ·)

/-- `ThetaGammaPredicateCorrelation` (jlm/llvm/opt/PredicateCorrelation.hpp). -/
inductive Corr
  | control (gamma : Node) (alts : List Nat)
  | matchConstant (gamma : Node) (mapping : List (Nat × Nat)) (default : Nat) (alts : List Nat)
  | matchCorr (gamma : Node)

/-- `MatchOperation::alternative` (jlm/rvsdg/control.hpp:185-193). -/
def alternative (mapping : List (Nat × Nat)) (default value : Nat) : Nat :=
  (mapping.lookup value).getD default

/-- Alternatives of the output `o` if it belongs to a gamma node. -/
def gammaAlternatives (o : Out) : Option Node → Option (Node × List Nat)
  | some (.gamma pred ins outs subs) =>
      (alternatives (outs.idxOf o) subs).map fun alts => (.gamma pred ins outs subs, alts)
  | _ => none

/-- `computeControlConstantCorrelation` (PredicateCorrelation.cpp:77-98). -/
def controlCorrelation (pred : Out) (sub : Nodes) : Option Corr :=
  (gammaAlternatives pred (sub.owner pred)).map fun p => .control p.1 p.2

/-- Match operation that produces an output, with its operand. -/
def matchOf (pred : Out) (sub : Nodes) : Option (List (Nat × Nat) × Nat × Out) :=
  match sub.owner pred with
  | some (.simple op [i] _) =>
      match op.kind with
      | .matchOp m d => some (m, d, i)
      | _ => none
  | _ => none

/-- `computeMatchConstantCorrelation` (PredicateCorrelation.cpp:100-128). -/
def matchConstantCorrelation (pred : Out) (sub : Nodes) : Option Corr :=
  match matchOf pred sub with
  | none => none
  | some (m, d, i) =>
      (gammaAlternatives i (sub.owner i)).map fun p => .matchConstant p.1 m d p.2

/-- Is the node at this position a gamma node that uses `o`, as predicate or as entry variable? -/
def gammaUser (sub : Nodes) (o : Out) (pos : Nat) : Option Node :=
  match sub.get? pos with
  | some (.gamma pred ins outs subs) =>
      if o ∈ pred :: ins then some (.gamma pred ins outs subs) else none
  | _ => none

/-- `computeMatchCorrelation` (PredicateCorrelation.cpp:130-152): the first user of the match
output that is an input of a gamma node. -/
def matchCorrelation (cfg : Config) (pred : Out) (sub : Nodes) : Option Corr :=
  match matchOf pred sub with
  | none => none
  | some _ => ((cfg.users sub pred).findSome? (gammaUser sub pred)).map .matchCorr

/-- `computeThetaGammaPredicateCorrelation` (PredicateCorrelation.cpp:154-173). -/
def correlation (cfg : Config) (pred : Out) (sub : Nodes) : Option Corr :=
  match controlCorrelation pred sub with
  | some c => some c
  | none =>
    match matchConstantCorrelation pred sub with
    | some c => some c
    | none => matchCorrelation cfg pred sub

/-- Which branch is taken when the loop is left, and which one when it is repeated
(`GammaSubregionRoles`), if the alternatives of the two branches are `a` and `b`. -/
def rolesOf (strict : Bool) (g : Node) (a b : Nat) : Option (Node × Nat × Nat) :=
  if strict && ((a == 0) == (b == 0)) then none
  else if a == 0 then some (g, 0, 1) else some (g, 1, 0)

/-- `determineGammaSubregionRoles` (PredicateCorrelation.cpp:211-270): the gamma node, the exit
subregion and the repetition subregion. In /repo (`strict = false`) only the alternative of the
first branch is looked at, and a gamma that merely uses the match output is taken for one that is
controlled by it. -/
def roles (cfg : Config) (pred : Out) (sub : Nodes) : Option (Node × Nat × Nat) :=
  match correlation cfg pred sub with
  | some (.control g [a, b]) => rolesOf cfg.strict g a b
  | some (.matchConstant g m d [a, b]) => rolesOf cfg.strict g (alternative m d a) (alternative m d b)
  | some (.matchCorr (.gamma p ins outs subs)) =>
      if cfg.strict && !(p == pred && subs.length == 2) then none
      else some (.gamma p ins outs subs, 0, 1)
  | _ => none

/-- `divertLoopVar` (cpp:235-246): if the result of branch `b` for the gamma output `post` is an
entry variable, the origin of that entry variable. -/
def branchOrigin (g : Node) (b : Nat) (post : Out) : Option Out :=
  match g with
  | .gamma _ ins outs subs =>
      match subs.branch b with
      | none => none
      | some (args, results) => (results[outs.idxOf post]?).bind (externalOrigin ins args)
  | _ => none

/-- New origin of the post value of one loop variable (cpp:249-278). -/
def newPost (g : Node) (exit rep : Nat) (outAlive preAlive : Bool) (post : Out) : Out :=
  if !outAlive && !preAlive then post
  else if post ∈ g.outs then
    if !outAlive then (branchOrigin g rep post).getD post
    else if !preAlive then (branchOrigin g exit post).getD post
    else post
  else post

/-- The loop over the loop variables (cpp:249-278). -/
def newPosts (g : Node) (exit rep : Nat) (outAlive preAlive : Out → Bool) :
    List Out → List Out → List Out → List Out
  | o :: outs, a :: args, p :: posts =>
      newPost g exit rep (outAlive o) (preAlive a) p :: newPosts g exit rep outAlive preAlive outs args posts
  | _, _, posts => posts

/-- `redirectThetaGammaOutputs` (cpp:216-279); nothing happens to other nodes. -/
def correlate (cfg : Config) (alive : Out → Bool) : Node → Node
  | .theta ins outs args pred posts sub =>
      if cfg.thetaGamma then
        match roles cfg pred sub with
        | none => .theta ins outs args pred posts sub
        | some (g, exit, rep) =>
            .theta ins outs args pred
              (newPosts g exit rep alive (Dne.used sub (pred :: posts)) outs args posts) sub
      else .theta ins outs args pred posts sub
  | n => n

/-- The body of the loop of `redirectInRegion` (cpp:133-170) for the node at a position, after the
subregions of the node have been handled. -/
def redirectAt (cfg : Config) : Nat → Nodes × List Out → Nodes × List Out
  | _, (.nil, rs) => (.nil, rs)
  | 0, (.cons n ns, rs) =>
      let n' := correlate cfg (Dne.used ns rs) n
      let τ := tau (redirects cfg (Dne.used ns rs) n')
      (.cons n' (ns.divert τ), rs.map τ)
  | i + 1, (.cons n ns, rs) =>
      let r := redirectAt cfg i (ns, rs)
      (.cons n r.1, r.2)

/-- The loop of `redirectInRegion` and `region.prune(false)` (cpp:131-173). -/
def redirectNodesOf (cfg : Config) (ns : Nodes) (rs : List Out) : Nodes × List Out :=
  let r := (cfg.order ns).foldl (fun s i => redirectAt cfg i s) (ns, rs)
  (Dne.prune r.1 r.2, r.2)

mutual

/-- `redirectInSubregions` (cpp:176-187) for the gamma and theta nodes of a region. -/
def subsNode (cfg : Config) : Node → Node
  | .simple op ins outs => .simple op ins outs
  | .gamma pred ins outs subs => .gamma pred ins outs (subsRegions cfg subs)
  | .theta ins outs args pred posts sub =>
      let r := redirectNodesOf cfg (subsNodes cfg sub) (pred :: posts)
      .theta ins outs args (r.2.headD pred) r.2.tail r.1
  | .lambda ins args params results out sub => .lambda ins args params results out sub
  | .phi ins args recs results outs sub => .phi ins args recs results outs sub
  | .delta ins args result out sub => .delta ins args result out sub

def subsNodes (cfg : Config) : Nodes → Nodes
  | .nil => .nil
  | .cons n ns => .cons (subsNode cfg n) (subsNodes cfg ns)

def subsRegions (cfg : Config) : Regions → Regions
  | .nil => .nil
  | .cons args results sub rest =>
      let r := redirectNodesOf cfg (subsNodes cfg sub) results
      .cons args r.2 r.1 (subsRegions cfg rest)

end

mutual

/-- `redirectInRootRegion` (cpp:78-119), for one node: the bodies of lambda nodes, also of those in
(nested) phi nodes (`PhiNode::ExtractLambdaNodes`, jlm/rvsdg/Phi.cpp:225-248). -/
def rootNode (cfg : Config) : Node → Node
  | .lambda ins args params results out sub =>
      let r := redirectNodesOf cfg (subsNodes cfg sub) results
      .lambda ins args params r.2 out r.1
  | .phi ins args recs results outs sub => .phi ins args recs results outs (rootNodes cfg sub)
  | .simple op ins outs => .simple op ins outs
  | .gamma pred ins outs subs => .gamma pred ins outs subs
  | .theta ins outs args pred posts sub => .theta ins outs args pred posts sub
  | .delta ins args result out sub => .delta ins args result out sub

def rootNodes (cfg : Config) : Nodes → Nodes
  | .nil => .nil
  | .cons n ns => .cons (rootNode cfg n) (rootNodes cfg ns)

end

/-- `InvariantValueRedirection::Run` (cpp:53-66). -/
def run (cfg : Config) (g : Graph) : Graph := ⟨g.imports, rootNodes cfg g.body, g.exports⟩

end Ivr

end Jlm.Opt
