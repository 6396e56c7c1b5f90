import Verif.Opt.PullModel
import Verif.Opt.IvrModel

/-!
# Loop unswitching (model)

Model of `LoopUnswitching` (jlm/llvm/opt/LoopUnswitching.cpp): a loop whose body is a gamma node that is controlled by
the predicate of the loop becomes a gamma node with the loop in one of its branches.

New outputs get the names `n`, `n + 1`, …; `none`: an exception is thrown. The heuristic is
`LoopUnswitchingDefaultHeuristic`. The order of nodes at the same depth (`CollectPredicateNodes`) is the order of the
list of nodes.
-/

namespace Jlm.Opt.Unswitch

open Jlm.Opt.Copy Jlm.Opt.Pull

/-- A theta node with a gamma node in its subregion: the nodes before and after the gamma node, and its parts. -/
structure Loop where
  ins : List Out
  outs : List Out
  args : List Out
  pred : Out
  posts : List Out
  before : List Node
  gpred : Out
  gins : List Out
  gouts : List Out
  subs : Regions
  after : List Node

/-- The gamma node. -/
def Loop.gamma (L : Loop) : Node := .gamma L.gpred L.gins L.gouts L.subs

/-- The nodes of the subregion of the theta node. -/
def Loop.body (L : Loop) : List Node := L.before ++ L.gamma :: L.after

/-- The theta node. -/
def Loop.node (L : Loop) : Node := .theta L.ins L.outs L.args L.pred L.posts (nodesOf L.body)

/-- The first node with input `o`, with the nodes before and after it. -/
def user (o : Out) : List Node → Option (List Node × Node × List Node)
  | [] => none
  | x :: xs => if x.ins.contains o then some ([], x, xs) else (user o xs).map fun p => (x :: p.1, p.2)

/-- Is `o` the output of a match node? Its alternatives are those of the predicate of a theta node: 0 and 1
(jlm/rvsdg/theta.cpp:45; `MatchOperation`, jlm/rvsdg/control.hpp:157-193). -/
def isMatch (o : Out) (l : List Node) : Bool :=
  match split o l with
  | some (_, .simple ⟨.matchOp m d, _⟩ [_] [_], _) => decide (d < 2) && m.all fun p => decide (p.2 < 2)
  | _ => false

/-- `IsUnswitchable` (LoopUnswitching.cpp:83-127). With `strict = true` the gamma node has to be controlled by the
output of the match node; the code (`strict = false`) is content with a gamma node that uses it in any way. -/
def isUnswitchable (strict : Bool) : Node → Option Loop
  | .theta ins outs args pred posts sub =>
      if isMatch pred sub.list && (sub.ins ++ pred :: posts).count pred == 2 then
        match user pred sub.list with
        | some (before, .gamma gpred gins gouts subs, after) =>
            if branches subs == 2 && posts.all (fun o => args.contains o || gouts.contains o) &&
                (!strict || gpred == pred)
            then some ⟨ins, outs, args, pred, posts, before, gpred, gins, gouts, subs, after⟩ else none
        | _ => none
      else none
  | _ => none

/-- The post values that are not outputs of the gamma node. -/
def Loop.around (L : Loop) : List Out := L.posts.filter fun o => !L.gouts.contains o

/-- `loopVar.post->divert_to(output)` (LoopUnswitching.cpp:142) for the post values that are not outputs of the gamma
node: `news` are the new outputs of the gamma node. -/
def routePosts (gouts : List Out) : List Out → List Out → List Out
  | [], _ => []
  | o :: os, news =>
      if gouts.contains o then o :: routePosts gouts os news
      else news.headD 0 :: routePosts gouts os news.tail

/-- New entry and exit variables in every branch (`AddEntryVar`, `AddExitVar`, LoopUnswitching.cpp:139-141). -/
def routeSubs (k : Nat) : Regions → Nat → Regions
  | .nil, _ => .nil
  | .cons args results sub rest, n =>
      .cons (args ++ List.range' n k) (results ++ List.range' n k) sub (routeSubs k rest (n + k))

/-- The first part of `SinkNodesIntoGamma` (LoopUnswitching.cpp:134-144). -/
def route (L : Loop) (n : Nat) : Loop × Nat :=
  let k := L.around.length
  let news := List.range' (n + branches L.subs * k) k
  ({ L with
      posts := routePosts L.gouts L.posts news
      gins := L.gins ++ L.around
      gouts := L.gouts ++ news
      subs := routeSubs k L.subs n }, n + branches L.subs * k + k)

/-- `SinkNodesIntoGamma` (LoopUnswitching.cpp:129-147). -/
def sinkNodes (L : Loop) (n : Nat) : Option (Loop × Nat) :=
  let r := route L n
  (pullTop (r.1.after.flatMap Node.ins ++ r.1.pred :: r.1.posts) r.1.gpred
    ⟨r.1.before, r.1.gins, r.1.subs, r.2⟩).map fun w =>
      ({ r.1 with before := w.before, gins := w.ins, subs := w.subs }, w.n)

/-- `LoopUnswitchingDefaultHeuristic::shouldUnswitchLoop` (LoopUnswitching.cpp:25-42). -/
def shouldUnswitch (L : Loop) : Bool := (L.before ++ L.after).all fun x => match x with | .simple .. => true | _ => false

/-- `CollectPredicateNodes` (LoopUnswitching.cpp:149-171). -/
def Loop.predicateNodes (L : Loop) : Nodes := nodesOf (L.before ++ L.after)

/-- The origin of the result of a branch that belongs to output `o` of the gamma node (`MapOutputExitVar`). -/
def origin (gouts results : List Out) (o : Out) : Out := ((gouts.zip results).lookup o).getD 0

/-- The stages of `UnswitchLoop` (LoopUnswitching.cpp:225-352): the new nodes of the region of the theta node, the new
origins for the users of the outputs of the theta node. -/
def stages (L : Loop) (n : Nat) : Option (List Node × List Out × Nat) :=
  match L.subs with
  | .cons a0 r0 s0 (.cons a1 r1 s1 .nil) =>
      let k := L.gins.length
      -- Stage 1 (cpp:241-249)
      (copyNodes L.predicateNodes (SMap.empty.insertAll L.args L.ins) n).bind fun c1 =>
      -- Stage 2 (cpp:251-274)
      (c1.2.1.lookup (L.gpred :: L.gins)).bind fun g =>
      let b0 := List.range' c1.2.2 (k + 1)
      let b1 := List.range' (c1.2.2 + (k + 1)) (k + 1)
      let t := List.range' (c1.2.2 + (k + 1) + (k + 1)) k
      -- Stage 3 (cpp:276-287)
      (copyNodes s1 (SMap.empty.insertAll a1.tail t) (c1.2.2 + (k + 1) + (k + 1) + k)).bind fun c3 =>
      -- Stage 4 (cpp:289-302)
      (c3.2.1.lookup (L.posts.map (origin L.gouts r1))).bind fun ps =>
      (copyNodes L.predicateNodes (SMap.empty.insertAll L.args ps) c3.2.2).bind fun c4 =>
      -- Stage 5 (cpp:304-312)
      (c4.2.1.lookup (L.pred :: L.gins)).bind fun q =>
      -- Stage 6 (cpp:314-331)
      let tout := List.range' c4.2.2 k
      let gout := List.range' (c4.2.2 + k) k
      let theta := Node.theta b1.tail tout t (q.headD 0) q.tail (nodesOf (c3.1.list ++ c4.1.list))
      let gamma := Node.gamma (g.headD 0) g.tail gout
        (.cons b0 b0.tail .nil (.cons b1 tout (nodesOf [theta]) .nil))
      -- Stage 7 (cpp:333-343)
      (copyNodes s0 (SMap.empty.insertAll a0.tail gout) (c4.2.2 + k + k)).bind fun c7 =>
      -- Stage 8 (cpp:345-352)
      (c7.2.1.lookup (L.posts.map (origin L.gouts r0))).map fun os =>
        (c1.1.list ++ gamma :: c7.1.list, os, c7.2.2)
  | _ => none

/-- `divert_users` (cpp:351) for the outputs of a node. -/
def divertTo (outs os : List Out) (z : Out) : Out := ((outs.zip os).lookup z).getD z

/-- `UnswitchLoop` (cpp:201-355) after `IsUnswitchable`: what the theta node is replaced with, and the new origins for
the users of its outputs. The theta node remains in the region; it is dead when the loop has been unswitched. -/
def unswitchLoop (L : Loop) (n : Nat) : Option (List Node × List Out × Nat) :=
  (sinkNodes L n).bind fun r =>
    if shouldUnswitch r.1 then (stages r.1 r.2).map fun q => (q.1 ++ [r.1.node], q.2)
    else some ([r.1.node], r.1.outs, r.2)

mutual

/-- What `HandleRegion` (cpp:357-381) does to the nodes and results of a region: loops are unswitched, nested regions
are handled, dead nodes are removed. The relation leaves open in which order nodes are visited (`HandleRegion` also
visits nodes that are created while it runs) and when the region is pruned. -/
inductive Handle (strict : Bool) : Nat → List Node → List Out → Nat → List Node → List Out → Prop
  | done (n : Nat) (l : List Node) (R : List Out) : Handle strict n l R n l R
  | step {n n' n'' : Nat} {l l' l'' : List Node} {R R' R'' : List Out} : Handle strict n l R n' l' R' →
      Handle strict n' l' R' n'' l'' R'' → Handle strict n l R n'' l'' R''
  /-- `UnswitchLoop` (cpp:371) -/
  | unswitch {n n' : Nat} {p s : List Node} {y : Node} {R : List Out} {L : Loop} {mid : List Node} {os : List Out} :
      isUnswitchable strict y = some L → unswitchLoop L n = some (mid, os, n') →
      Handle strict n (p ++ y :: s) R n' (p ++ mid ++ s.map (Node.divert (divertTo y.outs os)))
        (R.map (divertTo y.outs os))
  /-- `region.prune(false)` (cpp:379) -/
  | prune (n : Nat) (l : List Node) (R : List Out) : Handle strict n l R n (Dne.prune (nodesOf l) R).list R
  /-- `HandleRegion(subregion)` (cpp:366-367) -/
  | theta {n n' : Nat} {p s : List Node} {R ins outs args posts posts' : List Out} {pred pred' : Out} {sub : Nodes}
      {l : List Node} : Handle strict n sub.list (pred :: posts) n' l (pred' :: posts') →
      Handle strict n (p ++ .theta ins outs args pred posts sub :: s) R n'
        (p ++ .theta ins outs args pred' posts' (nodesOf l) :: s) R
  | gamma {n n' : Nat} {p s : List Node} {R ins outs : List Out} {pred : Out} {subs subs' : Regions} :
      HandleSubs strict n subs n' subs' →
      Handle strict n (p ++ .gamma pred ins outs subs :: s) R n' (p ++ .gamma pred ins outs subs' :: s) R
  | lambda {n n' : Nat} {p s : List Node} {R ins args params rs rs' : List Out} {out : Out} {sub : Nodes} {l : List Node} :
      Handle strict n sub.list rs n' l rs' →
      Handle strict n (p ++ .lambda ins args params rs out sub :: s) R n'
        (p ++ .lambda ins args params rs' out (nodesOf l) :: s) R
  | phi {n n' : Nat} {p s : List Node} {R ins args recs rs rs' outs : List Out} {sub : Nodes} {l : List Node} :
      Handle strict n sub.list rs n' l rs' →
      Handle strict n (p ++ .phi ins args recs rs outs sub :: s) R n' (p ++ .phi ins args recs rs' outs (nodesOf l) :: s) R

/-- `HandleRegion` for the branches of a gamma node (cpp:366-367). -/
inductive HandleSubs (strict : Bool) : Nat → Regions → Nat → Regions → Prop
  | nil (n : Nat) : HandleSubs strict n .nil n .nil
  | cons {n n' n'' : Nat} {args results results' : List Out} {sub : Nodes} {l : List Node} {rest rest' : Regions} :
      Handle strict n sub.list results n' l results' → HandleSubs strict n' rest n'' rest' →
      HandleSubs strict n (.cons args results sub rest) n'' (.cons args results' (nodesOf l) rest')

end

/-- `LoopUnswitching::Run` (cpp:385-397): possible results. -/
def Runs (strict : Bool) (g g' : Graph) : Prop :=
  g'.imports = g.imports ∧
    ∃ n' : Nat, Handle strict (freshName g.names) g.body.list g.exports n' g'.body.list g'.exports

end Jlm.Opt.Unswitch
