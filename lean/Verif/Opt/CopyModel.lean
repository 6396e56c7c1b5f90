import Verif.Opt.Tree

/-!
# Copies of nodes and regions (model)

Model of `Region::copy` (jlm/rvsdg/region.cpp:317-323) and of the `copy` functions of the nodes of function bodies.
New outputs get names that are not in use: `n`, `n + 1`, … for the state `n`. `none`: an exception is thrown.
Simplification: lambda, phi and delta nodes are not copied.
-/

namespace Jlm.Opt.Copy

/-- `SubstitutionMap` (jlm/rvsdg/substitution.hpp:19-45). -/
abbrev SMap := Out → Option Out

/-- `SubstitutionMap::insert` (substitution.hpp:36-40). -/
def SMap.insert (m : SMap) (o x : Out) : SMap := fun z => if z = o then some x else m z

/-- Several calls of `insert`, one after the other. -/
def SMap.insertAll (m : SMap) : List Out → List Out → SMap
  | o :: os, x :: xs => (m.insert o x).insertAll os xs
  | _, _ => m

/-- Several calls of `lookup` (substitution.hpp:27-34), which throws if there is no substitute. -/
def SMap.lookup (m : SMap) : List Out → Option (List Out)
  | [] => some []
  | o :: os => (m o).bind fun x => (m.lookup os).map fun xs => x :: xs

/-- The map without entries. -/
def SMap.empty : SMap := fun _ => none

mutual

/-- `Node::copy(region, smap)`. -/
def copyNode : Node → SMap → Nat → Option (Node × SMap × Nat)
  /- `SimpleNode::copy` (jlm/rvsdg/simple-node.cpp:59-76) -/
  | .simple op ins outs, m, n =>
      (m.lookup ins).map fun ins' =>
        (.simple op ins' (List.range' n outs.length), m.insertAll outs (List.range' n outs.length), n + outs.length)
  /- `GammaNode::copy` (jlm/rvsdg/gamma.cpp:477-506) -/
  | .gamma pred ins outs subs, m, n =>
      (m.lookup (pred :: ins)).bind fun ins' =>
      (copyRegions subs n).map fun r =>
        (.gamma (ins'.headD 0) ins'.tail (List.range' r.2 outs.length) r.1,
          m.insertAll outs (List.range' r.2 outs.length), r.2 + outs.length)
  /- `ThetaNode::copy` (jlm/rvsdg/theta.cpp:99-127) -/
  | .theta ins outs args pred posts sub, m, n =>
      (m.lookup ins).bind fun ins' =>
      (copyNodes sub (SMap.empty.insertAll args (List.range' n args.length)) (n + args.length)).bind fun r =>
      (r.2.1.lookup (pred :: posts)).map fun rs =>
        (.theta ins' (List.range' r.2.2 outs.length) (List.range' n args.length) (rs.headD 0) rs.tail r.1,
          m.insertAll outs (List.range' r.2.2 outs.length), r.2.2 + outs.length)
  | .lambda .., _, _ => none
  | .phi .., _, _ => none
  | .delta .., _, _ => none

/-- `Region::copy` (region.cpp:317-323). -/
def copyNodes : Nodes → SMap → Nat → Option (Nodes × SMap × Nat)
  | .nil, m, n => some (.nil, m, n)
  | .cons x ns, m, n =>
      (copyNode x m n).bind fun r =>
      (copyNodes ns r.2.1 r.2.2).map fun q => (.cons r.1 q.1, q.2.1, q.2.2)

/-- The subregions of a gamma node (gamma.cpp:482-503): the entry variables are inserted in the substitution map,
the match variable (argument 0) is not. -/
def copyRegions : Regions → Nat → Option (Regions × Nat)
  | .nil, n => some (.nil, n)
  | .cons args results sub rest, n =>
      (copyNodes sub (SMap.empty.insertAll args.tail (List.range' n args.length).tail) (n + args.length)).bind fun r =>
      (r.2.1.lookup results).bind fun rs =>
      (copyRegions rest r.2.2).map fun q => (.cons (List.range' n args.length) rs r.1 q.1, q.2)

end

end Jlm.Opt.Copy
