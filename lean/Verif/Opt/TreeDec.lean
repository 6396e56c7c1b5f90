import Verif.Opt.Tree

/-! # Equality of nodes is decidable (for examples) -/

namespace Jlm.Opt

deriving instance DecidableEq for Node, Nodes, Regions
deriving instance DecidableEq for Graph

end Jlm.Opt
