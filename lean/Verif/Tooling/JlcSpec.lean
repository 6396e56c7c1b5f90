import Verif.Tooling.JlcModel

/-! # What a user expects of `jlc` -/

namespace Jlm.Tooling

/-- The outgoing edges of a command are kept in a hash set: any order, every edge at least once. -/
def IsSucc {N : Type} (es : List (N × N)) (succ : N → List N) : Prop := ∀ u v, v ∈ succ u ↔ (u, v) ∈ es

/-- `Walk succ entry n v`: `v` is reached from the entry node over `n` edges. -/
inductive Walk {N : Type} (succ : N → List N) (entry : N) : Nat → N → Prop
  | here : Walk succ entry 0 entry
  | step {n : Nat} {u v : N} : Walk succ entry n u → v ∈ succ u → Walk succ entry (n + 1) v

/-- The object code of a source file. -/
def Tools.compile {C : Type} (t : Tools C) (c : C) : C := t.llc (t.opt (t.clang c))

end Jlm.Tooling
