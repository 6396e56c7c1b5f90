/-
Expressions: the acyclic network of simple nodes feeding an output, unfolded.
-/
namespace Jlm.Rvsdg

/-- An `Output*` seen through the simple node that produces it (jlm/rvsdg/simple-node.hpp:20-70,
jlm/rvsdg/node.hpp:300-420). `arg i` is any output that is not produced by one of the operations of
interest (region argument, output of a structural node, other operation), `node op operands` is the
single output of a simple node with operation `op`. Simplification: sharing is not represented (two
structurally equal networks are the same expression), and every modelled operation has one output. -/
inductive Expr (Op : Type) where
  | arg (i : Nat)
  | node (op : Op) (operands : List (Expr Op))

/-- Result of a normalisation `std::optional<std::vector<Output*>> f(operation, operands)`:
`abort` = a JLM_ASSERT fails or an exception is thrown, `unchanged` = std::nullopt,
`replaced e` = the node is replaced by the output `e`. -/
inductive Res (α : Type) where
  | abort
  | unchanged
  | replaced (a : α)
deriving DecidableEq

namespace Expr
variable {Op : Type}

mutual
/-- Equality of expressions is decidable. -/
def decEq [DecidableEq Op] : (a b : Expr Op) → Decidable (a = b)
  | .arg i, .arg j => if h : i = j then .isTrue (by rw [h]) else .isFalse (by simp [h])
  | .arg _, .node _ _ => .isFalse (by simp)
  | .node _ _, .arg _ => .isFalse (by simp)
  | .node o l, .node o' l' =>
    if h : o = o' then
      match decEqs l l' with
      | .isTrue h' => .isTrue (by rw [h, h'])
      | .isFalse h' => .isFalse (by simp [h'])
    else .isFalse (by simp [h])
/-- Equality of lists of expressions is decidable. -/
def decEqs [DecidableEq Op] : (a b : List (Expr Op)) → Decidable (a = b)
  | [], [] => .isTrue rfl
  | [], _ :: _ => .isFalse (by simp)
  | _ :: _, [] => .isFalse (by simp)
  | a :: l, b :: m =>
    match decEq a b with
    | .isTrue h =>
      match decEqs l m with
      | .isTrue h' => .isTrue (by rw [h, h'])
      | .isFalse h' => .isFalse (by simp [h'])
    | .isFalse h => .isFalse (by simp [h])
end

instance [DecidableEq Op] : DecidableEq (Expr Op) := decEq

theorem sizeOf_append_lt (l m : List (Expr Op)) : sizeOf (l ++ m) + 1 = sizeOf l + sizeOf m := by
  induction l with
  | nil => simp; omega
  | cons a l ih => simp only [List.cons_append, List.cons.sizeOf_spec]; omega

/-- jlm/rvsdg/reduction-helpers.hpp:151-174 `associative_flatten`: the cursor `n` separates the
already emitted prefix from the remaining arguments; an argument accepted by the tester is replaced
in place by the operands of its node and looked at again. `none`: the tester accepted an output that
is not a node output (JLM_ASSERT at 161) or whose node has no operands (`sub_args[0]` at 163). -/
def associativeFlatten (tester : Expr Op → Bool) : List (Expr Op) → Option (List (Expr Op))
  | [] => some []
  | a :: rest =>
    if tester a then
      match a with
      | .arg _ => none
      | .node _ [] => none
      | .node _ (s :: subs) => associativeFlatten tester (s :: (subs ++ rest))
    else (associativeFlatten tester rest).map (a :: ·)
termination_by l => sizeOf l
decreasing_by
  · have := sizeOf_append_lt subs rest
    simp; omega
  · simp; omega

end Expr

variable {α : Type}

/-- jlm/rvsdg/reduction-helpers.hpp:58-76: the loop of `pairwise_reduce`. `done` are the elements
before the iterator `left` (in reverse), `left` the element it points to, and the last argument the
elements from `right` on. The final `erase` drops everything after `left`. -/
def pairwiseReduceLoop (reductor : α → α → Option α) : List α → α → List α → List α
  | done, left, [] => done.reverse ++ [left]
  | done, left, right :: rest =>
    match reductor left right with
    | some res => pairwiseReduceLoop reductor done res rest
    | none => pairwiseReduceLoop reductor (left :: done) right rest

/-- jlm/rvsdg/reduction-helpers.hpp:47-79 `pairwise_reduce`. -/
def pairwiseReduce (reductor : α → α → Option α) : List α → List α
  | [] => []
  | a :: rest => pairwiseReduceLoop reductor [] a rest

/-- jlm/rvsdg/reduction-helpers.hpp:114-139: the loops of `commutative_pairwise_reduce`, with the
iterators `left` and `right` as indices; on success the result is stored at `left`, the last element
is moved to `right` and the search starts over. -/
def commPairwiseReduceLoop (reductor : α → α → Option α) (args : List α) (l r : Nat) : List α :=
  if hl : l < args.length then
    if hr : r < args.length then
      match reductor args[l] args[r] with
      | some res =>
        commPairwiseReduceLoop reductor
          (((args.set l res).set r (args.getLast (List.ne_nil_of_length_pos (by omega)))).dropLast) 0 1
      | none => commPairwiseReduceLoop reductor args l (r + 1)
    else commPairwiseReduceLoop reductor args (l + 1) (l + 1 + 1)
  else args
termination_by (args.length, args.length - l, args.length - r)
decreasing_by
  · apply Prod.Lex.left; simp; omega
  · apply Prod.Lex.right; apply Prod.Lex.right; omega
  · apply Prod.Lex.right; apply Prod.Lex.left; omega

/-- jlm/rvsdg/reduction-helpers.hpp:110-141 `commutative_pairwise_reduce`. (Simplification: after
`*left = res` the C++ reads `args.back()` from the updated container; since left < right, this
differs from the old last element only if left is the last position, which is impossible.) -/
def commPairwiseReduce (reductor : α → α → Option α) (args : List α) : List α :=
  commPairwiseReduceLoop reductor args 0 1

/-- jlm/rvsdg/reduction-helpers.hpp:20-45 `pairwise_test_reduce`. -/
def pairwiseTestReduce (tester : α → α → Bool) : List α → Bool
  | [] => false
  | [_] => false
  | a :: b :: rest => tester a b || pairwiseTestReduce tester (b :: rest)

/-- jlm/rvsdg/reduction-helpers.hpp:81-108 `commutative_pairwise_test_reduce`. -/
def commPairwiseTestReduce (tester : α → α → Bool) : List α → Bool
  | [] => false
  | a :: rest => rest.any (tester a) || commPairwiseTestReduce tester rest

end Jlm.Rvsdg
