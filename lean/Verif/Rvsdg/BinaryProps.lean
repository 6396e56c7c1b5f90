import Verif.Rvsdg.BinaryLemmas
/-
C08: flattening, pair reduction and expansion of (flattened) binary operations.
-/
set_option linter.unusedSimpArgs false
set_option linter.unusedSectionVars false
namespace Jlm.Rvsdg.Binary
open Jlm.Rvsdg Expr

variable {β V : Type} [DecidableEq β] [Inhabited V]

/-- Flattening the node `o a b` of an associative operation never aborts. It either changes nothing,
which happens exactly if neither operand is produced by the same operation, or yields a well formed
flattened node with the same value, none of whose operands can be flattened further. -/
theorem C08_flatten (assoc : β → Bool) (f : β → V → V → V)
    (hassoc : ∀ o, assoc o = true → Assoc (f o)) (o : β) (a b : E β) (ha : WF a) (hb : WF b) :
    (flattenAssociative assoc o [a, b] = .unchanged ∧
      (assoc o = true → ∀ x ∈ [a, b], ∀ n ops, x ≠ .node (.bin o) ops ∧ x ≠ .node (.flat o n) ops)) ∨
    ∃ ops, flattenAssociative assoc o [a, b] = .replaced (.node (.flat o ops.length) ops) ∧
      WF (.node (.flat o ops.length) ops) ∧ 2 < ops.length ∧
      (∀ x ∈ ops, ∀ n ops', x ≠ .node (.bin o) ops' ∧ x ≠ .node (.flat o n) ops') ∧
      ∀ env, eval f env (.node (.flat o ops.length) ops) = f o (eval f env a) (eval f env b) := by
  have tf : ∀ x : E β, flattenTester o x = false →
      ∀ n ops, x ≠ .node (.bin o) ops ∧ x ≠ .node (.flat o n) ops := by
    intro x hx n ops
    constructor <;> (rintro rfl; simp [flattenTester] at hx)
  cases hao : assoc o with
  | false => left; simp [flattenAssociative, hao]
  | true =>
    obtain ⟨l', h1, h2, h3, h4, h5, h6⟩ := flatten_spec (V := V) o [a, b] (by
      intro e he; simp at he; rcases he with rfl | rfl <;> assumption)
    by_cases hall : ∀ e ∈ [a, b], flattenTester o e = false
    · left
      refine ⟨?_, fun _ x hx => tf x (hall x hx)⟩
      rw [h5 hall] at h1
      simp [flattenAssociative, hao, h1]
    · right
      have hex : ∃ e ∈ [a, b], flattenTester o e = true := by
        by_contra hcon
        apply hall
        intro e he
        by_contra h; exact hcon ⟨e, he, by simpa using h⟩
      have hlt := h4 hex
      have hne : [a, b] ≠ l' := by rintro rfl; simp at hlt
      simp only [List.length_cons, List.length_nil] at hlt
      refine ⟨l', ?_, ?_, by omega, fun x hx => tf x (h2 x hx).2, fun env => ?_⟩
      · simp [flattenAssociative, hao, h1, hne, createNode, narguments]; omega
      · simp only [WF, WFs_iff]; exact ⟨trivial, by omega, fun e he => (h2 e he).1⟩
      · rw [eval, evals_eq_map, h6 f env (hassoc o hao)]; simp [fold1]

/-- Reducing adjacent operand pairs with any sound reduction of an associative operation preserves
the value, does not remove all operands and, if nothing was reduced, returns the operands. -/
theorem C08_reduceOperands (comm : β → Bool) (f : β → V → V → V) (env : Nat → V) (o : β)
    (red : β → E β → E β → Option (E β)) (hs : SoundRed f env o (red o))
    (ha : Assoc (f o)) (hc : comm o = true → Comm (f o)) (ops : List (E β)) (hne : ops ≠ []) :
    reduceOperands comm red o ops ≠ [] ∧
    (reduceOperands comm red o ops).length ≤ ops.length ∧
    ((reduceOperands comm red o ops).length = ops.length → reduceOperands comm red o ops = ops) ∧
    fold1 (f o) ((reduceOperands comm red o ops).map (eval f env)) =
      fold1 (f o) (ops.map (eval f env)) := by
  unfold reduceOperands
  cases h : comm o with
  | true =>
    simp only [if_true]
    have := commPairwiseReduceLoop_length (red o) ops 0 1 (by omega)
    refine ⟨this.1 hne, this.2.1, this.2.2,
      commPairwiseReduceLoop_spec (red o) (eval f env) (f o) ha (hc h) hs ops 0 1 (by omega)⟩
  | false =>
    obtain ⟨a, ops, rfl⟩ := List.exists_cons_of_ne_nil hne
    simp only [Bool.false_eq_true, if_false, pairwiseReduce]
    obtain ⟨h1, h2, h3⟩ := pairwiseReduceLoop_length (red o) ops [] a
    simp only [List.length_nil, List.length_cons, List.reverse_nil, List.nil_append] at h1 h2 h3 ⊢
    refine ⟨List.ne_nil_of_length_pos (by omega), by omega, fun h => h3 (by omega), ?_⟩
    have := pairwiseReduceLoop_spec (red o) (eval f env) (f o) ha hs ops [] a
    simpa using this

/-- For a commutative operation the pair reduction is exhaustive: no two remaining operands can be
reduced. -/
theorem C08_commutative_exhaustive (comm : β → Bool) (o : β) (hc : comm o = true)
    (red : β → E β → E β → Option (E β)) (ops : List (E β)) :
    (reduceOperands comm red o ops).Pairwise (fun a b => red o a b = none) := by
  simp only [reduceOperands, hc, if_true]
  exact commPairwiseReduceLoop_irreducible (red o) ops 0 1 (by omega)
    (fun i j hi hj hij h => by omega)

/-- Normalising a node with two operands never aborts and never builds a node with the wrong number
of operands; associativity is not needed. -/
theorem C08_normalizeBinary (comm : β → Bool) (f : β → V → V → V) (env : Nat → V) (o : β)
    (red : β → E β → E β → Option (E β)) (hs : SoundRed f env o (red o)) (a b : E β) :
    (normalizeBinary comm red o [a, b] = .unchanged ∧ red o a b = none) ∨
    ∃ e, normalizeBinary comm red o [a, b] = .replaced e ∧ red o a b = some e ∧
      eval f env e = f o (eval f env a) (eval f env b) := by
  cases h : red o a b with
  | none =>
    left
    have : reduceOperands comm red o [a, b] = [a, b] := by
      unfold reduceOperands
      split
      · simp [commPairwiseReduce, commPairwiseReduceLoop, h]
      · simp [pairwiseReduce, pairwiseReduceLoop, h]
    simp [normalizeBinary, this]
  | some e =>
    right
    have : reduceOperands comm red o [a, b] = [e] := by
      unfold reduceOperands
      split
      · simp [commPairwiseReduce, commPairwiseReduceLoop, h]
      · simp [pairwiseReduce, pairwiseReduceLoop, h]
    exact ⟨e, by simp [normalizeBinary, this], rfl, hs _ _ _ h⟩

/-- Normalising a flattened node: a returned replacement has the same value (and, being a value or a
two-operand node, the right number of operands). -/
theorem C08_normalizeFlattened_partial (comm : β → Bool) (f : β → V → V → V) (env : Nat → V) (o : β)
    (red : β → E β → E β → Option (E β)) (hs : SoundRed f env o (red o))
    (ha : Assoc (f o)) (hc : comm o = true → Comm (f o)) (n : Nat) (ops : List (E β)) (e : E β)
    (h : normalizeFlattened comm red o n ops = .replaced e) :
    eval f env e = eval f env (.node (.flat o n) ops) := by
  unfold normalizeFlattened normalizeBinary at h
  split at h
  · simp at h
  · rename_i hne
    have key := (C08_reduceOperands comm f env o red hs ha hc ops hne).2.2.2
    rw [eval, evals_eq_map, ← key]
    split at h
    · rename_i e' he; rw [he]; simp at h; subst h; simp [fold1]
    · split at h
      · simp at h
      · split at h
        · rename_i hl
          simp [createNode, narguments, hl] at h
          subst h
          simp [eval, evals_eq_map]
        · simp at h

/-- What is missing in the previous theorem (DESIGN.md, finding 8): normalising a flattened node
aborts as soon as a reduction leaves more than two operands. -/
theorem C08_normalizeFlattened_aborts (comm : β → Bool) (o : β)
    (red : β → E β → E β → Option (E β)) (n : Nat) (ops : List (E β))
    (h2 : 2 < (reduceOperands comm red o ops).length)
    (hlt : (reduceOperands comm red o ops).length < ops.length) :
    normalizeFlattened comm red o n ops = .abort := by
  have hne : ops ≠ [] := by rintro rfl; simp at hlt
  have hneq : reduceOperands comm red o ops ≠ ops := by intro h; rw [h] at hlt; omega
  unfold normalizeFlattened normalizeBinary
  rw [if_neg hne]
  split
  · rename_i e he; rw [he] at h2; simp at h2
  · rw [if_neg hneq, if_neg (by omega)]

/-- Linear expansion computes the left fold, for any operation. -/
theorem C08_reduce_linear (f : β → V → V → V) (env : Nat → V) (o : β) (ops : List (E β)) :
    1 < ops.length →
    ∃ e, reduceFlattened .linear o ops = some e ∧
      eval f env e = fold1 (f o) (ops.map (eval f env)) := by
  intro h
  simp only [reduceFlattened, gt_iff_lt, h, if_true]
  have hne : ops ≠ [] := by rintro rfl; simp at h
  clear h
  induction ops using reduceLinear.induct o with
  | case1 => simp at hne
  | case2 e => exact ⟨e, by rw [reduceLinear], by simp [fold1]⟩
  | case3 a b rest ih =>
    obtain ⟨e, h1, h2⟩ := ih (by simp)
    refine ⟨e, by rw [reduceLinear]; exact h1, ?_⟩
    rw [h2]; simp [eval, evals_eq_map, fold1]

/-- Parallel (tree) expansion computes the left fold if the operation is associative and
commutative. -/
theorem C08_reduce_parallel (f : β → V → V → V) (env : Nat → V) (o : β)
    (ha : Assoc (f o)) (hc : Comm (f o)) (ops : List (E β)) :
    1 < ops.length →
    ∃ e, reduceFlattened .parallel o ops = some e ∧
      eval f env e = fold1 (f o) (ops.map (eval f env)) := by
  intro h
  simp only [reduceFlattened, gt_iff_lt, h, if_true]
  have hne : ops ≠ [] := by rintro rfl; simp at h
  clear h
  induction ops using reduceParallel.induct o with
  | case1 => simp at hne
  | case2 e => exact ⟨e, by rw [reduceParallel], by simp [fold1]⟩
  | case3 a b rest ih =>
    obtain ⟨e, h1, h2⟩ := ih (by simp)
    refine ⟨e, by rw [reduceParallel]; exact h1, ?_⟩
    rw [h2]
    rw [fold1_perm ha hc ((List.perm_append_comm (l₁ := rest)).map (eval f env))]
    simp [eval, evals_eq_map, fold1]

/-- One round of the tree expansion over an even number of operands combines neighbours. -/
def pairUp (o : β) : List (E β) → List (E β)
  | a :: b :: rest => .node (.bin o) [a, b] :: pairUp o rest
  | l => l

theorem reduceParallel_round (o : β) : ∀ (k : Nat) (l acc : List (E β)), l.length = 2 * k →
    (l ≠ [] → reduceParallel o (l ++ acc) = reduceParallel o (acc ++ pairUp o l)) := by
  intro k
  induction k with
  | zero => intro l acc h hne; exact absurd (List.length_eq_zero_iff.1 (by simpa using h)) hne
  | succ k ih =>
    intro l acc h hne
    match l, h with
    | a :: b :: rest, h =>
      simp only [List.length_cons] at h
      rw [List.cons_append, List.cons_append, reduceParallel, List.append_assoc, pairUp]
      by_cases hr : rest = []
      · subst hr; simp [pairUp]
      · rw [ih rest _ (by omega) hr]; simp

theorem pairUp_spec (f : β → V → V → V) (env : Nat → V) (o : β) (ha : Assoc (f o)) :
    ∀ (k : Nat) (l : List (E β)), l.length = 2 * k →
      (pairUp o l).length = k ∧
      fold1 (f o) ((pairUp o l).map (eval f env)) = fold1 (f o) (l.map (eval f env)) := by
  intro k
  induction k with
  | zero => intro l h; have := List.length_eq_zero_iff.1 (by simpa using h : l.length = 0); subst this
            simp [pairUp]
  | succ k ih =>
    intro l h
    match l, h with
    | a :: b :: rest, h =>
      simp only [List.length_cons] at h
      obtain ⟨h1, h2⟩ := ih rest (by omega)
      refine ⟨by simp [pairUp, h1], ?_⟩
      by_cases hr : rest = []
      · subst hr; simp [pairUp, eval, evals_eq_map, fold1]
      · have hp : pairUp o rest ≠ [] := by
          rintro hp; rw [hp] at h1; apply hr; apply List.length_eq_zero_iff.1; simp at h1; omega
        rw [pairUp, List.map_cons, fold1_cons ha _ (by simp [hp]), h2]
        rw [List.map_cons, List.map_cons, fold1_cons ha _ (by simp), fold1_cons ha _ (by simp [hr]), ← ha]
        simp [eval, evals_eq_map, fold1]

/-- If the number of operands is a power of two, associativity alone suffices for the tree
expansion. -/
theorem C08_reduce_parallel_pow2 (f : β → V → V → V) (env : Nat → V) (o : β) (ha : Assoc (f o)) :
    ∀ (k : Nat) (ops : List (E β)), ops.length = 2 ^ k → 0 < k →
    ∃ e, reduceFlattened .parallel o ops = some e ∧
      eval f env e = fold1 (f o) (ops.map (eval f env)) := by
  have main : ∀ (k : Nat) (ops : List (E β)), ops.length = 2 ^ k →
      ∃ e, reduceParallel o ops = some e ∧ eval f env e = fold1 (f o) (ops.map (eval f env)) := by
    intro k
    induction k with
    | zero =>
      intro ops h
      match ops, h with
      | [e], _ => exact ⟨e, by rw [reduceParallel], by simp [fold1]⟩
    | succ k ih =>
      intro ops h
      have h' : ops.length = 2 * 2 ^ k := by rw [h, Nat.pow_succ]; omega
      have hp : 0 < 2 ^ k := Nat.pow_pos (by omega)
      obtain ⟨hl, hv⟩ := pairUp_spec f env o ha (2 ^ k) ops h'
      obtain ⟨e, h1, h2⟩ := ih (pairUp o ops) hl
      refine ⟨e, ?_, by rw [h2, hv]⟩
      have := reduceParallel_round o (2 ^ k) ops [] h' (by rintro rfl; simp at h'; omega)
      simp only [List.append_nil, List.nil_append] at this
      rw [this, h1]
  intro k ops h hk
  have : 1 < ops.length := by rw [h]; exact Nat.one_lt_two_pow (by omega)
  simp only [reduceFlattened, gt_iff_lt, this, if_true]
  exact main k ops h

/-- ... but not in general (DESIGN.md, finding 15): for the associative, non-commutative operation
`append`, the tree expansion of three operands computes c ++ (a ++ b). -/
theorem C08_reduce_parallel_order :
    ∃ e, reduceFlattened .parallel () [(.arg 0 : E Unit), .arg 1, .arg 2] = some e ∧
      ∀ (f : Unit → List Nat → List Nat → List Nat) (env : Nat → List Nat), f () = (· ++ ·) →
        eval f env e = env 2 ++ (env 0 ++ env 1) := by
  refine ⟨.node (.bin ()) [.arg 2, .node (.bin ()) [.arg 0, .arg 1]], ?_, ?_⟩
  · simp [reduceFlattened, reduceParallel]
  · intro f env hf; simp [eval, evals, fold1, hf]

theorem reduceRegion_spec (k : Reduction) (f : β → V → V → V) (env : Nat → V)
    (hk : k = .parallel → ∀ o, Assoc (f o) ∧ Comm (f o)) : ∀ (e : E β), WF e →
    ∃ e', reduceRegion k e = some e' ∧ eval f env e' = eval f env e ∧ WF e' ∧ NoFlat e' := by
  have hnf : ∀ (o : β) (ops : List (E β)) e', (∀ x ∈ ops, WF x ∧ NoFlat x) →
      reduceFlattened k o ops = some e' → WF e' ∧ NoFlat e' := by
    have hlin : ∀ (o : β) (ops : List (E β)) e', (∀ x ∈ ops, WF x ∧ NoFlat x) →
        reduceLinear o ops = some e' → WF e' ∧ NoFlat e' := by
      intro o ops
      induction ops using reduceLinear.induct o with
      | case1 => intro e' _ h; simp [reduceLinear] at h
      | case2 e => intro e' hw h; simp [reduceLinear] at h; subst h; exact hw _ (by simp)
      | case3 a b rest ih =>
        intro e' hw h
        rw [reduceLinear] at h
        refine ih e' ?_ h
        intro x hx
        rcases List.mem_cons.1 hx with rfl | hx
        · simp only [WF, NoFlat, WFs, NoFlats]
          have h1 := hw a (by simp); have h2 := hw b (by simp)
          simp [h1.1, h1.2, h2.1, h2.2]
        · exact hw x (by simp [hx])
    have hpar : ∀ (o : β) (ops : List (E β)) e', (∀ x ∈ ops, WF x ∧ NoFlat x) →
        reduceParallel o ops = some e' → WF e' ∧ NoFlat e' := by
      intro o ops
      induction ops using reduceParallel.induct o with
      | case1 => intro e' _ h; simp [reduceParallel] at h
      | case2 e => intro e' hw h; simp [reduceParallel] at h; subst h; exact hw _ (by simp)
      | case3 a b rest ih =>
        intro e' hw h
        rw [reduceParallel] at h
        refine ih e' ?_ h
        intro x hx
        rcases List.mem_append.1 hx with hx | hx
        · exact hw x (by simp [hx])
        · simp only [List.mem_singleton] at hx; subst hx
          simp only [WF, NoFlat, WFs, NoFlats]
          have h1 := hw a (by simp); have h2 := hw b (by simp)
          simp [h1.1, h1.2, h2.1, h2.2]
    intro o ops e' hw h
    unfold reduceFlattened at h
    split at h
    · cases k with
      | linear => exact hlin o ops e' hw h
      | parallel => exact hpar o ops e' hw h
    · simp at h
  intro e
  refine Expr.rec (motive_1 := fun e => WF e → ∃ e', reduceRegion k e = some e' ∧
      eval f env e' = eval f env e ∧ WF e' ∧ NoFlat e')
    (motive_2 := fun l => WFs l → ∃ l', reduceRegionList k l = some l' ∧ l'.length = l.length ∧
      evals f env l' = evals f env l ∧ WFs l' ∧ NoFlats l') ?_ ?_ ?_ ?_ e
  · intro i _; exact ⟨.arg i, by simp [reduceRegion], rfl, by simp [WF], by simp [NoFlat]⟩
  · intro op ops ih hw
    cases op with
    | bin o =>
      rw [WF] at hw
      obtain ⟨l', h1, h2, h3, h4, h5⟩ := ih hw.2
      exact ⟨.node (.bin o) l', by simp [reduceRegion, h1], by simp [eval, h3],
        by rw [WF]; exact ⟨by omega, h4⟩, by rw [NoFlat]; exact h5⟩
    | flat o n =>
      rw [WF] at hw
      obtain ⟨l', h1, h2, h3, h4, h5⟩ := ih hw.2.2
      have hlen : 1 < l'.length := by omega
      have hred : ∃ e', reduceFlattened k o l' = some e' ∧
          eval f env e' = fold1 (f o) (l'.map (eval f env)) := by
        cases k with
        | linear => exact C08_reduce_linear f env o l' hlen
        | parallel => exact C08_reduce_parallel f env o (hk rfl o).1 (hk rfl o).2 l' hlen
      obtain ⟨e', he, hv⟩ := hred
      have hwn := hnf o l' e' (fun x hx => ⟨(WFs_iff l').1 h4 x hx, (NoFlats_iff l').1 h5 x hx⟩) he
      exact ⟨e', by simp [reduceRegion, h1, he], by rw [hv, eval, ← h3, evals_eq_map], hwn⟩
  · intro _; exact ⟨[], by simp [reduceRegionList], rfl, rfl, by simp [WFs], by simp [NoFlats]⟩
  · intro e es ih ihs hw
    rw [WFs] at hw
    obtain ⟨e', h1, h2, h3, h4⟩ := ih hw.1
    obtain ⟨l', g1, g2, g3, g4, g5⟩ := ihs hw.2
    exact ⟨e' :: l', by simp [reduceRegionList, h1, g1], by simp [g2], by simp [evals, h2, g3],
      by simp [WFs, h3, g4], by simp [NoFlats, h4, g5]⟩

/-- Expanding all flattened operations of a well formed network succeeds, leaves no flattened
operation, leaves every node with as many operands as its operation requires and preserves the
value. -/
theorem C08_reduceRegion (k : Reduction) (f : β → V → V → V) (env : Nat → V)
    (hk : k = .parallel → ∀ o, Assoc (f o) ∧ Comm (f o)) (e : E β) (hw : WF e) :
    ∃ e', reduceRegion k e = some e' ∧ eval f env e' = eval f env e ∧ WF e' ∧ NoFlat e' :=
  reduceRegion_spec k f env hk e hw

/-- The reducibility tests answer exactly whether a pair is reducible. -/
theorem C08_test_reduce {α : Type} (t : α → α → Bool) (l : List α) :
    (pairwiseTestReduce t l = true ↔ ∃ p a b s, l = p ++ a :: b :: s ∧ t a b = true) ∧
    (commPairwiseTestReduce t l = false ↔ l.Pairwise (fun a b => t a b = false)) := by
  constructor
  · induction l with
    | nil => simp [pairwiseTestReduce]
    | cons x l ih =>
      cases l with
      | nil =>
        simp only [pairwiseTestReduce, Bool.false_eq_true, false_iff, not_exists]
        rintro p a b s ⟨h, -⟩
        have := congrArg List.length h; simp at this; omega
      | cons y l =>
        rw [pairwiseTestReduce, Bool.or_eq_true, ih]
        constructor
        · rintro (h | ⟨p, a, b, s, h, ht⟩)
          · exact ⟨[], x, y, l, rfl, h⟩
          · exact ⟨x :: p, a, b, s, by rw [h]; rfl, ht⟩
        · rintro ⟨p, a, b, s, h, ht⟩
          cases p with
          | nil => simp at h; left; rw [h.1, h.2.1]; exact ht
          | cons q p => simp only [List.cons_append, List.cons.injEq] at h; right; exact ⟨p, a, b, s, h.2, ht⟩
  · induction l with
    | nil => simp [commPairwiseTestReduce]
    | cons x l ih => simp [commPairwiseTestReduce, ih]

/-! Concrete cases. -/

/-- Addition, where output i has value i: a sound reduction (1 + 2 becomes 3) and its effect. -/
example : let f : Unit → Nat → Nat → Nat := fun _ => (· + ·)
    let red : Unit → E Unit → E Unit → Option (E Unit) := fun _ a b =>
      if a = .arg 1 ∧ b = .arg 2 then some (.arg 3) else none
    SoundRed f id () (red ()) ∧ Assoc (f ()) ∧ Comm (f ()) ∧
    commPairwiseReduce (red ()) [.arg 1, .arg 7, .arg 2, .arg 9] = [.arg 3, .arg 7, .arg 9] ∧
    pairwiseReduce (red ()) [.arg 7, .arg 1, .arg 2, .arg 9] = [.arg 7, .arg 3, .arg 9] := by
  refine ⟨?_, fun a b c => Nat.add_assoc a b c, fun a b => Nat.add_comm a b, ?_, ?_⟩
  · intro a b e h
    by_cases hc : a = .arg 1 ∧ b = .arg 2
    · simp only [if_pos hc, Option.some.injEq] at h
      obtain ⟨rfl, rfl⟩ := hc
      subst h; simp [eval]
    · simp [if_neg hc] at h
  · simp [commPairwiseReduce, commPairwiseReduceLoop]
  · simp [pairwiseReduce, pairwiseReduceLoop]

example : flattenAssociative (fun _ => true) () [(.arg 0 : E Unit), .node (.bin ()) [.arg 1, .arg 2]]
    = .replaced (.node (.flat () 3) [.arg 0, .arg 1, .arg 2]) ∧
    WF (.node (.bin ()) [.arg 1, .arg 2] : E Unit) := by
  constructor
  · simp [flattenAssociative, associativeFlatten, flattenTester, createNode, narguments]
  · simp [WF, WFs]

example : reduceRegion .parallel (.node (.flat () 3) [.arg 0, .arg 1, .arg 2] : E Unit)
    = some (.node (.bin ()) [.arg 2, .node (.bin ()) [.arg 0, .arg 1]]) := by
  simp [reduceRegion, reduceRegionList, reduceFlattened, reduceParallel]

end Jlm.Rvsdg.Binary
