/-
Model of jlm/util/TarjanScc.hpp: `FindStronglyConnectedComponents`.

* The sentinels NOT_VISITED and SCC_FINISHED of the `order` vector are constructors of `Ord`;
  they cannot collide with an order number, because the function asserts
  `numNodes <= SCC_FINISHED` and order numbers are below `numNodes`.
* Vectors are functions on indices. Processing a node `>= numNodes` (an access out of bounds) and
  reading the top of an empty stack are undefined behaviour: the result `none`.
* Stacks are lists with the top first. The successor functor is a pure function (it is called
  twice for every node).
-/
set_option linter.unusedSimpArgs false
set_option linter.unusedVariables false
namespace Jlm.Util.Tarjan

/-- The arguments of the function: `numNodes`, `unificationRoot`, `successors`. -/
structure Graph where
  numNodes : Nat
  unificationRoot : Nat → Nat
  successors : Nat → List Nat

/-- an element of the vector `order`, TarjanScc.hpp:73-78 -/
inductive Ord where
  | notVisited
  | finished
  | num (k : Nat)
deriving DecidableEq, Repr

/-- The local variables and output vectors, TarjanScc.hpp:65-88. -/
structure St where
  order : Nat → Ord
  lowLink : Nat → Nat
  dfsStack : List Nat
  sccStack : List Nat
  nextOrder : Nat
  sccsFinished : Nat
  sccIndex : Nat → Nat
  reverseTopologicalOrder : List Nat

/-- assignment to a vector element -/
def upd {α : Type} (f : Nat → α) (i : Nat) (a : α) : Nat → α := fun j => if j = i then a else f j

/-- the loop over the successors at the first visit, TarjanScc.hpp:113-120 -/
def pushSuccessors (g : Graph) (order : Nat → Ord) : List Nat → List Nat → List Nat
  | [], dfs => dfs
  | next :: rest, dfs =>
    let next := g.unificationRoot next
    if order next = .notVisited then pushSuccessors g order rest (next :: dfs)
    else pushSuccessors g order rest dfs

/-- the loop over the successors at the post-visit, TarjanScc.hpp:130-138 -/
def relaxSuccessors (g : Graph) (order : Nat → Ord) (node : Nat) :
    List Nat → (Nat → Nat) → (Nat → Nat)
  | [], low => low
  | next :: rest, low =>
    let next := g.unificationRoot next
    if order next = .finished then relaxSuccessors g order node rest low
    else relaxSuccessors g order node rest (upd low node (min (low node) (low next)))

/-- the loop that pops a finished component, TarjanScc.hpp:145-155 -/
def popComponent (node thisSccIndex : Nat) : List Nat → St → Option St
  | [], _ => none
  | top :: rest, s =>
    let s := { s with
      sccStack := rest
      order := upd s.order top .finished
      sccIndex := upd s.sccIndex top thisSccIndex
      reverseTopologicalOrder := s.reverseTopologicalOrder ++ [top] }
    if top = node then some s else popComponent node thisSccIndex rest s

/-- the first visit of a node, TarjanScc.hpp:107-121 -/
def visit (g : Graph) (s : St) (node : Nat) : St :=
  let order := upd s.order node (.num s.nextOrder)
  { s with
    sccStack := node :: s.sccStack
    order := order
    nextOrder := s.nextOrder + 1
    lowLink := upd s.lowLink node s.nextOrder
    dfsStack := pushSuccessors g order (g.successors node) s.dfsStack }

/-- the post-visit of a node, TarjanScc.hpp:126-160 -/
def postVisit (g : Graph) (s : St) (node : Nat) : Option St :=
  let s := { s with dfsStack := s.dfsStack.tail }
  let s := { s with lowLink := relaxSuccessors g s.order node (g.successors node) s.lowLink }
  if s.order node = .num (s.lowLink node) then
    match popComponent node s.sccsFinished s.sccStack s with
    | none => none
    | some s => some { s with sccsFinished := s.sccsFinished + 1 }
  else some s

/-- one iteration of the inner loop, TarjanScc.hpp:103-161; `node` is the top of the DFS stack -/
def step (g : Graph) (s : St) (node : Nat) : Option St :=
  match s.order node with
  | .notVisited => some (visit g s node)
  | .finished => some { s with dfsStack := s.dfsStack.tail }
  | .num _ => postVisit g s node

/-- number of nodes that have not been visited: the termination measure of the inner loop -/
def unvisited (g : Graph) (s : St) : Nat :=
  ((List.range g.numNodes).filter (fun v => s.order v = .notVisited)).length

theorem filter_length_le {α : Type} (l : List α) {p q : α → Bool} (h : ∀ x ∈ l, q x → p x) :
    (l.filter q).length ≤ (l.filter p).length := by
  induction l with
  | nil => simp
  | cons a l ih =>
    have := ih (fun x hx => h x (List.mem_cons_of_mem _ hx))
    by_cases hq : q a
    · have hp := h a List.mem_cons_self hq
      simp [List.filter_cons, hq, hp]; exact this
    · by_cases hp : p a <;> simp [List.filter_cons, hq, hp] <;> omega

theorem filter_length_lt {α : Type} (l : List α) {p q : α → Bool} (h : ∀ x ∈ l, q x → p x)
    {a : α} (ha : a ∈ l) (hp : p a = true) (hq : ¬ q a = true) :
    (l.filter q).length < (l.filter p).length := by
  induction l with
  | nil => simp at ha
  | cons b l ih =>
    have hle := filter_length_le l (fun x hx => h x (List.mem_cons_of_mem _ hx))
    rcases List.mem_cons.1 ha with rfl | hal
    · simp only [List.filter_cons, hp, if_true, hq, if_false, List.length_cons]
      simp only [Bool.false_eq_true, if_false]; omega
    · have := ih (fun x hx => h x (List.mem_cons_of_mem _ hx)) hal
      by_cases hqb : q b
      · have hpb := h b List.mem_cons_self hqb
        simp [List.filter_cons, hqb, hpb]; exact this
      · by_cases hpb : p b <;> simp [List.filter_cons, hqb, hpb] <;> omega

theorem popComponent_facts (node i : Nat) (l : List Nat) : ∀ (s s' : St),
    popComponent node i l s = some s' →
    s'.dfsStack = s.dfsStack ∧ (∀ v, s'.order v = .notVisited → s.order v = .notVisited) := by
  induction l with
  | nil => intro s s' h; simp [popComponent] at h
  | cons top rest ih =>
    intro s s' h
    simp only [popComponent] at h
    have key : ∀ v, upd s.order top Ord.finished v = .notVisited → s.order v = .notVisited := by
      intro v hv
      simp only [upd] at hv
      split at hv
      · cases hv
      · exact hv
    split at h
    · cases h; exact ⟨rfl, key⟩
    · obtain ⟨h1, h2⟩ := ih _ _ h
      exact ⟨h1, fun v hv => key v (h2 v hv)⟩

/-- The inner loop terminates: every iteration either visits a node for the first time or shrinks
the DFS stack. -/
theorem step_decreases (g : Graph) (s s' : St) (node : Nat) (rest : List Nat)
    (hd : s.dfsStack = node :: rest) (hn : node < g.numNodes) (h : step g s node = some s') :
    Prod.Lex (· < ·) (· < ·) (unvisited g s', s'.dfsStack.length)
      (unvisited g s, s.dfsStack.length) := by
  have lex : ∀ a b c d : Nat, a ≤ c → b < d → Prod.Lex (· < ·) (· < ·) (a, b) (c, d) := by
    intro a b c d hac hbd
    rcases Nat.lt_or_eq_of_le hac with h | h
    · exact .left _ _ h
    · subst h; exact .right _ hbd
  simp only [step] at h
  split at h
  · rename_i ho
    cases h
    apply Prod.Lex.left
    apply filter_length_lt (a := node)
    · intro x _ hx
      simp only [decide_eq_true_eq, visit, upd] at hx ⊢
      split at hx
      · simp at hx
      · simpa using hx
    · simpa using hn
    · simpa using ho
    · simp [visit, upd]
  · cases h
    exact lex _ _ _ _ (Nat.le_refl _) (by simp [hd])
  · simp only [postVisit] at h
    split at h
    · split at h
      · cases h
      · rename_i s'' hp
        cases h
        obtain ⟨h1, h2⟩ := popComponent_facts _ _ _ _ _ hp
        refine lex _ _ _ _ ?_ (by rw [h1]; simp [hd])
        apply filter_length_le
        intro x _ hx
        simp only [decide_eq_true_eq] at hx ⊢
        exact h2 x hx
    · cases h
      exact lex _ _ _ _ (Nat.le_refl _) (by simp [hd])

/-- the inner loop `while (!dfsStack.empty())`, TarjanScc.hpp:102-161 -/
def inner (g : Graph) (s : St) : Option St :=
  match hd : s.dfsStack with
  | [] => some s
  | node :: _ =>
    if hn : node < g.numNodes then
      match h : step g s node with
      | none => none
      | some s' => inner g s'
    else none
termination_by (unvisited g s, s.dfsStack.length)
decreasing_by exact step_decreases g s s' node _ hd hn h

/-- the loop over the start nodes, TarjanScc.hpp:91-162 -/
def outer (g : Graph) : List Nat → St → Option St
  | [], s => some s
  | startNode :: rest, s =>
    if g.unificationRoot startNode ≠ startNode then outer g rest s
    else if s.order startNode ≠ .notVisited then outer g rest s
    else
      match inner g { s with dfsStack := startNode :: s.dfsStack } with
      | none => none
      | some s => outer g rest s

/-- What the caller gets: the return value and the two output vectors. -/
structure Result where
  numSccs : Nat
  sccIndex : Nat → Nat
  reverseTopologicalOrder : List Nat

/-- `FindStronglyConnectedComponents`, TarjanScc.hpp:50-166. `sccIndex` is the previous content
of the output vector (it is only resized). `none`: undefined behaviour, or the assertion at
line 163 fails. -/
def findSccs (g : Graph) (sccIndex : Nat → Nat) : Option Result :=
  match outer g (List.range g.numNodes)
    { order := fun _ => .notVisited, lowLink := fun _ => 0, dfsStack := [], sccStack := [],
      nextOrder := 0, sccsFinished := 0, sccIndex := sccIndex, reverseTopologicalOrder := [] } with
  | none => none
  | some s =>
    if s.sccStack = [] then
      some { numSccs := s.sccsFinished, sccIndex := s.sccIndex,
             reverseTopologicalOrder := s.reverseTopologicalOrder }
    else none

end Jlm.Util.Tarjan
