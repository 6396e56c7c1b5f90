/-!
# Model of store value forwarding

`jlm/llvm/opt/StoreValueForwarding.cpp`: a load whose memory states lead back to stores to (or loads from) the same address is replaced
by the stored (or loaded) value; where the states lead into gamma and theta nodes, exit variables and loop variables carry the value.

*Simplifications.*
* Regions may use outputs of outer regions directly: `routeOutputToRegion` (cpp:1511-1573), entry variables and invariant loop variables,
  and the tracer of outputs (`tracer.trace`), which follows them, are left out.
* The check of region predicates is switched off (`JLM_DISABLE_REGION_PREDICATE_CHECK`), so that `loopBackEdgeTaken` has no influence on
  results, and is left out of the keys of the maps.
* Two inputs of a node (or results of a region) with the same origin are one.
* Nodes for undefined values are part of their users (`Src.undef`).
* Loads without memory states (cpp:1040-1339) are left out.
-/

namespace Jlm.Opt.Svf

/-- Outputs. -/
inductive Nm
  /-- an output of the original graph -/
  | o (n : Nat)
  /-- the exit variable that is added to a gamma node, or the output of the loop variable that is added to a theta node -/
  | x (id : Nat)
  /-- the argument of the loop variable that is added to a theta node -/
  | p (id : Nat)
  deriving DecidableEq, Repr

/-- The origin of an input: an output, or (only in results of the transformation) an undefined value. -/
inductive Src
  | nm (n : Nm)
  | undef
  deriving DecidableEq, Repr

/-- Types of loaded and stored values. -/
abbrev Ty := Nat

/-- Loop variables. -/
structure LV where
  inp : Src
  pre : Nm
  post : Src
  out : Nm
  deriving DecidableEq, Repr

/-- Nodes. Numbers identify nodes; memory states are pairs of an input (its origin) and an output. -/
inductive Node
  /-- everything else, for example calls -/
  | op (f : Nat) (args outs : List Nm)
  /-- `StoreOperation` -/
  | store (id : Nat) (addr val : Nm) (ty : Ty) (sts : List (Nm × Nm))
  /-- `LoadOperation` -/
  | load (id : Nat) (addr out : Nm) (ty : Ty) (sts : List (Nm × Nm))
  /-- `MemoryStateJoinOperation` -/
  | join (id : Nat) (ins : List Nm) (out : Nm)
  /-- `AllocaOperation` -/
  | alloca (f : Nat) (args : List Nm) (addr st : Nm)
  /-- a load that has been replaced -/
  | fwd (out : Nm) (src : Src) (sts : List (Nm × Nm))
  /-- gamma nodes: predicate, regions, and exit variables (output, results) -/
  | gamma (id : Nat) (pred : Nm) (brs : List (List Node)) (exits : List (Nm × List Src))
  /-- theta nodes: loop variables, region, predicate -/
  | theta (id : Nat) (vars : List LV) (body : List Node) (pred : Nm)

/-- `ValueOrigin` (cpp:335-411), except `Unknown`. -/
inductive Origin
  | uninit
  | load (id : Nat) (out : Nm)
  | store (id : Nat) (val : Nm)
  | gammaOut (id : Nat)
  | thetaOut (id : Nat)
  | thetaPre (id : Nat)
  deriving DecidableEq, Repr

/-- `ValueOrigin::node`. -/
def Origin.node : Origin → Option Nat
  | .uninit => none
  | .load id _ => some id
  | .store id _ => some id
  | .gammaOut id => some id
  | .thetaOut id => some id
  | .thetaPre id => some id

/-- Answers of the alias analysis. -/
inductive Alias
  | no
  | may
  | must
  deriving DecidableEq, Repr

/-- The owner of an input: a node, or a region (node and index). -/
inductive Cons
  | nd (id : Nat)
  | rg (id b : Nat)
  deriving DecidableEq, Repr

/-- What defines a memory state. -/
inductive Def
  | store (id : Nat) (val : Nm) (ty : Ty) (i : Nm)
  | load (id : Nat) (out : Nm) (ty : Ty) (i : Nm)
  | join (id : Nat) (ins : List Nm)
  | alloca
  /-- results of the regions, and the nodes in the regions -/
  | gamma (id : Nat) (rs : List Src) (inside : List Nat)
  | thetaOut (id : Nat) (inp post : Src)
  | thetaPre (id : Nat) (inp post : Src)
  | other
  deriving DecidableEq, Repr

/-- The load that is processed: its number and type, and the answers of the alias analysis for the other nodes. -/
structure Query where
  id : Nat
  ty : Ty
  alias : Nat → Alias

/-- The maps of `LoadTracingInfo` (cpp:931-976). `none` is `Unknown`. -/
structure Maps where
  /-- `lastValueOriginBeforeInput` -/
  input : List ((Cons × Nm) × Option Origin) := []
  /-- `lastValueOriginBeforeNode` and `lastValueOriginInRegion` -/
  owner : List (Cons × Option Origin) := []
  /-- `loopVarPostsToTrace` -/
  posts : List (Cons × Nm) := []

def Maps.find (m : Maps) (k : Cons × Nm) : Option (Option Origin) := (m.input.find? (·.1 == k)).map (·.2)
def Maps.owns (m : Maps) (k : Cons) : Option (Option Origin) := (m.owner.find? (·.1 == k)).map (·.2)

/-- The end of `getLastValueOriginBeforeInput` (cpp:607-636): the result is recorded; if the owner has another one, it is unknown. -/
def record (m : Maps) (c : Cons) (s : Nm) (r : Option Origin) : Maps × Option Origin :=
  let m := { m with input := m.input ++ [((c, s), r)] }
  match m.owns c with
  | none => ({ m with owner := m.owner ++ [(c, r)] }, r)
  | some r' => if r' = r then (m, r) else (m, none)

/-- `addObservedValueOrigin` (cpp:761-771); the outer `none` is the empty optional. -/
def observe (common : Option (Option Origin)) (r : Origin) : Option (Option Origin) :=
  if r = .uninit then common
  else match common with
    | none => some (some r)
    | some c => if c = some r then some c else some none

/-- The inputs of a join node (cpp:733-738). -/
def allInputs (f : Maps → Cons → Nm → Maps × Option Origin) (c : Cons) : Maps → List Nm → Maps × Bool
  | m, [] => (m, true)
  | m, i :: is =>
    match f m c i with
    | (m, none) => (m, false)
    | (m, some _) => allInputs f c m is

/-- The results of the regions of a gamma node (cpp:773-806). -/
def allBranches (f : Maps → Cons → Nm → Maps × Option Origin) (id : Nat) :
    Maps → Nat → List Src → Option (Option Origin) → Maps × Option (Option (Option Origin))
  | m, _, [], common => (m, some common)
  | m, b, .nm r :: rs, common =>
    match f m (.rg id b) r with
    | (m, none) => (m, none)
    | (m, some o) => allBranches f id m (b + 1) rs (observe common o)
  | m, _, .undef :: _, _ => (m, none)

/-- `getLastValueOriginBeforeInputInternal` (cpp:639-909) for the origin `s`; `f` is the recursive call. -/
def internal (def? : Nm → Def) (q : Query) (f : Maps → Cons → Nm → Maps × Option Origin) (m : Maps) (s : Nm) : Maps × Option Origin :=
  match def? s with
  -- cpp:646-698
  | .store id val ty i =>
    match q.alias id with
    | .may => (m, none)
    | .no => f m (.nd id) i
    | .must => if ty = q.ty then (m, some (.store id val)) else (m, none)
  -- cpp:700-743
  | .load id out ty i =>
    if q.alias id = .must ∧ ty = q.ty then (m, some (.load id out)) else f m (.nd id) i
  -- cpp:722-746
  | .join id ins =>
    if ins = [] then (m, none)
    else match allInputs f (.nd id) m ins with
      | (m, false) => (m, none)
      | (m, true) => (m, (m.owns (.nd id)).join)
  -- cpp:748-754
  | .alloca => (m, some .uninit)
  -- cpp:756-826
  | .gamma id rs inside =>
    match allBranches f id m 0 rs none with
    | (m, none) => (m, none)
    | (m, some none) => (m, some .uninit)
    | (m, some (some none)) => (m, some (.gammaOut id))
    | (m, some (some (some o))) =>
      if o.node.any (inside.contains ·) then (m, some (.gammaOut id)) else (m, some o)
  -- cpp:828-871
  | .thetaOut id inp post =>
    match post with
    | .undef => (m, none)
    | .nm q' =>
      match f m (.rg id 0) q' with
      | (m, none) => (m, none)
      | (m, some o) =>
        if o = .thetaPre id then
          match inp with
          | .nm i => f m (.nd id) i
          | .undef => (m, none)
        else (m, some (.thetaOut id))
  -- cpp:873-890
  | .thetaPre id inp post =>
    match inp, post with
    | .nm i, .nm q' =>
      match f m (.nd id) i with
      | (m, none) => (m, none)
      | (m, some _) => ({ m with posts := m.posts ++ [(.rg id 0, q')] }, some (.thetaPre id))
    | _, _ => (m, none)
  -- cpp:892-893
  | .other => (m, none)

/-- `getLastValueOriginBeforeInput` (cpp:594-637). -/
def before (def? : Nm → Def) (q : Query) : Nat → Maps → Cons → Nm → Maps × Option Origin
  | 0, m, _, _ => (m, none)
  | n + 1, m, c, s =>
    match m.find (c, s) with
    | some r => (m, r)
    | none =>
      match internal def? q (before def? q n) m s with
      | (m, r) => record m c s r

/-- The first loop of `traceAllMemoryStateInputs` (cpp:445-456). -/
def traceInputs (def? : Nm → Def) (q : Query) (n : Nat) : Maps → List Nm → Maps × Bool
  | m, [] => (m, true)
  | m, s :: ss =>
    match before def? q n m (.nd q.id) s with
    | (m, none) => (m, false)
    | (m, some _) => traceInputs def? q n m ss

/-- The second loop (cpp:458-469): any element of the set comes first; here it is the first one in the list. -/
def tracePosts (def? : Nm → Def) (q : Query) (n : Nat) : Nat → Maps → Maps × Bool
  | 0, m => (m, false)
  | k + 1, m =>
    match m.posts with
    | [] => (m, true)
    | (c, s) :: _ =>
      match before def? q n m c s with
      | (m, none) => (m, false)
      | (m, some _) => tracePosts def? q n k { m with posts := m.posts.filter (· != (c, s)) }

/-- `traceAllMemoryStateInputs` (cpp:439-472). -/
def traceAll (def? : Nm → Def) (q : Query) (n : Nat) (sts : List Nm) : Option Maps :=
  match traceInputs def? q n {} sts with
  | (_, false) => none
  | (m, true) =>
    match tracePosts def? q n n m with
    | (_, false) => none
    | (m, true) => some m

/-! ## Forwarding -/

/-- The output `getValueOriginOutput` (cpp:1378-1490) returns. -/
def Origin.src : Origin → Src
  | .uninit => .undef
  | .load _ out => .nm out
  | .store _ val => .nm val
  | .gammaOut id => .nm (.x id)
  | .thetaOut id => .nm (.x id)
  | .thetaPre id => .nm (.p id)

/-- No entry: an undefined value (cpp:1456-1461). -/
def srcOf : Option Origin → Src
  | none => .undef
  | some o => o.src

/-- The nodes that have got a variable: `createdExitVars`, `createdLoopVars`, and the loop variables without a post
(`unroutedLoopVarPosts`). -/
structure Made where
  gammas : List Nat := []
  thetas : List Nat := []
  pending : List Nat := []

/-- The variable of a gamma node needs the origins of all its regions (cpp:1408-1422). -/
def createRegions (f : Made → Origin → Option Made) (own : Cons → Option Origin) (id : Nat) : List Nat → Made → Option Made
  | [], st => some st
  | b :: bs, st =>
    match own (.rg id b) with
    | none => none
    | some o =>
      match f st o with
      | none => none
      | some st => createRegions f own id bs st

/-- `getValueOriginOutput` (cpp:1368-1490): the variables that are created. `none`: an assertion fails, or the bound is too small. -/
def create (regions : Nat → Nat) (own : Cons → Option Origin) : Nat → Made → Origin → Option Made
  | 0, _, _ => none
  | n + 1, st, o =>
    let theta := fun (id : Nat) =>
      if st.thetas.contains id then some st
      else
        match (match own (.nd id) with
          | none => some st
          | some o => create regions own n st o) with
        | none => none
        | some st => some { st with thetas := id :: st.thetas, pending := st.pending ++ [id] }
    match o with
    | .gammaOut id =>
      if st.gammas.contains id then some st
      else createRegions (create regions own n) own id (List.range (regions id)) { st with gammas := id :: st.gammas }
    | .thetaOut id => theta id
    | .thetaPre id => theta id
    | _ => some st

/-- `connectUnroutedLoopPosts` (cpp:1492-1515). -/
def connect (regions : Nat → Nat) (own : Cons → Option Origin) (n : Nat) : Nat → Made → Option Made
  | 0, _ => none
  | k + 1, st =>
    match st.pending with
    | [] => some st
    | id :: ps =>
      match own (.rg id 0) with
      | none => none
      | some o =>
        match create regions own n { st with pending := ps } o with
        | none => none
        | some st => connect regions own n k st

/-- `forwardValueOrigins` (cpp:1341-1365). -/
def createAll (regions : Nat → Nat) (own : Cons → Option Origin) (L n : Nat) : Option Made :=
  match own (.nd L) with
  | none => none
  | some o =>
    match create regions own n {} o with
    | none => none
    | some st => connect regions own n n st

/-- The node has got a variable. -/
def Made.created (st : Made) (id : Nat) : Bool := st.gammas.contains id || st.thetas.contains id

mutual

/-- The effect of `forwardValueOrigins` (cpp:1341-1376) on a node: `own` are the entries of the map, `created` says which gamma and theta
nodes get a variable (`createdExitVars`, `createdLoopVars`). -/
def Node.forward (L : Nat) (own : Cons → Option Origin) (created : Nat → Bool) : Node → Node
  | .op f args outs => .op f args outs
  | .store id a v t sts => .store id a v t sts
  | .load id a out t sts => if id = L then .fwd out (srcOf (own (.nd L))) sts else .load id a out t sts
  | .join id ins out => .join id ins out
  | .alloca f args a st => .alloca f args a st
  | .fwd out src sts => .fwd out src sts
  | .gamma id p brs exits =>
    .gamma id p (forwardB L own created brs)
      (if created id then exits ++ [(.x id, (List.range brs.length).map fun b => srcOf (own (.rg id b)))] else exits)
  | .theta id vars body p =>
    .theta id (if created id then vars ++ [⟨srcOf (own (.nd id)), .p id, srcOf (own (.rg id 0)), .x id⟩] else vars)
      (forwardL L own created body) p

def forwardL (L : Nat) (own : Cons → Option Origin) (created : Nat → Bool) : List Node → List Node
  | [] => []
  | n :: ns => n.forward L own created :: forwardL L own created ns

def forwardB (L : Nat) (own : Cons → Option Origin) (created : Nat → Bool) : List (List Node) → List (List Node)
  | [] => []
  | b :: bs => forwardL L own created b :: forwardB L own created bs

end

end Jlm.Opt.Svf
