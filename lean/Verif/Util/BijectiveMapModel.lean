/-
Model of jlm/util/BijectiveMap.hpp. A `std::unordered_map` is an association list with at most one
entry per key, in an arbitrary order.
-/
namespace Jlm.Util.BijectiveMap

variable {K V : Type} [DecidableEq K] [DecidableEq V]

/-- `std::unordered_map::find` -/
def find {A B : Type} [DecidableEq A] (m : List (A × B)) (a : A) : Option B :=
  (m.find? (fun p => p.1 = a)).map (·.2)

/-- `std::unordered_map::insert`: does nothing if the key is present -/
def mapInsert {A B : Type} [DecidableEq A] (m : List (A × B)) (a : A) (b : B) : List (A × B) :=
  if (find m a).isSome then m else (a, b) :: m

/-- `std::unordered_map::erase(key)` -/
def erase {A B : Type} [DecidableEq A] (m : List (A × B)) (a : A) : List (A × B) :=
  m.filter (fun p => p.1 ≠ a)

/-- `ForwardMap_` and `ReverseMap_`, BijectiveMap.hpp:412-414 -/
structure BMap (K V : Type) where
  fwd : List (K × V)
  rev : List (V × K)

def empty : BMap K V := ⟨[], []⟩

/-- `HasKey`, BijectiveMap.hpp:211-215 -/
def hasKey (m : BMap K V) (k : K) : Bool := (find m.fwd k).isSome
/-- `HasValue`, BijectiveMap.hpp:222-226 -/
def hasValue (m : BMap K V) (v : V) : Bool := (find m.rev v).isSome
/-- `LookupKey`, BijectiveMap.hpp:233-240; `none` is the thrown error -/
def lookupKey (m : BMap K V) (k : K) : Option V := find m.fwd k
/-- `LookupValue`, BijectiveMap.hpp:247-254 -/
def lookupValue (m : BMap K V) (v : V) : Option K := find m.rev v
/-- `Size`, BijectiveMap.hpp:142-147; a failed assertion (different sizes) is `none` -/
def size (m : BMap K V) : Option Nat :=
  if m.fwd.length = m.rev.length then some m.fwd.length else none

/-- `Insert`, BijectiveMap.hpp:156-165 -/
def insert (m : BMap K V) (k : K) (v : V) : BMap K V × Bool :=
  if hasKey m k || hasValue m v then (m, false)
  else (⟨mapInsert m.fwd k v, mapInsert m.rev v k⟩, true)

/-- `InsertPairs`, BijectiveMap.hpp:174-190 -/
def insertPairs (m : BMap K V) : List (K × V) → BMap K V × Nat
  | [] => (m, 0)
  | p :: ps =>
    let (m', b) := insert m p.1 p.2
    let (m'', n) := insertPairs m' ps
    (m'', if b then n + 1 else n)

/-- `Erase(iterator)`, BijectiveMap.hpp:285-292, for an iterator pointing to the pair `p` of the
forward map -/
def eraseAt (m : BMap K V) (p : K × V) : BMap K V := ⟨erase m.fwd p.1, erase m.rev p.2⟩

/-- `RemoveKey`, BijectiveMap.hpp:299-308 -/
def removeKey (m : BMap K V) (k : K) : BMap K V × Bool :=
  match find m.fwd k with
  | none => (m, false)
  | some v => (eraseAt m (k, v), true)

/-- `RemoveValue`, BijectiveMap.hpp:315-327 -/
def removeValue (m : BMap K V) (v : V) : BMap K V × Bool :=
  match find m.rev v with
  | none => (m, false)
  | some k => (⟨erase m.fwd k, erase m.rev v⟩, true)

/-- the loop of `RemoveWhere`, BijectiveMap.hpp:340-352, over the pairs still to be visited
(erasing keeps the other iterators valid) -/
def removeWhereLoop (f : K → V → Bool) : List (K × V) → BMap K V → Nat → BMap K V × Nat
  | [], m, n => (m, n)
  | p :: ps, m, n =>
    if f p.1 p.2 then removeWhereLoop f ps (eraseAt m p) (n + 1) else removeWhereLoop f ps m n

/-- `RemoveWhere`, BijectiveMap.hpp:335-354; `RemoveKeysWhere`/`RemoveValuesWhere` (362-388) pass a
predicate that ignores the other component. -/
def removeWhere (m : BMap K V) (f : K → V → Bool) : BMap K V × Nat :=
  removeWhereLoop f m.fwd m 0

/-- Operations of a program on one map. -/
inductive Op (K V : Type) where
  | insert (k : K) (v : V)
  | insertPairs (ps : List (K × V))
  | removeKey (k : K)
  | removeValue (v : V)
  | removeWhere (f : K → V → Bool)
  | clear                          -- BijectiveMap.hpp:132-137

/-- Returned value (a Boolean as 0/1, a count, or nothing as 0). -/
abbrev Out := Nat

def step (m : BMap K V) : Op K V → BMap K V × Out
  | .insert k v => let r := insert m k v; (r.1, r.2.toNat)
  | .insertPairs ps => insertPairs m ps
  | .removeKey k => let r := removeKey m k; (r.1, r.2.toNat)
  | .removeValue v => let r := removeValue m v; (r.1, r.2.toNat)
  | .removeWhere f => removeWhere m f
  | .clear => (empty, 0)

/-- state after a history -/
def run (m : BMap K V) (ops : List (Op K V)) : BMap K V := ops.foldl (fun m op => (step m op).1) m

end Jlm.Util.BijectiveMap
