import Verif.Model.Outcome

/-!
# Backtrackable containers

Models `dreal/util/scoped_vector.h`, `scoped_unordered_map.h`,
`scoped_unordered_set.h`.
-/

namespace Verif.Model

/-- `ScopedVector` (`dreal/util/scoped_vector.h:31,126-127`): the element vector and the
stack of saved sizes (most recent scope first). -/
structure ScopedVector (α : Type u) where
  vec : List α := []
  scopes : List Nat := []

namespace ScopedVector
variable {α : Type u}

/-- `push_back` (`dreal/util/scoped_vector.h:63`). -/
def pushBack (s : ScopedVector α) (a : α) : ScopedVector α := { s with vec := s.vec ++ [a] }

/-- `push` (`dreal/util/scoped_vector.h:65`). -/
def push (s : ScopedVector α) : ScopedVector α := { s with scopes := s.vec.length :: s.scopes }

/-- The loop of `pop` (`dreal/util/scoped_vector.h:73-77`): `cur_size` is the loop variable, the vector
loses its last element and the counter is incremented while `cur_size > prev_size`. -/
def popLoop (prev : Nat) : Nat → List α → Nat → List α × Nat
  | 0, v, count => (v, count)
  | cur + 1, v, count =>
    if cur + 1 > prev then popLoop prev cur v.dropLast (count + 1) else (v, count)

/-- `pop` (`dreal/util/scoped_vector.h:66-79`): throws when there is no scope; returns the number of
removed elements. -/
def pop (s : ScopedVector α) : Outcome (ScopedVector α × Nat) :=
  match s.scopes with
  | [] => .throw
  | prev :: rest =>
    let r := popLoop prev s.vec.length s.vec 0
    .ok ({ vec := r.1, scopes := rest }, r.2)

/-- `operator<` (`dreal/util/scoped_vector.h:104-111`): reads `v.vector_[i]` without a bounds check. -/
def ltAux (lt : α → α → Bool) : List α → List α → Outcome Bool
  | [], _ => .ok false
  | _ :: _, [] => .ub
  | a :: as, b :: bs => if lt a b then .ok true else ltAux lt as bs

def lt (ltα : α → α → Bool) (s t : ScopedVector α) : Outcome Bool := ltAux ltα s.vec t.vec

end ScopedVector

/-- Undo-log entry of `ScopedUnorderedMap` (`dreal/util/scoped_unordered_map.h:45-49`). -/
inductive MapAction (K : Type u) (V : Type v) where
  | insert (k : K) (v : V)
  | update (k : K) (old : V)

/-- `ScopedUnorderedMap` (`dreal/util/scoped_unordered_map.h:34,136-138`).  The `std::unordered_map` is a
partial function; the undo log and the stack of log sizes are lists, most recent first.
Simplified: iteration order and sizes of the hash map are not modelled. -/
structure ScopedMap (K : Type u) (V : Type v) where
  map : K → Option V := fun _ => none
  actions : List (MapAction K V) := []
  stack : List Nat := []

namespace ScopedMap
variable {K : Type u} {V : Type v} [DecidableEq K]

def upd (m : K → Option V) (k : K) (o : Option V) : K → Option V :=
  fun x => if x = k then o else m x

/-- `insert` (`dreal/util/scoped_unordered_map.h:78-90`). -/
def insert (s : ScopedMap K V) (k : K) (v : V) : ScopedMap K V :=
  match s.map k with
  | none => { s with actions := .insert k v :: s.actions, map := upd s.map k (some v) }
  | some old => { s with actions := .update k old :: s.actions, map := upd s.map k (some v) }

/-- `operator[]` (`dreal/util/scoped_unordered_map.h:93-101`). -/
def at? (s : ScopedMap K V) (k : K) : Outcome V :=
  match s.map k with
  | none => .throw
  | some v => .ok v

/-- `push` (`dreal/util/scoped_unordered_map.h:107`). -/
def push (s : ScopedMap K V) : ScopedMap K V := { s with stack := s.actions.length :: s.stack }

/-- `clear` (`dreal/util/scoped_unordered_map.h:73-77`). -/
def clear (_ : ScopedMap K V) : ScopedMap K V := {}

/-- One undo step (`dreal/util/scoped_unordered_map.h:115-129`).  Erasing or assigning through
`map_.find(k) == map_.end()` is undefined behaviour. -/
def undo1 (m : K → Option V) : MapAction K V → Outcome (K → Option V)
  | .insert k _ => match m k with
    | none => .ub
    | some _ => .ok (upd m k none)
  | .update k v => match m k with
    | none => .ub
    | some _ => .ok (upd m k (some v))

/-- The `while` loop of `pop` (`dreal/util/scoped_unordered_map.h:114-131`). -/
def undoTo (idx : Nat) : List (MapAction K V) → (K → Option V) →
    Outcome (List (MapAction K V) × (K → Option V))
  | [], m => .ok ([], m)
  | a :: as, m =>
    if idx < (a :: as).length then
      match undo1 m a with
      | .ok m' => undoTo idx as m'
      | .throw => .throw
      | .ub => .ub
    else .ok (a :: as, m)

/-- `pop` (`dreal/util/scoped_unordered_map.h:108-133`). -/
def pop (s : ScopedMap K V) : Outcome (ScopedMap K V) :=
  match s.stack with
  | [] => .throw
  | idx :: rest =>
    match undoTo idx s.actions s.map with
    | .ok (as, m) => .ok { map := m, actions := as, stack := rest }
    | .throw => .throw
    | .ub => .ub

end ScopedMap

/-- `ScopedUnorderedSet` (`dreal/util/scoped_unordered_set.h:35,116-118`); the hash set is a predicate. -/
structure ScopedSet (K : Type u) where
  set : K → Bool := fun _ => false
  actions : List K := []
  stack : List Nat := []

namespace ScopedSet
variable {K : Type u} [DecidableEq K]

/-- `insert` (`dreal/util/scoped_unordered_set.h:78-85`). -/
def insert (s : ScopedSet K) (k : K) : ScopedSet K :=
  if s.set k then s
  else { s with actions := k :: s.actions, set := fun x => if x = k then true else s.set x }

/-- `push` (`dreal/util/scoped_unordered_set.h:92`). -/
def push (s : ScopedSet K) : ScopedSet K := { s with stack := s.actions.length :: s.stack }

/-- The `while` loop of `pop` (`dreal/util/scoped_unordered_set.h:99-111`); erasing an absent key is
undefined behaviour. -/
def undoTo (idx : Nat) : List K → (K → Bool) → Outcome (List K × (K → Bool))
  | [], m => .ok ([], m)
  | a :: as, m =>
    if idx < (a :: as).length then
      if m a then undoTo idx as (fun x => if x = a then false else m x) else .ub
    else .ok (a :: as, m)

/-- `pop` (`dreal/util/scoped_unordered_set.h:93-113`). -/
def pop (s : ScopedSet K) : Outcome (ScopedSet K) :=
  match s.stack with
  | [] => .throw
  | idx :: rest =>
    match undoTo idx s.actions s.set with
    | .ok (as, m) => .ok { set := m, actions := as, stack := rest }
    | .throw => .throw
    | .ub => .ub

end ScopedSet
end Verif.Model
