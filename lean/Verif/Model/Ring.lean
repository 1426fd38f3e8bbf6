import Mathlib.Data.List.Sort
import Mathlib.Data.Prod.Lex

/-!
# Consistent hashing of contracts to nodes

server/internal/pkg/hash/ringhash.go. Names are elements of any linearly ordered type (Go strings under `<`); the hash
function is a parameter, as it is in `NewRing`.
-/

namespace Verif

/-- ringhash.go:32-35 `elem`, ordered as `sortable.Less` does: by hash, then by key. -/
abbrev RingElem (α : Type) := Nat ×ₗ α

/-- ringhash.go:54-60 `Ring`. -/
structure HashRing (α : Type) where
  keys : List (RingElem α)
  replicas : Nat

/-- ringhash.go:64-78 `NewRing`. -/
def HashRing.new (α : Type) (replicas : Nat) : HashRing α := ⟨[], replicas⟩

variable {α : Type} [LinearOrder α]

/-- ringhash.go:87-93: the replicas of one node; `hash i key` is `hashfunc(Itoa(i) + key)`. -/
def HashRing.elems (hash : Nat → α → Nat) (replicas : Nat) (key : α) : List (RingElem α) :=
  (List.range replicas).map fun i => toLex (hash i key, key)

/-- ringhash.go:86-115 `Add` (without the signature). -/
def HashRing.add (hash : Nat → α → Nat) (r : HashRing α) (nodes : List α) : HashRing α :=
  { r with keys := (r.keys ++ nodes.flatMap (HashRing.elems hash r.replicas)).insertionSort (· ≤ ·) }

/-- ringhash.go:118-140 `Get`; `sort.Search` on a sorted list finds the first element satisfying the
predicate. `none` is the empty string of an empty ring; `h` is `hashfunc(key)`. -/
def HashRing.get (r : HashRing α) (h : Nat) (key : α) : Option α :=
  match r.keys.find? (fun el => decide ((ofLex el).1 > h ∨ ((ofLex el).1 = h ∧ (ofLex el).2 ≥ key))) with
  | some el => some (ofLex el).2
  | none => r.keys.head?.map fun el => (ofLex el).2

end Verif
