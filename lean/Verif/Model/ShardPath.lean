import Verif.Model.Consistent

/-!
# The path to the shard of a key, and the shard it had before

hash/consistent.go:84-146. Loops run on fuel as in `Consistent`.
-/

namespace Verif
namespace Anchor

/-- The inner loop of `GetPath` (hash/consistent.go:139-142): every shard tried is appended. -/
def chasePath (s : Anchor) (t : Nat) : Nat → Nat → List Nat → Option (Nat × List Nat)
  | 0, _, _ => none
  | f + 1, h, p =>
    if h < s.size then (if t ≤ s.A h then chasePath s t f (s.K h) (p ++ [s.K h]) else some (h, p)) else none

/-- The outer loop of `GetPath` (hash/consistent.go:135-144). -/
def walkPath (s : Anchor) : Nat → Flea → Nat → List Nat → Option (List Nat)
  | 0, _, _, _ => none
  | f + 1, fl, b, p =>
    if b < s.size then
      if 0 < s.A b then
        let h := fl.round.pick (s.A b)
        (chasePath s (s.A b) f h (p ++ [h])).bind fun r => walkPath s f fl.round r.1 r.2
      else some p
    else none

/-- hash/consistent.go:130-146 `GetPath`. -/
def getPath (s : Anchor) (fuel : Nat) (key : UInt64) (buffer : List Nat) : Option (List Nat) :=
  let b := (Flea.init key).pick s.size
  walkPath s fuel (Flea.init key) b (buffer ++ [b])

/-- hash/consistent.go:86-89, the writes of `FindPreviousBlock`: the slices are those of the hash. `none`: the stack is empty, a panic. -/
def previous (s : Anchor) : Option Anchor :=
  match s.R with
  | [] => none
  | cb :: _ => some { s with A := Function.update s.A cb (s.N - 1), K := Function.update s.K cb (s.W (s.N - 1)) }

/-- hash/consistent.go:85-102 `FindPreviousBlock`: the hash as it is afterwards, and the shard. -/
def findPrevious (s : Anchor) (fuel : Nat) (key : UInt64) : Option (Anchor × Option Nat) :=
  s.previous.map fun s' => (s', s'.find fuel key)

end Anchor
end Verif
