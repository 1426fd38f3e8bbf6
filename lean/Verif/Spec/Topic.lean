import Verif.Base.Bytes

/-!
# Specification of topic names (docs/utp.md "Topic", docs/usage.md "Writing to wildcard topics")

A topic is a list of levels separated by dots. A level that ends in an asterisk stands for any one level. A topic ending in
three dots stands for everything below it.
-/

namespace Verif.Spec

/-- The text before the options. -/
def topicText (key : Bytes) : Bytes := (((key.splitOn 63).filter (· ≠ [])).head?).getD []

def levels (text : Bytes) : List Bytes := (text.splitOn 46).filter (· ≠ [])

def isStar (level : Bytes) : Bool := [42].isSuffixOf level

def isMulti (text : Bytes) : Bool := [46, 46, 46].isSuffixOf text

/-- Level by level: a star takes one level, a multi-level topic takes everything strictly below it. -/
def levelsMatch (multi : Bool) : List Bytes → List Bytes → Bool
  | [], ts => if multi then !ts.isEmpty else ts.isEmpty
  | _ :: _, [] => false
  | p :: ps, t :: ts => (isStar p || p == t) && levelsMatch multi ps ts

/-- The stored topic `p` covers the queried topic `t`. -/
def covers (p t : Bytes) : Bool := levelsMatch (isMulti p) (levels p) (levels t)

/-- A topic without wildcards. -/
def isStatic (t : Bytes) : Bool := !isMulti t && (levels t).all (!isStar ·)

/-- The first level is an asterisk level. -/
def startsWithStar (t : Bytes) : Bool := ((levels t).head?.map isStar).getD false

end Verif.Spec
