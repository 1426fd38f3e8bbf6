import Verif.Model.Message

/-!
# Topic text

message/topic.go:179-296. Topics are byte strings. `bytes.FieldsFunc` decodes UTF-8, but all separators used are ASCII, so
splitting bytes gives the same fields.
-/

namespace Verif

/-- `bytes.FieldsFunc` with a one-byte separator: the maximal runs without the separator. `cur` is the run being read. -/
def fieldsAux (sep : UInt8) : (cur : Bytes) → Bytes → List Bytes
  | cur, [] => if cur = [] then [] else [cur]
  | cur, b :: bs =>
    if b = sep then (if cur = [] then fieldsAux sep [] bs else cur :: fieldsAux sep [] bs)
    else fieldsAux sep (cur ++ [b]) bs

def fields (sep : UInt8) (b : Bytes) : List Bytes := fieldsAux sep [] b

def chDot : UInt8 := 46
def chStar : UInt8 := 42
def chQuery : UInt8 := 63

/-- message/topic.go:40. -/
def wildcardHash : UInt32 := 857445537

/-- message/topic.go:179-193 `ParseKey`: topic text and option text. `none` leaves both empty. -/
def parseKey (text : Bytes) : Bytes × Bytes :=
  match fields chQuery text with
  | [] => ([], [])
  | [t] => (t, [])
  | t :: o :: _ => (t, o)

/-- `bytes.HasSuffix`. -/
def hasSuffix (b s : Bytes) : Bool := s.length ≤ b.length && b.drop (b.length - s.length) == s

/-- `bytes.TrimRight(b, "...")`: the cutset is the single character '.', every trailing dot goes. -/
def trimDots (b : Bytes) : Bytes := (b.reverse.dropWhile (· == chDot)).reverse

inductive TopicType where
  | static | wildcard
deriving DecidableEq, Repr

/-- The local variables of the loop message/topic.go:260-281. -/
structure ParseState where
  parts : List Part
  depth : UInt8
  wild : UInt8
  count : Nat
  ty : TopicType
deriving DecidableEq, Repr

/-- One round of the loop message/topic.go:260-281. `idx-wildcharcount-1 >= 0` is `count + 1 ≤ idx` over naturals. -/
def parseStep (contract : UInt32) (s : ParseState) (idx : Nat) (p : Bytes) : ParseState :=
  let s := { s with depth := s.depth + 1 }
  if hasSuffix p [chStar] then
    { s with
      ty := .wildcard
      parts := if idx = 0 then s.parts ++ [⟨Hash.withSalt p contract, 0⟩] else s.parts
      wild := s.wild + 1
      count := s.count + 1 }
  else
    let parts := s.parts ++ [⟨Hash.withSalt p contract, 0⟩]
    if s.wild > 0 then
      let i := if s.count + 1 ≤ idx then idx - s.count - 1 else 0
      { s with parts := parts.modify i (fun q => { q with wildchars := s.wild }), wild := 0 }
    else { s with parts := parts }

def parseLoop (contract : UInt32) : ParseState → (idx : Nat) → List Bytes → ParseState
  | s, _, [] => s
  | s, idx, p :: ps => parseLoop contract (parseStep contract s idx p) (idx + 1) ps

/-- message/topic.go:231-296 `parseWildcardTopic` on the topic text. -/
def parseWildcard (contract : UInt32) (text : Bytes) : Topic × TopicType :=
  let multi := hasSuffix text [chDot, chDot, chDot]
  let text := if multi then trimDots text else text
  let s := parseLoop contract ⟨[], if multi then 1 else 0, 0, 0, if multi then .wildcard else .static⟩ 0 (fields chDot text)
  let parts := if s.wild > 0 then s.parts.modify (s.parts.length - 1) (fun q => { q with wildchars := s.wild }) else s.parts
  let parts := if multi then parts ++ [⟨wildcardHash, 0⟩] else parts
  (⟨parts, s.depth⟩, s.ty)

/-- db_internal.go:236-243 with AddContract (db_internal.go:270) and query.go:94-102: the parsed topic that is stored or queried. -/
def parseTopic (contract : UInt32) (key : Bytes) : Topic × TopicType :=
  let (t, ty) := parseWildcard contract (parseKey key).1
  (t.addContract contract, ty)

end Verif
