import Verif.Model.TopicParse
import Verif.Model.TimeWindow

/-!
# Topic options, time-to-live and query limits

message/topic.go:108-170, entry.go:80-89, query.go. `time.ParseDuration` is a parameter `dur` that gives the duration in
nanoseconds and 0 on an error, as the code uses it. Clock readings are nanoseconds since the Unix epoch.
-/

namespace Verif

def chAmp : UInt8 := 38
def chEq : UInt8 := 61

/-- "ttl" -/
def kTTL : Bytes := [116, 116, 108]
/-- "last" -/
def kLast : Bytes := [108, 97, 115, 116]

/-- The value of a non-empty string of decimal digits. -/
def parseDigits : Bytes → Nat → Option Nat
  | [], n => some n
  | b :: bs, n => if 48 ≤ b ∧ b ≤ 57 then parseDigits bs (10 * n + (b - 48).toNat) else none

def parseNat (s : Bytes) : Option Nat := if s = [] then none else parseDigits s 0

/-- `strconv.ParseInt(s, 10, 64)`; `none` is an error. -/
def parseInt (s : Bytes) : Option Int :=
  match s with
  | 43 :: r => (parseNat r).bind fun n => if n < 2 ^ 63 then some n else none
  | 45 :: r => (parseNat r).bind fun n => if n ≤ 2 ^ 63 then some (-n) else none
  | r => (parseNat r).bind fun n => if n < 2 ^ 63 then some n else none

/-- message/topic.go:150-168 `parseOptions`. -/
def parseOptions (text : Bytes) : List (Bytes × Bytes) :=
  (fields chAmp text).filterMap fun o =>
    match fields chEq o with
    | k :: v :: _ => some (k, v)
    | _ => none

/-- message/topic.go:136-147 `getOption`. -/
def getOption (name : Bytes) : List (Bytes × Bytes) → Option (Bytes × Int)
  | [] => none
  | (k, v) :: os =>
    if k = name then some (match parseInt v with | some n => ([], n) | none => (v, 0)) else getOption name os

/-- `t.Unix()`. -/
def unixSec (ns : Int) : Int := ns / 1000000000

/-- The conversion `uint32(x)`. -/
def toU32 (x : Int) : UInt32 := UInt32.ofNat (x % 2 ^ 32).toNat

/-- message/topic.go:108-116 `TTL` on the options of a topic; `none` when there is no such option. -/
def topicTTL (dur : Bytes → Int) (now : Int) (opts : List (Bytes × Bytes)) : Option UInt32 :=
  (getOption kTTL opts).map fun (ttl, sec) =>
    if sec > 0 then toU32 (sec * 1000000000) else toU32 (unixSec (now + dur ttl))

/-- message/topic.go:119-133 `Last`: start time in Unix seconds and number of messages. -/
def topicLast (dur : Bytes → Int) (now : Int) (opts : List (Bytes × Bytes)) : Option (Int × Int) :=
  (getOption kLast opts).map fun (d, last) => if last > 0 then (0, last) else (unixSec (now - dur d), 0)

/-- entry.go:80-89 `WithTTL`: the expiry it sets. The value computed from an integer is overwritten. -/
def withTTL (dur : Bytes → Int) (now : Int) (ttl : Bytes) : UInt32 :=
  let _fromInt := (parseInt ttl).map fun v => toU32 (unixSec (now + v * 1000000000))
  toU32 (unixSec (now + dur ttl))

/-- db_internal.go:262-269 with 245-248: the expiry a put stores for an entry with topic `key` whose own expiry is `exp`. -/
def storedExpiry (dur : Bytes → Int) (now : Int) (key : Bytes) (exp : UInt32) : UInt32 :=
  let ttl := (topicTTL dur now (parseOptions (parseKey key).2)).getD 0
  if exp = 0 ∧ ttl > 0 then ttl else exp

/-- options.go `_QueryOptions`. -/
structure QOpts where
  default : Int
  max : Int
deriving DecidableEq, Repr

/-- query.go:34-46, the parts of a Query that decide how much is returned. `opts` is nil in a Query not made by NewQuery. -/
structure Query where
  topic : Bytes
  contract : UInt32
  limit : Int
  cutoff : Int
  opts : Option QOpts
deriving DecidableEq, Repr

/-- query.go:49-56 `NewQuery` with options.go:169-173. -/
def newQuery (topic : Bytes) : Query := ⟨topic, 0, 0, 0, some ⟨1000, 100000⟩⟩

/-- query.go:65-68 `WithLimit`. -/
def Query.withLimit (q : Query) (n : Int) : Query := { q with limit := n }

/-- query.go:72-88 `WithLast` with a duration that parses to `d`; `none` is the panic on nil options. -/
def Query.withLast (now d : Int) (q : Query) : Option Query := do
  let o ← q.opts
  pure { q with cutoff := unixSec (now - d),
                limit := if q.limit = 0 then o.default else if q.limit > o.max then o.max else q.limit }

/-- query.go:104-121, the limit. `last` is the result of `Last`. -/
def resolveLimit (o : QOpts) (limit : Int) (last : Option (Int × Int)) : Int :=
  let limit := match last with
    | none => limit
    | some (_, n) =>
      if limit = 0 ∧ n = 0 then o.default
      else if limit > o.max ∨ n > o.max then o.max
      else if n > limit then n
      else limit
  if limit = 0 then o.default else limit

/-- db.go:234 and query.go:90-123 `parse`: the query as Get uses it. The options are those of the database. -/
def Query.ask (dur : Bytes → Int) (now : Int) (o : QOpts) (q : Query) : Ask :=
  let last := topicLast dur now (parseOptions (parseKey q.topic).2)
  { contract := if q.contract = 0 then masterContract else q.contract
    cutoff := match last with | some (t, _) => t | none => q.cutoff
    limit := resolveLimit o q.limit last }

end Verif
