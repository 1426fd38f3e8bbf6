import Verif.Model.Db

/-!
# Query objects that are used again

db.go:222-319 and query.go:90-123: a Get writes to the Query it is given. `Db.get` says what it returns; this file says what it leaves in the object.
-/

namespace Verif

/-- query.go:34-46: the exported fields with cutoff and options, and `winEntries`, which Get appends to and sorts. -/
structure UsedQuery where
  q : Query
  cands : List UInt64 := []
deriving DecidableEq, Repr

/-- db.go:222-246: a Get that gets past its first checks sets the options, the contract, the cutoff and the limit, and keeps the candidates. When the lookup panics
the object is left as it was. -/
def Db.getWith (v : DbEnv) (g : GetEnv) (s : Db) (u : UsedQuery) : Db × UsedQuery × DGet :=
  let r := s.get v g u.q u.cands
  if s.closed ∨ u.q.topic.length = 0 ∨ u.q.topic.length > 65536 then (r.1, u, r.2)
  else
    let a := u.q.ask v.dur g.now v.q
    let q := { u.q with contract := a.contract, limit := a.limit, cutoff := a.cutoff, opts := some v.q }
    let (t, ty) := parseTopic a.contract u.q.topic
    let topics := (g.orderTopics (s.trie.lookup t.parts t.depth ty)).map fun t => (t.hash, t.offset.toInt)
    match dbLookup (toU32 (unixSec g.now)) (winLists g.orderWin s.win) s.winFile a.cutoff a.limit topics u.cands with
    | none => (r.1, u, r.2)
    | some cands => (r.1, ⟨q, sortDesc cands⟩, r.2)

/-- Setting the exported field. -/
def UsedQuery.withTopic (u : UsedQuery) (topic : Bytes) : UsedQuery := { u with q := { u.q with topic } }

/-- A program that gives one query object to Get again and again. Before each Get it may put messages, and set the topic. -/
inductive QueryOp where
  | put (now : Int) (o : Obj)
  | get (g : GetEnv)
  | topic (t : Bytes)

/-- What the Gets return. -/
def Db.program (v : DbEnv) : Db → UsedQuery → List QueryOp → List DGet
  | _, _, [] => []
  | s, u, .put now o :: ops => Db.program v (s.putEntry v now o).1 u ops
  | s, u, .get g :: ops => let r := s.getWith v g u; r.2.2 :: Db.program v r.1 r.2.1 ops
  | s, u, .topic t :: ops => Db.program v s (u.withTopic t) ops

end Verif
