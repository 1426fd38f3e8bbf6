import Verif.Model.Db
import Verif.Model.Tables

/-!
# The stores of the server on unitdb

server/internal/store/store.go and server/internal/db/unitdb/adapter.go: the calls the server makes for subscriptions and messages, as puts and
queries of the database of `Model/Db`. `Model/Tables` has them on an ideal table. A nil payload, which `Subscription.Get` drops, is not
told from an empty one; no record is read as nil.
-/

namespace Verif

/-- store.go:136-138 `Subscription.Put` with adapter.go:140-146: the entry it puts. -/
def subscriptionEntry (k : UInt32) (id topic payload : Bytes) : Obj := { topic, payload, id := some id, contract := k ^^^ connStoreId }

/-- store.go:166-168 `Message.Put` with adapter.go:131-137: the entry it puts, made at time `now`. -/
def messageEntry (dur : Bytes → Int) (now : Int) (k : UInt32) (topic payload ttl : Bytes) : Obj :=
  { topic, payload, contract := k, expiresAt := if ttl = [] then 0 else withTTL dur now ttl }

/-- adapter.go:150-158 `Get`: the query it makes at time `now`. `ok` says what `time.ParseDuration` accepts; otherwise `WithLast` leaves the
query as it is (query.go:75-77). The options of a query made by `NewQuery` are not nil. -/
def storeQuery (dur : Bytes → Int) (ok : Bytes → Bool) (now : Int) (k : UInt32) (topic last : Bytes) : Query :=
  let q := { newQuery topic with contract := k }
  if last = [] ∨ ok last = false then q else (q.withLast now (dur last)).getD q

/-- What a Get of the stores gives: the payloads, or that it failed. -/
def DGet.payloads? : DGet → Option (List Bytes)
  | .out (.ok items) => some items
  | _ => none

/-- store.go:140-150 `Subscription.Get`. -/
def Db.getSubscriptions (v : DbEnv) (ok : Bytes → Bool) (at_ : Int) (g : GetEnv) (s : Db) (k : UInt32) (topic : Bytes) : Db × Option (List Bytes) :=
  let r := s.get v g (storeQuery v.dur ok at_ (k ^^^ connStoreId) topic []) []
  (r.1, r.2.payloads?)

/-- store.go:170-181 `Message.Get`: every message comes with the topic that was asked for. -/
def Db.getMessages (v : DbEnv) (ok : Bytes → Bool) (at_ : Int) (g : GetEnv) (s : Db) (k : UInt32) (topic last : Bytes) : Db × Option (List (Bytes × Bytes)) :=
  let r := s.get v g (storeQuery v.dur ok at_ k topic last) []
  (r.1, r.2.payloads?.map fun ps => ps.map fun p => (topic, p))

/-- store.go:156-158 `Subscription.Delete` with adapter.go:170-174. -/
def Db.deleteSubscription (v : DbEnv) (s : Db) (k : UInt32) (id topic : Bytes) : Db × DOut :=
  s.deleteEntry v { topic, payload := [], id := some id, contract := k ^^^ connStoreId }

end Verif
