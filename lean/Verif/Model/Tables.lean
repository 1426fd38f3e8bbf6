import Verif.Base.Bytes

/-!
# Subscriptions and messages in one database

server/internal/store/store.go keeps the subscriptions and the messages of the clients in one unitdb, told apart by a contract only. unitdb is an ideal
table of records here (C15 to C38 and C68 to C80 are about it): `hits` says which topics a topic reads, `limit` is the limit of a query.
-/

namespace Verif

/-- A record of unitdb. -/
structure TabRow where
  id : Nat
  contract : UInt32
  topic : Bytes
  payload : Bytes
  deriving DecidableEq, Repr

/-- The database, newest record first, and the next id it draws. -/
structure TabDb where
  rows : List TabRow := []
  next : Nat := 0
  deriving DecidableEq, Repr

structure TabEnv where
  hits : Bytes → Bytes → Bool
  limit : Nat

/-- store.go:34. -/
def connStoreId : UInt32 := 4105991048

/-- db_internal.go:259-261, query.go:91-93: contract 0 stands for `message.MasterContract` (message/id.go:28). -/
def dbContract (k : UInt32) : UInt32 := if k = 0 then 3376684800 else k

/-- db/unitdb/adapter.go:131-137 `Put` and 140-146 `PutWithID` with an id just drawn. -/
def TabDb.put (d : TabDb) (k : UInt32) (topic payload : Bytes) : TabDb :=
  { rows := ⟨d.next, dbContract k, topic, payload⟩ :: d.rows, next := d.next + 1 }

/-- adapter.go:150-158 `Get`. -/
def TabDb.get (v : TabEnv) (d : TabDb) (k : UInt32) (topic : Bytes) : List Bytes :=
  ((d.rows.filter fun r => r.contract == dbContract k && v.hits r.topic topic).take v.limit).map (·.payload)

/-- adapter.go:170-174 `Delete`: unitdb deletes by the id. -/
def TabDb.delete (d : TabDb) (id : Nat) : TabDb := { d with rows := d.rows.filter (·.id != id) }

/-- store.go:136-138 `Subscription.Put`. -/
def TabDb.subscribe (d : TabDb) (k : UInt32) (topic payload : Bytes) : TabDb := d.put (k ^^^ connStoreId) topic payload

/-- store.go:140-150 `Subscription.Get`. -/
def TabDb.subscriptions (v : TabEnv) (d : TabDb) (k : UInt32) (topic : Bytes) : List Bytes := d.get v (k ^^^ connStoreId) topic

/-- store.go:166-168 `Message.Put`. -/
def TabDb.publish (d : TabDb) (k : UInt32) (topic payload : Bytes) : TabDb := d.put k topic payload

/-- store.go:170-181 `Message.Get`, of the payloads. -/
def TabDb.messages (v : TabEnv) (d : TabDb) (k : UInt32) (topic : Bytes) : List Bytes := d.get v k topic

/-- conn.go:265-267: the delivery mode, the connection and the delay of a stored subscription; `none`: the slice is out of range and the server panics. -/
def readSubscription (payload : Bytes) : Option (UInt8 × UInt32 × UInt32) :=
  payload.head?.bind fun mode => (get32 payload 1).bind fun conn => (get32 payload 5).map fun delay => (mode, conn, delay)

/-- conn.go:206-209. -/
def writeSubscription (mode : UInt8) (conn delay : UInt32) : Bytes := mode :: (put32 conn ++ put32 delay)

/-- What the server does with the two stores: a client subscribes or leaves a subscription, publishes. -/
inductive TabCall where
  | sub (k : UInt32) (topic : Bytes) (mode : UInt8) (conn delay : UInt32)
  | unsub (id : Nat)
  | pub (k : UInt32) (topic payload : Bytes)
  deriving DecidableEq, Repr

def TabDb.call (d : TabDb) : TabCall → TabDb
  | .sub k topic mode conn delay => d.subscribe k topic (writeSubscription mode conn delay)
  | .unsub id => d.delete id
  | .pub k topic payload => d.publish k topic payload

end Verif
