import Verif.Model.Credentials

/-!
# The state a server keeps per connection

Message identifiers (server/internal/message/messageids.go), subscription counting (sub.go), the message log and
sessions (server/internal/store/store.go, the session part of hdl_conn.go and `resume` of conn.go), and
the subscribe and unsubscribe handlers of conn.go.

The adapter below the message log is memdb; here it is an ideal map. Delivery to the client is not modelled beyond the
list of notifications.
-/

namespace Verif

/-! ## Message identifiers -/

/-- messageids.go:26-33 `MessageIds`. The 32 bits of `MID` (an int32) are kept as a `UInt32`; only
increments, equality and truncation are used. -/
structure MIds where
  id : UInt32
  resume : List UInt32
  index : List UInt32
  deriving DecidableEq, Repr

/-- messageids.go:35-40 `NewMessageIds`. -/
def MIds.new : MIds := ⟨0, [], []⟩

/-- messageids.go:48-52 `ResumeID`. -/
def MIds.resumeID (m : MIds) (i : UInt32) : MIds := { m with resume := i :: m.resume }

/-- messageids.go:54-58 `FreeID`. -/
def MIds.freeID (m : MIds) (i : UInt32) : MIds := { m with index := m.index.filter (· != i) }

/-- messageids.go:60-69 `NextID`; `none`: the call never returns, because it calls itself while it holds
the lock, which is not reentrant. -/
def MIds.nextID (m : MIds) : Option (UInt32 × MIds) :=
  let i := m.id + 1
  if i ∈ m.resume then none else some (i, { m with id := i, index := i :: m.index })

/-- conn.go:132, 271, batch.go:192, 205: the identifier written into the packet. -/
def wireID (i : UInt32) : UInt16 := i.toUInt16

/-! ## Subscription counting -/

/-- sub.go:83-87 `Stat`. -/
structure SubStat where
  id : Bytes
  topic : Bytes
  counter : Int
  deriving DecidableEq, Repr

/-- sub.go:78-81 `Stats`: a map from keys. -/
abbrev SubStats := Bytes → Option SubStat

/-- sub.go:97-111 `Increment`: whether this is the first, and the new map. -/
def SubStats.increment (s : SubStats) (topic key id : Bytes) : Bool × SubStats :=
  let stat := (s key).getD ⟨id, topic, 0⟩
  let stat := { stat with counter := stat.counter + 1 }
  (stat.counter == 1, fun k => if k = key then some stat else s k)

/-- sub.go:114-128 `Decrement`: whether this was the last, the identifier it had, and the new map. -/
def SubStats.decrement (s : SubStats) (key : Bytes) : Bool × Option Bytes × SubStats :=
  match s key with
  | none => (false, none, s)
  | some stat =>
    let c := stat.counter - 1
    if c ≤ 0 then (true, some stat.id, fun k => if k = key then none else s k)
    else (false, none, fun k => if k = key then some { stat with counter := c } else s k)

/-- sub.go:131-139 `Exist`. -/
def SubStats.exists (s : SubStats) (key : Bytes) : Bool := (s key).isSome

/-- sub.go:90-94 `NewStats`. -/
def SubStats.new : SubStats := fun _ => none

/-! ## Subscribing -/

/-- What subscribing changes: the counts of the connection and the subscriptions in the subscription
store, as identifier and topic. -/
structure SubState where
  subs : SubStats
  stored : List (Bytes × Bytes)

/-- conn.go:181-188: the key a subscribe counts under. -/
def subscribeKey (contract : UInt32) (t : ReqTopic) : Option Bytes :=
  if t.key = [] then generateKey contract t.topic 0 else some t.key

/-- conn.go:176-216 `subscribe` on the node that owns the contract, with `id` the identifier that
`store.Subscription.NewID` returned; `none`: an error, nothing changed. -/
def subscribe (contract : UInt32) (st : SubState) (t : ReqTopic) (id : Bytes) : Option SubState :=
  (subscribeKey contract t).map fun key =>
    let (first, subs) := st.subs.increment (t.topic.take t.size) key id
    { subs, stored := if first then (id, t.topic) :: st.stored else st.stored }

/-- conn.go:219-247 `unsubscribe` on the node that owns the contract. -/
def unsubscribe (st : SubState) (t : ReqTopic) : SubState :=
  match st.subs.decrement t.key with
  | (true, some id, subs) => { subs, stored := st.stored.filter (·.1 != id) }
  | (_, _, subs) => { st with subs }

/-! ## The message log and sessions -/

/-- store.go:203, 220, 238, hdl_conn.go:254: the key of a packet. -/
def packetKey (mid : UInt16) (block : UInt32) : UInt64 := (mid.toUInt64 <<< 32) + block.toUInt64

/-- store.go:295-297 `evalPrefix`. -/
def inBlock (block : UInt32) (key : UInt64) : Bool := block.toUInt64 == key &&& 0xFFFFFFFF

/-- The adapter's map from keys to raw messages (adapter.go:183-213), newest entry first. -/
abbrev LogMap := List (UInt64 × Bytes)

/-- adapter.go:183-188 `PutMessage`. -/
def LogMap.put (l : LogMap) (k : UInt64) (v : Bytes) : LogMap := (k, v) :: l.filter (·.1 != k)

/-- adapter.go:208-213 `DeleteMessage`. -/
def LogMap.delete (l : LogMap) (k : UInt64) : LogMap := l.filter (·.1 != k)

/-- adapter.go:191-197 `GetMessage`. -/
def LogMap.get (l : LogMap) (k : UInt64) : Option Bytes := (l.find? (·.1 == k)).map (·.2)

/-- store.go:266-275 `Keys`. -/
def LogMap.keysOf (l : LogMap) (block : UInt32) : List UInt64 := (l.map (·.1)).filter (inBlock block)

/-- store.go:283-290 `Reset`. -/
def LogMap.reset (l : LogMap) (block : UInt32) : LogMap :=
  (l.map (·.1)).foldl (fun acc k => if inBlock block k then acc.delete k else acc) l

/-- store.go:197-210, 213-222 `PersistOutbound` of a publish, `PersistInbound` of a receipt. -/
def LogMap.persist (l : LogMap) (block : UInt32) (mid : UInt16) (raw : Bytes) : LogMap := l.put (packetKey mid block) raw

/-- What reading a logged packet yields (`lp.Read`): a publish with its message id, or another packet. -/
inductive LogPacket where
  | publish (mid : UInt16)
  | other
  deriving DecidableEq, Repr

/-- conn.go:313-341 `resume`: the message ids the client is notified of, and the log afterwards.
`read` is `lp.Read` of a raw message. -/
def resume (read : Bytes → Option LogPacket) (l : LogMap) (block : UInt32) : List UInt16 × LogMap :=
  (l.keysOf block).foldl (fun (acc : List UInt16 × LogMap) k =>
    match (acc.2.get k).bind read with
    | none => acc
    | some p =>
      if k &&& 16 = 0 then
        match p with
        | .publish mid => (acc.1 ++ [mid], acc.2)
        | .other => (acc.1, acc.2.delete k)
      else (acc.1, acc.2.delete k)) ([], l)

/-- hdl_conn.go:134-139: the key of a session; an int32, which converts to uint64 with its sign. -/
def sessionKey (asked : UInt32) (epoch : UInt32) : UInt64 :=
  let k := if asked ≠ 0 then asked else epoch
  if k < 0x80000000 then k.toUInt64 else k.toUInt64 ||| 0xFFFFFFFF00000000

/-- The 4 little-endian bytes of a session record (hdl_conn.go:152-153). -/
def sessionRecord (lid : UInt32) : Bytes := leBytes 4 lid.toNat

/-- hdl_conn.go:144 `binary.LittleEndian.Uint32(rawSess[:4])`; `none`: the slice panics. -/
def sessionOf (raw : Bytes) : Option UInt32 := if raw.length < 4 then none else some (UInt32.ofNat (leNat (raw.take 4)))

/-- A connection's ids (conn.go:71-92). -/
structure ConnIds where
  connID : UInt32
  sessID : UInt32
  deriving DecidableEq, Repr

/-- hdl_conn.go:134-157, the session part of CONNECT, for a new connection `lid`: the log, the ids of the
connection and the notifications; `none`: a stored record is too short and the handler panics. -/
def connectSession (read : Bytes → Option LogPacket) (l : LogMap) (lid asked epoch : UInt32) (clean : Bool) :
    Option (LogMap × ConnIds × List UInt16) :=
  let key := sessionKey asked epoch
  let found : Option (LogMap × UInt32 × List UInt16) :=
    match l.get key with
    | none => some (l, lid, [])
    | some raw =>
      (sessionOf raw).map fun s =>
        if clean then (l.reset s, s, []) else let r := resume read l s; (r.2, s, r.1)
  found.map fun (l, sess, notes) =>
    -- the record written is that of the new connection: the inner `sessID` hides the outer one
    let l := l.put key (sessionRecord lid)
    let l := if asked ≠ 0 ∧ asked ≠ epoch then l.put epoch.toUInt64 (sessionRecord lid) else l
    (l, ⟨lid, sess⟩, notes)

end Verif
