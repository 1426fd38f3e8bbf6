import Verif.Model.ServerState
import Verif.Base.AMap

/-!
# Subscribing, publishing and delivering

One server without a cluster: server/internal/conn.go and server/internal/hdl_conn.go, every packet of every connection. The
subscription store is an ideal table (unitdb below it is the subject of C15 to C38 and C68 to C80), the message log is the map of
`ServerState`. A packet is handled in one step: the goroutines that `onPublish` starts for the messages of a packet run in order before the
next packet. A packet put on the channels of a connection counts as sent: the timeout of 30 seconds of `SendMessage` is left out. What a
batch manager does with the messages it gets is the subject of C58.
-/

namespace Verif

/-- utp/publish.go:27-31 `PublishMessage` without the time to live, which is for the message store. -/
structure DMsg where
  topic : Bytes
  payload : Bytes
  deriving DecidableEq, Repr

/-- utp/publish.go:34-39 `Publish`. -/
structure DPub where
  mid : UInt16
  mode : UInt8
  msgs : List DMsg
  deriving DecidableEq, Repr

/-- A packet of the message log. -/
inductive LogItem where
  | pub (p : DPub)
  | receipt (mid : UInt16)
  deriving DecidableEq, Repr

/-- What the server sends to a client. -/
inductive Sent where
  | connack (ok : Bool)
  | ack
  | acked (mid : UInt16)
  | notify (mid : UInt16)
  | complete (mid : UInt16)
  | pub (p : DPub)
  deriving DecidableEq, Repr

/-- What the message store does with a message: store it, return an error (no payload, or sizes that C75 refuses) or panic (C71). -/
inductive PutOut where
  | stored
  | refused
  | panics
  deriving DecidableEq, Repr

/-- What the model does not fix: the cipher of client ids, the codec of packets in the message log, which subscribed topics a published
topic hits, the limit of a query (options.go:171), the texts of error messages and of the answers to API requests, which payloads ask for a key, and what
the message store does with a message on a topic (taken to be the same each time). The store is taken to accept every subscription. -/
structure SrvEnv where
  mac : Mac
  enc : LogItem → Bytes
  dec : Bytes → Option LogItem
  hits : Bytes → Bytes → Bool
  limit : Nat
  errorText : Verdict → UInt16 → Bytes
  answer : Bytes → Bytes → Bytes
  asksKey : Bytes → Bool
  puts : Bytes → Bytes → PutOut
  putError : UInt16 → Bytes

/-- A stored subscription: contract, topic and the 9 bytes of its payload (conn.go:203-206). -/
structure SubEntry where
  contract : UInt32
  topic : Bytes
  mode : UInt8
  conn : UInt32
  delay : UInt32
  deriving DecidableEq, Repr

/-- message/sub.go:82-87 `Stat`, the id being that of the stored subscription. -/
structure SubCount where
  id : Nat
  topic : Bytes
  counter : Nat
  deriving DecidableEq, Repr

/-- conn.go:41-67 `_Conn`; `batch` is the batch manager with the messages it was given. -/
structure SrvConn where
  client : Option Bytes := none
  insecure : Bool := false
  sess : UInt32
  ids : MIds := .new
  subs : AMap Bytes SubCount := []
  batch : Option (List (UInt32 × DMsg)) := none
  deriving DecidableEq, Repr

/-- The server: the connections of the cache (conn_cache.go), the subscription store, newest first, with the next id it hands out, the message
log, the client cache and everything sent, in order. -/
structure Srv where
  conns : AMap UInt32 SrvConn := []
  stored : List (Nat × SubEntry) := []
  nextId : Nat := 0
  log : LogMap := []
  cache : ClientCache := []
  out : List (UInt32 × Sent) := []
  deriving DecidableEq, Repr

/-- How the handling of a packet can fail to end: a panic, which no one recovers, or a goroutine that waits forever. -/
inductive SrvHalt where
  | panic
  | hang
  deriving DecidableEq, Repr

abbrev SrvM := Except SrvHalt

instance {α : Type} [DecidableEq α] : DecidableEq (SrvM α) := fun a b =>
  match a, b with
  | .ok x, .ok y => if h : x = y then isTrue (h ▸ rfl) else isFalse (fun e => h (by injection e))
  | .error x, .error y => if h : x = y then isTrue (h ▸ rfl) else isFalse (fun e => h (by injection e))
  | .ok _, .error _ => isFalse (fun e => by cases e)
  | .error _, .ok _ => isFalse (fun e => by cases e)

/-- pkg/uid/clientid.go:82-84 `Contract` of the client id of a connection; it panics while there is none. -/
def SrvConn.contract (c : SrvConn) : SrvM UInt32 :=
  match c.client.bind cidContract with
  | none => .error .panic
  | some k => .ok k

def Srv.setConn (s : Srv) (q : UInt32) (c : SrvConn) : Srv := { s with conns := AMap.set s.conns q c }

def Srv.emit (s : Srv) (q : UInt32) (x : Sent) : Srv := { s with out := s.out ++ [(q, x)] }

/-- store/store.go:204-227 `PersistOutbound` of a publish, 230-247 `PersistInbound` of a receipt. -/
def Srv.persist (v : SrvEnv) (s : Srv) (block : UInt32) (mid : UInt16) (x : LogItem) : Srv := { s with log := s.log.persist block mid (v.enc x) }

/-- conn.go:131-133 and 269-271: a message without an id draws one. -/
def SrvConn.draw (c : SrvConn) (mid : UInt16) : SrvM (UInt16 × SrvConn) :=
  if mid ≠ 0 then .ok (mid, c)
  else
    match c.ids.nextID with
    | none => .error .hang
    | some (i, ids) => .ok (wireID i, { c with ids })

/-- `msg.Delay > 0` for the int32 made of four stored bytes. -/
def delayed (d : UInt32) : Bool := 0 < d && d < 0x80000000

/-- conn.go:126-157 `SendMessage` to connection `q`; the id is written back into the message. -/
def Srv.sendMessage (v : SrvEnv) (s : Srv) (q : UInt32) (mid : UInt16) (mode : UInt8) (delay : UInt32) (m : DMsg) : SrvM (UInt16 × Srv) :=
  match AMap.get s.conns q with
  | none => .ok (mid, s)
  | some c =>
    (c.draw mid).bind fun d =>
      if mode = 2 ∨ delayed delay = true then
        match d.2.batch with
        | none => .error .panic
        | some b => .ok (d.1, s.setConn q { d.2 with batch := some (b ++ [(delay, m)]) })
      else
        let p : DPub := ⟨d.1, mode, [m]⟩
        .ok (d.1, ((s.setConn q d.2).persist v q d.1 (.pub p)).emit q (.pub p))

/-- conn.go:264-304, one subscription of the loop of `publish`, for a packet of connection `p`: the message id used so far and the server. -/
def Srv.deliver (v : SrvEnv) (p : UInt32) (pub : DPub) (m : DMsg) (x : UInt16 × Srv) (e : SubEntry) : SrvM (UInt16 × Srv) :=
  match AMap.get x.2.conns e.conn, AMap.get x.2.conns p with
  | some _, some c =>
    (c.draw x.1).bind fun d =>
      let s := x.2.setConn p d.2
      if pub.mode = 1 ∨ pub.mode = 2 then
        if e.mode = 1 ∨ e.mode = 2 then
          match AMap.get s.conns e.conn with
          | none => .ok (d.1, s)
          | some sub => .ok (d.1, (s.persist v sub.sess pub.mid (.pub pub)).emit e.conn (.notify d.1))
        else if e.mode = 0 then s.sendMessage v e.conn d.1 e.mode e.delay m
        else .ok (d.1, s)
      else if pub.mode = 0 then s.sendMessage v e.conn d.1 e.mode e.delay m
      else .ok (d.1, s)
  | _, _ => .ok x

/-- store/store.go:140-149 `Subscription.Get`: unitdb returns the newest ones first, at most as many as the limit of a query. -/
def Srv.matching (v : SrvEnv) (s : Srv) (contract : UInt32) (topic : Bytes) : List SubEntry :=
  ((s.stored.map (·.2)).filter fun e => e.contract == contract && v.hits e.topic topic).take v.limit

/-- `foldlM` for `SrvM`. -/
def SrvM.fold {α β : Type} (f : α → β → SrvM α) : α → List β → SrvM α
  | a, [] => .ok a
  | a, b :: bs => (f a b).bind fun a => SrvM.fold f a bs

/-- conn.go:248-311 `publish` without a cluster. -/
def Srv.publish (v : SrvEnv) (s : Srv) (p : UInt32) (c : SrvConn) (pub : DPub) (t : ReqTopic) (payload : Bytes) : SrvM Srv :=
  c.contract.bind fun k =>
    (SrvM.fold (Srv.deliver v p pub ⟨t.topic.take t.size, payload⟩) (pub.mid, s) (s.matching v k t.topic)).map (·.2)

/-- hdl_conn.go:388-398, 414-425, 449-457: the check of a request; the contract is asked for after the key. -/
def SrvConn.check (c : SrvConn) (t : ReqTopic) : SrvM Verdict :=
  if c.insecure then .ok (.granted false)
  else
    match keyDecode t.key with
    | none => .ok .badRequest
    | some k => if !hasPermission k allowRead then .ok .unauthorized else c.contract.map fun n => onSecureRequest n t

def errorTopic : Bytes := "unitdb/error/".toUTF8.toList
def clientIdTopic : Bytes := "unitdb/clientid/".toUTF8.toList
def apiPrefix : Bytes := "unitdb/".toUTF8.toList

/-- conn.go:355-363 `notifyError`. -/
def Srv.notifyError (v : SrvEnv) (s : Srv) (q : UInt32) (e : Verdict) (mid : UInt16) : SrvM Srv :=
  (s.sendMessage v q 0 0 0 ⟨errorTopic, v.errorText e mid⟩).map (·.2)

/-- message.Contract, the salt of `Target` (message/sub.go:34). -/
def messageContract : UInt32 := 3376684800

/-- hdl_conn.go:40-43. -/
def requestClientId : UInt32 := 2682859131
def requestKeygen : UInt32 := 812942072

/-- hdl_conn.go:510-588 `onSpecialRequest`, `onClientIDRequest`, `onKeyGen`: they read the client id; the answer is sent as a message. -/
def Srv.special (v : SrvEnv) (s : Srv) (q : UInt32) (c : SrvConn) (t : ReqTopic) (payload : Bytes) : SrvM Srv :=
  let topic := t.topic.take t.size
  let target := serverHash topic messageContract
  let reads := topic ≠ [] ∧ (target = requestClientId ∨ target = requestKeygen ∧ v.asksKey payload = true)
  if reads ∧ c.client = none then .error .panic
  else (s.sendMessage v q 0 0 0 ⟨apiPrefix ++ topic, v.answer topic payload⟩).map (·.2)

/-- How a publish packet ends. -/
inductive PubEnd where
  | acked
  | silent
  | refused
  | failed (e : Verdict)
  deriving DecidableEq, Repr

/-- hdl_conn.go:434-467, the loop of `onPublish`. -/
def Srv.publishAll (v : SrvEnv) (q : UInt32) (pub : DPub) : List DMsg → Srv → SrvM (PubEnd × Srv)
  | [], s => .ok (.acked, s)
  | m :: ms, s =>
    match AMap.get s.conns q, parseRequest m.topic with
    | none, _ => .ok (.silent, s)
    | some _, none => .error .panic
    | some c, some t =>
      if !t.valid then .ok (.failed .badRequest, s)
      else if t.key = specialKey then (s.special v q c t m.payload).map fun s => (.silent, s)
      else
        (c.check t).bind fun w =>
          match w with
          | .granted true => .ok (.failed .forbidden, s)
          | .granted false =>
            c.contract.bind fun _ =>
              match v.puts t.topic m.payload with
              | .stored => (s.publish v q c pub t m.payload).bind fun s => Srv.publishAll v q pub ms s
              | .refused => .ok (.refused, s)
              | .panics => .error .panic
          | e => .ok (.failed e, s)

/-- hdl_conn.go:220-225 and 469-486: the whole PUBLISH packet. -/
def Srv.onPublish (v : SrvEnv) (s : Srv) (q : UInt32) (pub : DPub) : SrvM Srv :=
  (s.publishAll v q pub pub.msgs).bind fun r =>
    match r.1 with
    | .acked => .ok (r.2.emit q (.acked pub.mid))
    | .silent => .ok r.2
    | .refused => (r.2.sendMessage v q 0 0 0 ⟨errorTopic, v.putError pub.mid⟩).map (·.2)
    | .failed e => r.2.notifyError v q e pub.mid

/-- A subscription of a SUBSCRIBE packet. -/
structure SubAsk where
  text : Bytes
  mode : UInt8
  delay : UInt32
  deriving DecidableEq, Repr

/-- conn.go:180-219 `subscribe` without a cluster: a fresh id is drawn in any case. -/
def Srv.subscribeTo (s : Srv) (q : UInt32) (c : SrvConn) (t : ReqTopic) (a : SubAsk) : SrvM (Option Verdict × Srv) :=
  c.contract.bind fun k =>
    match subscribeKey k t with
    | none => .ok (some .badRequest, s)
    | some key =>
      let st := (AMap.get c.subs key).getD ⟨s.nextId, t.topic.take t.size, 0⟩
      let st := { st with counter := st.counter + 1 }
      let s' := ({ s with nextId := s.nextId + 1 } : Srv).setConn q { c with subs := AMap.set c.subs key st }
      .ok (none, if st.counter = 1 then { s' with stored := (s.nextId, ⟨k, t.topic, a.mode, q, a.delay⟩) :: s'.stored } else s')

/-- conn.go:222-245 `unsubscribe` without a cluster, message/sub.go:113-127. -/
def Srv.unsubscribeFrom (s : Srv) (q : UInt32) (c : SrvConn) (t : ReqTopic) : SrvM (Option Verdict × Srv) :=
  c.contract.bind fun _ =>
    match AMap.get c.subs t.key with
    | none => .ok (none, s)
    | some st =>
      if st.counter ≤ 1 then
        .ok (none, { s.setConn q { c with subs := AMap.del c.subs t.key } with stored := s.stored.filter (·.1 != st.id) })
      else .ok (none, s.setConn q { c with subs := AMap.set c.subs t.key { st with counter := st.counter - 1 } })

/-- hdl_conn.go:384-431 `onSubscribe`, `onUnsubscribe`: the checks before the work `f`; an error is sent to the client. -/
def Srv.request (v : SrvEnv) (s : Srv) (q : UInt32) (mid : UInt16) (text : Bytes) (f : SrvConn → ReqTopic → SrvM (Option Verdict × Srv)) : SrvM Srv :=
  match AMap.get s.conns q, parseRequest text with
  | none, _ => .ok s
  | some _, none => .error .panic
  | some c, some t =>
    if !t.valid then s.notifyError v q .badRequest mid
    else
      (c.check t).bind fun w =>
        match w with
        | .granted _ => (f c t).bind fun r =>
          match r.1 with
          | none => .ok r.2
          | some e => r.2.notifyError v q e mid
        | e => s.notifyError v q e mid

/-- conn.go:389-424 `close`: the subscriptions are deleted by their ids and the connection leaves the cache. -/
def Srv.close (s : Srv) (q : UInt32) : SrvM Srv :=
  match AMap.get s.conns q with
  | none => .ok s
  | some c =>
    if c.subs ≠ [] ∧ c.client.bind cidContract = none then .error .panic
    else .ok { s with conns := AMap.del s.conns q, stored := s.stored.filter fun e => !c.subs.any (·.2.id == e.1) }

/-- What `resume` reads in the log (conn.go:322-336). -/
def SrvEnv.read (v : SrvEnv) (raw : Bytes) : Option LogPacket :=
  (v.dec raw).map fun x => match x with
    | .pub p => .publish p.mid
    | .receipt _ => .other

/-- hdl_conn.go:93-158 CONNECT, for the client id `text`; `epoch` is that of a cached client id and `fresh` the text of the id sent to a client whose id is invalid. -/
def Srv.onConnectPacket (v : SrvEnv) (s : Srv) (q : UInt32) (text : Bytes) (epoch : UInt32) (fresh : Bytes) (insecure : Bool) (asked : UInt32)
    (clean : Bool) : SrvM Srv :=
  match AMap.get s.conns q with
  | none => .ok s
  | some c =>
    let c := { c with insecure }
    match onConnect v.mac s.cache epoch text with
    | (.invalid, cache) =>
      ((({ s with cache } : Srv).setConn q c).emit q (.connack false)).sendMessage v q 0 0 0 ⟨clientIdTopic, fresh⟩ |>.bind fun r => r.2.close q
    | (.accepted id, cache) =>
      match cidEpoch id with
      | none => .error .panic
      | some ep =>
        match connectSession v.read s.log c.sess asked ep clean with
        | none => .error .panic
        | some (log, ids, notes) =>
          let c := { c with client := some id, sess := ids.sessID, batch := some [], ids := notes.foldl (fun m n => m.resumeID n.toUInt32) { c.ids with id := 0 } }
          let s := (({ s with cache, log } : Srv).setConn q c).emit q (.connack true)
          .ok (notes.foldl (fun s n => s.emit q (.notify n)) s)

/-- The packets a client sends. A relay request comes with what the message store returned for it (hdl_conn.go:349-381). -/
inductive Packet where
  | connect (text : Bytes) (epoch : UInt32) (fresh : Bytes) (insecure : Bool) (asked : UInt32) (clean : Bool)
  | subscribe (mid : UInt16) (asks : List SubAsk)
  | unsubscribe (mid : UInt16) (texts : List Bytes)
  | relay (mid : UInt16) (asks : List (Bytes × List Bytes))
  | publish (p : DPub)
  | receive (mid : UInt16)
  | receipt (mid : UInt16)
  | ping
  | disconnect
  deriving DecidableEq, Repr

/-- hdl_conn.go:349-381 `onRelay`: every message is sent with delivery mode 2. -/
def Srv.relayOne (v : SrvEnv) (q : UInt32) (mid : UInt16) (s : Srv) (a : Bytes × List Bytes) : SrvM Srv :=
  s.request v q mid a.1 fun c t =>
    c.contract.bind fun _ =>
      (SrvM.fold (fun s m => (s.sendMessage v q 0 2 0 ⟨t.topic, m⟩).map (·.2)) s a.2).map fun s => (none, s)

/-- hdl_conn.go:83-269 `handler`. -/
def Srv.handle (v : SrvEnv) (s : Srv) (q : UInt32) : Packet → SrvM Srv
  | .connect text epoch fresh insecure asked clean => s.onConnectPacket v q text epoch fresh insecure asked clean
  | .subscribe mid asks =>
    (SrvM.fold (fun s a => s.request v q mid a.text fun c t => s.subscribeTo q c t a) s asks).map fun s => s.emit q (.acked mid)
  | .unsubscribe mid texts =>
    (SrvM.fold (fun s text => s.request v q mid text fun c t => s.unsubscribeFrom q c t) s texts).map fun s => s.emit q (.acked mid)
  | .relay mid asks => (SrvM.fold (Srv.relayOne v q mid) s asks).map fun s => s.emit q (.acked mid)
  | .publish p => s.onPublish v q p
  | .receive mid =>
    match AMap.get s.conns q with
    | none => .ok s
    | some c =>
      match (s.log.get (packetKey mid c.sess)).bind v.dec with
      | none => s.close q
      | some (.pub p) => .ok (s.emit q (.pub p))
      | some (.receipt _) => .ok s
  | .receipt mid =>
    match AMap.get s.conns q with
    | none => .ok s
    | some c =>
      let s := if c.client = none then s else { s with log := (s.log.persist c.sess mid (v.enc (.receipt mid))).delete (packetKey mid c.sess) }
      .ok (s.emit q (.complete mid))
  | .ping => .ok (s.emit q .ack)
  | .disconnect => s.close q

/-- What happens at a server: a connection is accepted with a new id (conn.go:70-92), sends a packet, or is lost. -/
inductive SrvEv where
  | accept (q : UInt32)
  | packet (q : UInt32) (p : Packet)
  | lost (q : UInt32)
  deriving DecidableEq, Repr

def Srv.step (v : SrvEnv) (s : Srv) : SrvEv → SrvM Srv
  | .accept q => .ok (s.setConn q { sess := q })
  | .packet q p => match AMap.get s.conns q with
    | none => .ok s
    | some _ => s.handle v q p
  | .lost q => s.close q

def Srv.run (v : SrvEnv) (s : Srv) (evs : List SrvEv) : SrvM Srv := SrvM.fold (Srv.step v) s evs

end Verif
