import Verif.Model.Delivery
import Verif.Model.MsgStore

/-!
# A server with its database

server/internal/conn.go and server/internal/hdl_conn.go as in `Model/Delivery`, with every call to the subscription store and to the message store made to
the database of `Model/Db`. The list `stored` of `Srv` is kept but nothing reads it: what `publish` finds is what the database returns. A relay request of
`Packet` comes with its answers; `WholeEv.relay` is one whose answers are looked up. One server without a cluster.
-/

namespace Verif

/-- What a call to the stores meets: the clock when its query or its time to live is made and the one of the database, the time to live of the message
(which `DMsg` leaves out), and the order of the maps of the database. -/
structure CallEnv where
  made : Int
  now : Int
  ttl : Bytes
  g : GetEnv

/-- The calls to the database. The last three are its own work. -/
inductive StoreCall where
  | draw (now : Int)
  | putSub (now : Int) (k : UInt32) (id topic payload : Bytes)
  | putMsg (made now : Int) (k : UInt32) (topic payload ttl : Bytes)
  | getSubs (made : Int) (g : GetEnv) (k : UInt32) (topic : Bytes)
  | getMsgs (made : Int) (g : GetEnv) (k : UInt32) (topic last : Bytes)
  | delSub (k : UInt32) (id topic : Bytes)
  | rotate (t : Int)
  | write (id t : Int)
  | sync (e : SyncEnv)

/-- The environments of the server and of its database; `env n` is what the `n`-th call meets. -/
structure WholeEnv where
  srv : SrvEnv
  db : DbEnv
  ok : Bytes → Bool
  env : Nat → CallEnv

/-- What a call does to the database. -/
def Db.called (x : WholeEnv) (s : Db) : StoreCall → Db
  | .draw now => (s.newId now).1
  | .putSub now k id topic payload => (s.putEntry x.db now (subscriptionEntry k id topic payload)).1
  | .putMsg made now k topic payload ttl => (s.putEntry x.db now (messageEntry x.db.dur made k topic payload ttl)).1
  | .getSubs made g k topic => (s.getSubscriptions x.db x.ok made g k topic).1
  | .getMsgs made g k topic last => (s.getMessages x.db x.ok made g k topic last).1
  | .delSub k id topic => (s.deleteSubscription x.db k id topic).1
  | .rotate t => { s with mem := s.mem.rotate t }
  | .write id t => { s with mem := s.mem.write id t false }
  | .sync e => match s.sync e with
    | none => s
    | some r => r.1

/-- The server, its database, the ids under which its subscriptions are stored, and the calls made so far, newest first. -/
structure Whole where
  srv : Srv := {}
  db : Db
  ids : AMap Nat Bytes := []
  calls : List StoreCall := []

/-- A call. -/
def Whole.did (x : WholeEnv) (w : Whole) (c : StoreCall) : Whole := { w with db := w.db.called x c, calls := c :: w.calls }

/-- What the next call meets. -/
def Whole.next (x : WholeEnv) (w : Whole) : CallEnv := x.env w.calls.length

/-- Work of the server without its stores. -/
def Whole.onSrv (w : Whole) (f : Srv → SrvM Srv) : SrvM Whole := (f w.srv).map fun s => { w with srv := s }

/-- conn.go:264-267 for the subscriptions the store returned; `none`: one of them is too short. -/
def readSubscriptions : List Bytes → Option (List SubEntry)
  | [] => some []
  | b :: bs => (readSubscription b).bind fun r => (readSubscriptions bs).map fun l => ⟨0, [], r.1, r.2.1, r.2.2⟩ :: l

/-- conn.go:248-311 `publish`. It runs in a goroutine of its own (hdl_conn.go:467): an error of the store is logged. -/
def Whole.publish (x : WholeEnv) (w : Whole) (p : UInt32) (c : SrvConn) (pub : DPub) (t : ReqTopic) (payload : Bytes) : SrvM Whole :=
  c.contract.bind fun k =>
    let e := w.next x
    let w' := w.did x (.getSubs e.made e.g k t.topic)
    match (w.db.get x.db e.g (storeQuery x.db.dur x.ok e.made (k ^^^ connStoreId) t.topic []) []).2 with
    | .out (.ok items) =>
      match readSubscriptions items with
      | none => .error .panic
      | some l => (SrvM.fold (Srv.deliver x.srv p pub ⟨t.topic.take t.size, payload⟩) (pub.mid, w.srv) l).map fun r => { w' with srv := r.2 }
    | .out .panic => .error .panic
    | .out .running => .error .hang
    | _ => .ok w'

/-- hdl_conn.go:434-467, the loop of `onPublish`. -/
def Whole.publishAll (x : WholeEnv) (q : UInt32) (pub : DPub) : List DMsg → Whole → SrvM (PubEnd × Whole)
  | [], w => .ok (.acked, w)
  | m :: ms, w =>
    match AMap.get w.srv.conns q, parseRequest m.topic with
    | none, _ => .ok (.silent, w)
    | some _, none => .error .panic
    | some c, some t =>
      if !t.valid then .ok (.failed .badRequest, w)
      else if t.key = specialKey then (w.srv.special x.srv q c t m.payload).map fun s => (.silent, { w with srv := s })
      else
        (c.check t).bind fun g =>
          match g with
          | .granted true => .ok (.failed .forbidden, w)
          | .granted false =>
            c.contract.bind fun k =>
              let e := w.next x
              let w' := w.did x (.putMsg e.made e.now k t.topic m.payload e.ttl)
              match (w.db.putEntry x.db e.now (messageEntry x.db.dur e.made k t.topic m.payload e.ttl)).2.2 with
              | .ok => (w'.publish x q c pub t m.payload).bind fun w => Whole.publishAll x q pub ms w
              | .err _ => .ok (.refused, w')
              | .panic => .error .panic
              | .hang => .error .hang
          | e => .ok (.failed e, w)

/-- hdl_conn.go:220-225 and 469-486: the whole PUBLISH packet. -/
def Whole.onPublish (x : WholeEnv) (w : Whole) (q : UInt32) (pub : DPub) : SrvM Whole :=
  (w.publishAll x q pub pub.msgs).bind fun r =>
    match r.1 with
    | .acked => .ok { r.2 with srv := r.2.srv.emit q (.acked pub.mid) }
    | .silent => .ok r.2
    | .refused => r.2.onSrv fun s => (s.sendMessage x.srv q 0 0 0 ⟨errorTopic, x.srv.putError pub.mid⟩).map (·.2)
    | .failed e => r.2.onSrv fun s => s.notifyError x.srv q e pub.mid

/-- conn.go:180-219 `subscribe`; with the text of the error that is sent to the client. -/
def Whole.subscribeTo (x : WholeEnv) (w : Whole) (q : UInt32) (mid : UInt16) (c : SrvConn) (t : ReqTopic) (a : SubAsk) : SrvM (Option Bytes × Whole) :=
  c.contract.bind fun k =>
    match subscribeKey k t with
    | none => .ok (some (x.srv.errorText .badRequest mid), w)
    | some key =>
      let now := (w.next x).now
      let id := (w.db.newId now).2
      let st := (AMap.get c.subs key).getD ⟨w.srv.nextId, t.topic.take t.size, 0⟩
      let st := { st with counter := st.counter + 1 }
      let s' := ({ w.srv with nextId := w.srv.nextId + 1 } : Srv).setConn q { c with subs := AMap.set c.subs key st }
      let w1 := { w.did x (.draw now) with srv := s', ids := AMap.set w.ids w.srv.nextId id }
      if st.counter = 1 then
        let now := (w1.next x).now
        let payload := writeSubscription a.mode q a.delay
        let w2 := w1.did x (.putSub now k id t.topic payload)
        match (w1.db.putEntry x.db now (subscriptionEntry k id t.topic payload)).2.2 with
        | .ok => .ok (none, { w2 with srv := { s' with stored := (w.srv.nextId, ⟨k, t.topic, a.mode, q, a.delay⟩) :: s'.stored } })
        | .err _ => .ok (some (x.srv.putError mid), w2)
        | .panic => .error .panic
        | .hang => .error .hang
      else .ok (none, w1)

/-- store.go:156-158 for the subscription with the number `n`. -/
def Whole.delete (x : WholeEnv) (w : Whole) (k : UInt32) (n : Nat) (topic : Bytes) : SrvM (Option DErr × Whole) :=
  let id := (AMap.get w.ids n).getD []
  match (w.db.deleteSubscription x.db k id topic).2 with
  | .ok => .ok (none, w.did x (.delSub k id topic))
  | .err e => .ok (some e, w.did x (.delSub k id topic))
  | .panic => .error .panic
  | .hang => .error .hang

/-- conn.go:222-245 `unsubscribe`. -/
def Whole.unsubscribeFrom (x : WholeEnv) (w : Whole) (q : UInt32) (mid : UInt16) (c : SrvConn) (t : ReqTopic) : SrvM (Option Bytes × Whole) :=
  c.contract.bind fun k =>
    match AMap.get c.subs t.key with
    | none => .ok (none, w)
    | some st =>
      if st.counter ≤ 1 then
        (w.delete x k st.id (t.topic.take t.size)).map fun r =>
          (r.1.map fun _ => x.srv.putError mid,
            { r.2 with srv := { w.srv.setConn q { c with subs := AMap.del c.subs t.key } with stored := w.srv.stored.filter (·.1 != st.id) } })
      else .ok (none, { w with srv := w.srv.setConn q { c with subs := AMap.set c.subs t.key { st with counter := st.counter - 1 } } })

/-- hdl_conn.go:384-431 `onSubscribe`, `onUnsubscribe`. -/
def Whole.request (x : WholeEnv) (w : Whole) (q : UInt32) (mid : UInt16) (text : Bytes) (f : SrvConn → ReqTopic → SrvM (Option Bytes × Whole)) : SrvM Whole :=
  match AMap.get w.srv.conns q, parseRequest text with
  | none, _ => .ok w
  | some _, none => .error .panic
  | some c, some t =>
    if !t.valid then w.onSrv fun s => s.notifyError x.srv q .badRequest mid
    else
      (c.check t).bind fun g =>
        match g with
        | .granted _ => (f c t).bind fun r =>
          match r.1 with
          | none => .ok r.2
          | some e => r.2.onSrv fun s => (s.sendMessage x.srv q 0 0 0 ⟨errorTopic, e⟩).map (·.2)
        | e => w.onSrv fun s => s.notifyError x.srv q e mid

/-- hdl_conn.go:349-381 `onRelay`: a request for the messages of a topic since `last`. Without a `last` nothing is sent. -/
def Whole.relayOne (x : WholeEnv) (q : UInt32) (mid : UInt16) (w : Whole) (a : Bytes × Bytes) : SrvM Whole :=
  w.request x q mid a.1 fun c t =>
    c.contract.bind fun k =>
      if a.2 = [] then .ok (none, w)
      else
        let e := w.next x
        let w' := w.did x (.getMsgs e.made e.g k t.topic a.2)
        match (w.db.get x.db e.g (storeQuery x.db.dur x.ok e.made k t.topic a.2) []).2 with
        | .out (.ok items) => (w'.onSrv fun s => SrvM.fold (fun s m => (s.sendMessage x.srv q 0 2 0 ⟨t.topic, m⟩).map (·.2)) s items).map fun w => (none, w)
        | .out .panic => .error .panic
        | .out .running => .error .hang
        | _ => .ok (some (x.srv.putError mid), w')

/-- conn.go:389-424 `close`: the errors of the deletes are dropped. -/
def Whole.close (x : WholeEnv) (w : Whole) (q : UInt32) : SrvM Whole :=
  match AMap.get w.srv.conns q with
  | none => .ok w
  | some c =>
    match c.subs, c.client.bind cidContract with
    | [], _ => w.onSrv (·.close q)
    | _ :: _, none => .error .panic
    | sub :: subs, some k => (SrvM.fold (fun w (st : Bytes × SubCount) => (w.delete x k st.2.id st.2.topic).map (·.2)) w (sub :: subs)).bind fun w => w.onSrv (·.close q)

/-- hdl_conn.go:93-158 CONNECT. -/
def Whole.onConnectPacket (x : WholeEnv) (w : Whole) (q : UInt32) (text : Bytes) (epoch : UInt32) (fresh : Bytes) (insecure : Bool) (asked : UInt32)
    (clean : Bool) : SrvM Whole :=
  match AMap.get w.srv.conns q with
  | none => .ok w
  | some c =>
    match onConnect x.srv.mac w.srv.cache epoch text with
    | (.invalid, cache) =>
      (w.onSrv fun s => (((({ s with cache } : Srv).setConn q { c with insecure }).emit q (.connack false)).sendMessage x.srv q 0 0 0 ⟨clientIdTopic, fresh⟩).map (·.2)).bind
        fun w => w.close x q
    | (.accepted _, _) => w.onSrv fun s => s.onConnectPacket x.srv q text epoch fresh insecure asked clean

/-- hdl_conn.go:83-269 `handler`. -/
def Whole.handle (x : WholeEnv) (w : Whole) (q : UInt32) : Packet → SrvM Whole
  | .connect text epoch fresh insecure asked clean => w.onConnectPacket x q text epoch fresh insecure asked clean
  | .subscribe mid asks =>
    (SrvM.fold (fun w a => w.request x q mid a.text fun c t => w.subscribeTo x q mid c t a) w asks).map fun w => { w with srv := w.srv.emit q (.acked mid) }
  | .unsubscribe mid texts =>
    (SrvM.fold (fun w text => w.request x q mid text fun c t => w.unsubscribeFrom x q mid c t) w texts).map fun w => { w with srv := w.srv.emit q (.acked mid) }
  | .publish p => w.onPublish x q p
  | .receive mid =>
    match AMap.get w.srv.conns q with
    | none => .ok w
    | some c =>
      match (w.srv.log.get (packetKey mid c.sess)).bind x.srv.dec with
      | none => w.close x q
      | some _ => w.onSrv fun s => s.handle x.srv q (.receive mid)
  | .disconnect => w.close x q
  | p => w.onSrv fun s => s.handle x.srv q p

/-- What happens at the server, and what its database does by itself. -/
inductive WholeEv where
  | srv (ev : SrvEv)
  | relay (q : UInt32) (mid : UInt16) (asks : List (Bytes × Bytes))
  | rotate (t : Int)
  | write (id t : Int)
  | sync (e : SyncEnv)

def WholeEv.srv? : WholeEv → Option SrvEv
  | .srv ev => some ev
  | _ => none

def Whole.step (x : WholeEnv) (w : Whole) : WholeEv → SrvM Whole
  | .srv (.accept q) => w.onSrv fun s => s.step x.srv (.accept q)
  | .srv (.packet q p) => match AMap.get w.srv.conns q with
    | none => .ok w
    | some _ => w.handle x q p
  | .srv (.lost q) => w.close x q
  | .relay q mid asks => match AMap.get w.srv.conns q with
    | none => .ok w
    | some _ => (SrvM.fold (Whole.relayOne x q mid) w asks).map fun w => { w with srv := w.srv.emit q (.acked mid) }
  | .rotate t => .ok (w.did x (.rotate t))
  | .write id t => .ok (w.did x (.write id t))
  | .sync e => match w.db.sync e with
    | none => .error .panic
    | some _ => .ok (w.did x (.sync e))

def Whole.run (x : WholeEnv) (w : Whole) (evs : List WholeEv) : SrvM Whole := SrvM.fold (Whole.step x) w evs

end Verif
