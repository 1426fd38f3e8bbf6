import Verif.Model.Delivery

/-!
# Several servers

server/internal/cluster.go with the parts of server/internal/conn.go that need a cluster. Each contract has a node that owns it, given by
the ring of names (C55); every node has the same ring, is connected to all others, and a call to it returns before the next packet is
handled. The nodes run the servers of `Delivery`, each with its own stores.
-/

namespace Verif

/-- The servers all run in the same environment; `owner` is `ring.Get` of the text of a contract. -/
structure FleetEnv where
  srv : SrvEnv
  owner : UInt32 → Nat

/-- `rpc` are the connections that stand at a node for one of another node (conn.go:95-113 `newRpcConn`), with that node; `told` are the nodes a
connection was forwarded to (`_Conn.nodes`). -/
structure Fleet where
  nodes : List Srv
  rpc : AMap (Nat × UInt32) Nat := []
  told : AMap (Nat × UInt32) Nat := []
  deriving DecidableEq, Repr

/-- Work at one node. -/
def Fleet.at (f : Fleet) (n : Nat) (work : Srv → SrvM Srv) : SrvM Fleet :=
  match f.nodes[n]? with
  | none => .ok f
  | some s => (work s).map fun s => { f with nodes := f.nodes.set n s }

/-- The connection `q` of node `n`. -/
def Fleet.conn (f : Fleet) (n : Nat) (q : UInt32) : Option SrvConn := (f.nodes[n]?).bind fun s => AMap.get s.conns q

/-- cluster.go:289-316 `Master`, before the packet: the connection is looked up by its number among all connections of the node, made if it is not
there, and takes the client id of the request. -/
def Srv.adopt (s : Srv) (q : UInt32) (c : SrvConn) : Srv :=
  match AMap.get s.conns q with
  | some l => s.setConn q { l with client := c.client }
  | none => s.setConn q { client := c.client, sess := c.sess }

/-- cluster.go:376-419 `routeToContract` and 287-331 `Master`: the owner `o` handles a packet of connection `q` of node `n`. Only the first node is kept of those a connection was
forwarded to, which is the one it tells when it closes (cluster.go:428-439, for a map of one node). -/
def Fleet.forward (f : Fleet) (n o : Nat) (q : UInt32) (c : SrvConn) (work : Srv → SrvM Srv) : SrvM Fleet :=
  match f.nodes[o]? with
  | none => .ok f
  | some s =>
    let rpc := if (AMap.get s.conns q).isNone then AMap.set f.rpc (o, q) n else f.rpc
    let told := if (AMap.get f.told (n, q)).isNone then AMap.set f.told (n, q) o else f.told
    ({ f with rpc, told } : Fleet).at o fun s => work (s.adopt q c)

/-- hdl_conn.go:220-225 and 469-471: a PUBLISH packet that was forwarded is not acknowledged. -/
def Srv.onForwarded (v : SrvEnv) (s : Srv) (q : UInt32) (pub : DPub) : SrvM Srv :=
  (s.publishAll v q pub pub.msgs).bind fun r =>
    match r.1 with
    | .acked => .ok r.2
    | .silent => .ok r.2
    | .refused => (r.2.sendMessage v q 0 0 0 ⟨errorTopic, v.putError pub.mid⟩).map (·.2)
    | .failed e => r.2.notifyError v q e pub.mid

/-- The number of messages of a packet that `publish` is called for (hdl_conn.go:438-467). -/
def SrvConn.passes (v : SrvEnv) (c : SrvConn) : List DMsg → Nat
  | [] => 0
  | m :: ms =>
    match parseRequest m.topic with
    | none => 0
    | some t =>
      if !t.valid || t.key == specialKey then 0
      else
        match c.check t with
        | .ok (.granted false) => if v.puts t.topic m.payload = .stored then 1 + c.passes v ms else 0
        | _ => 0

def SrvM.times {α : Type} (f : α → SrvM α) : Nat → α → SrvM α
  | 0, a => .ok a
  | n + 1, a => (f a).bind (SrvM.times f n)

/-- The owner of the contract of a connection, if it is another node than `n` (cluster.go:367-373). -/
def FleetEnv.remote (v : FleetEnv) (n : Nat) (c : SrvConn) : Option Nat :=
  match c.contract with
  | .ok k => if v.owner k = n then none else some (v.owner k)
  | .error _ => none

/-- The subscriptions of a packet one after the other (hdl_conn.go:177-185). -/
def Srv.subscribeAll (v : SrvEnv) (q : UInt32) (mid : UInt16) (asks : List SubAsk) (s : Srv) : SrvM Srv :=
  SrvM.fold (fun s a => s.request v q mid a.text fun c t => s.subscribeTo q c t a) s asks

def Srv.unsubscribeAll (v : SrvEnv) (q : UInt32) (mid : UInt16) (texts : List Bytes) (s : Srv) : SrvM Srv :=
  SrvM.fold (fun s text => s.request v q mid text fun c t => s.unsubscribeFrom q c t) s texts

/-- Whether the request of a topic gets past the checks of `onSubscribe` and `onUnsubscribe`. -/
def SrvConn.lets (c : SrvConn) (text : Bytes) : Option ReqTopic :=
  (parseRequest text).filter fun t => t.valid && match c.check t with
    | .ok (.granted _) => true
    | _ => false

/-- conn.go:192: a subscription goes to the owner if the connection holds its key already. -/
def SrvConn.again (c : SrvConn) (text : Bytes) : Bool :=
  match c.lets text, c.contract with
  | some t, .ok k => (subscribeKey k t).any fun key => (AMap.get c.subs key).isSome
  | _, _ => false

/-- conn.go:180-219 `subscribe` for one subscription of a packet: here, or with its whole packet at the owner. -/
def Fleet.subscribeOne (v : FleetEnv) (n : Nat) (q : UInt32) (mid : UInt16) (asks : List SubAsk) (f : Fleet) (a : SubAsk) : SrvM Fleet :=
  let here := f.at n fun s => s.request v.srv q mid a.text fun c t => s.subscribeTo q c t a
  match f.conn n q with
  | none => .ok f
  | some c =>
    match v.remote n c with
    | none => here
    | some o => if c.again a.text then f.forward n o q c (Srv.subscribeAll v.srv q mid asks) else here

/-- conn.go:222-245 `unsubscribe` for one topic of a packet: here, and with its whole packet at the owner. -/
def Fleet.unsubscribeOne (v : FleetEnv) (n : Nat) (q : UInt32) (mid : UInt16) (texts : List Bytes) (f : Fleet) (text : Bytes) : SrvM Fleet :=
  match f.conn n q with
  | none => .ok f
  | some c =>
    (f.at n fun s => s.request v.srv q mid text fun c t => s.unsubscribeFrom q c t).bind fun f =>
      match v.remote n c with
      | none => .ok f
      | some o => if (c.lets text).isSome then f.forward n o q c (Srv.unsubscribeAll v.srv q mid texts) else .ok f

/-- cluster.go:422-441 `connGone`, called when a connection closes (conn.go:415), 289-297 and 514-521: a connection that stands for it is closed too; one of the node's own is sent a signal that
it does not read. -/
def Fleet.gone (f : Fleet) (n : Nat) (q : UInt32) : SrvM Fleet :=
  match f.conn n q, AMap.get f.told (n, q) with
  | none, some o =>
    let g := { f with told := AMap.del f.told (n, q) }
    if (AMap.get f.rpc (o, q)).isSome then ({ g with rpc := AMap.del g.rpc (o, q) } : Fleet).at o fun s => s.close q else .ok g
  | _, _ => .ok f

/-- What happens at node `n`. -/
def Fleet.step (v : FleetEnv) (f : Fleet) (n : Nat) : SrvEv → SrvM Fleet
  | .packet q (.subscribe mid asks) =>
    match f.conn n q with
    | none => .ok f
    | some _ => (SrvM.fold (Fleet.subscribeOne v n q mid asks) f asks).bind fun f => f.at n fun s => .ok (s.emit q (.acked mid))
  | .packet q (.unsubscribe mid texts) =>
    match f.conn n q with
    | none => .ok f
    | some _ => (SrvM.fold (Fleet.unsubscribeOne v n q mid texts) f texts).bind fun f => f.at n fun s => .ok (s.emit q (.acked mid))
  | .packet q (.publish p) =>
    match f.conn n q with
    | none => .ok f
    | some c =>
      (f.at n fun s => s.step v.srv (.packet q (.publish p))).bind fun f =>
        match v.remote n c with
        | none => .ok f
        | some o => SrvM.times (fun f => f.forward n o q c fun s => s.onForwarded v.srv q p) (c.passes v.srv p.msgs) f
  | ev =>
    (f.at n fun s => s.step v.srv ev).bind fun f =>
      match ev with
      | .accept _ => .ok f
      | .packet q _ => f.gone n q
      | .lost q => f.gone n q

/-- What happens in the cluster: at which node, and what. -/
def Fleet.run (v : FleetEnv) (f : Fleet) (evs : List (Nat × SrvEv)) : SrvM Fleet := SrvM.fold (fun f e => f.step v e.1 e.2) f evs

/-- What the client of connection `q` of node `n` receives: what its node sends it, and what other nodes send to the connections that stand for it. `rpcWriteLoop`
(cluster.go:513-551) passes on what is put on `send`, but not messages, which are put on `pub`. -/
def Fleet.received (f : Fleet) (n : Nat) (q : UInt32) : List Sent :=
  let from_ (m : Nat) := (((f.nodes[m]?).map (·.out)).getD []).filterMap fun x => if x.1 = q then some x.2 else none
  (if (AMap.get f.rpc (n, q)).isNone then from_ n else []) ++
    (List.range f.nodes.length).flatMap fun m => if AMap.get f.rpc (m, q) = some n then (from_ m).filter fun x => match x with | .pub _ => false | _ => true else []

end Verif
