import Verif.Model.Proto
import Verif.Model.Delivery

/-!
# A server from bytes to bytes

server/internal/hdl_conn.go: `readLoop` around `Model/Proto`, `handler` of `Model/Delivery`, and `writeLoop`.
Every connection comes with all the bytes its client ever sends; its reader takes the next packet when it has its
turn. The packets put on the two channels of a connection are written in an order that is left open. The packets of
batch managers are left out, and so is the time to live of messages, as in `Model/Delivery`.
-/

namespace Verif

/-- What handling one packet takes from elsewhere: the epoch of a cached client id; a new client id, its epoch and the
return code, for a client whose id is refused; and what the message store returns for each request of a relay. -/
structure Outside where
  epoch : UInt32 := 0
  fresh : Bytes := []
  freshEpoch : UInt32 := 0
  code : UInt8 := 2
  found : Nat → List Bytes := fun _ => []

/-- hdl_conn.go:91-268, the cases of `handler`: `none` is a control message that is looked at and dropped. -/
def UPacket.handled (w : Outside) : UPacket → Option Packet
  | .connect c => some (.connect c.clientId w.epoch w.fresh c.insecure c.sessKey c.clean)
  | .publish p => some (.publish ⟨p.id, p.mode, p.messages.map fun m => ⟨m.topic, m.payload⟩⟩)
  | .relay p => some (.relay p.id (p.items.zipIdx.map fun r => (r.1.topic, w.found r.2)))
  | .subscribe p => some (.subscribe p.id (p.items.map fun r => ⟨r.topic, r.mode, r.delay⟩))
  | .unsubscribe p => some (.unsubscribe p.id (p.items.map (·.topic)))
  | .ping => some .ping
  | .disconnect _ => some .disconnect
  | .control _ flow c => if flow = 3 then some (.receive c.id) else if flow = 4 then some (.receipt c.id) else none

/-- The message type of the acknowledgement of a packet (hdl_conn.go:162-166, 184-188, 208-212, 479-487). -/
def UPacket.ackType : UPacket → UInt8
  | .relay _ => 3
  | .subscribe _ => 4
  | .unsubscribe _ => 5
  | _ => 2

/-- The packet of what is sent to connection `q`, in answer to a packet with acknowledgement type `t`; the epoch of the client is
that of its id, if it has one (hdl_conn.go:105-117, 229-232, 259-263, conn.go:127-138, 279-283). -/
def Sent.packet (w : Outside) (t : UInt8) (s : Srv) (q : UInt32) : Sent → UPacket
  | .connack ok =>
    let epoch := (((AMap.get s.conns q).bind (·.client)).bind cidEpoch).getD w.freshEpoch
    .control 1 1 { message := PConnack.marshal ⟨if ok then 0 else w.code, epoch, q⟩ }
  | .ack => .control 6 1 {}
  | .acked mid => .control t 1 { id := mid }
  | .notify mid => .control 2 2 { id := mid }
  | .complete mid => .control 2 5 { id := mid }
  | .pub p => .publish ⟨p.mid, p.mode, p.msgs.map fun m => { topic := m.topic, payload := m.payload }⟩

/-- net/message.go:88-99 `Encode`: other packets are refused. -/
def UPacket.encode : UPacket → Option Bytes
  | .disconnect i => (UPacket.disconnect i).toBinary
  | .publish p => (UPacket.publish p).toBinary
  | .control t f c => (UPacket.control t f c).toBinary
  | _ => none

/-- hdl_conn.go:273-312 `writeLoop`: what is written of the packets it takes, in this order, and whether it goes on; the first
packet that cannot be encoded ends the connection. -/
def writeAll : List UPacket → Bytes × Bool
  | [] => ([], true)
  | p :: ps =>
    match p.encode with
    | none => ([], false)
    | some b => let r := writeAll ps; (b ++ r.1, r.2)

/-- The server, what every connection is still to send, the packets that were read and the packets put on the channels, in order. -/
structure Front where
  srv : Srv := {}
  rest : AMap UInt32 Bytes := []
  heard : List (UInt32 × UPacket) := []
  wire : List (UInt32 × UPacket) := []

/-- A connection is accepted whose client sends `b`, its reader takes the next packet, or it is lost. -/
inductive FrontEv where
  | accept (q : UInt32) (b : Bytes)
  | turn (q : UInt32) (w : Outside)
  | lost (q : UInt32)

/-- hdl_conn.go:57-79, 83-270: the packet is handled, and what is sent in answer is put on the channels. -/
def Front.handle (v : SrvEnv) (f : Front) (q : UInt32) (w : Outside) (p : UPacket) (rest : Bytes) : SrvM Front :=
  let f := { f with rest := AMap.set f.rest q rest, heard := f.heard ++ [(q, p)] }
  match p.handled w with
  | none => .ok f
  | some x => (f.srv.step v (.packet q x)).map fun s =>
    { f with srv := s, wire := f.wire ++ (s.out.drop f.srv.out.length).map fun o => (o.1, o.2.packet w p.ackType s o.1) }

def Front.step (v : SrvEnv) (f : Front) : FrontEv → SrvM Front
  | .accept q b => (f.srv.step v (.accept q)).map fun s => { f with srv := s, rest := AMap.set f.rest q b }
  | .lost q => (f.srv.step v (.lost q)).map fun s => { f with srv := s }
  | .turn q w =>
    match AMap.get f.srv.conns q with
    | none => .ok f
    | some _ =>
      match readPacket ((AMap.get f.rest q).getD []) with
      | .panics => .error .panic
      | .error => (f.srv.step v (.lost q)).map fun s => { f with srv := s }
      | .ok p rest => f.handle v q w p rest

def Front.run (v : SrvEnv) (f : Front) (evs : List FrontEv) : SrvM Front := SrvM.fold (Front.step v) f evs

end Verif
