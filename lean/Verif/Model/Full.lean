import Verif.Model.Front
import Verif.Model.Whole

/-!
# A server from bytes to bytes, with its database

`Model/Front` on `Model/Whole`: readers take packets from the bytes of their clients, the handler looks up and stores subscriptions and messages in the
database, and the database writes its logs and syncs in between. The time to live of a message is that of `CallEnv`.
-/

namespace Verif

/-- hdl_conn.go:91-268, 349-381: what a packet of connection `q` asks of the server; a relay request is looked up in the database. -/
def UPacket.asks (w : Outside) (q : UInt32) : UPacket → Option WholeEv
  | .relay p => some (.relay q p.id (p.items.map fun r => (r.topic, r.last)))
  | p => (p.handled w).map fun x => .srv (.packet q x)

/-- The server with its database, what every connection is still to send, the packets that were read and the packets put on the channels, in order. -/
structure Full where
  whole : Whole
  rest : AMap UInt32 Bytes := []
  heard : List (UInt32 × UPacket) := []
  wire : List (UInt32 × UPacket) := []

/-- As `FrontEv`, with what the database does by itself. -/
inductive FullEv where
  | accept (q : UInt32) (b : Bytes)
  | turn (q : UInt32) (w : Outside)
  | lost (q : UInt32)
  | rotate (t : Int)
  | write (id t : Int)
  | sync (e : SyncEnv)

/-- hdl_conn.go:57-79, 83-270: the packet is handled, and what is sent in answer is put on the channels. -/
def Full.handle (x : WholeEnv) (f : Full) (q : UInt32) (w : Outside) (p : UPacket) (rest : Bytes) : SrvM Full :=
  let f := { f with rest := AMap.set f.rest q rest, heard := f.heard ++ [(q, p)] }
  match p.asks w q with
  | none => .ok f
  | some ev => (f.whole.step x ev).map fun s =>
    { f with whole := s, wire := f.wire ++ (s.srv.out.drop f.whole.srv.out.length).map fun o => (o.1, o.2.packet w p.ackType s.srv o.1) }

def Full.step (x : WholeEnv) (f : Full) : FullEv → SrvM Full
  | .accept q b => (f.whole.step x (.srv (.accept q))).map fun s => { f with whole := s, rest := AMap.set f.rest q b }
  | .lost q => (f.whole.step x (.srv (.lost q))).map fun s => { f with whole := s }
  | .turn q w =>
    match AMap.get f.whole.srv.conns q with
    | none => .ok f
    | some _ =>
      match readPacket ((AMap.get f.rest q).getD []) with
      | .panics => .error .panic
      | .error => (f.whole.step x (.srv (.lost q))).map fun s => { f with whole := s }
      | .ok p rest => f.handle x q w p rest
  | .rotate t => (f.whole.step x (.rotate t)).map fun s => { f with whole := s }
  | .write id t => (f.whole.step x (.write id t)).map fun s => { f with whole := s }
  | .sync e => (f.whole.step x (.sync e)).map fun s => { f with whole := s }

def Full.run (x : WholeEnv) (f : Full) (evs : List FullEv) : SrvM Full := SrvM.fold (Full.step x) f evs

end Verif
