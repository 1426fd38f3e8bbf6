import Verif.Model.Wire

/-!
# Packets and their fields

The protobuf encoding (github.com/golang/protobuf v1.5.2, proto3; the library is not part of the
repository, its wire format and its treatment of errors are modelled here) of the messages of
server/proto/unitdb.proto, and server/utp/{message,connect,publish,subscribe,relay,flow_control}.go
and server/internal/net/message.go on top of it.

An `int32` is its bit pattern, a `UInt32`. Nil and empty slices are not told apart.
-/

namespace Verif

namespace Pb

/-! ## The wire format -/

/-- A varint of the wire format: the digits are those of `encodeLength`. -/
def varint (n : Nat) : Bytes := encodeLength n

/-- Reading a varint of at most ten bytes; `k` bytes were read. The tenth may only hold the last bit of a
`uint64`. `none`: the bytes ended or the number is too large. -/
def consumeAux : (fuel k acc : Nat) → Bytes → Option (Nat × Bytes)
  | 0, _, _, _ => none
  | _ + 1, _, _, [] => none
  | fuel + 1, k, acc, d :: rest =>
    if fuel = 0 then if d.toNat < 2 then some (acc + d.toNat * 2 ^ (7 * k), rest) else none
    else if d.toNat < 128 then some (acc + d.toNat * 2 ^ (7 * k), rest)
    else consumeAux fuel (k + 1) (acc + (d.toNat - 128) * 2 ^ (7 * k)) rest

/-- Reading a varint. -/
def consume (b : Bytes) : Option (Nat × Bytes) := consumeAux 10 0 0 b

/-- Reading bytes that follow their length. -/
def consumeBytes (b : Bytes) : Option (Bytes × Bytes) :=
  match consume b with
  | none => none
  | some (n, rest) => if rest.length < n then none else some (rest.take n, rest.drop n)

/-- The value of a field. Values that no message of the schema has are skipped without being kept. -/
inductive Val where
  | varint (n : Nat)
  | bytes (b : Bytes)
  | other
  deriving DecidableEq, Repr

/-- Reading over the fields of unknown groups; `open_` are the numbers of the groups begun, innermost first.
Groups may be nested to any depth here. -/
def skipGroups : (fuel : Nat) → (open_ : List Nat) → Bytes → Option Bytes
  | _, [], b => some b
  | 0, _ :: _, _ => none
  | fuel + 1, g :: gs, b =>
    match consume b with
    | none => none
    | some (tag, b) =>
      if tag / 8 < 1 ∨ 2 ^ 31 ≤ tag / 8 then none
      else if tag % 8 = 0 then match consume b with | none => none | some (_, b) => skipGroups fuel (g :: gs) b
      else if tag % 8 = 1 then if b.length < 8 then none else skipGroups fuel (g :: gs) (b.drop 8)
      else if tag % 8 = 2 then match consumeBytes b with | none => none | some (_, b) => skipGroups fuel (g :: gs) b
      else if tag % 8 = 3 then skipGroups fuel (tag / 8 :: g :: gs) b
      else if tag % 8 = 4 then if tag / 8 = g then skipGroups fuel gs b else none
      else if tag % 8 = 5 then if b.length < 4 then none else skipGroups fuel (g :: gs) (b.drop 4)
      else none

/-- Reading one field: its number, its value and what follows. -/
def field (b : Bytes) : Option (Nat × Val × Bytes) :=
  match consume b with
  | none => none
  | some (tag, b) =>
    if tag / 8 < 1 ∨ 2 ^ 29 ≤ tag / 8 then none
    else if tag % 8 = 0 then match consume b with | none => none | some (n, b) => some (tag / 8, .varint n, b)
    else if tag % 8 = 1 then if b.length < 8 then none else some (tag / 8, .other, b.drop 8)
    else if tag % 8 = 2 then match consumeBytes b with | none => none | some (x, b) => some (tag / 8, .bytes x, b)
    else if tag % 8 = 3 then match skipGroups b.length [tag / 8] b with | none => none | some b => some (tag / 8, .other, b)
    else if tag % 8 = 5 then if b.length < 4 then none else some (tag / 8, .other, b.drop 4)
    else none

/-- The fields up to the end or the first that cannot be read, and whether the end was reached. -/
def fieldsAux : (fuel : Nat) → Bytes → List (Nat × Val) × Bool
  | _, [] => ([], true)
  | 0, _ :: _ => ([], false)
  | fuel + 1, d :: b =>
    match field (d :: b) with
    | none => ([], false)
    | some (n, v, rest) => let r := fieldsAux fuel rest; ((n, v) :: r.1, r.2)

/-- The fields of a message (`fields_fuel`: a field takes at least a byte). -/
def fields (b : Bytes) : List (Nat × Val) × Bool := fieldsAux b.length b

/-- Taking the fields one by one; `none` from `f`: the field is refused, what was taken before stays. -/
def fill (f : α → Nat → Val → Option α) : α → List (Nat × Val) → α × Bool
  | a, [] => (a, true)
  | a, (n, v) :: r =>
    match f a n v with
    | none => (a, false)
    | some a => fill f a r

/-- `proto.Unmarshal`: the message with the fields read before the first error, and whether there was none. -/
def unmarshal (f : α → Nat → Val → Option α) (a : α) (b : Bytes) : α × Bool :=
  let fs := fields b
  let r := fill f a fs.1
  (r.1, r.2 && fs.2)

/-- The `uint64` of an `int32`: the sign is extended. -/
def signExtend (w : UInt32) : Nat := if w.toNat < 2 ^ 31 then w.toNat else w.toNat + (2 ^ 64 - 2 ^ 32)

/-- A number in a message; zero is left out. -/
def number (num n : Nat) : Bytes := if n = 0 then [] else varint (num * 8) ++ varint n

def int32 (num : Nat) (w : UInt32) : Bytes := number num (signExtend w)

def bool (num : Nat) (x : Bool) : Bytes := number num (if x then 1 else 0)

/-- An element of a repeated message. -/
def element (num : Nat) (b : Bytes) : Bytes := varint (num * 8 + 2) ++ varint b.length ++ b

/-- Bytes or a string in a message; left out when empty. -/
def slice (num : Nat) (b : Bytes) : Bytes := if b = [] then [] else element num b

/-- `utf8.Valid`: strings of a proto3 message that are not UTF-8 are refused on both sides. -/
def utf8 : Bytes → Bool
  | [] => true
  | a :: r1 =>
    if a.toNat < 0x80 then utf8 r1
    else match r1 with
    | [] => false
    | b :: r2 =>
      if 0xC2 ≤ a.toNat ∧ a.toNat ≤ 0xDF then (0x80 ≤ b.toNat && b.toNat ≤ 0xBF) && utf8 r2
      else match r2 with
      | [] => false
      | c :: r3 =>
        if 0xE0 ≤ a.toNat ∧ a.toNat ≤ 0xEF then
          ((if a.toNat = 0xE0 then 0xA0 else 0x80) ≤ b.toNat && b.toNat ≤ (if a.toNat = 0xED then 0x9F else 0xBF)) &&
          (0x80 ≤ c.toNat && c.toNat ≤ 0xBF) && utf8 r3
        else match r3 with
        | [] => false
        | d :: r4 =>
          (0xF0 ≤ a.toNat && a.toNat ≤ 0xF4) &&
          ((if a.toNat = 0xF0 then 0x90 else 0x80) ≤ b.toNat && b.toNat ≤ (if a.toNat = 0xF4 then 0x8F else 0xBF)) &&
          (0x80 ≤ c.toNat && c.toNat ≤ 0xBF) && (0x80 ≤ d.toNat && d.toNat ≤ 0xBF) && utf8 r4

end Pb

/-! ## The messages of unitdb.proto -/

/-- utp/message.go:53-58 `FixedHeader` as it is read: two bytes and an `int32`. -/
structure PbHeader where
  type : UInt8 := 0
  flow : UInt8 := 0
  len : UInt32 := 0
  deriving DecidableEq, Repr

/-- unitdb.proto:40-44; message.go:67-82 `pack`. -/
def PbHeader.marshal (h : PbHeader) : Bytes := Pb.int32 1 h.type.toUInt32 ++ Pb.int32 2 h.flow.toUInt32 ++ Pb.int32 3 h.len

/-- message.go:96-103: enumerations are cut to a byte. -/
def PbHeader.take (h : PbHeader) : Nat → Pb.Val → Option PbHeader
  | 1, .varint n => some { h with type := UInt8.ofNat n }
  | 2, .varint n => some { h with flow := UInt8.ofNat n }
  | 3, .varint n => some { h with len := UInt32.ofNat n }
  | _, _ => some h

/-- A string of a message: refused unless it is UTF-8. -/
def Pb.string (b : Bytes) (f : Bytes → α) : Option α := if Pb.utf8 b then some (f b) else none

/-- connect.go:26-39 `Connect`. -/
structure PConnect where
  version : UInt32 := 0
  insecure : Bool := false
  clientId : Bytes := []
  keepAlive : UInt32 := 0
  clean : Bool := false
  sessKey : UInt32 := 0
  username : Bytes := []
  password : Bytes := []
  batchDuration : UInt32 := 0
  batchBytes : UInt32 := 0
  batchCount : UInt32 := 0
  deriving DecidableEq, Repr

/-- connect.go:64-79. -/
def PConnect.marshal (c : PConnect) : Option Bytes :=
  if Pb.utf8 c.clientId && Pb.utf8 c.username then
    some (Pb.int32 1 c.version ++ Pb.bool 2 c.insecure ++ Pb.slice 3 c.clientId ++ Pb.int32 4 c.keepAlive ++ Pb.bool 5 c.clean ++
      Pb.int32 6 c.sessKey ++ Pb.slice 7 c.username ++ Pb.slice 8 c.password ++ Pb.int32 9 c.batchDuration ++
      Pb.int32 10 c.batchBytes ++ Pb.int32 11 c.batchCount)
  else none

/-- connect.go:89-104. -/
def PConnect.take (c : PConnect) : Nat → Pb.Val → Option PConnect
  | 1, .varint n => some { c with version := UInt32.ofNat n }
  | 2, .varint n => some { c with insecure := n != 0 }
  | 3, .bytes b => Pb.string b fun b => { c with clientId := b }
  | 4, .varint n => some { c with keepAlive := UInt32.ofNat n }
  | 5, .varint n => some { c with clean := n != 0 }
  | 6, .varint n => some { c with sessKey := UInt32.ofNat n }
  | 7, .bytes b => Pb.string b fun b => { c with username := b }
  | 8, .bytes b => some { c with password := b }
  | 9, .varint n => some { c with batchDuration := UInt32.ofNat n }
  | 10, .varint n => some { c with batchBytes := UInt32.ofNat n }
  | 11, .varint n => some { c with batchCount := UInt32.ofNat n }
  | _, _ => some c

/-- connect.go:48-53 `ConnectAcknowledge`. -/
structure PConnack where
  code : UInt8 := 0
  epoch : UInt32 := 0
  connId : UInt32 := 0
  deriving DecidableEq, Repr

/-- connect.go:116-129. -/
def PConnack.marshal (c : PConnack) : Bytes := Pb.int32 1 c.code.toUInt32 ++ Pb.int32 2 c.epoch ++ Pb.int32 3 c.connId

/-- connect.go:131-138. -/
def PConnack.take (c : PConnack) : Nat → Pb.Val → Option PConnack
  | 1, .varint n => some { c with code := UInt8.ofNat n }
  | 2, .varint n => some { c with epoch := UInt32.ofNat n }
  | 3, .varint n => some { c with connId := UInt32.ofNat n }
  | _, _ => some c

/-- publish.go:26-31 `PublishMessage`. -/
structure PMessage where
  topic : Bytes := []
  payload : Bytes := []
  ttl : Bytes := []
  deriving DecidableEq, Repr

/-- publish.go:45-52. -/
def PMessage.marshal (m : PMessage) : Option Bytes :=
  if Pb.utf8 m.topic && Pb.utf8 m.ttl then some (Pb.slice 1 m.topic ++ Pb.slice 2 m.payload ++ Pb.slice 3 m.ttl) else none

def PMessage.take (m : PMessage) : Nat → Pb.Val → Option PMessage
  | 1, .bytes b => Pb.string b fun b => { m with topic := b }
  | 2, .bytes b => some { m with payload := b }
  | 3, .bytes b => Pb.string b fun b => { m with ttl := b }
  | _, _ => some m

/-- subscribe.go:28-34 `Subscription`. -/
structure PSubscription where
  mode : UInt8 := 0
  delay : UInt32 := 0
  topic : Bytes := []
  deriving DecidableEq, Repr

/-- subscribe.go:53-60, 105-112. -/
def PSubscription.marshal (m : PSubscription) : Option Bytes :=
  if Pb.utf8 m.topic then some (Pb.int32 1 m.mode.toUInt32 ++ Pb.int32 2 m.delay ++ Pb.slice 3 m.topic) else none

def PSubscription.take (m : PSubscription) : Nat → Pb.Val → Option PSubscription
  | 1, .varint n => some { m with mode := UInt8.ofNat n }
  | 2, .varint n => some { m with delay := UInt32.ofNat n }
  | 3, .bytes b => Pb.string b fun b => { m with topic := b }
  | _, _ => some m

/-- relay.go:28-32 `RelayRequest`. -/
structure PRelayRequest where
  topic : Bytes := []
  last : Bytes := []
  deriving DecidableEq, Repr

/-- relay.go:44-50. -/
def PRelayRequest.marshal (m : PRelayRequest) : Option Bytes :=
  if Pb.utf8 m.topic && Pb.utf8 m.last then some (Pb.slice 1 m.topic ++ Pb.slice 2 m.last) else none

def PRelayRequest.take (m : PRelayRequest) : Nat → Pb.Val → Option PRelayRequest
  | 1, .bytes b => Pb.string b fun b => { m with topic := b }
  | 2, .bytes b => Pb.string b fun b => { m with last := b }
  | _, _ => some m

/-- The elements of a repeated message field, encoded; `none`: one of them is refused. -/
def Pb.elements (num : Nat) (f : α → Option Bytes) : List α → Option Bytes
  | [] => some []
  | a :: r => (f a).bind fun b => (Pb.elements num f r).map fun bs => Pb.element num b ++ bs

/-- Reading an element of a repeated message field: an element with an error is not appended. -/
def Pb.append (take : β → Nat → Pb.Val → Option β) (z : β) (b : Bytes) (f : β → α) : Option α :=
  match Pb.unmarshal take z b with
  | (x, true) => some (f x)
  | (_, false) => none

/-- A message of an id and a list: `Subscribe`, `Unsubscribe` and `Relay`. -/
structure PList (β : Type) where
  id : UInt16 := 0
  items : List β := []
  deriving DecidableEq, Repr

/-- subscribe.go:61-65, 113-117; relay.go:51-55. -/
def PList.marshal (f : β → Option Bytes) (p : PList β) : Option Bytes :=
  (Pb.elements 2 f p.items).map fun bs => Pb.int32 1 p.id.toUInt32 ++ bs

/-- subscribe.go:75-90, 127-142; relay.go:65-79: the id is cut to sixteen bits. -/
def PList.take (t : β → Nat → Pb.Val → Option β) (z : β) (p : PList β) : Nat → Pb.Val → Option (PList β)
  | 1, .varint n => some { p with id := UInt16.ofNat n }
  | 2, .bytes b => Pb.append t z b fun x => { p with items := p.items ++ [x] }
  | _, _ => some p

/-- publish.go:33-39 `Publish` (`IsForwarded` is not sent). -/
structure PPublish where
  id : UInt16 := 0
  mode : UInt8 := 0
  messages : List PMessage := []
  deriving DecidableEq, Repr

/-- publish.go:44-58. -/
def PPublish.marshal (p : PPublish) : Option Bytes :=
  (Pb.elements 3 PMessage.marshal p.messages).map fun bs => Pb.int32 1 p.id.toUInt32 ++ Pb.int32 2 p.mode.toUInt32 ++ bs

/-- publish.go:68-83: the id is cut to sixteen bits and the delivery mode to eight. -/
def PPublish.take (p : PPublish) : Nat → Pb.Val → Option PPublish
  | 1, .varint n => some { p with id := UInt16.ofNat n }
  | 2, .varint n => some { p with mode := UInt8.ofNat n }
  | 3, .bytes b => Pb.append PMessage.take {} b fun x => { p with messages := p.messages ++ [x] }
  | _, _ => some p

/-- flow_control.go:39-44 without the type and the flow control, which are in the header. -/
structure PControl where
  id : UInt16 := 0
  message : Bytes := []
  deriving DecidableEq, Repr

/-- flow_control.go:51-55. -/
def PControl.marshal (c : PControl) : Bytes := Pb.int32 1 c.id.toUInt32 ++ Pb.slice 2 c.message

/-- flow_control.go:89-97. -/
def PControl.take (c : PControl) : Nat → Pb.Val → Option PControl
  | 1, .varint n => some { c with id := UInt16.ofNat n }
  | 2, .bytes b => some { c with message := b }
  | _, _ => some c

/-! ## Packets -/

/-- The packets of package utp. -/
inductive UPacket where
  | connect (c : PConnect)
  | publish (p : PPublish)
  | relay (p : PList PRelayRequest)
  | subscribe (p : PList PSubscription)
  | unsubscribe (p : PList PSubscription)
  | ping
  | disconnect (id : UInt16)
  | control (type flow : UInt8) (c : PControl)
  deriving DecidableEq, Repr

/-- message.go:67-82 `pack`, with the body behind it. -/
def UPacket.frame (type flow : UInt8) (body : Bytes) : Bytes :=
  let h := PbHeader.marshal ⟨type, flow, UInt32.ofNat body.length⟩
  encodeLength h.length ++ h ++ body

/-- flow_control.go:59-83: the header of a control message; nothing matches: the empty header, with no length. -/
def UPacket.controlHead (type flow : UInt8) (n : Nat) : PbHeader :=
  if flow = 1 then if 1 ≤ type ∧ type ≤ 6 then ⟨type, 1, UInt32.ofNat n⟩ else {}
  else if 2 ≤ flow ∧ flow ≤ 5 then ⟨2, flow, UInt32.ofNat n⟩
  else {}

/-- The `ToBinary` of each packet; `none`: an error. The id of a `Disconnect` is not written
(connect.go:178-189). -/
def UPacket.toBinary : UPacket → Option Bytes
  | .connect c => c.marshal.map (UPacket.frame 1 0)
  | .publish p => p.marshal.map (UPacket.frame 2 0)
  | .relay p => (p.marshal PRelayRequest.marshal).map (UPacket.frame 3 0)
  | .subscribe p => (p.marshal PSubscription.marshal).map (UPacket.frame 4 0)
  | .unsubscribe p => (p.marshal PSubscription.marshal).map (UPacket.frame 5 0)
  | .ping => some (UPacket.frame 6 0 [])
  | .disconnect _ => some (UPacket.frame 7 0 [])
  | .control t f c =>
    let b := c.marshal
    let h := (UPacket.controlHead t f b.length).marshal
    some (encodeLength h.length ++ h ++ b)

/-- Result of one `Read`. -/
inductive PacketOut where
  | panics
  | error
  | ok (p : UPacket) (rest : Bytes)
  deriving DecidableEq, Repr

/-- The `FromBinary` of each packet (net/message.go:61-84): errors of `proto.Unmarshal` are not looked at. -/
def UPacket.fromBinary (h : PbHeader) (body : Bytes) : Option UPacket :=
  if h.flow ≠ 0 then some (.control h.type h.flow (Pb.unmarshal PControl.take {} body).1)
  else if h.type = 1 then some (.connect (Pb.unmarshal PConnect.take {} body).1)
  else if h.type = 2 then some (.publish (Pb.unmarshal PPublish.take {} body).1)
  else if h.type = 3 then some (.relay (Pb.unmarshal (PList.take PRelayRequest.take {}) {} body).1)
  else if h.type = 4 then some (.subscribe (Pb.unmarshal (PList.take PSubscription.take {}) {} body).1)
  else if h.type = 5 then some (.unsubscribe (Pb.unmarshal (PList.take PSubscription.take {}) {} body).1)
  else none

/-- net/message.go:61-84: the body that follows a header. -/
def PbHeader.unpack (h : PbHeader) (b : Bytes) : PacketOut :=
  match UPacket.fromBinary h (b.take h.len.toNat) with
  | none => .error
  | some p => .ok p (b.drop h.len.toNat)

/-- net/message.go:36-85 `Read` with message.go:84-106 `FromBinary`. `make` of a negative length panics
(net/message.go:55); there is memory for every other length. -/
def readPacket (b : Bytes) : PacketOut :=
  match decodeLength b with
  | none => .error
  | some (n, b) =>
    if b.length < n then .error
    else
      let h := (Pb.unmarshal PbHeader.take {} (b.take n)).1
      let b := b.drop n
      if h.type = 0 then .error
      else if h.type = 6 then .ok .ping b
      else if h.type = 7 then .ok (.disconnect 0) b
      else if 2 ^ 31 ≤ h.len.toNat then .panics
      else if b.length < h.len.toNat then .error
      else h.unpack b

/-- How the reader of a connection ended: it waits for more, it gave the connection up, or the program stopped. -/
inductive ReadEnd where
  | lost
  | panics
  deriving DecidableEq, Repr

/-- hdl_conn.go:57-79 `readLoop` over everything a connection sent: the packets handed to the handler and how it
ended; the end of the stream is an error like any other. At most `fuel` packets (`readPackets_fuel`). -/
def readPacketsAux : (fuel : Nat) → Bytes → List UPacket × ReadEnd
  | 0, _ => ([], .lost)
  | fuel + 1, b =>
    match readPacket b with
    | .panics => ([], .panics)
    | .error => ([], .lost)
    | .ok p rest => let r := readPacketsAux fuel rest; (p :: r.1, r.2)

def readPackets (b : Bytes) : List UPacket × ReadEnd := readPacketsAux (b.length + 1) b

end Verif
