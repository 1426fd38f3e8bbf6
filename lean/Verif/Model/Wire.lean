import Verif.Model.Varint

/-!
# Packets on a connection

server/utp/{message,connect,publish,subscribe,relay,flow_control}.go and server/internal/net/message.go.
The protobuf encoding of headers and bodies is a parameter.
-/

namespace Verif

/-- utp/message.go:53-58 `FixedHeader`. -/
structure FixedHeader where
  type : Nat
  flow : Nat
  len : Nat
  deriving DecidableEq, Repr

/-- utp/message.go:31-40. -/
def tCONNECT : Nat := 1
def tPUBLISH : Nat := 2
def tRELAY : Nat := 3
def tSUBSCRIBE : Nat := 4
def tUNSUBSCRIBE : Nat := 5
def tPINGREQ : Nat := 6
def tDISCONNECT : Nat := 7

/-- The protobuf codec of the fixed header. -/
structure HeaderCodec where
  marshal : FixedHeader → Bytes
  unmarshal : Bytes → FixedHeader

/-- The values a header can carry: two bytes and an `int32` length. -/
def FixedHeader.Fits (h : FixedHeader) : Prop := h.type < 256 ∧ h.flow < 256 ∧ h.len < 2 ^ 31

/-- What the framing relies on: headers decode to what was encoded and are short. -/
structure HeaderCodec.Sound (c : HeaderCodec) : Prop where
  inverse : ∀ h, h.Fits → c.unmarshal (c.marshal h) = h
  short : ∀ h, h.Fits → (c.marshal h).length < 2 ^ 28

/-- utp/message.go:66-82 `pack` followed by the body (every `ToBinary`). -/
def packFrame (c : HeaderCodec) (type flow : Nat) (body : Bytes) : Bytes :=
  let h := c.marshal { type := type, flow := flow, len := body.length }
  encodeLength h.length ++ h ++ body

/-- flow_control.go:40-82 `ControlMessage.ToBinary`: the header of a control message (type 0 when no case matches). -/
def controlHeader (type flow : Nat) : Nat × Nat :=
  if flow = 1 then
    if 1 ≤ type ∧ type ≤ 6 then (type, 1) else (0, 0)
  else if 2 ≤ flow ∧ flow ≤ 5 then (tPUBLISH, flow)
  else (0, 0)

/-- What `Read` hands to the connection. -/
inductive InPacket
  | ping
  | disconnect
  | control (type flow : Nat) (body : Bytes)
  | message (type : Nat) (body : Bytes)
  deriving DecidableEq, Repr

/-- Result of one `Read`. -/
inductive ReadOut
  | error
  | ok (p : InPacket) (rest : Bytes)
  deriving DecidableEq, Repr

/-- net/message.go:36-85 `Read` (with utp/message.go:84-106 `FromBinary`). -/
def readFrame (c : HeaderCodec) (b : Bytes) : ReadOut :=
  match decodeLength b with
  | none => .error
  | some (n, rest) =>
    if rest.length < n then .error
    else
      let h := c.unmarshal (rest.take n)
      let rest := rest.drop n
      if h.type = 0 then .error
      else if h.type = tPINGREQ then .ok .ping rest
      else if h.type = tDISCONNECT then .ok .disconnect rest
      else if rest.length < h.len then .error
      else
        let body := rest.take h.len
        let rest := rest.drop h.len
        if h.flow ≠ 0 then .ok (.control h.type h.flow body) rest
        else if 1 ≤ h.type ∧ h.type ≤ 5 then .ok (.message h.type body) rest
        else .error

/-- Reading packets until the stream is exhausted or a read fails (hdl_conn.go:57-79 `readLoop`); at most
`fuel` packets. -/
def readAll (c : HeaderCodec) : (fuel : Nat) → Bytes → List InPacket
  | 0, _ => []
  | fuel + 1, b =>
    match readFrame c b with
    | .error => []
    | .ok p rest => p :: readAll c fuel rest

/-- A packet handed to a writer. -/
inductive OutPacket
  | ping
  | disconnect
  | control (type flow : Nat) (body : Bytes)
  | message (type : Nat) (body : Bytes)
  deriving DecidableEq, Repr

/-- The `ToBinary` of each packet: ping and disconnect have an empty protobuf body (connect.go:131-143, 160-172). -/
def writePacket (c : HeaderCodec) : OutPacket → Bytes
  | .ping => packFrame c tPINGREQ 0 []
  | .disconnect => packFrame c tDISCONNECT 0 []
  | .control t f body => let (t', f') := controlHeader t f; packFrame c t' f' body
  | .message t body => packFrame c t 0 body

theorem readFrame_pack (c : HeaderCodec) (hc : c.Sound) (t f : Nat) (body rest : Bytes)
    (ht : t < 256) (hf : f < 256) (hb : body.length < 2 ^ 31) :
    readFrame c (packFrame c t f body ++ rest) =
      if t = 0 then .error
      else if t = tPINGREQ then .ok .ping (body ++ rest)
      else if t = tDISCONNECT then .ok .disconnect (body ++ rest)
      else if f ≠ 0 then .ok (.control t f body) rest
      else if 1 ≤ t ∧ t ≤ 5 then .ok (.message t body) rest
      else .error := by
  have hs := hc.short { type := t, flow := f, len := body.length } ⟨ht, hf, hb⟩
  have hi := hc.inverse { type := t, flow := f, len := body.length } ⟨ht, hf, hb⟩
  simp only [packFrame]
  generalize hh : c.marshal { type := t, flow := f, len := body.length } = h at *
  have hd : decodeLength (encodeLength h.length ++ h ++ body ++ rest) = some (h.length, h ++ (body ++ rest)) := by
    have := decode_encode_aux (h.length + 1) 0 h.length 0 (h ++ (body ++ rest)) (by decide) hs (by omega) (by decide)
    rw [show (encodeLength h.length ++ h ++ body ++ rest) = encodeLengthAux (h.length + 1) h.length ++ (h ++ (body ++ rest)) by
      simp [encodeLength]]
    simpa [decodeLength] using this
  have hlen : ¬ (h ++ (body ++ rest)).length < h.length := by simp
  have hbl : ¬ (body ++ rest).length < body.length := by simp
  simp only [readFrame, hd, if_neg hlen, List.take_left, List.drop_left, hi, if_neg hbl]

end Verif
