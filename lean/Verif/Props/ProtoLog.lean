import Verif.Props.Proto
import Verif.Props.Delivery

/-!
# The packets of the message log (C83)

The codec that `Model/Delivery` leaves open, made of the packets of `Model/Proto`.
-/

namespace Verif

/-- The packet that logs `p`; the time to live of its messages is left out, as in `DMsg`. -/
def DPub.packet (p : DPub) : UPacket := .publish ⟨p.mid, p.mode, p.msgs.map fun m => { topic := m.topic, payload := m.payload }⟩

/-- store.go:203-214, 230-244 with net/message.go:88-99 `Encode`. A publish without messages is never logged (it is logged when one of its
messages is delivered), nor is one that `Encode` refuses. -/
def logEncode : LogItem → Bytes
  | .pub p => if p.msgs = [] then [0, 0, 0, 0] else p.packet.toBinary.getD [0, 0, 0, 0]
  | .receipt mid => (UPacket.control 2 4 { id := mid }).toBinary.getD []

/-- store.go:249-257 `Get`. -/
def logDecode (b : Bytes) : Option LogItem :=
  match readPacket b with
  | .ok (.publish p) _ => some (.pub ⟨p.id, p.mode, p.messages.map fun m => ⟨m.topic, m.payload⟩⟩)
  | .ok (.control _ _ c) _ => some (.receipt c.id)
  | _ => none

theorem encodeLength_pos (n : Nat) : 0 < (encodeLength n).length := by
  simp only [encodeLength, encodeLengthAux]; split <;> simp

/-- C83: what the log keeps is longer than three bytes, and a publish with messages on topics that are UTF-8, as all that arrive are, is read from
the log as it was written. -/
theorem C83_codec : (∀ x, 4 ≤ (logEncode x).length) ∧
    ∀ p : DPub, p.msgs ≠ [] → (∀ m ∈ p.msgs, Pb.utf8 m.topic = true) → (logEncode (.pub p)).length < 2 ^ 31 →
      logDecode (logEncode (.pub p)) = some (.pub p) := by
  have hhead : ∀ h : PbHeader, h.type = 2 → 2 ≤ h.marshal.length := by
    intro h ht
    have : (Pb.int32 1 h.type.toUInt32).length = 2 := by rw [ht]; decide
    simp only [PbHeader.marshal, List.length_append]; omega
  constructor
  · intro x
    cases x with
    | receipt mid =>
      simp only [logEncode, UPacket.toBinary, Option.getD_some, UPacket.controlHead]
      have h1 := encodeLength_pos (PbHeader.marshal ⟨2, 4, UInt32.ofNat (PControl.marshal { id := mid }).length⟩).length
      have h2 : (Pb.int32 1 (2 : UInt8).toUInt32).length = 2 := by decide
      have h3 : (Pb.int32 2 (4 : UInt8).toUInt32).length = 2 := by decide
      rw [if_neg (by decide), if_pos (by decide)]
      simp only [PbHeader.marshal, List.length_append] at h1 ⊢; omega
    | pub p =>
      simp only [logEncode]
      split
      · simp
      · next hne =>
        cases hb : p.packet.toBinary with
        | none => simp
        | some b =>
          simp only [Option.getD_some]
          simp only [DPub.packet, UPacket.toBinary, Option.map_eq_some_iff, PPublish.marshal] at hb
          obtain ⟨body, ⟨e, he, rfl⟩, rfl⟩ := hb
          have hel : 1 ≤ e.length := by
            obtain ⟨m, ms, hms⟩ := List.exists_cons_of_ne_nil hne
            rw [hms] at he
            simp only [List.map_cons, Pb.elements] at he
            cases hx : PMessage.marshal { topic := m.topic, payload := m.payload } with
            | none => rw [hx] at he; simp at he
            | some x =>
              rw [hx] at he
              simp only [Option.bind_some, Option.map_eq_some_iff] at he
              obtain ⟨r, _, rfl⟩ := he
              have := encodeLength_pos (3 * 8 + 2)
              simp only [Pb.element, Pb.varint, List.length_append]; omega
          simp only [UPacket.frame]
          generalize hB : Pb.int32 1 p.mid.toUInt32 ++ Pb.int32 2 p.mode.toUInt32 ++ e = body
          have hbl : e.length ≤ body.length := by rw [← hB]; simp only [List.length_append]; omega
          have h1 := encodeLength_pos (PbHeader.marshal ⟨2, 0, UInt32.ofNat body.length⟩).length
          have h2 := hhead ⟨2, 0, UInt32.ofNat body.length⟩ rfl
          simp only [List.length_append]; omega
  · intro p hne hu hl
    have hs : ∃ b, p.packet.toBinary = some b := by
      cases hb : p.packet.toBinary with
      | some b => exact ⟨b, rfl⟩
      | none =>
        obtain ⟨s, hs, hs'⟩ := (C91_refused _).1 hb
        simp only [DPub.packet, Spec.strings, List.mem_flatMap, List.mem_map] at hs
        obtain ⟨x, ⟨m, hm, rfl⟩, hs⟩ := hs
        simp only [List.mem_cons, List.not_mem_nil, or_false] at hs
        rcases hs with rfl | rfl
        · rw [hu m hm] at hs'; cases hs'
        · simp [Pb.utf8] at hs'
    obtain ⟨b, hb⟩ := hs
    simp only [logEncode, if_neg hne, hb, Option.getD_some] at hl ⊢
    have := readPacket_one p.packet b [] hb trivial hl
    rw [List.append_nil] at this
    simp only [logDecode, this, DPub.packet, List.map_map]
    congr 2
    obtain ⟨i, m, ms⟩ := p
    simp only [DPub.mk.injEq, true_and]
    conv => rhs; rw [← List.map_id ms]
    rfl

example : logEncode (.pub (toyPacket 5 1)) = [4, 8, 2, 24, 24, 8, 5, 16, 1, 26, 8, 10, 3, 107, 47, 120, 18, 1, 42, 26, 8, 10, 3, 107, 47, 121, 18, 1, 43] ∧
    logDecode (logEncode (.pub (toyPacket 5 1))) = some (.pub (toyPacket 5 1)) := by decide +kernel

/-- The toy server with the packets it logs in their own encoding. -/
def toyLogged : SrvEnv := { toySrv with enc := logEncode, dec := logDecode }

/-- A reader fetches the packet it was told of. -/
example : (dayRun toyLogged toyDay {} {}).any (fun r => (r.1.step toyLogged (.packet 1 (.publish (toyPacket 5 1)))).toOption.any fun s' =>
    (s'.step toyLogged (.packet 2 (.receive 5))).toOption.any fun s'' => s''.out.contains (2, .pub (toyPacket 5 1))) = true := by decide +kernel

end Verif
