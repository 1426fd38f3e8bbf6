import Verif.Model.Wire

/-!
# Properties of frames and packets (C48, C63)
-/

namespace Verif

/-- C48: for every length below 2^28 and any bytes that follow, the receiver decodes the length that was
sent and consumes exactly the prefix. -/
theorem C48_length_round_trip (n : Nat) (hn : n < 2 ^ 28) (rest : Bytes) :
    decodeLength (encodeLength n ++ rest) = some (n, rest) := by
  have := decode_encode_aux (n + 1) 0 n 0 rest (by decide) hn (by omega) (by decide)
  simpa [decodeLength, encodeLength] using this

example : encodeLength 300 = [172, 2] ∧ decodeLength ([172, 2] ++ [9]) = some (300, [9]) := by decide

/-- C48, the limit: no length of 2^28 or more survives, whatever follows. -/
theorem C48_limit (n : Nat) (hn : 2 ^ 28 ≤ n) (rest : Bytes) :
    decodeLength (encodeLength n ++ rest) ≠ some (n, rest) := by
  intro h
  have := decodeLengthAux_lt 5 0 0 _ _ _ (by decide) (by decide) h
  omega

example : decodeLength (encodeLength (2 ^ 28) ++ []) = some (0, [1]) := by decide +kernel

/-- What a written packet should be read back as; `none` for combinations that no caller writes
(type 0, an acknowledgement of a disconnect, a control flow with another type) and for the ping
acknowledgement (`C63_ping_ack_violated`). -/
def Spec.received : OutPacket → Option InPacket
  | .ping => some .ping
  | .disconnect => some .disconnect
  | .message t body => if 1 ≤ t ∧ t ≤ 5 then some (.message t body) else none
  | .control t f body =>
    if f = 1 ∧ 1 ≤ t ∧ t ≤ 5 ∨ t = 2 ∧ 2 ≤ f ∧ f ≤ 5 then some (.control t f body) else none

/-- The body of a packet, and that its length fits the header's `int32`. -/
def Spec.bodyFits : OutPacket → Prop
  | .ping | .disconnect => True
  | .message _ body | .control _ _ body => body.length < 2 ^ 31

theorem read_one (c : HeaderCodec) (hc : c.Sound) (p : OutPacket) (q : InPacket) (h : Spec.received p = some q)
    (hb : Spec.bodyFits p) (rest : Bytes) : readFrame c (writePacket c p ++ rest) = .ok q rest := by
  cases p with
  | ping =>
    simp only [Spec.received, Option.some.injEq] at h; subst h
    simp only [writePacket]
    rw [readFrame_pack c hc tPINGREQ 0 [] rest (by decide) (by decide) (by decide)]
    rfl
  | disconnect =>
    simp only [Spec.received, Option.some.injEq] at h; subst h
    simp only [writePacket]
    rw [readFrame_pack c hc tDISCONNECT 0 [] rest (by decide) (by decide) (by decide)]
    rfl
  | message t body =>
    simp only [Spec.received] at h
    split at h
    · next ht =>
      simp only [Option.some.injEq] at h; subst h
      simp only [writePacket]
      rw [readFrame_pack c hc t 0 body rest (by omega) (by decide) hb]
      have h6 : ¬ t = tPINGREQ := by show ¬ t = 6; omega
      have h7 : ¬ t = tDISCONNECT := by show ¬ t = 7; omega
      rw [if_neg (by omega), if_neg h6, if_neg h7, if_neg (by simp), if_pos ht]
    · simp at h
  | control t f body =>
    simp only [Spec.received] at h
    split at h
    · next ht =>
      simp only [Option.some.injEq] at h; subst h
      have hch : controlHeader t f = (t, f) := by
        rcases ht with ⟨rfl, h1, h2⟩ | ⟨rfl, h1, h2⟩
        · simp only [controlHeader, if_pos]
          rw [if_pos ⟨h1, by omega⟩]
        · simp only [controlHeader]
          rw [if_neg (by omega), if_pos ⟨h1, h2⟩]; rfl
      simp only [writePacket, hch]
      rw [readFrame_pack c hc t f body rest (by omega) (by omega) hb]
      have h6 : ¬ t = tPINGREQ := by show ¬ t = 6; omega
      have h7 : ¬ t = tDISCONNECT := by show ¬ t = 7; omega
      rw [if_neg (by omega), if_neg h6, if_neg h7, if_pos (by omega)]
    · simp at h

/-- C63 (partial: not the acknowledgement of a ping): for every sequence of packets written one after the other, the reader returns exactly those
packets, with their types, flow control and bodies, in order. -/
theorem C63_packets_in_order_partial (c : HeaderCodec) (hc : c.Sound) (sent : List (OutPacket × InPacket))
    (h : ∀ x ∈ sent, Spec.received x.1 = some x.2) (hb : ∀ x ∈ sent, Spec.bodyFits x.1) :
    readAll c sent.length (sent.flatMap fun x => writePacket c x.1) = sent.map (·.2) := by
  induction sent with
  | nil => rfl
  | cons x xs ih =>
    have h1 := read_one c hc x.1 x.2 (h x (by simp)) (hb x (by simp)) (xs.flatMap fun x => writePacket c x.1)
    simp only [List.length_cons, List.flatMap_cons, List.map_cons, readAll, h1]
    rw [ih (fun y hy => h y (by simp [hy])) (fun y hy => hb y (by simp [hy]))]

/-- A header codec that satisfies the assumptions. -/
def plainCodec : HeaderCodec where
  marshal h := leBytes 1 h.type ++ (leBytes 1 h.flow ++ leBytes 4 h.len)
  unmarshal b := { type := leNat (b.take 1), flow := leNat ((b.drop 1).take 1), len := leNat (b.drop 2) }

theorem plainCodec_sound : plainCodec.Sound where
  inverse h hf := by
    obtain ⟨t, f, l⟩ := h
    obtain ⟨h1, h2, h3⟩ := hf
    simp only at h1 h2 h3
    have e1 : (leBytes 1 t ++ (leBytes 1 f ++ leBytes 4 l)).take 1 = leBytes 1 t := List.take_left' (by simp)
    have e2 : (leBytes 1 t ++ (leBytes 1 f ++ leBytes 4 l)).drop 1 = leBytes 1 f ++ leBytes 4 l := List.drop_left' (by simp)
    have e3 : (leBytes 1 f ++ leBytes 4 l).take 1 = leBytes 1 f := List.take_left' (by simp)
    have e4 : (leBytes 1 t ++ (leBytes 1 f ++ leBytes 4 l)).drop 2 = leBytes 4 l := by
      rw [← List.append_assoc]; exact List.drop_left' (by simp)
    simp only [plainCodec, e1, e2, e3, e4, leNat_leBytes]
    rw [Nat.mod_eq_of_lt (by omega), Nat.mod_eq_of_lt (by omega), Nat.mod_eq_of_lt (by omega)]
  short h _ := by simp [plainCodec]

example : readAll plainCodec 3 (writePacket plainCodec (.message 2 [7, 8]) ++ writePacket plainCodec .ping ++
    writePacket plainCodec (.control 2 3 [9])) = [.message 2 [7, 8], .ping, .control 2 3 [9]] := by decide +kernel

/-- C63, violated: the acknowledgement of a ping is read as a ping (its flow control is not looked at). -/
theorem C63_ping_ack_violated (c : HeaderCodec) (hc : c.Sound) (rest : Bytes) :
    readFrame c (writePacket c (.control 6 1 []) ++ rest) = .ok .ping rest := by
  simp only [writePacket, show controlHeader 6 1 = (6, 1) from rfl]
  rw [readFrame_pack c hc 6 1 [] rest (by decide) (by decide) (by decide)]
  rfl

end Verif
