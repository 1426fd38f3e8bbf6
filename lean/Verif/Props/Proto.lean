import Verif.Model.ProtoLemmas

/-!
# Properties of packets and their fields (C63, C91, C92, C93)
-/

namespace Verif

theorem encodeLengthAux_length (g n k : Nat) (hk : 1 ≤ k) (hn : n < 2 ^ (7 * k)) (hg : n < g) : (encodeLengthAux g n).length ≤ k := by
  induction g generalizing n k with
  | zero => omega
  | succ g ih =>
    simp only [encodeLengthAux]
    split
    · simpa using hk
    · next h0 =>
      obtain ⟨j, rfl⟩ : ∃ j, k = j + 1 := ⟨k - 1, by omega⟩
      have hp : 2 ^ (7 * (j + 1)) = 128 * 2 ^ (7 * j) := by rw [show 7 * (j + 1) = 7 + 7 * j by omega, Nat.pow_add]
      rw [hp] at hn
      have hj : 1 ≤ j := by
        rcases Nat.eq_zero_or_pos j with h | h
        · subst h; simp at hn; omega
        · exact h
      have := ih (n / 128) j hj (by omega) (by omega)
      simp only [List.length_cons]; omega

theorem int32_length (num : Nat) (w : UInt32) (h : num < 16) : (Pb.int32 num w).length ≤ 11 := by
  have h1 := encodeLengthAux_length (num * 8 + 1) (num * 8) 1 (by decide) (by omega) (by omega)
  have hs := Pb.signExtend_lt w
  have h2 := encodeLengthAux_length (Pb.signExtend w + 1) (Pb.signExtend w) 10 (by decide) (Nat.lt_trans hs (by decide)) (by omega)
  simp only [Pb.int32, Pb.number]
  split
  · simp
  · simp only [Pb.varint, encodeLength, List.length_append]; omega

theorem header_length (h : PbHeader) : h.marshal.length ≤ 33 := by
  have h1 := int32_length 1 h.type.toUInt32 (by decide)
  have h2 := int32_length 2 h.flow.toUInt32 (by decide)
  have h3 := int32_length 3 h.len (by decide)
  simp only [PbHeader.marshal, List.length_append]; omega

/-- Reading a header that was written, whatever follows it. -/
theorem readPacket_header (h : PbHeader) (b : Bytes) :
    readPacket (encodeLength h.marshal.length ++ h.marshal ++ b) =
      if h.type = 0 then .error
      else if h.type = 6 then .ok .ping b
      else if h.type = 7 then .ok (.disconnect 0) b
      else if 2 ^ 31 ≤ h.len.toNat then .panics
      else if b.length < h.len.toNat then .error
      else h.unpack b := by
  have hl := header_length h
  have hd : decodeLength (encodeLength h.marshal.length ++ h.marshal ++ b) = some (h.marshal.length, h.marshal ++ b) := by
    have := decode_encode_aux (h.marshal.length + 1) 0 h.marshal.length 0 (h.marshal ++ b) (by decide) (by omega) (by omega) (by decide)
    rw [List.append_assoc]
    simpa [decodeLength, encodeLength] using this
  have ht : (Pb.unmarshal PbHeader.take {} ((h.marshal ++ b).take h.marshal.length)).1 = h := by
    rw [List.take_left, h.parses.unmarshal]
  simp only [readPacket, hd, ht, List.drop_left]
  rw [if_neg (by simp)]

/-- Reading a frame that was written. -/
theorem readPacket_frame (t f : UInt8) (body rest : Bytes) (h0 : t ≠ 0) (h6 : t ≠ 6) (h7 : t ≠ 7) (hb : body.length < 2 ^ 31) (p : UPacket)
    (hp : UPacket.fromBinary ⟨t, f, UInt32.ofNat body.length⟩ body = some p) : readPacket (UPacket.frame t f body ++ rest) = .ok p rest := by
  have hn : (UInt32.ofNat body.length).toNat = body.length := by rw [UInt32.toNat_ofNat']; omega
  have := readPacket_header ⟨t, f, UInt32.ofNat body.length⟩ (body ++ rest)
  simp only [PbHeader.unpack, h0, h6, h7, hn, if_false, List.take_left, List.drop_left, hp] at this
  rw [if_neg (by omega), if_neg (by simp)] at this
  simp only [UPacket.frame]
  rw [List.append_assoc]
  exact this

/-- The packets a client or the server sends: a ping is not acknowledged with an id, a disconnect carries no
id, and a control message has a type and flow control that belong together. -/
def Spec.Carried : UPacket → Prop
  | .disconnect id => id = 0
  | .control t f _ => f = 1 ∧ 1 ≤ t ∧ t ≤ 5 ∨ t = 2 ∧ 2 ≤ f ∧ f ≤ 5
  | _ => True

theorem frame_length (t f : UInt8) (body : Bytes) : body.length ≤ (UPacket.frame t f body).length := by
  simp only [UPacket.frame, List.length_append]; omega

theorem carried_control {t f : UInt8} (h : f = 1 ∧ 1 ≤ t ∧ t ≤ 5 ∨ t = 2 ∧ 2 ≤ f ∧ f ≤ 5) :
    t ≠ 0 ∧ t ≠ 6 ∧ t ≠ 7 ∧ f ≠ 0 ∧ ∀ n, UPacket.controlHead t f n = ⟨t, f, UInt32.ofNat n⟩ := by
  rcases h with ⟨rfl, h1, h2⟩ | ⟨rfl, h1, h2⟩
  · have h1' : (1 : UInt8).toNat ≤ t.toNat := h1
    have h2' : t.toNat ≤ (5 : UInt8).toNat := h2
    simp only [UInt8.reduceToNat] at h1' h2'
    refine ⟨?_, ?_, ?_, by decide, fun n => ?_⟩
    · rintro rfl; simp at h1'
    · rintro rfl; simp at h2'
    · rintro rfl; simp at h2'
    · have h6 : t ≤ 6 := by show t.toNat ≤ (6 : UInt8).toNat; simp only [UInt8.reduceToNat]; omega
      simp only [UPacket.controlHead, if_pos]
      rw [if_pos ⟨h1, h6⟩]
  · refine ⟨by decide, by decide, by decide, ?_, fun n => ?_⟩
    · rintro rfl; exact absurd h1 (by decide)
    · simp only [UPacket.controlHead]
      rw [if_neg (by rintro rfl; exact absurd h1 (by decide)), if_pos ⟨h1, h2⟩]

theorem readPacket_one (p : UPacket) (b rest : Bytes) (h : p.toBinary = some b) (hc : Spec.Carried p) (hb : b.length < 2 ^ 31) :
    readPacket (b ++ rest) = .ok p rest := by
  cases p with
  | connect c =>
    simp only [UPacket.toBinary, Option.map_eq_some_iff] at h
    obtain ⟨x, hx, rfl⟩ := h
    have := frame_length 1 0 x
    exact readPacket_frame 1 0 x rest (by decide) (by decide) (by decide) (by omega) _
      (by simp [UPacket.fromBinary, (PConnect.parses hx (by omega)).unmarshal])
  | publish p =>
    simp only [UPacket.toBinary, Option.map_eq_some_iff] at h
    obtain ⟨x, hx, rfl⟩ := h
    have := frame_length 2 0 x
    exact readPacket_frame 2 0 x rest (by decide) (by decide) (by decide) (by omega) _
      (by simp [UPacket.fromBinary, (PPublish.parses hx (by omega)).unmarshal])
  | relay p =>
    simp only [UPacket.toBinary, Option.map_eq_some_iff] at h
    obtain ⟨x, hx, rfl⟩ := h
    have := frame_length 3 0 x
    exact readPacket_frame 3 0 x rest (by decide) (by decide) (by decide) (by omega) _
      (by simp [UPacket.fromBinary, (PList.parses (fun _ _ => PRelayRequest.parses) hx (by omega)).unmarshal])
  | subscribe p =>
    simp only [UPacket.toBinary, Option.map_eq_some_iff] at h
    obtain ⟨x, hx, rfl⟩ := h
    have := frame_length 4 0 x
    exact readPacket_frame 4 0 x rest (by decide) (by decide) (by decide) (by omega) _
      (by simp [UPacket.fromBinary, (PList.parses (fun _ _ => PSubscription.parses) hx (by omega)).unmarshal])
  | unsubscribe p =>
    simp only [UPacket.toBinary, Option.map_eq_some_iff] at h
    obtain ⟨x, hx, rfl⟩ := h
    have := frame_length 5 0 x
    exact readPacket_frame 5 0 x rest (by decide) (by decide) (by decide) (by omega) _
      (by simp [UPacket.fromBinary, (PList.parses (fun _ _ => PSubscription.parses) hx (by omega)).unmarshal])
  | ping =>
    simp only [UPacket.toBinary, Option.some.injEq] at h
    subst h
    have := readPacket_header ⟨6, 0, 0⟩ rest
    simp only [UPacket.frame, List.append_nil]
    exact this
  | disconnect id =>
    simp only [UPacket.toBinary, Option.some.injEq] at h
    subst h
    have := readPacket_header ⟨7, 0, 0⟩ rest
    simp only [UPacket.frame, List.append_nil]
    rw [show id = 0 from hc]
    exact this
  | control t f c =>
    obtain ⟨h0, h6, h7, hf, hh⟩ := carried_control hc
    simp only [UPacket.toBinary, Option.some.injEq, hh] at h
    subst h
    have hl : c.marshal.length < 2 ^ 31 := by simp only [List.length_append] at hb; omega
    exact readPacket_frame t f c.marshal rest h0 h6 h7 hl _
      (by simp [UPacket.fromBinary, hf, (PControl.parses c (by omega)).unmarshal])

theorem decodeLengthAux_shorter {fuel k acc : Nat} {b : Bytes} {n : Nat} {rest : Bytes} (hk : 7 * k < 27 ∨ rest.length < b.length) (hf : 0 < fuel)
    (h : decodeLengthAux fuel k acc b = some (n, rest)) : rest.length < b.length := by
  cases fuel with
  | zero => omega
  | succ fuel =>
    rcases hk with hk | hk
    · simp only [decodeLengthAux, if_pos hk] at h
      cases b with
      | nil => simp at h
      | cons d b =>
        simp only at h
        split at h
        · simp only [Option.some.injEq, Prod.mk.injEq] at h; simp [h.2]
        · have key : ∀ (fuel k acc : Nat) (b : Bytes), decodeLengthAux fuel k acc b = some (n, rest) → rest.length ≤ b.length := by
            intro fuel
            induction fuel with
            | zero => intro k acc b h; simp only [decodeLengthAux, Option.some.injEq, Prod.mk.injEq] at h; simp [h.2]
            | succ fuel ih =>
              intro k acc b h
              simp only [decodeLengthAux] at h
              split at h
              · cases b with
                | nil => simp at h
                | cons d b =>
                  simp only at h
                  split at h
                  · simp only [Option.some.injEq, Prod.mk.injEq] at h; simp [h.2]
                  · have := ih _ _ _ h; simp only [List.length_cons]; omega
              · simp only [Option.some.injEq, Prod.mk.injEq] at h; simp [h.2]
          have := key _ _ _ _ h
          simp only [List.length_cons]; omega
    · exact hk

theorem readPacket_shorter {b : Bytes} {p : UPacket} {rest : Bytes} (h : readPacket b = .ok p rest) : rest.length < b.length := by
  simp only [readPacket] at h
  split at h
  · cases h
  · next hd =>
    have h1 := decodeLengthAux_shorter (.inl (by decide)) (by decide) hd
    split at h
    · cases h
    · split at h
      · cases h
      · split at h
        · simp only [PacketOut.ok.injEq] at h; rw [← h.2, List.length_drop]; omega
        · split at h
          · simp only [PacketOut.ok.injEq] at h; rw [← h.2, List.length_drop]; omega
          · split at h
            · cases h
            · split at h
              · cases h
              · simp only [PbHeader.unpack] at h
                split at h
                · cases h
                · simp only [PacketOut.ok.injEq] at h; rw [← h.2, List.length_drop, List.length_drop]; omega

theorem readPackets_fuel (fuel : Nat) (b : Bytes) (h : b.length < fuel) : readPacketsAux fuel b = readPackets b := by
  have key : ∀ m f g (b : Bytes), b.length ≤ m → b.length < f → b.length < g → readPacketsAux f b = readPacketsAux g b := by
    intro m
    induction m with
    | zero =>
      intro f g b hm hf hg
      have : b = [] := List.length_eq_zero_iff.1 (by omega)
      subst this
      cases f with
      | zero => omega
      | succ f => cases g with
        | zero => omega
        | succ g => rfl
    | succ m ih =>
      intro f g b hm hf hg
      cases f with
      | zero => omega
      | succ f =>
        cases g with
        | zero => omega
        | succ g =>
          simp only [readPacketsAux]
          cases hr : readPacket b with
          | panics => rfl
          | error => rfl
          | ok p rest =>
            have := readPacket_shorter hr
            simp only
            rw [ih f g rest (by omega) (by omega) (by omega)]
  exact key b.length _ _ _ (Nat.le_refl _) h (by omega)

theorem readPackets_cons {b : Bytes} {p : UPacket} {rest : Bytes} (h : readPacket b = .ok p rest) :
    readPackets b = (p :: (readPackets rest).1, (readPackets rest).2) := by
  have := readPacket_shorter h
  simp only [readPackets, readPacketsAux, h]
  rw [readPackets_fuel b.length rest this]
  rfl

/-- The packets of a list and the bytes they were written as. -/
def Spec.Written (sent : List (UPacket × Bytes)) : Prop :=
  ∀ x ∈ sent, x.1.toBinary = some x.2 ∧ Spec.Carried x.1 ∧ x.2.length < 2 ^ 31

theorem readPackets_sent (sent : List (UPacket × Bytes)) (h : Spec.Written sent) (rest : Bytes) :
    readPackets (sent.flatMap (·.2) ++ rest) = (sent.map (·.1) ++ (readPackets rest).1, (readPackets rest).2) := by
  induction sent with
  | nil => simp
  | cons x xs ih =>
    obtain ⟨h1, h2, h3⟩ := h x (by simp)
    rw [List.flatMap_cons, List.append_assoc, readPackets_cons (readPacket_one x.1 x.2 _ h1 h2 h3),
      ih (fun y hy => h y (by simp [hy]))]
    rfl

/-- C91: every sequence of packets written one after the other is read as exactly these packets, each with the
value of every field, in order. -/
theorem C91_fields_partial (sent : List (UPacket × Bytes)) (h : Spec.Written sent) :
    readPackets (sent.flatMap (·.2)) = (sent.map (·.1), .lost) := by
  have h0 : readPackets [] = ([], .lost) := rfl
  have := readPackets_sent sent h []
  rw [h0] at this
  simpa using this

/-- Three packets and their bytes: a connect with a client id and a session key with its top bit set, a publish
of two messages and a subscribe. -/
def toyWritten : List (UPacket × Bytes) :=
  [.connect { insecure := true, clientId := [65, 66], sessKey := 4294967295, password := [255, 0] },
   .publish { id := 300, mode := 2, messages := [{ topic := [97, 47, 98], payload := [1, 255] }, { topic := [99], ttl := [49, 115] }] },
   .control 2 4 { id := 7 }].map fun p => (p, p.toBinary.getD [])

theorem toyWritten_written : Spec.Written toyWritten := by
  simp only [Spec.Written, toyWritten, List.map_cons, List.map_nil, List.mem_cons, List.not_mem_nil, or_false]
  rintro x (rfl | rfl | rfl)
  · exact ⟨by decide +kernel, trivial, by decide +kernel⟩
  · exact ⟨by decide +kernel, trivial, by decide +kernel⟩
  · exact ⟨by decide +kernel, .inr (by decide), by decide +kernel⟩

example : readPackets (toyWritten.flatMap (·.2)) = (toyWritten.map (·.1), .lost) ∧ 60 < (toyWritten.flatMap (·.2)).length := by
  decide +kernel

/-- The strings of a packet. -/
def Spec.strings : UPacket → List Bytes
  | .connect c => [c.clientId, c.username]
  | .publish p => p.messages.flatMap fun m => [m.topic, m.ttl]
  | .relay p => p.items.flatMap fun r => [r.topic, r.last]
  | .subscribe p | .unsubscribe p => p.items.map (·.topic)
  | .ping | .disconnect _ | .control _ _ _ => []

theorem elements_none {f : α → Option Bytes} {num : Nat} (xs : List α) : Pb.elements num f xs = none ↔ ∃ x ∈ xs, f x = none := by
  induction xs with
  | nil => simp [Pb.elements]
  | cons x xs ih =>
    simp only [Pb.elements, List.mem_cons, exists_eq_or_imp]
    cases hx : f x with
    | none => simp
    | some b => simp [ih]

/-- C91: a packet is not written, and the writer is told, exactly when one of its strings is not UTF-8. -/
theorem C91_refused (p : UPacket) : p.toBinary = none ↔ ∃ s ∈ Spec.strings p, Pb.utf8 s = false := by
  cases p with
  | connect c =>
    simp only [UPacket.toBinary, Option.map_eq_none_iff, PConnect.marshal, Spec.strings, List.mem_cons, List.not_mem_nil, or_false, exists_eq_or_imp,
      exists_eq_left]
    cases Pb.utf8 c.clientId <;> cases Pb.utf8 c.username <;> simp
  | publish p =>
    simp only [UPacket.toBinary, Option.map_eq_none_iff, PPublish.marshal, elements_none, Spec.strings, List.mem_flatMap]
    constructor
    · rintro ⟨m, hm, h⟩
      simp only [PMessage.marshal] at h
      split at h
      · cases h
      · next hu =>
        cases h1 : Pb.utf8 m.topic with
        | false => exact ⟨m.topic, ⟨m, hm, by simp⟩, h1⟩
        | true => exact ⟨m.ttl, ⟨m, hm, by simp⟩, by simpa [h1] using hu⟩
    · rintro ⟨s, ⟨m, hm, hs⟩, h⟩
      refine ⟨m, hm, ?_⟩
      simp only [List.mem_cons, List.not_mem_nil, or_false] at hs
      rcases hs with rfl | rfl <;> simp [PMessage.marshal, h]
  | relay p =>
    simp only [UPacket.toBinary, Option.map_eq_none_iff, PList.marshal, elements_none, Spec.strings, List.mem_flatMap]
    constructor
    · rintro ⟨m, hm, h⟩
      simp only [PRelayRequest.marshal] at h
      split at h
      · cases h
      · next hu =>
        cases h1 : Pb.utf8 m.topic with
        | false => exact ⟨m.topic, ⟨m, hm, by simp⟩, h1⟩
        | true => exact ⟨m.last, ⟨m, hm, by simp⟩, by simpa [h1] using hu⟩
    · rintro ⟨s, ⟨m, hm, hs⟩, h⟩
      refine ⟨m, hm, ?_⟩
      simp only [List.mem_cons, List.not_mem_nil, or_false] at hs
      rcases hs with rfl | rfl <;> simp [PRelayRequest.marshal, h]
  | subscribe p =>
    simp only [UPacket.toBinary, Option.map_eq_none_iff, PList.marshal, elements_none, Spec.strings, PSubscription.marshal, List.mem_map]
    constructor
    · rintro ⟨m, hm, h⟩
      exact ⟨m.topic, ⟨m, hm, rfl⟩, by simpa using h⟩
    · rintro ⟨s, ⟨m, hm, rfl⟩, h⟩
      exact ⟨m, hm, by simp [h]⟩
  | unsubscribe p =>
    simp only [UPacket.toBinary, Option.map_eq_none_iff, PList.marshal, elements_none, Spec.strings, PSubscription.marshal, List.mem_map]
    constructor
    · rintro ⟨m, hm, h⟩
      exact ⟨m.topic, ⟨m, hm, rfl⟩, by simpa using h⟩
    · rintro ⟨s, ⟨m, hm, rfl⟩, h⟩
      exact ⟨m, hm, by simp [h]⟩
  | ping => simp [UPacket.toBinary, Spec.strings]
  | disconnect id => simp [UPacket.toBinary, Spec.strings]
  | control t f c => simp [UPacket.toBinary, Spec.strings]

example : (UPacket.publish { messages := [{ topic := [97] }, { topic := [97, 200] }] }).toBinary = none ∧
    (UPacket.publish { messages := [{ topic := [97] }, { topic := [195, 164] }] }).toBinary ≠ none := by decide +kernel

theorem utf8_ascii (s : Bytes) (h : ∀ c ∈ s, c.toNat < 128) : Pb.utf8 s = true := by
  induction s with
  | nil => rfl
  | cons a s ih =>
    have := h a (by simp)
    rw [Pb.utf8.eq_def]
    simp only
    rw [if_pos this]
    exact ih (fun c hc => h c (by simp [hc]))

/-- C91: a packet all of whose strings are ASCII is written. -/
theorem C91_ascii (p : UPacket) (h : ∀ s ∈ Spec.strings p, ∀ c ∈ s, c.toNat < 128) : ∃ b, p.toBinary = some b := by
  cases hp : p.toBinary with
  | some b => exact ⟨b, rfl⟩
  | none =>
    obtain ⟨s, hs, hu⟩ := (C91_refused p).1 hp
    rw [utf8_ascii s (h s hs)] at hu
    cases hu

example : ∀ s ∈ Spec.strings (.relay { id := 9, items := [{ topic := [97, 47], last := [49, 109] }] }), ∀ c ∈ s, c.toNat < 128 := by decide

/-- C91: the acknowledgement of a connect, sent inside a control message, arrives with its code, epoch and
connection id. -/
theorem C91_connack (a : PConnack) (rest : Bytes) : ∃ b c, (UPacket.control 1 1 { message := a.marshal }).toBinary = some b ∧
    readPacket (b ++ rest) = .ok (.control 1 1 c) rest ∧ c.id = 0 ∧ Pb.unmarshal PConnack.take {} c.message = (a, true) := by
  refine ⟨_, { message := a.marshal }, rfl, ?_, rfl, a.parses.unmarshal⟩
  refine readPacket_one _ _ rest rfl (.inl ⟨rfl, by decide, by decide⟩) ?_
  have h1 := int32_length 1 a.code.toUInt32 (by decide)
  have h2 := int32_length 2 a.epoch (by decide)
  have h3 := int32_length 3 a.connId (by decide)
  have ha : a.marshal.length ≤ 33 := by simp only [PConnack.marshal, List.length_append]; omega
  have hl := header_length (UPacket.controlHead 1 1 (PControl.marshal { message := a.marshal }).length)
  have he := encodeLengthAux_length ((UPacket.controlHead 1 1 (PControl.marshal { message := a.marshal }).length).marshal.length + 1) _ 1
    (by decide) (by omega) (Nat.lt_succ_self _)
  have hv := encodeLengthAux_length (a.marshal.length + 1) a.marshal.length 1 (by decide) (by omega) (by omega)
  have hs : (Pb.slice 2 a.marshal).length ≤ 35 := by
    simp only [Pb.slice]; split
    · simp
    · simp only [Pb.element, Pb.varint, List.length_append]
      have : (encodeLength (2 * 8 + 2)).length = 1 := by decide
      rw [this]
      simp only [encodeLength]; omega
  have hm : (PControl.marshal { message := a.marshal }).length ≤ 46 := by
    have := int32_length 1 (0 : UInt16).toUInt32 (by decide)
    simp only [PControl.marshal, List.length_append]; omega
  simp only [encodeLength, List.length_append]; omega

example : (UPacket.control 1 1 { message := PConnack.marshal ⟨2, 77, 4294967295⟩ }).toBinary =
    some ([6, 8, 1, 16, 1, 24, 17] ++ [18, 15, 8, 2, 16, 77, 24, 255, 255, 255, 255, 255, 255, 255, 255, 255, 1]) := by decide +kernel

/-- C91, violated: the id of a disconnect is lost. -/
theorem C91_disconnect_violated (id : UInt16) (hid : id ≠ 0) (rest : Bytes) :
    ∃ b, (UPacket.disconnect id).toBinary = some b ∧ readPacket (b ++ rest) = .ok (.disconnect 0) rest ∧ UPacket.disconnect 0 ≠ .disconnect id :=
  ⟨_, rfl, readPacket_one (.disconnect 0) _ rest rfl rfl (by decide +kernel), fun e => by injection e with e; exact hid e.symm⟩

example : (3 : UInt16) ≠ 0 := by decide

/-- C91, violated: the acknowledgement of a ping is read as a ping, and the bytes of its id as the beginning of the
next packet. -/
theorem C91_ping_violated (id : UInt16) (m rest : Bytes) :
    ∃ b, (UPacket.control 6 1 ⟨id, m⟩).toBinary = some b ∧ readPacket (b ++ rest) = .ok .ping (PControl.marshal ⟨id, m⟩ ++ rest) := by
  refine ⟨_, rfl, ?_⟩
  have := readPacket_header ⟨6, 1, UInt32.ofNat (PControl.marshal ⟨id, m⟩).length⟩ (PControl.marshal ⟨id, m⟩ ++ rest)
  rw [List.append_assoc]
  exact this

/-- … so that the publish sent next is lost. -/
example : (UPacket.control 6 1 { id := 5 }).toBinary.bind (fun a => (UPacket.publish { messages := [{ topic := [97] }] }).toBinary.map fun b =>
    readPackets (a ++ b)) = some ([.ping], .lost) := by decide +kernel

/-! ## Bytes that are no packets -/

/-- No four bytes in a row have their top bit set. -/
def Spec.Quiet (b : Bytes) : Prop := ∀ w x y z, [w, x, y, z] <:+: b → w.toNat < 128 ∨ x.toNat < 128 ∨ y.toNat < 128 ∨ z.toNat < 128

theorem Spec.Quiet.infix {a b : Bytes} (h : Spec.Quiet b) (hi : a <:+: b) : Spec.Quiet a := fun w x y z hw => h w x y z (hw.trans hi)

theorem quiet_consume {b : Bytes} (hq : Spec.Quiet b) {n : Nat} {rest : Bytes} (h : Pb.consume b = some (n, rest)) : n < 2 ^ 31 := by
  simp only [Pb.consume] at h
  cases b with
  | nil => simp [Pb.consumeAux] at h
  | cons a b =>
    simp only [Pb.consumeAux] at h
    rw [if_neg (by decide)] at h
    split at h
    · simp only [Option.some.injEq, Prod.mk.injEq] at h; omega
    · next ha =>
      have := a.toNat_lt
      cases b with
      | nil => simp [Pb.consumeAux] at h
      | cons c b =>
        simp only [Pb.consumeAux] at h
        rw [if_neg (by decide)] at h
        split at h
        · simp only [Option.some.injEq, Prod.mk.injEq] at h; omega
        · next hc =>
          have := c.toNat_lt
          cases b with
          | nil => simp [Pb.consumeAux] at h
          | cons d b =>
            simp only [Pb.consumeAux] at h
            rw [if_neg (by decide)] at h
            split at h
            · simp only [Option.some.injEq, Prod.mk.injEq] at h; omega
            · next hd =>
              have := d.toNat_lt
              cases b with
              | nil => simp [Pb.consumeAux] at h
              | cons e b =>
                have he : e.toNat < 128 := by
                  have := hq a c d e ⟨[], b, by simp⟩
                  omega
                simp only [Pb.consumeAux] at h
                rw [if_neg (by decide), if_pos he] at h
                simp only [Option.some.injEq, Prod.mk.injEq] at h; omega

theorem consumeAux_suffix {fuel k acc : Nat} {b : Bytes} {n : Nat} {rest : Bytes} (h : Pb.consumeAux fuel k acc b = some (n, rest)) : rest <:+ b := by
  induction fuel generalizing k acc b with
  | zero => simp [Pb.consumeAux] at h
  | succ fuel ih =>
    cases b with
    | nil => simp [Pb.consumeAux] at h
    | cons d r =>
      simp only [Pb.consumeAux] at h
      split at h
      · split at h
        · simp only [Option.some.injEq, Prod.mk.injEq] at h; rw [← h.2]; exact List.suffix_cons _ _
        · cases h
      · split at h
        · simp only [Option.some.injEq, Prod.mk.injEq] at h; rw [← h.2]; exact List.suffix_cons _ _
        · exact (ih h).trans (List.suffix_cons _ _)

theorem consume_suffix {b : Bytes} {n : Nat} {rest : Bytes} (h : Pb.consume b = some (n, rest)) : rest <:+ b := consumeAux_suffix h

theorem consumeBytes_suffix {b x rest : Bytes} (h : Pb.consumeBytes b = some (x, rest)) : rest <:+ b := by
  simp only [Pb.consumeBytes] at h
  split at h
  · cases h
  · next hc =>
    split at h
    · cases h
    · simp only [Option.some.injEq, Prod.mk.injEq] at h
      rw [← h.2]; exact (List.drop_suffix _ _).trans (consume_suffix hc)

theorem skipGroups_suffix {fuel : Nat} {gs : List Nat} {b rest : Bytes} (h : Pb.skipGroups fuel gs b = some rest) : rest <:+ b := by
  induction fuel generalizing gs b with
  | zero =>
    cases gs with
    | nil => simp only [Pb.skipGroups, Option.some.injEq] at h; simp [h]
    | cons g gs => simp [Pb.skipGroups] at h
  | succ fuel ih =>
    cases gs with
    | nil => simp only [Pb.skipGroups, Option.some.injEq] at h; simp [h]
    | cons g gs =>
      simp only [Pb.skipGroups] at h
      split at h
      · cases h
      · next hc =>
        have h1 := consume_suffix hc
        split at h
        · cases h
        · split at h
          · split at h
            · cases h
            · next hc2 => exact (ih h).trans ((consume_suffix hc2).trans h1)
          · split at h
            · split at h
              · cases h
              · exact (ih h).trans ((List.drop_suffix _ _).trans h1)
            · split at h
              · split at h
                · cases h
                · next hc2 => exact (ih h).trans ((consumeBytes_suffix hc2).trans h1)
              · split at h
                · exact (ih h).trans h1
                · split at h
                  · split at h
                    · exact (ih h).trans h1
                    · cases h
                  · split at h
                    · split at h
                      · cases h
                      · exact (ih h).trans ((List.drop_suffix _ _).trans h1)
                    · cases h

theorem quiet_field {b : Bytes} (hq : Spec.Quiet b) {n : Nat} {v : Pb.Val} {rest : Bytes} (h : Pb.field b = some (n, v, rest)) :
    rest <:+ b ∧ ∀ k, v = .varint k → k < 2 ^ 31 := by
  simp only [Pb.field] at h
  split at h
  · cases h
  · next hc =>
    have h1 := consume_suffix hc
    split at h
    · cases h
    · split at h
      · split at h
        · cases h
        · next hc2 =>
          simp only [Option.some.injEq, Prod.mk.injEq] at h
          refine ⟨by rw [← h.2.2]; exact (consume_suffix hc2).trans h1, fun k hk => ?_⟩
          rw [← h.2.1] at hk
          injection hk with hk
          rw [← hk]
          exact quiet_consume (hq.infix h1.isInfix) hc2
      · split at h
        · split at h
          · cases h
          · simp only [Option.some.injEq, Prod.mk.injEq] at h
            exact ⟨by rw [← h.2.2]; exact (List.drop_suffix _ _).trans h1, fun k hk => by rw [← h.2.1] at hk; cases hk⟩
        · split at h
          · split at h
            · cases h
            · next hc2 =>
              simp only [Option.some.injEq, Prod.mk.injEq] at h
              exact ⟨by rw [← h.2.2]; exact (consumeBytes_suffix hc2).trans h1, fun k hk => by rw [← h.2.1] at hk; cases hk⟩
          · split at h
            · split at h
              · cases h
              · next hc2 =>
                simp only [Option.some.injEq, Prod.mk.injEq] at h
                exact ⟨by rw [← h.2.2]; exact (skipGroups_suffix hc2).trans h1, fun k hk => by rw [← h.2.1] at hk; cases hk⟩
            · split at h
              · split at h
                · cases h
                · simp only [Option.some.injEq, Prod.mk.injEq] at h
                  exact ⟨by rw [← h.2.2]; exact (List.drop_suffix _ _).trans h1, fun k hk => by rw [← h.2.1] at hk; cases hk⟩
              · cases h

theorem quiet_fields (fuel : Nat) (b : Bytes) (hq : Spec.Quiet b) : ∀ n k, (n, Pb.Val.varint k) ∈ (Pb.fieldsAux fuel b).1 → k < 2 ^ 31 := by
  induction fuel generalizing b with
  | zero => cases b <;> simp [Pb.fieldsAux]
  | succ fuel ih =>
    cases b with
    | nil => simp [Pb.fieldsAux]
    | cons d b =>
      intro n k hm
      simp only [Pb.fieldsAux] at hm
      cases hf : Pb.field (d :: b) with
      | none => rw [hf] at hm; simp at hm
      | some x =>
        obtain ⟨m, v, rest⟩ := x
        obtain ⟨h1, h2⟩ := quiet_field hq hf
        rw [hf] at hm
        simp only [List.mem_cons, Prod.mk.injEq] at hm
        rcases hm with ⟨_, hm⟩ | hm
        · exact h2 k hm.symm
        · exact ih rest (hq.infix h1.isInfix) n k hm

theorem fill_len (fs : List (Nat × Pb.Val)) (hfs : ∀ n k, (n, Pb.Val.varint k) ∈ fs → k < 2 ^ 31) (h : PbHeader) (hh : h.len.toNat < 2 ^ 31) :
    (Pb.fill PbHeader.take h fs).1.len.toNat < 2 ^ 31 := by
  induction fs generalizing h with
  | nil => exact hh
  | cons x fs ih =>
    obtain ⟨n, v⟩ := x
    simp only [Pb.fill]
    cases hx : h.take n v with
    | none => exact hh
    | some h' =>
      simp only
      refine ih (fun n k hm => hfs n k (by simp [hm])) h' ?_
      unfold PbHeader.take at hx
      split at hx
      · injection hx with hx; rw [← hx]; exact hh
      · injection hx with hx; rw [← hx]; exact hh
      · next k =>
        injection hx with hx; rw [← hx]
        have := hfs 3 k (by simp)
        simp only [UInt32.toNat_ofNat']; omega
      · injection hx with hx; rw [← hx]; exact hh

theorem decodeLength_suffix {b : Bytes} {n : Nat} {rest : Bytes} (h : decodeLength b = some (n, rest)) : rest <:+ b := by
  have key : ∀ (fuel k acc : Nat) (b : Bytes), decodeLengthAux fuel k acc b = some (n, rest) → rest <:+ b := by
    intro fuel
    induction fuel with
    | zero => intro k acc b h; simp only [decodeLengthAux, Option.some.injEq, Prod.mk.injEq] at h; simp [h.2]
    | succ fuel ih =>
      intro k acc b h
      simp only [decodeLengthAux] at h
      split at h
      · cases b with
        | nil => simp at h
        | cons d b =>
          simp only at h
          split at h
          · simp only [Option.some.injEq, Prod.mk.injEq] at h; rw [← h.2]; exact List.suffix_cons _ _
          · exact (ih _ _ _ h).trans (List.suffix_cons _ _)
      · simp only [Option.some.injEq, Prod.mk.injEq] at h; simp [h.2]
  exact key _ _ _ _ h

theorem quiet_packet {b : Bytes} (hq : Spec.Quiet b) : readPacket b ≠ .panics ∧ ∀ p rest, readPacket b = .ok p rest → rest <:+ b := by
  simp only [readPacket]
  split
  · exact ⟨by simp, by simp⟩
  · next n r hd =>
    have h1 := decodeLength_suffix hd
    have hlen : (Pb.unmarshal PbHeader.take {} (r.take n)).1.len.toNat < 2 ^ 31 :=
      fill_len _ (quiet_fields _ _ (hq.infix ((List.take_prefix _ _).isInfix.trans h1.isInfix))) _ (by decide)
    have h2 := (List.drop_suffix n r).trans h1
    split
    · exact ⟨by simp, by simp⟩
    · split
      · exact ⟨by simp, by simp⟩
      · split
        · exact ⟨by simp, fun p rest h => by simp only [PacketOut.ok.injEq] at h; rw [← h.2]; exact h2⟩
        · split
          · exact ⟨by simp, fun p rest h => by simp only [PacketOut.ok.injEq] at h; rw [← h.2]; exact h2⟩
          · split
            · omega
            · split
              · exact ⟨by simp, by simp⟩
              · simp only [PbHeader.unpack]
                split
                · exact ⟨by simp, by simp⟩
                · exact ⟨by simp, fun p rest h => by simp only [PacketOut.ok.injEq] at h; rw [← h.2]; exact (List.drop_suffix _ _).trans h2⟩

/-- C92: bytes among which no four in a row have their top bit set, text among them, never stop the program,
whatever they are. -/
theorem C92_quiet_partial (b : Bytes) (hq : Spec.Quiet b) : (readPackets b).2 = .lost := by
  have key : ∀ (fuel : Nat) (b : Bytes), Spec.Quiet b → (readPacketsAux fuel b).2 = .lost := by
    intro fuel
    induction fuel with
    | zero => intro b _; rfl
    | succ fuel ih =>
      intro b hq
      obtain ⟨h1, h2⟩ := quiet_packet hq
      simp only [readPacketsAux]
      cases hr : readPacket b with
      | panics => exact absurd hr h1
      | error => rfl
      | ok p rest => exact ih rest (hq.infix (h2 p rest hr).isInfix)
  exact key _ _ hq

example : Spec.Quiet ("GET / HTTP/1.1".toUTF8.toList) ∧ readPackets ("GET / HTTP/1.1".toUTF8.toList) = ([], .lost) := by
  refine ⟨fun w x y z h => .inl ?_, by decide +kernel⟩
  have hw : w ∈ "GET / HTTP/1.1".toUTF8.toList := h.subset (by simp)
  have : ∀ w ∈ "GET / HTTP/1.1".toUTF8.toList, w.toNat < 128 := by decide +kernel
  exact this w hw

/-- C92: the reader hands on at most one packet for every byte it was sent. -/
theorem C92_bounded (b : Bytes) : (readPackets b).1.length ≤ b.length := by
  have key : ∀ (m : Nat) (b : Bytes), b.length ≤ m → (readPackets b).1.length ≤ b.length := by
    intro m
    induction m with
    | zero =>
      intro b hb
      have : b = [] := List.length_eq_zero_iff.1 (by omega)
      subst this; decide
    | succ m ih =>
      intro b hb
      cases hr : readPacket b with
      | panics => simp [readPackets, readPacketsAux, hr]
      | error => simp [readPackets, readPacketsAux, hr]
      | ok p rest =>
        have h1 := readPacket_shorter hr
        have h2 := ih rest (by omega)
        rw [readPackets_cons hr]
        simp only [List.length_cons]; omega
  exact key _ b (Nat.le_refl _)

example : (readPackets (toyWritten.flatMap (·.2))).1.length = 3 := by decide +kernel

/-- C92, violated: after any packets a client sent, a header with a negative length stops the program, whatever
follows it. -/
theorem C92_negative_violated (sent : List (UPacket × Bytes)) (h : Spec.Written sent) (t f : UInt8) (h0 : t ≠ 0) (h6 : t ≠ 6) (h7 : t ≠ 7)
    (len : UInt32) (hl : 2 ^ 31 ≤ len.toNat) (rest : Bytes) :
    readPackets (sent.flatMap (·.2) ++ (encodeLength (PbHeader.marshal ⟨t, f, len⟩).length ++ PbHeader.marshal ⟨t, f, len⟩ ++ rest)) =
      (sent.map (·.1), .panics) := by
  have hp := readPacket_header ⟨t, f, len⟩ rest
  simp only [h0, h6, h7, if_false, if_pos hl] at hp
  have : readPackets (encodeLength (PbHeader.marshal ⟨t, f, len⟩).length ++ PbHeader.marshal ⟨t, f, len⟩ ++ rest) = ([], .panics) := by
    simp only [readPackets, readPacketsAux, hp]
  rw [readPackets_sent sent h, this]
  simp

/-- The fourteen bytes that do so as the first of a connection. -/
example : readPackets [13, 8, 1, 24, 255, 255, 255, 255, 255, 255, 255, 255, 255, 1] = ([], .panics) := by decide +kernel

/-! ## Damaged packets -/

theorem encodeLength_small (n : Nat) (h : n < 128) : encodeLength n = [UInt8.ofNat n] := by
  simp only [encodeLength, encodeLengthAux]
  rw [if_pos (by omega), Nat.mod_eq_of_lt h]

theorem cut_header (h : PbHeader) (body : Bytes) (hb : body ≠ [] → h.type ≠ 0 ∧ h.type ≠ 6 ∧ h.type ≠ 7) (hl : h.len.toNat = body.length)
    (hs : body.length < 2 ^ 31) (k : Nat) (hk : k < (encodeLength h.marshal.length ++ h.marshal ++ body).length) :
    readPacket ((encodeLength h.marshal.length ++ h.marshal ++ body).take k) = .error := by
  have hh := header_length h
  have he := encodeLength_small h.marshal.length (by omega)
  cases k with
  | zero => rfl
  | succ j =>
    rcases Nat.lt_or_ge j h.marshal.length with hj | hj
    · have ht : (encodeLength h.marshal.length ++ h.marshal ++ body).take (j + 1) = UInt8.ofNat h.marshal.length :: h.marshal.take j := by
        rw [he, List.append_assoc, List.singleton_append, List.take_succ_cons, List.take_append_of_le_length (by omega)]
      have hd : decodeLength (UInt8.ofNat h.marshal.length :: h.marshal.take j) = some (h.marshal.length, h.marshal.take j) := by
        have := decode_encode_aux (h.marshal.length + 1) 0 h.marshal.length 0 (h.marshal.take j) (by decide) (by omega) (by omega) (by decide)
        have he' : encodeLengthAux (h.marshal.length + 1) h.marshal.length = [UInt8.ofNat h.marshal.length] := he
        rw [he'] at this
        simpa [decodeLength] using this
      rw [ht]
      simp only [readPacket, hd]
      rw [if_pos (by rw [List.length_take]; omega)]
    · have hlen : (encodeLength h.marshal.length ++ h.marshal).length = h.marshal.length + 1 := by rw [he]; simp
      have hk' : j - h.marshal.length < body.length := by
        rw [List.length_append, hlen] at hk; omega
      have ht : (encodeLength h.marshal.length ++ h.marshal ++ body).take (j + 1) =
          encodeLength h.marshal.length ++ h.marshal ++ body.take (j - h.marshal.length) := by
        rw [List.take_append, List.take_of_length_le (by omega), hlen]
        congr 2; omega
      have hne : body ≠ [] := by rintro rfl; simp at hk'
      obtain ⟨h0, h6, h7⟩ := hb hne
      rw [ht, readPacket_header]
      simp only [h0, h6, h7, if_false]
      rw [if_neg (by omega), if_pos (by rw [List.length_take]; omega)]

/-- C93: a packet whose end is missing is never taken for a packet, wherever it was cut. -/
theorem C93_cut_partial (p : UPacket) (b : Bytes) (h : p.toBinary = some b) (hc : Spec.Carried p) (hb : b.length < 2 ^ 31) (k : Nat) (hk : k < b.length) :
    readPacket (b.take k) = .error := by
  have key : ∀ t f body, t ≠ 0 → t ≠ 6 → t ≠ 7 → (UPacket.frame t f body).length < 2 ^ 31 → k < (UPacket.frame t f body).length →
      readPacket ((UPacket.frame t f body).take k) = .error := by
    intro t f body h0 h6 h7 hl hk
    have := frame_length t f body
    exact cut_header ⟨t, f, UInt32.ofNat body.length⟩ body (fun _ => ⟨h0, h6, h7⟩) (by simp only [UInt32.toNat_ofNat']; omega) (by omega) k hk
  cases p with
  | connect c =>
    simp only [UPacket.toBinary, Option.map_eq_some_iff] at h
    obtain ⟨x, hx, rfl⟩ := h
    exact key _ _ _ (by decide) (by decide) (by decide) hb hk
  | publish p =>
    simp only [UPacket.toBinary, Option.map_eq_some_iff] at h
    obtain ⟨x, hx, rfl⟩ := h
    exact key _ _ _ (by decide) (by decide) (by decide) hb hk
  | relay p =>
    simp only [UPacket.toBinary, Option.map_eq_some_iff] at h
    obtain ⟨x, hx, rfl⟩ := h
    exact key _ _ _ (by decide) (by decide) (by decide) hb hk
  | subscribe p =>
    simp only [UPacket.toBinary, Option.map_eq_some_iff] at h
    obtain ⟨x, hx, rfl⟩ := h
    exact key _ _ _ (by decide) (by decide) (by decide) hb hk
  | unsubscribe p =>
    simp only [UPacket.toBinary, Option.map_eq_some_iff] at h
    obtain ⟨x, hx, rfl⟩ := h
    exact key _ _ _ (by decide) (by decide) (by decide) hb hk
  | ping =>
    simp only [UPacket.toBinary, Option.some.injEq] at h
    subst h
    exact cut_header ⟨6, 0, 0⟩ [] (fun h => absurd rfl h) rfl (by decide) k hk
  | disconnect id =>
    simp only [UPacket.toBinary, Option.some.injEq] at h
    subst h
    exact cut_header ⟨7, 0, 0⟩ [] (fun h => absurd rfl h) rfl (by decide) k hk
  | control t f c =>
    obtain ⟨h0, h6, h7, hf, hh⟩ := carried_control hc
    simp only [UPacket.toBinary, Option.some.injEq, hh] at h
    subst h
    exact key _ _ _ h0 h6 h7 hb hk

example : ∀ x ∈ toyWritten, x.1.toBinary = some x.2 ∧ readPacket (x.2.take (x.2.length - 1)) = .error := by decide +kernel

/-- C93, violated: bytes that no message can hold, at the end of the body of a publish, go unnoticed. -/
theorem C93_junk_violated (p : PPublish) (b junk : Bytes) (h : p.marshal = some b) (hl : b.length + junk.length + 1 < 2 ^ 31) (rest : Bytes) :
    Pb.unmarshal PPublish.take {} (b ++ 0 :: junk) = (p, false) ∧
    readPacket (UPacket.frame 2 0 (b ++ 0 :: junk) ++ rest) = .ok (.publish p) rest := by
  have hu := (PPublish.parses h (by omega)).unmarshal_stuck (junk := 0 :: junk) (by simp)
    (by simp [Pb.field, Pb.consume, Pb.consumeAux])
  refine ⟨hu, readPacket_frame 2 0 _ rest (by decide) (by decide) (by decide) (by simp only [List.length_append, List.length_cons]; omega) _ ?_⟩
  simp [UPacket.fromBinary, hu]

example : (PPublish.marshal { id := 4, messages := [{ topic := [97], payload := [1] }] }) = some [8, 4, 26, 6, 10, 1, 97, 18, 1, 1] := by
  decide +kernel

theorem encodeLengthAux_prefix (g n k : Nat) (hg : n < g) (hk : k < (encodeLengthAux g n).length) :
    ∀ d ∈ (encodeLengthAux g n).take k, 128 ≤ d.toNat := by
  induction g generalizing n k with
  | zero => omega
  | succ g ih =>
    simp only [encodeLengthAux] at hk ⊢
    split at hk
    · next h0 =>
      simp only [List.length_cons, List.length_nil] at hk
      have : k = 0 := by omega
      subst this; simp
    · next h0 =>
      rw [if_neg h0]
      cases k with
      | zero => simp
      | succ k =>
        rw [List.take_succ_cons]
        simp only [List.length_cons] at hk
        intro d hd
        simp only [List.mem_cons] at hd
        rcases hd with rfl | hd
        · rw [UInt8.toNat_ofNat']; omega
        · exact ih (n / 128) k (by omega) (by omega) d hd

theorem consumeAux_high (fuel k acc : Nat) (b : Bytes) (h : ∀ d ∈ b, 128 ≤ d.toNat) : Pb.consumeAux fuel k acc b = none := by
  induction fuel generalizing k acc b with
  | zero => rfl
  | succ fuel ih =>
    cases b with
    | nil => rfl
    | cons d b =>
      have := h d (by simp)
      simp only [Pb.consumeAux]
      split
      · rw [if_neg (by omega)]
      · rw [if_neg (by omega)]
        exact ih _ _ _ (fun x hx => h x (by simp [hx]))

/-- A field that was cut is no field. -/
theorem cut_element (num : Nat) (b : Bytes) (hb : b.length < 2 ^ 64) (h2 : num < 2 ^ 29) (k : Nat) (hk : k < (Pb.element num b).length) :
    Pb.field ((Pb.element num b).take k) = none := by
  simp only [Pb.element] at hk ⊢
  rcases Nat.lt_or_ge k (Pb.varint (num * 8 + 2)).length with h | h
  · rw [List.append_assoc, List.take_append_of_le_length (by omega)]
    simp only [Pb.field, Pb.consume, Pb.varint, encodeLength]
    rw [consumeAux_high _ _ _ _ (encodeLengthAux_prefix _ _ _ (by omega) h)]
  · obtain ⟨j, rfl⟩ : ∃ j, k = (Pb.varint (num * 8 + 2)).length + j := ⟨k - (Pb.varint (num * 8 + 2)).length, by omega⟩
    rw [List.append_assoc, List.take_length_add_append]
    have hc : Pb.consumeBytes ((Pb.varint b.length ++ b).take j) = none := by
      rcases Nat.lt_or_ge j (Pb.varint b.length).length with hj | hj
      · rw [List.take_append_of_le_length (by omega)]
        simp only [Pb.consumeBytes, Pb.consume, Pb.varint, encodeLength]
        rw [consumeAux_high _ _ _ _ (encodeLengthAux_prefix _ _ _ (by omega) hj)]
      · obtain ⟨i, rfl⟩ : ∃ i, j = (Pb.varint b.length).length + i := ⟨j - (Pb.varint b.length).length, by omega⟩
        rw [List.take_length_add_append]
        simp only [Pb.consumeBytes, Pb.consume_varint _ _ hb]
        rw [if_pos]
        simp only [List.length_append] at hk
        rw [List.length_take]; omega
    simp only [Pb.field, Pb.consume_varint (num * 8 + 2) _ (by omega), hc]
    split
    · rfl
    · rw [if_neg (by omega), if_neg (by omega), if_pos (by omega)]

/-- C93, violated: a publish whose last message was cut short is taken for one without it: the messages before
are published. -/
theorem C93_message_violated (p : PPublish) (b : Bytes) (h : p.marshal = some b) (m : PMessage) (x : Bytes) (hm : m.marshal = some x)
    (hl : b.length + (Pb.element 3 x).length < 2 ^ 31) (k : Nat) (h0 : 0 < k) (hk : k < (Pb.element 3 x).length) (rest : Bytes) :
    PPublish.marshal { p with messages := p.messages ++ [m] } = some (b ++ Pb.element 3 x) ∧
    readPacket (UPacket.frame 2 0 (b ++ (Pb.element 3 x).take k) ++ rest) = .ok (.publish p) rest := by
  constructor
  · simp only [PPublish.marshal] at h ⊢
    cases hr : Pb.elements 3 PMessage.marshal p.messages with
    | none => rw [hr] at h; simp at h
    | some br =>
      rw [hr] at h
      have : Pb.elements 3 PMessage.marshal (p.messages ++ [m]) = some (br ++ Pb.element 3 x) := by
        clear h
        generalize p.messages = xs at hr
        induction xs generalizing br with
        | nil => simp only [Pb.elements, Option.some.injEq] at hr; subst hr; simp [Pb.elements, hm]
        | cons y xs ih =>
          simp only [Pb.elements, List.cons_append] at hr ⊢
          cases hy : y.marshal with
          | none => rw [hy] at hr; simp at hr
          | some by_ =>
            rw [hy] at hr
            simp only [Option.bind_some] at hr ⊢
            cases hxs : Pb.elements 3 PMessage.marshal xs with
            | none => rw [hxs] at hr; simp at hr
            | some bxs =>
              rw [hxs] at hr
              simp only [Option.map_some, Option.some.injEq] at hr
              rw [ih _ hxs, ← hr]
              simp
      rw [this]
      simp only [Option.map_some, Option.some.injEq] at h ⊢
      rw [← h]; simp
  · have hx : x.length ≤ (Pb.element 3 x).length := by simp only [Pb.element, List.length_append]; omega
    have hu := (PPublish.parses h (by omega)).unmarshal_stuck (junk := (Pb.element 3 x).take k)
      (by intro e; have := congrArg List.length e; simp only [List.length_take, List.length_nil] at this; omega)
      (cut_element 3 x (by omega) (by decide) k hk)
    refine readPacket_frame 2 0 _ rest (by decide) (by decide) (by decide) (by rw [List.length_append, List.length_take]; omega) _ ?_
    simp [UPacket.fromBinary, hu]

example : ∃ b x, PPublish.marshal { id := 4, messages := [{ topic := [97], payload := [1] }] } = some b ∧
    PMessage.marshal { topic := [98], payload := [2, 3] } = some x ∧ 5 < (Pb.element 3 x).length :=
  ⟨[8, 4, 26, 6, 10, 1, 97, 18, 1, 1], [10, 1, 98, 18, 2, 2, 3], by decide +kernel, by decide +kernel, by decide +kernel⟩

/-- C93, violated: a publish with a message whose topic is no UTF-8 is taken for the messages before it; those behind
it are dropped with it. -/
theorem C93_string_violated (p : PPublish) (b : Bytes) (h : p.marshal = some b) (topic : Bytes) (ht : Pb.utf8 topic = false) (tail : Bytes)
    (hl : (b ++ (Pb.element 3 (Pb.slice 1 topic) ++ tail)).length < 2 ^ 31) (rest : Bytes) :
    readPacket (UPacket.frame 2 0 (b ++ (Pb.element 3 (Pb.slice 1 topic) ++ tail)) ++ rest) = .ok (.publish p) rest := by
  have hne : topic ≠ [] := by rintro rfl; simp [Pb.utf8] at ht
  have hlt := slice_length_le 1 topic
  have hle : (Pb.slice 1 topic).length ≤ (Pb.element 3 (Pb.slice 1 topic)).length := by simp only [Pb.element, List.length_append]; omega
  simp only [List.length_append] at hl
  refine readPacket_frame 2 0 _ rest (by decide) (by decide) (by decide) (by simp only [List.length_append]; omega) _ ?_
  have hm : Pb.append PMessage.take {} (Pb.slice 1 topic) (fun x => { p with messages := p.messages ++ [x] }) = none := by
    have hf : Pb.fields (Pb.slice 1 topic) = ([(1, .bytes topic)], true) := by
      have := Pb.Reads.element 1 topic (by decide) (by decide) (by omega) []
      simp only [Pb.slice, if_neg hne]
      rw [List.append_nil] at this
      rw [this]; rfl
    simp [Pb.append, Pb.unmarshal, hf, Pb.fill, PMessage.take, Pb.string, ht]
  obtain ⟨fs, hr, hf⟩ := PPublish.parses h (by omega)
  have hfs := hr (Pb.element 3 (Pb.slice 1 topic) ++ tail)
  rw [Pb.fields_cons (Pb.field_element 3 (Pb.slice 1 topic) tail (by decide) (by decide) (by omega))] at hfs
  have : (Pb.unmarshal PPublish.take {} (b ++ (Pb.element 3 (Pb.slice 1 topic) ++ tail))).1 = p := by
    simp only [Pb.unmarshal, hfs, Pb.fill_append hf, Pb.fill, PPublish.take, hm]
  simp only [UPacket.fromBinary, this]
  rfl

example : Pb.utf8 [97, 255] = false := by decide +kernel

/-- C93, violated: an id or a delivery mode that does not fit is not refused but cut: a publish with id 65541 is
taken, and acknowledged, as the one with id 5. -/
theorem C93_range_violated (id mode : UInt32) (ms : List PMessage) (b : Bytes) (h : Pb.elements 3 PMessage.marshal ms = some b)
    (hl : b.length + 22 < 2 ^ 31) (rest : Bytes) :
    readPacket (UPacket.frame 2 0 (Pb.int32 1 id ++ Pb.int32 2 mode ++ b) ++ rest) =
      .ok (.publish ⟨UInt16.ofNat (id.toNat % 65536), UInt8.ofNat (mode.toNat % 256), ms⟩) rest := by
  have h1 := int32_length 1 id (by decide)
  have h2 := int32_length 2 mode (by decide)
  refine readPacket_frame 2 0 _ rest (by decide) (by decide) (by decide) (by simp only [List.length_append]; omega) _ ?_
  have e16 : UInt16.ofNat (Pb.signExtend id) = UInt16.ofNat (id.toNat % 65536) := by
    apply UInt16.toNat.inj
    simp only [UInt16.toNat_ofNat', Pb.signExtend]; split <;> omega
  have e8 : UInt8.ofNat (Pb.signExtend mode) = UInt8.ofNat (mode.toNat % 256) := by
    apply UInt8.toNat.inj
    simp only [UInt8.toNat_ofNat', Pb.signExtend]; split <;> omega
  have hp : Pb.Parses PPublish.take (Pb.int32 1 id ++ Pb.int32 2 mode ++ b) {} ⟨UInt16.ofNat (id.toNat % 65536), UInt8.ofNat (mode.toNat % 256), ms⟩ := by
    refine Pb.Parses.append (a1 := ⟨UInt16.ofNat (id.toNat % 65536), UInt8.ofNat (mode.toNat % 256), []⟩)
      (Pb.Parses.append (a1 := ⟨UInt16.ofNat (id.toNat % 65536), 0, []⟩) (.int32 (by simp only [PPublish.take, e16]) (fun h => by rw [h]; rfl))
        (.int32 (by simp only [PPublish.take, e8]) (fun h => by rw [h]; rfl))) ?_
    have := Pb.elements_parse (fun x b => PMessage.parses) (f := PPublish.take) (num := 3) (g := fun p x => { p with messages := p.messages ++ [x] })
      (fun a b => rfl) (by decide) (by decide) ms ⟨UInt16.ofNat (id.toNat % 65536), UInt8.ofNat (mode.toNat % 256), []⟩ b h (by omega)
    rw [foldl_messages] at this
    simpa using this
  simp only [UPacket.fromBinary, hp.unmarshal]
  rfl

example : UInt16.ofNat ((65541 : UInt32).toNat % 65536) = 5 ∧ Pb.elements 3 PMessage.marshal [{ topic := [97] }] = some [26, 3, 10, 1, 97] := by
  decide +kernel

/-! ## The headers of C63 -/

/-- The header codec that the packets are written with. -/
def pbCodec : HeaderCodec where
  marshal h := PbHeader.marshal ⟨UInt8.ofNat h.type, UInt8.ofNat h.flow, UInt32.ofNat h.len⟩
  unmarshal b := let h := (Pb.unmarshal PbHeader.take {} b).1; ⟨h.type.toNat, h.flow.toNat, h.len.toNat⟩

/-- C63: the protobuf headers decode to what was encoded and are short, so that C63 holds of them. -/
theorem C63_protobuf : pbCodec.Sound where
  inverse h hf := by
    obtain ⟨t, f, l⟩ := h
    obtain ⟨h1, h2, h3⟩ := hf
    simp only at h1 h2 h3
    simp only [pbCodec, (PbHeader.parses _).unmarshal]
    simp only [UInt8.toNat_ofNat', UInt32.toNat_ofNat', FixedHeader.mk.injEq]
    omega
  short h _ := by
    have := header_length ⟨UInt8.ofNat h.type, UInt8.ofNat h.flow, UInt32.ofNat h.len⟩
    simp only [pbCodec]; omega

example : readAll pbCodec 3 (writePacket pbCodec (.message 2 [7, 8]) ++ writePacket pbCodec .ping ++
    writePacket pbCodec (.control 2 3 [9])) = [.message 2 [7, 8], .ping, .control 2 3 [9]] := by decide +kernel

end Verif
