import Verif.Base.Bytes

/-!
# Stream connections

server/common/conn.go and the chunking encoder and decoder of server/common/encode.go. The gRPC stream is a
queue of messages, delivered in order.
-/

namespace Verif

/-- conn.go:75-150, the reading side of a connection: the messages on their way, the message being
decoded (`InMsg`) and `readOffset`. -/
structure SConn where
  queue : List Bytes
  inMsg : Bytes
  offset : Nat
  deriving DecidableEq, Repr

/-- encode.go:43-49 `Encode` and 67-76 `ChunkedEncoder`: how many bytes of `p` go into one message. -/
def encodeCount (chunk : Option Nat) (p : Bytes) : Nat :=
  match chunk with
  | none => p.length
  | some size => if p.length > size then size else p.length

/-- conn.go:113-146 `Write`: the messages sent for `p`; the loop is bounded by `fuel`
(`writeMessages_fuel`: `p.length + 1` rounds suffice when chunks are not empty). -/
def writeMessages (chunk : Option Nat) : (fuel : Nat) → Bytes → List Bytes
  | 0, _ => []
  | fuel + 1, p =>
    let n := encodeCount chunk p
    if n = p.length then [p.take n] else p.take n :: writeMessages chunk fuel (p.drop n)

/-- conn.go:113-146 `Write`. -/
def SConn.write (c : SConn) (chunk : Option Nat) (p : Bytes) : SConn :=
  { c with queue := c.queue ++ writeMessages chunk (p.length + 1) p }

/-- conn.go:76-110 `Read` into a buffer of `size` bytes: the bytes copied into the buffer that the returned
count covers; `none`: no message has arrived (the call waits). -/
def SConn.read (c : SConn) (size : Nat) : Option (Bytes × SConn) :=
  let start := if c.offset = 0 then
      match c.queue with
      | [] => none
      | m :: q => some { c with queue := q, inMsg := m }
    else some c
  match start with
  | none => none
  | some c =>
    let copied := (c.inMsg.drop c.offset).take size
    if c.inMsg.length ≤ size + c.offset then
      some (copied.take (c.inMsg.length - c.offset), { c with inMsg := [], offset := 0 })
    else
      some (copied, { c with offset := c.offset + size })

/-- The bytes that have been sent and not yet read. -/
def SConn.pending (c : SConn) : Bytes :=
  (if c.offset = 0 then [] else c.inMsg.drop c.offset) ++ c.queue.flatten

/-- While a message is being decoded the offset is inside it. -/
def SConn.Ok (c : SConn) : Prop := c.offset = 0 ∨ c.offset < c.inMsg.length

/-- A bound on the reads it takes to empty the connection. -/
def SConn.work (c : SConn) : Nat := c.pending.length + c.queue.length + (if c.offset = 0 then 0 else 1)

theorem writeMessages_flatten (chunk : Option Nat) (hc : ∀ s, chunk = some s → 0 < s) (fuel : Nat) (p : Bytes) (h : p.length < fuel) :
    (writeMessages chunk fuel p).flatten = p := by
  induction fuel generalizing p with
  | zero => omega
  | succ fuel ih =>
    simp only [writeMessages]
    have hle : encodeCount chunk p ≤ p.length := by
      unfold encodeCount; split
      · exact Nat.le_refl _
      · split <;> omega
    split
    · next he => simp [he]
    · next hne =>
      have hpos : 0 < encodeCount chunk p := by
        unfold encodeCount at hne ⊢
        split at hne
        · simp at hne
        · next s => have := hc s rfl; split at hne <;> simp_all
      rw [List.flatten_cons, ih _ (by rw [List.length_drop]; omega), List.take_append_drop]

theorem SConn.read_spec (c : SConn) (h : c.Ok) (size : Nat) (hs : 0 < size) (out : Bytes) (c' : SConn)
    (hr : c.read size = some (out, c')) :
    c'.Ok ∧ out ++ c'.pending = c.pending ∧
      c'.work < c.work := by
  unfold SConn.work
  unfold SConn.read at hr
  by_cases h0 : c.offset = 0
  · simp only [h0, if_true] at hr
    cases hq : c.queue with
    | nil => simp [hq] at hr
    | cons m q =>
      simp only [hq, Nat.add_zero, List.drop_zero, Nat.zero_add] at hr
      by_cases hl : m.length ≤ size
      · simp only [hl, if_true, Option.some.injEq, Prod.mk.injEq] at hr
        obtain ⟨rfl, rfl⟩ := hr
        refine ⟨Or.inl rfl, ?_, ?_⟩
        · simp [SConn.pending, h0, hq, List.take_of_length_le hl]
        · simp [SConn.pending, h0, hq]; omega
      · simp only [hl, if_false, Option.some.injEq, Prod.mk.injEq] at hr
        obtain ⟨rfl, rfl⟩ := hr
        have hne : ¬ size = 0 := by omega
        refine ⟨Or.inr (by simp only; omega), ?_, ?_⟩
        · simp [SConn.pending, h0, hq, hne]
          rw [← List.append_assoc, List.take_append_drop]
        · simp [SConn.pending, h0, hq, hne]; omega
  · have hlt : c.offset < c.inMsg.length := by
      rcases h with h | h
      · exact absurd h h0
      · exact h
    simp only [h0, if_false] at hr
    by_cases hl : c.inMsg.length ≤ size + c.offset
    · simp only [hl, if_true, Option.some.injEq, Prod.mk.injEq] at hr
      obtain ⟨rfl, rfl⟩ := hr
      refine ⟨Or.inl rfl, ?_, ?_⟩
      · have : List.take size (List.drop c.offset c.inMsg) = List.drop c.offset c.inMsg :=
          List.take_of_length_le (by rw [List.length_drop]; omega)
        rw [this, List.take_of_length_le (by rw [List.length_drop]; exact Nat.le_refl _)]
        simp [SConn.pending, h0]
      · simp [SConn.pending, h0]; omega
    · simp only [hl, if_false, Option.some.injEq, Prod.mk.injEq] at hr
      obtain ⟨rfl, rfl⟩ := hr
      have hne : ¬ c.offset + size = 0 := by omega
      refine ⟨Or.inr (by simp only; omega), ?_, ?_⟩
      · simp only [SConn.pending, h0, hne, if_false]
        rw [← List.append_assoc, ← List.drop_drop, List.take_append_drop]
      · simp [SConn.pending, h0]; omega

end Verif
