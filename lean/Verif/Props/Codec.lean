import Verif.Model.Codec

/-!
# C01 - C05: stored formats give back what was stored
-/

namespace Verif

/-- Go's array types fix these lengths: `signature [7]byte`, `entries [255]`, `entries [335]`. -/
def DBInfo.Typed (i : DBInfo) : Prop := i.signature.length = 7
def WinBlock.Typed (b : WinBlock) : Prop := b.entries.length = 335

/-- What the index writer keeps true of a block: 255 slots, every used slot holds a sequence of the block's group of 255
consecutive sequences `255*k+1 .. 255*k+255`, and slot 0 is used whenever any slot is. -/
structure IndexBlock.Grouped (b : IndexBlock) (k : Nat) : Prop where
  slots : b.entries.length = 255
  group : ∀ e ∈ b.entries, e.seq ≠ 0 → 255 * k < e.seq.toNat ∧ e.seq.toNat ≤ 255 * k + 255
  first : (b.entries.headD IndexEntry.zero).seq = 0 → ∀ e ∈ b.entries, e.seq = 0

/-- C01. Reading the header that was written gives back signature, version, sequence and count. -/
theorem C01_header_roundtrip (i : DBInfo) (h : i.Typed) :
    ∃ j, DBInfo.unmarshal i.marshal = some j ∧
      j.signature = i.signature ∧ j.version = i.version ∧ j.sequence = i.sequence ∧ j.count = i.count := by
  rw [DBInfo.marshal_eq i h]
  have hs : i.signature.length = 7 := h
  have h1 : slice? (i.signature ++ (put32 i.version ++ ([0] ++ (put64 i.sequence ++ (put64 i.count ++ List.replicate 4 0))))) 7 8
      = some [UInt8.ofNat (i.version.toNat % 256)] := by
    rw [slice?_append_right _ _ _ _ (by omega) (by omega), hs]
    simp [slice?, put32, leBytes]
  simp only [DBInfo.unmarshal, h1, slice?_append_left _ _ 7 hs.symm]
  simp [get32_skip, get64_skip, get64_cons, hs]

example : ∃ i : DBInfo, i.Typed ∧ i.sequence = 0xFFFFFFFFFFFFFFFF ∧ i.count = 7 :=
  ⟨⟨[1, 2, 3, 4, 5, 6, 7], 1, 0, 0xFFFFFFFFFFFFFFFF, 7⟩, rfl, rfl, rfl⟩

/-- C02, what the code does: the flag read back is the low byte of the version, whatever was written. -/
theorem C02_flag_read (i : DBInfo) (h : i.Typed) :
    ∃ j, DBInfo.unmarshal i.marshal = some j ∧ j.encryption = UInt8.ofNat (i.version.toNat % 256) := by
  rw [DBInfo.marshal_eq i h]
  have hs : i.signature.length = 7 := h
  have h1 : slice? (i.signature ++ (put32 i.version ++ ([0] ++ (put64 i.sequence ++ (put64 i.count ++ List.replicate 4 0))))) 7 8
      = some [UInt8.ofNat (i.version.toNat % 256)] := by
    rw [slice?_append_right _ _ _ _ (by omega) (by omega), hs]
    simp [slice?, put32, leBytes]
  simp only [DBInfo.unmarshal, h1, slice?_append_left _ _ 7 hs.symm]
  simp [get32_skip, get64_skip, get64_cons, hs]

/-- C02, full statement: the flag read back is the flag written. -/
def C02_statement : Prop :=
  ∀ i : DBInfo, i.Typed → (DBInfo.unmarshal i.marshal).map DBInfo.encryption = some i.encryption

/-- C02 is violated: with the file format version 1 (db_internal.go:43) that `writeInfo` stores, a database written with
encryption off reads back with encryption on. -/
theorem C02_violated : ¬ C02_statement := by
  intro h
  have := h ⟨[117, 110, 105, 116, 100, 98, 1], 1, 0, 5, 5⟩ rfl
  revert this
  decide

/-- C02 on the code's own version: every database, whatever its flag, reopens with encryption on; so the statement holds
exactly for databases that had it on. Missing from C02: databases with encryption off. -/
theorem C02_flag_partial (i : DBInfo) (h : i.Typed) (hv : i.version = 1) :
    (DBInfo.unmarshal i.marshal).map DBInfo.encryption = some i.encryption ↔ i.encryption = 1 := by
  obtain ⟨j, hj, he⟩ := C02_flag_read i h
  have h1 : j.encryption = 1 := by rw [he, hv]; rfl
  simp only [hj, Option.map_some, Option.some.injEq, h1]
  exact eq_comm

example : ∃ i : DBInfo, i.Typed ∧ i.version = 1 ∧ i.encryption = 0 :=
  ⟨⟨[1, 2, 3, 4, 5, 6, 7], 1, 0, 9, 7⟩, rfl, rfl, rfl⟩

/-- C03. An index block kept by the writer is read back unchanged. -/
theorem C03_index_block_roundtrip (b : IndexBlock) (k : Nat) (h : b.Grouped k) :
    IndexBlock.unmarshal b.marshal = some b := by
  have hs := h.slots
  simp only [IndexBlock.unmarshal, IndexBlock.marshal, List.append_assoc, get64_put]
  generalize hbase : (b.entries.headD IndexEntry.zero).seq = base
  have hd : List.drop 8 (put64 base ++ (b.entries.flatMap (IndexEntry.encode base) ++ (put16 b.entryIdx ++ List.replicate 6 0)))
      = b.entries.flatMap (IndexEntry.encode base) ++ (put16 b.entryIdx ++ List.replicate 6 0) := by
    simp
  have hrange : ∀ e ∈ b.entries, e.seq = 0 ∨ (e.seq.toNat < base.toNat + 255 ∧ base.toNat < e.seq.toNat + 255) := by
    intro e he
    by_cases h0 : e.seq = 0
    · exact Or.inl h0
    · right
      have hb0 : base ≠ 0 := fun hb => h0 (h.first (hbase.trans hb) e he)
      have hg := h.group e he h0
      have hmem : ∃ e0 ∈ b.entries, e0.seq = base := by
        cases hes : b.entries with
        | nil => rw [hes] at he; cases he
        | cons x xs => rw [hes] at hbase; exact ⟨x, List.mem_cons_self .., hbase⟩
      obtain ⟨e0, hm, hq⟩ := hmem
      have hg0 := h.group e0 hm (by rw [hq]; exact hb0)
      rw [hq] at hg0
      omega
  have hdec := decodeN_encode (IndexEntry.decode base) 16 (IndexEntry.encode base) b.entries
    (put16 b.entryIdx ++ List.replicate 6 0) (fun e _ => IndexEntry.length_encode base e)
    (fun e he z hz => IndexEntry.decode_encode base e z (by simp at hz; omega) (hrange e he))
  rw [hs] at hdec
  simp only [show entriesPerIndexBlock = 255 from rfl, hd, bind, Option.bind, hdec]
  simp

/-- Two used slots of group 3 (sequences 766..1020), the first not the smallest, and 253 empty slots. -/
example : IndexBlock.Grouped ⟨⟨900, 16, 40, 0⟩ :: ⟨766, 0, 7, 65⟩ :: List.replicate 253 IndexEntry.zero, 2⟩ 3 where
  slots := by simp only [List.length_cons, List.length_replicate]
  group := by
    intro e he h0
    simp only [List.mem_cons, List.mem_replicate] at he
    rcases he with h | h | ⟨_, h⟩ <;> subst h
    · decide
    · decide
    · exact absurd rfl h0
  first := by intro h; exact absurd h (by decide)

/-- C04. A window block is read back unchanged. -/
theorem C04_window_block_roundtrip (b : WinBlock) (h : b.Typed) : WinBlock.unmarshal b.marshal = some b := by
  have hs : b.entries.length = 335 := h
  simp only [WinBlock.unmarshal, WinBlock.marshal, List.append_assoc]
  have hdec := decodeN_encode WinEntry.decode 12 WinEntry.encode b.entries
    (putI64 b.cutoffTime ++ (put64 b.topicHash ++ (putI64 b.next ++ (put16 b.entryIdx ++ List.replicate 50 0))))
    (fun e _ => WinEntry.length_encode e)
    (fun e _ z hz => WinEntry.decode_encode e z (by simp at hz; omega))
  rw [hs] at hdec
  rw [show entriesPerWindowBlock = 335 from rfl, hdec]
  simp [get64_skip, getI64_skip, get16_skip]

example : WinBlock.Typed ⟨0xFFFFFFFFFFFFFFFF, List.replicate 335 ⟨3, 4⟩, -1, 5, 335⟩ := List.length_replicate ..

/-- C05 (header part). The log header is read back unchanged. -/
theorem C05_log_header_roundtrip (l : LogInfo) : LogInfo.unmarshal l.marshal = some l := by
  simp only [LogInfo.unmarshal, LogInfo.marshal, List.append_assoc]
  simp [get32_skip, getI64_skip]

/-- C06 (header part). The entry header kept in memory and in the log is read back unchanged. -/
theorem C06_entry_header_roundtrip (e : EntryHdr) (z : Bytes) : EntryHdr.unmarshal (e.marshal ++ z) = some e := by
  simp only [EntryHdr.unmarshal, EntryHdr.marshal, List.append_assoc]
  simp [get32_skip, get16_skip, get64_skip]

end Verif
