import Verif.Base.Bytes

/-!
# On-disk codecs

Fixed layouts of the header, the index block, the window block, the in-memory entry header and the log header.
-/

namespace Verif

/-! ## Database header -/

/-- db_info.go:28-40 `_Header`, `_DBInfo`. `signature` is a `[7]byte`, `encryption` an `int8` (kept as its byte). -/
structure DBInfo where
  signature : Bytes
  version : UInt32
  encryption : UInt8
  sequence : UInt64
  count : UInt64
deriving DecidableEq, Repr

/-- db_info.go:43-52 `_DBInfo.MarshalBinary`: the five writes into a zeroed 32 byte buffer, in source order. -/
def DBInfo.marshal (i : DBInfo) : Bytes :=
  let buf := List.replicate 32 0
  let buf := patch buf 0 i.signature
  let buf := patch buf 7 (put32 i.version)
  let buf := patch buf 12 [i.encryption]
  let buf := patch buf 12 (put64 i.sequence)
  patch buf 20 (put64 i.count)

/-- db_info.go:55-63 `_DBInfo.UnmarshalBinary`. -/
def DBInfo.unmarshal (data : Bytes) : Option DBInfo := do
  let signature ← slice? data 0 7
  let version ← get32 data 7
  let enc ← slice? data 7 8
  let sequence ← get64 data 12
  let count ← get64 data 20
  match enc with
  | [e] => pure { signature, version, encryption := e, sequence, count }
  | _ => none

/-! ## Sequences of fixed-size items -/

/-- The decoding loop `for i := 0; i < n; i++ { item; data = data[size:] }`. Returns the items and the remaining data. -/
def decodeN {α : Type} (item : Bytes → Option α) (size : Nat) : Nat → Bytes → Option (List α × Bytes)
  | 0, data => some ([], data)
  | n + 1, data => do
    let x ← item data
    if size ≤ data.length then
      let (xs, rest) ← decodeN item size n (data.drop size)
      pure (x :: xs, rest)
    else none

theorem decodeN_encode {α : Type} (item : Bytes → Option α) (size : Nat) (enc : α → Bytes) (xs : List α) (z : Bytes)
    (hlen : ∀ x ∈ xs, (enc x).length = size)
    (hitem : ∀ x ∈ xs, ∀ z' : Bytes, z.length ≤ z'.length → item (enc x ++ z') = some x) :
    decodeN item size xs.length (xs.flatMap enc ++ z) = some (xs, z) := by
  induction xs with
  | nil => rfl
  | cons x xs ih =>
    have hx := hlen x (List.mem_cons_self ..)
    simp only [List.length_cons, List.flatMap_cons, List.append_assoc, decodeN]
    rw [hitem x (List.mem_cons_self ..) _ (by simp)]
    have h2 : (enc x ++ (xs.flatMap enc ++ z)).drop size = xs.flatMap enc ++ z := by
      rw [← hx]; simp
    have h3 : size ≤ (enc x ++ (xs.flatMap enc ++ z)).length := by simp; omega
    simp only [h2, bind, Option.bind, h3, if_true]
    rw [ih (fun y hy => hlen y (List.mem_cons_of_mem _ hy)) (fun y hy => hitem y (List.mem_cons_of_mem _ hy))]
    rfl

/-! ## Index block -/

/-- db_internal.go:36. -/
def entriesPerIndexBlock : Nat := 255
/-- db_internal.go:37. -/
def entriesPerWindowBlock : Nat := 335
/-- block.go:25. -/
def blockSize : Nat := 4096

/-- block.go:29-36 `_IndexEntry`; the memdb `cache` slice is not part of the persisted entry and is kept apart. -/
structure IndexEntry where
  seq : UInt64
  topicSize : UInt16
  valueSize : UInt32
  msgOffset : Int64
deriving DecidableEq, Repr, Inhabited

/-- The zero value of `_IndexEntry`. -/
def IndexEntry.zero : IndexEntry := ⟨0, 0, 0, 0⟩

/-- block.go:37-44 `_IndexBlock`. `entries` is the Go array of 255; `leased`/`dirty` are writer state, kept in the writer. -/
structure IndexBlock where
  entries : List IndexEntry
  entryIdx : UInt16
deriving DecidableEq, Repr

/-- block.go:79-82: relative sequence, `uint16(int16(seq-base)+255)` or 0 for an unused slot. -/
def relSeq (base seq : UInt64) : UInt16 :=
  if seq ≠ 0 then (seq - base).toUInt16 + 255 else 0

/-- block.go:100-105: back from the relative sequence; `uint64(int16)` sign-extends. -/
def absSeq (base : UInt64) (r : UInt16) : UInt64 :=
  if r = 0 then 0 else base + r.toInt16.toInt64.toUInt64 - 255

/-- block.go:83-86, the 16 bytes of one slot. -/
def IndexEntry.encode (base : UInt64) (e : IndexEntry) : Bytes :=
  put16 (relSeq base e.seq) ++ put16 e.topicSize ++ put32 e.valueSize ++ putI64 e.msgOffset

/-- block.go:99-108, one slot; `_ = data[16]` panics on fewer than 17 bytes. -/
def IndexEntry.decode (base : UInt64) (data : Bytes) : Option IndexEntry := do
  if data.length < 17 then none
  let r ← get16 data 0
  let topicSize ← get16 data 2
  let valueSize ← get32 data 4
  let msgOffset ← getI64 data 8
  pure { seq := absSeq base r, topicSize, valueSize, msgOffset }

/-- block.go:71-92 `_IndexBlock.marshalBinary`: 8 bytes base sequence (that of slot 0), 255 slots of 16 bytes, the entry
count, and the six unused bytes of the 4096 byte block. -/
def IndexBlock.marshal (b : IndexBlock) : Bytes :=
  let base := (b.entries.headD IndexEntry.zero).seq
  put64 base ++ b.entries.flatMap (IndexEntry.encode base) ++ put16 b.entryIdx ++ List.replicate 6 0

/-- block.go:95-113 `_IndexBlock.unmarshalBinary`. -/
def IndexBlock.unmarshal (data : Bytes) : Option IndexBlock := do
  let base ← get64 data 0
  let (entries, rest) ← decodeN (IndexEntry.decode base) 16 entriesPerIndexBlock (data.drop 8)
  let entryIdx ← get16 rest 0
  pure { entries, entryIdx }

/-! ## Window block -/

/-- time_window.go:29-32 `_WinEntry`. -/
structure WinEntry where
  seq : UInt64
  expiresAt : UInt32
deriving DecidableEq, Repr, Inhabited

/-- The zero value of `_WinEntry`. -/
def WinEntry.zero : WinEntry := ⟨0, 0⟩

/-- time_window.go:33-48 `_WinBlock` (persisted part). -/
structure WinBlock where
  topicHash : UInt64
  entries : List WinEntry
  next : Int64
  cutoffTime : Int64
  entryIdx : UInt16
deriving DecidableEq, Repr

def WinEntry.encode (e : WinEntry) : Bytes := put64 e.seq ++ put32 e.expiresAt

/-- time_window.go:91-94; `_ = data[12]` panics on fewer than 13 bytes. -/
def WinEntry.decode (data : Bytes) : Option WinEntry := do
  if data.length < 13 then none
  let seq ← get64 data 0
  let expiresAt ← get32 data 8
  pure { seq, expiresAt }

/-- time_window.go:72-86 `_WinBlock.marshalBinary`. -/
def WinBlock.marshal (b : WinBlock) : Bytes :=
  b.entries.flatMap WinEntry.encode ++ putI64 b.cutoffTime ++ put64 b.topicHash ++ putI64 b.next ++
    put16 b.entryIdx ++ List.replicate 50 0

/-- time_window.go:89-101 `_WinBlock.unmarshalBinary`. -/
def WinBlock.unmarshal (data : Bytes) : Option WinBlock := do
  let (entries, rest) ← decodeN WinEntry.decode 12 entriesPerWindowBlock data
  let cutoffTime ← getI64 rest 0
  let topicHash ← get64 rest 8
  let next ← getI64 rest 16
  let entryIdx ← get16 rest 24
  pure { topicHash, entries, next, cutoffTime, entryIdx }

/-! ## Entry header (in memdb and in the log) -/

/-- entry.go:31-40 `_Entry`, the marshalled fields. -/
structure EntryHdr where
  seq : UInt64
  topicSize : UInt16
  valueSize : UInt32
  expiresAt : UInt32
  topicHash : UInt64
deriving DecidableEq, Repr

/-- entry.go:27. -/
def entrySize : Nat := 26

/-- entry.go:110-119. -/
def EntryHdr.marshal (e : EntryHdr) : Bytes :=
  put64 e.seq ++ put16 e.topicSize ++ put32 e.valueSize ++ put32 e.expiresAt ++ put64 e.topicHash

/-- entry.go:122-129. -/
def EntryHdr.unmarshal (data : Bytes) : Option EntryHdr := do
  let seq ← get64 data 0
  let topicSize ← get16 data 8
  let valueSize ← get32 data 10
  let expiresAt ← get32 data 14
  let topicHash ← get64 data 18
  pure { seq, topicSize, valueSize, expiresAt, topicHash }

/-! ## Log header -/

/-- wal/header.go:27-34 `_LogInfo`. -/
structure LogInfo where
  version : UInt16
  timeID : Int64
  count : UInt32
  size : UInt32
deriving DecidableEq, Repr

/-- wal/header.go:24. -/
def logHeaderSize : Nat := 18

/-- wal/header.go:37-45. -/
def LogInfo.marshal (l : LogInfo) : Bytes :=
  put16 l.version ++ putI64 l.timeID ++ put32 l.count ++ put32 l.size

/-- wal/header.go:48-55. -/
def LogInfo.unmarshal (data : Bytes) : Option LogInfo := do
  let version ← get16 data 0
  let timeID ← getI64 data 2
  let count ← get32 data 10
  let size ← get32 data 14
  pure { version, timeID, count, size }

/-! ## Lemmas -/

theorem IndexEntry.length_encode (base : UInt64) (e : IndexEntry) : (e.encode base).length = 16 := by
  simp [IndexEntry.encode]

theorem WinEntry.length_encode (e : WinEntry) : e.encode.length = 12 := by
  simp [WinEntry.encode]

theorem EntryHdr.length_marshal (e : EntryHdr) : e.marshal.length = entrySize := by
  simp [EntryHdr.marshal, entrySize]

theorem LogInfo.length_marshal (l : LogInfo) : l.marshal.length = logHeaderSize := by
  simp [LogInfo.marshal, logHeaderSize]

theorem length_flatMap_const {α : Type} (f : α → Bytes) (k : Nat) (xs : List α) (h : ∀ x, (f x).length = k) :
    (xs.flatMap f).length = xs.length * k := by
  induction xs with
  | nil => simp
  | cons x xs ih => simp [List.flatMap_cons, ih, h, Nat.add_mul]; omega

theorem IndexBlock.length_marshal (b : IndexBlock) (h : b.entries.length = entriesPerIndexBlock) :
    b.marshal.length = blockSize := by
  simp only [IndexBlock.marshal, List.length_append, length_put64, length_put16, List.length_replicate]
  rw [length_flatMap_const _ 16 _ (IndexEntry.length_encode _), h]
  rfl

theorem WinBlock.length_marshal (b : WinBlock) (h : b.entries.length = entriesPerWindowBlock) :
    b.marshal.length = blockSize := by
  simp only [WinBlock.marshal, List.length_append, length_put64, length_put16, length_putI64, List.length_replicate]
  rw [length_flatMap_const _ 12 _ WinEntry.length_encode, h]
  rfl

theorem absSeq_relSeq (base seq : UInt64) (h : seq = 0 ∨ (seq.toNat < base.toNat + 255 ∧ base.toNat < seq.toNat + 255)) :
    absSeq base (relSeq base seq) = seq := by
  by_cases h0 : seq = 0
  · subst h0; simp [relSeq, absSeq]
  · have h : seq.toNat < base.toNat + 255 ∧ base.toNat < seq.toNat + 255 := by
      rcases h with h | h
      · exact absurd h h0
      · exact h
    have hs := seq.toNat_lt
    have hb := base.toNat_lt
    have hr : ((seq - base).toUInt16 + 255).toNat = seq.toNat + 255 - base.toNat := by
      simp only [UInt16.toNat_add, UInt64.toNat_toUInt16, UInt64.toNat_sub]
      have : UInt16.toNat 255 = 255 := rfl
      omega
    have hrel : relSeq base seq = (seq - base).toUInt16 + 255 := by simp [relSeq, h0]
    rw [hrel]
    generalize hg : (seq - base).toUInt16 + 255 = r at hr
    have hrne : r ≠ 0 := by
      intro h'; subst h'; simp at hr; omega
    have hx : (r.toInt16.toInt64.toUInt64).toNat = r.toNat := by
      have h1 : r.toInt16.toInt64.toInt = r.toNat := by
        rw [Int16.toInt_toInt64]
        have : r.toInt16.toInt = r.toBitVec.toInt := rfl
        rw [this, BitVec.toInt_eq_toNat_of_lt]
        · rfl
        · show 2 * r.toNat < 2 ^ 16
          omega
      have h2 : (r.toInt16.toInt64.toUInt64).toNat = (r.toInt16.toInt64.toBitVec).toNat := rfl
      rw [h2]
      have h3 : r.toInt16.toInt64.toBitVec.toInt = r.toNat := h1
      have h4 := BitVec.toInt_eq_toNat_bmod r.toInt16.toInt64.toBitVec
      have h5 := r.toInt16.toInt64.toBitVec.isLt
      rw [BitVec.toInt_eq_toNat_cond] at h3
      split at h3 <;> omega
    simp only [absSeq, hrne, if_false]
    apply UInt64.toNat.inj
    simp only [UInt64.toNat_sub, UInt64.toNat_add, hx, hr]
    have : UInt64.toNat 255 = 255 := rfl
    omega

/-- A header buffer in normal form: the byte at 11 stays 0, the flag written at 12 is overwritten by the sequence. -/
theorem DBInfo.marshal_eq (i : DBInfo) (h : i.signature.length = 7) :
    i.marshal = i.signature ++ (put32 i.version ++ ([0] ++ (put64 i.sequence ++ (put64 i.count ++ List.replicate 4 0)))) := by
  obtain ⟨sig, v, e, s, c⟩ := i
  simp only at h
  simp [DBInfo.marshal, patch, h, List.take_append, List.drop_append, List.take_of_length_le, List.drop_eq_nil_of_le]

theorem IndexEntry.decode_encode (base : UInt64) (e : IndexEntry) (z : Bytes) (hz : 0 < z.length)
    (h : e.seq = 0 ∨ (e.seq.toNat < base.toNat + 255 ∧ base.toNat < e.seq.toNat + 255)) :
    IndexEntry.decode base (e.encode base ++ z) = some e := by
  simp only [IndexEntry.decode, IndexEntry.encode, List.append_assoc]
  simp [get16_skip, get32_skip, getI64_skip, absSeq_relSeq base e.seq h]
  omega

theorem WinEntry.decode_encode (e : WinEntry) (z : Bytes) (hz : 0 < z.length) :
    WinEntry.decode (e.encode ++ z) = some e := by
  simp only [WinEntry.decode, WinEntry.encode, List.append_assoc]
  simp [get32_skip]
  omega

end Verif
