import Verif.Model.Codec
import Verif.Model.Address
import Verif.Model.BlockRange
import Verif.Model.File
import Verif.Model.Lease

/-!
# Index and data files: the block writer, a sync, and the block reader

block_writer.go, block_reader.go, db_sync.go. The files are byte lists. The block number is the integer quotient (`C11_float_exact`);
offsets go through the 32-bit product `blockOffset`. The `bpool` buffer is an append-only byte list. Errors of the operating
system are not modelled: a read past the end or at a negative offset is the only i/o error (`none`).
-/

namespace Verif

/-- A record handed to the block writer by a sync (db_sync.go:239-245): the fields of the memdb entry header it uses, and the bytes
after the header (`cache`). -/
structure Rec where
  seq : UInt64
  topicSize : UInt16
  valueSize : UInt32
  cache : Bytes
deriving DecidableEq, Repr

/-- The persistent state: index file, data file and free list. -/
structure Store where
  index : Bytes
  data : Bytes
  lease : Lease
deriving DecidableEq, Repr

/-- An index block held by the writer (block.go:38-45). -/
structure WBlock where
  blk : IndexBlock
  dirty : Bool
  leased : Bool
deriving DecidableEq, Repr

/-- block_writer.go:26-38 `_BlockWriter`. `blocks` is the map `indexBlocks`; `buffer` the data buffer. The lease maps are only used
by `rollback`, which only an input or output error reaches and which is not modelled. -/
structure Writer where
  blockIdx : Int
  blocks : List (Nat × WBlock)
  buffer : Bytes
  offset : Nat
deriving DecidableEq, Repr

/-- block.go:51-56 for a non-negative block number. -/
def blockOff (idx : Nat) : Int := (blockOffset (Int32.ofNat idx)).toInt

/-- block_reader.go:44-54 `readIndexBlock`. -/
def readIndexBlock (index : Bytes) (idx : Nat) : Option IndexBlock :=
  (readAt index (blockOff idx) blockSize).bind IndexBlock.unmarshal

/-- The zero value of `_IndexBlock`. -/
def IndexBlock.zero : IndexBlock := ⟨List.replicate entriesPerIndexBlock IndexEntry.zero, 0⟩

/-- block.go:62-68 `validation`. For an empty first slot `blockIndex(0)` converts a float beyond the int32 range, whose result is no
valid block number. -/
def IndexBlock.valid (b : IndexBlock) (idx : Nat) : Bool :=
  match b.entries[0]? with
  | none => false
  | some e => e.seq ≠ 0 ∧ blockIndex e.seq.toNat = idx

/-- block_writer.go:40-72 `newBlockWriter`. -/
def newBlockWriter (s : Store) : Option Writer :=
  if s.index.length > 0 then
    let n := s.index.length / blockSize
    if (s.index.length : Int) > (4096 * Int32.ofNat n).toInt then do
      let b ← readIndexBlock s.index n
      pure ⟨n, [(n, ⟨b, false, false⟩)], [], s.data.length⟩
    else some ⟨n, [], [], s.data.length⟩
  else some ⟨-1, [], [], s.data.length⟩

/-- How `append` ends without having stored the record. -/
inductive AppendErr
  /-- `errEntryExist`, skipped by the sync -/
  | exist
  /-- any other error or panic, which ends the sync -/
  | fail
deriving DecidableEq, Repr

/-- Map update `w.indexBlocks[idx] = b`. -/
def Writer.setBlock (w : Writer) (idx : Nat) (b : WBlock) : Writer :=
  { w with blocks := (idx, b) :: w.blocks.filter (fun p => p.1 ≠ idx) }

/-- block_writer.go:117-130: the block a record goes to. -/
def Writer.getBlock (w : Writer) (index : Bytes) (idx : Nat) : Option WBlock :=
  match w.blocks.lookup idx with
  | some b => some b
  | none =>
    if (idx : Int) < w.blockIdx then (readIndexBlock index idx).map fun b => ⟨b, false, true⟩
    else some ⟨.zero, false, false⟩

/-- block_writer.go:146-166: where the bytes of a record go; the offset, the data file, the free list and the writer after it. -/
def placeData (s : Store) (w : Writer) (cache : Bytes) : Option (Int × Store × Writer) := do
  let (off, lease) ← s.lease.allocate (UInt32.ofNat cache.length).toNat
  if off ≠ -1 then
    if off < 0 then none
    else pure (off, { s with data := writeAt s.data off.toNat cache, lease := lease }, w)
  else
    pure (w.offset, { s with lease := lease }, { w with buffer := w.buffer ++ cache, offset := w.offset + cache.length })

/-- block_writer.go:113-181 `append`. -/
def Writer.append (s : Store) (w : Writer) (r : Rec) : Except AppendErr (Store × Writer) :=
  if r.seq = 0 then .error .fail
  else
    let idx := blockIndex r.seq.toNat
    match w.getBlock s.index idx with
    | none => .error .fail
    | some b =>
      if (b.blk.entries.take b.blk.entryIdx.toNat).any (fun e => e.seq == r.seq) then .error .exist
      else if r.cache.length = 0 then .error .fail
      else match placeData s w r.cache with
        | none => .error .fail
        | some (off, s, w) =>
          if entriesPerIndexBlock ≤ b.blk.entryIdx.toNat then .error .fail
          else
            let e : IndexEntry := ⟨r.seq, r.topicSize, r.valueSize, Int64.ofInt off⟩
            let blk : IndexBlock := ⟨b.blk.entries.set b.blk.entryIdx.toNat e, b.blk.entryIdx + 1⟩
            if blk.valid idx then .ok (s, w.setBlock idx ⟨blk, true, b.leased⟩) else .error .fail

/-- block_writer.go:74-80 `extend`. -/
def extendIndex (index : Bytes) (upperSeq : UInt64) : Bytes :=
  let off := blockOff (blockIndex upperSeq.toNat)
  if off ≤ index.length then index
  else truncate index (index.length + (off - index.length).toNat % 2 ^ 32)

/-- Marshal the block kept under `idx`, after `validation`; a missing key is the zero block and fails validation. -/
def marshalKept (blocks : List (Nat × WBlock)) (idx : Nat) : Option Bytes := do
  let b ← blocks.lookup idx
  if b.blk.valid idx then pure b.blk.marshal else none

/-- `WriteAt` of the code: a negative offset is an error. -/
def fileWrite (f : Bytes) (off : Int) (d : Bytes) : Option Bytes := if 0 ≤ off then some (writeAt f off.toNat d) else none

/-- block_writer.go:221-255, one part of the block range: one block, or consecutive blocks written at once. -/
def writePart (blocks : List (Nat × WBlock)) (index : Bytes) (part : List Int) : Option Bytes :=
  match part with
  | [] => none
  | first :: _ => do
    let datas ← (partBlocks part).mapM fun k => marshalKept blocks k.toNat
    fileWrite index (blockOff first.toNat) datas.flatten

/-- block_writer.go:183-258 `write`. The map is ranged over in list order in the first loop; the blocks written are distinct. -/
def Writer.write (s : Store) (w : Writer) : Option (Store × Writer) := do
  let data := writeAt s.data s.data.length w.buffer
  let leased := (w.blocks.filter fun p => p.2.leased && p.2.dirty).map (·.1)
  let index ← leased.foldlM (fun index k => do
    let d ← marshalKept w.blocks k
    fileWrite index (blockOff k) d) s.index
  let fresh := ((w.blocks.filter fun p => !p.2.leased && p.2.dirty).map (·.1)).insertionSort (· ≤ ·)
  let parts ← blockRange (fresh.map fun (k : Nat) => (k : Int))
  let index ← parts.foldlM (writePart w.blocks) index
  let written := leased ++ (parts.flatMap partBlocks).map Int.toNat
  let blocks := w.blocks.map fun p => if p.1 ∈ written then (p.1, { p.2 with dirty := false }) else p
  pure ({ s with index := index, data := data }, { w with blocks := blocks, buffer := [] })

/-- block_writer.go:306-315 `reset`. -/
def Writer.reset (s : Store) (w : Writer) : Writer :=
  { w with buffer := [], blockIdx := (s.index.length / blockSize : Nat) }

/-- db_sync.go:225-263: the records of one time block; existing entries are skipped. -/
def appendAll (s : Store) (w : Writer) : List Rec → Option (Store × Writer)
  | [] => some (s, w)
  | r :: rs =>
    match w.append s r with
    | .ok (s', w') => appendAll s' w' rs
    | .error .exist => appendAll s w rs
    | .error .fail => none

/-- db_sync.go:222-224: highest sequence of the time block. -/
def upperSeq (rs : List Rec) : UInt64 := rs.foldl (fun m r => if m < r.seq then r.seq else m) 0

/-- db_sync.go:217-296 (the parts about index and data) and 175-207, for one time block: append its records, extend, write, reset. -/
def syncRound (s : Store) (w : Writer) (rs : List Rec) : Option (Store × Writer) := do
  let (s, w) ← appendAll s w rs
  let s := { s with index := extendIndex s.index (upperSeq rs) }
  let (s, w) ← w.write s
  pure (s, w.reset s)

/-- db_sync.go:50-73, 212-303: one `Sync`: a new writer, then one round per time block. `none` when the sync fails. -/
def syncAll (s : Store) (rounds : List (List Rec)) : Option Store := do
  let w ← newBlockWriter s
  let (s, _) ← rounds.foldlM (fun (s, w) rs => syncRound s w rs) (s, w)
  pure s

/-! ## Reading -/

/-- What `readEntry` can answer besides an entry. -/
inductive ReadErr
  /-- `errMsgIDDeleted` -/
  | deleted
  /-- `errEntryInvalid` -/
  | invalid
  /-- the block is not in the file -/
  | io
deriving DecidableEq, Repr

/-- block_reader.go:56-79 `readEntry`. -/
def readEntry (index : Bytes) (seq : UInt64) : Except ReadErr IndexEntry :=
  match readIndexBlock index (blockIndex seq.toNat) with
  | none => .error .io
  | some b =>
    match b.entries.find? (fun e => e.seq == seq) with
    | none => .error .invalid
    | some e => if e.msgOffset = -1 then .error .deleted else .ok e

/-- block.go:58-60 `mSize`, in uint32. -/
def IndexEntry.mSize (e : IndexEntry) : UInt32 := 9 + e.topicSize.toUInt32 + e.valueSize

/-- block_reader.go:81-90 `readMessage` (from the file): the id and the payload. The index `topicSize+idSize` is a uint16 sum. -/
def readMessage (data : Bytes) (e : IndexEntry) : Option (Bytes × Bytes) := do
  let m ← readAt data e.msgOffset.toInt e.mSize.toNat
  let id ← slice? m 0 9
  let val ← slice? m (e.topicSize + 9).toNat m.length
  pure (id, val)

/-- block_reader.go:92-97 `readTopic` (from the file). -/
def readTopic (data : Bytes) (e : IndexEntry) : Option Bytes :=
  readAt data (e.msgOffset.toInt + 9) e.topicSize.toNat

/-- db_sync.go:316-324, the effect of one expired entry on the free list (the filter test passes for a stored entry, C45). -/
def expireOne (s : Store) (seq : UInt64) : Option Store :=
  match readEntry s.index seq with
  | .error _ => none
  | .ok e => (s.lease.free e.msgOffset.toInt e.mSize.toNat).map fun l => { s with lease := l }

end Verif
