import Verif.Model.BlockFile
import Verif.Model.TimeWindow

/-!
# Writing window blocks

time_window_writer.go. The rollback after an input or output error (`del`, `rollback`, `abort`) is not modelled.
-/

namespace Verif

/-- The zero value of `_WinBlock`. -/
def WinBlock.zero : WinBlock := ⟨0, List.replicate entriesPerWindowBlock WinEntry.zero, 0, 0, 0⟩

/-- time_window.go:33-48 `_WinBlock` with the flags kept in memory. -/
structure WWin where
  blk : WinBlock
  dirty : Bool
  leased : Bool
deriving DecidableEq, Repr

/-- time_window_writer.go:25-34 `_WindowWriter`: `blocks` is the map `winBlocks`. -/
structure WinWriter where
  windowIdx : Int
  blocks : List (Nat × WWin)
deriving DecidableEq, Repr

/-- time_window_writer.go:36-50 `newWindowWriter`. -/
def newWindowWriter (file : Bytes) : WinWriter :=
  ⟨if file.length > 0 then (file.length / blockSize : Nat) else -1, []⟩

/-- Map update. -/
def WinWriter.setBlock (w : WinWriter) (k : Nat) (b : WWin) : WinWriter :=
  { w with blocks := (k, b) :: w.blocks.filter (fun p => p.1 ≠ k) }

/-- time_window_writer.go:106-126, the loop over the entries of one topic; `wIdx`, `b` are the block written to. Writing past the
335th slot panics. -/
def addWin (now : Int64) : List WinEntry → WinWriter → Nat → WWin → Option (WinWriter × Nat × WWin)
  | [], w, wIdx, b => some (w, wIdx, b)
  | e :: es, w, wIdx, b =>
    if e.seq = 0 then addWin now es w wIdx b
    else if b.blk.entryIdx.toNat = entriesPerWindowBlock then
      let w1 := w.setBlock wIdx { b with blk := { b.blk with cutoffTime := now } }
      let w2 := { w1 with windowIdx := w1.windowIdx + 1 }
      addWin now es w2 w2.windowIdx.toNat
        ⟨⟨b.blk.topicHash, WinBlock.zero.entries.set 0 e, Int64.ofInt (winOff wIdx), 0, 1⟩, true, false⟩
    else if entriesPerWindowBlock < b.blk.entryIdx.toNat then none
    else addWin now es w wIdx { b with
      blk := { b.blk with entries := b.blk.entries.set b.blk.entryIdx.toNat e, entryIdx := b.blk.entryIdx + 1 }, dirty := true }

/-- time_window_writer.go:88-105: the block the entries of a topic go to. Offset 0 means the topic has no block yet. Negative
offsets, which only an overflow of `winOff` gives, are not modelled. -/
def WinWriter.openBlock (w : WinWriter) (file : Bytes) (off : Int) : Option (WinWriter × Nat × WWin) :=
  if off < 0 then none
  else
    let (w, wIdx) := if off = 0 then ({ w with windowIdx := w.windowIdx + 1 }, (w.windowIdx + 1).toNat)
      else (w, (off / 4096).toNat)
    match w.blocks.lookup wIdx with
    | some b => some (w, wIdx, b)
    | none =>
      if off > 0 ∧ wIdx ≤ w.windowIdx then (readWindowBlock file off).map fun b => (w, wIdx, ⟨b, false, true⟩)
      else some (w, wIdx, ⟨.zero, false, false⟩)

/-- time_window_writer.go:83-130 `append`: the writer and the new offset of the topic. -/
def WinWriter.append (w : WinWriter) (file : Bytes) (now : Int64) (hash : UInt64) (off : Int) (es : List WinEntry) :
    Option (WinWriter × Int) := do
  let (w, wIdx, b) ← w.openBlock file off
  let (w, wIdx, b) ← addWin now es w wIdx { b with blk := { b.blk with topicHash := hash } }
  pure (w.setBlock wIdx b, winOff wIdx)

/-- time_window_writer.go:132-194 `write`. -/
def WinWriter.write (w : WinWriter) (file : Bytes) : Option (Bytes × WinWriter) := do
  let leased := (w.blocks.filter fun p => p.2.leased && p.2.dirty).map (·.1)
  let fresh := (w.blocks.filter fun p => !p.2.leased && p.2.dirty).map (·.1)
  let file ← writeBlocks (fun k => (w.blocks.lookup k).map fun b => b.blk.marshal) leased fresh file
  pure (file, { w with blocks := w.blocks.map fun p => (p.1, { p.2 with dirty := false }) })

/-- The window file, the offset the trie keeps for each topic (0 for a topic never synced) and the writer of the running sync. -/
structure WinState where
  file : Bytes
  offs : UInt64 → Int
  w : WinWriter

/-- db_sync.go:264-276: the window entries of one time block, one list per topic, in the order of the map iteration. -/
def WinState.appendAll (now : Int64) : List (UInt64 × List WinEntry) → WinState → Option WinState
  | [], s => some s
  | (hash, es) :: rest, s =>
    match s.w.append s.file now hash (s.offs hash) es with
    | none => none
    | some (w, off) => WinState.appendAll now rest { s with w := w, offs := Function.update s.offs hash off }

/-- db_sync.go:264-285: append and write. -/
def WinState.round (now : Int64) (batch : List (UInt64 × List WinEntry)) (s : WinState) : Option WinState := do
  let s ← s.appendAll now batch
  let (file, w) ← s.w.write s.file
  pure { s with file := file, w := w }

/-- A window file and trie never written to. -/
def WinState.fresh : WinState := ⟨[], fun _ => 0, newWindowWriter []⟩

/-- Syncs from an empty database on. `led` lists what was synced, oldest first. Every batch lists, for some topics, entries with
non-zero sequences. Window numbers stay below 2^19 - 1 (2 GiB of window blocks). -/
inductive WinHist : WinState → List (UInt64 × List WinEntry) → Prop
  | fresh : WinHist .fresh []
  /-- db_sync.go:50-89: every sync starts with a new writer -/
  | start {s led} : WinHist s led → WinHist { s with w := newWindowWriter s.file } led
  | round {s led now batch s'} : WinHist s led → 0 ≤ now.toInt → (∀ p ∈ batch, p.2 ≠ [] ∧ ∀ e ∈ p.2, e.seq ≠ 0) →
      s.round now batch = some s' → s'.w.windowIdx ≤ 524286 → WinHist s' (led ++ batch)

/-- Everything synced for a topic, oldest first. -/
def syncedFor (led : List (UInt64 × List WinEntry)) (hash : UInt64) : List WinEntry :=
  (led.filter fun p => p.1 = hash).flatMap (·.2)

/-! ## Lemmas -/

theorem winLookup_setBlock (w : WinWriter) (k j : Nat) (b : WWin) :
    (w.setBlock k b).blocks.lookup j = if j = k then some b else w.blocks.lookup j := by
  simp only [WinWriter.setBlock]
  rw [List.lookup_cons]
  by_cases h : j = k
  · subst h; simp
  · have h' : (j == k) = false := by simpa using h
    rw [h', if_neg h]
    simp only
    induction w.blocks with
    | nil => rfl
    | cons p ps ih =>
      obtain ⟨a, c⟩ := p
      by_cases ha : a = k
      · subst ha
        rw [List.filter_cons_of_neg (by simp), List.lookup_cons, h']
        exact ih
      · rw [List.filter_cons_of_pos (by simpa using ha), List.lookup_cons, List.lookup_cons]
        split
        · rfl
        · exact ih

theorem winKeys_setBlock (w : WinWriter) (k : Nat) (b : WWin) (h : (w.blocks.map (·.1)).Nodup) :
    ((w.setBlock k b).blocks.map (·.1)).Nodup := by
  simp only [WinWriter.setBlock, List.map_cons, List.nodup_cons]
  refine ⟨?_, h.sublist (List.filter_sublist.map _)⟩
  simp [List.mem_map, List.mem_filter]

theorem winMarshal_zero : WinBlock.zero.marshal = List.replicate 4096 0 := by
  simp only [WinBlock.marshal, WinBlock.zero]
  rw [flatMap_zeros WinEntry.encode WinEntry.zero 12 _ (by decide)]
  have h1 : putI64 0 = List.replicate 8 0 := by decide
  have h2 : put64 0 = List.replicate 8 0 := by decide
  have h3 : put16 0 = List.replicate 2 0 := by decide
  rw [h1, h2, h3, List.replicate_append_replicate, List.replicate_append_replicate, List.replicate_append_replicate,
    List.replicate_append_replicate, List.replicate_append_replicate]
  congr 1

end Verif
