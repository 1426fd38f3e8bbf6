import Verif.Model.MemBlock
import Mathlib.Data.List.Sort

/-!
# The in-memory store

Model of memdb/db.go, memdb/db_internal.go, memdb/time_mark.go and the block part of memdb/tiny_log.go and
memdb/batch.go. One operation runs at a time. Blocks are pointers: the query cache keeps pointers to blocks
that were freed, so a block is named by its position in a heap, and the buffer of a freed block goes back to
the pool (reading it gives whatever the next owner wrote: outcome `stale`).

Parameters: the shard of a key (consistent hash, C13), what a Bloom filter of given keys answers (C45), the
largest size of a buffer, the time ids (clock).
-/

namespace Verif

/-- What the store takes from its surroundings. -/
structure MEnv where
  shard : UInt64 → Nat
  test : List UInt64 → UInt64 → Bool
  cap : Nat

/-- memdb/block.go:30-38 `_TimeFilter`: per time id the keys known to the filter when the block got its first key
of this shard, and the keys known now. -/
structure MShard where
  recs : AMap Int (List UInt64) := []
  keys : List UInt64 := []
deriving Repr, DecidableEq

/-- memdb/time_mark.go:24-33 `_TimeMark`: reference counts of time ids being written, and released time ids. -/
structure TimeMark where
  records : AMap Int Int := []
  released : AMap Int Int := []
deriving Repr, DecidableEq

/-- memdb/time_mark.go:40-47 `add`: the incremented copy is dropped, the count is always set to one. -/
def TimeMark.add (m : TimeMark) (t : Int) : TimeMark := { m with records := m.records.set t 1 }

/-- memdb/time_mark.go:49-65 `release`; the value kept is `lastUnref`. -/
def TimeMark.release (m : TimeMark) (t : Int) : TimeMark :=
  match m.records.get t with
  | none => m
  | some refs =>
    if 0 < refs - 1 then { m with records := m.records.set t (refs - 1) }
    else { records := m.records.del t, released := m.released.set t t }

/-- memdb/time_mark.go:67-80 `timeRefs`, in ascending order. -/
def TimeMark.timeRefs (m : TimeMark) (ref : Int) : List Int :=
  (AMap.keys (m.released.filter fun p : Int × Int => 0 < p.2 ∧ p.2 < ref)).insertionSort (· ≤ ·)

/-- memdb/time_mark.go:82-93 `allRefs`. -/
def TimeMark.allRefs (m : TimeMark) : List Int := m.released.keys.insertionSort (· ≤ ·)

/-- memdb/time_mark.go:95-100 `timeUnref`. -/
def TimeMark.unref (m : TimeMark) (t : Int) : TimeMark := { m with released := m.released.del t }

/-- memdb/db.go:33-45 `DB`, memdb/db_internal.go:54-83 `_DB`, memdb/query.go `_QueryManager`. `cur` is the time id of the
current tiny log; `wal` are the logs in the order they were written. -/
structure MemDb where
  heap : List MBlock := []
  freed : List Nat := []
  blocks : AMap Int Nat := []
  filters : Nat → MShard := fun _ => {}
  cur : Int
  closed : Bool := false
  mark : TimeMark := {}
  qrec : Int := 0
  qfilters : Nat → AMap Int (List UInt64) := fun _ => []
  qblocks : AMap Int Nat := []
  wal : List (Int × Bytes) := []

/-- Results of operations. -/
inductive MOut where
  | ok
  | value (d : Bytes)
  | notFound
  | forbidden
  | full
  | closed
  | err
  | panic
  | stale
  | deadlock
  | loops
deriving DecidableEq, Repr

/-- The block at an address. -/
def MemDb.at (s : MemDb) (a : Nat) : MBlock := s.heap.getD a {}

/-- Writing through a pointer. -/
def MemDb.setAt (s : MemDb) (a : Nat) (b : MBlock) : MemDb := { s with heap := s.heap.set a b }

/-- memdb/db_internal.go:132-141 `addTimeBlock`. -/
def MemDb.addTimeBlock (s : MemDb) (t : Int) : MemDb :=
  match s.blocks.get t with
  | some _ => s
  | none => { s with heap := s.heap ++ [{}], blocks := s.blocks.set t s.heap.length }

/-- memdb/tiny_log.go:121-127 `newTinyLog`: the clock gives the time id; the old tiny log is queued for writing. -/
def MemDb.rotate (s : MemDb) (t : Int) : MemDb :=
  let s := s.addTimeBlock t
  { s with mark := s.mark.add t, cur := t }

/-- An empty store at its first tiny log (memdb/db.go:48-107 with no log to recover). -/
def MemDb.new (t : Int) : MemDb := ({ cur := t } : MemDb).rotate t

/-- memdb/db_internal.go:154-173 `addTimeFilter`. -/
def MemDb.addTimeFilter (e : MEnv) (s : MemDb) (t : Int) (key : UInt64) : MemDb :=
  let r := s.filters (e.shard key)
  let recs := match r.recs.get t with
    | some _ => r.recs
    | none => r.recs.set t r.keys
  { s with filters := fun i => if i = e.shard key then ⟨recs, r.keys ++ [key]⟩ else s.filters i }

/-- The common part of memdb/db.go:367-391 `Put` and memdb/batch.go:59-80 `Batch.Put`. -/
def MemDb.putAt (e : MEnv) (s : MemDb) (t : Int) (key : UInt64) (d : Bytes) : MemDb × MOut :=
  if s.closed then (s, .closed) else
  match s.blocks.get t with
  | none => (s, .forbidden)
  | some a =>
    match (s.at a).put e.cap ⟨false, key⟩ d with
    | none => (s, .full)
    | some b => ((s.setAt a b).addTimeFilter e t key, .ok)

/-- memdb/db.go:367-391 `Put`. -/
def MemDb.put (e : MEnv) (s : MemDb) (key : UInt64) (d : Bytes) : MemDb × MOut := s.putAt e s.cur key d

/-- Time ids newest first (`sort.Slice` with `>`). -/
def newestFirst (ts : List Int) : List Int := ts.insertionSort (· ≥ ·)

/-- The search of memdb/db_internal.go:203-234 `seek` and memdb/db.go:316-331 `Delete`: newest block first; stop at a block
that lacks the key and whose filter does not know it; skip time ids whose block is gone. -/
def MemDb.search (e : MEnv) (s : MemDb) (key : UInt64) : List Int → Option (Int × Nat)
  | [] => none
  | t :: ts =>
    match s.blocks.get t with
    | none => s.search e key ts
    | some a =>
      if ((s.at a).records.get ⟨false, key⟩).isSome then some (t, a)
      else if e.test (((s.filters (e.shard key)).recs.get t).getD []) key then s.search e key ts
      else none

/-- The block that holds a key according to the search. -/
def MemDb.find (e : MEnv) (s : MemDb) (key : UInt64) : Option (Int × Nat) :=
  s.search e key (newestFirst (s.filters (e.shard key)).recs.keys)

/-- memdb/db_internal.go:185-237 `seek`: caches where the key is; `none` is the error. -/
def MemDb.seek (e : MEnv) (s : MemDb) (key : UInt64) : Option MemDb :=
  match s.find e key with
  | none => none
  | some (t, a) => some { s with
      qfilters := fun i => if i = e.shard key then (s.qfilters i).set t (s.filters i).keys else s.qfilters i
      qblocks := s.qblocks.set t a }

/-- Reading an offset of a block through a pointer. -/
def MemDb.readAt (s : MemDb) (a : Nat) (off : Int) : MOut :=
  if a ∈ s.freed then .stale else
  match (s.at a).get off with
  | .ok d => .value d
  | .err => .err
  | .panic => .panic

/-- memdb/db.go:226-250: the loop over the cached time ids. -/
def MemDb.scanCache (e : MEnv) (s : MemDb) (key : UInt64) : List Int → Option (MemDb × MOut)
  | [] => none
  | t :: ts =>
    match s.qblocks.get t with
    | none => s.scanCache e key ts
    | some a =>
      match (s.at a).records.get ⟨false, key⟩ with
      | some off => some ({ s with qrec := t }, s.readAt a off)
      | none => if e.test (((s.qfilters (e.shard key)).get t).getD []) key then s.scanCache e key ts else none

/-- memdb/db.go:197-250: the cached block of the last hit, then the cached time ids. -/
def MemDb.tryCache (e : MEnv) (s : MemDb) (key : UInt64) : Option (MemDb × MOut) :=
  match (s.qblocks.get s.qrec).bind fun a => ((s.at a).records.get ⟨false, key⟩).map fun off => (a, off) with
  | some (a, off) => some (s, s.readAt a off)
  | none => s.scanCache e key (newestFirst (s.qfilters (e.shard key)).keys)

/-- memdb/db.go:179-256 `Get`, which calls itself after clearing the cache; the first argument bounds the calls. -/
def MemDb.getFuel (e : MEnv) : Nat → MemDb → UInt64 → MemDb × MOut
  | 0, s, _ => (s, .loops)
  | n + 1, s, key =>
    if s.closed then (s, .closed) else
    let s' := if (s.qfilters (e.shard key)).keys.isEmpty then s.seek e key else some s
    match s' with
    | none => (s, .notFound)
    | some s =>
      match s.tryCache e key with
      | some r => r
      | none => MemDb.getFuel e n { s with qfilters := fun i => if i = e.shard key then [] else s.qfilters i } key

/-- `Get`; two calls are enough (`MemDb.get_enough`). -/
def MemDb.get (e : MEnv) (s : MemDb) (key : UInt64) : MemDb × MOut := MemDb.getFuel e 2 s key

/-- memdb/db_internal.go:240-257 `move`: a tombstone in the current block. The map entry is set before the record is
written. -/
def MemDb.move (e : MEnv) (s : MemDb) (t : Int) (key : UInt64) : MemDb × MOut :=
  match s.blocks.get s.cur with
  | none => (s, .forbidden)
  | some a =>
    let b := { s.at a with records := (s.at a).records.set ⟨true, key⟩ s.cur }
    match b.put e.cap ⟨true, key⟩ (put64 (UInt64.ofInt t)) with
    | none => (s.setAt a b, .full)
    | some b => (s.setAt a b, .ok)

/-- memdb/db_internal.go:314-338 `releaseLog`. -/
def MemDb.release (s : MemDb) (t : Int) : MemDb × MOut :=
  match s.blocks.get t with
  | none => (s, .notFound)
  | some a =>
    ({ s with
        wal := s.wal.filter fun l => l.1 ∉ (s.at a).timeRefs
        blocks := s.blocks.del t
        mark := s.mark.unref t
        freed := a :: s.freed }, .ok)

/-- memdb/db.go:338-347: the block lost its last key; offsets of the remaining (delete) records are taken for time
ids. Moving into the block itself would wait for its own lock. -/
def MemDb.drain (e : MEnv) (a : Nat) : MemDb → List (MKey × Int) → MemDb × MOut
  | s, [] => (s, .ok)
  | s, (k, v) :: rest =>
    match s.blocks.get v with
    | none => s.drain e a rest
    | some _ => if s.blocks.get s.cur = some a then (s, .deadlock) else (s.move e v k.key).1.drain e a rest

/-- memdb/db.go:291-364 `Delete`. -/
def MemDb.delete (e : MEnv) (s : MemDb) (key : UInt64) : MemDb × MOut :=
  if s.closed then (s, .closed) else
  match s.find e key with
  | none => (s, .notFound)
  | some (t, a) =>
    let b := (s.at a).delete key
    let s := s.setAt a b
    if b.count = 0 then
      match s.drain e a b.records with
      | (s, .ok) =>
        let s := s.setAt a { s.at a with records := [] }
        if t < s.cur then s.release t else s.move e t key
      | r => r
    else s.move e t key

/-- memdb/db.go:145-176 `Lookup`. -/
def MemDb.lookup (s : MemDb) (t : Int) (key : UInt64) : MOut :=
  if s.closed then .closed else
  match s.blocks.get t with
  | none => .notFound
  | some a =>
    match (s.at a).records.get ⟨false, key⟩ with
    | none => .notFound
    | some off => s.readAt a off

/-- memdb/db.go:125-142 `Keys`, in some order. -/
def MemDb.keys (s : MemDb) : List UInt64 :=
  s.blocks.flatMap fun p => ((s.at p.2).records.filter (!·.1.del)).map (·.1.key)

/-- memdb/db.go:426-438 `Size`. -/
def MemDb.size (s : MemDb) : Int := (s.blocks.map fun p => (s.at p.2).count).sum

/-- memdb/db_internal.go:259-311 `tinyWrite` and `tinyCommit`: what the block gained since its last write becomes a log. -/
def MemDb.write (s : MemDb) (id t : Int) (managed : Bool) : MemDb :=
  let s := match s.blocks.get t with
    | none => s
    | some a =>
      let b := s.at a
      let log := b.data.drop b.lastOffset
      if log = [] then s else
      { s.setAt a { b with lastOffset := b.data.length, timeRefs := b.timeRefs ++ [id] } with
        wal := s.wal.filter (·.1 ≠ id) ++ [(id, log)] }
  if managed then s else { s with mark := s.mark.release t }

end Verif
