import Verif.Model.MemRecovery
import Verif.Model.Reopen
import Verif.Model.Query
import Verif.Model.Mac
import Verif.Model.TopicLookup

/-!
# The database: entries, puts, deletes, gets, syncs, close and open

db.go, db_internal.go, db_sync.go, recovery.go, entry.go, on top of the models of the in-memory store, the time windows, the
trie and the files. One operation runs at a time. The bloom filter of the database (filter.go) always answers true: its file
is only written by `Filter.close` (filter.go:48-64), which has no caller, and with an empty file `Test` returns true
(filter.go:38-45, 66-69).
`syncWrites` is never set. Errors of the operating system are not modelled, so a sync that fails does so for another reason;
the state after it is not modelled (`none`).

No topic is refused as invalid: `parseOptions` always succeeds and `parseWildcardTopic` then sets the type (message/topic.go:150-167,
231-296). Values read from the in-memory store are copies; if the slices of the buffer pool (a dependency, not available) share its
memory, decrypting a value in place also rewrites the stored record (C59).

Parameters: the environment of the in-memory store, the cipher, `snappy`, `time.ParseDuration`, the clock, map orders, and the
bytes a read through a pointer to a freed buffer shows.
-/

namespace Verif

/-- What the database takes from its surroundings. `stale` is what reading a buffer gives that went back to the pool (`none`: an error). -/
structure DbEnv where
  mem : MEnv
  mac : Mac
  encode : Bytes → Bytes
  decode : Bytes → Option Bytes
  dur : Bytes → Int
  q : QOpts
  stale : Option Bytes

/-- entry.go:42-50 `Entry` with the part of entry.go:31-40 `_Entry` that outlives a put. `id = none` is a nil slice. -/
structure Obj where
  topic : Bytes
  payload : Bytes
  id : Option Bytes := none
  expiresAt : UInt32 := 0
  contract : UInt32 := 0
  encryption : Bool := false
  parsed : Bool := false
  hash : UInt64 := 0
  topicSize : UInt16 := 0
deriving DecidableEq, Repr

/-- entry.go:97-103 `reset`. -/
def Obj.reset (o : Obj) : Obj := { o with topicSize := 0, id := none, payload := [] }

/-- Errors of the database. -/
inductive DErr where
  | closed | topicEmpty | topicLarge | valueEmpty | valueLarge | immutable | idEmpty | forbidden | full | corrupted | io | fn
deriving DecidableEq, Repr

/-- How an operation ends. `hang`: it waits for ever. -/
inductive DOut where
  | ok
  | err (e : DErr)
  | panic
  | hang
deriving DecidableEq, Repr

/-- db.go:40-47 `DB` and db_internal.go:69-106 `_DB`. `info`, `leaseFile`, `winFile` and the files of `store` are on disk, as are
the logs `mem.wal`. `win` is the time window in memory (time_window.go:123-130), `lastSync` the field of the sync handle. -/
structure Db where
  immutable : Bool := false
  enc : UInt8 := 0
  closed : Bool := false
  seq : UInt64 := 0
  count : UInt64 := 0
  mem : MemDb
  win : AMap (Int × UInt64) (List WinEntry) := []
  trie : Trie := .empty
  store : Store
  winFile : Bytes := []
  info : Bytes := []
  leaseFile : Bytes := []
  lastSync : UInt64 := 0

/-! ## Put -/

/-- db.go:351-360: the checks of `PutEntry`. -/
def Obj.refused (o : Obj) : Option DErr :=
  if o.topic.length = 0 then some .topicEmpty
  else if o.topic.length > 65536 then some .topicLarge
  else if o.payload.length = 0 then some .valueEmpty
  else if o.payload.length > 2 ^ 30 then some .valueLarge
  else none

/-- Go `copy(d[off:], src)`: as much as fits. -/
def goCopy (d : Bytes) (off : Nat) (src : Bytes) : Bytes := patch d off (src.take (d.length - off))

/-- db_internal.go:297-311: the packed record: header, eight bytes of the id, the encryption flag, the topic, the value. -/
def packRecord (h : EntryHdr) (id : Bytes) (flag : UInt8) (rawTopic val : Bytes) : Bytes :=
  let mLen : UInt32 := 26 + 9 + h.topicSize.toUInt32 + h.valueSize
  let c : Bytes := List.replicate mLen.toNat 0
  let c := goCopy c 0 h.marshal
  let c := goCopy c 26 id
  let c := patch c 34 [flag]
  let c := if h.topicSize ≠ 0 then goCopy c 35 rawTopic else c
  goCopy c (35 + h.topicSize.toNat) val

/-- db_internal.go:253-277, the part of `setEntry` that runs once per entry object: contract, expiry, topic hash, and the topic
bytes if the topic is not in the trie. `now` is in nanoseconds. -/
def Db.parseEntry (v : DbEnv) (now : Int) (s : Db) (o : Obj) : Obj × Bytes :=
  if o.parsed then (o, [])
  else
    let c := if o.contract = 0 then masterContract else o.contract
    let t := (parseTopic c o.topic).1
    let h := t.getHash c
    let raw := if (s.trie.getOffset h).isSome then [] else t.marshal
    let size := if (s.trie.getOffset h).isSome then o.topicSize else UInt16.ofNat raw.length
    ({ o with contract := c, expiresAt := storedExpiry v.dur now o.topic o.expiresAt, hash := h, topicSize := size, parsed := true }, raw)

/-- db_internal.go:278-284: the sequence and the id of the entry: those it carries, else the next ones. `none`: the id is too
short. -/
def Db.drawId (now : Int) (s : Db) (o : Obj) : Option (Db × UInt64 × Bytes) :=
  match o.id with
  | some id => (idSequence id).map fun q => (s, q, id)
  | none => some ({ s with seq := s.seq + 1 }, s.seq + 1, newID (unixSec now) (s.seq + 1))

/-- db_internal.go:293: is the value encrypted. -/
def Db.secret (s : Db) (o : Obj) : Bool := s.enc = 1 || o.encryption

/-- db_internal.go:292-296: the value as stored. `none`: too short to encrypt. -/
def DbEnv.sealValue (v : DbEnv) (secret : Bool) (payload : Bytes) : Option Bytes :=
  if secret then v.mac.encrypt (v.encode payload) else some (v.encode payload)

/-- db_internal.go:278-312, the rest of `setEntry`: the sequence, the id, the value, the packed record. The result is the database
(whose sequence may have moved), the header and the record; `none` is a panic: a sequence of zero, an id that is too short, a
value too short to encrypt. -/
def Db.packEntry (v : DbEnv) (now : Int) (s : Db) (o : Obj) (raw : Bytes) : Option (Db × EntryHdr × Bytes) :=
  (s.drawId now o).bind fun x =>
    if x.2.1 = 0 then none
    else (idPrefix (setContract x.2.2 o.contract)).bind fun pre =>
      (v.sealValue (s.secret o) o.payload).bind fun val =>
        let h : EntryHdr := ⟨x.2.1, o.topicSize, UInt32.ofNat val.length, o.expiresAt, o.hash⟩
        some (x.1, h, packRecord h pre (if s.secret o then 1 else 0) raw val)

/-- db_internal.go:253-313 `setEntry`. -/
def Db.setEntry (v : DbEnv) (now : Int) (s : Db) (o : Obj) : Option (Db × Obj × EntryHdr × Bytes) :=
  let (o, raw) := s.parseEntry v now o
  (s.packEntry v now o raw).map fun (s, h, c) => (s, o, h, c)

/-- time_window.go:168-187 `add`. -/
def addWindow (w : AMap (Int × UInt64) (List WinEntry)) (t : Int) (h : UInt64) (e : WinEntry) : AMap (Int × UInt64) (List WinEntry) :=
  w.set (t, h) (((w.get (t, h)).getD []) ++ [e])

/-- db.go:375-380: the topic of a first entry goes into the trie. The end of the slice is a uint16 sum. `none` is a panic. -/
def addTopic (t : Trie) (h : EntryHdr) (rec : Bytes) : Option Trie :=
  if h.topicSize = 0 then some t
  else do
    let raw ← slice? rec 35 (35 + h.topicSize).toNat
    let p ← Topic.unmarshal raw
    pure (t.add ⟨h.topicHash, 0⟩ p.parts p.depth)

/-- Errors of the in-memory store as the database returns them. -/
def DErr.ofMem : MOut → DErr
  | .closed => .closed
  | .full => .full
  | _ => .forbidden

/-- db.go:346-387 `PutEntry`. -/
def Db.putEntry (v : DbEnv) (now : Int) (s : Db) (o : Obj) : Db × Obj × DOut :=
  if s.closed then (s, o, .err .closed)
  else match o.refused with
    | some e => (s, o, .err e)
    | none =>
      match s.setEntry v now o with
      | none => (s, o, .panic)
      | some (s, o, h, rec) =>
        match s.mem.put v.mem h.seq rec with
        | (m, .ok) =>
          let s := { s with mem := m, win := addWindow s.win s.mem.cur h.topicHash ⟨h.seq, h.expiresAt⟩ }
          match addTopic s.trie h rec with
          | none => (s, o, .panic)
          | some t => ({ s with trie := t }, o.reset, .ok)
        | (m, out) => ({ s with mem := m }, o, .err (.ofMem out))

/-- db.go:331-334 `NewID`. -/
def Db.newId (now : Int) (s : Db) : Db × Bytes := ({ s with seq := s.seq + 1 }, newID (unixSec now) (s.seq + 1))

/-! ## Delete -/

/-- block_writer.go:82-111 `del`, the entry it returns: the zero entry when there is none, else the entry with offset -1. The
changed block stays in the writer, which the caller drops; nothing is written. `none` is a read error. -/
def delEntry (s : Store) (w : Writer) (seq : UInt64) : Option IndexEntry :=
  let idx := blockIndex seq.toNat
  if (idx : Int) > w.blockIdx then some .zero
  else do
    let b ← readIndexBlock s.index idx
    match (b.entries.take b.entryIdx.toNat).find? (fun e => e.seq == seq) with
    | none => some .zero
    | some e => some { e with msgOffset := -1 }

/-- db_internal.go:316-343 `delete`, not immutable. -/
def Db.delete (v : DbEnv) (s : Db) (seq : UInt64) : Db × DOut :=
  if s.closed then (s, .panic)
  else
    match s.mem.delete v.mem seq with
    | (m, .deadlock) => ({ s with mem := m }, .hang)
    | (m, _) =>
      let s := { s with mem := m }
      match (newBlockWriter s.store).bind fun w => delEntry s.store w seq with
      | none => (s, .err .io)
      | some e =>
        ({ s with store := { s.store with lease := s.store.lease.freeBlock e.msgOffset.toInt e.mSize.toNat }, count := s.count - 1 }, .ok)

/-- db.go:399-425 `DeleteEntry`. The topic and the contract only decide a hash that `delete` does not use. On a closed database
the size of a closed file is asked for (file.go:201-205), which panics. -/
def Db.deleteEntry (v : DbEnv) (s : Db) (o : Obj) : Db × DOut :=
  if s.immutable then (s, .err .immutable)
  else if (o.id.getD []).length = 0 then (s, .err .idEmpty)
  else if o.topic.length = 0 then (s, .err .topicEmpty)
  else if o.topic.length > 65536 then (s, .err .topicLarge)
  else match idSequence (o.id.getD []) with
    | none => (s, .panic)
    | some q => s.delete v q

/-! ## Get -/

/-- `getPage` for a reader with a state. -/
def getPageS {σ : Type} (step : σ → UInt64 → σ × Step) : List UInt64 → σ → List Bytes → Nat → σ × (GetOut ⊕ (List Bytes × Nat))
  | [], s, items, inv => (s, .inr (items, inv))
  | c :: cs, s, items, inv =>
    match step s c with
    | (s, .skip) => getPageS step cs s items inv
    | (s, .invalid) => getPageS step cs s items (inv + 1)
    | (s, .item x) => getPageS step cs s (items ++ [x]) inv
    | (s, .fail) => (s, .inl (.err items))
    | (s, .panic) => (s, .inl .panic)

/-- `getLoop` for a reader with a state. -/
def getLoopS {σ : Type} (step : σ → UInt64 → σ × Step) (cands : List UInt64) (cap : Nat) (q : Int) :
    (fuel : Nat) → (start limit : Int) → σ → List Bytes → σ × GetOut
  | 0, _, _, s, _ => (s, .running)
  | fuel + 1, start, limit, s, items =>
    if start < 0 ∨ limit < start ∨ (cap : Int) < limit then (s, .panic)
    else
      match getPageS step (((cands ++ List.replicate (cap - cands.length) 0).take limit.toNat).drop start.toNat) s items 0 with
      | (s, .inl out) => (s, out)
      | (s, .inr (items, inv)) =>
        if inv = 0 ∨ (items.length : Int) = q ∨ (cands.length : Int) = limit then (s, .ok items)
        else if (cands.length : Int) ≤ q + inv then getLoopS step cands cap q fuel limit cands.length s items
        else getLoopS step cands cap q fuel limit (limit + inv) s items

/-- `getItems` for a reader with a state. -/
def getItemsS {σ : Type} (step : σ → UInt64 → σ × Step) (cands : List UInt64) (cap : Nat) (q : Int) (s : σ) : σ × GetOut :=
  if cands = [] then (s, .ok [])
  else getLoopS step cands cap q (cap + 2) 0 (if (cands.length : Int) < q then cands.length else q) s []

/-- What `mem.Get` hands to `readEntry` (db_internal.go:197-198), which ignores the error. -/
def memData (v : DbEnv) : MOut → Option Bytes
  | .value d => some d
  | .stale => v.stale
  | _ => none

/-- What a Get reads, given what the in-memory store answers. -/
def Db.view (v : DbEnv) (s : Db) (mem : UInt64 → Option Bytes) : View where
  mem := mem
  index := s.store.index
  data := s.store.data
  decrypt := fun x => (v.mac.decrypt x).1
  decode := v.decode

/-- db.go:256-295: the body of the loop; reading moves the query cache of the in-memory store. -/
def Db.candStepS (v : DbEnv) (s : Db) (a : Ask) (m : MemDb) (seq : UInt64) : MemDb × Step :=
  if seq = 0 then (m, .skip)
  else
    let (m, o) := m.get v.mem seq
    match o with
    | .panic => (m, .panic)
    | o => (m, candStep (s.view v fun _ => memData v o) a.contract a.cutoff seq)

/-- What is left to chance in a Get: the clock (nanoseconds), the order of the map of windows, the order in which the trie yields
topics and a sort leaves equal offsets, the capacity of the candidate slice. -/
structure GetEnv where
  now : Int
  orderWin : AMap (Int × UInt64) (List WinEntry) → AMap (Int × UInt64) (List WinEntry)
  orderTopics : List TTopic → List TTopic
  cap : Nat

/-- The lists of one topic, in the order of the map iteration. -/
def winLists (order : AMap (Int × UInt64) (List WinEntry) → AMap (Int × UInt64) (List WinEntry)) (w : AMap (Int × UInt64) (List WinEntry))
    (h : UInt64) : List (List WinEntry) := ((order w).filter fun p => p.1.2 = h).map (·.2)

/-- How a Get ends. -/
inductive DGet where
  | err (e : DErr)
  | out (o : GetOut)
deriving DecidableEq, Repr

/-- db.go:222-319 `Get`. `old` are the candidates left in a reused query object. -/
def Db.get (v : DbEnv) (g : GetEnv) (s : Db) (q : Query) (old : List UInt64) : Db × DGet :=
  if s.closed then (s, .err .closed)
  else if q.topic.length = 0 then (s, .err .topicEmpty)
  else if q.topic.length > 65536 then (s, .err .topicLarge)
  else
    let a := q.ask v.dur g.now v.q
    let (t, ty) := parseTopic a.contract q.topic
    let topics := (g.orderTopics (s.trie.lookup t.parts t.depth ty)).map fun t => (t.hash, t.offset.toInt)
    match dbLookup (toU32 (unixSec g.now)) (winLists g.orderWin s.win) s.winFile a.cutoff a.limit topics old with
    | none => (s, .out .panic)
    | some cands =>
      let (m, o) := getItemsS (s.candStepS v a) (sortDesc cands) g.cap a.limit s.mem
      ({ s with mem := m }, .out o)

/-! ## Sync -/

/-- What is left to chance in a sync: the clock (seconds) and the order of the map of window entries. -/
structure SyncEnv where
  now : Int64
  order : AMap UInt64 (List WinEntry) → List (UInt64 × List WinEntry)

/-- A record of the in-memory store as a sync reads it: header and the bytes after it. -/
def MRec (d : Bytes) : Option (EntryHdr × Rec) :=
  (EntryHdr.unmarshal d).map fun h => (h, ⟨h.seq, h.topicSize, h.valueSize, d.drop entrySize⟩)

/-- memdb/db.go:259-286, the keys of a block, in the order the sync sorts them (db_sync.go:219-221). -/
def MemDb.blockKeys (m : MemDb) (t : Int) : List UInt64 :=
  match m.blocks.get t with
  | none => []
  | some a => (((m.at a).records.filter (!·.1.del)).map (·.1.key)).insertionSort (· ≤ ·)

/-- db_sync.go:225-242: the records of a time block. `none`: a lookup failed, or a record is shorter than its header. -/
def MemDb.blockRecs (m : MemDb) (t : Int) : Option (List (EntryHdr × Rec)) :=
  (m.blockKeys t).mapM fun k => match m.lookup t k with
    | .value d => MRec d
    | _ => none

/-- db_sync.go:243-250: append the records; those already stored are skipped. The third result are the ones appended. -/
def appendNew (s : Store) (w : Writer) : List (EntryHdr × Rec) → Option (Store × Writer × List (EntryHdr × Rec))
  | [] => some (s, w, [])
  | r :: rs =>
    match w.append s r.2 with
    | .ok (s', w') => (appendNew s' w' rs).map fun x => (x.1, x.2.1, r :: x.2.2)
    | .error .exist => appendNew s w rs
    | .error .fail => none

/-- db_sync.go:252-257: window entries per topic. -/
def groupWin (hs : List (EntryHdr × Rec)) : AMap UInt64 (List WinEntry) :=
  hs.foldl (fun m h => m.set h.1.topicHash ((m.get h.1.topicHash).getD [] ++ [⟨h.1.seq, h.1.expiresAt⟩])) []

/-- db_sync.go:264-276, recovery.go:28-43: append the window entries topic by topic; the trie keeps the offsets. -/
def appendWins (now : Int64) (file : Bytes) : List (UInt64 × List WinEntry) → Trie → WinWriter → Option (Trie × WinWriter)
  | [], t, w => some (t, w)
  | (h, es) :: rest, t, w => do
    let off ← t.getOffset h
    let (w, off') ← w.append file now h off.toInt es
    appendWins now file rest (t.setOffset ⟨h, Int64.ofInt off'⟩) w

/-- db_info.go:24 `signature`. -/
def dbSignature : Bytes := [117, 110, 105, 116, 100, 98, 14]

/-- db_internal.go:108-120 `writeInfo`: the header as written. -/
def Db.infoBytes (s : Db) : Bytes :=
  DBInfo.marshal { signature := dbSignature, version := 1, encryption := s.enc, sequence := s.seq, count := s.count }

/-- The two writers of the running sync. -/
structure Handle where
  w : Writer
  ww : WinWriter

/-- db_sync.go:175-207 `sync`: extend, write, count, header; then `reset` (db_sync.go:91-105). -/
def Db.flush (s : Db) (h : Handle) (rs : List Rec) (n : Nat) : Option (Db × Handle) := do
  let store := { s.store with index := extendIndex s.store.index (upperSeq rs) }
  let (file, ww) ← h.ww.write s.winFile
  let (store, w) ← h.w.write store
  let s := { s with store := store, winFile := file, count := s.count + UInt64.ofNat n, lastSync := upperSeq rs }
  pure ({ s with info := s.infoBytes }, ⟨w.reset store, ww⟩)

/-- time_window.go:188-217 `release`: the window entries of a time block leave memory; an error if there are none. -/
def releaseWindow (w : AMap (Int × UInt64) (List WinEntry)) (t : Int) : Option (AMap (Int × UInt64) (List WinEntry)) :=
  if w.any fun p => p.1.1 = t then some (w.filter fun p => p.1.1 ≠ t) else none

/-- db_sync.go:217-296, the callback of `Sync` for one time block. -/
def Db.syncBlock (e : SyncEnv) (s : Db) (h : Handle) (t : Int) : Option (Db × Handle) := do
  let rs ← s.mem.blockRecs t
  if rs = [] then pure (s, h) else
  let (store, w, new) ← appendNew s.store h.w rs
  let (trie, ww) ← appendWins e.now s.winFile (e.order (groupWin new)) s.trie h.ww
  let (s, h) ← Db.flush { s with store := store, trie := trie } ⟨w, ww⟩ (rs.map (·.2)) new.length
  let win ← releaseWindow s.win t
  pure ({ s with win := win, mem := (s.mem.release t).1 }, h)

/-- Blocks one after the other. -/
def Db.syncBlocks (e : SyncEnv) : List Int → Db → Handle → Option (Db × Handle)
  | [], s, h => some (s, h)
  | t :: ts, s, h => (s.syncBlock e h t).bind fun x => Db.syncBlocks e ts x.1 x.2

/-- db.go:452-472 and db_sync.go:50-73, 212-303 `Sync`. On a closed database it waits for the lock that close keeps. -/
def Db.sync (e : SyncEnv) (s : Db) : Option (Db × DOut) :=
  if s.closed then some (s, .hang)
  else if s.lastSync = s.seq then some (s, .ok)
  else do
    let w ← newBlockWriter s.store
    let (s, _) ← Db.syncBlocks e (s.mem.mark.timeRefs s.mem.cur) s ⟨w, newWindowWriter s.winFile⟩
    pure (s, .ok)

/-! ## Close and open -/

/-- db_internal.go:123-165 `close`; the last tiny log is written under the id `id` (memdb/tiny_log.go:213-217). -/
def Db.close (s : Db) (id : Int) : Db × DOut :=
  if s.closed then (s, .err .closed)
  else
    let lease := s.store.lease.defrag
    ({ s with
        closed := true
        mem := { s.mem.write id s.mem.cur false with closed := true, blocks := [] }
        info := s.infoBytes
        store := { s.store with lease := lease }
        leaseFile := lease.write }, .ok)

/-- What is on disk. -/
structure Disk where
  info : Bytes := []
  index : Bytes := []
  data : Bytes := []
  win : Bytes := []
  lease : Bytes := []
  logs : List (Int × Bytes) := []

/-- The files of a database, as a crash of the process leaves them. -/
def Db.disk (s : Db) : Disk := ⟨s.info, s.store.index, s.store.data, s.winFile, s.leaseFile, s.mem.wal⟩

/-- How a database is opened. `enc` is the flag of options.go `WithEncryption`. -/
structure OpenOpts where
  immutable : Bool := false
  enc : Bool := false
  minFree : Int := 0

/-- db_internal.go:170-192, the callback of `loadTrie`; an error ends the loop and is only logged. `none` is a panic. -/
def loadTopics (index data : Bytes) : List (UInt64 × UInt64 × Int) → Trie → Option Trie
  | [], t => some t
  | (seq, hash, off) :: rest, t =>
    match readEntry index seq with
    | .error _ => some t
    | .ok e =>
      if e.topicSize = 0 then loadTopics index data rest t
      else match readTopic data e with
        | none => some t
        | some raw => do
          let p ← Topic.unmarshal raw
          loadTopics index data rest (t.add ⟨hash, Int64.ofInt off⟩ p.parts p.depth)

/-- recovery.go:98-106 with block_reader.go:92-95: the topics of the records appended go into the trie. `none` is a panic. -/
def addTopics : List (EntryHdr × Rec) → Trie → Option Trie
  | [], t => some t
  | (h, r) :: rs, t =>
    if h.topicSize = 0 then addTopics rs t
    else do
      let raw ← slice? r.cache 9 (9 + h.topicSize).toNat
      let p ← Topic.unmarshal raw
      addTopics rs (t.add ⟨h.topicHash, 0⟩ p.parts p.depth)

/-- recovery.go:63-149, the callback for one recovered time block. `pend` are the window entries of topics the trie does not know
yet. -/
def Db.recoverBlock (e : SyncEnv) (s : Db) (h : Handle) (pend : AMap UInt64 (List WinEntry)) (t : Int) :
    Option (Db × Handle × AMap UInt64 (List WinEntry)) := do
  let rs ← s.mem.blockRecs t
  if rs = [] then pure (s, h, pend) else
  let (store, w, new) ← appendNew s.store h.w rs
  let trie ← addTopics new s.trie
  let wins := groupWin new
  let known := wins.filter fun p => (trie.getOffset p.1).isSome
  let unknown := wins.filter fun p => !(trie.getOffset p.1).isSome
  let pend := unknown.foldl (fun m p => m.set p.1 ((m.get p.1).getD [] ++ p.2)) pend
  let (trie, ww) ← appendWins e.now s.winFile (e.order known) trie h.ww
  let (s, h) ← Db.flush { s with store := store, trie := trie } ⟨w, ww⟩ (rs.map (·.2)) new.length
  pure ({ s with mem := (s.mem.release t).1 }, h, pend)

def Db.recoverBlocks (e : SyncEnv) : List Int → Db → Handle → AMap UInt64 (List WinEntry) → Option (Db × Handle × AMap UInt64 (List WinEntry))
  | [], s, h, p => some (s, h, p)
  | t :: ts, s, h, p => (s.recoverBlock e h p t).bind fun x => Db.recoverBlocks e ts x.1 x.2.1 x.2.2

/-- recovery.go:45-178 `startRecovery` and `recoverLog`, run by `Open`: nothing if the header says that no sequence was handed out.
The pending window entries are appended but not written, since `sync` does nothing without an upper sequence (db_sync.go:176-178).
The first result is the database, the second whether recovery succeeded; `none`: a block could not be recovered. The code then returns `err1`
(recovery.go:151-155), which is nil unless a lookup failed, so `Open` may go on with part of the log; that state is not modelled. -/
def Db.recoverLog (e : SyncEnv) (s : Db) : Option (Db × Bool) :=
  if s.seq = 0 then some (s, true)
  else do
    let w ← newBlockWriter s.store
    let (s, h, pend) ← Db.recoverBlocks e s.mem.mark.allRefs s ⟨w, newWindowWriter s.winFile⟩ []
    match appendWins e.now s.winFile (e.order pend) s.trie h.ww with
    | none => pure ({ s with lastSync := 0 }, false)
    | some (trie, _) => pure ({ s with trie := trie, lastSync := 0 }, true)

/-- How an open ends. `failed`: `Open` panics because recovery returned an error. The state is what is on disk then. -/
inductive OpenOut where
  | ok (s : Db)
  | err (e : DErr)
  | panic
  | failed (d : Disk)
  /-- a block could not be recovered; what `Open` does then is not modelled -/
  | unmodelled

/-- db.go:50-210 `Open`. `now` is the time id of the first tiny log. The new sync handle starts with `lastSyncSeq` zero
(db.go:202). -/
def openDb (v : DbEnv) (o : OpenOpts) (r : RecEnv) (e : SyncEnv) (now : Int) (d : Disk) : OpenOut :=
  let zero : DBInfo := { signature := dbSignature, version := 1, encryption := 0, sequence := 0, count := 0 }
  let info := if d.info = [] then zero.marshal else d.info
  match DBInfo.unmarshal info with
  | none => .err .io
  | some i =>
    if i.signature ≠ dbSignature then .err .corrupted
    else match MemDb.recover v.mem r d.logs now with
      | none => .panic
      | some (m, _) =>
        match loadTopics d.index d.data (blockIterator d.win) .empty, (Lease.new o.minFree).read d.lease with
        | none, _ => .panic
        | _, none => .err .io
        | some trie, some lease =>
          let s : Db := {
            immutable := o.immutable, enc := if o.enc then 1 else i.encryption, seq := i.sequence, count := i.count
            mem := { m with wal := d.logs }, trie := trie, store := ⟨d.index, d.data, lease⟩, winFile := d.win, info := info, leaseFile := d.lease }
          match s.recoverLog e with
          | none => .unmodelled
          | some (s, true) => .ok s
          | some (s, false) => .failed s.disk

end Verif
