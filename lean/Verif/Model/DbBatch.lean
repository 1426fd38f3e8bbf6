import Verif.Model.DbSyncStep
import Verif.Props.MemDb

/-!
# Batches of the database

batch.go, and `Batch` of db.go, on top of the batches of the in-memory store. The buffer of a batch is unbounded.
-/

namespace Verif

/-- batch.go:38-57 `Batch`. `index` holds the delete flag and the offset of each entry in `buf`. `lost` is not in the code: it notes that
the error of a `writeInternal`, which `Write` drops (batch.go:208-227), was not nil. -/
structure DBatch where
  index : List (Bool × Nat) := []
  buf : Bytes := []
  mem : MBatch
  managed : Bool := false
  enc : Bool := false
  lost : Bool := false

/-- db_internal.go:346-356 `batch`, the clock gives `t`. On a closed database it writes to a nil map (memdb/db_internal.go:132-141,
memdb/db.go:115-119), a panic. -/
def Db.newBatch (s : Db) (t : Int) : Option (Db × DBatch) :=
  if s.closed then none
  else some ({ s with mem := s.mem.addTimeBlock t }, { mem := { tid := t }, enc := s.enc = 1 })

/-- batch.go:87-97: an entry goes to the end of the buffer, after its length. -/
def DBatch.append (b : DBatch) (del : Bool) (rec : Bytes) : DBatch :=
  { b with buf := b.buf ++ put32 (UInt32.ofNat (rec.length + 4)) ++ rec, index := b.index ++ [(del, b.buf.length)] }

/-- batch.go:71-103 `PutEntry`. -/
def DBatch.putEntry (v : DbEnv) (now : Int) (s : Db) (b : DBatch) (o : Obj) : Db × DBatch × Obj × DOut :=
  match o.refused with
  | some e => (s, b, o, .err e)
  | none =>
    match s.setEntry v now { o with encryption := o.encryption || b.enc } with
    | none => (s, b, o, .panic)
    | some (s, o, _, rec) => (s, b.append false rec, o.reset, .ok)

/-- batch.go:115-147 `DeleteEntry`. -/
def DBatch.deleteEntry (v : DbEnv) (now : Int) (s : Db) (b : DBatch) (o : Obj) : Db × DBatch × Obj × DOut :=
  if s.immutable then (s, b, o, .err .immutable)
  else if (o.id.getD []).length = 0 then (s, b, o, .err .idEmpty)
  else if o.topic.length = 0 then (s, b, o, .err .topicEmpty)
  else if o.topic.length > 65536 then (s, b, o, .err .topicLarge)
  else match s.setEntry v now o with
    | none => (s, b, o, .panic)
    | some (s, o, _, rec) => (s, b.append true rec, o.reset, .ok)

/-- batch.go:156-170, 181-184: the header and the bytes of the entry at an offset of the buffer. `none` is an error. -/
def DBatch.entryAt (b : DBatch) (off : Nat) : Option (EntryHdr × Bytes) :=
  (get32 b.buf off).bind fun n =>
    ((slice? b.buf (off + 4) (off + 30)).bind EntryHdr.unmarshal).bind fun h =>
      (slice? b.buf (off + 4) (off + n.toNat)).map fun d => (h, d)

/-- batch.go:209-218: the topic of an entry goes into the trie; the topics of one `Write` are kept by hash. `none` is a panic. -/
def batchTopic (topics : AMap UInt64 Topic) (t : Trie) (h : EntryHdr) (rec : Bytes) : Option (AMap UInt64 Topic × Trie) :=
  if h.topicSize = 0 then some (topics, t)
  else match topics.get h.topicHash with
    | some p => some (topics, t.add ⟨h.topicHash, 0⟩ p.parts p.depth)
    | none =>
      ((slice? rec 35 (35 + h.topicSize).toNat).bind Topic.unmarshal).map fun p =>
        (topics.set h.topicHash p, t.add ⟨h.topicHash, 0⟩ p.parts p.depth)

/-- batch.go:149-192 `writeInternal` with the function of batch.go:208-227. The flag says that it ended with an error. -/
def DBatch.store (v : DbEnv) (b : DBatch) : List (Bool × Nat) → AMap UInt64 Topic → Db → Db × DOut × Bool
  | [], _, s => (s, .ok, false)
  | x :: rest, topics, s =>
    match b.entryAt x.2 with
    | none => (s, .ok, true)
    | some (h, rec) =>
      if x.1 = true ∧ h.seq ≠ 0 then
        match s.delete v h.seq with
        | (s, .panic) => (s, .panic, false)
        | (s, .hang) => (s, .hang, false)
        | (s, _) => DBatch.store v b rest topics s
      else
        match batchTopic topics s.trie h rec with
        | none => (s, .panic, false)
        | some (topics, t) =>
          match s.mem.putAt v.mem b.mem.tid h.seq rec with
          | (m, .ok) => DBatch.store v b rest topics
              { s with trie := t, mem := m, win := addWindow s.win b.mem.tid h.topicHash ⟨h.seq, h.expiresAt⟩ }
          | (m, _) => ({ s with trie := t, mem := m }, .ok, true)

/-- batch.go:195-232 `Write`; the clock gives the time id `next` of the next tiny log. On a closed database the write queue is
closed (memdb/tiny_log.go:192-199), a panic. -/
def DBatch.write (v : DbEnv) (next : Int) (s : Db) (b : DBatch) : Db × DBatch × DOut :=
  if b.index = [] then (s, b, .ok)
  else if s.closed then (s, b, .panic)
  else match DBatch.store v b b.index [] s with
    | (s, .ok, lost) =>
      let r := MBatch.step v.mem s.mem b.mem (.write next)
      ({ s with mem := r.1 }, { b with index := [], buf := [], mem := r.2, lost := b.lost || lost }, .ok)
    | (s, out, _) => (s, b, out)

def DOut.ofMem : MOut → DOut
  | .ok => .ok
  | .panic => .panic
  | o => .err (.ofMem o)

/-- batch.go:266-273 `Abort`, which ignores the error of `mem.Abort`. -/
def DBatch.abort (s : Db) (b : DBatch) : Db × DOut :=
  if b.managed then (s, .panic)
  else match MBatch.abort s.mem b.mem with
    | (m, .panic) => ({ s with mem := m }, .panic)
    | (m, _) => ({ s with mem := m }, .ok)

/-- batch.go:236-257 `Commit`: write, commit the batch of the in-memory store; the deferred `Abort` finds nothing left to release. -/
def DBatch.commit (v : DbEnv) (next next' : Int) (s : Db) (b : DBatch) : Db × DBatch × DOut :=
  if b.managed then (s, b, .panic)
  else match b.write v next s with
    | (s, b, .ok) =>
      let r := MBatch.commit v.mem s.mem b.mem next'
      ({ s with mem := r.1 }, { b with mem := { b.mem with group := [] } }, DOut.ofMem r.2)
    | r => r

/-- What the function given to `Batch` does with the batch. -/
inductive DBatchOp where
  | put (now : Int) (o : Obj)
  | delete (now : Int) (o : Obj)
  | write (next : Int)

def DBatch.step (v : DbEnv) (s : Db) (b : DBatch) : DBatchOp → Db × DBatch × DOut
  | .put now o => let r := b.putEntry v now s o; (r.1, r.2.1, r.2.2.2)
  | .delete now o => let r := b.deleteEntry v now s o; (r.1, r.2.1, r.2.2.2)
  | .write next => b.write v next s

/-- The function runs on after an error, not after a panic. -/
def DBatch.steps (v : DbEnv) : Db → DBatch → List DBatchOp → Db × DBatch × DOut
  | s, b, [] => (s, b, .ok)
  | s, b, op :: ops =>
    match DBatch.step v s b op with
    | (s, b, .panic) => (s, b, .panic)
    | (s, b, .hang) => (s, b, .hang)
    | (s, b, _) => DBatch.steps v s b ops

/-- db.go:434-447 `Batch`; the function does `ops` and then fails or not. -/
def Db.batch (v : DbEnv) (s : Db) (t next next' : Int) (ops : List DBatchOp) (fails : Bool) : Db × DOut :=
  match s.newBatch t with
  | none => (s, .panic)
  | some (s, b) =>
    match DBatch.steps v s { b with managed := true } ops with
    | (s, b, .ok) =>
      if fails then
        match b.abort s with
        | (s, .ok) => (s, .err .fn)
        | r => r
      else
        let r := { b with managed := false }.commit v next next' s
        (r.1, r.2.2)
    | (s, _, out) => (s, out)

end Verif
