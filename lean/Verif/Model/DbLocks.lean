import Verif.Model.MemLocks

/-!
# The locks of the database

db.go, db_internal.go, db_sync.go, batch.go, trie.go, time_window.go, expiry_window.go, leasing.go and file.go as far as their locks go, on top of the locks
of the in-memory store (`Verif.Model.MemLocks`). The data are left out, and so is what is not a lock: the queues and channels a batch waits for
(`Verif.Model.LogQueue`), the group Close waits for, and the answer of a Sync that finds another one under way. Locks of the log, of the pool of
buffers and of the meters are taken last and given back at once.
-/

namespace Verif

namespace DbLocks

open Locks (Act Gor)

/-- db_internal.go:96 (`syncLockC`, a channel with room for one, used as a lock), batch.go:49 (one for each batch), db.go:238 (one of the mutexes for
Get, mutex.go:46), trie.go:119 (one of the mutexes of the trie), trie.go:95, time_window.go:115, time_window.go:135, time_window.go:128 (a shard),
file.go:102, filter/bloom.go:21, leasing.go:52 (a shard), the locks of the in-memory store, expiry_window.go:42, expiry_window.go:38 (a shard). -/
inductive Lock where
  | sync
  | batch (b : Nat)
  | get (p : Nat)
  | topic (h : Nat)
  | trie
  | window
  | blocks
  | shard (i : Nat)
  | files
  | filter
  | lease (i : Nat)
  | mem (l : Locks.Lock)
  | expiries
  | expiry (i : Nat)
deriving DecidableEq, Repr

abbrev Prog := List (Act Lock)

/-- `Lock`, some work, `Unlock`. -/
def writing (l : Lock) (p : Prog) : Prog := .w l :: (p ++ [.done l])

/-- `RLock`, some work, `RUnlock`. -/
def reading (l : Lock) (p : Prog) : Prog := .r l :: (p ++ [.done l])

def memAct : Act Locks.Lock → Act Lock
  | .r l => .r (.mem l)
  | .w l => .w (.mem l)
  | .done l => .done (.mem l)

/-- Work of the in-memory store. -/
def inMem (p : List (Act Locks.Lock)) : Prog := p.map memAct

/-- expiry_window.go:129-148 `addExpiry`, with 73-77. -/
def addExpiry (i : Nat) : Prog := reading .expiries [] ++ writing (.expiry i) []

/-- expiry_window.go:85-126 `getExpiredEntries`: the shards from `i` on, every one kept until the end. -/
def expired : Nat → Nat → Prog
  | 0, _ => []
  | n + 1, i => writing (.expiry i) (expired n (i + 1))

/-- time_window.go:220-254 `ilookup` with the expired entries it meets, and 257-328 `lookup` with those in the file. -/
def windowLookup (i : Nat) (es fs : List Nat) : Prog :=
  reading .blocks [] ++ reading (.shard i) (es.flatMap addExpiry) ++ writing .files [] ++ fs.flatMap addExpiry

/-- time_window.go:168-187 `add`. -/
def windowAdd (i : Nat) : Prog := reading .window (reading .blocks []) ++ writing (.shard i) []

/-- trie.go:117-153 `add`; for each part whether its node is new. -/
def trieAdd (h : Nat) (parts : List Bool) : Prog :=
  writing (.topic h) ((parts.flatMap fun new => reading .trie [] ++ if new then writing .trie [] else []) ++ writing .trie [])

/-- An entry that is put: its topic if it is packed with it, its block and filter in the in-memory store, its shard of the window. -/
structure Put where
  topic : Option (Nat × List Bool)
  time : Nat
  filter : Nat
  fresh : Bool
  shard : Nat
deriving DecidableEq, Repr

def Put.trie (e : Put) : Prog := (e.topic.map fun t => trieAdd t.1 t.2).getD []

def Put.mem (e : Put) : Prog := inMem (Locks.Op.put e.time e.filter e.fresh).prog

/-- A block that is synced: its time, for each entry the shard of free space it asks, the number of its topics, the shards of its windows. -/
structure Block where
  time : Nat
  seqs : List Nat
  topics : Nat
  shards : List Nat
deriving DecidableEq, Repr

/-- db_sync.go:218-292, one round, with memdb/db.go:262-276 before it. -/
def Block.prog (b : Block) : Prog :=
  inMem (Locks.look ++ Locks.peek (.block b.time)) ++
  (b.seqs.flatMap fun i => inMem (Locks.Op.lookup b.time).prog ++ writing .files [] ++ writing (.lease i) [] ++ writing .filter []) ++
  (List.replicate b.topics (reading .trie [] ++ writing .files [] ++ writing .trie [])).flatten ++
  writing .files [] ++ reading .files [] ++
  (b.shards.flatMap fun i => reading .blocks [] ++ writing (.shard i) []) ++
  inMem (Locks.Op.free b.time).prog

inductive Op where
  | get (p : Nat) (topics : List (Nat × List Nat × List Nat)) (entries : List (Nat × List Nat))
  | put (e : Put)
  | delete (k i : Nat) (ts : List Nat) (t t' : Nat) (last : Option Nat) (lease : Nat)
  | batchPut
  | batchWrite (b : Nat) (es : List Put)
  | batchCommit (b : Nat) (es : List Put)
  | sync (shards : Nat) (blocks : List Block)
  | expire (n : Nat) (leases : List Nat)
  | tinyWrite (i t : Nat)
  | rotate (t : Nat)
  | fileSize
  | close
deriving DecidableEq, Repr

/-- batch.go:195-232. -/
def batchProg (b : Nat) (es : List Put) : Prog :=
  writing (.batch b) (inMem (Locks.peek .logs) ++ (es.flatMap fun e => e.trie ++ e.mem ++ windowAdd e.shard) ++ inMem Locks.Op.batch.prog)

def Op.prog : Op → Prog
  | .get p topics entries => -- db.go:222-319 with db_internal.go:196-234
    reading (.get p) (reading .trie [] ++ (topics.flatMap fun t => windowLookup t.1 t.2.1 t.2.2) ++
      entries.flatMap fun e => inMem (Locks.Op.get e.1 e.2).prog ++ writing .files [])
  | .put e => reading .trie [] ++ e.mem ++ windowAdd e.shard ++ e.trie -- db.go:346-387 with db_internal.go:253-313
  | .delete k i ts t t' last lease => -- db.go:399-431 with db_internal.go:316-343
    reading .trie [] ++ inMem (match last with | none => Locks.Op.delete k i ts t t' | some n => .deleteLast k i ts t n).prog ++
      reading .filter [] ++ writing .files [] ++ writing (.lease lease) [] ++ reading .files []
  | .batchPut => reading .trie [] -- batch.go:71-105
  | .batchWrite b es => batchProg b es
  | .batchCommit b es => batchProg b es ++ inMem Locks.Op.commit.prog -- batch.go:236-257
  | .sync shards blocks => -- db.go:452-472, db_sync.go:212-303, time_window.go:188-201
    writing .sync (((List.range shards).flatMap fun i => reading (.shard i) []) ++ inMem (Locks.peek .logs ++ Locks.peek .mark) ++
      blocks.flatMap Block.prog ++ writing .files [] ++ reading .files [])
  | .expire n leases => -- db_sync.go:306-328
    writing .sync (expired n 0 ++ leases.flatMap fun i => reading .filter [] ++ writing .files [] ++ writing (.lease i) [])
  | .tinyWrite i t => inMem (Locks.Op.tinyWrite i t).prog
  | .rotate t => inMem (Locks.Op.rotate t).prog
  | .fileSize => reading .files [] -- db.go:475-477
  | .close => [.w .sync] -- db_internal.go:123-165, never given back

/-- A goroutine that does some operations one after the other. -/
def gor (ops : List Op) : Gor Lock := ⟨[], ops.flatMap Op.prog, false⟩

end DbLocks

end Verif
