import Verif.Model.Db

/-!
# Puts that run at the same time

`PutEntry` (db.go:346-387) holds no lock over its parts. Each part is a step of its own here: the look at the trie, the drawing of a
sequence, the reading of the current time id, the look-up of its block, the write into that block, the entry in the time window, the
topic in the trie. Between two steps of a put anything else may run. The steps themselves are atomic: the trie's and the window's locks, the
atomic counter, the lock of the block (memdb/db.go:379-386: `addTimeFilter` is called under it). What two `trie.add` may
do to each other is the subject of `TrieRace`.

The pointer to a block outlives the block: a step may write into a block that was released (memdb/db_internal.go:314-338). Its buffer is
then back in the pool; that the write may damage the buffer's next owner is not modelled.
-/

namespace Verif

/-- Where a call of `PutEntry` is. -/
inductive PutPc where
  /-- nothing done -/
  | start
  /-- db_internal.go:253-277 done: the trie was asked for the topic -/
  | parsed (o : Obj) (raw : Bytes)
  /-- db_internal.go:278-312 done: the sequence is drawn, the record packed -/
  | packed (o : Obj) (h : EntryHdr) (rec : Bytes)
  /-- memdb/db.go:372 done: the time id is read -/
  | timed (o : Obj) (h : EntryHdr) (rec : Bytes) (t : Int)
  /-- memdb/db.go:373-378 done: the block is looked up -/
  | aimed (o : Obj) (h : EntryHdr) (rec : Bytes) (t : Int) (a : Nat)
  /-- memdb/db.go:380-386 done: the record is in the block, the key in the filter -/
  | stored (o : Obj) (h : EntryHdr) (rec : Bytes) (t : Int)
  /-- db.go:371 done: the window has the entry -/
  | listed (o : Obj) (h : EntryHdr) (rec : Bytes)
  /-- returned; the sequence if the message was put -/
  | done (o : Obj) (seq : Option UInt64) (out : DOut)
deriving DecidableEq, Repr

/-- A call of `PutEntry` in progress: its time, its argument and where it is. -/
structure Putting where
  now : Int
  o : Obj
  pc : PutPc := .start
deriving DecidableEq, Repr

/-- One step of db.go:346-387 `PutEntry` and memdb/db.go:367-391 `Put`. -/
def Putting.step (v : DbEnv) (s : Db) (p : Putting) : Db × Putting :=
  match p.pc with
  | .start =>
    if s.closed then (s, { p with pc := .done p.o none (.err .closed) })
    else match p.o.refused with
      | some e => (s, { p with pc := .done p.o none (.err e) })
      | none => (s, { p with pc := .parsed (s.parseEntry v p.now p.o).1 (s.parseEntry v p.now p.o).2 })
  | .parsed o raw =>
    match s.packEntry v p.now o raw with
    | none => (s, { p with pc := .done o none .panic })
    | some (s, h, rec) => (s, { p with pc := .packed o h rec })
  | .packed o h rec =>
    if s.mem.closed then (s, { p with pc := .done o none (.err .closed) })
    else (s, { p with pc := .timed o h rec s.mem.cur })
  | .timed o h rec t =>
    match s.mem.blocks.get t with
    | none => (s, { p with pc := .done o none (.err .forbidden) })
    | some a => (s, { p with pc := .aimed o h rec t a })
  | .aimed o h rec t a =>
    match (s.mem.at a).put v.mem.cap ⟨false, h.seq⟩ rec with
    | none => (s, { p with pc := .done o none (.err .full) })
    | some b => ({ s with mem := (s.mem.setAt a b).addTimeFilter v.mem t h.seq }, { p with pc := .stored o h rec t })
  | .stored o h rec t => ({ s with win := addWindow s.win t h.topicHash ⟨h.seq, h.expiresAt⟩ }, { p with pc := .listed o h rec })
  | .listed o h rec =>
    match addTopic s.trie h rec with
    | none => (s, { p with pc := .done o none .panic })
    | some t => ({ s with trie := t }, { p with pc := .done o.reset (some h.seq) .ok })
  | .done _ _ _ => (s, p)

/-- A database and the calls of `PutEntry` in progress. -/
structure Par where
  db : Db
  puts : List Putting

/-- The `i`th call takes a step. -/
def Par.go (v : DbEnv) (P : Par) (i : Nat) : Par :=
  match P.puts[i]? with
  | none => P
  | some p => ⟨(p.step v P.db).1, P.puts.set i (p.step v P.db).2⟩

/-- What happens meanwhile: a step of a put, a write of a block to the log, a Get, an id drawn by a client. -/
inductive ParOp where
  | go (i : Nat)
  | write (id t : Int)
  | get (g : GetEnv) (q : Query) (old : List UInt64)
  | newId (now : Int)

def Par.step (v : DbEnv) (P : Par) : ParOp → Par
  | .go i => P.go v i
  | .write id t => { P with db := { P.db with mem := P.db.mem.write id t false } }
  | .get g q old => { P with db := (P.db.get v g q old).1 }
  | .newId now => { P with db := (P.db.newId now).1 }

def Par.run (v : DbEnv) (P : Par) (sched : List ParOp) : Par := sched.foldl (Par.step v) P

/-- All calls have returned, none with a panic. -/
def Par.over (P : Par) : Bool := P.puts.all fun p =>
  match p.pc with
  | .done _ _ .panic => false
  | .done _ _ _ => true
  | _ => false

end Verif
