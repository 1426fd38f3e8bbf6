import Verif.Model.DbLocks

/-!
# The maps of the database and the locks around them

Every read and write of the Go maps of the trie (trie.go), of the shards of the window (time_window.go), of the shards of the expiry window
(expiry_window.go), of the shards of free space (leasing.go) and of the in-memory store (memdb/db.go, memdb/db_internal.go, memdb/batch.go,
memdb/time_mark.go), between the locks that are taken around it. Go ends the whole process when a map is written while another goroutine reads or writes
it. The other locks and waits of the operations are left out, which only allows more interleavings. All nodes of the trie count as one map, and so do the
two maps of the time marks.
-/

namespace Verif

namespace MapUse

open Locks (Act)
open DbLocks (Lock)

/-- trie.go:78 `summary`, trie.go:62 `children`, time_window.go:129 `entries`, expiry_window.go:36 `windows`, leasing.go:51 `cache`; memdb:
db.go:43 `timeBlocks`, block.go:52 `records`, block.go:31 `timeRecords` (of the filters), time_mark.go:32-33, and the three kinds of maps of the
query manager, which keeps what the last Gets found: query.go:19-26 with db_internal.go:175-182. -/
inductive Map where
  | summary
  | children
  | entries (i : Nat)
  | windows (i : Nat)
  | cache (i : Nat)
  | blocks
  | records (t : Nat)
  | filters (k : Nat)
  | marks
  | planBlocks
  | planFilters
  | planRecords (k : Nat)
deriving DecidableEq, Repr

/-- What a goroutine does: something with a lock, a read of a map, a write to a map. -/
inductive Ev (α μ : Type) where
  | act (a : Act α)
  | rd (m : μ)
  | wr (m : μ)
deriving DecidableEq, Repr

abbrev Prog := List (Ev Lock Map)

structure Gor (α μ : Type) where
  held : List (α × Bool)
  todo : List (Ev α μ)
deriving DecidableEq, Repr

/-- One step of goroutine `i`; `none` when it has to wait or is finished. A reader waits while somebody writes, a writer while somebody reads or writes. -/
def step {α μ : Type} [DecidableEq α] (i : Nat) (s : List (Gor α μ)) : Option (List (Gor α μ)) :=
  match s[i]? with
  | none => none
  | some g =>
    match g.todo with
    | [] => none
    | .act (.r l) :: p => if ∀ h ∈ s, (l, true) ∉ h.held then some (s.set i ⟨(l, false) :: g.held, p⟩) else none
    | .act (.w l) :: p => if ∀ h ∈ s, ∀ x ∈ h.held, x.1 ≠ l then some (s.set i ⟨(l, true) :: g.held, p⟩) else none
    | .act (.done l) :: p => some (s.set i ⟨g.held.filter (·.1 ≠ l), p⟩)
    | .rd _ :: p => some (s.set i ⟨g.held, p⟩)
    | .wr _ :: p => some (s.set i ⟨g.held, p⟩)

def run {α μ : Type} [DecidableEq α] : List Nat → List (Gor α μ) → Option (List (Gor α μ))
  | [], s => some s
  | i :: is, s => (step i s).bind (run is)

def writing {α μ : Type} (l : α) (p : List (Ev α μ)) : List (Ev α μ) := .act (.w l) :: (p ++ [.act (.done l)])

def reading {α μ : Type} (l : α) (p : List (Ev α μ)) : List (Ev α μ) := .act (.r l) :: (p ++ [.act (.done l)])

/-- expiry_window.go:129-148 `addExpiry`. -/
def addExpiry (i : Nat) : Prog := writing (.expiry i) [.rd (.windows i), .wr (.windows i)]

/-- expiry_window.go:85-126 `getExpiredEntries`: every shard is kept until the end. -/
def expired : Nat → Nat → Prog
  | 0, _ => []
  | n + 1, i => writing (.expiry i) ([.rd (.windows i), .wr (.windows i)] ++ expired n (i + 1))

/-- trie.go:117-153 `add`; for each part whether its node is new. The summary is looked at (121) under the mutex of the topic alone. -/
def trieAdd (h : Nat) (parts : List Bool) : Prog :=
  writing (.topic h) ([.rd .summary] ++
    ((parts.flatMap fun new => reading .trie [.rd .children] ++ if new then writing .trie [.wr .children] else []) ++ writing .trie [.wr .summary]))

/-- memdb/db_internal.go:143-151 and others: a look into the map of blocks. -/
def look : Prog := reading (.mem .mu) [.rd .blocks]

/-- memdb/db.go:296-333, db_internal.go:190-215, 226-233: the search for the block of a key. -/
def search (k : Nat) (ts : List Nat) : Prog :=
  reading (.mem (.filter k)) [.rd (.filters k)] ++
    ts.flatMap fun t => look ++ reading (.mem (.block t)) [.rd (.records t)] ++ reading (.mem (.filter k)) [.rd (.filters k)]

/-- memdb/db_internal.go:185-237 `seek`; whether it found the key. What it finds is noted in the maps of the query manager (217-221) with no lock. -/
def seek (k : Nat) (ts : List Nat) (found : Bool) : Prog :=
  search k ts ++ if found then [.rd .planFilters, .wr (.planRecords k), .wr .planBlocks] else []

/-- memdb/db_internal.go:315-338 `releaseLog`. -/
def releaseLog (t : Nat) : Prog :=
  look ++ reading (.mem (.block t)) (writing (.mem .mu) ([.wr .blocks] ++ writing (.mem .mark) [.wr .marks]))

inductive Op where
  | get (nodes : Nat) (topics : List (Nat × List Nat × List Nat))
  | getOffset
  | setOffset
  | add (i : Nat)
  | trieAdd (h : Nat) (parts : List Bool)
  | release (n : Nat)
  | timeRelease (is : List Nat)
  | expire (n : Nat) (leases : List Nat)
  | free (i : Nat)
  | allocate (i : Nat)
  | close (n : Nat)
  | memPut (t k : Nat) (fresh : Bool)
  | memGet (k : Nat) (seeks : Option (List Nat × Bool)) (ts : List Nat) (again : Bool)
  | memLookup (t : Nat)
  | memIterate (ts : List Nat)
  | memDelete (k : Nat) (ts : List Nat) (t t' : Nat)
  | memDeleteLast (k : Nat) (ts : List Nat) (t n : Nat)
  | memFree (t : Nat)
  | memBlock
  | memMark
  | memKeys (ts : List Nat)
deriving DecidableEq, Repr

def Op.prog : Op → Prog
  | .get nodes topics => -- trie.go:156-187, time_window.go:220-254, 257-328
    reading .trie (List.replicate nodes (.rd .children)) ++
      topics.flatMap fun t => reading (.shard t.1) ([.rd (.entries t.1)] ++ t.2.1.flatMap addExpiry) ++ t.2.2.flatMap addExpiry
  | .getOffset => reading .trie [.rd .summary] -- trie.go:190-201, 110-114
  | .setOffset => writing .trie [.rd .summary] -- trie.go:203-211
  | .add i => writing (.shard i) [.rd (.entries i), .wr (.entries i)] -- time_window.go:168-187
  | .trieAdd h parts => MapUse.trieAdd h parts
  | .release n => (List.range n).flatMap fun i => reading (.shard i) [.rd (.entries i)] -- time_window.go:188-201
  | .timeRelease is => is.flatMap fun i => writing (.shard i) [.wr (.entries i)] -- time_window.go:203-216
  | .expire n leases => -- db_sync.go:306-328
    expired n 0 ++ leases.flatMap fun i => writing (.lease i) [.rd (.cache i), .wr (.cache i)]
  | .free i => writing (.lease i) [.rd (.cache i), .wr (.cache i)] -- leasing.go:160-171, by a Delete
  | .allocate i => writing (.lease i) [.wr (.cache i)] -- leasing.go:180-206, by a Sync
  | .close n => (List.range n).map fun i => .wr (.cache i) -- leasing.go:153-158 with 126-151 `defrag`, by Close: no lock
  | .memPut t k fresh => -- memdb/db.go:367-391, batch.go:59-80, db_internal.go:154-174
    look ++ writing (.mem (.block t)) ([.wr (.records t)] ++
      writing (.mem (.filter k)) ([.rd (.filters k)] ++ if fresh then writing (.mem .mu) [.wr (.filters k)] else []))
  | .memGet k seeks ts again => -- memdb/db.go:179-256, once around
    [.rd .planFilters, .rd (.planRecords k)] ++ (seeks.map fun x => seek k x.1 x.2).getD [] ++ [.rd .planBlocks] ++
      reading (.mem .mu) [.rd .planFilters] ++ [.rd (.planRecords k)] ++
      (ts.flatMap fun t => [.rd .planBlocks] ++ reading (.mem (.block t)) [.rd (.records t)] ++ [.rd (.planRecords k)]) ++
      if again then [.wr .planFilters] else []
  | .memLookup t => look ++ reading (.mem (.block t)) [.rd (.records t)] -- memdb/db.go:145-176
  | .memIterate ts => -- memdb/db.go:259-286, time_mark.go:67-80
    reading (.mem .mark) [.rd .marks] ++ ts.flatMap fun t => look ++ reading (.mem (.block t)) [.rd (.records t)]
  | .memDelete k ts t t' => -- memdb/db.go:291-364 with 357-359, db_internal.go:240-256
    search k ts ++ writing (.mem (.block t)) [.rd (.records t), .wr (.records t)] ++ look ++ writing (.mem (.block t')) [.wr (.records t')]
  | .memDeleteLast k ts t n => -- memdb/db.go:340-355
    search k ts ++ writing (.mem (.block t)) ([.rd (.records t), .wr (.records t)] ++ (List.range n).flatMap fun _ => look ++ [.wr (.records t)]) ++ releaseLog t
  | .memFree t => releaseLog t -- memdb/db.go:421-423
  | .memBlock => writing (.mem .mu) [.rd .blocks, .wr .blocks] -- memdb/db_internal.go:131-141
  | .memMark => writing (.mem .mark) [.rd .marks, .wr .marks] -- memdb/time_mark.go:41-65
  | .memKeys ts => -- memdb/db.go:125-142
    reading (.mem .mu) ([.rd .blocks] ++ ts.flatMap fun t => reading (.mem (.block t)) [.rd (.records t)])

def gor (ops : List Op) : Gor Lock Map := ⟨[], ops.flatMap Op.prog⟩

end MapUse

/-- Two goroutines are about to touch the map, and one of them to write it. -/
def Spec.clash {α μ : Type} (m : μ) (s : List (MapUse.Gor α μ)) : Prop :=
  ∃ (i j : Nat) (g h : MapUse.Gor α μ), i ≠ j ∧ s[i]? = some g ∧ s[j]? = some h ∧ g.todo.head? = some (.wr m) ∧
    (h.todo.head? = some (.rd m) ∨ h.todo.head? = some (.wr m))

end Verif
