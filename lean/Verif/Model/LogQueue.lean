import Verif.Base.AMap
import Verif.Base.Bytes

/-!
# How tiny logs reach the write-ahead log

Messages are put into the time block of the current tiny log. Three goroutines bring tiny logs to the write-ahead log:
`writeLoop` sends the current one to the channel `writeQueue` and starts another, `dispatch` passes it on to the channel
`logQueue`, and `commitLoop` writes what its block holds beyond what was written before. A batch sends its own tiny log to
`writeQueue` and waits until it was written. `Close` closes the channel `stop`, upon which `writeLoop` sends the last tiny log
and closes `writeQueue`, `dispatch` closes `logQueue` and `commitLoop` ends.

The model has a step for each of these actions; a schedule is a list of steps. A step that would block is not enabled (`none`).
A tick that `writeLoop` skips because memory is short (memdb/tiny_log.go:225-236) is a tick left out.
The contents of the write-ahead log are the messages written, in order: how they are framed is `Verif.Model.Wal`.
Blocks that a Sync or a delete takes away in between are left out here: Sync takes a block away when its messages are stored.
-/

namespace Verif

/-- memdb/tiny_log.go:34-42 `_TinyLog`: a number that stands for its `doneChan`, and its time block. -/
structure QLog where
  id : Nat
  block : Nat
  deriving DecidableEq, Repr

/-- memdb/block.go:31-40 `_Block`, as far as the log is concerned: the messages and how many were written (`lastOffset`). -/
structure QBlock where
  data : List Bytes := []
  last : Nat := 0
  deriving DecidableEq, Repr

/-- Where `dispatch` is. -/
inductive QDisp where
  | ready
  /-- It sleeps for the timeout (memdb/tiny_log.go:267-270). -/
  | asleep
  /-- It closed `logQueue` and returned. -/
  | done
  deriving DecidableEq, Repr

/-- memdb/tiny_log.go:86-97 `_TinyLogManager` with the time blocks and the write-ahead log. -/
structure LogQ where
  cur : QLog
  next : Nat
  blocks : AMap Nat QBlock
  writeQ : List QLog := []
  logQ : List QLog := []
  disp : QDisp := .ready
  /-- The channel `stop` is closed. -/
  stop : Bool := false
  /-- `writeLoop` has returned and `writeQueue` is closed. -/
  wrote : Bool := false
  /-- `commitLoop` has returned: so does `Close`. -/
  over : Bool := false
  wal : List Bytes := []
  /-- The tiny logs whose `doneChan` is closed. -/
  finished : List Nat := []
  deriving DecidableEq, Repr

/-- The manager after `newLogManager` (memdb/tiny_log.go:130-159): the first tiny log, for the block of time `t`. -/
def LogQ.new (t : Nat) : LogQ := { cur := ⟨0, t⟩, next := 1, blocks := [(t, {})] }

/-- The capacity of `logQueue`: `nPoolSize` (memdb/db_internal.go:37, memdb/db.go:104). -/
def logQueueCap : Nat := 27

/-- memdb/db_internal.go:132-141 `addTimeBlock`. -/
def LogQ.addBlock (s : LogQ) (t : Nat) (data : List Bytes) : AMap Nat QBlock :=
  match AMap.get s.blocks t with
  | some _ => s.blocks
  | none => AMap.set s.blocks t { data := data }

/-- memdb/db.go:367-391 `Put`, the log's side: the message goes to the block of the current tiny log. -/
def LogQ.put (s : LogQ) (m : Bytes) : Option LogQ :=
  if s.stop then none
  else match AMap.get s.blocks s.cur.block with
    | some b => some { s with blocks := AMap.set s.blocks s.cur.block { b with data := b.data ++ [m] } }
    | none => none

/-- One tick of `writeLoop` when the clock gives the block time `t` (memdb/tiny_log.go:237-241 and 122-128). -/
def LogQ.tick (s : LogQ) (t : Nat) : Option LogQ :=
  if s.wrote ∨ 1 ≤ s.writeQ.length then none
  else some { s with writeQ := s.writeQ ++ [s.cur], cur := ⟨s.next, t⟩, next := s.next + 1, blocks := s.addBlock t [] }

/-- `writeLoop` finds `stop` closed (memdb/tiny_log.go:213-217). -/
def LogQ.lastWrite (s : LogQ) : Option LogQ :=
  if s.stop = false ∨ s.wrote ∨ 1 ≤ s.writeQ.length then none
  else some { s with writeQ := s.writeQ ++ [s.cur], wrote := true }

/-- A batch with these messages, whose block has the unused time `t`, sends its tiny log (memdb/batch.go:39-43, 59-94 and
memdb/tiny_log.go:192-198). It returns from `Write` when the tiny log is among the finished ones. -/
def LogQ.batch (s : LogQ) (t : Nat) (ms : List Bytes) : Option LogQ :=
  if s.wrote ∨ 1 ≤ s.writeQ.length ∨ (AMap.get s.blocks t).isSome then none
  else some { s with writeQ := s.writeQ ++ [⟨s.next, t⟩], next := s.next + 1, blocks := s.addBlock t ms }

/-- A send on the closed `writeQueue` is a panic (memdb/tiny_log.go:197 after 216). -/
def LogQ.batchPanics (s : LogQ) : Bool := s.wrote

/-- One turn of `dispatch` (memdb/tiny_log.go:245-271). -/
def LogQ.dispatch (s : LogQ) : Option LogQ :=
  if s.disp ≠ .ready then none
  else match s.writeQ with
    | x :: rest =>
      if s.logQ.length < logQueueCap then some { s with writeQ := rest, logQ := s.logQ ++ [x] }
      else some { s with writeQ := rest, disp := .asleep }
    | [] => if s.wrote then some { s with disp := .done } else none

/-- The timeout of `dispatch` ends. -/
def LogQ.wake (s : LogQ) : Option LogQ := if s.disp = .asleep then some { s with disp := .ready } else none

/-- memdb/db_internal.go:259-297 `tinyWrite`; `ok = false` is an error of the write-ahead log. -/
def LogQ.tinyWrite (s : LogQ) (x : QLog) (ok : Bool) : LogQ :=
  match AMap.get s.blocks x.block with
  | none => s
  | some b =>
    if ok then { s with wal := s.wal ++ b.data.drop b.last, blocks := AMap.set s.blocks x.block { b with last := b.data.length } } else s

/-- One turn of `commitLoop` (memdb/tiny_log.go:274-301) with `tinyCommit` (memdb/db_internal.go:300-312); an error is printed. -/
def LogQ.commit (s : LogQ) (ok : Bool) : Option LogQ :=
  if s.over then none
  else match s.logQ with
    | x :: rest => some { s.tinyWrite x ok with logQ := rest, finished := s.finished ++ [x.id] }
    | [] => if s.stop ∧ s.disp = .done then some { s with over := true } else none

/-- The steps of a schedule. -/
inductive QStep where
  | put (m : Bytes)
  | batch (t : Nat) (ms : List Bytes)
  | tick (t : Nat)
  | dispatch
  | wake
  | commit (ok : Bool)
  /-- `Close` closes `stop` (memdb/tiny_log.go:176-182). -/
  | stop
  | lastWrite
  deriving DecidableEq, Repr

/-- One step. -/
def LogQ.step (s : LogQ) : QStep → Option LogQ
  | .put m => s.put m
  | .batch t ms => s.batch t ms
  | .tick t => s.tick t
  | .dispatch => s.dispatch
  | .wake => s.wake
  | .commit ok => s.commit ok
  | .stop => some { s with stop := true }
  | .lastWrite => s.lastWrite

/-- A schedule. -/
def LogQ.run (s : LogQ) : List QStep → Option LogQ
  | [] => some s
  | st :: rest => (s.step st).bind fun s' => s'.run rest

end Verif
