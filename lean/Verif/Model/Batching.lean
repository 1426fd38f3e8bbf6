import Verif.Base.Bytes

/-!
# Batching of messages to a client

Model of server/internal/batch.go. Messages to be delivered later or in batches are collected per time id; a
batch goes to the publish queue when it grows over a threshold or when its time id has passed.

Two goroutines touch the batch group. `add` does its work under the lock. The publish loop ranges over the
map without the lock and takes it only to push and delete (batch.go:132-137, 145-150), so between reading a
pair and deleting its key other steps can run. Steps of the model are the parts between these points. Batches
are pointers, so a batch is named by its position in a heap. The loop reads the clock once per
pass, so a pair with `t < now` at that time also has it at the time of the read. The channel to the dispatcher is
unbounded here:
a blocked sender holds the lock for longer but does nothing else.
-/

namespace Verif

/-- batch.go:29-33 `batch`. -/
structure PubBatch (α : Type) where
  count : Nat := 0
  size : Nat := 0
  msgs : List α := []
deriving Repr, DecidableEq

/-- batch.go:24-28 `batchOptions`; `epoch` is the distance from Go's zero time to the Unix epoch: `Truncate` counts
from the zero time. -/
structure BatchOpts where
  duration : Int
  countThreshold : Nat
  byteThreshold : Nat
  epoch : Int

/-- batch.go:219-221 `TimeID`, all in nanoseconds since the Unix epoch. `Truncate` with a duration ≤ 0 returns its
input. -/
def BatchOpts.timeID (o : BatchOpts) (now : Int) (delay : Int) : Int :=
  let t := now + (o.duration + delay * 1000000)
  if o.duration ≤ 0 then t else t - (t + o.epoch) % o.duration

/-- State of a batch manager: the heap of batches, the batch group (at most one entry per key), the goroutine
that is inside `add` about to push, the pair the publish loop has read, and what was enqueued, with the time
id of each batch. `added` records all calls of `add` and is not read by any step. -/
structure Batching (α : Type) where
  heap : List (PubBatch α)
  group : List (Int × Nat)
  adding : Option (Int × Nat)
  seen : Option (Int × Nat)
  pushed : List (Int × List α)
  added : List (Int × α)
deriving Repr, DecidableEq

/-- batch.go:55-65 `newBatchManager`: one empty batch is made for the current time id. -/
def Batching.new {α : Type} (t : Int) : Batching α := ⟨[{}], [(t, 0)], none, none, [], []⟩

/-- batch.go:46-53 `newBatch`, and the lookup before it in `add`. -/
def Batching.batchFor {α : Type} (s : Batching α) (t : Int) : Batching α × Nat :=
  match s.group.lookup t with
  | some b => (s, b)
  | none => ({ s with heap := s.heap ++ [{}], group := s.group ++ [(t, s.heap.length)] }, s.heap.length)

/-- batch.go:111-115 `push`: an empty batch is not enqueued. -/
def Batching.push {α : Type} (s : Batching α) (t : Int) (b : Nat) : Batching α :=
  match s.heap[b]? with
  | some p => if p.msgs = [] then s else { s with pushed := s.pushed ++ [(t, p.msgs)] }
  | none => s

/-- Go's `delete(m.batchGroup, timeID)`. -/
def Batching.delete {α : Type} (s : Batching α) (t : Int) : Batching α := { s with group := s.group.filter (·.1 ≠ t) }

/-- batch.go:94-104: the first part of `add`, up to the decision to push. -/
def Batching.addStart {α : Type} (o : BatchOpts) (size : α → Nat) (s : Batching α) (t : Int) (m : α) : Batching α :=
  let (s, b) := s.batchFor t
  let s := { s with
    heap := s.heap.modify b fun p => ⟨p.count + 1, p.size + size m, p.msgs ++ [m]⟩
    added := s.added ++ [(t, m)] }
  match s.heap[b]? with
  | some p => if o.countThreshold < p.count ∨ o.byteThreshold < p.size then { s with adding := some (t, b) } else s
  | none => s

/-- batch.go:104-107: the end of `add`: push and delete, then unlock. -/
def Batching.addEnd {α : Type} (s : Batching α) (t : Int) (b : Nat) : Batching α :=
  { (s.push t b).delete t with adding := none }

/-- Steps of the two goroutines. `now` is the clock read by the step. -/
inductive BatchStep (α : Type) where
  /-- `add` takes the lock (batch.go:94-104) -/
  | add (now delay : Int) (m : α)
  /-- the sender inside `add` proceeds (batch.go:104-107) -/
  | addEnd
  /-- the publish loop reads a pair of the map (batch.go:130-132, 144-146) -/
  | look (now : Int) (t : Int)
  /-- the publish loop takes the lock, pushes and deletes (batch.go:132-137, 145-150) -/
  | flush

/-- One step; a step whose lock is taken, or that the goroutine is not ready for, does nothing. -/
def Batching.step {α : Type} (o : BatchOpts) (size : α → Nat) (s : Batching α) : BatchStep α → Batching α
  | .add now delay m => if s.adding = none then s.addStart o size (o.timeID now delay) m else s
  | .addEnd => match s.adding with | some (t, b) => s.addEnd t b | none => s
  | .look now t =>
    if s.seen = none ∧ t < now then
      match s.group.lookup t with | some b => { s with seen := some (t, b) } | none => s
    else s
  | .flush =>
    match s.seen with
    | some (t, b) => if s.adding = none then { (s.push t b).delete t with seen := none } else s
    | none => s

/-- A schedule. -/
def Batching.run {α : Type} (o : BatchOpts) (size : α → Nat) (s : Batching α) (es : List (BatchStep α)) : Batching α :=
  es.foldl (·.step o size) s

/-- The queues behind the batches (batch.go:39-40): enqueued batches, the `send` channel, what reached the
connection's publish channel, and what was dropped. -/
structure BatchQueues (β : Type) where
  queue : List β := []
  send : List β := []
  published : List β := []
deriving Repr, DecidableEq

/-- batch.go:14 `defaultPoolCapacity`. -/
def poolCapacity : Nat := 27

/-- Steps of the dispatcher and of the publisher. -/
inductive QueueStep where
  /-- batch.go:157-177 `dispatch`, one turn -/
  | dispatch
  /-- batch.go:180-217 `publish`, one turn; the flag says whether the client's channel accepted it within the
  publish timeout -/
  | publish (accepted : Bool)

/-- One turn of the dispatcher or of the publisher. -/
def BatchQueues.step {β : Type} (q : BatchQueues β) : QueueStep → BatchQueues β
  | .dispatch =>
    match q.queue with
    | [] => q
    | b :: rest => if q.send.length < poolCapacity then { q with queue := rest, send := q.send ++ [b] } else { q with queue := rest }
  | .publish accepted =>
    match q.send with
    | [] => q
    | b :: rest => { q with send := rest, published := if accepted then q.published ++ [b] else q.published }

/-- A schedule of the dispatcher and the publisher. -/
def BatchQueues.run {β : Type} (q : BatchQueues β) (es : List QueueStep) : BatchQueues β := es.foldl BatchQueues.step q

end Verif
