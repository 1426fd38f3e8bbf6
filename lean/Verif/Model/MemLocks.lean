/-!
# The locks of the in-memory store

memdb/db.go, memdb/db_internal.go and memdb/batch.go as far as their locks go: which locks each operation takes, in which order, and when it gives them
back. The data are left out. Locks of other packages (the log, the pool of buffers, the meters), the lock of one tiny log (tiny_log.go:35) and those
of the filters of the query manager (only ever read) are taken last and given back before anything else, so they are left out too. The queues of the
log manager are in `Verif.Model.LogQueue`; the one that takes from the queue a rotation waits for holds no locks. Recovery runs before there are other
goroutines (db.go:94-104).
-/

namespace Verif

namespace Locks

/-- memdb/time_lock.go:28, block.go:49 (one for each time block), block.go:36 (one for each of the filters), tiny_log.go:86, db.go:35, time_mark.go:31. -/
inductive Lock where
  | time (i : Nat)
  | block (t : Nat)
  | filter (k : Nat)
  | logs
  | mu
  | mark
deriving DecidableEq, Repr

/-- `RLock`, `Lock`, and the unlocking of either. -/
inductive Act (α : Type) where
  | r (l : α)
  | w (l : α)
  | done (l : α)
deriving DecidableEq, Repr

/-- A goroutine: the locks it holds (with `true` for writing), what it still does, and whether it already waits in a `Lock`. -/
structure Gor (α : Type) where
  held : List (α × Bool)
  todo : List (Act α)
  asked : Bool
deriving DecidableEq, Repr

/-- One step of goroutine `i`; `none` when it has to wait or is finished. sync.RWMutex: a reader waits while somebody writes or waits to write, a writer
waits while somebody reads or writes. Nothing is said about who of those that wait comes first. -/
def step {α : Type} [DecidableEq α] (i : Nat) (s : List (Gor α)) : Option (List (Gor α)) :=
  match s[i]? with
  | none => none
  | some g =>
    match g.todo with
    | [] => none
    | .r l :: p =>
      if (∀ h ∈ s, (l, true) ∉ h.held) ∧ ∀ h ∈ s, ¬(h.asked = true ∧ h.todo.head? = some (.w l)) then
        some (s.set i ⟨(l, false) :: g.held, p, false⟩)
      else none
    | .w l :: p =>
      if g.asked = false then some (s.set i ⟨g.held, g.todo, true⟩)
      else if ∀ h ∈ s, ∀ x ∈ h.held, x.1 ≠ l then some (s.set i ⟨(l, true) :: g.held, p, false⟩)
      else none
    | .done l :: p => some (s.set i ⟨g.held.filter (·.1 ≠ l), p, false⟩)

def run {α : Type} [DecidableEq α] : List Nat → List (Gor α) → Option (List (Gor α))
  | [], s => some s
  | i :: is, s => (step i s).bind (run is)

/-- memdb/db_internal.go:143-151 and others: a read of the map of blocks or of the map of filters. -/
def look : List (Act Lock) := [.r .mu, .done .mu]

/-- A look into a block or a filter, and memdb/tiny_log.go:160-164 for the id of the current block. -/
def peek (l : Lock) : List (Act Lock) := [.r l, .done l]

/-- Operations with the locks they touch: time blocks by their ids, filters and time locks by their numbers. -/
inductive Op where
  | put (t k : Nat) (fresh : Bool)
  | get (k : Nat) (ts : List Nat)
  | lookup (t : Nat)
  | iterate (ts : List Nat)
  | delete (k i : Nat) (ts : List Nat) (t t' : Nat)
  | deleteLast (k i : Nat) (ts : List Nat) (t marks : Nat)
  | tinyWrite (i t : Nat)
  | rotate (t : Nat)
  | batch
  | commit
  | free (t : Nat)
  | keys (ts : List Nat)
deriving DecidableEq, Repr

/-- memdb/db_internal.go:314-338 `releaseLog`. -/
def release (t : Nat) : List (Act Lock) := look ++ [.r (.block t), .w .mu, .w .mark, .done .mark, .done .mu, .done (.block t)]

/-- memdb/db_internal.go:240-256 `move`. -/
def move (t : Nat) : List (Act Lock) := peek .logs ++ look ++ [.w (.block t), .done (.block t)]

/-- memdb/db.go:296-333: the search for the block of a key, newest first; the filter is read for every block without the key. -/
def search (k : Nat) (ts : List Nat) : List (Act Lock) :=
  look ++ peek (.filter k) ++ ts.flatMap fun t => look ++ peek (.block t) ++ peek (.filter k)

/-- The locks of an operation. In `deleteLast` the `marks` are records of other deletes in the block: each is looked up in the map of blocks by its
offset, which is no time of a block, so `move` in db.go:346 does not happen. -/
def Op.prog : Op → List (Act Lock)
  | .put t k fresh => -- memdb/db.go:367-391 `Put`, batch.go:59-80, with db_internal.go:154-174 `addTimeFilter` (`fresh`: the block is new to the filter)
    peek .logs ++ look ++ [.w (.block t)] ++ look ++ [.w (.filter k)] ++ (if fresh then [.w .mu, .done .mu] else []) ++
      [.done (.filter k), .done (.block t)]
  | .get k ts => look ++ search k ts ++ look ++ ts.flatMap fun t => peek (.block t) -- memdb/db.go:179-256, db_internal.go:185-237 `seek`
  | .lookup t => look ++ peek (.block t) -- memdb/db.go:145-176
  | .iterate ts => peek .logs ++ peek .mark ++ ts.flatMap fun t => look ++ peek (.block t) -- memdb/db.go:259-286, recovery.go:188-215
  | .delete k i ts t t' => -- memdb/db.go:291-364 when records are left in the block: 357-359
    search k ts ++ look ++ [.r (.time i), .w (.block t), .done (.block t)] ++ move t' ++ [.done (.time i)]
  | .deleteLast k i ts t marks => -- memdb/db.go:340-355
    search k ts ++ look ++ ([.r (.time i), .w (.block t)] ++ ((List.replicate marks look).flatten ++
      (peek .logs ++ [.done (.block t)] ++ release t ++ [.done (.time i)])))
  | .tinyWrite i t => -- memdb/db_internal.go:259-312 with 105-111
    [.w .mu, .done .mu, .w (.time i)] ++ look ++ peek (.block t) ++ [.w (.block t), .done (.block t), .done (.time i), .w .mark, .done .mark]
  | .rotate t => -- memdb/tiny_log.go:218-239 with 122-128
    peek .logs ++ look ++ peek (.block t) ++ [.w .logs, .w .mu, .done .mu, .w .mark, .done .mark, .done .logs]
  | .batch => [.w .mu, .done .mu] -- memdb/batch.go:39-51
  | .commit => [.w .mark, .done .mark, .w .mark, .done .mark] -- memdb/batch.go:109-112, for one block
  | .free t => release t -- memdb/db.go:421-423, batch.go:120-130
  | .keys ts => [.r .mu] ++ (ts.flatMap fun t => peek (.block t)) ++ [.done .mu] -- memdb/db.go:125-142 `Keys`, 426-438 `Size`

/-- A goroutine that does some operations one after the other. -/
def gor (ops : List Op) : Gor Lock := ⟨[], ops.flatMap Op.prog, false⟩

end Locks

end Verif
