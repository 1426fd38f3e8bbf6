import Verif.Base.Bytes

/-!
# The connection to another node of the cluster

server/internal/cluster.go:136-186 `reconnect` and 209-250 `callAsync`, as steps between their synchronisation points, interleaved in every
order. Connections are numbered in the order they are made.
-/

namespace Verif

/-- cluster.go:60-82 `ClusterNode`, with the goroutines at each point of `reconnect` and of calls. -/
structure Link where
  connected : Bool
  reconnecting : Bool
  endpoint : Option Nat
  /-- Connections made so far. -/
  made : Nat
  /-- A value waits in `done` (its buffer holds one). -/
  quit : Bool
  /-- `reconnect` has returned because of `done`. -/
  stopped : Bool
  /-- Goroutines that were started with `go n.reconnect()` and have not taken the lock. -/
  waiting : Nat
  /-- In the loop, about to dial. -/
  dialing : Nat
  /-- Has dialled, about to take the lock. -/
  dialed : Nat
  /-- In the `select`. -/
  asleep : Nat
  /-- Callers that found the node connected and have not read the endpoint. -/
  checked : Nat
  /-- Calls under way, by the connection they use. -/
  calls : List Nat
  /-- Calls that failed and have not taken the lock. -/
  failed : List Nat
  /-- Connections closed after a failure: the one the call had used, the one that was closed. -/
  closed : List (Nat × Nat)
  /-- A call on a nil endpoint: the process ends. -/
  panicked : Bool
  deriving DecidableEq, Repr

/-- cluster.go:490-494 and 568-570: a node after `Start`. -/
def Link.start : Link :=
  ⟨false, false, none, 0, false, false, 1, 0, 0, 0, 0, [], [], [], false⟩

/-- What can happen next. -/
inductive LinkOp
  | enter
  | dialOk
  | dialFail
  | publish
  | tick
  | shutdown
  | stop
  | check
  | use
  | answered (c : Nat)
  | fails (c : Nat)
  | close (c : Nat)
  deriving DecidableEq, Repr

/-- One step (`none`: nothing is there to take it). -/
def Link.step (s : Link) : LinkOp → Option Link
  -- cluster.go:139-147
  | .enter =>
    if s.waiting = 0 then none
    else if s.reconnecting then some { s with waiting := s.waiting - 1 }
    else some { s with waiting := s.waiting - 1, reconnecting := true, dialing := s.dialing + 1 }
  -- cluster.go:153, `rpc.Dial` without an error
  | .dialOk =>
    if s.dialing = 0 then none
    else some { s with dialing := s.dialing - 1, dialed := s.dialed + 1, endpoint := some s.made, made := s.made + 1 }
  -- cluster.go:153 with an error: the endpoint is nil; 163-167
  | .dialFail =>
    if s.dialing = 0 then none
    else some { s with dialing := s.dialing - 1, asleep := s.asleep + 1, endpoint := none }
  -- cluster.go:157-162
  | .publish =>
    if s.dialed = 0 then none
    else some { s with dialed := s.dialed - 1, connected := true, reconnecting := false }
  -- cluster.go:169
  | .tick => if s.asleep = 0 then none else some { s with asleep := s.asleep - 1, dialing := s.dialing + 1 }
  -- cluster.go:598-600
  | .shutdown => if s.quit then none else some { s with quit := true }
  -- cluster.go:171-184; the endpoint is nil after the error
  | .stop =>
    if s.asleep = 0 ∨ s.quit = false then none
    else some { s with asleep := s.asleep - 1, quit := false, connected := false, reconnecting := false, stopped := true }
  -- cluster.go:214-226
  | .check => if s.connected then some { s with checked := s.checked + 1 } else some s
  -- cluster.go:246
  | .use =>
    if s.checked = 0 then none
    else
      match s.endpoint with
      | none => some { s with checked := s.checked - 1, panicked := true }
      | some e => some { s with checked := s.checked - 1, calls := e :: s.calls }
  -- cluster.go:230-244 without an error
  | .answered c => if c ∈ s.calls then some { s with calls := s.calls.erase c } else none
  -- cluster.go:230-231 with an error
  | .fails c => if c ∈ s.calls then some { s with calls := s.calls.erase c, failed := c :: s.failed } else none
  -- cluster.go:232-238
  | .close c =>
    if c ∈ s.failed then
      if s.connected then
        some { s with
          failed := s.failed.erase c
          closed := (s.endpoint.map fun e => (c, e)).toList ++ s.closed
          connected := false
          waiting := s.waiting + 1 }
      else some { s with failed := s.failed.erase c }
    else none

/-- Steps one after the other; those that nothing can take are skipped. -/
def Link.run (s : Link) (ops : List LinkOp) : Link := ops.foldl (fun s o => (s.step o).getD s) s

end Verif
