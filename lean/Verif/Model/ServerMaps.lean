import Verif.Model.MapUse

/-!
# The maps of the server and the locks around them

Every read and write of the Go maps of the server that change while it runs: the connections (conn_cache.go), the message ids of a connection
(message/messageids.go), its subscriptions (message/sub.go), its batches (batch.go) and the nodes it was forwarded to (cluster.go), between the locks
around it. The machine is the one of `Verif.Model.MapUse`. The nodes of the cluster and the routing tables are filled before the server listens and are
left out; so are the maps of the stores (C115) and of the metrics (C99).
-/

namespace Verif

namespace ServerMaps

open MapUse (Ev Gor reading writing)

/-- conn_cache.go:26, message/messageids.go:29, message/sub.go:78, conn.go:42, batch.go:35; all but the first one for each connection. -/
inductive Lock where
  | cache
  | ids (c : Nat)
  | subs (c : Nat)
  | conn (c : Nat)
  | batches (c : Nat)
deriving DecidableEq, Repr

/-- conn_cache.go:27, message/messageids.go:31-32, message/sub.go:79, batch.go:37, conn.go:59. -/
inductive Map where
  | connections
  | resume (c : Nat)
  | index (c : Nat)
  | subs (c : Nat)
  | batches (c : Nat)
  | nodes (c : Nat)
deriving DecidableEq, Repr

abbrev Prog := List (Ev Lock Map)

/-- conn_cache.go:45-53 `get`. -/
def find : Prog := writing .cache [.rd .connections]

/-- message/messageids.go:60-69 `NextID`, when the next id is not one of a resumed session (then it never returns, C50). -/
def nextId (c : Nat) : Prog := writing (.ids c) [.rd (.resume c), .wr (.index c)]

/-- batch.go:93-109 `add`: whether the batch is new, and whether it is full. -/
def batchAdd (c : Nat) (new full : Bool) : Prog :=
  writing (.batches c) ([.rd (.batches c)] ++ (if new then [.wr (.batches c)] else []) ++ if full then [.wr (.batches c)] else [])

/-- batch.go:128-153: a round of the publish loop ranges over the batches, each of them due or not; only what is due is removed under the lock. -/
def batchRound (c : Nat) (due : List Bool) : Prog :=
  due.flatMap fun d => [.rd (.batches c)] ++ if d then writing (.batches c) [.wr (.batches c)] else []

/-- cluster.go:377-387, the note in `routeToContract`. -/
def route (c : Nat) (remote : Bool) : Prog := if remote then [.wr (.nodes c)] else []

inductive Op where
  | join
  | leave
  | find
  | resumeId (c : Nat)
  | freeId (c : Nat)
  | getType (c : Nat)
  | subscribe (c : Nat) (remote : Bool)
  | unsubscribe (c : Nat) (remote : Bool)
  | allSubs (c : Nat)
  | publish (c : Nat) (subs : List (Nat × Option (Bool × Bool))) (remote : Bool)
  | batchRound (c : Nat) (due : List Bool)
  | gone (c : Nat)
deriving DecidableEq, Repr

def Op.prog : Op → Prog
  | .join => writing .cache [.wr .connections] -- conn_cache.go:38-42
  | .leave => writing .cache [.wr .connections] -- conn_cache.go:55-59
  | .find => ServerMaps.find
  | .resumeId c => writing (.ids c) [.wr (.resume c)] -- message/messageids.go:48-52
  | .freeId c => writing (.ids c) [.wr (.index c)] -- message/messageids.go:54-58
  | .getType c => reading (.ids c) [.rd (.index c)] -- message/messageids.go:71-75
  | .subscribe c remote => -- conn.go:180-219, message/sub.go:96-110, 130-138
    writing (.conn c) (writing (.subs c) [.rd (.subs c)] ++ route c remote ++ writing (.subs c) [.rd (.subs c), .wr (.subs c)])
  | .unsubscribe c remote => -- conn.go:222-245, message/sub.go:113-127
    writing (.conn c) (writing (.subs c) [.rd (.subs c), .wr (.subs c)] ++ route c remote)
  | .allSubs c => writing (.subs c) [.rd (.subs c)] -- message/sub.go:141-151
  | .publish c subs remote => -- conn.go:248-312, 126-143, in its own goroutine (hdl_conn.go:467): for each subscriber, with its batch if it has one
    (subs.flatMap fun s => ServerMaps.find ++ nextId c ++ nextId s.1 ++ (s.2.map fun b => batchAdd s.1 b.1 b.2).getD []) ++ route c remote
  | .batchRound c due => ServerMaps.batchRound c due
  | .gone c => [.rd (.nodes c)] -- cluster.go:421-440, by conn.go:415

def gor (ops : List Op) : Gor Lock Map := ⟨[], ops.flatMap Op.prog⟩

end ServerMaps

end Verif
