import Verif.Model.Ring

/-!
# How the nodes of a cluster agree on its ring

server/internal/cluster_leader.go: `failoverInit`, `sendPings` and the loop `run`, and server/internal/cluster.go: `rehash`. The leader pings
the other nodes, drops from its list those that fail too often, and tells the others its list; they rebuild
their ring of names (C55) from it. Names are elements of any linearly ordered type, as in the model of the
ring. Who wins an election is a parameter here (C54); a vote request may come from anybody with any term. A failed call
ends the process that made it: `log.Fatal` of the server's log package is zerolog's, which exits (pkg/log/log.go:45-50).

Simplified: the channel of pings has no limit here, but any ping may be dropped, as `Ping` does when the channel is full
(cluster_leader.go:140-146); counts of failures and terms do not overflow.
-/

namespace Verif

/-- What all nodes share: the hash function of the ring, `clusterHashReplicas` (cluster.go:44), the signature of a ring
(ringhash.go:97-114), and `vote_after` and `node_fail_after` of the configuration (cluster_leader.go:56-65). -/
structure FoSettings (α σ : Type) where
  hash : Nat → α → Nat
  replicas : Nat
  sign : List (RingElem α) → σ
  voteAfter : Nat
  failAfter : Int

/-- cluster_leader.go:67-77 `ClusterPing`. -/
structure FoPing (α σ : Type) where
  leader : α
  term : Nat
  signature : σ
  nodes : List α
  deriving DecidableEq

/-- A node: the names of the others (`c.nodes`) with the failures counted for each (cluster.go:61-82), what
`clusterFailover` keeps (cluster_leader.go:32-54), the ring, and the two variables of `run` (cluster_leader.go:264-267). -/
structure FoNode (α : Type) where
  self : α
  peers : List α
  failCount : α → Nat
  active : List α
  ring : HashRing α
  term : Nat
  leader : Option α
  missed : Nat
  skipped : Bool

variable {α σ : Type} [LinearOrder α]

/-- cluster.go:607-625 `rehash`. A missing list stands for all nodes. -/
def FoNode.rehash (c : FoSettings α σ) (f : FoNode α) (nodes : List α) : FoNode α :=
  { f with ring := (HashRing.new α c.replicas).add c.hash (if nodes = [] then f.peers ++ [f.self] else nodes) }

/-- cluster_leader.go:101-136 `failoverInit`; `visit` is the order in which Go visits the map of nodes. -/
def FoNode.start (c : FoSettings α σ) (self : α) (peers visit : List α) : FoNode α :=
  FoNode.rehash c
    { self := self, peers := peers, failCount := fun _ => 0, active := visit ++ [self], ring := HashRing.new α c.replicas, term := 0,
      leader := none, missed := 0, skipped := false } (visit ++ [self])

/-- cluster_leader.go:166-170, the ping the leader sends. -/
def FoNode.pingOf (c : FoSettings α σ) (f : FoNode α) : FoPing α σ := ⟨f.self, f.term, c.sign f.ring.keys, f.active⟩

/-- cluster_leader.go:161-202 `sendPings`; `ok j` is whether the call to `j` returned without an error, `visit` the order
in which the second loop visits the map of nodes. -/
def FoNode.sendPings (c : FoSettings α σ) (f : FoNode α) (ok : α → Bool) (visit : List α) : FoNode α :=
  let count := fun j => if ok j then 0 else f.failCount j + 1
  let f' := { f with failCount := count }
  if f.peers.any fun j => if ok j then decide ((f.failCount j : Int) ≥ c.failAfter) else decide (((f.failCount j + 1 : Nat) : Int) = c.failAfter) then
    let active := (visit.filter fun j => decide ((count j : Int) < c.failAfter)) ++ [f.self]
    FoNode.rehash c { f' with active := active } active
  else f'

/-- cluster_leader.go:204-207 and 252-256, the beginning and the end of `electLeader`; `won` is whether there were enough votes. -/
def FoNode.elect (f : FoNode α) (won : Bool) : FoNode α :=
  { f with term := f.term + 1, leader := if won then some f.self else none }

/-- cluster_leader.go:276-281, the heartbeat of a node that does not lead. -/
def FoNode.beat (c : FoSettings α σ) (f : FoNode α) (won : Bool) : FoNode α :=
  if f.missed + 1 ≥ c.voteAfter then FoNode.elect { f with missed := 0 } won else { f with missed := f.missed + 1 }

/-- cluster_leader.go:286-290: a ping of an earlier term is ignored. -/
def FoNode.stale (f : FoNode α) (p : FoPing α σ) : Bool := decide (p.term < f.term)

/-- cluster_leader.go:308-313: the ring is rebuilt at the leader's request, the second time the signatures differ. -/
def FoNode.obeys [DecidableEq σ] (c : FoSettings α σ) (f : FoNode α) (p : FoPing α σ) : Bool := decide (p.signature ≠ c.sign f.ring.keys) && f.skipped

/-- cluster_leader.go:292-319, a ping that is not stale. -/
def FoNode.hear [DecidableEq σ] (c : FoSettings α σ) (f : FoNode α) (p : FoPing α σ) : FoNode α :=
  let g := { f with term := p.term, leader := some p.leader, missed := 0 }
  if f.obeys c p then { g.rehash c p.nodes with skipped := false }
  else if p.signature ≠ c.sign f.ring.keys then { g with skipped := true }
  else g

/-- cluster_leader.go:321-333, a request for a vote. -/
def FoNode.vote (f : FoNode α) (term : Nat) : FoNode α :=
  if f.term < term then { f with term := term, leader := none } else f

/-- cluster.go:188-207 `call`: an answer, no connection to the node (an error is returned), or an error over the connection
(`log.Fatal`). -/
inductive FoCall where
  | answered | refused | broke
  deriving DecidableEq

/-- What can be seen from outside: a node starts, stops, calls another with a ping, or accepts a ping, rebuilding its ring at the
sender's request or not (it logs which). -/
inductive FoSeen (α σ : Type) where
  | started (i : α)
  | stopped (i : α)
  | called (i j : α) (p : FoPing α σ) (ok : Bool)
  | heard (i : α) (p : FoPing α σ) (rebuilt : Bool)

/-- The nodes, which of them run, the pings that wait at each, and what has been seen so far, the latest first. -/
structure FoCluster (α σ : Type) where
  up : α → Bool
  node : α → FoNode α
  queue : α → List (FoPing α σ)
  seen : List (FoSeen α σ)

/-- Change the value at one name. -/
def putAt {β : Type} (f : α → β) (i : α) (v : β) : α → β := fun j => if j = i then v else f j

/-- The others, as a node with this name knows them (cluster.go:482-497). -/
def peersOf (names : List α) (i : α) : List α := names.filter (· ≠ i)

/-- All nodes have just started; `visit i` is the order in which `i` visits its map. -/
def FoCluster.initial (c : FoSettings α σ) (names : List α) (visit : α → List α) : FoCluster α σ :=
  { up := fun _ => true, node := fun i => FoNode.start c i (peersOf names i) (visit i), queue := fun _ => [], seen := [] }

/-- What can happen next: a heartbeat of a node (with the fate of the calls it may make, and whether the ping is then waiting at the
other), a node taking up the next ping or a request for its vote, a node stopping by itself or starting anew. -/
inductive FoEvent (α : Type) where
  | tick (i : α) (fate : α → FoCall) (reached : α → Bool) (visit : List α) (won : Bool)
  | hear (i : α)
  | vote (i : α) (term : Nat)
  | stop (i : α)
  | restart (i : α) (visit : List α)

/-- The heartbeat of a leader. If a call breaks, the nodes that come after it in the map are not called: `reached` says which were. -/
def FoCluster.lead (c : FoSettings α σ) (s : FoCluster α σ) (i : α) (fate : α → FoCall) (reached : α → Bool) (visit : List α) : FoCluster α σ :=
  let f := s.node i
  let queue := fun j => if j ∈ f.peers ∧ reached j = true then s.queue j ++ [f.pingOf c] else s.queue j
  if f.peers.any fun j => decide (fate j = .broke) then
    { s with
      up := putAt s.up i false, queue := queue
      seen := .stopped i :: ((f.peers.filter reached).map (fun j => .called i j (f.pingOf c) (decide (fate j = .answered))) ++ s.seen) }
  else
    { s with
      node := putAt s.node i (f.sendPings c (fun j => decide (fate j = .answered)) visit), queue := queue
      seen := f.peers.map (fun j => .called i j (f.pingOf c) (decide (fate j = .answered))) ++ s.seen }

/-- A node takes up the next ping (cluster_leader.go:283-319). -/
def FoCluster.take [DecidableEq σ] (c : FoSettings α σ) (s : FoCluster α σ) (i : α) : FoCluster α σ :=
  match s.queue i with
  | [] => s
  | p :: rest =>
    if (s.node i).stale p then { s with queue := putAt s.queue i rest }
    else
      { s with
        node := putAt s.node i ((s.node i).hear c p), queue := putAt s.queue i rest
        seen := .heard i p ((s.node i).obeys c p) :: s.seen }

/-- cluster_leader.go:260-338 `run`, one turn of the loop of one node. -/
def FoCluster.step [DecidableEq σ] (c : FoSettings α σ) (names : List α) (s : FoCluster α σ) : FoEvent α → FoCluster α σ
  | .tick i fate reached visit won =>
    if s.up i then
      if (s.node i).leader = some (s.node i).self then s.lead c i fate reached visit
      else { s with node := putAt s.node i ((s.node i).beat c won) }
    else s
  | .hear i => if s.up i then s.take c i else s
  | .vote i term => if s.up i then { s with node := putAt s.node i ((s.node i).vote term) } else s
  | .stop i => { s with up := putAt s.up i false, seen := .stopped i :: s.seen }
  | .restart i visit =>
    { up := putAt s.up i true, node := putAt s.node i (FoNode.start c i (peersOf names i) visit), queue := putAt s.queue i []
      seen := .started i :: s.seen }

/-- A run of the cluster. -/
def FoCluster.run [DecidableEq σ] (c : FoSettings α σ) (names : List α) (s : FoCluster α σ) (es : List (FoEvent α)) : FoCluster α σ :=
  es.foldl (FoCluster.step c names) s

/-- cluster.go:353 and 372: the node that a node takes to serve a contract. -/
def FoNode.owner (f : FoNode α) (h : Nat) (key : α) : Option α := f.ring.get h key

end Verif
