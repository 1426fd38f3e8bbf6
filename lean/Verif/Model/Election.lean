import Verif.Base.Bytes

/-!
# Leader election

server/internal/cluster_leader.go: `electLeader`, and the ping and vote branches of `run`. The cluster has `n` nodes
that know each other. A schedule is a list of events; messages may be delayed, reordered or lost. Each node
handles one thing at a time: while `electLeader` waits for answers, the node's `run` loop does not serve votes or
pings. Nodes do not restart (see C67 for what happens when they do).
-/

namespace Verif

/-- cluster_leader.go:77-83 `ClusterVoteRequest`, with the node it is sent to. -/
structure VoteReq (n : Nat) where
  cand : Fin n
  term : Nat
  voter : Fin n
  deriving DecidableEq, Repr

/-- cluster_leader.go:85-91 `ClusterVoteResponse`, with the election whose channel it is sent on. -/
structure VoteResp (n : Nat) where
  cand : Fin n
  election : Nat
  voter : Fin n
  result : Bool
  term : Nat
  deriving DecidableEq, Repr

/-- cluster_leader.go:65-75 `ClusterPing`, with the node it is sent to. -/
structure LeaderPing (n : Nat) where
  dest : Fin n
  leader : Fin n
  term : Nat
  deriving DecidableEq, Repr

/-- The cluster: per node the term, the leader and the running election (its term and the nodes whose
favourable answers were counted), and the messages in flight. `won` records who won which term, `granted` who
voted for whom (voter, term, candidate); both are only for stating properties. -/
structure Elections (n : Nat) where
  term : Fin n → Nat
  leader : Fin n → Option (Fin n)
  running : Fin n → Option (Nat × List (Fin n))
  reqs : List (VoteReq n)
  resps : List (VoteResp n)
  pings : List (LeaderPing n)
  won : List (Nat × Fin n)
  granted : List (Fin n × Nat × Fin n)

/-- Change one node's entry. -/
def setAt {n : Nat} {β : Type} (f : Fin n → β) (i : Fin n) (v : β) : Fin n → β := fun j => if j = i then v else f j

variable {n : Nat}

/-- All nodes at term 0 without a leader. -/
def Elections.initial (n : Nat) : Elections n := ⟨fun _ => 0, fun _ => none, fun _ => none, [], [], [], [], []⟩

/-- cluster_leader.go:212 `expectVotes`, with `len(c.nodes) = n - 1`. -/
def expectVotes (n : Nat) : Nat := ((n - 1) + 1) / 2 + 1

/-- cluster_leader.go:226-256: end the election when enough votes have been counted (one is the node's own). -/
def Elections.check (s : Elections n) (i : Fin n) : Elections n :=
  match s.running i with
  | none => s
  | some (t, votes) =>
    if 1 + votes.length ≥ expectVotes n then
      { s with leader := setAt s.leader i (some i), running := setAt s.running i none, won := (t, i) :: s.won }
    else s

/-- cluster_leader.go:204-224, the beginning of `electLeader`. -/
def Elections.start (s : Elections n) (i : Fin n) : Elections n :=
  let t := s.term i + 1
  Elections.check
    { s with
      term := setAt s.term i t
      leader := setAt s.leader i none
      running := setAt s.running i (some (t, []))
      reqs := s.reqs ++ ((List.finRange n).filter (· ≠ i)).map fun j => ⟨i, t, j⟩
      granted := (i, t, i) :: s.granted } i

/-- cluster_leader.go:323-336, a vote request is served. -/
def Elections.vote (s : Elections n) (r : VoteReq n) : Elections n :=
  if s.term r.voter < r.term then
    { s with
      term := setAt s.term r.voter r.term
      leader := setAt s.leader r.voter none
      resps := s.resps ++ [⟨r.cand, r.term, r.voter, true, r.term⟩]
      granted := (r.voter, r.term, r.cand) :: s.granted }
  else
    { s with resps := s.resps ++ [⟨r.cand, r.term, r.voter, false, s.term r.voter⟩] }

/-- cluster_leader.go:232-243, an answer reaches the candidate. An answer to an election that has ended goes to
a channel nobody reads. -/
def Elections.answer (s : Elections n) (r : VoteResp n) : Elections n :=
  match s.running r.cand with
  | none => s
  | some (t, votes) =>
    if t ≠ r.election then s
    else if r.result then Elections.check { s with running := setAt s.running r.cand (some (t, r.voter :: votes)) } r.cand
    else if s.term r.cand < r.term then { s with running := setAt s.running r.cand none }
    else s

/-- cluster_leader.go:289-307, a ping is handled. -/
def Elections.ping (s : Elections n) (p : LeaderPing n) : Elections n :=
  if p.term < s.term p.dest then s
  else if p.term > s.term p.dest then
    { s with term := setAt s.term p.dest p.term, leader := setAt s.leader p.dest (some p.leader) }
  else { s with leader := setAt s.leader p.dest (some p.leader) }

/-- What can happen next; the indices select a message in flight. -/
inductive ElectEvent (n : Nat) where
  | start (i : Fin n)        -- the node missed its pings
  | timeout (i : Fin n)      -- the election timer fires, or all nodes have answered
  | vote (k : Nat)           -- a request reaches its voter
  | answer (k : Nat)         -- an answer reaches its candidate
  | sendPings (i : Fin n)    -- the leader's ticker
  | ping (k : Nat)           -- a ping reaches its follower
  | loseReq (k : Nat)
  | loseResp (k : Nat)
  | losePing (k : Nat)

/-- One event; an event that is not possible changes nothing. -/
def Elections.step (s : Elections n) : ElectEvent n → Elections n
  | .start i => if s.running i = none ∧ s.leader i ≠ some i then s.start i else s
  | .timeout i => { s with running := setAt s.running i none }
  | .vote k =>
    match s.reqs[k]? with
    | none => s
    | some r => if s.running r.voter = none then Elections.vote { s with reqs := s.reqs.eraseIdx k } r else s
  | .answer k =>
    match s.resps[k]? with
    | none => s
    | some r => Elections.answer { s with resps := s.resps.eraseIdx k } r
  | .sendPings i =>
    if s.running i = none ∧ s.leader i = some i then
      { s with pings := s.pings ++ ((List.finRange n).filter (· ≠ i)).map fun j => ⟨j, i, s.term i⟩ }
    else s
  | .ping k =>
    match s.pings[k]? with
    | none => s
    | some p => if s.running p.dest = none then Elections.ping { s with pings := s.pings.eraseIdx k } p else s
  | .loseReq k => { s with reqs := s.reqs.eraseIdx k }
  | .loseResp k => { s with resps := s.resps.eraseIdx k }
  | .losePing k => { s with pings := s.pings.eraseIdx k }

/-- A schedule. -/
def Elections.run (s : Elections n) : List (ElectEvent n) → Elections n
  | [] => s
  | e :: es => (s.step e).run es

/-! ## The invariant -/

/-- The nodes whose favourable answer to `c`'s election of term `t` is in flight or counted. -/
def Elections.support (s : Elections n) (c : Fin n) (t : Nat) : List (Fin n) :=
  ((s.resps.filter fun r => r.result && (r.cand == c) && (r.election == t)).map (·.voter)) ++
    (match s.running c with
     | some (t', votes) => if t' = t then votes else []
     | none => [])

/-- The invariant of every schedule. -/
structure Elections.Inv (s : Elections n) : Prop where
  /-- A node has voted only in terms it has reached … -/
  bounded : ∀ v t c, (v, t, c) ∈ s.granted → t ≤ s.term v
  /-- … and once per term. -/
  once : ∀ v t c c', (v, t, c) ∈ s.granted → (v, t, c') ∈ s.granted → c = c'
  /-- Support consists of distinct nodes other than the candidate that voted for it. -/
  nodup : ∀ c t, (s.support c t).Nodup
  voted : ∀ c t v, v ∈ s.support c t → (v, t, c) ∈ s.granted ∧ v ≠ c
  /-- A candidate has voted for itself. -/
  self : ∀ c t votes, s.running c = some (t, votes) → (c, t, c) ∈ s.granted ∧ s.term c = t
  /-- A winner has a majority. -/
  majority : ∀ t c, (t, c) ∈ s.won → ∃ vs : List (Fin n), vs.Nodup ∧ expectVotes n ≤ vs.length ∧ ∀ v ∈ vs, (v, t, c) ∈ s.granted
  /-- A node's leader has won the node's term. -/
  leads : ∀ v c, s.leader v = some c → (s.term v, c) ∈ s.won
  /-- Pings come from winners. -/
  pinged : ∀ p ∈ s.pings, (p.term, p.leader) ∈ s.won

end Verif
