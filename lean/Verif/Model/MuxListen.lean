/-!
# The listener that shares one port among servers

server/internal/net/listener/listener.go:150-307. The main goroutine accepts connections, one goroutine for each looks which server it is for and puts it
into the channel of that server, and servers take connections from their channels. Steps of these goroutines interleave in any way. What a connection
matches is the subject of C87; here any of the servers, or none.
-/

namespace Verif

namespace Mux

/-- Where the main goroutine is: in the loop of listener.go:227-240, waiting for the others (listener.go:217-218), or behind that with the channels up to
the given one closed and those below it emptied (listener.go:220-226). -/
inductive Phase where
  | accepting
  | closing
  | draining (k : Nat)
deriving DecidableEq, Repr

/-- Connections by number: those being looked at, those waiting for a place in a channel, those in channels in the order they were sent, those taken by
servers and those closed by the listener. The pairs have the server in front. -/
structure State where
  phase : Phase
  next : Nat
  sniffing : List Nat
  waiting : List (Nat × Nat)
  queued : List (Nat × Nat)
  given : List (Nat × Nat)
  closed : List Nat
deriving DecidableEq, Repr

inductive Step where
  | accept
  | tempError
  | permError
  | matched (p c : Nat)
  | unmatched (c : Nat)
  | send (p c : Nat)
  | quit (p c : Nat)
  | closeFirst
  | drain
  | take (p : Nat)
deriving DecidableEq, Repr

inductive Out where
  | blocked
  | panic
  | ok (s : State)
deriving DecidableEq, Repr

/-- listener.go:166-179 `New`. -/
def start : State := ⟨.accepting, 0, [], [], [], [], []⟩

/-- listener.go:172: the places in each channel. -/
def buffSize : Nat := 1024

/-- listener.go:221 has run for server `p`. -/
def State.chanClosed (s : State) (p : Nat) : Bool :=
  match s.phase with
  | .draining k => p ≤ k
  | _ => false

/-- The head of the channel of server `p`. -/
def State.head (s : State) (p : Nat) : Option (Nat × Nat) := s.queued.find? (·.1 == p)

/-- listener.go:213-307 with `n` servers. -/
def step (n : Nat) (e : Step) (s : State) : Out :=
  match e with
  | .accept => -- 228, 237-239
    if s.phase = .accepting then .ok { s with next := s.next + 1, sniffing := s.sniffing ++ [s.next] } else .blocked
  | .tempError => -- 229-234 with an error that goes away
    if s.phase = .accepting then .ok s else .blocked
  | .permError => -- 231, 217
    if s.phase = .accepting then .ok { s with phase := .closing } else .blocked
  | .matched p c => -- 253-255
    if c ∈ s.sniffing ∧ p < n then .ok { s with sniffing := s.sniffing.erase c, waiting := s.waiting ++ [(p, c)] } else .blocked
  | .unmatched c => -- 268-272: the error is a temporary one, so the listener goes on
    if c ∈ s.sniffing then .ok { s with sniffing := s.sniffing.erase c, closed := s.closed ++ [c] } else .blocked
  | .send p c => -- 260
    if (p, c) ∈ s.waiting then
      if s.chanClosed p then .panic
      else if s.queued.countP (·.1 == p) < buffSize then
        .ok { s with waiting := s.waiting.erase (p, c), queued := s.queued ++ [(p, c)] }
      else .blocked
    else .blocked
  | .quit p c => -- 261-262
    if (p, c) ∈ s.waiting ∧ s.phase ≠ .accepting then
      .ok { s with waiting := s.waiting.erase (p, c), closed := s.closed ++ [c] }
    else .blocked
  | .closeFirst => -- 218, 221
    if s.phase = .closing ∧ s.sniffing = [] ∧ s.waiting = [] then .ok { s with phase := .draining 0 } else .blocked
  | .drain => -- 223-225, and 221 for the next
    match s.phase with
    | .draining k =>
      if k < n then
        match s.head k with
        | some x => .ok { s with queued := s.queued.erase x, closed := s.closed ++ [x.2] }
        | none => .ok { s with phase := .draining (k + 1) }
      else .blocked
    | _ => .blocked
  | .take p => -- 301-307
    if p < n then
      match s.head p with
      | some x => .ok { s with queued := s.queued.erase x, given := s.given ++ [x] }
      | none => if s.chanClosed p then .ok s else .blocked
    else .blocked

/-- Whether `Serve` has returned. -/
def State.returned (s : State) (n : Nat) : Prop := ∃ k, s.phase = .draining k ∧ n ≤ k

/-- What can happen, with the state it leads to. -/
inductive Reach (n : Nat) : List Step → State → Prop where
  | start : Reach n [] Mux.start
  | step {tr s e s'} : Reach n tr s → Mux.step n e s = .ok s' → Reach n (tr ++ [e]) s'

end Mux

end Verif
