/-!
# The end of a connection

server/internal/conn.go:389-465, hdl_conn.go:44-77 and 273-310: the goroutines of one connection and those of publishers that send to it, between their
synchronisation points, interleaved in any way.
-/

namespace Verif

namespace Tear

/-- Where `readLoop` is: at its select (hdl_conn.go:59), at `lp.Read` or in a handler (70-75), at `c.send <- …` in a handler, or gone. -/
inductive Reader where
  | idle
  | reading
  | sending
  | ended
deriving DecidableEq, Repr

/-- `body` is how far the one call of `close` that won has come: 0 nobody has, 1 the flag is set (conn.go:395), 2 `closeC` is closed and it waits
(400-401), 3 the subscriptions are deleted and the connection is out of the cache (405-413), 4 `c.send` is closed (416), 5 all is done: the queue of the batches is closed (418) and so is
the socket. `callers` are goroutines before the check of conn.go:430 or 443, `entering` those past it and before conn.go:395, `holders` are publishers that
found the connection in the cache and have not sent yet (conn.go:267-286). `buf` is what is in `c.send`. -/
structure State where
  reader : Reader
  writer : Bool
  buf : Nat
  body : Nat
  callers : Nat
  entering : Nat
  holders : Nat
deriving DecidableEq, Repr

inductive Step where
  | loop
  | quiet
  | request
  | bye
  | readErr
  | answer
  | write
  | writeErr
  | writerStop
  | find
  | notify
  | batch
  | check
  | cas
  | signal
  | waited
  | closeSend
  | finish
deriving DecidableEq, Repr

inductive Out where
  | blocked
  | panic
  | ok (s : State)
deriving DecidableEq, Repr

/-- service.go:163-168 `onAcceptConn`, conn.go:70-92 `newConn`. -/
def start : State := ⟨.idle, true, 0, 0, 0, 0, 0⟩

/-- conn.go:75: the places in `c.send`. -/
def sendSize : Nat := 1

/-- A send on `c.send` (`k` is what the sender does next). -/
def State.put (s : State) (k : State) : Out :=
  if 4 ≤ s.body then .panic else if s.buf < sendSize then .ok { k with buf := s.buf + 1 } else .blocked

def step (e : Step) (s : State) : Out :=
  match e with
  | .loop => -- hdl_conn.go:59-65: the default is taken only when `closeC` is open
    if s.reader = .idle then .ok { s with reader := if 2 ≤ s.body then .ended else .reading } else .blocked
  | .quiet => -- a packet without an answer
    if s.reader = .reading then .ok { s with reader := .idle } else .blocked
  | .request => -- a packet with an answer: hdl_conn.go:116, 180, 203, 225, 233, 256, 265, 485
    if s.reader = .reading then .ok { s with reader := .sending } else .blocked
  | .bye => -- hdl_conn.go:158
    if s.reader = .reading then .ok { s with reader := .idle, callers := s.callers + 1 } else .blocked
  | .readErr => -- hdl_conn.go:71-77, 48-54: the stream fails, the deadline passes or the handler reports an error
    if s.reader = .reading then .ok { s with reader := .ended, callers := s.callers + 1 } else .blocked
  | .answer => if s.reader = .sending then s.put { s with reader := .idle } else .blocked
  | .write => -- hdl_conn.go:299-308
    if s.writer ∧ 0 < s.buf then .ok { s with buf := s.buf - 1 } else .blocked
  | .writeErr => -- hdl_conn.go:304-306, 276-281
    if s.writer ∧ 0 < s.buf then .ok { s with buf := s.buf - 1, writer := false, callers := s.callers + 1 } else .blocked
  | .writerStop => -- hdl_conn.go:287-288
    if s.writer ∧ 2 ≤ s.body then .ok { s with writer := false } else .blocked
  | .find => -- conn.go:267
    if s.body ≤ 2 then .ok { s with holders := s.holders + 1 } else .blocked
  | .notify => -- conn.go:286
    if 0 < s.holders then s.put { s with holders := s.holders - 1 } else .blocked
  | .batch => -- conn.go:138-141, batch.go:92-111: the message fills its batch, which goes to the queue
    if 0 < s.holders then if 5 ≤ s.body then .panic else .ok { s with holders := s.holders - 1 } else .blocked
  | .check => -- conn.go:430-433, 443-446
    if 0 < s.callers then
      .ok { s with callers := s.callers - 1, entering := if s.body = 0 then s.entering + 1 else s.entering }
    else .blocked
  | .cas => -- conn.go:395-397, 450-452
    if 0 < s.entering then .ok { s with entering := s.entering - 1, body := if s.body = 0 then 1 else s.body } else .blocked
  | .signal => if s.body = 1 then .ok { s with body := 2 } else .blocked
  | .waited => if s.body = 2 ∧ s.reader = .ended ∧ s.writer = false then .ok { s with body := 3 } else .blocked
  | .closeSend => if s.body = 3 then .ok { s with body := 4 } else .blocked
  | .finish => if s.body = 4 then .ok { s with body := 5 } else .blocked

def run : List Step → State → Out
  | [], s => .ok s
  | e :: es, s => match step e s with
    | .ok s' => run es s'
    | o => o

end Tear

end Verif
