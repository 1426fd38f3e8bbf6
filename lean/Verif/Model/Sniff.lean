import Verif.Model.Patricia

/-!
# Telling protocols apart by the first bytes

server/internal/net/listener/listener.go: a new connection is wrapped so that what a matcher reads is kept; the matchers of the
protocols read one after the other, each from the first byte, and the first that accepts gets the connection, which then yields the
bytes again. A matcher may read in any way: it is a tree of reads. What a connection yields is up to the network: how the
client's bytes are cut into pieces, and when there is an error (a timeout, the end).
-/

namespace Verif

/-- What one read of a connection returns: bytes and perhaps an error, for which a number stands. -/
abbrev RdResult := Bytes × Option Nat

/-- The pieces in which the bytes of a client arrive. -/
abbrev RdSource := List RdResult

/-- The error of a connection with nothing more to come: `io.EOF`. -/
def rdEof : Nat := 0

/-- `Read` of a `net.Conn` into a buffer of `n` bytes: the next piece, or the part of it that fits. -/
def RdSource.read (n : Nat) : RdSource → RdResult × RdSource
  | [] => (([], some rdEof), [])
  | (d, e) :: rest => if d.length ≤ n then ((d, e), rest) else ((d.take n, none), (d.drop n, e) :: rest)

/-- listener.go:337-344 `stream`. `buffer.Cap() ≠ 0` (line 351) only saves the assignment of an empty buffer to an empty one. -/
structure SniffStream where
  source : RdSource
  buffer : Bytes := []
  bufferRead : Nat := 0
  bufferSize : Nat := 0
  sniffing : Bool := false
  lastErr : Option Nat := none
  deriving DecidableEq, Repr

/-- listener.go:347-363 `Read`; writing to a `bytes.Buffer` does not fail. -/
def SniffStream.read (n : Nat) (s : SniffStream) : RdResult × SniffStream :=
  if s.bufferSize > s.bufferRead then
    let d := ((s.buffer.take s.bufferSize).drop s.bufferRead).take n
    ((d, s.lastErr), { s with bufferRead := s.bufferRead + d.length })
  else
    let s := if s.sniffing then s else { s with buffer := [] }
    let r := s.source.read n
    if r.1.1.length > 0 ∧ s.sniffing then
      (r.1, { s with source := r.2, lastErr := r.1.2, buffer := s.buffer ++ r.1.1 })
    else (r.1, { s with source := r.2 })

/-- listener.go:366-370 `reset`. -/
def SniffStream.reset (sniff : Bool) (s : SniffStream) : SniffStream :=
  { s with sniffing := sniff, bufferRead := 0, bufferSize := s.buffer.length }

/-- listener.go:33 `Proto`: a matcher reads and then decides. -/
inductive Matcher where
  | decide (accept : Bool)
  | read (n : Nat) (next : RdResult → Matcher)

/-- What a matcher makes of a wrapped connection. -/
def Matcher.run : Matcher → SniffStream → Bool × SniffStream
  | .decide b, s => (b, s)
  | .read n next, s => (next (s.read n).1).run (s.read n).2

/-- What a matcher makes of a connection it reads itself. -/
def Matcher.on : Matcher → RdSource → Bool
  | .decide b, _ => b
  | .read n next, s => (next (RdSource.read n s).1).on (RdSource.read n s).2

/-- listener.go:248-269 the loops of `serve`: the number of the protocol and the connection it gets. -/
def sniffAll : List Matcher → (i : Nat) → SniffStream → Option (Nat × SniffStream)
  | [], _, _ => none
  | m :: ms, i, s =>
    let r := m.run (s.reset true)
    if r.1 then some (i, r.2.reset false) else sniffAll ms (i + 1) r.2

/-- listener.go:243-273 `serve` without the deadlines; `none`: the connection is closed. -/
def sniffServe (ms : List Matcher) (source : RdSource) : Option (Nat × SniffStream) := sniffAll ms 0 { source := source }

/-- `io.ReadFull` of `n` bytes, then the decision. It takes at most as many reads as bytes, since a read returns a byte or an error. -/
def Matcher.readFull (decide : Bytes → Bool) : (reads : Nat) → (n : Nat) → (got : Bytes) → Matcher
  | 0, _, got => .decide (decide got)
  | reads + 1, n, got =>
    if got.length < n then .read (n - got.length) fun r =>
      match r.2 with
      | none => Matcher.readFull decide reads n (got ++ r.1)
      | some _ => .decide (decide (got ++ r.1))
    else .decide (decide got)

/-- listener.go:36-38 `MatchAny`. -/
def matchAny : Matcher := .decide true

/-- listener.go:41-44 `MatchWS` with patricia.go:54-58 `matchPrefix`. -/
def matchWS (strs : List Bytes) : Matcher :=
  .readFull (newPatriciaTree strs).matchPrefix (newPatriciaTree strs).maxDepth (newPatriciaTree strs).maxDepth []

/-- golang.org/x/net/http2 `ClientPreface`. -/
def http2Preface : Bytes := "PRI * HTTP/2.0\r\n\r\nSM\r\n\r\n".toUTF8.toList

/-- listener.go:55-74 `hasHTTP2Preface`: it stops at the first piece that differs. -/
def matchPreface : (reads : Nat) → (got : Bytes) → Matcher
  | 0, _ => .decide false
  | reads + 1, got => .read (http2Preface.length - got.length) fun r =>
    match r.2 with
    | some _ => .decide false
    | none =>
      let got := got ++ r.1
      let eq := got = http2Preface.take got.length
      if got.length = http2Preface.length then .decide eq
      else if ¬ eq then .decide false
      else matchPreface reads got

/-- Reads of the given sizes, one after the other. -/
def SniffStream.reads : List Nat → SniffStream → List RdResult
  | [], _ => []
  | n :: ns, s => (s.read n).1 :: (s.read n).2.reads ns

@[inherit_doc SniffStream.reads] def RdSource.reads : List Nat → RdSource → List RdResult
  | [], _ => []
  | n :: ns, s => (RdSource.read n s).1 :: RdSource.reads ns (RdSource.read n s).2

end Verif
