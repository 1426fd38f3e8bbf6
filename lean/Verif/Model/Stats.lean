import Verif.Base.Bytes

/-!
# Statistics sent by UDP

server/internal/pkg/stats: lines are collected in a buffer, cut into packets at the ends of lines, queued and sent by one loop
(`DefaultSendLoopCount`). Buffers are reused only after they were sent, so that they are values here. The texts of numbers are given.
-/

namespace Verif

/-- server/internal/pkg/stats/tags.go:28-37 -/
structure TagStyle where
  first : Bytes
  suffix : Bool
  other : UInt8
  keyValue : UInt8

/-- tags.go:106-111, the style in use. -/
def influxStyle : TagStyle := ⟨[44], false, 44, 61⟩

/-- tags.go:54-61: the name and the text of the value. -/
abbrev StatTag := Bytes × Bytes

def StatTag.append (style : TagStyle) (tag : StatTag) (buf : Bytes) : Bytes := buf ++ tag.1 ++ [style.keyValue] ++ tag.2

/-- tags.go:85-97: one of the two loops, from index `i`. -/
def tagLoop (style : TagStyle) (total : Nat) : Nat → List StatTag → Bytes → Bytes
  | _, [], buf => buf
  | i, tag :: tags, buf =>
    let buf := tag.append style buf
    tagLoop style total (i + 1) tags (if i ≠ total - 1 then buf ++ [style.other] else buf)

/-- tags.go:78-100 -/
def formatTags (style : TagStyle) (defaults tags : List StatTag) (buf : Bytes) : Bytes :=
  if defaults.length + tags.length = 0 then buf
  else tagLoop style (defaults.length + tags.length) defaults.length tags (tagLoop style (defaults.length + tags.length) 0 defaults (buf ++ style.first))

/-- stats.go:249-270 `Incr`, 280-299 `Timing` and 330-349 `SetAdd`, with the text of the value and of its kind. -/
def statLine (style : TagStyle) (pre : Bytes) (defaults : List StatTag) (stat value kind : Bytes) (tags : List StatTag) (buf : Bytes) : Bytes :=
  let buf := buf ++ pre ++ stat
  let buf := if style.suffix then buf else formatTags style defaults tags buf
  let buf := buf ++ [58] ++ value ++ kind
  (if style.suffix then formatTags style defaults tags buf else buf) ++ [10]

/-- stats.go:305-325 `PrecisionTiming`, which the server uses (hdl_conn.go:88). -/
def timingLine (style : TagStyle) (pre : Bytes) (defaults : List StatTag) (stat value : Bytes) (tags : List StatTag) (buf : Bytes) : Bytes :=
  let buf := buf ++ pre
  let buf := if style.suffix then buf else formatTags style defaults tags buf
  let buf := buf ++ [32] ++ stat ++ [style.keyValue] ++ value
  (if style.suffix then formatTags style defaults tags buf else buf) ++ [10]

/-- stats.go:50-66 `transport`, with what was written to the socket. -/
structure Outbox where
  max : Nat
  room : Nat
  buf : Bytes := []
  queue : List Bytes := []
  lost : Nat := 0
  closed : Bool := false
  sent : List Bytes := []
  deriving DecidableEq, Repr

/-- buffers.go:31-55 `flushBuf`; the queue is a channel, and sending on it panics once it is closed. -/
def Outbox.flush (t : Outbox) (length : Nat) : Option Outbox :=
  if t.closed then none
  else if t.queue.length < t.room then some { t with buf := t.buf.drop length, queue := t.queue ++ [t.buf.take length] }
  else some { t with buf := t.buf.drop length, lost := t.lost + 1 }

/-- stats.go:251-267 and the like, with buffers.go:24-28 `checkBuf`: `line` is what is put behind the buffer. -/
def Outbox.add (t : Outbox) (line : Bytes) : Option Outbox :=
  let u := { t with buf := t.buf ++ line }
  if u.buf.length > t.max then u.flush t.buf.length else some u

/-- stats.go:134-148 -/
def Outbox.flushAll (t : Outbox) : Option Outbox := if 0 < t.buf.length then t.flush t.buf.length else some t

/-- What happens: a line is recorded, the interval has passed, the loop takes a packet and writing it works or not, `Unregister`. -/
inductive OutboxEv
  | line (l : Bytes)
  | tick
  | take (works : Bool)
  | close
  deriving DecidableEq, Repr

/-- stats.go:177-201: empty packets are not written; the last byte is cut off. -/
def Outbox.step (t : Outbox) : OutboxEv → Option Outbox
  | .line l => t.add l
  | .tick => if t.closed then some t else t.flushAll
  | .take works =>
    match t.queue with
    | [] => some t
    | p :: q => some { t with queue := q, sent := if works && decide (0 < p.length) then t.sent ++ [p.take (p.length - 1)] else t.sent }
  | .close => if t.closed then some t else t.flushAll.map fun t => { t with closed := true }

def Outbox.run : Outbox → List OutboxEv → Option Outbox
  | t, [] => some t
  | t, e :: es => (t.step e).bind fun t => t.run es

end Verif
