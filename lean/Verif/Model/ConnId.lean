import Verif.Model.Query

/-!
# Ids of connections

server/internal/pkg/uid/uid.go and connid.go: a process numbers its connections from a start it takes from the clock. Times are nanoseconds since 1970.
-/

namespace Verif

/-- uid.go:50-53 `TimeNow`: the time rounded to milliseconds, half up, in milliseconds. -/
def roundMs (ns : Int) : Int := (ns + 500000) / 1000000

/-- 2070-01-01 in milliseconds. -/
def year2070 : Int := 3155760000000

/-- `Time.Sub` stops at the ends of what a Duration holds. -/
def clampDur (d : Int) : Int := max (-2 ^ 63) (min (2 ^ 63 - 1) d)

/-- uid.go:30-36: the value of `Next` in a process started at `ns`. The duration is counted in nanoseconds and cut to 32 bits. -/
def firstNext (ns : Int) : UInt32 := toU32 (clampDur ((year2070 - roundMs ns) * 1000000))

/-- connid.go:26-29 `NewLID`: the id and the new value of `Next`. -/
def newLid (next : UInt32) : UInt32 × UInt32 := (next + 1, next + 1)

/-- The ids of the next `n` connections (conn.go:71). -/
def lids : UInt32 → Nat → List UInt32
  | _, 0 => []
  | next, n + 1 => let r := newLid next; r.1 :: lids r.2 n

end Verif
