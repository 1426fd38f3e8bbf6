/-!
# Statistics of durations

metrics/sample.go and its copy server/internal/pkg/metrics/sample.go. A sample keeps the last `Size` durations in an array that is written round and round. The
statistics of `Varz` (meter.go:159-170, memdb/meter.go:125-136, server/internal/monitor.go:131-142) are those of a snapshot. Durations
are `int64`, here integers, whose sums wrap. The ranks are computed in `float64` by the code and in integers here; for samples of up to 50, which is the
size in use (timeseries.go:59), the two agree. The harmonic mean and the standard deviation are not modelled.
-/

namespace Verif

/-- metrics/sample.go:63-70 -/
structure Sample where
  size : Nat
  times : List Int
  count : Nat := 0
  deriving DecidableEq, Repr

/-- metrics/sample.go:73-78 -/
def Sample.new (size : Nat) : Sample := { size, times := List.replicate size 0 }

/-- metrics/sample.go:130-132; a size of zero makes it divide by zero. -/
def Sample.addTime (s : Sample) (t : Int) : Option Sample :=
  if s.size = 0 then none else some { s with times := s.times.set (s.count % s.size) t, count := s.count + 1 }

/-- metrics/sample.go:81-85 -/
def Sample.reset (s : Sample) : Sample := { s with count := 0 }

/-- `sort.Sort` of the durations. -/
def insertTime (t : Int) : List Int → List Int
  | [] => [t]
  | a :: as => if t ≤ a then t :: a :: as else a :: insertTime t as

def sortTimes (ts : List Int) : List Int := ts.foldr insertTime []

/-- metrics/sample.go:143-158: the durations of a snapshot. -/
def Sample.snapshot (s : Sample) : List Int := sortTimes (s.times.take (min s.count s.size))

/-- The value of a sum of `int64`. -/
def int64 (i : Int) : Int := i.bmod (2 ^ 64)

/-- metrics/sample.go:236-243 -/
def timesTotal (ts : List Int) : Int := ts.foldl (fun total t => int64 (total + t)) 0

/-- metrics/sample.go:255-261: an empty slice makes it divide by zero. -/
def timesAvg (ts : List Int) : Option Int := if ts.length = 0 then none else some ((timesTotal ts).tdiv ts.length)

/-- `int(float64(n)*p+0.5)` for `p` in thousandths. -/
def timesRank (n p : Nat) : Nat := (2 * n * p + 1000) / 2000

/-- metrics/sample.go:263-265 -/
def timesP (p : Nat) (ts : List Int) : Option Int := if timesRank ts.length p = 0 then none else ts[timesRank ts.length p - 1]?

/-- metrics/sample.go:97 and 189 -/
def timesP50 (ts : List Int) : Option Int := ts[ts.length / 2]?

/-- metrics/sample.go:314-320 -/
def timesMin (ts : List Int) : Option Int := ts[0]?

def timesMax (ts : List Int) : Option Int := ts.getLast?

/-- metrics/sample.go:322-324 -/
def timesRange (ts : List Int) : Option Int :=
  (timesMax ts).bind fun a => (timesMin ts).map fun b => int64 (a - b)

/-- metrics/sample.go:280-295 -/
def timesLong5p (ts : List Int) : Option Int :=
  if (ts.drop (timesRank ts.length 950)).length ≤ 1 then timesMax ts else timesAvg (ts.drop (timesRank ts.length 950))

/-- metrics/sample.go:297-312 -/
def timesShort5p (ts : List Int) : Option Int :=
  if (ts.take (timesRank ts.length 50)).length ≤ 1 then timesMin ts else timesAvg (ts.take (timesRank ts.length 50))

/-- What happens to a sample. -/
inductive SampleEv
  | add (t : Int)
  | reset
  deriving DecidableEq, Repr

def Sample.step (s : Sample) : SampleEv → Option Sample
  | .add t => s.addTime t
  | .reset => some s.reset

def Sample.run : Sample → List SampleEv → Option Sample
  | s, [] => some s
  | s, e :: es => (s.step e).bind fun s => s.run es

end Verif
